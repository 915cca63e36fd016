import Verif.Simple.DeclEdit
/-!
# Grouping declarations: the loops that edit

Every loop of `simple_decl_leave` in terms of `arr`.
-/
namespace Knfmt.SimpleDecl

open Knfmt.Lexer (TT)
open Knfmt.Stream (Node Fix)
open Knfmt.Stmt (node pos next prev isMoveable removeId)
open Knfmt.Forward (from_ moveId moveSpaces)

/-- `V` is a part of `L0`, from the token `b` to the token `f`. -/
def Seg (L0 : List Core) (b f : Nat) (V : List Core) : Prop :=
  (∃ U W, L0 = U ++ V ++ W) ∧ V.head?.map (·.id) = some b ∧ V.getLast?.map (·.id) = some f

/-- Where `after` is: the last token of a block behind the token `a`. -/
def Last (a : Core) (P : List Core) (after : Nat) : Prop := (a :: P).getLast?.map (·.id) = some after

theorem last_split {a : Core} {P : List Core} {after : Nat} (h : Last a P after) :
    ∃ Q l, a :: P = Q ++ [l] ∧ l.id = after := by
  unfold Last at h
  obtain ⟨l, hl, he⟩ := Option.map_eq_some_iff.mp h
  obtain ⟨Q, hq⟩ := List.getLast?_eq_some_iff.mp hl
  exact ⟨Q, l, hq, he⟩

theorem last_append (a : Core) (P Q : List Core) (x : Core) : Last a (P ++ Q ++ [x]) x.id := by
  unfold Last
  rw [← List.cons_append, List.getLast?_concat]
  rfl

section

variable {L0 : List Core} (hd0 : (ids L0).Nodup) {R : List Nat} {G : List (Nat × List Core)}
include hd0

/-- Something is put at the end of the block. -/
theorem put_after {a : Core} {P : List Core} {after : Nat} (ha : a ∈ L0) (haR : a.id ∉ R) (hl : Last a P after) :
    ∃ X l Y, l.id = after ∧ arr R ((a.id, P) :: G) L0 = X ++ l :: Y ∧
      ∀ N, arr R ((a.id, P ++ N) :: G) L0 = X ++ l :: (N ++ Y) := by
  obtain ⟨L1, L2, rfl⟩ := List.append_of_mem ha
  obtain ⟨Q, l, hq, he⟩ := last_split hl
  refine ⟨arr R G L1 ++ Q, l, news G a.id ++ arr R G L2, he, ?_, ?_⟩
  · rw [arr_anchor hd0 haR, hq]; simp
  · intro N
    rw [arr_anchor hd0 haR, ← List.cons_append, hq]; simp

/-- One token is moved to the end of the block. -/
theorem move_step {e : Ed} {a x : Core} {P : List Core} {after : Nat} (h : Is e (arr R ((a.id, P) :: G) L0)) (ha : a ∈ L0)
    (haR : a.id ∉ R) (hl : Last a P after) (hx : x ∈ L0) (hxR : x.id ∉ R) (hxa : a.id ≠ x.id) :
    ∃ ts', moveId e.ts after x.id = some ts' ∧
      Is { e with ts := ts' } (arr (x.id :: R) ((a.id, P ++ [x]) :: G) L0) := by
  obtain ⟨X, l, Y, rfl, h1, h2⟩ := put_after hd0 (R := x.id :: R) (G := G) ha (by simp [haR, hxa]) hl
  obtain ⟨hf, hm⟩ := arr_gone_filter hd0 hx hxR h.nodup
  rw [h1] at hf
  obtain ⟨ts', h3, h4⟩ := move_core h.eq h.nodup hm hf
  have h5 : X ++ l :: x :: Y = arr (x.id :: R) ((a.id, P ++ [x]) :: G) L0 := by rw [h2]; rfl
  rw [h5] at h4
  refine ⟨ts', h3, h4, ?_, ?_⟩
  · -- the same addresses in another order
    rw [← h5]
    have hp : (x :: (X ++ l :: Y)).Perm (arr R ((a.id, P) :: G) L0) := by
      rw [← hf]
      obtain ⟨A, B, e1⟩ := List.append_of_mem hm
      have hn := h.nodup
      rw [e1] at hn ⊢
      rw [ids, List.map_append, List.map_cons, List.nodup_append, List.nodup_cons] at hn
      rw [List.filter_append, List.filter_cons_of_neg (by simp), List.filter_eq_self.mpr, List.filter_eq_self.mpr]
      · exact List.perm_middle.symm
      · intro c hc
        have : c.id ≠ x.id := by
          intro e
          have h := List.mem_map_of_mem (f := fun c : Core => c.id) hc
          rw [e] at h
          exact hn.2.1.1 h
        simpa using this
      · intro c hc
        have : c.id ≠ x.id := hn.2.2 _ (List.mem_map_of_mem hc) x.id (by simp)
        simpa using this
    have hp2 : (X ++ l :: x :: Y).Perm (arr R ((a.id, P) :: G) L0) := by
      refine List.Perm.trans ?_ hp
      have : X ++ l :: x :: Y = (X ++ [l]) ++ x :: Y := by simp
      rw [this]
      have e2 : X ++ l :: Y = (X ++ [l]) ++ Y := by simp
      rw [e2]
      exact List.perm_middle
    exact (hp2.map _).nodup_iff.mpr h.nodup
  · intro c hc
    rw [← h5] at hc
    have : c = x ∨ c ∈ X ++ l :: Y := by
      simp only [List.mem_append, List.mem_cons] at hc ⊢
      grind
    rcases this with rfl | hc
    · exact h.lt c hm
    · rw [← hf] at hc
      exact h.lt c (List.mem_filter.mp hc).1

omit hd0 in
/-- `next` in a part that is as it was. -/
theorem next_seg {e : Ed} {U W : List Core} {x y : Core} (h : Is e (arr R G L0)) (hL : L0 = U ++ x :: y :: W)
    (hx : x.id ∉ R ∧ x.id ∉ G.map (·.1)) (hy : y.id ∉ R) : ∃ t, next e.ts x.id = some t ∧ t.id = y.id := by
  have e1 : arr R G L0 = arr R G U ++ x :: y :: (news G y.id ++ arr R G W) := by
    have h1 : arr R G [x] = [x] := arr_same (by simpa using hx)
    have h2 : U ++ x :: y :: W = U ++ ([x] ++ y :: W) := rfl
    rw [hL, h2, arr_append, arr_append, h1, arr_cons, if_neg hy]
    simp
  have hn := h.nodup
  have he := h.eq
  rw [e1] at hn he
  obtain ⟨t, h1, h2⟩ := next_core he hn
  exact ⟨t, h1, by rw [← h2]; rfl⟩

/-- A declarator is moved. -/
theorem moveRange_ok {a : Core} (ha : a ∈ L0) : ∀ (V : List Core) (fuel : Nat) (e : Ed) (R : List Nat) (P : List Core)
    (after b f : Nat), Is e (arr R ((a.id, P) :: G) L0) → a.id ∉ R → Last a P after → Seg L0 b f V →
    (∀ c ∈ V, c.id ∉ R ∧ c.id ≠ a.id ∧ c.id ∉ G.map (·.1)) → V.length ≤ fuel →
    ∃ ts', moveRange f fuel e.ts after b = some (ts', f) ∧
      Is { e with ts := ts' } (arr (ids V ++ R) ((a.id, P ++ V) :: G) L0) ∧ Last a (P ++ V) f := by
  intro V
  induction V with
  | nil => rintro fuel e R P after b f - - - ⟨-, h, -⟩; simp at h
  | cons x V ih =>
    rintro fuel e R P after b f h haR hl ⟨⟨U, W, hL⟩, hb, hf⟩ hV hfuel
    have hb' : x.id = b := by simpa using hb
    subst hb'
    have hxm : x ∈ L0 := by rw [hL]; simp
    obtain ⟨hxR, hxa, hxG⟩ := hV x List.mem_cons_self
    cases fuel with
    | zero => simp at hfuel
    | succ fuel =>
      obtain ⟨ts', h1, h2⟩ := move_step hd0 h ha haR hl hxm hxR (Ne.symm hxa)
      unfold moveRange
      simp only [h1]
      cases V with
      | nil =>
        have hf' : x.id = f := by simpa using hf
        subst hf'
        rw [if_pos rfl]
        exact ⟨ts', rfl, h2, by simpa using last_append a P [] x⟩
      | cons y V =>
        have hne : x.id ≠ f := by
          intro e
          rw [List.getLast?_cons_cons] at hf
          obtain ⟨l, hl1, hl2⟩ := Option.map_eq_some_iff.mp hf
          have hm : l ∈ y :: V := List.mem_of_getLast? hl1
          rw [hL] at hd0
          rw [ids, List.map_append, List.map_append, List.map_cons, List.nodup_append, List.nodup_append,
            List.nodup_cons] at hd0
          exact hd0.1.2.1.1 (by rw [e, ← hl2]; exact List.mem_map_of_mem hm)
        rw [if_neg hne]
        obtain ⟨hyR, -, -⟩ := hV y (by simp)
        obtain ⟨t, ht1, ht2⟩ := next_seg h (U := U) (W := V ++ W) (by simpa using hL)
          ⟨hxR, by simp [hxG, hxa]⟩ hyR
        rw [ht1]
        dsimp only
        rw [ht2]
        have hxy : ∀ c ∈ y :: V, c.id ≠ x.id := by
          intro c hc e
          rw [hL] at hd0
          rw [ids, List.map_append, List.map_append, List.map_cons, List.nodup_append, List.nodup_append,
            List.nodup_cons] at hd0
          exact hd0.1.2.1.1 (by rw [← e]; exact List.mem_map_of_mem hc)
        obtain ⟨ts2, h3, h4, h5⟩ := ih fuel { e with ts := ts' } (x.id :: R) (P ++ [x]) x.id y.id f h2
          (by simp [haR, Ne.symm hxa]) (by simpa using last_append a P [] x)
          ⟨⟨U ++ [x], W, by simpa using hL⟩, rfl, by rw [← hf, List.getLast?_cons_cons]⟩
          (by
            intro c hc
            obtain ⟨k1, k2, k3⟩ := hV c (List.mem_cons_of_mem _ hc)
            exact ⟨by simp [k1, hxy c hc], k2, k3⟩)
          (by simpa using hfuel)
        refine ⟨ts2, h3, ?_, by simpa using h5⟩
        have e3 : P ++ [x] ++ y :: V = P ++ x :: y :: V := by simp
        rw [e3] at h4
        rw [arr_congr (R := ids (x :: y :: V) ++ R) (R' := ids (y :: V) ++ x.id :: R)]
        · exact h4
        · intro c _
          simp only [List.map_cons, List.cons_append, List.mem_cons, List.mem_append]
          grind

/-- A comma is removed. -/
theorem remove_step {e : Ed} {x z : Core} (h : Is e (arr R G L0)) (hx : x ∈ L0) (hxR : x.id ∉ R) (he : x.type ≠ .eof)
    (hf : x.fixed = []) (hz : L0.getLast? = some z) (hzR : z.id ∉ R) (hzx : z.id ≠ x.id) :
    ∃ ts' st, removeId e.ts none x.id = some (ts', st) ∧ Is { e with ts := ts' } (arr (x.id :: R) G L0) := by
  obtain ⟨U, W, rfl⟩ := List.append_of_mem hx
  have hW : ∃ W', W = W' ++ [z] := by
    rcases List.eq_nil_or_concat W with rfl | ⟨W', z', rfl⟩
    · simp at hz; exact absurd (by rw [hz]) hzx
    · refine ⟨W', ?_⟩
      rw [List.concat_eq_append] at hz ⊢
      have : (U ++ x :: (W' ++ [z'])) = (U ++ x :: W') ++ [z'] := by simp
      rw [this, List.getLast?_concat] at hz
      injection hz with hz
      rw [hz]
  obtain ⟨W', rfl⟩ := hW
  have hne : news G x.id ++ arr R G (W' ++ [z]) ≠ [] := by
    rw [arr_append, arr_cons, if_neg hzR]
    simp
  obtain ⟨y, Y, hy⟩ := List.exists_cons_of_ne_nil hne
  have h1 := arr_mid (G := G) (U := U) (W := W' ++ [z]) hxR
  have h2 := arr_gone (R := R) (G := G) (U := U) (W := W' ++ [z]) hd0
  rw [hy] at h1 h2
  obtain ⟨h3, h4, h5⟩ := h
  rw [h1] at h3 h4 h5
  obtain ⟨ts', st, h6, h7⟩ := remove_core h3 h4 he hf
  refine ⟨ts', st, h6, ?_⟩
  rw [h2]
  refine ⟨h7, ?_, ?_⟩
  · refine h4.sublist ?_
    simp
  · intro c hc
    refine h5 c ?_
    simp only [List.mem_append, List.mem_cons] at hc ⊢
    grind

/-- A token is inserted at the end of the block. -/
theorem insert_step {e : Ed} {a : Core} {P : List Core} {after : Nat} (ty : TT) (txt : List Char)
    (h : Is e (arr R ((a.id, P) :: G) L0)) (ha : a ∈ L0) (haR : a.id ∉ R) (hl : Last a P after) :
    ∃ e', insertKw e after ty txt = some e' ∧
      Is e' (arr R ((a.id, P ++ [⟨e.fresh, ty, [], txt⟩]) :: G) L0) ∧ e.fresh < e'.fresh := by
  obtain ⟨X, l, Y, rfl, h1, h2⟩ := put_after hd0 (R := R) (G := G) ha haR hl
  rw [h1] at h
  obtain ⟨e', h3, h4, h5⟩ := insert_core ty txt h
  exact ⟨e', h3, by rw [h2]; exact h4, h5⟩

/-- A token is copied to the end of the block. -/
theorem copy_step {e : Ed} {a x : Core} {P : List Core} {after : Nat}
    (h : Is e (arr R ((a.id, P) :: G) L0)) (ha : a ∈ L0) (haR : a.id ∉ R) (hl : Last a P after) (hx : x ∈ L0) (hxR : x.id ∉ R)
    (hf : x.fixed = []) :
    ∃ e', copyId e after x.id = some e' ∧
      Is e' (arr R ((a.id, P ++ [⟨e.fresh, x.type, [], x.text⟩]) :: G) L0) ∧ e.fresh < e'.fresh := by
  obtain ⟨X, l, Y, rfl, h1, h2⟩ := put_after hd0 (R := R) (G := G) ha haR hl
  have hm := (arr_gone_filter hd0 hx hxR h.nodup).2
  rw [h1] at h hm
  obtain ⟨e', h3, h4, h5⟩ := copy_core h hm hf
  exact ⟨e', h3, by rw [h2]; exact h4, h5⟩

/-- A token without its address. -/
def Core.bare (c : Core) : TT × List Fix × List Char := (c.type, c.fixed, c.text)

omit hd0 in
/-- The specifiers are copied. -/
theorem copyRange_ok (hd0 : (ids L0).Nodup) {a : Core} (ha : a ∈ L0) (haR : a.id ∉ R) : ∀ (T : List Core) (fuel : Nat) (e : Ed)
    (P : List Core)
    (after b f : Nat), Is e (arr R ((a.id, P) :: G) L0) → Last a P after → Seg L0 b f T →
    (∀ c ∈ T, c.id ∉ R ∧ c.id ≠ a.id ∧ c.id ∉ G.map (·.1) ∧ c.fixed = []) → T.length ≤ fuel →
    ∃ e' after' T', copyRange f fuel e after b = some (e', after') ∧ T'.map Core.bare = T.map Core.bare ∧
      Is e' (arr R ((a.id, P ++ T') :: G) L0) ∧ Last a (P ++ T') after' := by
  intro T
  induction T with
  | nil => rintro fuel e P after b f - - ⟨-, h, -⟩; simp at h
  | cons x T ih =>
    rintro fuel e P after b f h hl ⟨⟨U, W, hL⟩, hb, hf⟩ hT hfuel
    have hb' : x.id = b := by simpa using hb
    subst hb'
    have hxm : x ∈ L0 := by rw [hL]; simp
    obtain ⟨hxR, hxa, hxG, hxf⟩ := hT x List.mem_cons_self
    cases fuel with
    | zero => simp at hfuel
    | succ fuel =>
      obtain ⟨e', h1, h2, h2'⟩ := copy_step hd0 h ha haR hl hxm hxR hxf
      unfold copyRange
      simp only [h1]
      have hlast : Last a (P ++ [⟨e.fresh, x.type, [], x.text⟩]) e.fresh := by
        simpa using last_append a P [] ⟨e.fresh, x.type, [], x.text⟩
      cases T with
      | nil =>
        have hf' : x.id = f := by simpa using hf
        subst hf'
        rw [if_pos rfl]
        exact ⟨e', _, _, rfl, by simp [Core.bare, hxf], h2, hlast⟩
      | cons y T =>
        have hne : x.id ≠ f := by
          intro e
          rw [List.getLast?_cons_cons] at hf
          obtain ⟨l, hl1, hl2⟩ := Option.map_eq_some_iff.mp hf
          have hm : l ∈ y :: T := List.mem_of_getLast? hl1
          rw [hL] at hd0
          rw [ids, List.map_append, List.map_append, List.map_cons, List.nodup_append, List.nodup_append,
            List.nodup_cons] at hd0
          exact hd0.1.2.1.1 (by rw [e, ← hl2]; exact List.mem_map_of_mem hm)
        rw [if_neg hne]
        obtain ⟨hyR, -, -⟩ := hT y (by simp)
        obtain ⟨t, ht1, ht2⟩ := next_seg h (U := U) (W := T ++ W) (by simpa using hL)
          ⟨hxR, by simp [hxG, hxa]⟩ hyR
        rw [ht1]
        dsimp only
        rw [ht2]
        obtain ⟨e2, after', T', h3, h4, h5, h6⟩ := ih fuel e' _ e.fresh y.id f h2 hlast
          ⟨⟨U ++ [x], W, by simpa using hL⟩, rfl, by rw [← hf, List.getLast?_cons_cons]⟩
          (fun c hc => hT c (List.mem_cons_of_mem _ hc)) (by simpa using hfuel)
        refine ⟨e2, after', ⟨e.fresh, x.type, [], x.text⟩ :: T', h3, by rw [List.map_cons, List.map_cons, h4]; simp [Core.bare, hxf], ?_, ?_⟩
        · simpa using h5
        · simpa using h6

/-- The addresses of a variable that is moved: its tokens and the comma that goes. -/
def movedIds (tok : Var → List Core) (v : Var) : List Nat := v.delim.toList ++ ids (tok v)

/-- What is known about variables that are moved. -/
structure VarsOk (L0 : List Core) (z : Core) (tok : Var → List Core) (used : List Nat) (vs : List Var) : Prop where
  seg : ∀ v ∈ vs, Seg L0 v.beg v.fin (tok v)
  fixed : ∀ v ∈ vs, ∀ c ∈ tok v, c.fixed = []
  delim : ∀ v ∈ vs, ∀ d, v.delim = some d → ∃ c ∈ L0, c.id = d ∧ c.type ≠ .eof ∧ c.fixed = [] ∧ z.id ≠ d
  nodup : (vs.flatMap (movedIds tok)).Nodup
  used : ∀ n ∈ vs.flatMap (movedIds tok), n ∉ used

omit hd0 in
theorem arr_length {R : List Nat} {G : List (Nat × List Core)} {L V : List Core} (h : V.Sublist L)
    (hV : ∀ c ∈ V, c.id ∉ R) : V.length ≤ (arr R G L).length := by
  induction h with
  | slnil => simp
  | @cons l1 l2 x h ih =>
    rw [arr_cons, List.length_append]
    have := ih hV
    omega
  | @cons_cons l1 l2 x h ih =>
    rw [arr_cons, List.length_append, if_neg (hV x List.mem_cons_self)]
    have := ih fun c hc => hV c (List.mem_cons_of_mem _ hc)
    simp only [List.length_cons, List.length_append, List.length_nil]
    omega

omit hd0 in
theorem is_length {e : Ed} {L : List Core} (h : Is e L) : e.ts.length = L.length := by
  rw [← h.eq, List.length_map]

omit hd0 in
theorem seg_sublist {b f : Nat} {V : List Core} (h : Seg L0 b f V) : V.Sublist L0 := by
  obtain ⟨⟨U, W, rfl⟩, -, -⟩ := h
  simp

omit hd0 in
/-- The loop over the variables after the first one. -/
theorem moveVarsGo_ok (hd0 : (ids L0).Nodup) {z : Core} (hz : L0.getLast? = some z) {tok : Var → List Core} {a : Core} (ha : a ∈ L0) :
    ∀ (vs : List Var) (e : Ed) (R : List Nat) (P : List Core) (after : Nat) (first : Bool),
    Is e (arr R ((a.id, P) :: G) L0) → Last a P after → z.id ∉ R → z.id ∉ vs.flatMap (movedIds tok) →
    a.id ∉ R → VarsOk L0 z tok (a.id :: G.map (·.1) ++ R) vs →
    ∃ (e' : Ed) (after' : Nat) (M : List (Core × List Core)), moveVarsGo e after first vs = some (e', after') ∧
      M.map (·.2) = vs.map tok ∧ (∀ m ∈ M, m.1.type = .comma ∧ m.1.text = [','] ∧ m.1.fixed = []) ∧
      (let N := M.flatMap fun m => m.1 :: m.2
       Is e' (arr (vs.flatMap (movedIds tok) ++ R) ((a.id, P ++ (if first then N.tail else N)) :: G) L0) ∧
       Last a (P ++ (if first then N.tail else N)) after') := by
  intro vs
  induction vs with
  | nil =>
    intro e R P after first h hl hzR hzv haR hv
    refine ⟨e, after, [], rfl, rfl, by simp, ?_⟩
    simpa using ⟨h, hl⟩
  | cons v vs ih =>
    intro e R P after first h hl hzR hzv haR hv
    -- the comma
    have hstep1 : ∃ e1, dropDelim e v.delim = some e1 ∧
        e1.fresh = e.fresh ∧ Is e1 (arr (v.delim.toList ++ R) ((a.id, P) :: G) L0) := by
      cases hdl : v.delim with
      | none => exact ⟨e, rfl, rfl, by simpa using h⟩
      | some d =>
        obtain ⟨c, hc, rfl, hce, hcf, hcz⟩ := hv.delim v List.mem_cons_self d hdl
        have hcR : c.id ∉ R := by
          intro hh
          refine hv.used c.id ?_ (by simp [hh])
          rw [List.flatMap_cons]
          simp [movedIds, hdl]
        obtain ⟨ts', st, h1, h2⟩ := remove_step hd0 h hc hcR hce hcf hz hzR hcz
        unfold dropDelim
        dsimp only
        rw [h1]
        exact ⟨{ e with ts := ts' }, rfl, rfl, by simpa using h2⟩
    obtain ⟨e1, h1, hfr, h2⟩ := hstep1
    have haD : a.id ∉ v.delim.toList ++ R := by
      intro hh
      rcases List.mem_append.mp hh with hh | hh
      · exact hv.used a.id (by rw [List.flatMap_cons]; exact List.mem_append_left _ (List.mem_append_left _ hh)) (by simp)
      · exact haR hh
    -- the comma in front
    have hstep2 : ∃ e2 after2 C, (if first then some (e1, after) else
        (insertKw e1 after .comma [',']).map fun e' => (e', e1.fresh)) = some (e2, after2) ∧
        (if first = true then C = [] else ∃ c : Core, C = [c] ∧ c.type = .comma ∧ c.text = [','] ∧ c.fixed = []) ∧
        Is e2 (arr (v.delim.toList ++ R) ((a.id, P ++ C) :: G) L0) ∧ Last a (P ++ C) after2 := by
      cases first with
      | true => exact ⟨e1, after, [], rfl, by simp, by simpa using h2, by simpa using hl⟩
      | false =>
        obtain ⟨e', k1, k2, k3⟩ := insert_step hd0 .comma [','] h2 ha haD hl
        refine ⟨e', e1.fresh, _, ?_, by simp only [Bool.false_eq_true, if_false]; exact ⟨_, rfl, rfl, rfl, rfl⟩, k2, ?_⟩
        · simp only [Bool.false_eq_true, if_false]
          rw [k1]; rfl
        · simpa using last_append a P [] ⟨e1.fresh, .comma, [], [',']⟩
    obtain ⟨e2, after2, C, h3, hC, h4, hl2⟩ := hstep2
    -- the variable
    have hseg := hv.seg v List.mem_cons_self
    have hused : ∀ c ∈ tok v, c.id ∉ a.id :: G.map (·.1) ++ R := by
      intro c hc
      refine hv.used c.id ?_
      rw [List.flatMap_cons]
      exact List.mem_append_left _ (List.mem_append_right _ (List.mem_map_of_mem hc))
    have hnd := hv.nodup
    rw [List.flatMap_cons, List.nodup_append] at hnd
    have hnd1 := hnd.1
    rw [movedIds, List.nodup_append] at hnd1
    have hcD : ∀ c ∈ tok v, c.id ∉ v.delim.toList ++ R := by
      intro c hc hh
      rcases List.mem_append.mp hh with hh | hh
      · exact hnd1.2.2 _ hh c.id (List.mem_map_of_mem hc) rfl
      · exact hused c hc (by simp [hh])
    obtain ⟨ts3, h5, h6, h7⟩ := moveRange_ok hd0 ha (tok v) (e2.ts.length + 1) e2 (v.delim.toList ++ R) (P ++ C) after2
      v.beg v.fin h4 haD hl2 hseg
      (by
        intro c hc
        have := hused c hc
        simp only [List.cons_append, List.mem_cons, List.mem_append, not_or] at this
        exact ⟨hcD c hc, this.1, this.2.1⟩)
      (by
        rw [is_length h4]
        have := arr_length (G := (a.id, P ++ C) :: G) (seg_sublist hseg) hcD
        omega)
    have hR : ∀ n, n ∈ ids (tok v) ++ (v.delim.toList ++ R) ↔ n ∈ movedIds tok v ++ R := by
      intro n; simp only [movedIds, List.mem_append]; grind
    rw [arr_congr (R' := movedIds tok v ++ R) (fun c _ => hR c.id)] at h6
    -- the others
    obtain ⟨e4, after4, M, h8, h9, h10, h11, h12⟩ := ih { e2 with ts := ts3 } (movedIds tok v ++ R) (P ++ C ++ tok v) v.fin false h6 h7
      (by
        intro hh
        rcases List.mem_append.mp hh with hh | hh
        · exact hzv (by rw [List.flatMap_cons]; exact List.mem_append_left _ hh)
        · exact hzR hh)
      (fun hh => hzv (by rw [List.flatMap_cons]; exact List.mem_append_right _ hh))
      (by
        intro hh
        rcases List.mem_append.mp hh with hh | hh
        · exact hv.used a.id (by rw [List.flatMap_cons]; exact List.mem_append_left _ hh) (by simp)
        · exact haR hh)
      { seg := fun v' h => hv.seg v' (List.mem_cons_of_mem _ h)
        fixed := fun v' h => hv.fixed v' (List.mem_cons_of_mem _ h)
        delim := fun v' h => hv.delim v' (List.mem_cons_of_mem _ h)
        nodup := hnd.2.1
        used := by
          intro n hn hh
          have h1 := hv.used n (by rw [List.flatMap_cons]; exact List.mem_append_right _ hn)
          simp only [List.cons_append, List.mem_cons, List.mem_append, not_or] at h1 hh
          rcases hh with hh | hh | hh | hh
          · exact h1.1 hh
          · exact h1.2.1 hh
          · exact hnd.2.2 n hh n hn rfl
          · exact h1.2.2 hh }
    simp only [Bool.false_eq_true, if_false] at h11 h12
    have hrun : moveVarsGo e after first (v :: vs) = some (e4, after4) := by
      unfold moveVarsGo
      rw [h1]
      dsimp only
      rw [h3]
      dsimp only
      rw [h5]
      dsimp only
      exact h8
    cases first with
    | true =>
      have hC' : C = [] := by simpa using hC
      subst hC'
      refine ⟨e4, after4, (⟨0, .comma, [], [',']⟩, tok v) :: M, hrun, by rw [List.map_cons, h9]; rfl, ?_, ?_⟩
      · intro m hm
        rcases List.mem_cons.mp hm with rfl | hm
        · exact ⟨rfl, rfl, rfl⟩
        · exact h10 m hm
      · have e5 : P ++ [] ++ tok v ++ M.flatMap (fun m => m.1 :: m.2) = P ++ (tok v ++ M.flatMap (fun m => m.1 :: m.2)) := by simp
        rw [e5] at h11 h12
        refine ⟨?_, h12⟩
        rw [arr_congr (R' := vs.flatMap (movedIds tok) ++ (movedIds tok v ++ R))]
        · exact h11
        · intro c _
          rw [List.flatMap_cons]
          simp only [List.mem_append]; grind
    | false =>
      obtain ⟨c, rfl, hc⟩ : ∃ c : Core, C = [c] ∧ c.type = .comma ∧ c.text = [','] ∧ c.fixed = [] := by simpa using hC
      refine ⟨e4, after4, (c, tok v) :: M, hrun, by rw [List.map_cons, h9]; rfl, ?_, ?_⟩
      · intro m hm
        rcases List.mem_cons.mp hm with rfl | hm
        · exact hc
        · exact h10 m hm
      · have e5 : P ++ [c] ++ tok v ++ M.flatMap (fun m => m.1 :: m.2) = P ++ (c :: tok v ++ M.flatMap (fun m => m.1 :: m.2)) := by simp
        rw [e5] at h11 h12
        refine ⟨?_, h12⟩
        rw [arr_congr (R' := vs.flatMap (movedIds tok) ++ (movedIds tok v ++ R))]
        · exact h11
        · intro c _
          rw [List.flatMap_cons]
          simp only [List.mem_append]; grind

/-- A new declaration: its specifiers are copies, its declarators were moved. -/
structure NewDecl (T : List Core) (vars : List (List Core)) (n : Decl Core) : Prop where
  spec : n.spec.map Core.bare = T.map Core.bare
  body : n.body = []
  vars : n.vars = vars
  more : ∀ m ∈ n.more, m.1.type = .comma ∧ m.1.text = [','] ∧ m.1.fixed = []
  semi : n.semi.type = .semi ∧ n.semi.text = [';'] ∧ n.semi.fixed = []

omit hd0 in
/-- `simple_decl_move_vars`. -/
theorem moveVars_ok (hd0 : (ids L0).Nodup) {z : Core} (hz : L0.getLast? = some z) {tok : Var → List Core} {a : Core} (ha : a ∈ L0)
    {dt : DeclType} {T : List Core} {vs : List Var} {e : Ed} (h : Is e (arr R G L0)) (hvs : vs ≠ [])
    (hzR : z.id ∉ R) (hzv : z.id ∉ vs.flatMap (movedIds tok)) (haR : a.id ∉ R)
    (hT : Seg L0 dt.beg dt.fin T) (hTT : ∀ c ∈ T, c.id ∉ R ∧ c.id ≠ a.id ∧ c.id ∉ G.map (·.1) ∧ c.fixed = [])
    (hv : VarsOk L0 z tok (a.id :: G.map (·.1) ++ R) vs) :
    ∃ e' after' n, moveVars e dt vs a.id = some (e', after') ∧ NewDecl T (vs.map tok) n ∧
      Is e' (arr (vs.flatMap (movedIds tok) ++ R) ((a.id, n.toks) :: G) L0) ∧ n.semi.id = after' := by
  have h0 : Is e (arr R ((a.id, []) :: G) L0) := by
    have : arr R ((a.id, []) :: G) L0 = arr R G L0 := by
      unfold arr news
      congr 1
      funext c
      congr 1
      rw [List.filter_cons]
      split <;> simp
    rw [this]; exact h
  obtain ⟨e1, after1, T', h1, h2, h3, h4⟩ := copyRange_ok hd0 ha haR T (e.ts.length + 1) e [] a.id dt.beg dt.fin h0 rfl hT hTT
    (by
      rw [is_length h]
      have := arr_length (R := R) (G := G) (seg_sublist hT) (fun c hc => (hTT c hc).1)
      omega)
  rw [List.nil_append] at h3 h4
  obtain ⟨e2, after2, M, h5, h6, h7, h8, h9⟩ := moveVarsGo_ok hd0 hz ha vs e1 R T' after1 true h3 h4 hzR hzv haR hv
  simp only [if_true] at h8 h9
  have haM : a.id ∉ vs.flatMap (movedIds tok) ++ R := by
    intro hh
    rcases List.mem_append.mp hh with hh | hh
    · exact hv.used a.id hh (by simp)
    · exact haR hh
  obtain ⟨e3, h10, h11, h12⟩ := insert_step hd0 .semi [';'] h8 ha haM h9
  cases M with
  | nil =>
    cases vs with
    | nil => exact absurd rfl hvs
    | cons => simp at h6
  | cons m M =>
    refine ⟨e3, e2.fresh, { spec := T', first := m.2, more := M, semi := ⟨e2.fresh, .semi, [], [';']⟩ }, ?_, ⟨h2, rfl, ?_, ?_, rfl, rfl, rfl⟩,
      ?_, rfl⟩
    · unfold moveVars
      rw [h1]
      show (Option.bind (moveVarsGo e1 after1 true vs) _) = _
      rw [h5]
      show (Option.bind (insertKw e2 after2 .semi [';']) _) = _
      rw [h10]
      rfl
    · rw [← h6]; rfl
    · intro m' hm; exact h7 m' (List.mem_cons_of_mem _ hm)
    · have : (Decl.toks { spec := T', first := m.2, more := M, semi := (⟨e2.fresh, .semi, [], [';']⟩ : Core) }) =
          T' ++ ((m :: M).flatMap fun m => m.1 :: m.2).tail ++ [⟨e2.fresh, .semi, [], [';']⟩] := by
        simp [Decl.toks]
      rw [this]
      exact h11

/-- What is known about a slot. -/
structure SlotOk (L0 : List Core) (z : Core) (tok : Var → List Core) (anchors : List Nat) (used : List Nat) (s : Slot) : Prop where
  vars : VarsOk L0 z tok (anchors ++ used) s.vars
  eof : z.id ∉ s.vars.flatMap (movedIds tok)
  semi : s.vars ≠ [] → ∃ a ∈ L0, s.kept.or s.fallback = some a.id ∧ a.id ∈ anchors

omit hd0 in
theorem varsOk_perm {z : Core} {tok : Var → List Core} {used used' : List Nat} {vs vs' : List Var} (hp : vs'.Perm vs)
    (hu : ∀ n ∈ used', n ∈ used)
    (h : VarsOk L0 z tok used vs) : VarsOk L0 z tok used' vs' where
  seg v hv := h.seg v (hp.mem_iff.mp hv)
  fixed v hv := h.fixed v (hp.mem_iff.mp hv)
  delim v hv := h.delim v (hp.mem_iff.mp hv)
  nodup := (hp.flatMap_right _).nodup_iff.mpr h.nodup
  used n hn hu' := h.used n ((hp.flatMap_right _).mem_iff.mp hn) (hu n hu')

omit hd0 in
/-- One slot. -/
theorem leaveSlot_ok (hd0 : (ids L0).Nodup) {z : Core} (hz : L0.getLast? = some z) {tok : Var → List Core}
    {srt : (Nat → List Char) → List Var → List Var} (hs : ∀ τ l, (srt τ l).Perm l)
    {dt : DeclType} {T : List Core} {s : Slot} {e : Ed} {anchors : List Nat} (h : Is e (arr R G L0))
    (hzR : z.id ∉ R) (hG : ∀ n ∈ G.map (·.1), n ∈ anchors) (haR : ∀ n ∈ anchors, n ∉ R)
    (hT : Seg L0 dt.beg dt.fin T) (hTT : ∀ c ∈ T, c.id ∉ R ∧ c.id ∉ anchors ∧ c.fixed = [])
    (hv : SlotOk L0 z tok anchors R s) :
    ∃ e', leaveSlot srt dt e s = some e' ∧ (s.vars = [] ∧ e' = e ∨
      ∃ (n : Decl Core) (a : Nat) (vs : List Var), vs.Perm s.vars ∧ a ∈ anchors ∧ NewDecl T (vs.map tok) n ∧
        Is e' (arr (s.vars.flatMap (movedIds tok) ++ R) ((a, n.toks) :: G) L0)) := by
  unfold leaveSlot
  by_cases hvs : s.vars = []
  · rw [if_pos hvs]
    exact ⟨e, rfl, Or.inl ⟨hvs, rfl⟩⟩
  · rw [if_neg hvs]
    obtain ⟨a, ha, hsemi, haA⟩ := hv.semi hvs
    rw [hsemi]
    have hp := hs e.text s.vars
    have hpf := hp.flatMap_right (movedIds tok)
    obtain ⟨e1, after', n, h1, h2, h3, h4⟩ := moveVars_ok hd0 hz ha (dt := dt) (vs := srt e.text s.vars) h
      (by intro h0; rw [h0] at hp; exact hvs hp.nil_eq.symm) hzR
      (by rw [hpf.mem_iff]; exact hv.eof) (haR _ haA) hT
      (by
        intro c hc
        obtain ⟨k1, k2, k3⟩ := hTT c hc
        exact ⟨k1, fun e => k2 (e ▸ haA), fun hh => k2 (hG _ hh), k3⟩)
      (varsOk_perm hp (by
        intro n hn
        rcases List.mem_append.mp hn with hn | hn
        · rcases List.mem_cons.mp hn with rfl | hn
          · exact List.mem_append_left _ haA
          · exact List.mem_append_left _ (hG _ hn)
        · exact List.mem_append_right _ hn) hv.vars)
    rw [arr_congr (R' := s.vars.flatMap (movedIds tok) ++ R)
      (by intro c _; rw [List.mem_append, List.mem_append, hpf.mem_iff])] at h3
    dsimp only
    rw [h1]
    show ∃ e', (Option.bind (moveSpaces e1.ts a.id after') _) = _ ∧ _
    have ham : a.id ∉ s.vars.flatMap (movedIds tok) ++ R := by
      intro hh
      rcases List.mem_append.mp hh with hh | hh
      · exact hv.vars.used a.id hh (List.mem_append_left _ haA)
      · exact haR _ haA hh
    have e3 : ∃ X Y, arr (s.vars.flatMap (movedIds tok) ++ R) ((a.id, n.toks) :: G) L0 = X ++ (a :: n.toks ++ Y) := by
      obtain ⟨L1, L2, e4⟩ := List.append_of_mem ha
      rw [e4] at hd0
      rw [e4]
      exact ⟨_, _, arr_anchor hd0 ham⟩
    obtain ⟨X, Y, e3⟩ := e3
    have hn1 := h3.nodup
    rw [e3] at hn1
    have htoks : ∃ Q, n.toks = Q ++ [n.semi] := ⟨_, rfl⟩
    obtain ⟨Q, hQ⟩ := htoks
    have hne : a.id ≠ n.semi.id := by
      intro he
      rw [hQ, ids, List.map_append, List.map_append, List.map_cons, List.map_append, List.map_cons, List.map_nil] at hn1
      grind
    obtain ⟨ts', h5, h6⟩ := spaces_core h3.eq h3.nodup (a := a) (b := n.semi) (by rw [e3]; simp) (by rw [e3, hQ]; simp) hne
    rw [h4] at h5
    rw [h5]
    exact ⟨{ e1 with ts := ts' }, rfl, Or.inr ⟨n, a.id, _, hp, haA, h2, h6, h3.nodup, h3.lt⟩⟩

/-- What is known about all slots. -/
structure Plan (L0 : List Core) (z : Core) (tok : Var → List Core) (T : DeclType → List Core) (anchors R : List Nat)
    (ps : List (DeclType × Slot)) : Prop where
  seg : ∀ p ∈ ps, Seg L0 p.1.beg p.1.fin (T p.1)
  spec : ∀ p ∈ ps, ∀ c ∈ T p.1, c.id ∉ R ∧ c.id ∉ anchors ∧ c.id ∉ (ps.flatMap (·.2.vars)).flatMap (movedIds tok) ∧ c.fixed = []
  vars : VarsOk L0 z tok (anchors ++ R) (ps.flatMap (·.2.vars))
  eof : z.id ∉ R ∧ z.id ∉ (ps.flatMap (·.2.vars)).flatMap (movedIds tok)
  semi : ∀ p ∈ ps, p.2.vars ≠ [] → ∃ a ∈ L0, p.2.kept.or p.2.fallback = some a.id ∧ a.id ∈ anchors
  anchors : ∀ n ∈ anchors, n ∉ R

omit hd0 in
theorem varsOk_left {z : Core} {tok : Var → List Core} {used : List Nat} {vs vs' : List Var}
    (h : VarsOk L0 z tok used (vs ++ vs')) : VarsOk L0 z tok used vs ∧ VarsOk L0 z tok (used ++ vs.flatMap (movedIds tok)) vs' := by
  have hn := h.nodup
  rw [List.flatMap_append, List.nodup_append] at hn
  constructor
  · exact {
      seg := fun v hv => h.seg v (List.mem_append_left _ hv)
      fixed := fun v hv => h.fixed v (List.mem_append_left _ hv)
      delim := fun v hv => h.delim v (List.mem_append_left _ hv)
      nodup := hn.1
      used := fun n hm => h.used n (by rw [List.flatMap_append]; exact List.mem_append_left _ hm) }
  · exact {
      seg := fun v hv => h.seg v (List.mem_append_right _ hv)
      fixed := fun v hv => h.fixed v (List.mem_append_right _ hv)
      delim := fun v hv => h.delim v (List.mem_append_right _ hv)
      nodup := hn.2.1
      used := by
        intro n hm hu
        rcases List.mem_append.mp hu with hu | hu
        · exact h.used n (by rw [List.flatMap_append]; exact List.mem_append_right _ hm) hu
        · exact hn.2.2 n hu n hm rfl }

/-- The variables of a declaration, each with the specifiers. -/
def typed (n : Decl Core) : List (List (TT × List Fix × List Char) × List Core) := n.vars.map fun v => (n.spec.map Core.bare, v)

/-- What new declarations look like. -/
def Made (n : Decl Core) : Prop :=
  n.spec ≠ [] ∧ n.body = [] ∧ (∀ c ∈ n.spec, c.fixed = []) ∧ (∀ m ∈ n.more, m.1.type = .comma ∧ m.1.text = [','] ∧ m.1.fixed = []) ∧
  (n.semi.type = .semi ∧ n.semi.text = [';'] ∧ n.semi.fixed = [])

omit hd0 in
/-- All slots. -/
theorem leaveSlots_ok (hd0 : (ids L0).Nodup) {z : Core} (hz : L0.getLast? = some z) {tok : Var → List Core}
    {srt : (Nat → List Char) → List Var → List Var} (hs : ∀ τ l, (srt τ l).Perm l)
    {T : DeclType → List Core} {anchors : List Nat} :
    ∀ (ps : List (DeclType × Slot)) (R : List Nat) (G : List (Nat × List Core)) (e : Ed), Is e (arr R G L0) →
    (∀ n ∈ G.map (·.1), n ∈ anchors) → Plan L0 z tok T anchors R ps →
    ∃ (e' : Ed) (N : List (Nat × Decl Core)), ps.foldlM (fun e p => leaveSlot srt p.1 e p.2) e = some e' ∧
      Is e' (arr ((ps.flatMap (·.2.vars)).flatMap (movedIds tok) ++ R) (N.map (fun n => (n.1, n.2.toks)) ++ G) L0) ∧
      (∀ n ∈ N, n.1 ∈ anchors ∧ Made n.2) ∧
      (N.flatMap fun n => typed n.2).Perm (ps.flatMap fun p => p.2.vars.map fun v => ((T p.1).map Core.bare, tok v)) := by
  intro ps
  induction ps with
  | nil =>
    intro R G e h _ _
    exact ⟨e, [], rfl, by simpa using h, by simp, by simp⟩
  | cons p ps ih =>
    intro R G e h hG hp
    have hv := hp.vars
    rw [List.flatMap_cons] at hv
    obtain ⟨hv1, hv2⟩ := varsOk_left hv
    have hmem : ∀ n, n ∈ ((p :: ps).flatMap (·.2.vars)).flatMap (movedIds tok) ↔
        n ∈ p.2.vars.flatMap (movedIds tok) ∨ n ∈ (ps.flatMap (·.2.vars)).flatMap (movedIds tok) := by
      intro n; rw [List.flatMap_cons, List.flatMap_append, List.mem_append]
    obtain ⟨e1, h1, h2⟩ := leaveSlot_ok hd0 hz hs (dt := p.1) (T := T p.1) (s := p.2) (anchors := anchors) h hp.eof.1 hG hp.anchors
      (hp.seg p List.mem_cons_self)
      (by intro c hc; obtain ⟨k1, k2, k3, k4⟩ := hp.spec p List.mem_cons_self c hc; exact ⟨k1, k2, k4⟩)
      ⟨hv1, fun hh => hp.eof.2 ((hmem _).mpr (Or.inl hh)), hp.semi p List.mem_cons_self⟩
    rw [List.foldlM_cons, h1]
    show ∃ e' N, (ps.foldlM (fun e p => leaveSlot srt p.1 e p.2) e1) = some e' ∧ _
    have hplan : Plan L0 z tok T anchors (p.2.vars.flatMap (movedIds tok) ++ R) ps := {
      seg := fun q hq => hp.seg q (List.mem_cons_of_mem _ hq)
      spec := by
        intro q hq c hc
        obtain ⟨k1, k2, k3, k4⟩ := hp.spec q (List.mem_cons_of_mem _ hq) c hc
        rw [hmem, not_or] at k3
        exact ⟨by rw [List.mem_append]; exact fun hh => hh.elim k3.1 k1, k2, k3.2, k4⟩
      vars := varsOk_perm (.refl _) (by
        intro n hn
        simp only [List.mem_append] at hn ⊢
        grind) hv2
      eof := by
        have := hp.eof.2
        rw [hmem, not_or] at this
        exact ⟨by rw [List.mem_append]; exact fun hh => hh.elim this.1 hp.eof.1, this.2⟩
      semi := fun q hq => hp.semi q (List.mem_cons_of_mem _ hq)
      anchors := by
        intro n hn hh
        rcases List.mem_append.mp hh with hh | hh
        · exact hv1.used n hh (List.mem_append_left _ hn)
        · exact hp.anchors n hn hh }
    rcases h2 with ⟨h3, rfl⟩ | ⟨n, a, vs, h3, h4, h5, h6⟩
    · rw [h3] at hplan
      obtain ⟨e', N, k1, k2, k3, k4⟩ := ih R G e1 h hG hplan
      refine ⟨e', N, k1, ?_, k3, ?_⟩
      · rw [List.flatMap_cons, h3]; exact k2
      · rw [List.flatMap_cons, h3]; exact k4
    · obtain ⟨e', N, k1, k2, k3, k4⟩ := ih (p.2.vars.flatMap (movedIds tok) ++ R) ((a, n.toks) :: G) e1 h6
        (by intro m hm; rcases List.mem_cons.mp hm with rfl | hm; exact h4; exact hG m hm) hplan
      refine ⟨e', N ++ [(a, n)], k1, ?_, ?_, ?_⟩
      · rw [List.map_append, List.append_assoc]
        rw [arr_congr (R' := (ps.flatMap (·.2.vars)).flatMap (movedIds tok) ++ (p.2.vars.flatMap (movedIds tok) ++ R))]
        · exact k2
        · intro c _
          rw [List.mem_append, hmem]
          simp only [List.mem_append]
          grind
      · intro m hm
        rcases List.mem_append.mp hm with hm | hm
        · exact k3 m hm
        · simp only [List.mem_cons, List.not_mem_nil, or_false] at hm
          subst hm
          refine ⟨h4, ?_, h5.body, ?_, h5.more, h5.semi⟩
          · intro e0
            have := h5.spec
            rw [e0] at this
            obtain ⟨-, hh, -⟩ := hp.seg p List.mem_cons_self
            cases hT : T p.1 with
            | nil => rw [hT] at hh; simp at hh
            | cons => rw [hT] at this; simp at this
          · intro c hc
            have hb : c.bare ∈ (T p.1).map Core.bare := by rw [← h5.spec]; exact List.mem_map_of_mem hc
            obtain ⟨x, hx, he⟩ := List.mem_map.mp hb
            have hf := (hp.spec p List.mem_cons_self x hx).2.2.2
            have : x.fixed = c.fixed := by
              have := congrArg (·.2.1) he
              exact this
            rw [← this]; exact hf
      · rw [List.flatMap_append, List.flatMap_cons, List.flatMap_cons, List.flatMap_nil, List.append_nil]
        refine List.Perm.trans (List.perm_append_comm) (List.Perm.append ?_ k4)
        unfold typed
        rw [h5.vars, h5.spec, List.map_map]
        exact (h3.map _)

omit hd0 in
/-- The two loops over types and slots. -/
theorem leave_flat {srt : (Nat → List Char) → List Var → List Var} (types : List DeclType) (e : Ed) :
    types.foldlM (fun e dt => dt.slots.foldlM (leaveSlot srt dt) e) e =
      (types.flatMap fun dt => dt.slots.map fun s => (dt, s)).foldlM (fun e p => leaveSlot srt p.1 e p.2) e := by
  induction types generalizing e with
  | nil => rfl
  | cons dt types ih =>
    rw [List.foldlM_cons, List.flatMap_cons, List.foldlM_append, List.foldlM_map]
    congr 1
    funext e
    exact ih e

omit hd0 in
/-- A declaration is removed. -/
theorem removeRange_ok : ∀ (M : List Core) (fuel : Nat) (e : Ed) (X : List Core) (y : Core) (Y : List Core) (b f : Nat),
    Is e (X ++ M ++ y :: Y) → M.head?.map (·.id) = some b → M.getLast?.map (·.id) = some f →
    (∀ c ∈ M, c.type ≠ .eof ∧ c.fixed = []) → M.length ≤ fuel →
    ∃ ts', removeRange f fuel e.ts b = some ts' ∧ Is { e with ts := ts' } (X ++ y :: Y) := by
  intro M
  induction M with
  | nil => intro _ _ _ _ _ _ _ _ h; simp at h
  | cons x M ih =>
    intro fuel e X y Y b f h hb hf hM hfuel
    have hb' : x.id = b := by simpa using hb
    subst hb'
    obtain ⟨hx1, hx2⟩ := hM x List.mem_cons_self
    cases fuel with
    | zero => simp at hfuel
    | succ fuel =>
      obtain ⟨h1, h2, h3⟩ := h
      have hne : M ++ y :: Y ≠ [] := by simp
      obtain ⟨w, W, hw⟩ := List.exists_cons_of_ne_nil hne
      have e1 : X ++ x :: M ++ y :: Y = X ++ x :: w :: W := by rw [← hw]; simp
      rw [e1] at h1 h2 h3
      obtain ⟨ts', st, h4, h5⟩ := remove_core h1 h2 hx1 hx2
      obtain ⟨t, ht1, ht2⟩ := next_core h1 h2
      have hi : Is { e with ts := ts' } (X ++ w :: W) := by
        refine ⟨h5, h2.sublist (by simp), ?_⟩
        intro c hc
        refine h3 c ?_
        simp only [List.mem_append, List.mem_cons] at hc ⊢
        grind
      unfold removeRange
      simp only [h4]
      cases M with
      | nil =>
        have hf' : x.id = f := by simpa using hf
        rw [if_pos hf']
        rw [List.nil_append] at hw
        rw [hw]
        exact ⟨ts', rfl, hi⟩
      | cons v M =>
        have hwv : w = v := by rw [List.cons_append] at hw; injection hw with hw _; exact hw.symm
        subst hwv
        have hne : x.id ≠ f := by
          intro e
          rw [List.getLast?_cons_cons] at hf
          obtain ⟨l, hl1, hl2⟩ := Option.map_eq_some_iff.mp hf
          have hm : l ∈ w :: M := List.mem_of_getLast? hl1
          rw [← e1] at h2
          rw [ids, List.map_append, List.map_append, List.map_cons, List.nodup_append, List.nodup_append,
            List.nodup_cons] at h2
          exact h2.1.2.1.1 (by rw [e, ← hl2]; exact List.mem_map_of_mem hm)
        rw [if_neg hne, ht1]
        dsimp only
        have hid : t.id = w.id := by rw [← ht2]; rfl
        rw [hid]
        refine ih fuel { e with ts := ts' } X y Y w.id f ?_ rfl (by rw [← hf, List.getLast?_cons_cons])
          (fun c hc => hM c (List.mem_cons_of_mem _ hc)) (by simpa using hfuel)
        have : X ++ (w :: M) ++ y :: Y = X ++ w :: W := by rw [← hw]; simp
        rw [this]; exact hi

end

end Knfmt.SimpleDecl
