import Verif.Simple.DeclLeft
import Verif.Simple.DeclLeave
/-!
# Grouping declarations: from what is collected to what is moved
-/
namespace Knfmt.SimpleDecl

open Knfmt.Lexer (TT)
open Knfmt.Stream (Node Fix)
open Knfmt.Stmt (node pos next prev isMoveable removeId)

/-- Between the specifiers and the semicolon. -/
def mid (d : Decl Node) : List Node := d.body ++ d.first ++ flat d.more

theorem toks_eq (d : Decl Node) : d.toks = d.spec ++ mid d ++ [d.semi] := by
  unfold Decl.toks mid flat; simp

theorem moved_mid {d : Decl Node} {n : Nat} (h : n ∈ movedOf (fatesOf d)) : n ∈ (mid d).map (·.id) := by
  have := movedOf_sub _ _ _ _ n h
  simpa [mid] using this

theorem mem_valids {ts : List Node} {items : List (Item Node)} {d : Decl Node} :
    d ∈ valids ts items ↔ ∃ k, Item.decl d k ∈ items ∧ validIn ts d k = true := by
  unfold valids
  rw [List.mem_filterMap]
  constructor
  · rintro ⟨it, h1, h2⟩
    cases it with
    | other l => simp at h2
    | decl d' k =>
      dsimp only at h2
      split at h2
      · injection h2 with h2; subst h2; exact ⟨k, h1, by assumption⟩
      · simp at h2
  · rintro ⟨k, h1, h2⟩
    exact ⟨_, h1, by dsimp only; rw [if_pos h2]⟩

theorem uniq {items : List (Item Node)} (hd : ((items.flatMap Item.toks).map (·.id)).Nodup) {a b : Item Node} (ha : a ∈ items)
    (hb : b ∈ items) {t u : Node} (ht : t ∈ a.toks) (hu : u ∈ b.toks) (e : t.id = u.id) : a = b := by
  induction items with
  | nil => simp at ha
  | cons x l ih =>
    rw [List.flatMap_cons, List.map_append, List.nodup_append] at hd
    have hin : ∀ {y : Item Node} {s : Node}, y ∈ l → s ∈ y.toks → s.id ∈ (l.flatMap Item.toks).map (·.id) := fun hy hs =>
      List.mem_map_of_mem (List.mem_flatMap.mpr ⟨_, hy, hs⟩)
    rcases List.mem_cons.mp ha with rfl | ha' <;> rcases List.mem_cons.mp hb with rfl | hb'
    · rfl
    · exact absurd e (hd.2.2 _ (List.mem_map_of_mem ht) _ (hin hb' hu))
    · exact absurd e.symm (hd.2.2 _ (List.mem_map_of_mem hu) _ (hin ha' ht))
    · exact ih hd.2.1 ha' hb'

section
variable {e : Ed} {pre post : List Node} {items : List (Item Node)} (B : Block e pre items post)
include B

theorem Block.itemIds : ((items.flatMap Item.toks).map (·.id)).Nodup := by
  have := B.nodup
  rw [B.eq, List.map_append, List.map_append, List.nodup_append, List.nodup_append] at this
  exact this.1.2.1

theorem Block.uniqD {d d' : Decl Node} (h : d ∈ valids e.ts items) (h' : d' ∈ valids e.ts items) {t u : Node} (ht : t ∈ d.toks)
    (hu : u ∈ d'.toks) (hi : t.id = u.id) : d = d' := by
  obtain ⟨k, h1, -⟩ := mem_valids.mp h
  obtain ⟨k', h2, -⟩ := mem_valids.mp h'
  have := uniq B.itemIds h1 h2 (t := t) (u := u) ht hu hi
  injection this

theorem Block.split {d : Decl Node} (h : d ∈ valids e.ts items) : ∃ X Y, e.ts = X ++ d.toks ++ (Y ++ post) := by
  obtain ⟨k, h1, -⟩ := mem_valids.mp h
  obtain ⟨P, Q, rfl⟩ := List.append_of_mem h1
  refine ⟨pre ++ P.flatMap Item.toks, Q.flatMap Item.toks, ?_⟩
  rw [B.eq, List.flatMap_append, List.flatMap_cons]
  simp [Item.toks]

theorem Block.mem {d : Decl Node} (h : d ∈ valids e.ts items) {t : Node} (ht : t ∈ d.toks) : t ∈ items.flatMap Item.toks := by
  obtain ⟨k, h1, -⟩ := mem_valids.mp h
  exact List.mem_flatMap.mpr ⟨_, h1, ht⟩

theorem Block.parsedD {d : Decl Node} (h : d ∈ valids e.ts items) : ∃ k, d.Parsed e.text k ∧ validIn e.ts d k = true := by
  obtain ⟨k, h1, h2⟩ := mem_valids.mp h
  exact ⟨k, B.parsed d k h1, h2⟩

theorem Block.outside {t u : Node} (ht : t ∈ pre ∨ t ∈ post) (hu : u ∈ items.flatMap Item.toks) : t.id ≠ u.id := by
  have := B.nodup
  rw [B.eq, List.map_append, List.map_append, List.nodup_append, List.nodup_append] at this
  rcases ht with ht | ht
  · exact this.1.2.2 _ (List.mem_map_of_mem ht) _ (List.mem_map_of_mem hu)
  · exact fun h => this.2.2 _ (List.mem_append_right _ (List.mem_map_of_mem hu)) _ (List.mem_map_of_mem ht) h.symm

theorem Block.declIds {d : Decl Node} (h : d ∈ valids e.ts items) : (d.toks.map (·.id)).Nodup := by
  obtain ⟨X, Y, h1⟩ := B.split h
  have := B.nodup
  rw [h1, List.map_append, List.map_append, List.nodup_append, List.nodup_append] at this
  exact this.1.2.1

/-- Specifiers, what follows and the semicolon have nothing in common. -/
theorem Block.apart {d : Decl Node} (h : d ∈ valids e.ts items) :
    (∀ n ∈ d.spec.map (·.id), n ∉ (mid d).map (·.id) ∧ n ≠ d.semi.id) ∧ d.semi.id ∉ (mid d).map (·.id) ∧ ((mid d).map (·.id)).Nodup := by
  have h1 := B.declIds h
  rw [toks_eq, List.map_append, List.map_append, List.nodup_append, List.nodup_append] at h1
  obtain ⟨⟨-, h2, h3⟩, -, h4⟩ := h1
  refine ⟨fun n hn => ⟨fun hm => h3 n hn n hm rfl, fun e => h4 n (List.mem_append_left _ hn) d.semi.id (by simp) e⟩, ?_, h2⟩
  intro hm
  exact h4 _ (List.mem_append_right _ hm) d.semi.id (by simp) rfl

theorem Block.specOk {d : Decl Node} (h : d ∈ valids e.ts items) : d.spec ≠ [] ∧ d.semi.type = .semi ∧
    (∀ t, d.spec.getLast? = some t → t.type ≠ .star) ∧ (∀ m ∈ d.more, m.1.type = .comma) ∧ (∀ t ∈ d.spec, fixed t = []) := by
  obtain ⟨k, hp, hv⟩ := B.parsedD h
  have hs : d.spec ≠ [] := by
    have := hp.formed.1
    intro h0
    apply this
    unfold Decl.map
    rw [h0]; rfl
  refine ⟨hs, congrArg (·.1) hp.formed.2.2, hp.last, ?_, ?_⟩
  · intro m hm
    have := hp.formed.2.1 (word e.text m.1, m.2.map (word e.text)) (List.mem_map.mpr ⟨m, hm, rfl⟩)
    exact congrArg (·.1) this
  · obtain ⟨X, Y, h1⟩ := B.split h
    unfold validIn isTypeValid at hv
    rw [Bool.and_eq_true] at hv
    have hv := hv.2
    have hsub : ∃ Z, d.toks = d.spec ++ d.first.take k ++ Z := by
      rcases hp.body with h0 | ⟨rfl, -⟩
      · refine ⟨d.first.drop k ++ flat d.more ++ [d.semi], ?_⟩
        unfold Decl.toks
        rw [h0]
        have h9 := List.take_append_drop k d.first
        generalize d.first.take k = x at h9 ⊢
        generalize d.first.drop k = y at h9 ⊢
        rw [← h9]
        simp [flat]
      · exact ⟨d.body ++ d.first ++ flat d.more ++ [d.semi], by unfold Decl.toks; simp [flat]⟩
    obtain ⟨Z, hZ⟩ := hsub
    have hts : e.ts = X ++ (d.spec ++ d.first.take k) ++ (Z ++ (Y ++ post)) := by rw [h1, hZ]; simp
    have hr : range e.ts (hid d.spec) (lid (d.spec ++ d.first.take k)) = d.spec ++ d.first.take k := by
      have h2 : hid d.spec = hid (d.spec ++ d.first.take k) := by
        cases hc : d.spec with
        | nil => exact absurd hc hs
        | cons => rfl
      have hn := B.nodup
      rw [hts] at hn ⊢
      rw [h2]
      exact range_eq hn (by simp [hs])
    rw [hr, List.all_eq_true] at hv
    intro t ht
    have := hv t (List.mem_append_left _ ht)
    simp only [Bool.and_eq_true] at this
    exact moveable_iff.mp this.1.1

/-! ## Moved declarators -/

omit B in
theorem fate_seg : ∀ (more : List (Node × List Node)) (pend : Option Nat) (v : List Node) (semi : Node) (f : Fate),
    f ∈ fates pend v more semi → (∃ X Y, v ++ flat more = X ++ f.toks ++ Y) ∧
      (f.moved = true → (∀ t ∈ f.toks, fixed t = []) ∧ (∀ t ∈ f.toks, t.type = .star ∨ t.type = .ident) ∧ f.toks ≠ []) := by
  intro more
  induction more with
  | nil =>
    intro pend v semi f hf
    unfold fates at hf
    simp only [List.mem_cons, List.not_mem_nil, or_false] at hf
    subst hf
    exact ⟨⟨[], [], by simp [flat]⟩, fun h => (plain_fixed h).2⟩
  | cons m ms ih =>
    obtain ⟨c, w⟩ := m
    intro pend v semi f hf
    unfold fates at hf
    rcases List.mem_cons.mp hf with rfl | hf
    · exact ⟨⟨[], flat ((c, w) :: ms), by simp⟩, fun h => (plain_fixed h).2⟩
    · obtain ⟨⟨X, Y, h1⟩, h2⟩ := ih _ _ _ _ hf
      refine ⟨⟨v ++ c :: X, Y, ?_⟩, h2⟩
      have : flat ((c, w) :: ms) = c :: (w ++ flat ms) := by simp [flat]
      rw [this, h1]; simp

omit B in
theorem fate_comma {P : Nat → Prop} : ∀ (more : List (Node × List Node)) (pend : Option Nat) (v : List Node) (semi : Node),
    (∀ n, pend = some n → P n) → (∀ m ∈ more, fixed m.1 = [] → P m.1.id) →
    ∀ f ∈ fates pend v more semi, f.moved = true → ∀ n, f.comma = some n → P n := by
  intro more
  induction more with
  | nil =>
    intro pend v semi hp _ f hf _ n hn
    unfold fates at hf
    simp only [List.mem_cons, List.not_mem_nil, or_false] at hf
    subst hf
    exact hp n hn
  | cons m ms ih =>
    obtain ⟨c, w⟩ := m
    intro pend v semi hp hm f hf hmv n hn
    unfold fates at hf
    rcases List.mem_cons.mp hf with rfl | hf
    · dsimp only at hmv hn
      have hc := hm (c, w) List.mem_cons_self (plain_fixed hmv).1
      cases pend with
      | none => simp at hn; exact hn ▸ hc
      | some p => simp at hn; exact hp n (by rw [hn])
    · refine ih _ _ _ ?_ (fun m h => hm m (List.mem_cons_of_mem _ h)) f hf hmv n hn
      intro n hn
      split at hn
      · simp at hn
      · split at hn
        · injection hn with hn
          exact hn ▸ hm (c, w) List.mem_cons_self (by assumption)
        · simp at hn

/-- The tokens from one to the other. -/
def tokOf (e : Ed) (v : Var) : List Core := (range e.ts v.beg v.fin).map (core e.text)

/-- The specifiers of a type. -/
def specOf (e : Ed) (dt : DeclType) : List Core := (range e.ts dt.beg dt.fin).map (core e.text)

omit B in
theorem seg_of {X V Y : List Node} (h : e.ts = X ++ V ++ Y) (hn : (e.ts.map (·.id)).Nodup) (hV : V ≠ []) :
    range e.ts (hid V) (lid V) = V ∧ Seg (e.ts.map (core e.text)) (hid V) (lid V) (V.map (core e.text)) := by
  constructor
  · rw [h] at hn ⊢; exact range_eq hn hV
  · refine ⟨⟨X.map (core e.text), Y.map (core e.text), by rw [h]; simp⟩, ?_, ?_⟩
    · obtain ⟨x, l, rfl⟩ := List.exists_cons_of_ne_nil hV
      rfl
    · obtain ⟨l, y, h1, h2⟩ := lid_ne hV
      rw [h2, h1, List.map_append, List.map_cons, List.map_nil, List.getLast?_concat]
      rfl

theorem Block.var {d : Decl Node} (h : d ∈ valids e.ts items) {f : Fate} (hf : f ∈ fatesOf d) (hm : f.moved = true) :
    tokOf e (toVar f.toks f.comma) = f.toks.map (core e.text) ∧
      Seg (e.ts.map (core e.text)) (toVar f.toks f.comma).beg (toVar f.toks f.comma).fin (f.toks.map (core e.text)) := by
  obtain ⟨⟨X, Y, h1⟩, h2⟩ := fate_seg _ _ _ _ _ hf
  obtain ⟨-, -, h3⟩ := h2 hm
  obtain ⟨X', Y', h4⟩ := B.split h
  have h5 : e.ts = (X' ++ d.spec ++ X) ++ f.toks ++ (Y ++ [d.semi] ++ (Y' ++ post)) := by
    rw [h4, toks_eq]
    have : mid d = X ++ f.toks ++ Y := by rw [← h1]; rfl
    rw [this]; simp
  obtain ⟨k1, k2⟩ := seg_of h5 B.nodup h3
  refine ⟨?_, k2⟩
  unfold tokOf toVar
  dsimp only
  rw [k1]

theorem Block.declMoved {d : Decl Node} (h : d ∈ valids e.ts items) :
    (moves (fatesOf d)).flatMap (movedIds (tokOf e)) = movedOf (fatesOf d) := by
  unfold moves movedOf
  rw [List.flatMap_map, List.flatMap_def, List.flatMap_def]
  congr 1
  apply List.map_congr_left
  intro f hf
  obtain ⟨hf, hm⟩ := List.mem_filter.mp hf
  unfold movedIds
  rw [(B.var h hf hm).1, ids_core]
  rfl

theorem Block.allMoved : ((valids e.ts items).flatMap fun d => moves (fatesOf d)).flatMap (movedIds (tokOf e)) =
    (valids e.ts items).flatMap fun d => movedOf (fatesOf d) := by
  rw [List.flatMap_assoc, List.flatMap_def, List.flatMap_def]
  congr 1
  apply List.map_congr_left
  intro d hd
  exact B.declMoved hd

omit B in
theorem valids_sublist (ts : List Node) (items : List (Item Node)) :
    ((valids ts items).flatMap Decl.toks).Sublist (items.flatMap Item.toks) := by
  induction items with
  | nil => exact List.Sublist.refl _
  | cons it items ih =>
    rw [List.flatMap_cons]
    cases it with
    | other l => exact ih.trans (List.sublist_append_right _ _)
    | decl d k =>
      by_cases hv : validIn ts d k = true
      · have : valids ts (Item.decl d k :: items) = d :: valids ts items := by
          unfold valids; rw [List.filterMap_cons]; simp [hv]
        rw [this, List.flatMap_cons]
        exact List.Sublist.append (List.Sublist.refl _) ih
      · have : valids ts (Item.decl d k :: items) = valids ts items := by
          unfold valids; rw [List.filterMap_cons]; simp [hv]
        rw [this]
        exact ih.trans (List.sublist_append_right _ _)

omit B in
theorem flatMap_nodup {α β γ : Type} {l : List α} {f : α → List γ} {g : α → List β} {i : γ → β} (hd : ((l.flatMap f).map i).Nodup)
    (hg : ∀ a ∈ l, (g a).Nodup ∧ ∀ b ∈ g a, b ∈ (f a).map i) : (l.flatMap g).Nodup := by
  induction l with
  | nil => simp
  | cons a l ih =>
    rw [List.flatMap_cons, List.map_append, List.nodup_append] at hd
    rw [List.flatMap_cons, List.nodup_append]
    refine ⟨(hg a List.mem_cons_self).1, ih hd.2.1 fun b hb => hg b (List.mem_cons_of_mem _ hb), ?_⟩
    intro x hx y hy
    obtain ⟨b, hb, hy⟩ := List.mem_flatMap.mp hy
    refine hd.2.2 x ((hg a List.mem_cons_self).2 x hx) y ?_
    obtain ⟨c, hc, rfl⟩ := List.mem_map.mp ((hg b (List.mem_cons_of_mem _ hb)).2 y hy)
    exact List.mem_map_of_mem (List.mem_flatMap.mpr ⟨b, hb, hc⟩)

/-- The semicolons of the declarations. -/
def semis (ts : List Node) (items : List (Item Node)) : List Nat := (valids ts items).map (·.semi.id)

theorem Block.movedNot {n : Nat} {d : Decl Node} (h : d ∈ valids e.ts items) (hn : n ∈ movedOf (fatesOf d)) :
    n ∉ semis e.ts items ∧ ∀ d' ∈ valids e.ts items, n ∉ d'.spec.map (·.id) := by
  obtain ⟨t, ht, rfl⟩ := List.mem_map.mp (moved_mid hn)
  have ht' : t ∈ d.toks := by rw [toks_eq]; simp [ht]
  constructor
  · intro hm
    obtain ⟨d', hd', he⟩ := List.mem_map.mp hm
    have : d = d' := B.uniqD h hd' ht' (u := d'.semi) (by rw [toks_eq]; simp) he.symm
    subst this
    exact (B.apart h).2.1 (he ▸ List.mem_map_of_mem ht)
  · intro d' hd' hm
    obtain ⟨u, hu, he⟩ := List.mem_map.mp hm
    have : d = d' := B.uniqD h hd' ht' (u := u) (by rw [toks_eq]; simp [hu]) he.symm
    subst this
    exact ((B.apart h).1 t.id hm).1 (List.mem_map_of_mem ht)

theorem Block.specNot {n : Nat} {d : Decl Node} (h : d ∈ valids e.ts items) (hn : n ∈ d.spec.map (·.id)) : n ∉ semis e.ts items := by
  obtain ⟨t, ht, rfl⟩ := List.mem_map.mp hn
  intro hm
  obtain ⟨d', hd', he⟩ := List.mem_map.mp hm
  have : d = d' := B.uniqD h hd' (t := t) (by rw [toks_eq]; simp [ht]) (u := d'.semi) (by rw [toks_eq]; simp) he.symm
  subst this
  exact ((B.apart h).1 _ hn).2 he.symm

theorem Block.varsOk {z : Node} (hz : post.getLast? = some z) :
    VarsOk (e.ts.map (core e.text)) (core e.text z) (tokOf e) (semis e.ts items ++ [])
      ((valids e.ts items).flatMap fun d => moves (fatesOf d)) := by
  have hv : ∀ v ∈ (valids e.ts items).flatMap (fun d => moves (fatesOf d)),
      ∃ d ∈ valids e.ts items, ∃ f ∈ fatesOf d, f.moved = true ∧ v = toVar f.toks f.comma := by
    intro v hv
    obtain ⟨d, hd, hv⟩ := List.mem_flatMap.mp hv
    unfold moves at hv
    obtain ⟨f, hf, rfl⟩ := List.mem_map.mp hv
    obtain ⟨hf, hm⟩ := List.mem_filter.mp hf
    exact ⟨d, hd, f, hf, hm, rfl⟩
  have hzp : z ∈ post := List.mem_of_getLast? hz
  exact {
    seg := by
      intro v hvm
      obtain ⟨d, hd, f, hf, hm, rfl⟩ := hv v hvm
      obtain ⟨h1, h2⟩ := B.var hd hf hm
      rw [h1]; exact h2
    fixed := by
      intro v hvm c hc
      obtain ⟨d, hd, f, hf, hm, rfl⟩ := hv v hvm
      rw [(B.var hd hf hm).1] at hc
      obtain ⟨t, ht, rfl⟩ := List.mem_map.mp hc
      exact ((fate_seg _ _ _ _ _ hf).2 hm).1 t ht
    delim := by
      intro v hvm n hn
      obtain ⟨d, hd, f, hf, hm, rfl⟩ := hv v hvm
      have hp : ∃ m ∈ d.more, m.1.id = n ∧ SimpleDecl.fixed m.1 = [] := by
        refine fate_comma (P := fun n => ∃ m ∈ d.more, m.1.id = n ∧ SimpleDecl.fixed m.1 = []) d.more none (d.body ++ d.first) d.semi
          (by simp) ?_ f hf hm n hn
        intro m hm hf
        exact ⟨m, hm, rfl, hf⟩
      obtain ⟨m, hm1, hm2, hm3⟩ := hp
      have hmt : m.1 ∈ d.toks := by
        rw [toks_eq]
        refine List.mem_append_left _ (List.mem_append_right _ ?_)
        unfold mid
        exact List.mem_append_right _ (List.mem_flatMap.mpr ⟨m, hm1, by simp⟩)
      have hin := B.mem hd hmt
      refine ⟨core e.text m.1, ?_, hm2, ?_, hm3, ?_⟩
      · refine List.mem_map_of_mem ?_
        rw [B.eq]; simp [hin]
      · show m.1.type ≠ .eof
        exact B.eof _ hin
      · show z.id ≠ n
        rw [← hm2]
        exact B.outside (Or.inr hzp) hin
    nodup := by
      rw [B.allMoved]
      refine flatMap_nodup (f := Decl.toks) (i := fun t : Node => t.id) (B.itemIds.sublist ((valids_sublist _ _).map _)) ?_
      intro d hd
      refine ⟨?_, ?_⟩
      · refine movedOf_nodup _ _ _ _ ?_
        simpa [mid] using (B.apart hd).2.2
      · intro n hn
        obtain ⟨t, ht, rfl⟩ := List.mem_map.mp (moved_mid hn)
        exact List.mem_map_of_mem (by rw [toks_eq]; simp [ht])
    used := by
      rw [B.allMoved]
      intro n hn
      obtain ⟨d, hd, hn⟩ := List.mem_flatMap.mp hn
      rw [List.append_nil]
      exact (B.movedNot hd hn).1 }

omit B in
theorem Inv.moved {text : Nat → List Char} {done : List (Decl Node)} {σ : State} (h : Inv text done σ) :
    ((σ.types.flatMap fun dt => dt.slots.map fun s => (dt, s)).flatMap (·.2.vars)).Perm
      (done.flatMap fun d => moves (fatesOf d)) := by
  have h1 := h.vars.map (·.2)
  rw [List.map_flatMap, List.map_flatMap] at h1
  have e1 : ((σ.types.flatMap fun dt => dt.slots.map fun s => (dt, s)).flatMap (·.2.vars)) =
      σ.types.flatMap fun dt => ((dt.slots.flatMap (·.vars)).map fun v => (dt.str, v)).map (·.2) := by
    rw [List.flatMap_assoc]
    congr 1
    funext dt
    rw [List.map_map, List.flatMap_map]
    simp [Function.comp_def]
  have e2 : (done.flatMap fun d => moves (fatesOf d)) =
      done.flatMap fun d => ((moves (fatesOf d)).map fun v => (rangeStr text d.spec, v)).map (·.2) := by
    congr 1
    funext d
    rw [List.map_map]
    simp [Function.comp_def]
  rw [e1, e2]
  exact h1

theorem Block.plan {z : Node} (hz : post.getLast? = some z) {σ : State} (h : Inv e.text (valids e.ts items) σ) :
    Plan (e.ts.map (core e.text)) (core e.text z) (tokOf e) (specOf e) (semis e.ts items) []
      (σ.types.flatMap fun dt => dt.slots.map fun s => (dt, s)) := by
  have hps : ∀ p ∈ σ.types.flatMap (fun dt => dt.slots.map fun s => (dt, s)), p.1 ∈ σ.types ∧ p.2 ∈ p.1.slots := by
    intro p hp
    obtain ⟨dt, hdt, hp⟩ := List.mem_flatMap.mp hp
    obtain ⟨s, hs, rfl⟩ := List.mem_map.mp hp
    exact ⟨hdt, hs⟩
  have hspec : ∀ dt ∈ σ.types, ∃ d ∈ valids e.ts items, specOf e dt = d.spec.map (core e.text) ∧
      Seg (e.ts.map (core e.text)) dt.beg dt.fin (d.spec.map (core e.text)) := by
    intro dt hdt
    obtain ⟨d, hd, h1, h2, -⟩ := h.types dt hdt
    obtain ⟨X, Y, h3⟩ := B.split hd
    obtain ⟨k1, k2⟩ := seg_of (X := X) (V := d.spec) (Y := mid d ++ [d.semi] ++ (Y ++ post)) (by rw [h3, toks_eq]; simp) B.nodup
      (B.specOk hd).1
    refine ⟨d, hd, ?_, ?_⟩
    · unfold specOf; rw [h1, h2, k1]
    · rw [h1, h2]; exact k2
  have hmem : ∀ n, n ∈ ((σ.types.flatMap fun dt => dt.slots.map fun s => (dt, s)).flatMap (·.2.vars)).flatMap (movedIds (tokOf e)) →
      ∃ d ∈ valids e.ts items, n ∈ movedOf (fatesOf d) := by
    intro n hn
    have := (h.moved.flatMap_right (movedIds (tokOf e))).mem_iff.mp hn
    rw [B.allMoved] at this
    exact List.mem_flatMap.mp this
  exact {
    seg := by
      intro p hp
      obtain ⟨d, -, h1, h2⟩ := hspec p.1 (hps p hp).1
      rw [h1]; exact h2
    spec := by
      intro p hp c hc
      obtain ⟨d, hd, h1, -⟩ := hspec p.1 (hps p hp).1
      rw [h1] at hc
      obtain ⟨t, ht, rfl⟩ := List.mem_map.mp hc
      refine ⟨by simp, B.specNot hd (List.mem_map_of_mem ht), ?_, (B.specOk hd).2.2.2.2 t ht⟩
      intro hm
      obtain ⟨d', hd', hn⟩ := hmem _ hm
      exact (B.movedNot hd' hn).2 d hd (List.mem_map_of_mem ht)
    vars := varsOk_perm h.moved (fun n hn => hn) (B.varsOk hz)
    eof := by
      refine ⟨by simp, ?_⟩
      intro hm
      obtain ⟨d', hd', hn⟩ := hmem _ hm
      obtain ⟨t, ht, he⟩ := List.mem_map.mp (moved_mid hn)
      exact B.outside (Or.inr (List.mem_of_getLast? hz)) (B.mem hd' (t := t) (by rw [toks_eq]; simp [ht])) he.symm
    semi := by
      intro p hp _
      obtain ⟨h1, h2⟩ := hps p hp
      obtain ⟨h3, h4⟩ := h.slots p.1 h1
      obtain ⟨n, hn⟩ := Option.isSome_iff_exists.mp (h4 p.2 h2)
      have hin : n ∈ semis e.ts items := by
        rcases hk : p.2.kept with _ | k
        · rw [hk, Option.none_or] at hn
          exact (h3 p.2 h2).2 n hn
        · rw [hk, Option.some_or] at hn
          injection hn with hn
          exact hn ▸ (h3 p.2 h2).1 k hk
      obtain ⟨d, hd, rfl⟩ := List.mem_map.mp hin
      refine ⟨core e.text d.semi, List.mem_map_of_mem ?_, hn, hin⟩
      rw [B.eq]
      have := B.mem hd (t := d.semi) (by rw [toks_eq]; simp)
      simp [this]
    anchors := by simp }

end

end Knfmt.SimpleDecl
