import Verif.Simple.Small
import Verif.Simple.DeclEdit
import Verif.Parse.Peek
/-!
# Putting `static` first, and `int` after `unsigned` (C68, C69)
-/
namespace Knfmt.Small

open Knfmt.Lexer (TT)
open Knfmt.Stream (Node Fix)
open Knfmt.Stmt (node pos next prev isMoveable removeId)
open Knfmt.Forward (from_ update)
open Knfmt.SimpleDecl (Ed insertKw fixed Word word)

/-! ## The specification -/

/-- Address and type of a token; the address tells its text. -/
def key (t : Node) : Nat × TT := (t.id, t.type)

/-- `spec'` is `spec` with the first `static` put in front. -/
def StaticFirst (spec spec' : List Node) : Prop :=
  ∃ A s B, spec = A ++ s :: B ∧ (∀ t ∈ A, t.type ≠ .kStatic) ∧ s.type = .kStatic ∧ spec' = s :: (A ++ B)

/-- There is nothing to do: no `static`, or the first one has a comment or a directive. -/
def StaticStays (spec : List Node) : Prop :=
  (∀ t ∈ spec, t.type ≠ .kStatic) ∨
  ∃ A s B, spec = A ++ s :: B ∧ (∀ t ∈ A, t.type ≠ .kStatic) ∧ s.type = .kStatic ∧ fixed s ≠ []

/-- The tokens that are not between parentheses or squares. `n` is the number of those open. -/
def outer : Nat → List Node → List Node
  | _, [] => []
  | n, t :: ts =>
    if t.type = .lparen ∨ t.type = .lsquare then outer (n + 1) ts
    else if t.type = .rparen ∨ t.type = .rsquare then outer (n - 1) ts
    else if n = 0 then t :: outer n ts
    else outer n ts

/-! ## The proof -/

theorem nodup_ne {A B : List Node} {t : Node} (hd : ((A ++ t :: B).map (·.id)).Nodup) : ∀ x ∈ A, x.id ≠ t.id := by
  intro x hx e
  rw [List.map_append, List.nodup_append] at hd
  exact hd.2.2 x.id (List.mem_map_of_mem hx) t.id (by simp) e

theorem getLast_append {α : Type} {A B : List α} (h : B ≠ []) : (A ++ B).getLast? = B.getLast? := by
  rw [List.getLast?_append]
  cases hb : B.getLast? with
  | none => exact absurd (List.getLast?_eq_none_iff.mp hb) h
  | some x => rfl

theorem insertIdx_append (A B : List Node) (x : Node) : (A ++ B).insertIdx A.length x = A ++ x :: B := by
  induction A with
  | nil => simp
  | cons p A ih => simpa using ih

theorem first_unique {L L2 B B2 : List Node} {s s2 : Node} (e : L ++ s :: B = L2 ++ s2 :: B2)
    (h : ∀ t ∈ L, t.type ≠ .kStatic) (h' : ∀ t ∈ L2, t.type ≠ .kStatic) (hs : s.type = .kStatic)
    (hs2 : s2.type = .kStatic) : s = s2 := by
  induction L generalizing L2 with
  | nil =>
    cases L2 with
    | nil => injection e
    | cons x L2 => injection e with e _; exact absurd (e ▸ hs) (h' x (by simp))
  | cons y L ih =>
    cases L2 with
    | nil => injection e with e _; exact absurd (e ▸ hs2) (h y (by simp))
    | cons x L2 =>
      injection e with _ e
      exact ih e (fun t ht => h t (List.mem_cons_of_mem _ ht)) (fun t ht => h' t (List.mem_cons_of_mem _ ht))

theorem findStatic_none {fin : Node} {A B : List Node} (ha : ∀ t ∈ A, t.type ≠ .kStatic) (hf : fin.type ≠ .kStatic)
    (hn : ∀ t ∈ A, t.id ≠ fin.id) : findStatic fin.id (A ++ fin :: B) = some none := by
  induction A with
  | nil => simp [findStatic, hf]
  | cons a A ih =>
    rw [List.cons_append, findStatic, if_neg (ha a (by simp)), if_neg (hn a (by simp))]
    exact ih (fun t ht => ha t (List.mem_cons_of_mem _ ht)) (fun t ht => hn t (List.mem_cons_of_mem _ ht))

theorem findStatic_some {fin : Nat} {A B : List Node} {s : Node} (ha : ∀ t ∈ A, t.type ≠ .kStatic)
    (hs : s.type = .kStatic) (hn : ∀ t ∈ A, t.id ≠ fin) : findStatic fin (A ++ s :: B) = some (some s) := by
  induction A with
  | nil => simp [findStatic, hs]
  | cons a A ih =>
    rw [List.cons_append, findStatic, if_neg (ha a (by simp)), if_neg (hn a (by simp))]
    exact ih (fun t ht => ha t (List.mem_cons_of_mem _ ht)) (fun t ht => hn t (List.mem_cons_of_mem _ ht))

theorem filter_comment_take (p : Fix → Bool) (l : List Fix) (q : Fix → Bool) :
    (l.takeWhile p).filter q ++ (l.dropWhile p).filter q = l.filter q := by
  rw [← List.filter_append, List.takeWhile_append_dropWhile]

/-- What `lexer_move_before` does, if the token moved has no comments. -/
theorem moveBefore_spec (pre A B : List Node) (b s : Node) (hd : ((pre ++ b :: (A ++ s :: B)).map (·.id)).Nodup)
    (hf : fixed s = []) :
    ∃ b' s', moveBeforeId (pre ++ b :: (A ++ s :: B)) b.id s.id = some (pre ++ s' :: b' :: (A ++ B)) ∧
      key b' = key b ∧ key s' = key s ∧ fixed s' ++ fixed b' = fixed b := by
  have hb : pos (pre ++ b :: (A ++ s :: B)) b.id = some pre.length := Knfmt.SimpleDecl.pos_mid hd
  have e2 : pre ++ b :: (A ++ s :: B) = (pre ++ b :: A) ++ s :: B := by simp
  have hs : pos (pre ++ b :: (A ++ s :: B)) s.id = some (pre ++ b :: A).length := by
    rw [e2] at hd ⊢
    exact Knfmt.SimpleDecl.pos_mid hd
  unfold moveBeforeId
  rw [hb, hs]
  dsimp only
  unfold Knfmt.Stream.moveBefore
  have g1 : (pre ++ b :: (A ++ s :: B))[pre.length]? = some b := by simp
  have g2 : (pre ++ b :: (A ++ s :: B))[(pre ++ b :: A).length]? = some s := by rw [e2]; simp
  rw [g1, g2]
  dsimp only
  have hl : (pre ++ b :: A).length = pre.length + (A.length + 1) := by simp
  rw [if_neg (by omega), Knfmt.Stream.swapLists_eq, Knfmt.Stream.movePrefixes_eq]
  dsimp only
  generalize hkd : (if Knfmt.Stream.isFirst (pre ++ b :: (A ++ s :: B)) (pre ++ b :: A).length = true then
      (fun x : Knfmt.Lexer.Flags => x.optspace) else fun _ => false) = kd
  refine ⟨{ b with prefixes := [], suffixes := s.suffixes.filter (fun f => !kd f.flags) ++
      b.suffixes.dropWhile (fun f => !f.flags.optline) },
    { s with lno := b.lno, prefixes := b.prefixes ++ s.prefixes, suffixes := s.suffixes.filter (fun f => kd f.flags) ++
      b.suffixes.takeWhile (fun f => !f.flags.optline) }, ?_, rfl, rfl, ?_⟩
  · congr 1
    have hsh : Knfmt.Stream.shifted pre.length (pre ++ b :: A).length = pre.length := by
      unfold Knfmt.Stream.shifted
      rw [if_neg (by omega)]
    rw [hsh]
    have e3 : ∀ x : Node, (pre ++ b :: (A ++ s :: B)).set pre.length x = (pre ++ x :: A) ++ s :: B := by
      intro x; simp
    rw [e3]
    have e4 : ∀ x : Node, ((pre ++ x :: A) ++ s :: B).eraseIdx (pre ++ b :: A).length = pre ++ x :: (A ++ B) := by
      intro x
      rw [List.eraseIdx_append_of_length_le (by simp)]
      simp
    rw [e4]
    have e5 : ∀ (x : Node) (l : List Node), (pre ++ l).insertIdx pre.length x = pre ++ x :: l := by
      exact fun x l => insertIdx_append pre l x
    rw [e5]
  · have h1 := (List.append_eq_nil_iff.mp hf).1
    have h2 := (List.append_eq_nil_iff.mp hf).2
    have h3 : ∀ q : Fix → Bool, (s.suffixes.filter q).filter (fun s => decide (s.type = .comment)) = [] := by
      intro q
      rw [List.filter_eq_nil_iff] at h2 ⊢
      intro f hm
      exact h2 f (List.mem_filter.mp hm).1
    unfold fixed
    dsimp only
    rw [List.filter_append, List.filter_append, List.filter_append, h1, h3, h3, List.append_nil, List.nil_append,
      List.filter_nil, List.nil_append, List.nil_append, List.append_assoc, filter_comment_take]

/-- **C68.** Either nothing changes, as there is no `static` or it has a comment, or the first `static` of the
type becomes its first token: all other tokens and all comments stay as they are, and the type ends where it
should. -/
theorem static_first_partial {ts pre spec post : List Node} {beg fin : Node} (e : ts = pre ++ spec ++ post)
    (hd : (ts.map (·.id)).Nodup) (hb : spec.head? = some beg) (hf : spec.getLast? = some fin) :
    ∃ ts' fin' spec', simpleStatic ts beg.id fin.id = some (ts', fin') ∧
      ts'.map key = (pre ++ spec' ++ post).map key ∧
      ((StaticStays spec ∧ ts' = ts ∧ spec' = spec) ∨ (¬ StaticStays spec ∧ StaticFirst spec spec')) ∧
      spec'.getLast?.map (·.id) = some fin' ∧ ts'.flatMap fixed = ts.flatMap fixed := by
  subst e
  obtain ⟨S, rfl⟩ : ∃ S, spec = beg :: S := by
    cases spec with
    | nil => simp at hb
    | cons x S => simp at hb; exact ⟨S, by rw [hb]⟩
  have hfrom : from_ (pre ++ beg :: S ++ post) beg.id = beg :: (S ++ post) := by
    rw [List.append_assoc, List.cons_append]
    refine Knfmt.Forward.from_eq ?_
    rw [List.append_assoc, List.cons_append] at hd
    exact nodup_ne hd
  have hstay : ∀ {ty}, simpleStatic (pre ++ beg :: S ++ post) beg.id fin.id = some (pre ++ beg :: S ++ post, fin.id) →
      ty = (beg :: S) → StaticStays ty → _ := fun {ty} h ht hs =>
    (⟨_, fin.id, beg :: S, h, rfl, Or.inl ⟨ht ▸ hs, rfl, rfl⟩, by rw [hf]; rfl, rfl⟩ :
      ∃ ts' fin' spec', simpleStatic (pre ++ beg :: S ++ post) beg.id fin.id = some (ts', fin') ∧
      ts'.map key = (pre ++ spec' ++ post).map key ∧
      ((StaticStays (beg :: S) ∧ ts' = pre ++ beg :: S ++ post ∧ spec' = beg :: S) ∨
        (¬ StaticStays (beg :: S) ∧ StaticFirst (beg :: S) spec')) ∧
      spec'.getLast?.map (·.id) = some fin' ∧ ts'.flatMap fixed = (pre ++ beg :: S ++ post).flatMap fixed)
  by_cases hno : ∀ t ∈ beg :: S, t.type ≠ .kStatic
  · refine hstay ?_ rfl (Or.inl hno)
    obtain ⟨F, eF⟩ : ∃ F, beg :: S = F ++ [fin] := ⟨_, (List.getLast?_eq_some_iff.mp hf).choose_spec⟩
    unfold simpleStatic
    rw [hfrom]
    have e2 : beg :: (S ++ post) = F ++ fin :: post := by
      rw [← List.cons_append, eF]; simp
    rw [e2, findStatic_none]
    · intro t ht; exact hno t (by rw [eF]; simp [ht])
    · exact hno fin (by rw [eF]; simp)
    · rw [eF, List.append_assoc, List.append_assoc, List.map_append] at hd
      have := (List.nodup_append.mp hd).2.1
      rw [List.singleton_append] at this
      exact nodup_ne this
  · have hex : ∃ t ∈ beg :: S, t.type = .kStatic := by
      apply Classical.byContradiction
      intro h
      exact hno fun t ht e => h ⟨t, ht, e⟩
    obtain ⟨A, s, B, eS, hA, hs⟩ : ∃ A s B, beg :: S = A ++ s :: B ∧ (∀ t ∈ A, t.type ≠ .kStatic) ∧ s.type = .kStatic := by
      clear hstay hfrom hno hf hb hd
      generalize beg :: S = l at hex
      induction l with
      | nil => obtain ⟨t, ht, -⟩ := hex; simp at ht
      | cons x l ih =>
        by_cases hx : x.type = .kStatic
        · exact ⟨[], x, l, rfl, by simp, hx⟩
        · obtain ⟨t, ht, h⟩ := hex
          have ht' : t ∈ l := by
            rcases List.mem_cons.mp ht with rfl | ht
            · exact absurd h hx
            · exact ht
          obtain ⟨A, s, B, rfl, h1, h2⟩ := ih ⟨t, ht', h⟩
          refine ⟨x :: A, s, B, rfl, ?_, h2⟩
          intro u hu
          rcases List.mem_cons.mp hu with rfl | hu
          · exact hx
          · exact h1 u hu
    have hfind : findStatic fin.id (from_ (pre ++ beg :: S ++ post) beg.id) = some (some s) := by
      rw [hfrom, ← List.cons_append, eS, List.append_assoc, List.cons_append]
      refine findStatic_some hA hs ?_
      intro t ht e
      have hfm : fin ∈ s :: B := by
        rw [eS] at hf
        rw [getLast_append (by simp)] at hf
        exact List.mem_of_getLast? hf
      rw [eS] at hd
      have hd2 : ((A ++ s :: B).map (·.id)).Nodup := by
        rw [List.append_assoc, List.map_append] at hd
        have := (List.nodup_append.mp hd).2.1
        rw [List.map_append] at this
        exact (List.nodup_append.mp this).1
      rw [List.map_append] at hd2
      exact (List.nodup_append.mp hd2).2.2 _ (List.mem_map_of_mem ht) _ (List.mem_map_of_mem hfm) e
    by_cases hm : isMoveable s = true
    · cases A with
      | nil =>
        -- it is the first token already
        rw [List.nil_append] at eS
        injection eS with e1 e2
        subst e1 e2
        refine ⟨_, fin.id, beg :: S, ?_, rfl, ?_, by rw [hf]; rfl, rfl⟩
        · unfold simpleStatic
          rw [hfind]
          simp
        · by_cases hst : StaticStays (beg :: S)
          · exact Or.inl ⟨hst, rfl, rfl⟩
          · exact Or.inr ⟨hst, [], beg, S, rfl, by simp, hs, rfl⟩
      | cons a A =>
        rw [List.cons_append] at eS
        injection eS with e1 e2
        subst e1 e2
        have hfx := Knfmt.SimpleDecl.moveable_iff.mp hm
        have e3 : pre ++ beg :: (A ++ s :: B) ++ post = pre ++ beg :: (A ++ s :: (B ++ post)) := by simp
        have hd' := hd
        rw [e3] at hd'
        obtain ⟨b', s', hmv, kb, ks, hfix⟩ := moveBefore_spec pre A (B ++ post) beg s hd' hfx
        have hne : s.id ≠ beg.id := by
          intro e
          rw [List.map_append] at hd'
          have := (List.nodup_append.mp hd').2.1
          rw [List.map_cons, List.nodup_cons] at this
          exact this.1 (e ▸ List.mem_map_of_mem (by simp))
        have hprev : prev (pre ++ beg :: (A ++ s :: B) ++ post) s.id = (beg :: A).getLast? := by
          rw [e3]
          have e4 : pre ++ beg :: (A ++ s :: (B ++ post)) = (pre ++ beg :: A) ++ s :: (B ++ post) := by simp
          rw [Knfmt.Stmt.prev_eq hd' e4, getLast_append (by simp)]
        have hstat : ¬ StaticStays (beg :: (A ++ s :: B)) := by
          rintro (h | ⟨A2, s2, B2, e5, h1, h2, h3⟩)
          · exact h s (by simp) hs
          · exact h3 (first_unique (L := beg :: A) e5 hA h1 hs h2 ▸ hfx)
        have hkeys : (pre ++ s' :: b' :: (A ++ (B ++ post))).map key = (pre ++ s :: (beg :: A ++ B) ++ post).map key := by
          simp [kb, ks]
        have hfixed : (pre ++ s' :: b' :: (A ++ (B ++ post))).flatMap fixed =
            (pre ++ beg :: (A ++ s :: B) ++ post).flatMap fixed := by
          rw [e3]
          simp only [List.flatMap_append, List.flatMap_cons, hfx, List.nil_append]
          rw [← List.append_assoc (fixed s'), hfix]
        by_cases hse : s.id = fin.id
        · obtain ⟨p, hp⟩ : ∃ p, (beg :: A).getLast? = some p := by
            cases h : (beg :: A).getLast? with
            | none => simp at h
            | some p => exact ⟨p, rfl⟩
          have hBnil : B = [] := by
            rcases List.eq_nil_or_concat B with h | ⟨C, x, rfl⟩
            · exact h
            · exfalso
              have : fin = x := by
                have : (beg :: (A ++ s :: C.concat x)).getLast? = some x := by
                  rw [show beg :: (A ++ s :: C.concat x) = (beg :: (A ++ s :: C)) ++ [x] by simp]
                  exact getLast_append (by simp)
                rw [this] at hf
                exact (Option.some.inj hf).symm
              subst this
              rw [show pre ++ beg :: (A ++ s :: (C.concat fin ++ post)) =
                (pre ++ beg :: A) ++ s :: (C ++ fin :: post) by simp, List.map_append] at hd'
              have h2 := (List.nodup_append.mp hd').2.1
              rw [List.map_cons, List.nodup_cons] at h2
              exact h2.1 (hse ▸ List.mem_map_of_mem (by simp))
          refine ⟨_, p.id, s :: (beg :: A ++ B), ?_, hkeys, Or.inr ⟨hstat, beg :: A, s, B, by simp, hA, hs, rfl⟩, ?_, hfixed⟩
          · unfold simpleStatic
            rw [hfind]
            dsimp only
            rw [if_neg (by simp [hne, hm]), if_pos hse, ← hse, hprev, hp, e3, hmv]
            rfl
          · subst hBnil
            rw [List.append_nil, List.getLast?_cons_cons, hp]
            rfl
        · refine ⟨_, fin.id, s :: (beg :: A ++ B), ?_, hkeys, Or.inr ⟨hstat, beg :: A, s, B, by simp, hA, hs, rfl⟩, ?_, hfixed⟩
          · unfold simpleStatic
            rw [hfind]
            dsimp only
            rw [if_neg (by simp [hne, hm]), if_neg hse, e3, hmv]
          · have hB : B ≠ [] := by
              rintro rfl
              apply hse
              rw [show beg :: (A ++ [s]) = (beg :: A) ++ [s] by simp, getLast_append (by simp)] at hf
              injection hf with hf
              rw [← hf]; rfl
            have h2 : (s :: (beg :: A ++ B)).getLast? = B.getLast? := by
              rw [← List.cons_append, getLast_append hB]
            have h3 : (beg :: (A ++ s :: B)).getLast? = B.getLast? := by
              rw [show beg :: (A ++ s :: B) = (beg :: (A ++ [s])) ++ B by simp, getLast_append hB]
            rw [h2, ← h3, hf]
            rfl
    · refine hstay ?_ rfl (Or.inr ⟨A, s, B, eS, hA, hs, ?_⟩)
      · unfold simpleStatic
        rw [hfind]
        dsimp only
        rw [if_pos (Or.inr (by simpa using hm))]
      · intro h
        exact hm (Knfmt.SimpleDecl.moveable_iff.mpr h)

/-! ## Cases -/

/-- Tokens with addresses `0`, `1`, ... -/
def toks (tys : List TT) : List Node := tys.zipIdx.map fun (ty, i) => { id := i, type := ty }

/-- The same for the parser. -/
def ptoks (tys : List TT) : List Knfmt.Parse.Tok := tys.zipIdx.map fun (ty, i) => { id := i, ty := ty }

/-- `const int static x;` -/
def okTypes : List TT := [.kConst, .kInt, .kStatic, .ident, .semi, .eof]

/-- The type the parser finds ends at `static`. -/
example : (Knfmt.Parse.typePeek {} none (ptoks okTypes)).map (·.fin.id) = some 2 := by decide +kernel

/-- `static const int x;`, and the type ends at `int`. -/
example : (simpleStatic (toks okTypes) 0 2).map (fun r => (r.1.map (·.id), r.2)) = some ([2, 0, 1, 3, 4, 5], 1) := by
  decide +kernel

/-- The hypotheses of `static_first_partial` are met. -/
example : ∃ spec post, toks okTypes = [] ++ spec ++ post ∧ ((toks okTypes).map (·.id)).Nodup ∧
    spec.head?.map (·.id) = some 0 ∧ spec.getLast?.map (·.id) = some 2 ∧ ¬ StaticStays spec := by
  refine ⟨(toks okTypes).take 3, (toks okTypes).drop 3, by decide, by decide, by decide, by decide, ?_⟩
  rintro (h | ⟨A, s, B, e, h1, h2, h3⟩)
  · exact h { id := 2, type := .kStatic } (by decide) rfl
  · have : s = { id := 2, type := .kStatic } :=
      (first_unique (L := [{ id := 0, type := .kConst }, { id := 1, type := .kInt }]) (B := []) e (by decide) h1 rfl h2).symm
    subst this
    exact h3 (by decide)

/-- `int (*f)(int a[static 3]);` -/
def nestedTypes : List TT := [.kInt, .lparen, .star, .ident, .rparen, .lparen, .kInt, .ident, .lsquare, .kStatic, .literal,
  .rsquare, .rparen, .semi, .eof]

/-- **C68 is false in general.** The type the parser finds in `int (*f)(int a[static 3]);` reaches to the last
parenthesis. The `static` of the array, which is not a specifier of the declaration, is taken for one:
`static int (*f)(int a[3]);` -/
theorem static_nested_fails :
    (Knfmt.Parse.typePeek {} none (ptoks nestedTypes)).map (·.fin.id) = some 12 ∧
    (∀ t ∈ outer 0 (toks nestedTypes), t.type ≠ .kStatic) ∧
    (simpleStatic (toks nestedTypes) 0 12).map (fun r => r.1.map (·.type)) =
      some [.kStatic, .kInt, .lparen, .star, .ident, .rparen, .lparen, .kInt, .ident, .lsquare, .literal,
        .rsquare, .rparen, .semi, .eof] := by
  decide +kernel

/-! ## `unsigned` and `signed` -/

/-- What is known of the tokens: no address occurs twice, and new addresses are not in use. -/
structure Ok (e : Ed) : Prop where
  nodup : (e.ts.map (·.id)).Nodup
  lt : ∀ t ∈ e.ts, t.id < e.fresh

/-- What `lexer_insert_after` does. -/
theorem insertKw_spec {e : Ed} {A B : List Node} {a : Node} (he : e.ts = A ++ a :: B) (ok : Ok e) (ty : TT) (txt : List Char) :
    ∃ e' A' a' n' B', insertKw e a.id ty txt = some e' ∧ e'.ts = A' ++ a' :: n' :: B' ∧ Ok e' ∧ n'.id = e.fresh ∧
      A'.map (Knfmt.SimpleDecl.core e'.text) = A.map (Knfmt.SimpleDecl.core e.text) ∧
      Knfmt.SimpleDecl.core e'.text a' = Knfmt.SimpleDecl.core e.text a ∧
      Knfmt.SimpleDecl.core e'.text n' = ⟨e.fresh, ty, [], txt⟩ ∧
      B'.map (Knfmt.SimpleDecl.core e'.text) = B.map (Knfmt.SimpleDecl.core e.text) := by
  have is : Knfmt.SimpleDecl.Is e (A.map (Knfmt.SimpleDecl.core e.text) ++ Knfmt.SimpleDecl.core e.text a ::
      B.map (Knfmt.SimpleDecl.core e.text)) := by
    refine ⟨by rw [he]; simp, ?_, ?_⟩
    · have h := ok.nodup
      rw [← Knfmt.SimpleDecl.ids_core (τ := e.text), he, List.map_append, List.map_cons] at h
      exact h
    · intro c hc
      rw [← List.map_cons, ← List.map_append, ← he] at hc
      obtain ⟨t, ht, rfl⟩ := List.mem_map.mp hc
      exact ok.lt t ht
  obtain ⟨e', h1, h2, h3⟩ := Knfmt.SimpleDecl.insert_core ty txt is
  obtain ⟨A', a', C, h4, h5, h6, h7⟩ := Knfmt.SimpleDecl.split_core h2.eq
  obtain ⟨n', B', rfl, h8, h9⟩ := List.map_eq_cons_iff.mp h7
  refine ⟨e', A', a', n', B', h1, h4, ⟨?_, ?_⟩, ?_, h5, h6, h8, h9⟩
  · exact Knfmt.SimpleDecl.nodup_core h2.eq h2.nodup
  · intro t ht
    exact h2.lt (Knfmt.SimpleDecl.core e'.text t) (h2.eq ▸ List.mem_map_of_mem ht)
  · exact congrArg (·.id) h8

theorem words_core {τ τ' : Nat → List Char} {A A' : List Node}
    (h : A'.map (Knfmt.SimpleDecl.core τ') = A.map (Knfmt.SimpleDecl.core τ)) :
    A'.map (word τ') = A.map (word τ) ∧ A'.flatMap fixed = A.flatMap fixed ∧ A'.map (·.id) = A.map (·.id) ∧
      A'.map key = A.map key := by
  refine ⟨?_, ?_, ?_, ?_⟩
  · have := congrArg (List.map fun c : Knfmt.SimpleDecl.Core => (c.type, c.text)) h
    rw [List.map_map, List.map_map] at this
    exact this
  · have := congrArg (List.flatMap fun c : Knfmt.SimpleDecl.Core => c.fixed) h
    rw [List.flatMap_map, List.flatMap_map] at this
    exact this
  · have := congrArg (List.map fun c : Knfmt.SimpleDecl.Core => c.id) h
    rw [List.map_map, List.map_map] at this
    exact this
  · have := congrArg (List.map fun c : Knfmt.SimpleDecl.Core => (c.id, c.type)) h
    rw [List.map_map, List.map_map] at this
    exact this

/-- A token put after another: addresses, words and comments. -/
theorem insertKw_words {e : Ed} {A B : List Node} {a : Node} (he : e.ts = A ++ a :: B) (ok : Ok e) (ty : TT) (txt : List Char) :
    ∃ e', insertKw e a.id ty txt = some e' ∧ Ok e' ∧ e'.ts.flatMap fixed = e.ts.flatMap fixed ∧
      e'.ts.map key = (A ++ [a]).map key ++ (e.fresh, ty) :: B.map key ∧
      e'.ts.map (word e'.text) = (A ++ [a]).map (word e.text) ++ (ty, txt) :: B.map (word e.text) := by
  obtain ⟨e', A', a', n', B', h1, h2, h3, h4, h5, h6, h7, h8⟩ := insertKw_spec he ok ty txt
  obtain ⟨w1, w2, -, w3⟩ := words_core h5
  obtain ⟨v1, v2, -, v3⟩ := words_core h8
  have k1 : word e'.text a' = word e.text a := congrArg (fun c : Knfmt.SimpleDecl.Core => (c.type, c.text)) h6
  have k2 : fixed a' = fixed a := congrArg (fun c : Knfmt.SimpleDecl.Core => c.fixed) h6
  have k3 : key a' = key a := congrArg (fun c : Knfmt.SimpleDecl.Core => (c.id, c.type)) h6
  have m1 : word e'.text n' = (ty, txt) := congrArg (fun c : Knfmt.SimpleDecl.Core => (c.type, c.text)) h7
  have m2 : fixed n' = [] := congrArg (fun c : Knfmt.SimpleDecl.Core => c.fixed) h7
  have m3 : key n' = (e.fresh, ty) := congrArg (fun c : Knfmt.SimpleDecl.Core => (c.id, c.type)) h7
  refine ⟨e', h1, h3, ?_, ?_, ?_⟩
  · rw [h2, he]; simp [w2, v2, k2, m2]
  · rw [h2]; simp [w3, v3, k3, m3]
  · rw [h2]; simp [w1, v1, k1, m1]

/-- **C69.** If the type consists of `unsigned` or of `signed` alone, without comments, then `int` is put after it
and is the end of the type; otherwise nothing changes. All other tokens and all comments stay. -/
theorem implicit_int {e : Ed} {pre spec post : List Node} {beg fin : Node} (he : e.ts = pre ++ spec ++ post)
    (ok : Ok e) (hb : spec.head? = some beg) (hf : spec.getLast? = some fin) :
    ∃ e' fin', simpleImplicitInt e beg.id fin.id = some (e', fin') ∧ e'.ts.flatMap fixed = e.ts.flatMap fixed ∧
      ((∃ t n, spec = [t] ∧ (t.type = .unsigned ∨ t.type = .signed) ∧ fixed t = [] ∧ n ∉ e.ts.map (·.id) ∧ fin' = n ∧
          e'.ts.map key = (pre ++ spec).map key ++ (n, .kInt) :: post.map key ∧
          e'.ts.map (word e'.text) = (pre ++ spec).map (word e.text) ++ (.kInt, "int".toList) :: post.map (word e.text)) ∨
        ((∀ t, spec = [t] → (t.type = .unsigned ∨ t.type = .signed) → fixed t ≠ []) ∧ e' = e ∧ fin' = fin.id)) := by
  have hbm : beg ∈ e.ts := by
    rw [he]
    have := List.mem_of_head? hb
    simp [this]
  have hn : node e.ts beg.id = some beg := Knfmt.Stmt.node_eq ok.nodup hbm rfl
  have hone : beg.id = fin.id ↔ ∃ t, spec = [t] := by
    constructor
    · intro h
      cases spec with
      | nil => simp at hb
      | cons x S =>
        cases S with
        | nil => exact ⟨x, rfl⟩
        | cons y S =>
          exfalso
          simp at hb
          subst hb
          rw [List.getLast?_cons_cons] at hf
          have hm := List.mem_of_getLast? hf
          have hd := ok.nodup
          rw [he, List.append_assoc, List.map_append] at hd
          have := (List.nodup_append.mp hd).2.1
          rw [List.map_append, List.map_cons] at this
          have := (List.nodup_append.mp this).1
          rw [List.nodup_cons] at this
          exact this.1 (h ▸ List.mem_map_of_mem hm)
    · rintro ⟨t, rfl⟩
      simp at hb hf
      rw [← hb, ← hf]
  have himp : ∀ ty, isImplicitInt e.ts beg.id fin.id ty = true ↔ ∃ t, spec = [t] ∧ t.type = ty ∧ fixed t = [] := by
    intro ty
    unfold isImplicitInt
    rw [hn]
    simp only [Bool.and_eq_true, decide_eq_true_eq, Knfmt.SimpleDecl.moveable_iff, hone]
    constructor
    · rintro ⟨⟨⟨t, rfl⟩, h2⟩, h3⟩
      simp at hb
      exact ⟨t, rfl, hb ▸ h2, hb ▸ h3⟩
    · rintro ⟨t, rfl, h1, h2⟩
      simp at hb
      subst hb
      exact ⟨⟨⟨t, rfl⟩, h1⟩, h2⟩
  unfold simpleImplicitInt
  by_cases hc : isImplicitInt e.ts beg.id fin.id .unsigned = true ∨ isImplicitInt e.ts beg.id fin.id .signed = true
  · have hc' : ∃ t, spec = [t] ∧ (t.type = .unsigned ∨ t.type = .signed) ∧ fixed t = [] := by
      rcases hc with h | h
      · obtain ⟨t, h1, h2, h3⟩ := (himp _).mp h; exact ⟨t, h1, Or.inl h2, h3⟩
      · obtain ⟨t, h1, h2, h3⟩ := (himp _).mp h; exact ⟨t, h1, Or.inr h2, h3⟩
    obtain ⟨t, rfl, h2, h3⟩ := hc'
    rw [if_neg (by simp only [Bool.and_eq_true, Bool.not_eq_true', not_and, Bool.not_eq_false]; grind)]
    simp at hf
    subst hf
    obtain ⟨e', g1, g2, g3, g4, g5⟩ := insertKw_words (A := pre) (B := post) (a := t) (by rw [he]; simp) ok .kInt ['i', 'n', 't']
    rw [g1]
    refine ⟨e', e.fresh, rfl, g3, Or.inl ⟨t, e.fresh, rfl, h2, h3, ?_, rfl, g4, g5⟩⟩
    intro hm
    obtain ⟨u, hu, h⟩ := List.mem_map.mp hm
    have := ok.lt u hu
    omega
  · rw [if_pos (by simp only [Bool.and_eq_true, Bool.not_eq_true']; grind)]
    refine ⟨e, fin.id, rfl, rfl, Or.inr ⟨?_, rfl, rfl⟩⟩
    intro t h1 h2 h3
    apply hc
    rcases h2 with h2 | h2
    · exact Or.inl ((himp _).mpr ⟨t, h1, h2, h3⟩)
    · exact Or.inr ((himp _).mpr ⟨t, h1, h2, h3⟩)

/-- `unsigned x;` -/
def intEd : Ed := { ts := toks [.unsigned, .ident, .semi, .eof], text := fun _ => [], fresh := 4 }

example : Ok intEd := ⟨by decide, by decide⟩

example : (simpleImplicitInt intEd 0 0).map (fun r => (r.1.ts.map key, r.2)) =
    some ([(0, .unsigned), (4, .kInt), (1, .ident), (2, .semi), (3, .eof)], 4) := by decide +kernel

end Knfmt.Small
