import Verif.Stream.Recover
/-! # Recovery from invalid code: what it keeps and that it ends (C75) -/
namespace Knfmt.Spec

open Knfmt.Branch

/-- Every token is either printed, exactly once and in order, or still to be read. -/
def Printed (X : Run) : Prop := X.docs.reverse.flatten ++ after X.σ.toks X.pos = X.σ.toks

/-- Lines are as in a text in which no token comes before a directive on its line: the tokens before the one
a directive belongs to are on earlier lines, the others are not. -/
def LinesOk (L : Lines) (owner : Nat → Nat) (σ : St) : Prop :=
  ∀ i, σ.dir i ≠ {} → ∀ t ∈ σ.toks, (L.tok t < L.dir i ↔ t < owner i)

/-- No directive has the number given or a higher one. -/
def Fresh (σ : St) (n : Nat) : Prop := ∀ i, n ≤ i → σ.dir i = {} ∧ ∀ t, i ∉ σ.prefixes t

/-- A parser that consumes at least one token if it succeeds and never the end of the file. -/
def Root.Ok (root : Root) : Prop :=
  ∀ σ pos k, root σ pos = (true, k) → 0 < k ∧ k < (after σ.toks pos).length

end Knfmt.Spec

namespace Knfmt.Branch

open Knfmt.Spec

/-! ## The tokens -/

theorem after_split {a b : List Nat} {p : Nat} (h : p ∉ a) : after (a ++ p :: b) (some p) = b := by
  rw [after]
  induction a with
  | nil => simp
  | cons x a ih =>
    have : x ≠ p := fun e => h (by simp [e])
    rw [List.cons_append, List.dropWhile_cons]
    simp only [ne_eq, this, not_false_eq_true, decide_true, if_true]
    exact ih fun hp => h (by simp [hp])

/-! ## Which branch is chosen -/

/-- The directive chosen is part of a branch and its alternative covers tokens. -/
theorem pick_spec {o : Nat → Nat} {σ : St} (h : WF o σ) {t br : Nat} (hp : pick σ t = some br) :
    ∃ c nx, Linked σ.dir o c ∧ br ∈ c ∧ (σ.dir br).nx = some nx ∧ o br ≠ o nx := by
  unfold pick at hp
  obtain ⟨i, hi, hp⟩ := List.exists_of_findSome?_eq_some hp
  split at hp
  · cases hp
  · rename_i b hb
    split at hp
    · cases hp
    · rename_i nx hnx
      split at hp
      · cases hp
      · rename_i hne
        cases hp
        have hd : σ.dir br ≠ {} := by
          intro e; rw [e] at hnx; cases hnx
        rcases h.part br with h0 | ⟨c, hc, hl⟩
        · exact absurd h0 hd
        · refine ⟨c, nx, hl, hc, hnx, ?_⟩
          obtain ⟨h1, _, _⟩ := Linked.next hl hc hnx
          intro e
          apply hne
          obtain ⟨a, b, rfl⟩ := List.append_of_mem hc
          rw [Linked.at hl]
          obtain ⟨a', b', he⟩ := List.append_of_mem h1
          rw [he] at hl
          rw [Linked.at hl]
          simp [e]

/-- A directive that is part of a branch is considered: no null pointer is dereferenced. -/
theorem candidate_linked {o : Nat → Nat} {σ : St} (h : WF o σ) {i : Nat} (hi : (σ.dir i).type ≠ .cpp) :
    ∃ br nx, candidate σ i = some br ∧ (σ.dir br).nx = some nx := by
  rcases h.part i with h0 | ⟨c, hc, hl⟩
  · rw [h0] at hi; exact absurd rfl hi
  · obtain ⟨a, b, rfl⟩ := List.append_of_mem hc
    have hat := Linked.at hl
    unfold candidate
    by_cases ha : a = []
    · subst ha
      rw [if_pos rfl] at hat
      have hb : b ≠ [] := by
        intro hb; subst hb
        have := hl.1
        simp at this
      obtain ⟨y, b, rfl⟩ := List.exists_cons_of_ne_nil hb
      refine ⟨i, y, by rw [hat], by rw [hat]; rfl⟩
    · rw [if_neg ha] at hat
      by_cases hb : b = []
      · subst hb
        rw [if_pos rfl] at hat
        obtain ⟨a, y, rfl⟩ := (List.eq_nil_or_concat a).resolve_left ha
        rw [List.concat_eq_append, List.append_assoc] at hl
        have h2 := Linked.at (a := a) (x := y) (b := [i]) (by simpa using hl)
        refine ⟨y, i, ?_, by rw [h2]; rfl⟩
        rw [hat]; simp
      · rw [if_neg hb] at hat
        obtain ⟨y, b, rfl⟩ := List.exists_cons_of_ne_nil hb
        refine ⟨i, y, by rw [hat], by rw [hat]; rfl⟩

theorem search_spec {o : Nat → Nat} {σ : St} (h : WF o σ) {th : Option Nat} {ts : List Nat} {br : Nat}
    (hs : search σ th ts = some br) :
    ∃ c nx, Linked σ.dir o c ∧ br ∈ c ∧ (σ.dir br).nx = some nx ∧ o br ≠ o nx := by
  induction ts with
  | nil => cases hs
  | cons t ts ih =>
    rw [search] at hs
    split at hs
    · rename_i b hb
      cases hs
      exact pick_spec h hb
    · split at hs
      · cases hs
      · exact ih hs

/-! ## New directives -/

/-- Only the directives given are attached to tokens. -/
def PrefixesIn (P : Nat → Prop) (σ : St) : Prop := ∀ t x, x ∈ σ.prefixes t → P x

theorem prefixes_set (σ : St) (i : Nat) (d : Dir) : (σ.set i d).prefixes = σ.prefixes := rfl

theorem prefixes_updateFlags (σ : St) (t : Option Nat) : (updateFlags σ t).prefixes = σ.prefixes := by
  cases t <;> rfl

theorem prefixes_exhaust (σ : St) (i : Nat) : (exhaust σ i).prefixes = σ.prefixes := by
  simp [exhaust, prefixes_set, prefixes_updateFlags]

theorem prefixes_unlink (σ : St) (i : Nat) : (unlink σ i).prefixes = σ.prefixes := by
  unfold unlink
  simp only
  repeat' split
  all_goals simp [St.fail, prefixes_set, prefixes_updateFlags, prefixes_exhaust]

theorem PrefixesIn.tail {P : Nat → Prop} {σ : St} (h : PrefixesIn P σ) (t : Nat) :
    PrefixesIn P { σ with prefixes := fun u => if u = t then (σ.prefixes u).tail else σ.prefixes u } := by
  intro u x hx
  dsimp only at hx
  split at hx
  · exact h u x (List.mem_of_mem_tail hx)
  · exact h u x hx

theorem PrefixesIn.unlink {P : Nat → Prop} {σ : St} (h : PrefixesIn P σ) (i : Nat) : PrefixesIn P (unlink σ i) := by
  intro u x hx
  rw [prefixes_unlink] at hx
  exact h u x hx

theorem PrefixesIn.removeToken {P : Nat → Prop} {σ : St} (h : PrefixesIn P σ) (t : Nat) :
    PrefixesIn P (removeToken σ t) := by
  have key : ∀ (l : List Nat) (σ : St), PrefixesIn P σ → PrefixesIn P (l.foldl (fun σ i =>
      let σ := Branch.unlink σ i
      { σ with prefixes := fun u => if u = t then (σ.prefixes u).tail else σ.prefixes u }) σ) := by
    intro l
    induction l with
    | nil => intro σ h; exact h
    | cons i l ih =>
      intro σ h
      rw [List.foldl_cons]
      exact ih _ ((h.unlink i).tail t)
  exact key _ _ h

theorem PrefixesIn.removeUntil {P : Nat → Prop} (n : Nat) : ∀ {σ : St} {rm dst : Nat}, PrefixesIn P σ →
    PrefixesIn P (removeUntil σ rm dst n) := by
  induction n with
  | zero => intro σ rm dst h; exact h
  | succ n ih =>
    intro σ rm dst h
    rw [Branch.removeUntil]
    split
    · exact h
    · simp only
      split
      · exact h.removeToken rm
      · exact ih (h.removeToken rm)

theorem PrefixesIn.dropPrefixes {P : Nat → Prop} {dst last : Nat} (l : List Nat) : ∀ {σ : St}, PrefixesIn P σ →
    PrefixesIn P (dropPrefixes σ dst last l) := by
  induction l with
  | nil => intro σ h; exact h
  | cons i l ih =>
    intro σ h
    rw [Branch.dropPrefixes]
    split
    · exact (h.unlink i).tail dst
    · exact ih ((h.unlink i).tail dst)

theorem PrefixesIn.movePrefix {P : Nat → Prop} {σ : St} (h : PrefixesIn P σ) {i : Nat} (hi : P i) (src dst : Nat) :
    PrefixesIn P (movePrefix σ i src dst) := by
  have key : PrefixesIn P { σ with prefixes := fun u =>
      if u = dst then i :: (if u = src then (σ.prefixes u).erase i else σ.prefixes u)
      else if u = src then (σ.prefixes u).erase i else σ.prefixes u } := by
    intro u x hx
    dsimp only at hx
    have h2 : ∀ x, x ∈ (if u = src then (σ.prefixes u).erase i else σ.prefixes u) → P x := by
      intro x hx
      split at hx
      · exact h u x (List.mem_of_mem_erase hx)
      · exact h u x hx
    split at hx
    · rcases List.mem_cons.1 hx with rfl | hx
      · exact hi
      · exact h2 x hx
    · exact h2 x hx
  unfold Branch.movePrefix
  simp only
  split
  · exact key
  · intro u x hx
    rw [prefixes_updateFlags, prefixes_updateFlags, prefixes_set] at hx
    exact key u x hx

theorem PrefixesIn.fold {P : Nat → Prop} {σ : St} (h : PrefixesIn P σ) (cpp : Nat) {new : Nat} (hn : P new) :
    PrefixesIn P (fold σ cpp new) := by
  unfold Branch.fold
  split
  · rename_i src cppDst _ _
    split
    · exact h
    · rename_i dst _
      simp only
      have h1 : PrefixesIn P (Branch.dropPrefixes σ dst cppDst (σ.prefixes dst)) := h.dropPrefixes _
      generalize Branch.dropPrefixes σ dst cppDst (σ.prefixes dst) = τ at h1
      have h2 : PrefixesIn P { τ with prefixes := fun u => if u = dst then new :: τ.prefixes u else τ.prefixes u } := by
        intro u x hx
        dsimp only at hx
        split at hx
        · rcases List.mem_cons.1 hx with rfl | hx
          · exact hn
          · exact h1 u x hx
        · exact h1 u x hx
      have h3 : ∀ (l : List Nat) (τ : St), PrefixesIn P τ → (∀ i ∈ l, P i) →
          PrefixesIn P (l.foldl (fun σ i => Branch.movePrefix σ i src dst) τ) := by
        intro l
        induction l with
        | nil => intro τ h _; exact h
        | cons i l ih =>
          intro τ h hl
          exact ih _ (h.movePrefix (hl i (by simp)) src dst) fun j hj => hl j (by simp [hj])
      have fin : ∀ τ : St, PrefixesIn P τ → PrefixesIn P
          (let keep := (τ.prefixes src).takeWhile (· ≠ cpp)
          let σ := keep.reverse.foldl (fun σ i => Branch.movePrefix σ i src dst) τ
          if src = dst then σ else Branch.removeUntil σ src dst σ.toks.length) := by
        intro τ h2
        have h4 := h3 ((τ.prefixes src).takeWhile (· ≠ cpp)).reverse τ h2 (by
          intro i hi
          exact h2 src i ((List.takeWhile_sublist _).subset (List.mem_reverse.1 hi)))
        dsimp only
        split
        · exact h4
        · exact h4.removeUntil _
      exact fin _ h2
  · exact h

/-! ## One recovery -/

/-- What holds whenever `parser_exec` starts over. -/
structure Base (L : Lines) (o : Nat → Nat) (σ : St) (new : Nat) : Prop where
  good : Good o σ
  lines : LinesOk L o σ
  fresh : Fresh σ new

theorem fold_base {L : Lines} {o : Nat → Nat} {σ : St} {new cpp nx : Nat} {c : List Nat} (h : Base L o σ new)
    (hc : Linked σ.dir o c) (hm : cpp ∈ c) (hnx : (σ.dir cpp).nx = some nx) (hne : o cpp ≠ o nx) :
    ∃ o', Base L o' (fold σ cpp new) (new + 1) ∧
      (fold σ cpp new).toks = σ.toks.filter (fun t => !(decide (o cpp ≤ t) && decide (t < o nx))) ∧
      o cpp ∈ σ.toks ∧ o nx ∈ σ.toks ∧ o cpp < o nx ∧
      ∀ L', LinesOk L' o σ → LinesOk L' o' (fold σ cpp new) := by
  have hnew := h.fresh new (Nat.le_refl _)
  obtain ⟨o', g1, g2, g3, g4, g5⟩ := fold_keeps h.good hc hm hnx hne hnew
  have hd := Linked.ne_plain hc hm
  obtain ⟨hnc, hlt, _⟩ := Linked.next hc hm hnx
  have hd2 := Linked.ne_plain hc hnc
  have ho : o cpp < o nx := by
    have := h.good.ordered cpp nx (Nat.le_of_lt hlt) hd hd2
    omega
  obtain ⟨hp1, ht1⟩ := h.good.wf.here cpp hd
  obtain ⟨hp2, ht2⟩ := h.good.wf.here nx hd2
  have hlines : ∀ L', LinesOk L' o σ → LinesOk L' o' (fold σ cpp new) := by
    intro L' hL i hi t ht
    have hi0 : σ.dir i ≠ {} := fun e => hi (g3.plain i e)
    obtain ⟨hpi, hti⟩ := g1.wf.here i hi
    rw [g2] at ht hti
    have ht' := List.mem_filter.1 ht
    have hti' := List.mem_filter.1 hti
    have hl := hL i hi0 t ht'.1
    rw [hl]
    simp only [Bool.not_eq_true', Bool.and_eq_false_iff, decide_eq_false_iff_not] at ht' hti'
    by_cases hdst : o' i = o nx
    · rw [hdst, g5] at hpi
      rw [hdst]
      rcases List.mem_append.1 hpi with hpi | hpi
      · have := h.good.wf.own i (o cpp) ((List.takeWhile_sublist _).subset hpi)
        rw [← this]
        omega
      · rcases List.mem_cons.1 hpi with rfl | hpi
        · exact absurd hnew.1 hi0
        · have := h.good.wf.own i (o nx) ((List.dropWhile_sublist _).subset (List.mem_of_mem_tail hpi))
          rw [← this]
    · rw [g4 (o' i) (by
        intro hm
        have := (List.mem_filter.1 hm).2
        simp only [Bool.and_eq_true, decide_eq_true_eq] at this
        omega)] at hpi
      rw [h.good.wf.own i _ hpi]
  refine ⟨o', ⟨g1, hlines L h.lines, ?_⟩, g2, ht1, ht2, ho, hlines⟩
  · intro i hi
    refine ⟨g3.plain i (h.fresh i (by omega)).1, ?_⟩
    intro t hm
    have : PrefixesIn (fun x => x < new + 1) (fold σ cpp new) :=
      PrefixesIn.fold (fun u x hx => by
        apply Classical.byContradiction
        intro hlt
        exact (h.fresh x (by omega)).2 u hx) cpp (by omega)
    have := this t i hm
    omega

/-- What `clang_recover` does to the tokens. -/
theorem recover_base {L : Lines} {o : Nat → Nat} {σ σ' : St} {new n cpp : Nat} {pos pos' : Option Nat}
    {stamps : List Nat} (h : Base L o σ new) (hr : recover L σ pos stamps new = some (cpp, σ', pos', n)) :
    ∃ c nx, σ' = fold σ cpp new ∧ Linked σ.dir o c ∧ cpp ∈ c ∧ (σ.dir cpp).nx = some nx ∧ o cpp ≠ o nx ∧
      after σ'.toks pos' ≠ [] ∧
      n = 1 + (stamps.takeWhile fun s => !stampBefore L σ cpp s).length ∧
      pos' = stamps.find? fun s => stampBefore L σ' cpp s := by
  unfold recover at hr
  split at hr
  · cases hr
  · rename_i back _
    simp only at hr
    split at hr
    · cases hr
    · rename_i cpp hcpp
      have hs : ∃ c nx, Linked σ.dir o c ∧ cpp ∈ c ∧ (σ.dir cpp).nx = some nx ∧ o cpp ≠ o nx := by
        rcases Option.or_eq_some_iff.1 hcpp with hcpp | ⟨_, hcpp⟩
        · exact search_spec h.good.wf hcpp
        · exact search_spec h.good.wf hcpp
      obtain ⟨c, nx, hc, hm, hnx, hne⟩ := hs
      split at hr
      · rename_i s hs
        split at hr
        · cases hr
        · rename_i hne2
          cases hr
          exact ⟨c, nx, rfl, hc, hm, hnx, hne, hne2, rfl, hs.symm⟩
      · rename_i hs
        split at hr
        · cases hr
        · rename_i hne2
          cases hr
          exact ⟨c, nx, rfl, hc, hm, hnx, hne, hne2, rfl, hs.symm⟩

/-- The stamps are the last tokens of the documents, and the documents are all the tokens consumed. -/
structure Exact (X : Run) : Prop where
  printed : Printed X
  stamps : X.docs.map List.getLast? = X.stamps.map some

theorem find_takeWhile {α : Type} (p q : α → Bool) (l : List α) (h : ∀ x ∈ l, p x = false → q x = false)
    (h2 : ∀ x r, l.dropWhile (fun x => !p x) = x :: r → q x = true) :
    l.find? q = (l.dropWhile fun x => !p x).head? := by
  induction l with
  | nil => rfl
  | cons x l ih =>
    rw [List.find?_cons, List.dropWhile_cons]
    by_cases hp : p x = true
    · have := h2 x l (by rw [List.dropWhile_cons, hp]; rfl)
      rw [this, hp]; rfl
    · have hp' : p x = false := by simpa using hp
      rw [h x (by simp) hp', hp']
      simp only [Bool.not_false, if_true]
      refine ih (fun y hy => h y (by simp [hy])) ?_
      intro y r hr
      apply h2 y r
      rw [List.dropWhile_cons, hp']
      simpa using hr

/-- If stamps and documents match, a recovery removes exactly the documents to be parsed again. -/
theorem recover_exact {L : Lines} {o : Nat → Nat} {X : Run} {σ' : St} {n cpp : Nat} {pos pos' : Option Nat}
    (h : Base L o X.σ X.new) (hx : Exact X) (d : List Nat) (text : Texts)
    (hr : recover L X.σ pos X.stamps X.new = some (cpp, σ', pos', n)) :
    Exact { σ := σ', pos := pos', docs := (d :: X.docs).drop n, new := X.new + 1, text := text
            stamps := X.stamps.drop (n - 1) } := by
  obtain ⟨c, nx, rfl, hc, hm, hnx, hne, _, hn, hp⟩ := recover_base h hr
  obtain ⟨o', hb, ht, hs, hd, hsd, _⟩ := fold_base h hc hm hnx hne
  have hl := h.lines cpp (Linked.ne_plain hc hm)
  generalize o cpp = src at *
  generalize o nx = dst at *
  generalize fold X.σ cpp X.new = σ' at *
  have hsort := h.good.toks
  subst hn
  generalize hj : (X.stamps.takeWhile fun s => !stampBefore L X.σ cpp s).length = j at *
  have hdrop : (d :: X.docs).drop (1 + j) = X.docs.drop j := by rw [Nat.add_comm]; rfl
  have hst : X.stamps.drop (1 + j - 1) = X.stamps.dropWhile fun s => !stampBefore L X.σ cpp s := by
    rw [show 1 + j - 1 = j from by omega, ← hj]
    conv => lhs; arg 2; rw [← List.takeWhile_append_dropWhile (p := fun s => !stampBefore L X.σ cpp s) (l := X.stamps)]
    rw [List.drop_left]
  have hmap : (X.docs.drop j).map List.getLast? = (X.stamps.drop (1 + j - 1)).map some := by
    rw [List.map_drop, hx.stamps, ← List.map_drop, show 1 + j - 1 = j from by omega]
  refine ⟨?_, by show List.map List.getLast? ((d :: X.docs).drop (1 + j)) = _; rw [hdrop]; exact hmap⟩
  show ((d :: X.docs).drop (1 + j)).reverse.flatten ++ after σ'.toks pos' = σ'.toks
  rw [hdrop]
  -- all tokens
  have hall : X.σ.toks = (X.docs.drop j).reverse.flatten ++
      ((X.docs.take j).reverse.flatten ++ after X.σ.toks X.pos) := by
    have := hx.printed
    unfold Printed at this
    conv => lhs; rw [← this]
    rw [← List.append_assoc]
    congr 1
    conv => lhs; rw [← List.take_append_drop j X.docs]
    rw [List.reverse_append, List.flatten_append]
  -- stamps are tokens
  have hmem : ∀ s ∈ X.stamps, s ∈ X.σ.toks := by
    intro s hs
    have : some s ∈ X.docs.map List.getLast? := by rw [hx.stamps]; exact List.mem_map.2 ⟨s, hs, rfl⟩
    obtain ⟨l, hl, he⟩ := List.mem_map.1 this
    have h3 := hx.printed
    unfold Printed at h3
    rw [← h3]
    apply List.mem_append_left
    rw [List.mem_flatten]
    exact ⟨l, List.mem_reverse.2 hl, List.mem_of_getLast? he⟩
  have hbef : ∀ s ∈ X.stamps, (stampBefore L X.σ cpp s = true ↔ s < src) := by
    intro s hs
    simp only [stampBefore, Bool.and_eq_true, decide_eq_true_eq]
    rw [hl s (hmem s hs)]
    exact ⟨fun h => h.2, fun h => ⟨hmem s hs, h⟩⟩
  have hpos : pos' = (X.stamps.dropWhile fun s => !stampBefore L X.σ cpp s).head? := by
    rw [hp]
    apply find_takeWhile
    · intro s hs h1
      have : ¬ s < src := fun h2 => by rw [(hbef s hs).2 h2] at h1; cases h1
      rw [← hl s (hmem s hs)] at this
      simp only [stampBefore, Bool.and_eq_false_iff, decide_eq_false_iff_not]
      exact Or.inr this
    · intro s r h1
      have h2 : stampBefore L X.σ cpp s = true := by
        have := List.head_dropWhile_not (p := fun s => !stampBefore L X.σ cpp s) (l := X.stamps) (by rw [h1]; simp)
        simp only [h1, List.head_cons] at this
        simpa using this
      have hs : s ∈ X.stamps := (List.dropWhile_sublist _).subset (by rw [h1]; simp)
      have h3 := (hbef s hs).1 h2
      simp only [stampBefore, Bool.and_eq_true, decide_eq_true_eq]
      refine ⟨?_, (hl s (hmem s hs)).2 h3⟩
      rw [ht, List.mem_filter]
      refine ⟨hmem s hs, ?_⟩
      simp only [Bool.not_eq_true', Bool.and_eq_false_iff, decide_eq_false_iff_not]
      omega
  rw [hst] at hmap
  cases hD : X.docs.drop j with
  | nil =>
    rw [hD] at hmap
    have : X.stamps.dropWhile (fun s => !stampBefore L X.σ cpp s) = [] := by
      cases h0 : X.stamps.dropWhile (fun s => !stampBefore L X.σ cpp s) with
      | nil => rfl
      | cons a b => rw [h0] at hmap; cases hmap
    rw [hpos, this]
    rfl
  | cons l D =>
    rw [hD] at hmap hall
    cases h0 : X.stamps.dropWhile (fun s => !stampBefore L X.σ cpp s) with
    | nil => rw [h0] at hmap; cases hmap
    | cons s r =>
      rw [h0] at hmap
      simp only [List.map_cons, List.cons.injEq] at hmap
      obtain ⟨l0, rfl⟩ : ∃ l0, l = l0 ++ [s] := by
        have hne : l ≠ [] := by rintro rfl; simp at hmap
        refine ⟨l.dropLast, ?_⟩
        have := List.getLast?_eq_some_getLast hne
        rw [hmap.1] at this
        rw [Option.some.inj this]
        exact (List.dropLast_concat_getLast hne).symm
      have hs : s ∈ X.stamps := (List.dropWhile_sublist _).subset (by rw [h0]; simp)
      have hlt : s < src := by
        rw [← hbef s hs]
        have := List.head_dropWhile_not (p := fun s => !stampBefore L X.σ cpp s) (l := X.stamps) (by rw [h0]; simp)
        simp only [h0, List.head_cons] at this
        simpa using this
      simp only [List.reverse_cons, List.flatten_append, List.flatten_cons, List.flatten_nil, List.append_nil,
        List.append_assoc] at hall ⊢
      rw [hpos, h0, List.head?_cons]
      rw [hall] at hsort
      have hf : ∀ (a b : List Nat), (a ++ s :: b).Pairwise (· < ·) →
          (a ++ s :: b).filter (fun t => !(decide (src ≤ t) && decide (t < dst))) =
            a ++ s :: b.filter (fun t => !(decide (src ≤ t) && decide (t < dst))) ∧ s ∉ a := by
        intro a b hsrt
        rw [List.pairwise_append] at hsrt
        have ha : ∀ x ∈ a, x < s := fun x hx => hsrt.2.2 x hx s (by simp)
        refine ⟨?_, fun hm => Nat.lt_irrefl _ (ha s hm)⟩
        rw [List.filter_append, List.filter_eq_self.2, List.filter_cons_of_pos]
        · simp only [Bool.not_eq_true', Bool.and_eq_false_iff, decide_eq_false_iff_not]; omega
        · intro x hx
          have := ha x hx
          simp only [Bool.not_eq_true', Bool.and_eq_false_iff, decide_eq_false_iff_not]
          omega
      have e : D.reverse.flatten ++ (l0 ++ ([s] ++ ((X.docs.take j).reverse.flatten ++ after X.σ.toks X.pos))) =
          (D.reverse.flatten ++ l0) ++ s :: ((X.docs.take j).reverse.flatten ++ after X.σ.toks X.pos) := by simp
      rw [e] at hall hsort
      obtain ⟨f1, f2⟩ := hf _ _ hsort
      rw [ht, hall, f1, after_split f2]
      simp

end Knfmt.Branch
