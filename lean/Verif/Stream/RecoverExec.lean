import Verif.Stream.RecoverProps
/-! # Recovery from invalid code: whole runs of the parser (C75) -/
namespace Knfmt.Spec

open Knfmt.Branch

/-- The directives attached to tokens, in order. -/
def directives (σ : St) : List Nat := σ.toks.flatMap σ.prefixes

/-- The directives of the file whose text is part of a text. -/
def span (p : Nat × Nat) : List Nat := List.range' p.1 (p.2 + 1 - p.1)

/-- Nothing of the file is missing: the texts of the directives that are there are those of all directives of
the file, each once and in order, and every token is either there or part of the text of a directive, that is
it comes after the first of the directives that text starts with and before the one it ends with. -/
def Complete (F : File) (X : Run) : Prop :=
  (directives X.σ).flatMap (fun i => span (X.text i)) = List.range F.n ∧
  ∀ t, t < F.ntoks → t ∈ X.σ.toks ∨
    ∃ i ∈ directives X.σ, F.owner (X.text i).1 ≤ t ∧ t < F.owner (X.text i).2

/-- All tokens but the end of the file are printed, each exactly once and in order. -/
def AllPrinted (X : Run) : Prop := X.docs.reverse.flatten = X.σ.toks.dropLast

/-- A file as read. -/
structure FileOk (F : File) : Prop where
  owner : ∀ i, i < F.n → F.owner i < F.ntoks
  sorted : ∀ i j, i ≤ j → j < F.n → F.owner i ≤ F.owner j
  eof : 0 < F.ntoks

/-- No token is before a directive on its line. -/
def Lines.Ok (L : Lines) (F : File) : Prop :=
  ∀ i, i < F.n → ∀ t, t < F.ntoks → (L.tok t < L.dir i ↔ t < F.owner i)

/-- The parser starts with all of the file. -/
def start (F : File) : Run := { σ := F.final, new := F.n }

end Knfmt.Spec

namespace Knfmt.Branch

open Knfmt.Spec

/-! ## Nothing is missing -/

theorem range_part {n a b : Nat} {A B : List Nat} {S : List Nat} (h : List.range n = A ++ (S ++ B))
    (ha : S.head? = some a) (hb : S.getLast? = some b) : S = List.range' a (b + 1 - a) := by
  have hS : S = List.range' A.length S.length := by
    have h1 : S = ((List.range n).drop A.length).take S.length := by rw [h]; simp
    have hl : A.length + S.length ≤ n := by
      have := congrArg List.length h
      simp at this
      omega
    refine List.ext_getElem (by simp) ?_
    intro i h2 h3
    have h4 : S[i]? = ((List.range n).drop A.length)[i]? := by
      rw [h]; simp [List.getElem?_append_left h2]
    rw [List.getElem?_eq_getElem h2, List.getElem?_drop, List.getElem?_range (by omega)] at h4
    rw [Option.some.inj h4, List.getElem_range']
    omega
  generalize A.length = k at hS
  generalize hm : S.length = m at hS
  subst hS
  cases m with
  | zero => simp at ha
  | succ m =>
    rw [List.range'_succ, List.head?_cons] at ha
    have hka : k = a := Option.some.inj ha
    rw [List.range'_concat] at hb
    simp at hb
    subst hka
    congr 1
    omega

/-- Folding replaces the directives from one to the other by the one made up. -/
theorem fold_directives {o : Nat → Nat} {σ : St} {new cpp nx : Nat} {c : List Nat} (h : Good o σ)
    (hf : Fresh σ new) (hc : Linked σ.dir o c) (hm : cpp ∈ c) (hnx : (σ.dir cpp).nx = some nx)
    (hne : o cpp ≠ o nx) :
    ∃ P1 S P2, directives σ = P1 ++ (S ++ P2) ∧ directives (fold σ cpp new) = P1 ++ new :: P2 ∧
      S.head? = some cpp ∧ S.getLast? = some nx := by
  obtain ⟨o', g1, g2, _, g4, g5⟩ := fold_keeps h hc hm hnx hne (hf new (Nat.le_refl _))
  have hd := Linked.ne_plain hc hm
  obtain ⟨hnc, hlt, _⟩ := Linked.next hc hm hnx
  have hd2 := Linked.ne_plain hc hnc
  have ho : o cpp < o nx := by
    have := h.ordered cpp nx (Nat.le_of_lt hlt) hd hd2
    omega
  obtain ⟨hp1, ht1⟩ := h.wf.here cpp hd
  obtain ⟨hp2, ht2⟩ := h.wf.here nx hd2
  generalize o cpp = src at *
  generalize o nx = dst at *
  obtain ⟨A, R, hA⟩ := List.append_of_mem ht1
  have hsort := h.toks
  rw [hA] at hsort ht2
  have hs := List.pairwise_append.1 hsort
  have hs2 := List.pairwise_cons.1 hs.2.1
  have hdR : dst ∈ R := by
    rcases List.mem_append.1 ht2 with hx | hx
    · have := hs.2.2 dst hx src (by simp); omega
    · rcases List.mem_cons.1 hx with hx | hx
      · omega
      · exact hx
  obtain ⟨M, B, hM⟩ := List.append_of_mem hdR
  subst hM
  have hs3 := List.pairwise_append.1 hs2.2
  have hs4 := List.pairwise_cons.1 hs3.2.1
  have hAlt : ∀ x ∈ A, x < src := fun x hx => hs.2.2 x hx src (by simp)
  have hMlt : ∀ x ∈ M, src < x ∧ x < dst := fun x hx => ⟨hs2.1 x (by simp [hx]), hs3.2.2 x hx dst (by simp)⟩
  have hBlt : ∀ x ∈ B, dst < x := fun x hx => hs4.1 x hx
  have htoks : (fold σ cpp new).toks = A ++ dst :: B := by
    rw [g2, hA]
    have p : ∀ x, x < src ∨ dst ≤ x → (fun t => !(decide (src ≤ t) && decide (t < dst))) x = true := by
      intro x hx
      simp only [Bool.not_eq_true', Bool.and_eq_false_iff, decide_eq_false_iff_not]
      omega
    have q : ∀ x, src ≤ x ∧ x < dst → ¬ (fun t => !(decide (src ≤ t) && decide (t < dst))) x = true := by
      intro x hx
      simp [hx.1, hx.2]
    generalize (fun t => !(decide (src ≤ t) && decide (t < dst))) = g at p q
    rw [List.filter_append, List.filter_eq_self.2 fun x hx => p x (Or.inl (hAlt x hx)),
      List.filter_cons_of_neg (q src ⟨Nat.le_refl _, ho⟩), List.filter_append,
      List.filter_eq_nil_iff.2 fun x hx => q x ⟨Nat.le_of_lt (hMlt x hx).1, (hMlt x hx).2⟩,
      List.filter_cons_of_pos (p dst (Or.inr (Nat.le_refl _))),
      List.filter_eq_self.2 fun x hx => p x (Or.inr (Nat.le_of_lt (hBlt x hx)))]
    simp
  have hout : ∀ t, t < src ∨ dst < t → (fold σ cpp new).prefixes t = σ.prefixes t := by
    intro t ht
    apply g4
    intro hm
    have := (List.mem_filter.1 hm).2
    simp only [Bool.and_eq_true, decide_eq_true_eq] at this
    omega
  obtain ⟨k2, hk, hk1⟩ := takeWhile_ne_split hp1
  obtain ⟨l2, hl, hl1⟩ := takeWhile_ne_split hp2
  have hdw : ((σ.prefixes dst).dropWhile (· ≠ nx)).tail = l2 := by
    have := List.takeWhile_append_dropWhile (p := (· ≠ nx)) (l := σ.prefixes dst)
    have h2 : (σ.prefixes dst).takeWhile (· ≠ nx) ++ (σ.prefixes dst).dropWhile (· ≠ nx) =
        (σ.prefixes dst).takeWhile (· ≠ nx) ++ nx :: l2 := this.trans hl
    rw [List.append_cancel_left h2]; rfl
  have hflat : ∀ (l : List Nat), (∀ x ∈ l, x < src ∨ dst < x) →
      l.flatMap (fold σ cpp new).prefixes = l.flatMap σ.prefixes := by
    intro l hl
    induction l with
    | nil => rfl
    | cons x l ih =>
      rw [List.flatMap_cons, List.flatMap_cons, hout x (hl x (by simp)), ih fun y hy => hl y (by simp [hy])]
  refine ⟨A.flatMap σ.prefixes ++ (σ.prefixes src).takeWhile (· ≠ cpp),
    cpp :: k2 ++ (M.flatMap σ.prefixes ++ ((σ.prefixes dst).takeWhile (· ≠ nx) ++ [nx])),
    l2 ++ B.flatMap σ.prefixes, ?_, ?_, rfl, ?_⟩
  · rw [directives, hA]
    simp only [List.flatMap_append, List.flatMap_cons]
    have e : ∀ a b : List Nat, σ.prefixes src ++ (a ++ (σ.prefixes dst ++ b)) =
        (σ.prefixes src).takeWhile (· ≠ cpp) ++ cpp :: k2 ++ (a ++
          ((σ.prefixes dst).takeWhile (· ≠ nx) ++ nx :: l2 ++ b)) := by
      intro a b; rw [← hk, ← hl]
    rw [e]
    simp only [List.append_assoc, List.cons_append, List.nil_append]
  · rw [directives, htoks]
    simp only [List.flatMap_append, List.flatMap_cons]
    rw [hflat A fun x hx => Or.inl (hAlt x hx), hflat B fun x hx => Or.inr (hBlt x hx), g5, hdw]
    simp
  · rw [← List.append_assoc, ← List.append_assoc, List.getLast?_concat]

/-- Directives in branches have not been made up. -/
structure TextOk (X : Run) : Prop where
  same : ∀ i, X.σ.dir i ≠ {} → X.text i = (i, i)
  le : ∀ i, (X.text i).1 ≤ (X.text i).2

theorem Complete.fold {F : File} {L : Lines} {o : Nat → Nat} {X : Run} {c : List Nat} {cpp nx : Nat}
    (hF : FileOk F) (h : Base L o X.σ X.new) (h2 : LinesOk ⟨id, F.owner⟩ o X.σ) (ht : TextOk X) (hC : Complete F X)
    (hc : Linked X.σ.dir o c) (hm : cpp ∈ c) (hnx : (X.σ.dir cpp).nx = some nx) (hne : o cpp ≠ o nx)
    (X' : Run) (h1 : X'.σ = fold X.σ cpp X.new) (h3 : X'.text = foldText X.σ X.text cpp X.new) :
    Complete F X' := by
  obtain ⟨P1, S, P2, e1, e2, e3, e4⟩ := fold_directives h.good h.fresh hc hm hnx hne
  obtain ⟨o', _, g2, _⟩ := fold_base h hc hm hnx hne
  have hd := Linked.ne_plain hc hm
  obtain ⟨hnc, hlt, _⟩ := Linked.next hc hm hnx
  have hd2 := Linked.ne_plain hc hnc
  have hfr : ∀ x ∈ directives X.σ, x ≠ X.new := by
    rintro x hx rfl
    obtain ⟨t, _, htx⟩ := List.mem_flatMap.1 hx
    exact (h.fresh X.new (Nat.le_refl _)).2 t htx
  have hold : ∀ x, x ≠ X.new → X'.text x = X.text x := by
    intro x hx; rw [h3, foldText, if_neg hx]
  have hnew : X'.text X.new = (cpp, nx) := by
    rw [h3, foldText, if_pos rfl, hnx]
    simp only
    rw [ht.same cpp hd, ht.same nx hd2]
  have hflat : ∀ l : List Nat, (∀ x ∈ l, x ≠ X.new) →
      l.flatMap (fun i => span (X'.text i)) = l.flatMap (fun i => span (X.text i)) := by
    intro l hl
    induction l with
    | nil => rfl
    | cons x l ih =>
      rw [List.flatMap_cons, List.flatMap_cons, hold x (hl x (by simp)), ih fun y hy => hl y (by simp [hy])]
  have hP1 : ∀ x ∈ P1, x ≠ X.new := fun x hx => hfr x (by rw [e1]; simp [hx])
  have hP2 : ∀ x ∈ P2, x ≠ X.new := fun x hx => hfr x (by rw [e1]; simp [hx])
  obtain ⟨c1, c2⟩ := hC
  rw [e1] at c1
  simp only [List.flatMap_append] at c1
  have hself : ∀ x, span (x, x) = [x] := by
    intro x; simp [span]
  have hS : S.flatMap (fun i => span (X.text i)) = List.range' cpp (nx + 1 - cpp) := by
    refine range_part c1.symm ?_ ?_
    · cases S with
      | nil => cases e3
      | cons x S =>
        cases e3
        rw [List.flatMap_cons, ht.same _ hd, hself]
        rfl
    · obtain ⟨S, x, rfl⟩ : ∃ S' x, S = S' ++ [x] := by
        rcases List.eq_nil_or_concat S with rfl | ⟨S', x, rfl⟩
        · cases e4
        · exact ⟨S', x, by simp⟩
      rw [List.getLast?_concat] at e4
      cases e4
      rw [List.flatMap_append, List.flatMap_cons, List.flatMap_nil, ht.same _ hd2, hself, List.append_nil,
        List.getLast?_concat]
  refine ⟨?_, ?_⟩
  · rw [h1, e2]
    simp only [List.flatMap_append, List.flatMap_cons]
    rw [hflat P1 hP1, hflat P2 hP2, hnew, ← c1, hS]
    rfl
  · intro t htn
    have hnd : X.new ∈ directives X'.σ := by rw [h1, e2]; simp
    have hn2 : nx < F.n := by
      have : nx ∈ List.range F.n := by
        rw [← c1]
        apply List.mem_append_right
        apply List.mem_append_left
        rw [hS, List.mem_range']
        exact ⟨nx - cpp, by omega, by omega⟩
      simpa using this
    rcases c2 t htn with hin | ⟨i, hi, ha, hb⟩
    · by_cases hk : o cpp ≤ t ∧ t < o nx
      · refine Or.inr ⟨X.new, hnd, ?_⟩
        rw [hnew]
        have k1 := h2 cpp hd t hin
        have k2 := h2 nx hd2 t hin
        simp only [id] at k1 k2
        simp only
        omega
      · refine Or.inl ?_
        rw [h1, g2, List.mem_filter]
        refine ⟨hin, ?_⟩
        simp only [Bool.not_eq_true', Bool.and_eq_false_iff, decide_eq_false_iff_not]
        omega
    · rw [e1] at hi
      refine Or.inr ?_
      rcases List.mem_append.1 hi with hi | hi
      · exact ⟨i, by rw [h1, e2]; simp [hi], by rw [hold i (hP1 i hi)]; exact ⟨ha, hb⟩⟩
      · rcases List.mem_append.1 hi with hi | hi
        · refine ⟨X.new, hnd, ?_⟩
          rw [hnew]
          simp only
          have hle := ht.le i
          have key : ∀ x ∈ span (X.text i), cpp ≤ x ∧ x ≤ nx := by
            intro x hx
            have : x ∈ S.flatMap (fun i => span (X.text i)) := List.mem_flatMap.2 ⟨i, hi, hx⟩
            rw [hS, List.mem_range'] at this
            obtain ⟨k, hk, rfl⟩ := this
            omega
          have m1 := key (X.text i).1 (by rw [span, List.mem_range']; exact ⟨0, by omega, by omega⟩)
          have m2 := key (X.text i).2 (by
            rw [span, List.mem_range']; exact ⟨(X.text i).2 - (X.text i).1, by omega, by omega⟩)
          have s1 := hF.sorted cpp (X.text i).1 m1.1 (by omega)
          have s2 := hF.sorted (X.text i).2 nx m2.2 hn2
          omega
        · exact ⟨i, by rw [h1, e2]; simp [hi], by rw [hold i (hP2 i hi)]; exact ⟨ha, hb⟩⟩

/-! ## Runs -/

/-- What holds in every round. -/
structure RInv (F : File) (L : Lines) (o : Nat → Nat) (X : Run) : Prop where
  base : Base L o X.σ X.new
  lines : LinesOk ⟨id, F.owner⟩ o X.σ
  text : TextOk X
  complete : Complete F X
  rest : after X.σ.toks X.pos ≠ []
  eof : F.ntoks - 1 ∈ X.σ.toks
  bound : ∀ t ∈ X.σ.toks, t < F.ntoks

theorem flatMap_filter_range (F : File) (hF : FileOk F) (m : Nat) :
    (List.range m).flatMap (fun t => (List.range F.n).filter (fun i => F.owner i = t)) =
      (List.range F.n).filter (fun i => decide (F.owner i < m)) := by
  induction m with
  | zero => simp
  | succ m ih =>
    rw [List.range_succ, List.flatMap_append, ih]
    simp only [List.flatMap_cons, List.flatMap_nil, List.append_nil]
    have key : ∀ k, k ≤ F.n → (List.range k).filter (fun i => decide (F.owner i < m)) ++
        (List.range k).filter (fun i => decide (F.owner i = m)) =
        (List.range k).filter (fun i => decide (F.owner i < m + 1)) := by
      intro k
      induction k with
      | zero => intro _; rfl
      | succ k ihk =>
        intro hk
        have ihk := ihk (by omega)
        rw [List.range_succ]
        simp only [List.filter_append]
        by_cases h1 : F.owner k < m
        · have hall : ∀ i ∈ List.range k, ¬ (decide (F.owner i = m)) = true := by
            intro i hi
            have := hF.sorted i k (by have := List.mem_range.1 hi; omega) (by omega)
            simp; omega
          rw [List.filter_eq_nil_iff.2 hall, List.append_nil] at ihk
          rw [List.filter_eq_nil_iff.2 hall, ihk]
          have h2 : F.owner k < m + 1 := by omega
          have h3 : F.owner k ≠ m := by omega
          simp [h1, h2, h3]
        · rw [← ihk]
          simp only [List.append_assoc]
          congr 1
          have e1 : List.filter (fun i => decide (F.owner i < m)) [k] = [] := by simp; omega
          rw [e1, List.nil_append]
          congr 1
          by_cases h3 : F.owner k = m
          · simp [h3]
          · have : ¬ F.owner k < m + 1 := by omega
            simp [h3, this]
    exact key F.n (Nat.le_refl _)

theorem start_inv {F : File} (hF : FileOk F) {L : Lines} (hL : Lines.Ok L F) :
    RInv F L F.owner (start F) ∧ Exact (start F) := by
  obtain ⟨h1, h2, h3, h4⟩ := read_wf F hF.owner hF.sorted
  obtain ⟨_, _, hp, ht, _⟩ := read_spec F
  have ht' : F.final.toks = List.range F.ntoks := ht
  have hmem : ∀ t, t ∈ F.final.toks ↔ t < F.ntoks := by intro t; rw [ht']; simp
  refine ⟨⟨⟨read_good F hF.owner hF.sorted, ?_, ?_⟩, ?_, ⟨fun i _ => rfl, fun i => Nat.le_refl _⟩, ⟨?_, ?_⟩, ?_, ?_, ?_⟩,
    ⟨?_, rfl⟩⟩
  · intro i hi t htt
    exact hL i (h3 i hi) t ((hmem t).1 htt)
  · intro i hi
    refine ⟨?_, ?_⟩
    · apply Classical.byContradiction
      intro hne
      have := h3 i hne
      have hi' : F.n ≤ i := hi
      omega
    · intro t hm
      have hm' : i ∈ F.init.prefixes t := by rw [← hp]; exact hm
      have := (List.mem_filter.1 hm').1
      have hi' : F.n ≤ i := hi
      simp at this
      omega
  · intro i hi t _
    exact Iff.rfl
  · show (directives F.final).flatMap (fun i => span (i, i)) = _
    have hself : ∀ l : List Nat, l.flatMap (fun i => span (i, i)) = l := by
      intro l
      induction l with
      | nil => rfl
      | cons x l ih => rw [List.flatMap_cons, ih]; simp [span]
    rw [hself, directives, ht', hp]
    show (List.range F.ntoks).flatMap (fun t => (List.range F.n).filter (fun i => F.owner i = t)) = _
    rw [flatMap_filter_range F hF, List.filter_eq_self]
    intro i hi
    simpa using hF.owner i (List.mem_range.1 hi)
  · intro t htn
    exact Or.inl ((hmem t).2 htn)
  · show F.final.toks ≠ []
    rw [ht']
    have := hF.eof
    intro h0
    have := congrArg List.length h0
    simp at this
    omega
  · exact (hmem _).2 (by have := hF.eof; omega)
  · intro t h; exact (hmem t).1 h
  · show [] ++ F.final.toks = F.final.toks
    rfl

theorem after_suffix (ts : List Nat) (pos : Option Nat) : ∃ pre, ts = pre ++ after ts pos := by
  cases pos with
  | none => exact ⟨[], rfl⟩
  | some p =>
    refine ⟨ts.takeWhile (· ≠ p) ++ (ts.dropWhile (· ≠ p)).take 1, ?_⟩
    conv => lhs; rw [← List.takeWhile_append_dropWhile (p := (· ≠ p)) (l := ts)]
    rw [List.append_assoc]
    congr 1
    show ts.dropWhile (· ≠ p) = (ts.dropWhile (· ≠ p)).take 1 ++ (ts.dropWhile (· ≠ p)).tail
    cases ts.dropWhile (· ≠ p) <;> simp

/-- What is left once some of the tokens are consumed. -/
theorem after_take {ts : List Nat} (hs : ts.Pairwise (· < ·)) {pos : Option Nat} {k : Nat} (hk : 0 < k)
    (hk2 : k < (after ts pos).length) :
    ∃ s, ((after ts pos).take k).getLast? = some s ∧ after ts (some s) = (after ts pos).drop k := by
  obtain ⟨pre, hpre⟩ := after_suffix ts pos
  generalize after ts pos = rest at *
  have hne : rest.take k ≠ [] := by
    intro h0
    have := congrArg List.length h0
    simp at this
    rcases this with h1 | h1
    · omega
    · subst h1; simp at hk2
  have hsplit : rest.take k = (rest.take k).dropLast ++ [(rest.take k).getLast hne] :=
    (List.dropLast_concat_getLast hne).symm
  generalize (rest.take k).getLast hne = s at hsplit
  refine ⟨s, by rw [hsplit, List.getLast?_concat], ?_⟩
  have htoks : ts = (pre ++ (rest.take k).dropLast) ++ s :: rest.drop k := by
    conv => lhs; rw [hpre, ← List.take_append_drop k rest, hsplit]
    simp
  have hnot : s ∉ pre ++ (rest.take k).dropLast := by
    intro hm
    rw [htoks] at hs
    exact Nat.lt_irrefl _ ((List.pairwise_append.1 hs).2.2 s hm s (by simp))
  rw [htoks, after_split hnot]

/-- A round in which the parser succeeds. -/
theorem good_step {F : File} {L : Lines} {o : Nat → Nat} {X : Run} {k : Nat} (h : RInv F L o X)
    (hk : 0 < k) (hk2 : k < (after X.σ.toks X.pos).length) (X' : Run)
    (hσ : X'.σ = X.σ) (hn : X'.new = X.new) (ht : X'.text = X.text)
    (hpos : X'.pos = ((after X.σ.toks X.pos).take k).getLast?.or X.pos)
    (hd : X'.docs = (after X.σ.toks X.pos).take k :: X.docs) :
    RInv F L o X' ∧ (Printed X → Printed X') ∧
      (∃ s, X'.pos = some s ∧ ((after X.σ.toks X.pos).take k).getLast? = some s) ∧
      (after X'.σ.toks X'.pos).length < (after X.σ.toks X.pos).length := by
  obtain ⟨s, hlast, haft⟩ := after_take h.base.good.toks hk hk2
  have hpos' : X'.pos = some s := by rw [hpos, hlast]; rfl
  rw [← hσ, ← hpos'] at haft
  refine ⟨⟨?_, ?_, ⟨?_, ?_⟩, ?_, ?_, ?_, ?_⟩, ?_, ⟨s, hpos', hlast⟩, ?_⟩
  · rw [hσ, hn]; exact h.base
  · rw [hσ]; exact h.lines
  · rw [hσ, ht]; exact h.text.same
  · rw [ht]; exact h.text.le
  · have := h.complete
    unfold Complete at this ⊢
    rw [hσ, ht]; exact this
  · rw [haft, hσ]
    intro h0
    have := congrArg List.length h0
    rw [List.length_drop, List.length_nil] at this
    omega
  · rw [hσ]; exact h.eof
  · rw [hσ]; exact h.bound
  · intro hp
    unfold Printed at hp ⊢
    rw [haft, hσ, hd]
    conv => rhs; rw [← hp]
    simp
  · rw [haft, List.length_drop, hσ]
    omega

theorem sorted_length {n : Nat} : ∀ {ts : List Nat}, ts.Pairwise (· < ·) → (∀ t ∈ ts, t < n) → ts.length ≤ n := by
  have key : ∀ (ts : List Nat) (lo : Nat), ts.Pairwise (· < ·) → (∀ t ∈ ts, lo ≤ t ∧ t < n) → lo ≤ n →
      lo + ts.length ≤ n := by
    intro ts
    induction ts with
    | nil => intro lo _ _ h; simpa using h
    | cons x ts ih =>
      intro lo hs hb _
      have hs' := List.pairwise_cons.1 hs
      have hx := hb x (by simp)
      have := ih (x + 1) hs'.2 (fun t ht => ⟨hs'.1 t ht, (hb t (by simp [ht])).2⟩) (by omega)
      rw [List.length_cons]
      omega
  intro ts hs hb
  have := key ts 0 hs (fun t ht => ⟨Nat.zero_le _, hb t ht⟩) (Nat.zero_le _)
  omega

/-- A round in which it does not. -/
theorem bad_step {F : File} (hF : FileOk F) {L : Lines} {o : Nat → Nat} {X : Run} {cpp n : Nat} {σ' : St}
    {pos pos' : Option Nat} (h : RInv F L o X) (hr : recover L X.σ pos X.stamps X.new = some (cpp, σ', pos', n))
    (X' : Run) (hσ : X'.σ = σ') (hn : X'.new = X.new + 1) (ht : X'.text = foldText X.σ X.text cpp X.new)
    (hpos : X'.pos = pos') : (∃ o', RInv F L o' X') ∧ X'.σ.toks.length < X.σ.toks.length := by
  obtain ⟨c, nx, h1, hc, hm, hnx, hne, hrest, _, _⟩ := recover_base h.base hr
  obtain ⟨o', hb, htk, hsrc, hdst, hlt, hlines⟩ := fold_base h.base hc hm hnx hne
  rw [h1] at hσ
  have hsub : X'.σ.toks = X.σ.toks.filter (fun t => !(decide (o cpp ≤ t) && decide (t < o nx))) := by
    rw [hσ, htk]
  refine ⟨⟨o', ⟨?_, ?_, ⟨?_, ?_⟩, ?_, ?_, ?_, ?_⟩⟩, ?_⟩
  · rw [hσ, hn]; exact hb
  · rw [hσ]; exact hlines _ h.lines
  · intro i hi
    rw [hσ] at hi
    have hi2 : i ≠ X.new := by
      rintro rfl
      obtain ⟨_, _, _, g3, _⟩ := fold_keeps h.base.good hc hm hnx hne (h.base.fresh X.new (Nat.le_refl _))
      exact hi (g3.plain _ (h.base.fresh X.new (Nat.le_refl _)).1)
    rw [ht, foldText, if_neg hi2]
    apply h.text.same
    intro h0
    obtain ⟨_, _, _, g3, _⟩ := fold_keeps h.base.good hc hm hnx hne (h.base.fresh X.new (Nat.le_refl _))
    exact hi (g3.plain _ h0)
  · intro i
    rw [ht, foldText]
    split
    · rw [hnx]
      simp only
      have hd := Linked.ne_plain hc hm
      obtain ⟨hnc, hlt2, _⟩ := Linked.next hc hm hnx
      rw [h.text.same cpp hd, h.text.same nx (Linked.ne_plain hc hnc)]
      exact Nat.le_of_lt hlt2
    · exact h.text.le i
  · exact Complete.fold hF h.base h.lines h.text h.complete hc hm hnx hne X' hσ ht
  · rw [hσ, hpos, ← h1]; exact hrest
  · rw [hsub, List.mem_filter]
    refine ⟨h.eof, ?_⟩
    have := h.bound _ hdst
    simp only [Bool.not_eq_true', Bool.and_eq_false_iff, decide_eq_false_iff_not]
    omega
  · intro t htt
    rw [hsub] at htt
    exact h.bound t (List.mem_filter.1 htt).1
  · rw [hsub]
    refine Nat.lt_of_le_of_ne (List.length_filter_le _ _) fun he => ?_
    have := List.length_filter_eq_length_iff.mp he (o cpp) hsrc
    simp at this
    omega

/-- What is known at the end. -/
theorem finish {F : File} {L : Lines} {o : Nat → Nat} {X : Run} (h : RInv F L o X) (hp : Printed X)
    (hl : (after X.σ.toks X.pos).length ≤ 1) :
    AllPrinted X ∧ Complete F X ∧ X.σ.toks.getLast? = some (F.ntoks - 1) := by
  refine ⟨?_, h.complete, ?_⟩
  · unfold Printed at hp
    unfold AllPrinted
    have hne := h.rest
    generalize after X.σ.toks X.pos = rest at *
    match rest, hne, hl with
    | [e], _, _ => rw [← hp]; simp
  · have hs := h.base.good.toks
    obtain ⟨a, b, hab⟩ := List.append_of_mem h.eof
    have : b = [] := by
      cases b with
      | nil => rfl
      | cons x b =>
        rw [hab] at hs
        have h1 := (List.pairwise_cons.1 (List.pairwise_append.1 hs).2.1).1 x (by simp)
        have h2 := h.bound x (by rw [hab]; simp)
        omega
    rw [hab, this, List.getLast?_concat]

theorem round_good {trim : Bool} {L : Lines} {root : Root} {X : Run} {k : Nat}
    (hl : ¬ (after X.σ.toks X.pos).length ≤ 1) (hr : root X.σ X.pos = (true, k)) :
    round trim L root X = .inl { X with
      pos := ((after X.σ.toks X.pos).take k).getLast?.or X.pos
      stamps := (((after X.σ.toks X.pos).take k).getLast?.or X.pos).toList ++ X.stamps
      docs := (after X.σ.toks X.pos).take k :: X.docs } := by
  unfold round
  simp only [hl, hr, if_false, if_true]

theorem round_bad {trim : Bool} {L : Lines} {root : Root} {X X' : Run} {k : Nat}
    (hl : ¬ (after X.σ.toks X.pos).length ≤ 1) (hr : root X.σ X.pos = (false, k))
    (h : round trim L root X = .inl X') :
    ∃ cpp σ pos n, recover L X.σ (((after X.σ.toks X.pos).take k).getLast?.or X.pos) X.stamps X.new =
        some (cpp, σ, pos, n) ∧
      X' = { σ := σ, pos := pos, docs := ((after X.σ.toks X.pos).take k :: X.docs).drop n, new := X.new + 1
             text := foldText X.σ X.text cpp X.new
             stamps := if trim then X.stamps.drop (n - 1) else X.stamps } := by
  unfold round at h
  simp only [hl, hr, if_false, Bool.false_eq_true] at h
  split at h
  · cases h
  · rename_i cpp σ pos n hrec
    cases h
    exact ⟨cpp, σ, pos, n, hrec, rfl⟩

theorem exec_keeps {F : File} (hF : FileOk F) {trim : Bool} {L : Lines} {root : Root} (hroot : Root.Ok root)
    (fuel : Nat) : ∀ {X Y : Run} {o : Nat → Nat}, RInv F L o X → Printed X → (Exact X ∨ Y.new = X.new) →
      (trim = true ∨ Y.new ≤ X.new + 1) → exec trim L root fuel X = some (Y, true) →
      AllPrinted Y ∧ Complete F Y ∧ Y.σ.toks.getLast? = some (F.ntoks - 1) := by
  have mono : ∀ fuel {X Y : Run} {b : Bool}, exec trim L root fuel X = some (Y, b) → X.new ≤ Y.new := by
    intro fuel
    induction fuel with
    | zero => intro X Y b h; cases h
    | succ fuel ih =>
      intro X Y b h
      rw [exec] at h
      split at h
      · rename_i X' hX
        have := ih h
        by_cases hl : (after X.σ.toks X.pos).length ≤ 1
        · unfold round at hX; simp [hl] at hX
        · cases hr : root X.σ X.pos with
          | mk b k =>
            cases b with
            | true =>
              rw [round_good hl hr] at hX
              cases hX
              exact this
            | false =>
              obtain ⟨cpp, σ, pos, n, _, rfl⟩ := round_bad hl hr hX
              have h2 : X.new + 1 ≤ Y.new := this
              omega
      · cases h
        exact Nat.le_refl _
  induction fuel with
  | zero => intro X Y o _ _ _ _ h; cases h
  | succ fuel ih =>
    intro X Y o hI hP hE hT h
    rw [exec] at h
    split at h
    · rename_i X' hX
      by_cases hl : (after X.σ.toks X.pos).length ≤ 1
      · unfold round at hX; simp [hl] at hX
      · cases hr : root X.σ X.pos with
        | mk b k =>
          cases b with
          | true =>
            rw [round_good hl hr] at hX
            obtain ⟨hk, hk2⟩ := hroot _ _ _ hr
            have hX := (Sum.inl.inj hX).symm
            obtain ⟨g1, g2, ⟨s, g3, g4⟩, _⟩ := good_step hI hk hk2 X' (by rw [hX]) (by rw [hX]) (by rw [hX])
              (by rw [hX]) (by rw [hX])
            have g2 := g2 hP
            have hnew : X'.new = X.new := by rw [hX]
            have hst : X'.stamps = X'.pos.toList ++ X.stamps := by rw [hX]
            have hdo : X'.docs = (after X.σ.toks X.pos).take k :: X.docs := by rw [hX]
            refine ih g1 g2 ?_ (by rw [hnew]; exact hT) h
            rcases hE with hE | hE
            · refine Or.inl ⟨g2, ?_⟩
              rw [hst, hdo, g3]
              simp only [List.map_cons, Option.toList_some, List.singleton_append, g4, hE.stamps]
            · exact Or.inr (by rw [hnew]; exact hE)
          | false =>
            obtain ⟨cpp, σ, pos, n, hrec, hX⟩ := round_bad hl hr hX
            obtain ⟨⟨o', g1⟩, _⟩ := bad_step hF hI hrec X' (by rw [hX]) (by rw [hX]) (by rw [hX]) (by rw [hX])
            subst hX
            have hge : X.new + 1 ≤ Y.new := mono fuel h
            have hE' : Exact X := hE.resolve_right (by omega)
            have g2 := recover_exact hI.base hE' ((after X.σ.toks X.pos).take k) (foldText X.σ X.text cpp X.new) hrec
            have g3 : Printed { σ := σ, pos := pos, docs := ((after X.σ.toks X.pos).take k :: X.docs).drop n
                                new := X.new + 1, text := foldText X.σ X.text cpp X.new
                                stamps := if trim then X.stamps.drop (n - 1) else X.stamps } := g2.printed
            refine ih g1 g3 ?_ ?_ h
            · cases trim with
              | true => exact Or.inl g2
              | false =>
                refine Or.inr ?_
                have := hT.resolve_left (by simp)
                show Y.new = X.new + 1
                omega
            · rcases hT with hT | hT
              · exact Or.inl hT
              · refine Or.inr ?_
                show Y.new ≤ X.new + 1 + 1
                omega
    · rename_i b hX
      by_cases hl : (after X.σ.toks X.pos).length ≤ 1
      · cases h
        exact finish hI hP hl
      · cases hr : root X.σ X.pos with
        | mk b2 k =>
          unfold round at hX
          simp only [hl, hr, if_false] at hX
          cases b2 with
          | true => simp at hX
          | false =>
            simp only [Bool.false_eq_true, if_false] at hX
            split at hX
            · cases hX; cases h
            · cases hX

/-- **C75 (partial).** If the parser gets to the end of the file with at most one recovery, all tokens that are
not part of an alternative turned into a directive are printed, each once and in order, and nothing of the
file is missing. Missing: runs with several recoveries, see `recover_loses_tokens`. -/
theorem recovery_keeps_partial (F : File) (hF : FileOk F) (L : Lines) (hL : Lines.Ok L F) (root : Root)
    (hroot : Root.Ok root) (fuel : Nat) (X : Run) (h : exec false L root fuel (start F) = some (X, true))
    (h1 : X.new ≤ F.n + 1) :
    AllPrinted X ∧ Complete F X ∧ X.σ.toks.getLast? = some (F.ntoks - 1) := by
  obtain ⟨g1, g2⟩ := start_inv hF hL
  exact exec_keeps hF hroot fuel g1 g2.printed (Or.inl g2) (Or.inr h1) h

/-- **C75 with a correction.** If `clang_recover` forgot the stamps of the documents it tells its caller to
remove, this would be so after any number of recoveries. -/
theorem recovery_keeps_corrected (F : File) (hF : FileOk F) (L : Lines) (hL : Lines.Ok L F) (root : Root)
    (hroot : Root.Ok root) (fuel : Nat) (X : Run) (h : exec true L root fuel (start F) = some (X, true)) :
    AllPrinted X ∧ Complete F X ∧ X.σ.toks.getLast? = some (F.ntoks - 1) := by
  obtain ⟨g1, g2⟩ := start_inv hF hL
  exact exec_keeps hF hroot fuel g1 g2.printed (Or.inl g2) (Or.inl rfl) h

/-- **C75, the end.** Whatever the parser makes of the file, it ends: each recovery removes tokens. -/
theorem recovery_ends (F : File) (hF : FileOk F) (L : Lines) (hL : Lines.Ok L F) (root : Root)
    (hroot : Root.Ok root) : ∃ X b, exec false L root (F.ntoks * F.ntoks + 2 * F.ntoks + 1) (start F) = some (X, b) := by
  have key : ∀ fuel {X : Run} {o : Nat → Nat}, RInv F L o X →
      X.σ.toks.length * (F.ntoks + 1) + (after X.σ.toks X.pos).length < fuel →
      ∃ Y b, exec false L root fuel X = some (Y, b) := by
    intro fuel
    induction fuel with
    | zero => intro X o _ h; omega
    | succ fuel ih =>
      intro X o hI hm
      rw [exec]
      split
      · rename_i X' hX
        by_cases hl : (after X.σ.toks X.pos).length ≤ 1
        · unfold round at hX; simp [hl] at hX
        · cases hr : root X.σ X.pos with
          | mk b k =>
            cases b with
            | true =>
              rw [round_good hl hr] at hX
              obtain ⟨hk, hk2⟩ := hroot _ _ _ hr
              have hX := (Sum.inl.inj hX).symm
              obtain ⟨g1, _, _, g4⟩ := good_step hI hk hk2 X' (by rw [hX]) (by rw [hX]) (by rw [hX])
                (by rw [hX]) (by rw [hX])
              have hσ : X'.σ = X.σ := by rw [hX]
              refine ih g1 ?_
              rw [hσ] at g4 ⊢
              omega
            | false =>
              obtain ⟨cpp, σ, pos, n, hrec, hX⟩ := round_bad hl hr hX
              obtain ⟨⟨o', g1⟩, g2⟩ := bad_step hF hI hrec X' (by rw [hX]) (by rw [hX]) (by rw [hX]) (by rw [hX])
              refine ih g1 ?_
              have h1 : (after X'.σ.toks X'.pos).length ≤ X'.σ.toks.length := by
                obtain ⟨pre, hp⟩ := after_suffix X'.σ.toks X'.pos
                have := congrArg List.length hp
                rw [List.length_append] at this
                omega
              have h2 : X'.σ.toks.length ≤ F.ntoks := by
                have hs := g1.base.good.toks
                have hb := g1.bound
                exact sorted_length hs hb
              have h3 : (X'.σ.toks.length + 1) * (F.ntoks + 1) ≤ X.σ.toks.length * (F.ntoks + 1) :=
                Nat.mul_le_mul_right _ g2
              rw [Nat.add_mul] at h3
              omega
      · exact ⟨_, _, rfl⟩
  obtain ⟨g1, _⟩ := start_inv hF hL
  refine key _ g1 ?_
  obtain ⟨_, _, _, ht, _⟩ := read_spec F
  have ht' : F.final.toks = List.range F.ntoks := ht
  show F.final.toks.length * (F.ntoks + 1) + F.final.toks.length < _
  rw [ht', List.length_range, Nat.mul_add]
  omega

end Knfmt.Branch
