import Verif.Cpp.IncludeSpec
/-!
# The comparison of includes is an order, paths and priorities are found
-/
namespace Knfmt.Include

/-! ## The order of texts -/

/-- `memcmp` by recursion on the texts. -/
def texts : List Char → List Char → Ordering
  | [], [] => .eq
  | [], _ :: _ => .lt
  | _ :: _, [] => .gt
  | a :: as, b :: bs =>
    if a = b then (if a = '\x00' then compare as.length bs.length else texts as bs)
    else compare a.toNat b.toNat

theorem compare_char_ne {a b : Char} (h : a ≠ b) : compare a.toNat b.toNat ≠ .eq := by
  intro e
  have := Nat.compare_eq_eq.mp e
  exact h (Char.toNat_inj.mp this)

theorem memcmp_texts (a b : List Char) : memcmp a b = texts a b := by
  induction a generalizing b with
  | nil => cases b <;> simp [memcmp, strncmp, texts, Nat.compare_eq_lt]
  | cons x a ih =>
    cases b with
    | nil => simp [memcmp, strncmp, texts, Nat.compare_eq_gt]
    | cons y b =>
      have ih := ih b
      unfold memcmp at ih ⊢
      rw [texts]
      have e : min (x :: a).length (y :: b).length = min a.length b.length + 1 := by
        simp only [List.length_cons]; omega
      rw [e, strncmp]
      by_cases h : x = y
      · rw [if_neg (fun f => f h : ¬ x ≠ y), if_pos h]
        by_cases h0 : x = '\x00'
        · rw [if_pos h0, if_pos h0]
          simp [compare, compareOfLessAndEq]
        · rw [if_neg h0, if_neg h0, ← ih]
          simp [compare, compareOfLessAndEq]
      · rw [if_pos (h : x ≠ y), if_neg h]
        have := compare_char_ne h
        revert this
        cases compare x.toNat y.toNat <;> simp

theorem texts_swap (a b : List Char) : texts b a = (texts a b).swap := by
  induction a generalizing b with
  | nil => cases b <;> simp [texts]
  | cons x a ih =>
    cases b with
    | nil => simp [texts]
    | cons y b =>
      rw [texts, texts]
      by_cases h : x = y
      · subst h
        rw [if_pos rfl, if_pos rfl]
        by_cases h0 : x = '\x00'
        · rw [if_pos h0, if_pos h0]; exact (Nat.compare_swap _ _).symm
        · rw [if_neg h0, if_neg h0, ih]
      · rw [if_neg (fun e => h e.symm), if_neg h]; exact (Nat.compare_swap _ _).symm

theorem texts_trans {a b c : List Char} (h1 : texts a b ≠ .gt) (h2 : texts b c ≠ .gt) :
    texts a c ≠ .gt := by
  induction a generalizing b c with
  | nil => cases c <;> simp [texts]
  | cons x a ih =>
    cases b with
    | nil => simp [texts] at h1
    | cons y b =>
      cases c with
      | nil => simp [texts] at h2
      | cons z c =>
        rw [texts] at h1 h2 ⊢
        by_cases hxy : x = y
        · subst hxy
          rw [if_pos rfl] at h1
          by_cases hxz : x = z
          · subst hxz
            rw [if_pos rfl] at h2 ⊢
            by_cases h0 : x = '\x00'
            · rw [if_pos h0] at h1 h2 ⊢
              rw [Nat.compare_ne_gt] at *; omega
            · rw [if_neg h0] at h1 h2 ⊢
              exact ih h1 h2
          · rw [if_neg hxz] at h2 ⊢; exact h2
        · rw [if_neg hxy] at h1
          rw [Nat.compare_ne_gt] at h1
          have hne : x.toNat ≠ y.toNat := fun e => hxy (Char.toNat_inj.mp e)
          by_cases hyz : y = z
          · subst hyz
            rw [if_neg hxy, Nat.compare_ne_gt]; exact h1
          · rw [if_neg hyz, Nat.compare_ne_gt] at h2
            have hxz : x ≠ z := by
              intro e; subst e; omega
            rw [if_neg hxz, Nat.compare_ne_gt]; omega

/-- Without NUL the order of texts is the lexicographic one. -/
theorem texts_lt {a b : List Char} (ha : '\x00' ∉ a) : texts a b = .lt ↔ a < b := by
  induction a generalizing b with
  | nil => cases b <;> simp [texts]
  | cons x a ih =>
    cases b with
    | nil => simp [texts]
    | cons y b =>
      rw [texts, List.cons_lt_cons_iff]
      by_cases h : x = y
      · subst h
        rw [if_pos rfl, if_neg (show ¬ x = '\x00' by intro e; simp [e] at ha)]
        rw [ih (fun hm => ha (by simp [hm]))]
        simp
      · rw [if_neg h, Nat.compare_eq_lt]
        simp only [h, false_and, or_false]
        exact Iff.rfl

theorem texts_eq {a b : List Char} (ha : '\x00' ∉ a) : texts a b = .eq ↔ a = b := by
  induction a generalizing b with
  | nil => cases b <;> simp [texts]
  | cons x a ih =>
    cases b with
    | nil => simp [texts]
    | cons y b =>
      rw [texts]
      by_cases h : x = y
      · subst h
        rw [if_pos rfl, if_neg (show ¬ x = '\x00' by intro e; simp [e] at ha)]
        rw [ih (fun hm => ha (by simp [hm]))]
        simp
      · rw [if_neg h]
        simp [compare_char_ne h, h]

theorem texts_ne_gt {a b : List Char} (ha : '\x00' ∉ a) : texts a b ≠ .gt ↔ a < b ∨ a = b := by
  rw [← texts_lt ha, ← texts_eq ha]
  cases texts a b <;> simp

theorem cmp_ne_gt (a b : Tok × Prio) :
    cmp a b ≠ .gt ↔ a.2.sort < b.2.sort ∨ a.2.sort = b.2.sort ∧ texts a.1.str b.1.str ≠ .gt := by
  unfold cmp
  rw [memcmp_texts]
  split
  · simp; left; assumption
  · split
    · simp; omega
    · next h1 h2 =>
      have : a.2.sort = b.2.sort := by omega
      simp [this]

/-- The comparison given to `qsort` is transitive, -/
theorem cmp_trans {a b c : Tok × Prio} (h1 : cmp a b ≠ .gt) (h2 : cmp b c ≠ .gt) : cmp a c ≠ .gt := by
  rw [cmp_ne_gt] at *
  rcases h1 with h1 | ⟨e1, h1⟩
  · left
    rcases h2 with h2 | ⟨e2, _⟩ <;> omega
  · rcases h2 with h2 | ⟨e2, h2⟩
    · left; omega
    · right; exact ⟨by omega, texts_trans h1 h2⟩

/-- and antisymmetric, as `qsort` requires, for any texts. -/
theorem cmp_swap (a b : Tok × Prio) : cmp b a = (cmp a b).swap := by
  unfold cmp
  rw [memcmp_texts, memcmp_texts, texts_swap]
  by_cases h1 : a.2.sort < b.2.sort
  · rw [if_neg (by omega), if_pos (by omega), if_pos h1]; rfl
  · by_cases h2 : a.2.sort > b.2.sort
    · rw [if_pos (by omega), if_neg h1, if_pos h2]; rfl
    · rw [if_neg (by omega), if_neg (by omega), if_neg h1, if_neg h2]

/-- What `qsort` does: it permutes, and the result is in order. -/
def IsSort (srt : List (Tok × Prio) → List (Tok × Prio)) : Prop :=
  ∀ l, (srt l).Perm l ∧ (srt l).Pairwise (fun a b => cmp a b ≠ .gt)

/-- There is such a function. -/
def qsort (l : List (Tok × Prio)) : List (Tok × Prio) :=
  Knfmt.isort (fun a b => decide (cmp a b ≠ .gt)) l

theorem isSort_qsort : IsSort qsort := by
  intro l
  refine ⟨Knfmt.isort_perm _ _, ?_⟩
  have := Knfmt.isort_pairwise (le := fun a b => decide (cmp a b ≠ .gt))
    (by intro a b c h1 h2; simp only [decide_eq_true_eq] at *; exact cmp_trans h1 h2)
    (by intro a b
        have := cmp_swap a b
        cases h : cmp a b <;> simp [h] at this ⊢
        simp [this]) l
  exact this.imp (by intro a b h; simpa using h)

/-! ## Paths -/

theorem dropWhile_ne_eq {s : List Char} {c d : Char} {r : List Char}
    (h : s.dropWhile (· ≠ c) = d :: r) : d = c ∧ ∃ a, c ∉ a ∧ s = a ++ c :: r := by
  have hd : d = c := by
    have := List.head?_dropWhile_not (fun x => decide (x ≠ c)) s
    rw [h] at this; simpa using this
  subst hd
  refine ⟨rfl, s.takeWhile (· ≠ d), ?_, ?_⟩
  · intro hm; have := Knfmt.mem_takeWhile_imp hm; simp at this
  · have := List.takeWhile_append_dropWhile (p := fun x => decide (x ≠ d)) (l := s)
    rw [h] at this; exact this.symm

theorem dropWhile_ne_append {a r : List Char} {c : Char} (h : c ∉ a) :
    (a ++ c :: r).dropWhile (· ≠ c) = c :: r := by
  induction a with
  | nil => simp
  | cons x a ih =>
    simp only [List.mem_cons, not_or] at h
    simp only [List.cons_append, List.dropWhile_cons]
    rw [if_pos (show decide (x ≠ c) = true by simpa using fun e => h.1 e.symm)]
    exact ih h.2

theorem takeWhile_ne_append {a r : List Char} {c : Char} (h : c ∉ a) :
    (a ++ c :: r).takeWhile (· ≠ c) = a := by
  induction a with
  | nil => simp
  | cons x a ih =>
    simp only [List.mem_cons, not_or] at h
    simp only [List.cons_append, List.takeWhile_cons]
    rw [if_pos (show decide (x ≠ c) = true by simpa using fun e => h.1 e.symm)]
    simpa using ih h.2

theorem dropWhile_ne_nil {s : List Char} {c : Char} : s.dropWhile (· ≠ c) = [] ↔ c ∉ s := by
  constructor
  · intro h hm
    obtain ⟨a, b, e⟩ := List.append_of_mem hm
    have : ∀ (a : List Char), (a ++ c :: b).dropWhile (· ≠ c) ≠ [] := by
      intro a
      induction a with
      | nil => simp
      | cons x a ih =>
        simp only [List.cons_append, List.dropWhile_cons]
        split
        · exact ih
        · simp
    rw [e] at h; exact this a h
  · intro h
    induction s with
    | nil => rfl
    | cons x s ih =>
      simp only [List.mem_cons, not_or] at h
      simp only [List.dropWhile_cons]
      rw [if_pos (show decide (x ≠ c) = true by simpa using fun e => h.1 e.symm)]
      exact ih h.2

/-- A directive whose path can be found without leaving it: no NUL, and not followed by a
closing delimiter. -/
def Plain (t : Tok) : Prop := t.next ≠ some '"' ∧ t.next ≠ some '>' ∧ '\x00' ∉ t.str

theorem cstr_self {s : List Char} (h : '\x00' ∉ s) : cstr s = s := by
  unfold cstr
  induction s with
  | nil => rfl
  | cons x s ih =>
    simp only [List.mem_cons, not_or] at h
    rw [List.takeWhile_cons, if_pos (show decide (x ≠ '\x00') = true by simpa using fun e => h.1 e.symm), ih h.2]

/-- The end of the path, once its beginning is found. -/
def closed (c' : Char) (c : Char) (rest : List Char) : Option (List Char) :=
  if c' ∈ rest then some (cstr (c :: rest.takeWhile (· ≠ c') ++ [c'])) else none

theorem findpath_eq (t : Tok) : findpath t =
    match (match t.str.dropWhile (· ≠ '"') with
      | [] => t.str.dropWhile (· ≠ '<')
      | s => s) with
    | [] => none
    | c :: rest => closed (if c = '"' then '"' else '>') c (rest ++ t.next.toList) := rfl

theorem closed_some {c' c : Char} {rest p : List Char} {n : Option Char} {a s : List Char}
    (hn : n ≠ some c') (hs : s = a ++ c :: rest) (h0 : '\x00' ∉ s) :
    closed c' c (rest ++ n.toList) = some p ↔
      ∃ x b, c' ∉ x ∧ s = a ++ p ++ b ∧ p = c :: x ++ [c'] := by
  have key : c' ∈ rest ++ n.toList ↔ c' ∈ rest := by
    rw [List.mem_append]
    constructor
    · rintro (h | h)
      · exact h
      · exfalso; apply hn; cases n <;> simp at h; rw [h]
    · exact Or.inl
  unfold closed
  simp only [key]
  constructor
  · intro h
    split at h
    · next hm =>
      obtain ⟨r, hr⟩ : ∃ r, rest.dropWhile (· ≠ c') = c' :: r := by
        cases e : rest.dropWhile (· ≠ c') with
        | nil => exact absurd hm (dropWhile_ne_nil.mp e)
        | cons d r => obtain ⟨hd, _⟩ := dropWhile_ne_eq e; exact ⟨r, by rw [hd]⟩
      obtain ⟨_, x, hx, ex⟩ := dropWhile_ne_eq hr
      have et : (rest ++ n.toList).takeWhile (· ≠ c') = x := by
        rw [ex, List.append_assoc, List.cons_append, takeWhile_ne_append hx]
      rw [et] at h
      have : cstr (c :: x ++ [c']) = c :: x ++ [c'] := by
        apply cstr_self
        intro hm
        apply h0
        rw [hs, ex]
        simp only [List.mem_append, List.mem_cons, List.cons_append] at hm ⊢
        rcases hm with hm | hm | hm | hm
        · exact Or.inr (Or.inl hm)
        · exact Or.inr (Or.inr (Or.inl hm))
        · exact Or.inr (Or.inr (Or.inr (Or.inl hm)))
        · simp at hm
      rw [this] at h
      injection h with h
      refine ⟨x, r, hx, ?_, h.symm⟩
      rw [hs, ex, ← h]; simp
    · simp at h
  · rintro ⟨x, b, hx, e, ep⟩
    have er : rest = x ++ c' :: b := by
      rw [hs, ep] at e
      simpa using e
    rw [if_pos (by rw [er]; simp), er, List.append_assoc x, show c' :: b ++ n.toList = c' :: (b ++ n.toList) from rfl,
      takeWhile_ne_append hx, cstr_self, ep]
    intro hm
    apply h0
    rw [hs, er]
    simp only [List.mem_append, List.mem_cons, List.cons_append] at hm ⊢
    rcases hm with hm | hm | hm | hm
    · exact Or.inr (Or.inl hm)
    · exact Or.inr (Or.inr (Or.inl hm))
    · exact Or.inr (Or.inr (Or.inr (Or.inl hm)))
    · simp at hm

/-- The first occurrence of a character splits a text in one way. -/
theorem split_first {a a' r r' : List Char} {c : Char} (h : c ∉ a) (h' : c ∉ a')
    (e : a ++ c :: r = a' ++ c :: r') : a = a' ∧ r = r' := by
  have h1 := takeWhile_ne_append (r := r) h
  have h2 := takeWhile_ne_append (r := r') h'
  rw [e] at h1
  have ea := h1.symm.trans h2
  subst ea
  simpa using e

theorem findpath_spec {t : Tok} (ht : Plain t) (p : List Char) :
    findpath t = some p ↔ Spec.IsPath t.str p := by
  obtain ⟨hq, hg, h0⟩ := ht
  rw [findpath_eq]
  unfold Spec.IsPath
  cases eq : t.str.dropWhile (· ≠ '"') with
  | cons d r =>
    obtain ⟨hd, a, ha, es⟩ := dropWhile_ne_eq eq
    subst hd
    dsimp only
    rw [if_pos rfl, closed_some hq es h0]
    constructor
    · rintro ⟨x, b, hx, e, ep⟩
      exact Or.inl ⟨a, x, b, ha, hx, e, ep⟩
    · rintro (⟨a', x, b, ha', hx, e, ep⟩ | ⟨hn, _⟩)
      · have : a = a' := by
          refine (split_first (r := r) (r' := x ++ ['"'] ++ b) ha ha' ?_).1
          rw [← es, e, ep]; simp
        subst this
        exact ⟨x, b, hx, e, ep⟩
      · exfalso; apply hn; rw [es]; simp
  | nil =>
    have hno := dropWhile_ne_nil.mp eq
    dsimp only
    cases eq2 : t.str.dropWhile (· ≠ '<') with
    | nil =>
      have hno2 := dropWhile_ne_nil.mp eq2
      simp only [reduceCtorEq, false_iff]
      rintro (⟨a, x, b, _, _, e, ep⟩ | ⟨_, a, x, b, _, _, e, ep⟩)
      · apply hno; rw [e, ep]; simp
      · apply hno2; rw [e, ep]; simp
    | cons d r =>
      obtain ⟨hd, a, ha, es⟩ := dropWhile_ne_eq eq2
      subst hd
      dsimp only
      rw [if_neg (by decide), closed_some hg es h0]
      constructor
      · rintro ⟨x, b, hx, e, ep⟩
        exact Or.inr ⟨hno, a, x, b, ha, hx, e, ep⟩
      · rintro (⟨a', x, b, _, _, e, ep⟩ | ⟨_, a', x, b, ha', hx, e, ep⟩)
        · exfalso; apply hno; rw [e, ep]; simp
        · have : a = a' := by
            refine (split_first (r := r) (r' := x ++ ['>'] ++ b) ha ha' ?_).1
            rw [← es, e, ep]; simp
          subst this
          exact ⟨x, b, hx, e, ep⟩

/-! ## The main include -/

theorem strstr_one (c : Char) (s : List Char) : Knfmt.Str.strstr [c] s =
    match s.dropWhile (· ≠ c) with
    | [] => none
    | _ :: r => some (s.takeWhile (· ≠ c), r) := by
  induction s with
  | nil => rfl
  | cons x s ih =>
    rw [Knfmt.Str.strstr]
    by_cases h : c = x
    · subst h
      simp [Knfmt.Str.isPrefix]
    · have h' : ¬ x = c := fun e => h e.symm
      simp only [Knfmt.Str.isPrefix, List.dropWhile_cons, List.takeWhile_cons, ih]
      simp only [h', h, ne_eq, not_false_eq_true, decide_true, if_true, beq_iff_eq, Bool.and_true,
        if_false]
      split <;> simp_all

theorem splitLoop_head (c : Char) : ∀ (n : Nat) (s : List Char), s.length ≤ n →
    ∃ r, Knfmt.Str.splitLoop [c] n s = some (s.takeWhile (· ≠ c) :: r) ∧
      ((s.takeWhile (· ≠ c) :: r).getLast? = some (s.reverse.takeWhile (· ≠ c)).reverse) := by
  intro n
  induction n with
  | zero =>
    intro s hs
    have : s = [] := by simpa using hs
    subst this
    exact ⟨[], rfl, rfl⟩
  | succ n ih =>
    intro s hs
    rw [Knfmt.Str.splitLoop, strstr_one]
    cases e : s.dropWhile (· ≠ c) with
    | nil =>
      have hn := dropWhile_ne_nil.mp e
      have h1 : s.takeWhile (· ≠ c) = s := by
        have := List.takeWhile_append_dropWhile (p := fun x => decide (x ≠ c)) (l := s)
        rw [e] at this; simpa using this
      have h2 : s.reverse.takeWhile (· ≠ c) = s.reverse := by
        have := List.takeWhile_append_dropWhile (p := fun x => decide (x ≠ c)) (l := s.reverse)
        rw [dropWhile_ne_nil.mpr (by simpa using hn)] at this; simpa using this
      refine ⟨[], ?_, ?_⟩
      · rw [h1]
      · rw [h1, h2]; simp
    | cons d r =>
      obtain ⟨hd, a, ha, es⟩ := dropWhile_ne_eq e
      subst hd
      have hl : r.length ≤ n := by rw [es] at hs; simp at hs; omega
      obtain ⟨q, hq, hlast⟩ := ih r hl
      refine ⟨r.takeWhile (· ≠ d) :: q, ?_, ?_⟩
      · dsimp only
        rw [hq]; rfl
      · rw [List.getLast?_cons_cons, hlast, es]
        congr 2
        rw [List.reverse_append, List.reverse_cons, List.append_assoc]
        by_cases hm : d ∈ r
        · rw [List.takeWhile_append, if_neg]
          intro h
          have : r.reverse.takeWhile (· ≠ d) = r.reverse := by
            have := List.takeWhile_prefix (fun x => decide (x ≠ d)) (l := r.reverse)
            exact this.eq_of_length h
          have hm' : d ∈ r.reverse.takeWhile (· ≠ d) := by rw [this]; simpa using hm
          have := Knfmt.mem_takeWhile_imp hm'
          simp at this
        · rw [show r.reverse ++ ([d] ++ a.reverse) = r.reverse ++ d :: a.reverse by simp,
            takeWhile_ne_append (by simpa using hm)]
          have := List.takeWhile_append_dropWhile (p := fun x => decide (x ≠ d)) (l := r.reverse)
          rw [dropWhile_ne_nil.mpr (by simpa using hm)] at this
          simpa using this

theorem isMain_spec (cfg : Cfg) (p : List Char) : isMain p cfg.path = true ↔ Spec.Main cfg p := by
  have hs : ∀ q, ((Knfmt.Str.split ['.'] q).bind List.head?).getD [] = Spec.stem q := by
    intro q
    obtain ⟨r, hr, _⟩ := splitLoop_head '.' q.length q (Nat.le_refl _)
    unfold Knfmt.Str.split
    rw [hr]; rfl
  have hf : ∀ q, ((Knfmt.Str.split ['/'] q).bind List.getLast?).getD [] = Spec.file q := by
    intro q
    obtain ⟨r, hr, hl⟩ := splitLoop_head '/' q.length q (Nat.le_refl _)
    unfold Knfmt.Str.split
    rw [hr]
    simp only [Option.bind_some, hl]; rfl
  unfold isMain Spec.Main
  dsimp only
  simp only [hs, hf, Bool.or_eq_true, decide_eq_true_eq]

/-! ## Priorities -/

/-- The priority of a path is the one of the first category that matches. -/
theorem stylePriority_spec (cs : List Category) (p : List Char) (r : Prio) :
    stylePriority cs p = r ↔ Spec.CategoryPrio cs p r := by
  unfold Spec.CategoryPrio
  induction cs with
  | nil =>
    simp only [stylePriority]
    constructor
    · intro h; right; exact ⟨by simp, h.symm.trans rfl⟩
    · rintro (⟨a, c, b, h, _⟩ | ⟨_, h⟩)
      · simp at h
      · exact h.symm ▸ rfl
  | cons c cs ih =>
    rw [stylePriority]
    by_cases h : c.isMatch p = true
    · rw [if_pos h]
      constructor
      · rintro rfl; left; exact ⟨[], c, cs, rfl, by simp, h, rfl⟩
      · rintro (⟨a, d, b, e, ha, hd, hr⟩ | ⟨hn, _⟩)
        · cases a with
          | nil => simp at e; rw [hr, e.1]
          | cons x a =>
            simp at e
            have := ha x (by simp)
            rw [← e.1, h] at this; simp at this
        · have := hn c (by simp)
          rw [h] at this; simp at this
    · rw [if_neg h, ih]
      constructor
      · rintro (⟨a, d, b, e, ha, hd, hr⟩ | ⟨hn, hr⟩)
        · left
          refine ⟨c :: a, d, b, by rw [e]; rfl, ?_, hd, hr⟩
          intro x hx
          rcases List.mem_cons.mp hx with rfl | hx
          · simpa using h
          · exact ha x hx
        · right
          refine ⟨?_, hr⟩
          intro x hx
          rcases List.mem_cons.mp hx with rfl | hx
          · simpa using h
          · exact hn x hx
      · rintro (⟨a, d, b, e, ha, hd, hr⟩ | ⟨hn, hr⟩)
        · left
          cases a with
          | nil => simp at e; rw [← e.1] at hd; exact absurd hd h
          | cons x a =>
            simp at e
            exact ⟨a, d, b, e.2, fun y hy => ha y (by simp [hy]), hd, hr⟩
        · right; exact ⟨fun y hy => hn y (by simp [hy]), hr⟩

theorem mem_addGroup (l : List Int) (gs : List Int) (x : Int) :
    x ∈ l.foldl addGroup gs ↔ x ∈ gs ∨ x ∈ l := by
  induction l generalizing gs with
  | nil => simp
  | cons p l ih =>
    rw [List.foldl_cons, ih]
    unfold addGroup
    split
    · next h =>
      simp only [List.mem_cons]
      constructor
      · rintro (h | h) <;> simp [h]
      · rintro (h' | rfl | h') <;> simp [*]
    · simp [or_assoc]

theorem sorted_addGroup (l : List Int) (gs : List Int) (hl : l.Pairwise (· ≤ ·))
    (hg : gs.Pairwise (· < ·)) (hb : ∀ x ∈ gs, ∀ y ∈ l, x ≤ y) :
    (l.foldl addGroup gs).Pairwise (· < ·) := by
  induction l generalizing gs with
  | nil => exact hg
  | cons p l ih =>
    rw [List.foldl_cons]
    obtain ⟨hp, hl'⟩ := List.pairwise_cons.mp hl
    apply ih _ hl'
    · unfold addGroup
      split
      · exact hg
      · next h =>
        rw [List.pairwise_append]
        refine ⟨hg, by simp, ?_⟩
        intro a ha b hb'
        simp at hb'; subst hb'
        have := hb a ha b (by simp)
        have : a ≠ b := fun e => h (e ▸ ha)
        omega
    · intro x hx y hy
      unfold addGroup at hx
      split at hx
      · exact hb x hx y (by simp [hy])
      · rcases List.mem_append.mp hx with hx | hx
        · exact hb x hx y (by simp [hy])
        · simp at hx; subst hx; exact hp y hy

/-- The groups are in ascending order, -/
theorem groups_sorted (cs : List Category) : (groups cs).Pairwise (· < ·) := by
  apply sorted_addGroup
  · have := Knfmt.isort_pairwise (le := fun a b : Int => decide (a ≤ b))
      (by intro a b c h1 h2; simp only [decide_eq_true_eq] at *; omega)
      (by intro a b; simp; omega) ([0, intMax] ++ cs.map (·.priority.group))
    exact this.imp (by intro a b h; simpa using h)
  · simp
  · simp

/-- and they are zero, the lowest one and those of the categories. -/
theorem mem_groups (cs : List Category) (x : Int) :
    x ∈ groups cs ↔ x = 0 ∨ x = intMax ∨ ∃ c ∈ cs, x = c.priority.group := by
  unfold groups
  rw [mem_addGroup]
  unfold stylePriorities
  rw [(Knfmt.isort_perm _ _).mem_iff]
  simp [eq_comm]

theorem stylePriority_mem (cs : List Category) (p : List Char) :
    (stylePriority cs p).group ∈ groups cs := by
  rw [mem_groups]
  induction cs with
  | nil => right; left; rfl
  | cons c cs ih =>
    rw [stylePriority]
    split
    · right; right; exact ⟨c, by simp, rfl⟩
    · rcases ih with h | h | ⟨d, hd, h⟩
      · exact Or.inl h
      · exact Or.inr (Or.inl h)
      · exact Or.inr (Or.inr ⟨d, by simp [hd], h⟩)

theorem hasLine_spec (t : Tok) : hasLine t = true ↔ Spec.Blank t := by
  unfold hasLine Spec.Blank
  rw [decide_eq_true_eq, ← List.reverse_prefix]
  constructor
  · intro h
    exact ⟨t.str.reverse.drop 2, by
      have := List.take_append_drop 2 t.str.reverse
      rw [h] at this; exact this⟩
  · rintro ⟨r, hr⟩
    rw [← hr]; rfl

theorem trim_spec (t : Tok) : trim t = Spec.unblank t := by
  unfold trim Spec.unblank
  by_cases h : hasLine t = true
  · rw [if_pos h, if_pos ((hasLine_spec t).mp h)]
  · rw [if_neg h, if_neg (fun h' => h ((hasLine_spec t).mpr h'))]

end Knfmt.Include
