import Verif.Util.Model
import Verif.Util.Spec
import Verif.Str.Lemmas
namespace Knfmt.Util
open Knfmt.Str Knfmt.Spec

theorem tab_eq (pos : Nat) : pos + (8 - pos % 8) = nextTabStop pos := by
  unfold nextTabStop; omega

theorem anyRange_tabNl (c : Char) : anyRange tabNl c = (c = '\t' || c = '\n' : Bool) := by
  have key : ∀ d : Char, d.toNat < 128 → (schar c ≥ schar d ∧ schar c ≤ schar d ↔ c = d) := by
    intro d hd
    constructor
    · rintro ⟨h1, h2⟩
      apply Char.toNat_inj.mp
      unfold schar at h1 h2
      split at h1 <;> split at h1 <;> simp_all <;> omega
    · intro h; subst h; omega
  simp only [anyRange, tabNl, key '\t' (by decide), key '\n' (by decide)]
  by_cases h1 : c = '\t' <;> by_cases h2 : c = '\n' <;> simp [h1, h2]

/-- The character loop is the specification's column. -/
theorem strwidth_inner' (s : List Char) (pos : Nat) :
    strwidth.strwidthInner' s pos = column pos s := by
  induction s generalizing pos with
  | nil => rfl
  | cons c s ih =>
    unfold strwidth.strwidthInner' column
    rw [List.foldl_cons]
    show _ = column _ s
    unfold advance
    by_cases h1 : c = '\t'
    · subst h1; simp [ih, tab_eq]
    · by_cases h2 : c = '\n' <;> simp [h1, h2, ih]

theorem column_append (col : Nat) (a b : List Char) :
    column col (a ++ b) = column (column col a) b := by
  simp [column]

theorem column_cons (col : Nat) (c : Char) (s : List Char) :
    column col (c :: s) = column (advance col c) s := rfl

/-- Characters before the first tab or line feed advance by one. -/
theorem column_until (s : List Char) (pos : Nat) :
    column pos s =
      column (pos + matchUntilDefault tabNl s) (s.drop (matchUntilDefault tabNl s)) := by
  induction s generalizing pos with
  | nil => simp [matchUntilDefault]
  | cons c s ih =>
    unfold matchUntilDefault
    rw [anyRange_tabNl]
    by_cases h1 : c = '\t'
    · simp [h1]
    · by_cases h2 : c = '\n'
      · simp [h2]
      · simp only [h1, h2, decide_false, Bool.or_false, Bool.false_eq_true, if_false]
        rw [column_cons, ih, Nat.add_comm 1, List.drop_succ_cons]
        simp [advance, h1, h2, Nat.add_assoc, Nat.add_comm 1]

theorem strwidthInner_column (s : List Char) (pos : Nat) :
    column pos s = column (strwidthInner pos s).1 (strwidthInner pos s).2 ∧
      (strwidthInner pos s).2.length ≤ s.length := by
  induction s generalizing pos with
  | nil => simp [strwidthInner]
  | cons c s ih =>
    unfold strwidthInner
    split
    · next h =>
      subst h
      rw [column_cons, tab_eq]
      have := ih (nextTabStop pos)
      exact ⟨by rw [← this.1]; simp [advance], by simp; omega⟩
    · split
      · next h =>
        subst h
        rw [column_cons]
        have := ih 0
        exact ⟨by rw [← this.1]; simp [advance], by simp; omega⟩
      · simp

/-- Progress of one iteration of the outer loop. -/
theorem strwidth_progress (c : Char) (s : List Char) (pos : Nat) :
    (strwidthInner (pos + matchUntilDefault tabNl (c :: s))
      ((c :: s).drop (matchUntilDefault tabNl (c :: s)))).2.length ≤ s.length := by
  unfold matchUntilDefault
  rw [anyRange_tabNl]
  by_cases h1 : c = '\t'
  · simp only [h1, decide_true, Bool.true_or, if_true, List.drop_zero]
    unfold strwidthInner
    simpa using (strwidthInner_column s _).2
  · by_cases h2 : c = '\n'
    · simp only [h2, decide_true, Bool.or_true, if_true, List.drop_zero]
      unfold strwidthInner
      simpa using (strwidthInner_column s _).2
    · simp only [h1, h2, decide_false, Bool.or_false, Bool.false_eq_true, if_false]
      rw [Nat.add_comm 1, List.drop_succ_cons]
      refine Nat.le_trans (strwidthInner_column _ _).2 ?_
      simp

theorem strwidthLoop_column (fuel : Nat) (s : List Char) (pos : Nat) (h : s.length ≤ fuel) :
    strwidthLoop matchUntilDefault fuel s pos = some (column pos s) := by
  induction fuel generalizing s pos with
  | zero =>
    have : s = [] := by cases s with | nil => rfl | cons => simp at h
    subst this; rfl
  | succ fuel ih =>
    cases s with
    | nil => rfl
    | cons c s =>
      simp only [strwidthLoop]
      rw [ih]
      · rw [← (strwidthInner_column _ _).1, ← column_until]
      · have := strwidth_progress c s pos
        simp at h; omega

/-- One based columns. -/
theorem colwidthInner_eq (s : List Char) (pos : Nat) :
    colwidthInner (pos + 1) s = ((strwidthInner pos s).1 + 1, (strwidthInner pos s).2) := by
  induction s generalizing pos with
  | nil => rfl
  | cons c s ih =>
    unfold colwidthInner strwidthInner
    split
    · rw [← ih]; congr 1; omega
    · split
      · rw [← ih]
      · rfl

theorem colwidthLoop_eq (u : List (Char × Char) → List Char → Nat) (fuel : Nat) (s : List Char)
    (pos : Nat) :
    colwidthLoop u fuel s (pos + 1) = (strwidthLoop u fuel s pos).map (· + 1) := by
  induction fuel generalizing s pos with
  | zero => cases s <;> rfl
  | succ fuel ih =>
    cases s with
    | nil => rfl
    | cons c s =>
      simp only [colwidthLoop, strwidthLoop]
      rw [show pos + 1 + u tabNl (c :: s) = pos + u tabNl (c :: s) + 1 by omega,
        colwidthInner_eq, ih]

theorem strindentSpaces_eq (indent i pos : Nat) :
    strindentSpaces indent i pos = (List.replicate (indent - i) ' ', pos + (indent - i)) := by
  induction hn : indent - i generalizing i pos with
  | zero => unfold strindentSpaces; rw [if_neg (by omega)]; rfl
  | succ n ih =>
    unfold strindentSpaces
    rw [if_pos (by omega), ih (i + 1) (pos + 1) (by omega)]
    simp only [List.replicate_succ, Prod.mk.injEq, true_and]
    omega

theorem column_tabs (n pos : Nat) :
    column pos (List.replicate n '\t') = if n = 0 then pos else (pos / 8 + n) * 8 := by
  induction n generalizing pos with
  | zero => rfl
  | succ n ih =>
    rw [List.replicate_succ, column_cons, ih]
    simp only [advance, nextTabStop]
    simp
    split <;> omega

theorem column_spaces (n pos : Nat) : column pos (List.replicate n ' ') = pos + n := by
  induction n generalizing pos with
  | zero => rfl
  | succ n ih =>
    rw [List.replicate_succ, column_cons, ih]
    simp [advance]; omega

theorem strindentTabs_eq (indent i pos : Nat) (hi : i ≤ indent) :
    strindentTabs indent i pos =
      (List.replicate ((indent - i) / 8) '\t', i + (indent - i) / 8 * 8,
        column pos (List.replicate ((indent - i) / 8) '\t')) := by
  induction hn : (indent - i) / 8 generalizing i pos with
  | zero =>
    unfold strindentTabs; rw [if_neg (by omega)]; simp [column]
  | succ n ih =>
    unfold strindentTabs
    rw [if_pos (by omega), ih (i + 8) _ (by omega) (by omega)]
    simp only [List.replicate_succ, Prod.mk.injEq, true_and]
    refine ⟨by omega, ?_⟩
    rw [column_cons, tab_eq]
    simp [advance]

end Knfmt.Util
