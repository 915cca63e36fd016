/-!
# List lemmas shared by the modules
-/
namespace Knfmt

theorem mem_takeWhile_imp {α} {p : α → Bool} {l : List α} {x : α} (h : x ∈ l.takeWhile p) :
    p x = true := by
  induction l with
  | nil => simp at h
  | cons y l ih =>
    rw [List.takeWhile_cons] at h
    split at h
    · rcases List.mem_cons.mp h with rfl | h
      · assumption
      · exact ih h
    · simp at h

theorem getLast?_append_ne {α} (a b : List α) (hb : b ≠ []) :
    (a ++ b).getLast? = b.getLast? := by
  cases b with
  | nil => simp at hb
  | cons x b => simp [List.getLast?_append, List.getLast?_cons]

/-- Insert an element in a list in order. -/
def insort {α} (le : α → α → Bool) (x : α) : List α → List α
  | [] => [x]
  | y :: ys => if le x y then x :: y :: ys else y :: insort le x ys

/-- Sorting. -/
def isort {α} (le : α → α → Bool) : List α → List α
  | [] => []
  | x :: xs => insort le x (isort le xs)

theorem insort_perm {α} (le : α → α → Bool) (x : α) (l : List α) : (insort le x l).Perm (x :: l) := by
  induction l with
  | nil => exact List.Perm.refl _
  | cons y l ih =>
    rw [insort]
    split
    · exact List.Perm.refl _
    · exact (ih.cons y).trans (List.Perm.swap x y l)

theorem isort_perm {α} (le : α → α → Bool) (l : List α) : (isort le l).Perm l := by
  induction l with
  | nil => exact List.Perm.refl _
  | cons x l ih => exact (insort_perm le x _).trans (ih.cons x)

theorem isort_pairwise {α} {le : α → α → Bool} (trans : ∀ a b c, le a b → le b c → le a c)
    (total : ∀ a b, le a b ∨ le b a) (l : List α) : (isort le l).Pairwise (fun a b => le a b) := by
  induction l with
  | nil => exact List.Pairwise.nil
  | cons x l ih =>
    rw [isort]
    generalize isort le l = s at ih
    induction s with
    | nil => simp [insort]
    | cons y s ihs =>
      rw [insort]
      obtain ⟨h1, h2⟩ := List.pairwise_cons.mp ih
      split
      · next h =>
        rw [List.pairwise_cons]
        refine ⟨?_, ih⟩
        intro z hz
        rcases List.mem_cons.mp hz with rfl | hz
        · exact h
        · exact trans _ _ _ h (h1 z hz)
      · next h =>
        rw [List.pairwise_cons]
        refine ⟨?_, ihs h2⟩
        intro z hz
        rcases List.mem_cons.mp ((insort_perm le x s).mem_iff.mp hz) with rfl | hz
        · exact (total _ _).resolve_left h
        · exact h1 z hz

end Knfmt
