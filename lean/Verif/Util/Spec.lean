/-!
# Specification of display columns
-/
namespace Knfmt.Spec

/-- The next tab stop strictly after a zero based column; tab stops are the
multiples of eight. -/
def nextTabStop (col : Nat) : Nat := (col / 8 + 1) * 8

/-- Zero based display column after printing one character. -/
def advance (col : Nat) (c : Char) : Nat :=
  if c = '\n' then 0 else if c = '\t' then nextTabStop col else col + 1

/-- Zero based display column after printing a string. -/
def column (col : Nat) (s : List Char) : Nat := s.foldl advance col

/-- `next` is the least tab stop after `col`. -/
theorem nextTabStop_least (col : Nat) :
    col < nextTabStop col ∧ nextTabStop col % 8 = 0 ∧
      ∀ t, col < t → t % 8 = 0 → nextTabStop col ≤ t := by
  unfold nextTabStop
  refine ⟨by omega, by omega, ?_⟩
  intro t h1 h2
  omega

end Knfmt.Spec
