import Verif.Layout.SenseSpec
/-!
# Formatting declarations a second time (C95): specification
-/
namespace Knfmt.Layout.Spec
open Knfmt.Layout

/-- The last token of the type, in a declaration printed on line `n` from column `c`, as it is read again: its line and
column, the white space after it and the line and column of the next token. Columns count from one. -/
def tokenAgain (c n : Nat) (p : Decl × List Char) : Knfmt.Ruler.Tok where
  str := p.1.words.getLast?.getD []
  lno := n
  cno := Knfmt.Spec.column c (joined [' '] p.1.words) + 1 - (p.1.words.getLast?.getD []).length
  suffixes := [⟨false, true, p.2⟩]
  next := some (n, Knfmt.Spec.column c (joined [' '] p.1.words ++ p.2) + 1)

/-- A block printed from line `n` on, read again. The last declaration is followed by `last`. -/
def blockAgain (c : Nat) (last : After) : Nat → List (Decl × List Char) → List Decl
  | _, [] => []
  | n, p :: ps => { p.1 with src := tokenAgain c n p, aft := if ps.isEmpty then last else .line } :: blockAgain c last (n + 1) ps

/-- Blocks printed from line `n` on, with an empty line between them, read again. -/
def blocksAgain : Nat → List (List (Decl × List Char)) → List (List Decl)
  | _, [] => []
  | n, b :: bs => blockAgain 0 (if bs.isEmpty then .line else .blank) n b :: blocksAgain (n + b.length + 1) bs

/-- The width of a type, if its tokens have no tabs. -/
def width (d : Decl) : Nat := (joined [' '] d.words).length

/-- The block has no tab after any type in the source, or no stars, or its widest types do not end at a tab stop, or one
of the widest types has stars, or at least a quarter of the types, rounded down, are less wide. -/
def Steady (b : List Decl) : Prop :=
  (∀ d ∈ b, tabbed d = false) ∨ (∀ d ∈ b, d.stars = 0) ∨
  ∃ d ∈ b, named d ∧ (∀ d' ∈ b, named d' → width d' ≤ width d) ∧
    (width d % 8 ≠ 0 ∨ d.stars ≠ 0 ∨ (b.filter named).length / 4 ≤ (b.filter fun d' => named d' && decide (width d' < width d)).length)

end Knfmt.Layout.Spec
