import Verif.Layout.DeclModel
import Verif.Layout.FileSpec
import Verif.Util.Spec
/-!
# Blocks of declarations (C92): specification
-/
namespace Knfmt.Layout.Spec
open Knfmt.Layout
open Knfmt.Expr (Ex)

/-- A block, one declaration per line. -/
def blockText (H : Hand) (b : List (Decl × List Char)) : List Char :=
  joined ['\n'] (b.map fun p => declText H p.2 p.1)

/-- Blocks with exactly one empty line between them, and none at the end. -/
def blocksText (H : Hand) (bs : List (List (Decl × List Char))) : List Char :=
  joined ['\n', '\n'] (bs.map (blockText H)) ++ (if bs.isEmpty then [] else ['\n'])

/-- There is only white space between a type and its name, and nothing if there is no name. Either it is one space in all
declarations of the block with a name, or the first names of all declarations begin in the same column. The declarations
begin in column `c`. -/
def LinedAt (c : Nat) (b : List (Decl × List Char)) : Prop :=
  (∀ p ∈ b, ∀ x ∈ p.2, x = ' ' ∨ x = '\t') ∧
  (∀ p ∈ b, p.1.tail = .bare → p.2 = []) ∧
  ((∀ p ∈ b, p.1.tail ≠ .bare → p.2 = [' ']) ∨ ∃ x, ∀ p ∈ b, p.1.tail ≠ .bare → Knfmt.Spec.column c (leadText p.2 p.1) = x)

/-- The same for declarations that begin in the first column. -/
def Lined (b : List (Decl × List Char)) : Prop := LinedAt 0 b

end Knfmt.Layout.Spec
