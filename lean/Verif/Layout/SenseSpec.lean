import Verif.Layout.DeclSpec
/-!
# When names are lined up (C94): specification
-/
namespace Knfmt.Layout.Spec
open Knfmt.Layout

/-- The declaration has a name, unlike `struct s;`. -/
def named (d : Decl) : Bool :=
  match d.tail with
  | .bare => false
  | _ => true

/-- The type is followed by white space that begins with a tab in the source. -/
def tabbed (d : Decl) : Bool :=
  named d && d.src.suffixes.any fun s => s.optspace && s.str.head? == some '\t'

/-- The name, or the stars in front of it, is on the line of the type in the source and the name is in column `x`. -/
def NamedAt (d : Decl) (x : Nat) : Prop := ∃ c, d.src.next = some (d.src.lno, c) ∧ c + d.stars = x

/-- The names of a block, whose declarations begin in column `c`, begin in the same column if the source has tabs after
one type and after a quarter of the types, rounded down. Otherwise they follow one space if they do not all begin in the
same column of the source. -/
def DecidedAt (c : Nat) (b : List (Decl × List Char)) : Prop :=
  (0 < (b.filter (tabbed ·.1)).length → (b.filter (named ·.1)).length / 4 ≤ (b.filter (tabbed ·.1)).length →
    ∃ x, ∀ p ∈ b, named p.1 → Knfmt.Spec.column c (leadText p.2 p.1) = x) ∧
  ((b.filter (tabbed ·.1)).length = 0 ∨ (b.filter (tabbed ·.1)).length < (b.filter (named ·.1)).length / 4 → (¬ ∃ x, ∀ p ∈ b, named p.1 → NamedAt p.1 x) → ∀ p ∈ b, named p.1 → p.2 = [' '])

end Knfmt.Layout.Spec
