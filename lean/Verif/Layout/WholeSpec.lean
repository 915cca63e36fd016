import Verif.Layout.BodySpec
import Verif.Layout.UnitSpec
/-!
# Formatting a file of declarations and functions a second time (C96): specification
-/
namespace Knfmt.Layout.Spec
open Knfmt.Layout

/-- A block of declarations or a function, read again; `last` says that it is the last one of the file, and `ln` gives
the lines of the blocks. There is an empty line after every function that is not the last one. -/
def unitAgain (H : Hand) (ln : List Decl → Nat) (last : Bool) : Unit' → Unit'
  | .block b => .block (blockAgain 0 (if last then .line else tidy (lastAft b)) (ln b) (b.zip (H.gaps 0 b)))
  | .func f => .func { f with
      opn := openAgain f.opn f.body
      body := stmtsAgain H ln 1 .line f.body
      aft := if last then .line else .blank }

/-- A file, read again. -/
def unitsAgain (H : Hand) (ln : List Decl → Nat) : List Unit' → List Unit'
  | [] => []
  | u :: us => unitAgain H ln us.isEmpty u :: unitsAgain H ln us

/-- The blocks of declarations of a block or a function, with their depths. -/
def unitBlocks : Unit' → List (Nat × List Decl)
  | .block b => [(0, b)]
  | .func f => stmtsBlocks 1 f.body

end Knfmt.Layout.Spec
