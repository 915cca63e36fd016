import Verif.Layout.FileModel
import Verif.Layout.Spec
/-!
# The layout of function definitions (C91): specification
-/
namespace Knfmt.Layout.Spec
open Knfmt.Layout

/-- `main(int argc, char *argv[])` -/
def protoText (f : Func) : List Char :=
  f.name ++ (['('] ++ (joined [',', ' '] (f.params.map paramText) ++ [')']))

/-- A function definition: the type on a line of its own if `brk`, the left brace on a line of its own if `wrap`. -/
def defText (H : Hand) (brk wrap : Bool) (f : Func) : List Char :=
  (if brk then typeText f.typ ++ ['\n'] else typeNext f.typ) ++ (protoText f ++
    ((if wrap then ['\n'] else [' ']) ++ body H f.opn f.body))

/-- A file: exactly one empty line between two functions, and none at the end. -/
def fileText (H : Hand) (brk wrap : Bool) : List Func → List Char
  | [] => []
  | [f] => defText H brk wrap f ++ ['\n']
  | f :: fs => defText H brk wrap f ++ (['\n', '\n'] ++ fileText H brk wrap fs)

end Knfmt.Layout.Spec
