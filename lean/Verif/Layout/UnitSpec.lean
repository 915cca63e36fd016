import Verif.Layout.UnitModel
import Verif.Layout.DeclSpec
/-!
# Files of declarations and functions (C93): specification
-/
namespace Knfmt.Layout.Spec
open Knfmt.Layout

/-- A block of declarations, with the white space between types and names, or a function definition. -/
inductive Piece where
  | block (b : List (Decl × List Char))
  | func (f : Func)

/-- The piece without the white space. -/
def Piece.unit : Piece → Unit'
  | .block b => .block (b.map Prod.fst)
  | .func f => .func f

/-- The text of a piece, without the new line at its end. -/
def Piece.text (H : Hand) (brk wrap : Bool) : Piece → List Char
  | .block b => blockText H b
  | .func f => defText H brk wrap f

/-- Is there an empty line after a piece that is not the last one? Always after a function, and after declarations if
there is one in the source. -/
def Piece.gap : Piece → Bool
  | .block b => b.getLast?.any fun p => p.1.aft == .blank
  | .func _ => true

/-- The text of a file: a new line after each piece, and never more than one empty line, and none at the end. -/
def piecesText (H : Hand) (brk wrap : Bool) : List Piece → List Char
  | [] => []
  | [p] => p.text H brk wrap ++ ['\n']
  | p :: ps => p.text H brk wrap ++ ((if p.gap then ['\n', '\n'] else ['\n']) ++ piecesText H brk wrap ps)

/-- The names of declarations are lined up, as in C92. -/
def Piece.Lined : Piece → Prop
  | .block b => Spec.Lined b
  | .func _ => True

end Knfmt.Layout.Spec
