import Verif.Layout.DeclModel
/-!
# Files of declarations and functions (C93)

The document of a file made of blocks of declarations and function definitions, as parser_exec and parser_root make it.
What is not modelled in Layout/FileModel and Layout/DeclModel is not modelled here.
-/
namespace Knfmt.Layout
open Knfmt.Doc (Doc)

/-- What `parser_root` takes in one turn, parser.c:197-214: a block of declarations or a function definition.
A block ends before a function or an empty line, so of two blocks in a row the first has an empty line after it; nothing
below depends on that. -/
inductive Unit' where
  | block (ds : List Decl)
  | func (f : Func)

/-- `parser_root`, parser.c:197-214; `last` is the end of the file. -/
def unitDoc (S : FileStyle) (last : Bool) : Unit' → Option Doc
  | .block ds => blockDoc S.toStyle ds
  | .func f => some (defDoc S f last)

/-- The loop of `parser_exec`, parser.c:138-169. -/
def unitsDoc (S : FileStyle) : List Unit' → Option Doc
  | [] => some .nil
  | u :: us => (unitDoc S us.isEmpty u).bind fun d => (unitsDoc S us).map fun r => .seq d r

end Knfmt.Layout
