import Verif.Layout.Model
/-!
# parser-func.c: the documents of function definitions (C91)

Model of the documents made by `parser_exec`, parser.c:123-195, for a file of function definitions, with
`parser_func_impl`, parser-func.c:175-191, `parser_func_proto`, parser-func.c:310-427, `parser_func_arg`,
parser-func.c:193-267, and `parser_type`, parser-type.c:209-307. The tree is given: the parser itself is modelled in
`Verif/Parse`.

Simplifications, valid for the whole file, besides those of `Layout/Model.lean`:

* a type consists of words and of stars after them; there are no attributes, no old style arguments, no functions
  returning pointers to functions and no arguments that are functions;
* the arguments of a function are on one line in the source. White space after the type, the name and the right
  parenthesis is removed by the parser, parser-type.c:231, parser-func.c:371 and 382-384, so that it may be anything;
* `AlignAfterOpenBracket` is not `Align`;
* the ruler of a definition is made with `RULER_ALIGN_FIXED` and one space, parser-func.c:185: its only entry is one
  space, see `fixed_spaces` in `Ruler/Props.lean`.
-/
namespace Knfmt.Layout
open Knfmt.Doc (Doc Align)

/-- A function definition: `opn` comes after the left brace in the source and `aft` after the right brace. -/
structure Func where
  typ : Typ
  name : List Char
  params : List Param
  opn : After
  body : Stmts
  aft : After

/-- The style: `AlwaysBreakAfterReturnType` is a value that breaks in definitions, and `AfterFunction` of
`BraceWrapping`. -/
structure FileStyle extends Style where
  breakType : Bool
  wrap : Bool

/-- The name and the arguments of a function definition. -/
def protoDoc (S : FileStyle) (f : Func) : Doc := argsDoc S.toStyle f.name f.params (lit [')'])

/-- `parser_func_impl1`, parser-func.c:269-303; `last` is the end of the file, `want_line_after_func_impl`,
parser-func.c:449-480: a definition begins with a type and so never looks like a macro. -/
def defDoc (S : FileStyle) (f : Func) (last : Bool) : Doc :=
  .seq (typeDoc (some ⟨1, 0, false⟩) f.typ.stars f.typ.words)
    (.seq (if S.breakType then .hardline else .nil)
    (.seq (protoDoc S f)
    (.seq (if S.wrap then .hardline else lit [' '])
    (.seq (lit ['{']) (.seq (afterDoc (trimOpen f.opn f.body))
      (.seq (bodyDoc S.toStyle false (isNil f.body) (items S.toStyle f.body) (afterDoc f.aft))
    (.seq .hardline (if last then .nil else .hardline))))))))

/-- The loop of `parser_exec`, parser.c:138-169. -/
def fileDoc (S : FileStyle) : List Func → Doc
  | [] => .nil
  | [f] => defDoc S f true
  | f :: fs => .seq (defDoc S f false) (fileDoc S fs)

end Knfmt.Layout
