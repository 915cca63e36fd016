import Verif.Layout.FileModel
/-!
# Blocks of declarations (C92)

The document of a file made of blocks of declarations, function prototypes and forward declarations, as parser_exec, parser_decl1,
parser_decl2, parser_decl_init and parser_func_decl1 make it, together with the ruler that aligns the names. Comments, directives, attributes, bit-fields, structures with
fields, braces and line breaks after `=` and `,` are not modelled.
-/
namespace Knfmt.Layout
open Knfmt.Doc (Doc)

/-- `parser_decl1`, parser-decl.c:93-155, with `PARSER_DECL_LINE`; `none` if an assertion in ruler.c fails. -/
def blockDoc (S : Style) (ds : List Decl) : Option Doc :=
  (Knfmt.Ruler.exec (blockRuler ds)).map fun (out, is) => .seq (declsDoc S .other (out.headD []) is ds) .hardline

/-- The loop of `parser_exec`, parser.c:138-169, for blocks of declarations: a block ends with an empty line,
parser-decl.c:125-130. -/
def blocksDoc (S : Style) : List (List Decl) → Option Doc
  | [] => some .nil
  | b :: bs => (blockDoc S b).bind fun d => (blocksDoc S bs).map fun r => .seq d r

end Knfmt.Layout
