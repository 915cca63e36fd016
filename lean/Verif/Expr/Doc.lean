import Verif.Expr.Yield
import Verif.Doc.Model
/-!
# expr.c: the document of an expression

Model of `expr_doc` and the functions it reaches, expr.c:694-1284, and of the second half of
`expr_exec`, expr.c:327-348.

A function of the C code appends to the document it is given and returns the document the caller
goes on with. Here it is given what the caller appends afterwards, `k`, and puts it there: nothing is
ever appended to a document after something behind it, so that the document is the same.

Simplifications, valid for the whole file:

* no token has comments or preprocessor directives. What is printed after a token is a parameter,
  `suffix`: that covers `token_trim`, `token_move_next_line` and `token_move_prev_line`, which only
  move and remove new lines;
* the answers of `token_has_line`, `expr_doc_has_spaces` and of the ruler are parameters, too, and so are
  the documents made by the callbacks `recover` and `recover_cast`;
* the testing backdoor `EXPR_EXEC_TEST` is left out.
-/
namespace Knfmt.ExprDoc
open Knfmt.Lexer (TT)
open Knfmt.Expr (Tok Ex)
open Knfmt.Doc (Doc)

/-- The style, the arguments of `expr_exec`, expr.h:13-50, and what is known about tokens. -/
structure Conf where
  /-- `AlignOperands` is `Align` -/
  alignOperands : Bool := false
  /-- `AlignAfterOpenBracket` is `Align` -/
  alignBracket : Bool := false
  /-- `BreakBeforeBinaryOperators` is `NonAssignment` or `All` -/
  breakBinary : Bool := false
  /-- `BreakBeforeTernaryOperators` is `True` -/
  breakTernary : Bool := false
  /-- `indent` and `align` -/
  indent : Nat := 0
  align : Nat := 0
  /-- `EXPR_EXEC_LINE`, `EXPR_EXEC_SOFTLINE`, `EXPR_EXEC_HARDLINE`, `EXPR_EXEC_NOSOFT`, `EXPR_EXEC_ALIGN` -/
  line : Bool := false
  softline : Bool := false
  hardline : Bool := false
  nosoft : Bool := false
  columns : Bool := false
  /-- `simple_enter` for `SIMPLE_EXPR_PARENS` and `SIMPLE_EXPR_SIZEOF` -/
  simpleParens : Bool := false
  simpleSizeof : Bool := false
  /-- what is printed after a token -/
  suffix : Tok → Doc := fun _ => .nil
  /-- `token_has_line(tk, 1)` -/
  hasLine : Tok → Bool := fun _ => false
  /-- `token_has_line` for the token before adjacent strings, given the last of them -/
  prevLine : Tok → Bool := fun _ => false
  /-- there are spaces around the token -/
  spaced : Tok → Bool := fun _ => true
  /-- the token after a comma is a comma -/
  nextComma : Tok → Bool := fun _ => false
  /-- the alignment of `ruler_insert` -/
  ruler : Tok → Knfmt.Doc.Align := fun _ => ⟨1, 0, false⟩
  /-- the document of a callback -/
  recDoc : List Tok → Doc := fun _ => .nil

/-- The counters of `struct expr_state`, expr.c:105-127: `es_ncalls`, `es_nassign`, `es_noparens` and
whether `es_depth` is one. `chain` says that the expression is an element of an `EXPR_CONCAT`, and not the
last one. -/
structure Ctx where
  ncalls : Nat := 0
  nassign : Nat := 0
  noparens : Nat := 0
  root : Bool := false
  chain : Bool := false

/-- The state for a nested expression. -/
def Ctx.sub (c : Ctx) : Ctx := { c with root := false, chain := false }

/-- The line after an element of an `EXPR_CONCAT`, expr.c:1066-1067. -/
def kk (c : Ctx) (k : Doc) : Doc := if c.chain then .seq .line k else k

/-- `doc_literal`, a text without token. -/
def lit (s : List Char) : Doc := .literal s none

/-- `expr_doc_token`, expr.c:1155-1161, with `parser_doc_token_impl`, parser.c:323-363, for a token
without prefixes. -/
def tok (C : Conf) (t : Tok) : Doc := .seq (.literal t.str (some { id := t.id, str := t.str })) (C.suffix t)

/-- A token that may be missing. -/
def optTok (C : Conf) : Option Tok → Doc
  | some t => tok C t
  | none => .nil

/-- `expr_doc_align`, expr.c:1171-1185, and `expr_doc_align_disable`, expr.c:1187-1197. -/
def alignD (disable : Bool) (id indent : Nat) (d : Doc) : Doc :=
  .minimize id (if disable then [⟨0, false⟩, ⟨indent, true⟩] else [⟨2 ^ 27, false⟩, ⟨indent, false⟩]) d

/-- `expr_doc_align` if wanted. -/
def alignIf (b : Bool) (id : Nat) (d : Doc) : Doc := if b then alignD false id 0 d else d

/-- `doc_max`, doc.c:587-600, with `doc_max1`, doc.c:1741-1755. -/
def maxSoft : Doc → Int
  | .seq d ds => max (maxSoft d) (maxSoft ds)
  | .group d | .indent _ d | .noindent d | .optional d | .minimize _ _ d | .scope d | .maxlines _ d =>
    maxSoft d
  | .softline n => max 0 n
  | _ => 0

/-- `expr_doc_soft_impl`, expr.c:1259-1283; `f` is `expr_doc` for the expression. -/
def soft (C : Conf) (weight : Int) (f : Doc → Doc) (k : Doc) : Doc :=
  if C.nosoft then f k
  else if weight < 3 ∧ maxSoft (f .nil) ≥ weight then .group (f k)
  else .group (.seq (.softline weight) (f k))

/-- The flags `TOKEN_FLAG_ASSIGN` and `TOKEN_FLAG_SPACE`, token.h. -/
def assignFlag (ty : TT) : Bool := Knfmt.Lexer.keywords.any fun k => k.2.1 = ty && k.2.2.assign
def spaceFlag (ty : TT) : Bool := Knfmt.Lexer.keywords.any fun k => k.2.1 = ty && k.2.2.space

/-- `expr_doc_has_spaces`, expr.c:1218-1236. -/
def hasSpaces (C : Conf) (op : Tok) : Bool := !spaceFlag op.ty || C.spaced op

/-- No expression. -/
def isNull : Ex → Bool
  | .null => true
  | _ => false

/-- `expr_doc_recover`, expr.c:1140-1153. -/
def recover (C : Conf) (ts : List Tok) (k : Doc) : Doc :=
  match ts with
  | t :: _ => if t.ty = .lbrace then alignD true t.id 0 (.seq (C.recDoc ts) k) else .seq (C.recDoc ts) k
  | [] => .seq (C.recDoc ts) k

/-- `expr_doc_indent_parens`, expr.c:1210-1216, and the other indentation in `expr_doc_parens`,
expr.c:913-916. -/
def indentParens (C : Conf) (c : Ctx) (d : Doc) : Doc :=
  if C.alignBracket then .indent (2 ^ 27) d
  else if c.noparens > 0 then d
  else .indent (2 ^ 30) d

/-- The alignment of the arguments of a call, expr.c:966-978; `c` counts the call. -/
def alignArgs (C : Conf) (c : Ctx) (l : Tok) (d : Doc) : Doc :=
  if C.alignBracket then
    alignD (C.hasLine l) l.id (if c.ncalls = 1 ∧ C.align = 0 ∧ C.hardline = false then 0 else C.indent) d
  else d

/-- The alignment after an assignment operator, expr.c:823-827. -/
def alignAssign (C : Conf) (op : Tok) (d : Doc) : Doc :=
  if C.alignOperands then alignD (C.hasLine op) op.id 0 d else d

/-- `expr_doc_soft` or `expr_doc`, expr.c:833-839 and 947-950. -/
def softIf (b : Bool) (C : Conf) (weight : Int) (f : Doc → Doc) (k : Doc) : Doc :=
  if b then soft C weight f k else f k

/-- The closing parenthesis of a call without arguments, expr.c:983-992. -/
def dedentTok (C : Conf) : Option Tok → Doc
  | some t => .indent (-(C.indent : Int)) (tok C t)
  | none => .nil

/-- `expr_doc`, expr.c:694-798: the document of an expression, with `k` behind it. -/
def edoc (C : Conf) : Ex → Ctx → Doc → Doc
  | .null, c, k => kk c k
  | .lit t, c, k => .group (.seq (tok C t) (kk c k))
  -- expr_doc_unary, expr.c:800-807
  | .un op e, c, k => .group (.seq (tok C op) (edoc C e c.sub (kk c k)))
  | .pre op e, c, k => .group (.seq (tok C op) (.seq (edoc C e c.sub .nil) (kk c k)))
  | .post e op, c, k => .group (.seq (edoc C e c.sub .nil) (.seq (tok C op) (kk c k)))
  | .bin l op r, c, k => .group (
    if op.ty = .comma then
      -- expr_doc_arg, expr.c:1000-1023
      .seq (edoc C l c.sub (.seq (tok C op)
          (if C.columns then .align (C.ruler op) else if C.nextComma op then .nil else .line)))
        (if isNull r then kk c k else soft C 3 (edoc C r c.sub) (kk c k))
    else if assignFlag op.ty then
      -- expr_doc_binary, expr.c:815-842
      let s := { c.sub with nassign := c.nassign + 1 }
      .seq (edoc C l s (.seq (lit [' ']) (.seq (tok C op) (lit [' ']))))
        (if isNull r then kk c k
         else alignAssign C op (softIf (s.nassign > 1) C 2 (edoc C r s) (kk c k)))
    else if C.breakBinary then
      -- expr.c:843-862
      alignIf C.alignOperands op.id (.seq (edoc C l c.sub (if hasSpaces C op then .line else .nil))
        (.group (.seq (.softline 0) (.seq (tok C op) (.seq (if hasSpaces C op then lit [' '] else .nil)
          (edoc C r c.sub (kk c k)))))))
    else
      -- expr.c:863-893
      alignIf C.alignOperands op.id (.seq
        (edoc C l c.sub (.seq (if hasSpaces C op then lit [' '] else .nil) (tok C op)))
        (.group (.seq (if hasSpaces C op then .line else .nil)
          (if isNull r then kk c k else soft C 2 (edoc C r c.sub) (kk c k))))))
  | .tern cd q m co t, c, k => .group (
    if C.breakTernary then
      -- expr_doc_ternary, expr.c:1078-1109
      .seq (edoc C cd c.sub .line) (alignIf C.alignOperands q.id (.seq
        (.group (.seq (.softline 0) (.seq (tok C q)
          (if isNull m then .nil else .seq (lit [' ']) (soft C 2 (edoc C m c.sub) .line)))))
        (.group (.seq (.softline 0) (.seq (optTok C co) (.seq (lit [' '])
          (edoc C t c.sub (kk c k))))))))
    else
      -- expr.c:1110-1137
      .seq (edoc C cd c.sub (.seq .line (.seq (tok C q) (if isNull m then .nil else .line))))
        (.seq (if isNull m then .seq (optTok C co) .line
            else soft C 2 (edoc C m c.sub) (.seq .line (.seq (optTok C co) .line)))
          (soft C 2 (edoc C t c.sub) (kk c k))))
  -- expr_doc_parens, expr.c:895-924
  | .parens l e r, c, k => .group (
    if c.root && C.simpleParens then edoc C e c.sub (kk c k)
    else .seq (tok C l) (indentParens C c (edoc C e c.sub (.seq (optTok C r) (kk c k)))))
  -- expr_doc_call, expr.c:937-998
  | .call f l a r, c, k =>
    let s := { c.sub with ncalls := c.ncalls + 1 }
    let g := edoc C f { s with noparens := c.noparens + 1 }
    let h := .seq (tok C l)
      (if isNull a then
        .seq (dedentTok C r) (kk c k)
      else alignArgs C s l (soft C 2 (edoc C a s) (.seq (optTok C r) (kk c k))))
    .group (softIf (s.ncalls > 1) C 2 g h)
  | .squares f l i r, c, k =>
    .group (edoc C f c.sub (.seq (tok C l) (edoc C i c.sub (.seq (optTok C r) (kk c k)))))
  -- expr_doc_field, expr.c:926-935
  | .field l op r, c, k => .group (edoc C l c.sub (.seq (tok C op) (edoc C r c.sub (kk c k))))
  | .cast l ts r e, c, k =>
    .group (.seq (tok C l) (.seq (.group (recover C ts .nil)) (.seq (optTok C r)
      (.seq (edoc C e c.sub .nil) (kk c k)))))
  -- expr_doc_sizeof, expr.c:1025-1049
  | .sizeofE tk e, c, k =>
    .group (.seq (tok C tk) (.seq (lit [if C.simpleSizeof then '(' else ' '])
      (edoc C e c.sub (.seq (if C.simpleSizeof then lit [')'] else .nil) (kk c k)))))
  | .sizeofP tk l e r, c, k =>
    .group (.seq (tok C tk) (.seq (tok C l) (edoc C e c.sub (.seq (optTok C r) (kk c k)))))
  -- expr_doc_concat, expr.c:1051-1073; the first element has `chain`, the ones in the middle
  -- are in the branch for it
  | .concat e t, c, k =>
    if c.chain then edoc C e { c with root := false } (.seq (.group (.seq (tok C t) .line)) k)
    else .group (alignIf (C.alignOperands && c.ncalls = 0 && !C.prevLine t) t.id
      (edoc C e { c.sub with chain := true } (.seq (.group (tok C t)) k)))
  | .recov ts, c, k => .group (recover C ts (kk c k))

/-- The document `expr_exec` makes, expr.c:327-348. -/
def exprDoc (C : Conf) (e : Ex) : Doc :=
  let d := edoc C e { root := true } .nil
  let d := if C.hardline then .seq .hardline (.optional d) else d
  let d := if C.softline then .seq (.softline 0) d else d
  let d := if C.line then .seq .line d else d
  let d := if C.align > 0 then .indent C.align d else if C.indent > 0 then .indent C.indent d else d
  .maxlines 1 (.scope (.group (.optional d)))

end Knfmt.ExprDoc
