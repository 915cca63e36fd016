import Verif.Expr.Doc
import Verif.Ruler.Model
/-!
# parser-stmt.c and parser-decl.c: the documents of statements and declarations (C90)

Model of the documents made by `parser_stmt1` and the functions it calls, parser-stmt.c:90-863 and
parser-stmt-expr.c:33-63, and of the documents of declarations, made by `parser_decl1`, parser-decl.c:93-155, with the
ruler that aligns their names. The tree of statements is given: the parser itself is modelled in `Verif/Parse`.

Simplifications, valid for the whole file:

* no simple pass runs;
* the widths found with `parser_width` at parser-stmt.c:365-366 and 522-535 are arbitrary numbers: a function of the
  expression, whose tokens tell it from all others;
* there are no comments, preprocessor directives, `asm` and statements inside expressions. The
  header of a statement is on one line in the source and no empty line comes after `else` and `do`;
* a case and a label are on lines of their own, parser-stmt.c:212-213, 655-660 and 723-724, and not more than one semicolon ends a statement;
* declarations have no attributes, bit-fields, fields and braces, and no line breaks after `=` and `,`. A type consists of
  words and of stars after them. An expression is not mistaken for a declaration by `parser_decl_peek`,
  parser-stmt.c:193-195;
* documents for tokens are literals without the token: it is only used for diffs.
-/
namespace Knfmt.Layout
open Knfmt.Expr (Ex)
open Knfmt.Doc (Doc Align)
open Knfmt.ExprDoc (Conf edoc)

/-- What the source has after the last token of a statement: the next token on the same line, a new line or an empty
line. -/
inductive After where
  | none
  | line
  | blank
deriving DecidableEq, Repr

/-- A type: `const char **`. -/
structure Typ where
  words : List (List Char)
  stars : Nat

/-- An argument: a type and maybe a name, with the sizes of an array. -/
structure Param where
  typ : Typ
  name : Option (List Char × List (Option (List Char))) := none

/-- A variable: stars, name, sizes of an array and initial value. The stars of the first variable of a declaration
belong to the type. -/
structure Var where
  stars : Nat := 0
  name : List Char
  dims : List (Option Ex) := []
  init : Option Ex := none

/-- What comes after the type: variables, the name and the arguments of a function prototype, or nothing as in
`struct s;`. -/
inductive Tail where
  | vars (x : Var) (ys : List Var)
  | args (name : List Char) (ps : List Param)
  | bare

/-- A declaration: the type without its stars, the stars, what comes after them, the last token of the type that is not
a star as the ruler sees it, and what comes after the semicolon. -/
structure Decl where
  words : List (List Char)
  stars : Nat
  tail : Tail
  src : Knfmt.Ruler.Tok
  aft : After

mutual
/-- Statements. -/
inductive Stmt where
  /-- `e;` -/
  | expr (e : Ex) (a : After)
  /-- `return;` and `return e;` -/
  | ret (e : Option Ex) (a : After)
  /-- `break;` and `continue;` -/
  | jump (kw : List Char) (a : After)
  /-- `goto l;` -/
  | goto (l : List Char) (a : After)
  /-- `;` -/
  | semi (a : After)
  /-- `l:`, with an empty line after it if `blank`; `sp` is `token_has_indent` -/
  | label (sp : Bool) (l : List Char) (blank : Bool)
  /-- `{ … }` -/
  | block (b : Stmts) (a : After)
  /-- `while (e)` and macros like `TAILQ_FOREACH(…)`, without space -/
  | loop (kw : List Char) (sp : Bool) (e : Option Ex) (s : Stmt)
  /-- `for (x; y; z)` -/
  | loop3 (x y z : Option Ex) (s : Stmt)
  /-- `if (e)` -/
  | cond (e : Ex) (t : Stmt) (r : Else)
  /-- `do s while (e);` -/
  | doWhile (s : Stmt) (e : Ex) (a : After)
  /-- `switch (e) { … }` -/
  | switch (e : Ex) (b : Stmts) (a : After)
  /-- `case e:` and `default:` with the statements up to the next one -/
  | case (e : Option Ex) (b : Stmts)
  /-- declarations without empty lines between them -/
  | decls (b : List Decl)
/-- What comes after the first branch of an `if`. -/
inductive Else where
  | none
  | elif (e : Ex) (t : Stmt) (r : Else)
  | els (s : Stmt)
/-- Lists of statements. -/
inductive Stmts where
  | nil
  | cons (s : Stmt) (r : Stmts)
end

/-- The style: `IndentWidth`, `ContinuationIndentWidth` and what `expr_exec` needs; `place` is `w` at
parser-stmt.c:366 and 522-535, zero for a condition in a style based on OpenBSD. -/
structure Style where
  width : Nat
  cont : Nat
  conf : Conf
  place : Ex → Nat := fun _ => 0

/-- The arguments of `parser_expr`, parser-stmt.c:821-824 and parser-stmt-expr.c:56-59. -/
def Style.expr (S : Style) : Conf := { S.conf with indent := S.cont, align := 0, line := false }

/-- The arguments of `parser_expr` for a condition, parser-stmt.c:552-557. -/
def Style.head (S : Style) (e : Ex) : Conf := { S.conf with indent := S.cont, align := S.place e, line := false }

/-- `w` in `parser_stmt_for`, parser-stmt.c:365-368. -/
def Style.step (S : Style) (e : Ex) : Nat := if S.conf.alignOperands then S.place e else S.cont

/-- The arguments of `parser_expr` in `for`, parser-stmt.c:374-377; with `line` also `EXPR_EXEC_LINE`,
parser-stmt.c:388-392 and 402-406. -/
def Style.clause (S : Style) (line : Bool) (e : Ex) : Conf := { S.conf with indent := S.step e, align := 0, line := line }

/-- The expression of a case, parser-stmt.c:686-688. -/
def Style.label (S : Style) : Conf := { S.conf with indent := 0, align := 0, line := false }

/-- `doc_literal`. -/
def lit (s : List Char) : Doc := .literal s none

/-- The document of `expr_exec`, expr.c:328-348, with `k` appended to the document it returns. -/
def exprK (C : Conf) (e : Ex) (k : Doc) : Doc :=
  let d := edoc C e { root := true } k
  let d := if C.hardline then .seq .hardline (.optional d) else d
  let d := if C.softline then .seq (.softline 0) d else d
  let d := if C.line then .seq .line d else d
  let d := if C.align > 0 then .indent C.align d else if C.indent > 0 then .indent C.indent d else d
  .maxlines 1 (.scope (.group (.optional d)))

theorem exprK_nil (C : Conf) (e : Ex) : exprK C e .nil = Knfmt.ExprDoc.exprDoc C e := rfl

/-- `parser_expr`, parser-expr.c:50-83, for an expression that may be missing: what comes next is appended to the
expression, if there is one. -/
def optK (C : Ex → Conf) (e : Option Ex) (k : Doc) : Doc :=
  match e with
  | some e => exprK (C e) e k
  | none => k

/-- The suffixes of a token, parser.c:348-355. -/
def afterDoc : After → Doc
  | .none => .nil
  | .line => .optline
  | .blank => .verbatim ['\n'] { id := 0, str := ['\n'] }

/-- `parser_semi`, parser.c:365-393. -/
def semiDoc (a : After) : Doc := .seq (lit [';']) (afterDoc a)

/-- The token after a statement, as far as it matters. -/
inductive Next where
  | other
  | els
  | rbrace
deriving DecidableEq, Repr

/-- What is left after a semicolon: white space before a right brace is removed, parser-stmt.c:182. -/
def trimSemi (n : Next) (a : After) : After := if n = .rbrace then .none else a

/-- What is left after a right brace: white space before `else` is removed, too, parser-stmt.c:234-235. -/
def trimBrace (n : Next) (a : After) : After := if n = .other then a else .none

/-- The stars of a type, parser-type.c:252-253: no line comes after a star, parser-type.c:291. -/
def starsDoc : Nat → Doc
  | 0 => .nil
  | n + 1 => .seq (.group (lit ['*'])) (starsDoc n)

/-- The loop of `parser_type`, parser-type.c:224-304; `al` is the entry of the ruler, parser-type.c:271-281, inserted after the last
token that is not a star, parser-type.c:179-207. -/
def typeDoc (al : Option Align) (stars : Nat) : List (List Char) → Doc
  | [] => starsDoc stars
  | [w] => .seq (.group (.seq (lit w) (match al with
      | some a => .align a
      | none => if stars = 0 then .nil else .line))) (starsDoc stars)
  | w :: ws => .seq (.group (.seq (lit w) .line)) (typeDoc al stars ws)

/-- The sizes of an array, token by token, parser-func.c:251-258. -/
def dimsDoc : List (Option (List Char)) → Doc → Doc
  | [], k => k
  | none :: ds, k => .seq (lit ['[']) (.seq (lit [']']) (dimsDoc ds k))
  | some n :: ds, k => .seq (lit ['[']) (.seq (lit n) (.seq (lit [']']) (dimsDoc ds k)))

/-- `parser_func_arg`, parser-func.c:193-267; `k` comes in the group of the name: the comma and a line or the right
parenthesis of the function. -/
def paramDoc (p : Param) (k : Doc) : Doc :=
  .group (.seq (.softline 0) (.optional (.seq (typeDoc none p.typ.stars p.typ.words) (.group (match p.name with
    | none => k
    | some (n, ds) => .seq (if p.typ.stars = 0 then .line else .nil) (.seq (lit n) (dimsDoc ds k)))))))

/-- The loop of `parser_func_proto`, parser-func.c:404-410, if there are arguments; `k` comes in the document of the
last one, as `out` says. -/
def paramsDoc (k : Doc) : List Param → Doc
  | [] => .nil
  | [p] => paramDoc p k
  | p :: ps => .seq (paramDoc p (.seq (lit [',']) .line)) (paramsDoc k ps)

/-- The name and the arguments, parser-func.c:348-410, if `AlignAfterOpenBracket` is not `Align`,
parser-func.c:388-402; `k` is the right parenthesis and what comes after it in `out`. -/
def argsDoc (S : Style) (name : List Char) (ps : List Param) (k : Doc) : Doc :=
  .group (.seq (lit name) (.seq (lit ['(']) (.seq (.indent S.cont (paramsDoc k ps)) (if ps.isEmpty then k else .nil))))

/-- What is given to `ruler_insert`, parser-type.c:277-278: `parser_width`, parser.c:274-289, is the width of the type
without its stars. -/
def Decl.datum (d : Decl) : Knfmt.Ruler.Datum where
  tk := d.src
  len := Knfmt.Util.strwidth (d.words.intersperse [' ']).flatten 0
  nspaces := d.stars

/-- `ruler_indent_impl`, ruler.c:131-159. -/
def rulerIndent (rl : Knfmt.Ruler.Ruler) (pos : Bool) : Knfmt.Ruler.Ruler := (Knfmt.Ruler.indent rl pos).getD rl

/-- The indentations of a declaration: `ruler_indent` in `parser_decl_init`, parser-decl.c:287, and `ruler_dedent` for
each initial value, parser-decl.c:413. -/
def Decl.requests (d : Decl) : List Bool :=
  match d.tail with
  | .vars x ys => true :: ((x :: ys).filter (·.init.isSome)).map fun _ => false
  | .args _ _ => []
  | .bare => []

/-- Whether the ruler gets an entry: not if the last token of the type is followed by a semicolon, parser-type.c:199-202. -/
def Decl.ruled (d : Decl) : Bool :=
  match d.tail with
  | .bare => d.stars != 0
  | _ => true

/-- What a declaration does with the ruler: `ruler_insert` in `parser_type`, parser-type.c:277-278, and the
indentations. -/
def enterDecl (rl : Knfmt.Ruler.Ruler) (d : Decl) : Knfmt.Ruler.Ruler :=
  d.requests.foldl rulerIndent (if d.ruled then (Knfmt.Ruler.insert rl d.datum 1).getD rl else rl)

/-- The ruler of a block, parser-decl.c:105-141. -/
def blockRuler (ds : List Decl) : Knfmt.Ruler.Ruler := ds.foldl enterDecl (Knfmt.Ruler.init 0 { sense := true })

/-- Sizes of an array, parser-decl.c:351-371. -/
def sizesDoc (S : Style) : List (Option Ex) → Doc
  | [] => .nil
  | d :: ds => .seq (lit ['[']) (.seq (optK (fun _ => S.label) d (lit [']'])) (sizesDoc S ds))

/-- The stars in front of a variable, parser-decl.c:379-381. -/
def varStars : Nat → Doc
  | 0 => .nil
  | n + 1 => .seq (lit ['*']) (varStars n)

/-- A variable, `parser_decl_init1` and `parser_decl_init_assign`, parser-decl.c:340-446; `v` is the indentation of the
initial value, `k` comes in the document of the expression if there is one and otherwise in that of the variable, as
`out` says, and `l` always in that of the variable. -/
def varDoc (S : Style) (v : Int) (x : Var) (k l : Doc) : Doc :=
  .seq (varStars x.stars) (.seq (lit x.name) (.seq (sizesDoc S x.dims) (match x.init with
    | none => .seq k l
    | some e => .seq (lit [' ']) (.seq (lit ['=']) (.seq (lit [' ']) (.seq (.indent v (exprK S.expr e k)) l))))))

/-- The indentation left for the next variable. -/
def dropIndent (x : Var) (is : List Int) : List Int := if x.init.isSome then is.tail else is

/-- The variables after the first one, parser-decl.c:298-312. -/
def varsDoc (S : Style) (k : Doc) : Var → List Var → List Int → Doc
  | x, [], is => .group (.seq (.softline 0) (.group (varDoc S (is.headD 0) x k .nil)))
  | x, y :: ys, is => .seq (.group (.seq (.softline 0) (.group (varDoc S (is.headD 0) x .nil (.seq (lit [',']) .line)))))
      (varsDoc S k y ys (dropIndent x is))

/-- `parser_decl_init`, parser-decl.c:278-326. -/
def initsDoc (S : Style) (k : Doc) (x : Var) (ys : List Var) (is : List Int) : Doc :=
  .indent (is.headD 0) (match ys with
    | [] => .group (varDoc S (is.tail.headD 0) x k .nil)
    | y :: ys => .seq (.group (varDoc S (is.tail.headD 0) x .nil (.seq (lit [',']) .line)))
        (varsDoc S k y ys (dropIndent x is.tail)))

/-- What comes after the type, in `parser_decl2` or in `parser_func_proto`, parser-func.c:310-432, called by
`parser_func_decl1`, parser-func.c:124-145, if `AlwaysBreakAfterReturnType` is neither `All` nor `TopLevel`. Nothing if
a semicolon follows, parser-decl.c:206-207. -/
def tailDoc (S : Style) (k : Doc) (is : List Int) : Tail → Doc
  | .vars x ys => initsDoc S k x ys is
  | .args n ps => argsDoc S n ps (.seq (lit [')']) k)
  | .bare => k

/-- `parser_decl2`, parser-decl.c:156-273, and `parser_func_decl1`, parser-func.c:124-145. -/
def declDoc (S : Style) (nx : Next) (a : Option Align) (is : List Int) (d : Decl) : Doc :=
  .group (.seq (typeDoc a d.stars d.words) (tailDoc S (semiDoc (trimSemi nx d.aft)) is d.tail))

/-- The entry of a declaration among those that are left, and the others. -/
def Decl.entry (d : Decl) (as : List Align) : Option Align := if d.ruled then some (as.headD Knfmt.Ruler.dflt) else none
def Decl.rest (d : Decl) (as : List Align) : List Align := if d.ruled then as.tail else as

/-- The loop of `parser_decl1`, parser-decl.c:109-141; `nx` is the token after the last declaration. -/
def declsDoc (S : Style) (nx : Next) : List Align → List Int → List Decl → Doc
  | _, _, [] => .nil
  | as, is, [d] => declDoc S nx (d.entry as) is d
  | as, is, d :: ds => .seq (declDoc S .other (d.entry as) is d)
      (.seq .hardline (declsDoc S nx (d.rest as) (is.drop d.requests.length) ds))

/-- `ruler_exec` at the end of a block, parser-decl.c:144-146: the white space after the types and the indentations. No
assertion of ruler.c fails, see `block_exec` in `Layout/DeclProps.lean`. -/
def rulerOf (ds : List Decl) : List Align × List Int :=
  match Knfmt.Ruler.exec (blockRuler ds) with
  | some (out, is) => (out.headD [], is)
  | none => ([], [])

/-- The first half of `parser_stmt_kw_expr`, parser-stmt.c:501-573; `elif` is `PARSER_STMT_EXPR_ELSEIF`. -/
def headDoc (S : Style) (elif : Bool) (kw : List Char) (sp : Bool) (e : Option Ex) (k : Doc) : Doc :=
  .group (.seq (if elif then .seq (lit ['e', 'l', 's', 'e']) (lit [' ']) else .nil)
    (.seq (lit kw) (.seq (if sp then lit [' '] else .nil) (.seq (lit ['(']) (optK S.head e (.seq (lit [')']) k))))))

/-- The first half of `parser_stmt_for`, parser-stmt.c:355-414. -/
def forDoc (S : Style) (x y z : Option Ex) (k : Doc) : Doc :=
  .group (.seq (lit ['f', 'o', 'r']) (.seq (lit [' ']) (.seq (lit ['(']) (.seq (optK (S.clause false) x (lit [';']))
    (.seq (optK (S.clause true) y (lit [';'])) (optK (S.clause true) z (.seq (lit [')']) k)))))))

/-- `parser_stmt_block`, parser-stmt.c:198-239, after the left brace; `items` are the statements and `k` comes
after the right brace. -/
def bodyDoc (S : Style) (switch empty : Bool) (items k : Doc) : Doc :=
  let d := if empty then .nil else .seq .hardline items
  .seq (if switch then d else .indent S.width d) (.seq .hardline (.group (.seq (lit ['}']) k)))

/-- No statements. -/
def isNil : Stmts → Bool
  | .nil => true
  | .cons _ _ => false

/-- The statement is a block. -/
def isBlock : Stmt → Bool
  | .block _ _ => true
  | _ => false

/-- There is no `else`. -/
def isNone : Else → Bool
  | .none => true
  | _ => false

/-- What comes after the right brace of a block in the source. -/
def braceAfter : Stmt → After
  | .block _ a => a
  | _ => .none

/-- The first statement is a block. -/
def startsBlock : Stmts → Bool
  | .cons s _ => isBlock s
  | .nil => false

/-- The second half of `parser_stmt_kw_expr`, parser-stmt.c:584-611; `h` is the first half, `d` the document of the
statement, `r` the one of a block after its left brace. -/
def armDoc (S : Style) (h : Doc → Doc) (block : Bool) (d r : Doc) : Doc :=
  if block then .seq (h (.seq (lit [' ']) (lit ['{']))) r
  else .seq (h .nil) (.indent S.width (.seq .hardline d))

/-- The second half of `parser_stmt_for`, parser-stmt.c:424-436. -/
def forArm (S : Style) (h : Doc → Doc) (block : Bool) (d : Doc) : Doc :=
  if block then .seq (h (lit [' '])) d else .seq (h .nil) (.indent S.width (.seq .hardline d))

/-- `parser_stmt_if` after `else`, parser-stmt.c:308-337. -/
def elseArm (S : Style) (block : Bool) (d : Doc) : Doc :=
  .seq (lit ['e', 'l', 's', 'e']) (.seq (lit [' ']) (if block then d else .indent S.width (.seq .hardline d)))

/-- The white space before `else`, parser-stmt.c:297-300. -/
def elseGap (braces : Bool) : Doc := if braces then lit [' '] else .hardline

/-- `parser_stmt_case` up to the colon, parser-stmt.c:678-695, and `k` in the same group. -/
def caseHead (S : Style) (e : Option Ex) (k : Doc) : Doc :=
  match e with
  | some e => .group (.seq (lit ['c', 'a', 's', 'e']) (.seq .line (.seq (exprK S.label e .nil) (.seq (lit [':']) k))))
  | none => .group (.seq (lit ['d', 'e', 'f', 'a', 'u', 'l', 't']) (.seq (lit [':']) k))

mutual
/-- `parser_stmt1`, parser-stmt.c:90-131. `nx` is the token after the statement. -/
def doc (S : Style) (nx : Next) : Stmt → Doc
  -- parser_stmt_expr, parser-stmt-expr.c:33-63
  | .expr e a => exprK S.expr e (semiDoc (trimSemi nx a))
  -- parser_stmt_return, parser-stmt.c:804-831
  | .ret none a => .group (.seq (lit ['r', 'e', 't', 'u', 'r', 'n']) (semiDoc (trimSemi nx a)))
  | .ret (some e) a => .group (.seq (lit ['r', 'e', 't', 'u', 'r', 'n'])
      (.seq (lit [' ']) (exprK S.expr e (semiDoc (trimSemi nx a)))))
  -- parser_stmt_break and parser_stmt_continue, parser-stmt.c:776-802
  | .jump kw a => .seq (lit kw) (semiDoc (trimSemi nx a))
  -- parser_stmt_goto, parser-stmt.c:738-754
  | .goto l a => .group (.seq (lit ['g', 'o', 't', 'o']) (.seq .line (.seq (lit l) (semiDoc (trimSemi nx a)))))
  -- parser_stmt_semi, parser-stmt.c:833-841
  | .semi a => semiDoc (trimSemi nx a)
  -- parser_stmt_label, parser-stmt.c:614-664
  | .label sp l blank => .noindent (.seq (if sp then lit [' '] else .nil)
      (.seq (lit l) (.seq (lit [':']) (afterDoc (trimSemi nx (if blank then .blank else .line))))))
  -- parser_stmt_block, parser-stmt.c:149-245
  | .block b a => .seq (lit ['{']) (bodyDoc S false (isNil b) (items S b) (afterDoc (trimBrace nx a)))
  -- parser_stmt_while, parser-stmt.c:766-774, and parser_stmt_cpp, parser-stmt.c:843-863
  | .loop kw sp e s =>
    armDoc S (headDoc S false kw sp e) (isBlock s) (doc S nx s) (braced S (afterDoc (trimBrace nx (braceAfter s))) s)
  -- parser_stmt_for, parser-stmt.c:343-437
  | .loop3 x y z s => forArm S (forDoc S x y z) (isBlock s) (doc S nx s)
  -- parser_stmt_if, parser-stmt.c:281-341
  | .cond e t r =>
    .seq (armDoc S (headDoc S false ['i', 'f'] true (some e)) (isBlock t) (doc S (if isNone r then nx else .els) t)
        (braced S (afterDoc (trimBrace (if isNone r then nx else .els) (braceAfter t))) t))
      (elseDoc S nx (isBlock t) r)
  -- parser_stmt_dowhile, parser-stmt.c:439-484
  | .doWhile s e a =>
    let h := headDoc S false ['w', 'h', 'i', 'l', 'e'] true (some e) (semiDoc (trimSemi nx a))
    .seq (lit ['d', 'o'])
      (if isBlock s then .seq (lit [' ']) (.seq (lit ['{']) (braced S (.seq (afterDoc (braceAfter s)) (.seq (lit [' ']) h)) s))
       else .seq (.indent S.width (.seq .hardline (doc S .other s))) (.seq .hardline h))
  -- parser_stmt_switch, parser-stmt.c:756-764
  | .switch e b a =>
    .seq (headDoc S false ['s', 'w', 'i', 't', 'c', 'h'] true (some e) (.seq (lit [' ']) (lit ['{'])))
      (bodyDoc S true (isNil b) (items S b) (afterDoc (trimBrace nx a)))
  -- parser_stmt_case, parser-stmt.c:668-736
  | .case e b =>
    if startsBlock b then .seq (caseHead S e .line) (.seq (caseFirst S nx b) (.indent S.width (caseRest S nx b)))
    else .seq (caseHead S e .nil) (.indent S.width (caseItems S nx b))
  -- parser_decl1, parser-decl.c:93-155
  | .decls b => declsDoc S nx (rulerOf b).1 (rulerOf b).2 b

/-- A block after its left brace, parser-stmt.c:198-239; `k` comes after its right brace. -/
def braced (S : Style) (k : Doc) : Stmt → Doc
  | .block b _ => bodyDoc S false (isNil b) (items S b) k
  | _ => .nil

/-- The loop of `parser_stmt_if`, parser-stmt.c:294-338; `braces` is `has_braces`. -/
def elseDoc (S : Style) (nx : Next) (braces : Bool) : Else → Doc
  | .none => .nil
  | .elif e t r => .seq (elseGap braces)
      (.seq (armDoc S (headDoc S true ['i', 'f'] true (some e)) (isBlock t) (doc S (if isNone r then nx else .els) t)
          (braced S (afterDoc (trimBrace (if isNone r then nx else .els) (braceAfter t))) t))
        (elseDoc S nx (isBlock t) r))
  | .els s => .seq (elseGap braces) (elseArm S (isBlock s) (doc S nx s))

/-- The block right after a case, parser-stmt.c:697-701. -/
def caseFirst (S : Style) (nx : Next) : Stmts → Doc
  | .nil => .nil
  | .cons s r => doc S (if isNil r then nx else .other) s

/-- The statements after that block. -/
def caseRest (S : Style) (nx : Next) : Stmts → Doc
  | .nil => .nil
  | .cons _ r => caseItems S nx r

/-- The loop of `parser_stmt_case`, parser-stmt.c:707-733. -/
def caseItems (S : Style) (nx : Next) : Stmts → Doc
  | .nil => .nil
  | .cons s r => .seq .hardline (.seq (doc S (if isNil r then nx else .other) s) (caseItems S nx r))

/-- The loop of `parser_stmt_block`, parser-stmt.c:208-218. -/
def items (S : Style) : Stmts → Doc
  | .nil => .nil
  | .cons s r => .seq (doc S (if isNil r then .rbrace else .other) s) (if isNil r then .nil else .seq .hardline (items S r))
end

/-- What is left after the left brace of a function: white space before the right brace is removed, parser-stmt.c:182,
and an empty line before a declaration, parser-stmt.c:193-195. -/
def trimOpen (a : After) : Stmts → After
  | .nil => .none
  | .cons (.decls _) _ => if a = .blank then .none else a
  | .cons _ _ => a

/-- The body of a function, parser-func.c:292-295, with `parser_stmt_block`; `a` comes after the left brace in the
source. -/
def funcDoc (S : Style) (a : After) (b : Stmts) : Doc :=
  .seq (lit ['{']) (.seq (afterDoc (trimOpen a b)) (bodyDoc S false (isNil b) (items S b) .nil))

end Knfmt.Layout
