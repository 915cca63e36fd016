import Verif.Expr.Twice
/-!
# Formatting an expression with comments behind its tokens (C89)

What `Verif.Expr.Twice` does for expressions without comments, for expressions with comments between tokens
and at the ends of lines: the lexer makes them suffixes of the token they come after, clang.c:628-655. The
functions that look at comments are modelled here: the two places where `expr_doc` does, expr.c:879-884 and
960, and `token_trim` and `token_move_suffixes`, which leave them in place or move them.

Simplifications, valid for the whole file:

* sources where a token has a prefix, that is, a comment on lines of its own or a preprocessor directive before
  it, are not formatted, `remark` is `none` for them;
* there is no token before the expression, as in `Verif.Expr.Twice`.
-/
namespace Knfmt.ExprDoc
open Knfmt.Lexer (TT)
open Knfmt.Doc (Doc docExec)
open Knfmt.Expr

/-- A suffix: spaces on the same line, clang.c:644-647, the end of the line, clang.c:650-655, with
`TOKEN_FLAG_OPTLINE` if there is only one, and with `TOKEN_FLAG_DISCARD`, or a comment, clang.c:628-637, with
`TOKEN_FLAG_COMMENT_C99` and its text. -/
inductive Rem where
  | space
  | line (one discard : Bool)
  | comment (c99 : Bool) (s : List Char)
deriving DecidableEq, Repr

/-- A suffix made by the lexer. -/
def remOf (src : List Char) (u : Knfmt.Lexer.Tok) : Option Rem :=
  if u.type = .comment then some (.comment u.flags.c99 ((u.str.text src).getD []))
  else if u.type ≠ .space then none
  else if u.flags.optspace then some .space
  else some (.line u.flags.optline u.flags.discard)

/-- The suffixes of each token and its line. -/
structure RTab where
  sufs : List (List Rem)
  lnos : List Nat
deriving DecidableEq, Repr

/-- The suffixes of a token. -/
def RTab.at (t : RTab) (i : Nat) : List Rem := t.sufs.getD i []

/-- The suffix is a line, `token_has_line`, token.c:280-282. -/
def Rem.isLine : Rem → Bool
  | .line _ _ => true
  | _ => false

/-- The suffix is a comment. -/
def Rem.isComment : Rem → Bool
  | .comment _ _ => true
  | _ => false

/-- The suffix is a comment that ends with the line. -/
def Rem.isC99 : Rem → Bool
  | .comment true _ => true
  | _ => false

/-- `token_has_line(tk, 1)`, token.c:269-286. -/
def RTab.hasLine (t : RTab) (i : Nat) : Bool := (t.at i).any Rem.isLine

/-- `token_has_spaces`, token.c:336-341. -/
def RTab.hasSpaces (t : RTab) (i : Nat) : Bool := (t.at i).any fun s => s = .space

/-- `token_has_c99_comment`, token.c:343-348. -/
def RTab.hasC99 (t : RTab) (i : Nat) : Bool := (t.at i).any Rem.isC99

/-- `TOKEN_FLAG_DISCARD` for a line, token.c:72-78. -/
def Rem.trim : Rem → Rem
  | .line one _ => .line one true
  | s => s

/-- `token_trim`, token.c:61-81. -/
def RTab.trim (t : RTab) (i : Nat) : RTab := { t with sufs := t.sufs.set i ((t.at i).map Rem.trim) }

/-- `token_move_suffixes`, token.c:507-517. -/
def RTab.move (t : RTab) (src dst : Nat) : RTab :=
  { t with sufs := (t.sufs.set dst (t.at dst ++ t.at src)).set src [] }

/-- `token_move_next_line`, expr.c:1312-1325; there are no prefixes. -/
def RTab.nextLine (t : RTab) (i : Nat) : RTab := if t.hasLine i then t.move i (i - 1) else t

/-- `token_move_prev_line`, expr.c:1330-1340. -/
def RTab.prevLine (t : RTab) (i : Nat) : RTab :=
  if t.hasLine (i - 1) && t.lnos.getD i 0 - t.lnos.getD (i - 1) 0 = 1 then t.move (i - 1) i else t

/-- `token_trim` for the token before a closing parenthesis, expr.c:909-911. -/
def RTab.trimParens (t : RTab) : Option Tok → RTab
  | some r => t.trim (r.id - 1)
  | none => t

/-- `token_trim` for the token before the closing parenthesis of a call, expr.c:955-963. -/
def RTab.trimCall (t : RTab) : Option Tok → RTab
  | some r => if t.hasC99 (r.id - 1) then t else t.trim (r.id - 1)
  | none => t

/-- The changes `expr_doc` makes, expr.c:851, 870, 911, 930, 961, 1083-1085 and 1113-1115, as in
`Verif.Expr.Twice`. -/
def shifts (C : Conf) : Ex → Bool → RTab → RTab
  | .null, _, t | .lit _, _, t | .recov _, _, t => t
  | .un _ e, _, t | .pre _ e, _, t | .post e _, _, t | .cast _ _ _ e, _, t | .sizeofE _ e, _, t
  | .sizeofP _ _ e _, _, t | .concat e _, _, t => shifts C e false t
  | .bin l op r, _, t =>
    let t := if op.ty = .comma || assignFlag op.ty then t
      else if C.breakBinary then t.nextLine op.id else t.prevLine op.id
    shifts C r false (shifts C l false t)
  | .tern c q m co x, _, t =>
    let t := if C.breakTernary then t.nextLine q.id else t.prevLine q.id
    let t := match co with
      | some co => if C.breakTernary then t.nextLine co.id else t.prevLine co.id
      | none => t
    shifts C x false (shifts C m false (shifts C c false t))
  | .parens _ e r, root, t => shifts C e false (if root && C.simpleParens then t else t.trimParens r)
  | .call f _ a r, _, t =>
    let t := shifts C f false t
    shifts C a false (if isNull a then t else t.trimCall r)
  | .squares f _ i _, _, t => shifts C i false (shifts C f false t)
  | .field l op r, _, t => shifts C r false ((shifts C l false t).trim op.id)

/-- The documents of suffixes, `parser_doc_token_impl`, parser.c:346-353. -/
def remDoc (tk : Tok) : List Rem → Doc
  | [] => .nil
  | .space :: l | .line _ true :: l => remDoc tk l
  | .line true false :: l => .seq .optline (remDoc tk l)
  | .line false false :: l => .seq (.verbatim ['\n'] { id := tk.id, str := ['\n'] }) (remDoc tk l)
  | .comment _ s :: l => .seq (.verbatim s { id := tk.id, str := s }) (remDoc tk l)

/-- What `expr_doc` asks about comments besides: whether an operator has a comment and a line behind it,
expr.c:879-880, and whether the token before a closing parenthesis has a comment that ends with the line,
expr.c:960. -/
structure Talk where
  held : Tok → Bool
  open_ : Tok → Bool

/-- The closing parenthesis of a call with arguments, expr.c:980-993. -/
def closing (C : Conf) (T : Talk) : Option Tok → Doc
  | some r => if T.open_ r then .indent (-(C.indent : Int)) (tok C r) else tok C r
  | none => .nil

/-- What comes between a binary operator and its right operand, expr.c:874-886: the document put behind the
operator and the one before the operand. -/
def between (C : Conf) (T : Talk) (op : Tok) : Doc × Doc :=
  if T.held op then (.hardline, .nil) else (.nil, if hasSpaces C op then .line else .nil)

/-- `expr_doc`, expr.c:694-798: the document of an expression, with `k` behind it. As `edoc` in
`Verif.Expr.Doc`, with the two places that look at comments. -/
def rdoc (C : Conf) (T : Talk) : Ex → Ctx → Doc → Doc
  | .null, c, k => kk c k
  | .lit t, c, k => .group (.seq (tok C t) (kk c k))
  -- expr_doc_unary, expr.c:800-807
  | .un op e, c, k => .group (.seq (tok C op) (rdoc C T e c.sub (kk c k)))
  | .pre op e, c, k => .group (.seq (tok C op) (.seq (rdoc C T e c.sub .nil) (kk c k)))
  | .post e op, c, k => .group (.seq (rdoc C T e c.sub .nil) (.seq (tok C op) (kk c k)))
  | .bin l op r, c, k => .group (
    if op.ty = .comma then
      -- expr_doc_arg, expr.c:1000-1023
      .seq (rdoc C T l c.sub (.seq (tok C op)
          (if C.columns then .align (C.ruler op) else if C.nextComma op then .nil else .line)))
        (if isNull r then kk c k else soft C 3 (rdoc C T r c.sub) (kk c k))
    else if assignFlag op.ty then
      -- expr_doc_binary, expr.c:815-842
      let s := { c.sub with nassign := c.nassign + 1 }
      .seq (rdoc C T l s (.seq (lit [' ']) (.seq (tok C op) (lit [' ']))))
        (if isNull r then kk c k
         else alignAssign C op (softIf (s.nassign > 1) C 2 (rdoc C T r s) (kk c k)))
    else if C.breakBinary then
      -- expr.c:843-862
      alignIf C.alignOperands op.id (.seq (rdoc C T l c.sub (if hasSpaces C op then .line else .nil))
        (.group (.seq (.softline 0) (.seq (tok C op) (.seq (if hasSpaces C op then lit [' '] else .nil)
          (rdoc C T r c.sub (kk c k)))))))
    else
      -- expr.c:863-893
      alignIf C.alignOperands op.id (.seq
        (rdoc C T l c.sub (.seq (if hasSpaces C op then lit [' '] else .nil)
          (.seq (tok C op) (between C T op).1)))
        (.group (.seq (between C T op).2
          (if isNull r then kk c k else soft C 2 (rdoc C T r c.sub) (kk c k))))))
  | .tern cd q m co t, c, k => .group (
    if C.breakTernary then
      -- expr_doc_ternary, expr.c:1078-1109
      .seq (rdoc C T cd c.sub .line) (alignIf C.alignOperands q.id (.seq
        (.group (.seq (.softline 0) (.seq (tok C q)
          (if isNull m then .nil else .seq (lit [' ']) (soft C 2 (rdoc C T m c.sub) .line)))))
        (.group (.seq (.softline 0) (.seq (optTok C co) (.seq (lit [' '])
          (rdoc C T t c.sub (kk c k))))))))
    else
      -- expr.c:1110-1137
      .seq (rdoc C T cd c.sub (.seq .line (.seq (tok C q) (if isNull m then .nil else .line))))
        (.seq (if isNull m then .seq (optTok C co) .line
            else soft C 2 (rdoc C T m c.sub) (.seq .line (.seq (optTok C co) .line)))
          (soft C 2 (rdoc C T t c.sub) (kk c k))))
  -- expr_doc_parens, expr.c:895-924
  | .parens l e r, c, k => .group (
    if c.root && C.simpleParens then rdoc C T e c.sub (kk c k)
    else .seq (tok C l) (indentParens C c (rdoc C T e c.sub (.seq (optTok C r) (kk c k)))))
  -- expr_doc_call, expr.c:937-998
  | .call f l a r, c, k =>
    let s := { c.sub with ncalls := c.ncalls + 1 }
    let g := rdoc C T f { s with noparens := c.noparens + 1 }
    let h := .seq (tok C l)
      (if isNull a then
        .seq (dedentTok C r) (kk c k)
      else alignArgs C s l (soft C 2 (rdoc C T a s) (.seq (closing C T r) (kk c k))))
    .group (softIf (s.ncalls > 1) C 2 g h)
  | .squares f l i r, c, k =>
    .group (rdoc C T f c.sub (.seq (tok C l) (rdoc C T i c.sub (.seq (optTok C r) (kk c k)))))
  -- expr_doc_field, expr.c:926-935
  | .field l op r, c, k => .group (rdoc C T l c.sub (.seq (tok C op) (rdoc C T r c.sub (kk c k))))
  | .cast l ts r e, c, k =>
    .group (.seq (tok C l) (.seq (.group (recover C ts .nil)) (.seq (optTok C r)
      (.seq (rdoc C T e c.sub .nil) (kk c k)))))
  -- expr_doc_sizeof, expr.c:1025-1049
  | .sizeofE tk e, c, k =>
    .group (.seq (tok C tk) (.seq (lit [if C.simpleSizeof then '(' else ' '])
      (rdoc C T e c.sub (.seq (if C.simpleSizeof then lit [')'] else .nil) (kk c k)))))
  | .sizeofP tk l e r, c, k =>
    .group (.seq (tok C tk) (.seq (tok C l) (rdoc C T e c.sub (.seq (optTok C r) (kk c k)))))
  -- expr_doc_concat, expr.c:1051-1073
  | .concat e t, c, k =>
    if c.chain then rdoc C T e { c with root := false } (.seq (.group (.seq (tok C t) .line)) k)
    else .group (alignIf (C.alignOperands && c.ncalls = 0 && !C.prevLine t) t.id
      (rdoc C T e { c.sub with chain := true } (.seq (.group (tok C t)) k)))
  | .recov ts, c, k => .group (recover C ts (kk c k))

/-- The document `expr_exec` makes, expr.c:327-348. -/
def remarkDoc (C : Conf) (T : Talk) (e : Ex) : Doc :=
  let d := rdoc C T e { root := true } .nil
  let d := if C.hardline then .seq .hardline (.optional d) else d
  let d := if C.softline then .seq (.softline 0) d else d
  let d := if C.line then .seq .line d else d
  let d := if C.align > 0 then .indent C.align d else if C.indent > 0 then .indent C.indent d else d
  .maxlines 1 (.scope (.group (.optional d)))

/-- What `rdoc` needs to know about tokens, from the suffixes after the changes of `shifts`. -/
def learn (C : Conf) (e : Ex) (ts : List Tok) (t : RTab) : Conf :=
  { C with
    suffix := fun x => remDoc x (t.at x.id)
    hasLine := fun x => t.hasLine x.id
    prevLine := fun x => match firstOf e x with
      | some y => y.id = 0 || t.hasLine (y.id - 1)
      | none => false
    spaced := fun x => t.hasSpaces x.id || t.hasSpaces (x.id - 1)
    nextComma := fun x => (ts[x.id + 1]?.map (·.ty)) = some .comma }

/-- What it needs to know about comments. -/
def talk (t : RTab) : Talk where
  held := fun x => (t.at x.id).any Rem.isComment && t.hasLine x.id
  open_ := fun x => t.hasC99 (x.id - 1)

/-- The document of an expression whose tokens have the given suffixes in the source. -/
def sayDoc (C : Conf) (e : Ex) (ts : List Tok) (t : RTab) : Doc :=
  remarkDoc (learn C e ts (shifts C e true t)) (talk (shifts C e true t)) e

/-- The tokens of a text, without the one of type `LEXER_EOF`; none if there are comments or directives before
a token. -/
def survey (cx : Knfmt.Lexer.Ctx) (src : List Char) : Option (List Tok × RTab) :=
  let r := (Knfmt.Lexer.tokenizeLoop src cx Knfmt.Lexer.init).2
  if r.all (fun t => t.prefixes = []) then
    some (r.dropLast.zipIdx.map fun x => ⟨x.2, x.1.tok.type, (x.1.tok.str.text src).getD []⟩,
      ⟨r.dropLast.map fun x => x.suffixes.filterMap (remOf src), r.dropLast.map fun x => x.tok.lno⟩)
  else none

/-- An expression with comments is formatted: the lexer, `expr_exec`, expr.c:311-349, with `expr_exec1`, and
`doc_exec`. It is `none` for comments and directives before a token, if there is no expression or something after
it. -/
def remark (E : Env) (cx : Knfmt.Lexer.Ctx) (C : Conf) (env : Knfmt.Doc.Env) (src : List Char) : Option (List Char) :=
  match survey cx src with
  | none => none
  | some (ts, t) =>
    match parse E ⟨[], ts, false⟩ with
    | none => none
    | some (e, τ) =>
      if τ.rest = [] ∧ τ.err = false ∧ (docExec env false [] (sayDoc C e ts t)).ub = false then
        some (docExec env false [] (sayDoc C e ts t)).buf.reverse
      else none

end Knfmt.ExprDoc
