import Verif.Expr.Meaning
/-!
# Formatting an expression: from text to text (C86)

The functions of the lexer, the parser of expressions, `expr_exec` and the printer put together: what
`knfmt` prints for an expression that is a statement starting in the first column. Modelled here is what
`Verif.Expr.Doc` leaves open: which white space the lexer found after each token, and the functions that
move and remove it, `token_trim`, token.c:61-81, `token_move_suffixes`, token.c:507-517,
`token_move_next_line`, expr.c:1312-1325, and `token_move_prev_line`, expr.c:1330-1340.

Simplifications, valid for the whole file:

* sources with comments or preprocessor directives are not formatted, `format` is `none` for them;
* there is no token before the expression. An expression that is a statement comes after the end of a
  line, so that the answer of `token_has_line` for the token before it is yes.
-/
namespace Knfmt.ExprDoc
open Knfmt.Lexer (TT)
open Knfmt.Doc (Doc docExec)
open Knfmt.Expr

/-- A suffix of type `TOKEN_SPACE`, token.h:157: spaces on the same line, clang.c:644-647, or the end of the
line, clang.c:650-655, with `TOKEN_FLAG_OPTLINE` if there is only one, and with `TOKEN_FLAG_DISCARD`. -/
inductive Suf where
  | space
  | line (one discard : Bool)
deriving DecidableEq, Repr

/-- A suffix that is not a comment. -/
def sufOf (u : Knfmt.Lexer.Tok) : Option Suf :=
  if u.type ≠ .space then none
  else if u.flags.optspace then some .space
  else some (.line u.flags.optline u.flags.discard)

/-- The suffixes of each token and its line. -/
structure Tab where
  sufs : List (List Suf)
  lnos : List Nat
deriving DecidableEq, Repr

/-- The suffixes of a token. -/
def Tab.at (t : Tab) (i : Nat) : List Suf := t.sufs.getD i []

/-- `token_has_line(tk, 1)`, token.c:269-286. -/
def Tab.hasLine (t : Tab) (i : Nat) : Bool := (t.at i).any fun s => s ≠ .space

/-- `token_has_spaces`, token.c:336-341. -/
def Tab.hasSpaces (t : Tab) (i : Nat) : Bool := (t.at i).any fun s => s = .space

/-- `TOKEN_FLAG_DISCARD` for a line, token.c:72-78. -/
def Suf.trim : Suf → Suf
  | .space => .space
  | .line one _ => .line one true

/-- `token_trim`, token.c:61-81. -/
def Tab.trim (t : Tab) (i : Nat) : Tab := { t with sufs := t.sufs.set i ((t.at i).map Suf.trim) }

/-- `token_move_suffixes`, token.c:507-517. -/
def Tab.move (t : Tab) (src dst : Nat) : Tab :=
  { t with sufs := (t.sufs.set dst (t.at dst ++ t.at src)).set src [] }

/-- `token_move_next_line`, expr.c:1312-1325; there are no prefixes. -/
def Tab.nextLine (t : Tab) (i : Nat) : Tab := if t.hasLine i then t.move i (i - 1) else t

/-- `token_move_prev_line`, expr.c:1330-1340. -/
def Tab.prevLine (t : Tab) (i : Nat) : Tab :=
  if t.hasLine (i - 1) && t.lnos.getD i 0 - t.lnos.getD (i - 1) 0 = 1 then t.move (i - 1) i else t

/-- `token_trim` for the token before a closing parenthesis, expr.c:909-911 and 956-962. -/
def Tab.trimPrev (t : Tab) : Option Tok → Tab
  | some r => t.trim (r.id - 1)
  | none => t

/-- The changes `expr_doc` makes, expr.c:851, 870, 911, 930, 961, 1083-1085 and 1113-1115. They are made
before the documents of the tokens: none of them concerns a token whose document is already made. -/
def moves (C : Conf) : Ex → Bool → Tab → Tab
  | .null, _, t | .lit _, _, t | .recov _, _, t => t
  | .un _ e, _, t | .pre _ e, _, t | .post e _, _, t | .cast _ _ _ e, _, t | .sizeofE _ e, _, t
  | .sizeofP _ _ e _, _, t | .concat e _, _, t => moves C e false t
  | .bin l op r, _, t =>
    let t := if op.ty = .comma || assignFlag op.ty then t
      else if C.breakBinary then t.nextLine op.id else t.prevLine op.id
    moves C r false (moves C l false t)
  | .tern c q m co x, _, t =>
    let t := if C.breakTernary then t.nextLine q.id else t.prevLine q.id
    let t := match co with
      | some co => if C.breakTernary then t.nextLine co.id else t.prevLine co.id
      | none => t
    moves C x false (moves C m false (moves C c false t))
  | .parens _ e r, root, t => moves C e false (if root && C.simpleParens then t else t.trimPrev r)
  | .call f _ a r, _, t =>
    let t := moves C f false t
    moves C a false (if isNull a then t else t.trimPrev r)
  | .squares f _ i _, _, t => moves C i false (moves C f false t)
  | .field l op r, _, t => moves C r false ((moves C l false t).trim op.id)

/-- The documents of suffixes, `parser_doc_token_impl`, parser.c:346-353. -/
def sufDoc (tk : Tok) : List Suf → Doc
  | [] => .nil
  | .space :: l | .line _ true :: l => sufDoc tk l
  | .line true false :: l => .seq .optline (sufDoc tk l)
  | .line false false :: l => .seq (.verbatim ['\n'] { id := tk.id, str := ['\n'] }) (sufDoc tk l)

/-- The first of adjacent strings, `ex_concat[0]->ex_tk`, expr.c:1058, given the last one. Simplified: if what comes
before the string is no literal, `ex_tk` is its operator, here it is the first token. -/
def firstOf : Ex → Tok → Option Tok
  | .null, _ | .lit _, _ | .recov _, _ => none
  | .un _ e, x | .pre _ e, x | .post e _, x | .cast _ _ _ e, x | .sizeofE _ e, x | .sizeofP _ _ e _, x
  | .parens _ e _, x => firstOf e x
  | .bin l _ r, x | .call l _ r _, x | .squares l _ r _, x | .field l _ r, x => firstOf l x <|> firstOf r x
  | .tern c _ m _ t, x => firstOf c x <|> firstOf m x <|> firstOf t x
  | .concat e t, x => if t = x then (yield e).head? else firstOf e x

/-- What `Verif.Expr.Doc` needs to know about tokens; the style is given. -/
def known (C : Conf) (e : Ex) (ts : List Tok) (t : Tab) : Conf :=
  let t := moves C e true t
  { C with
    suffix := fun x => sufDoc x (t.at x.id)
    hasLine := fun x => t.hasLine x.id
    prevLine := fun x => match firstOf e x with
      | some y => y.id = 0 || t.hasLine (y.id - 1)
      | none => false
    spaced := fun x => t.hasSpaces x.id || t.hasSpaces (x.id - 1)
    nextComma := fun x => (ts[x.id + 1]?.map (·.ty)) = some .comma }

/-- The tokens of a text, without the one of type `LEXER_EOF`; none if there are comments or directives. -/
def scan (cx : Knfmt.Lexer.Ctx) (src : List Char) : Option (List Tok × Tab) :=
  let r := (Knfmt.Lexer.tokenizeLoop src cx Knfmt.Lexer.init).2.dropLast
  if r.all (fun t => t.prefixes = [] && t.suffixes.all fun u => u.type = .space) then
    some (r.zipIdx.map fun x => ⟨x.2, x.1.tok.type, (x.1.tok.str.text src).getD []⟩,
      ⟨r.map fun x => x.suffixes.filterMap sufOf, r.map fun x => x.tok.lno⟩)
  else none

/-- An expression is formatted: the lexer, `expr_exec`, expr.c:311-349, with `expr_exec1`, and `doc_exec`. It is `none`
for sources with comments, if there is no expression or something after it. -/
def format (E : Env) (cx : Knfmt.Lexer.Ctx) (C : Conf) (env : Knfmt.Doc.Env) (src : List Char) : Option (List Char) :=
  match scan cx src with
  | none => none
  | some (ts, t) =>
    match parse E ⟨[], ts, false⟩ with
    | none => none
    | some (e, τ) =>
      if τ.rest = [] ∧ τ.err = false ∧ (docExec env false [] (exprDoc (known C e ts t) e)).ub = false then
        some (docExec env false [] (exprDoc (known C e ts t) e)).buf.reverse
      else none

/-- **C86**: formatting what has been printed prints the same. -/
def C86_statement : Prop :=
  ∀ (E : Env) (cx : Knfmt.Lexer.Ctx) (C : Conf) (env : Knfmt.Doc.Env) (src out : List Char),
    format E cx C env src = some out → format E cx C env out = some out

end Knfmt.ExprDoc
