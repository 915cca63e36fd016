import Verif.Lexer.Token
/-!
# expr.c: the expression parser

Model of `expr_exec1` and the functions it reaches, expr.c:206-692, together with the
callback `expr_recover`, parser-expr.c:85-143.

Simplifications, valid for the whole file:

* the parser reads the tokens delivered by the lexer as a list; halting at a branch
  (`TOKEN_FLAG_BRANCH`, lexer.c:425-441) is not modelled here, see `Verif.Stream`;
* the callbacks `recover` and `recover_cast` are parameters: any function of the tokens already
  consumed and of the tokens that remain, giving back whether it succeeded, how many tokens it
  consumed (also when it failed) and whether it raised an error;
* `simple_expr_printf` (expr.c:527-539) only changes the text of one token and is modelled
  in `Verif.Simple`;
* recursion is bounded by a fuel argument, `none` stands for running out of it;
  `Knfmt.Expr.parse_total` proves that this never happens with the fuel `parse` gives.
-/
namespace Knfmt.Expr
open Knfmt.Lexer (TT)

/-- A token as seen by the expression parser: which one it is, its type and its text. -/
structure Tok where
  id : Nat
  ty : TT
  str : List Char := []
deriving DecidableEq, Repr

/-- `struct expr`, expr.c:77-94. `null` is the null pointer. `EXPR_ARG` is a `bin` whose operator
is a comma. The vector of an `EXPR_CONCAT` is nested to the left: `concat (concat (lit a) b) c`
stands for the vector `a b c`. A `recov` holds the tokens consumed by the callback instead of the
document made out of them. -/
inductive Ex where
  | null
  | lit (tk : Tok)
  | un (op : Tok) (e : Ex)
  | pre (op : Tok) (e : Ex)
  | post (e : Ex) (op : Tok)
  | bin (l : Ex) (op : Tok) (r : Ex)
  | tern (c : Ex) (q : Tok) (m : Ex) (colon : Option Tok) (t : Ex)
  | parens (l : Tok) (e : Ex) (r : Option Tok)
  | call (f : Ex) (l : Tok) (args : Ex) (r : Option Tok)
  | squares (f : Ex) (l : Tok) (idx : Ex) (r : Option Tok)
  | field (l : Ex) (op : Tok) (r : Ex)
  | cast (l : Tok) (ty : List Tok) (r : Option Tok) (e : Ex)
  | sizeofE (tk : Tok) (e : Ex)
  | sizeofP (tk : Tok) (l : Tok) (e : Ex) (r : Option Tok)
  | concat (e : Ex) (tk : Tok)
  | recov (ts : List Tok)
deriving DecidableEq, Repr

/-- The functions of the rules, expr.c:134-143. -/
inductive Func where
  | literal | binary | ternary | concat | unary | prepost | sizeof | parens | squares | field
deriving DecidableEq, Repr

/-- `struct expr_rule`, expr.c:98-103. The bit `PCUNARY` is a field of its own. -/
structure Rule where
  pc : Nat
  unary : Bool
  rassoc : Bool
  ty : TT
  func : Func
deriving DecidableEq, Repr

/-- `rules`, expr.c:213-268. -/
def rules : List Rule := [
  ⟨0, true, false, .ident, .literal⟩,
  ⟨0, true, false, .literal, .literal⟩,
  ⟨0, true, false, .string, .literal⟩,
  ⟨1, false, false, .comma, .binary⟩,
  ⟨1, false, false, .ellipsis, .binary⟩,
  ⟨2, false, true, .equal, .binary⟩,
  ⟨2, false, true, .plusequal, .binary⟩,
  ⟨2, false, true, .minusequal, .binary⟩,
  ⟨2, false, true, .starequal, .binary⟩,
  ⟨2, false, true, .slashequal, .binary⟩,
  ⟨2, false, true, .percentequal, .binary⟩,
  ⟨2, false, true, .lesslessequal, .binary⟩,
  ⟨2, false, true, .greatergreaterequal, .binary⟩,
  ⟨2, false, true, .ampequal, .binary⟩,
  ⟨2, false, true, .caretequal, .binary⟩,
  ⟨2, false, true, .pipeequal, .binary⟩,
  ⟨3, false, true, .question, .ternary⟩,
  ⟨4, false, false, .pipepipe, .binary⟩,
  ⟨5, false, false, .ampamp, .binary⟩,
  ⟨6, false, false, .pipe, .binary⟩,
  ⟨7, false, false, .caret, .binary⟩,
  ⟨8, false, false, .amp, .binary⟩,
  ⟨9, false, false, .equalequal, .binary⟩,
  ⟨9, false, false, .exclaimequal, .binary⟩,
  ⟨10, false, false, .less, .binary⟩,
  ⟨10, false, false, .lessequal, .binary⟩,
  ⟨10, false, false, .greater, .binary⟩,
  ⟨10, false, false, .greaterequal, .binary⟩,
  ⟨11, false, false, .lessless, .binary⟩,
  ⟨11, false, false, .greatergreater, .binary⟩,
  ⟨12, false, false, .ident, .concat⟩,
  ⟨12, false, false, .literal, .concat⟩,
  ⟨12, false, false, .string, .concat⟩,
  ⟨12, false, false, .plus, .binary⟩,
  ⟨12, false, false, .minus, .binary⟩,
  ⟨13, false, false, .star, .binary⟩,
  ⟨13, false, false, .slash, .binary⟩,
  ⟨13, false, false, .percent, .binary⟩,
  ⟨14, true, true, .exclaim, .unary⟩,
  ⟨14, true, true, .tilde, .unary⟩,
  ⟨14, false, true, .plusplus, .prepost⟩,
  ⟨14, true, true, .plusplus, .prepost⟩,
  ⟨14, true, true, .plus, .unary⟩,
  ⟨14, false, true, .minusminus, .prepost⟩,
  ⟨14, true, true, .minusminus, .prepost⟩,
  ⟨14, true, true, .minus, .unary⟩,
  ⟨14, true, true, .star, .unary⟩,
  ⟨14, true, true, .amp, .unary⟩,
  ⟨14, true, true, .sizeof, .sizeof⟩,
  ⟨15, false, false, .lparen, .parens⟩,
  ⟨15, true, false, .lparen, .parens⟩,
  ⟨15, false, false, .lsquare, .squares⟩,
  ⟨15, false, false, .arrow, .field⟩,
  ⟨15, false, false, .period, .field⟩]

/-- `expr_find_rule` over the table filled in by `expr_init`, expr.c:293-304, 1303-1307: the last
rule of a token type wins. -/
def findRule (ty : TT) (unary : Bool) : Option Rule :=
  (rules.filter fun r => r.ty = ty ∧ r.unary = unary).getLast?

/-- What a callback did. -/
structure RecRes where
  ok : Bool
  n : Nat
  err : Bool := false
deriving DecidableEq, Repr

/-- The parts of `struct expr_exec_arg` that matter for parsing, expr.h. The callbacks are given the
tokens consumed so far, last one first, and the remaining ones. -/
structure Env where
  stop : Option Nat := none
  recover : List Tok → List Tok → RecRes
  recoverCast : List Tok → List Tok → RecRes

/-- The state of the lexer: consumed tokens (last one first), remaining tokens, error. -/
structure PS where
  done : List Tok
  rest : List Tok
  err : Bool := false
deriving DecidableEq, Repr

/-- `expr_exec_peek`, expr.c:668-681. `LEXER_EOF` is the end of the list. -/
def peek (E : Env) (σ : PS) : Option Tok :=
  if σ.err then none else
  match σ.rest with
  | [] => none
  | tk :: _ => if some tk.id = E.stop then none else some tk

/-- `lexer_expect`, lexer.c:550-565: consumes the next token if it is of the given type,
otherwise an error is raised. -/
def expect (ty : TT) (σ : PS) : Option Tok × PS :=
  match σ.rest with
  | [] => (none, { σ with err := true })
  | tk :: rest =>
    if tk.ty = ty then (some tk, { σ with done := tk :: σ.done, rest := rest })
    else (none, { σ with err := true })

/-- The effect of a callback on the lexer. -/
def applyRec (r : RecRes) (σ : PS) : PS :=
  { done := (σ.rest.take r.n).reverse ++ σ.done, rest := σ.rest.drop r.n, err := σ.err || r.err }

/-- `expr_exec_recover` and `expr_exec_recover_cast`, expr.c:431-459. -/
def callback (cb : List Tok → List Tok → RecRes) (σ : PS) : Option (List Tok) × PS :=
  let r := cb σ.done σ.rest
  (if r.ok then some (σ.rest.take r.n) else none, applyRec r σ)

/-- A parsing function: precedence and state to expression and state, `none` if out of fuel. -/
abbrev Par := Nat → PS → Option (Ex × PS)

/-- `expr_exec_sizeof`, expr.c:593-612. -/
def execSizeof (f : Par) (r : Rule) (tk : Tok) (σ : PS) : Option (Ex × PS) :=
  match σ.rest with
  | l :: rest =>
    if l.ty = .lparen then
      (f 0 { σ with done := l :: σ.done, rest := rest }).bind fun x =>
        let y := expect .rparen x.2
        some (.sizeofP tk l x.1 y.1, y.2)
    else (f r.pc σ).bind fun x => some (.sizeofE tk x.1, x.2)
  | [] => (f r.pc σ).bind fun x => some (.sizeofE tk x.1, x.2)

/-- `expr_exec_parens` without a left hand side, expr.c:541-576. -/
def execParens (E : Env) (f : Par) (r : Rule) (tk : Tok) (σ : PS) : Option (Ex × PS) :=
  match callback E.recoverCast σ with
  | (some ts, σ1) =>
    let y := expect .rparen σ1
    (f r.pc y.2).bind fun x => some (.cast tk ts y.1 x.1, x.2)
  | (none, σ1) =>
    (f 0 σ1).bind fun x =>
      let y := expect .rparen x.2
      some (.parens tk x.1 y.1, y.2)

/-- The function of a unary rule, called with a null left hand side. The functions that require a
left hand side are not reached from a unary rule. -/
def nud (E : Env) (f : Par) (r : Rule) (tk : Tok) (σ : PS) : Option (Ex × PS) :=
  match r.func with
  | .literal => some (.lit tk, σ)                                     -- expr.c:519-525
  | .unary => (f r.pc σ).bind fun x => some (.un tk x.1, x.2)         -- expr.c:655-666
  | .prepost => (f r.pc σ).bind fun x => some (.pre tk x.1, x.2)      -- expr.c:583-585
  | .sizeof => execSizeof f r tk σ
  | .parens => execParens E f r tk σ
  | _ => some (.null, σ)

/-- `expr_exec_ternary`, expr.c:633-653. -/
def execTernary (f : Par) (lhs : Ex) (tk : Tok) (σ : PS) : Option (Ex × PS) :=
  (f 0 σ).bind fun x =>
    let y := expect .colon x.2
    (f 1 y.2).bind fun z =>
      some (if z.1 = .null then .null else .tern lhs tk x.1 y.1 z.1, z.2)

/-- The function of a binary rule, called with a left hand side. -/
def led (f : Par) (r : Rule) (lhs : Ex) (tk : Tok) (σ : PS) : Option (Ex × PS) :=
  match r.func with
  | .binary =>                                                        -- expr.c:461-476
    (f (if r.rassoc then r.pc - 1 else r.pc) σ).bind fun x => some (.bin lhs tk x.1, x.2)
  | .concat => some (.concat lhs tk, σ)                               -- expr.c:478-504
  | .field => (f r.pc σ).bind fun x => some (.field lhs tk x.1, x.2)  -- expr.c:506-517
  | .parens =>                                                        -- expr.c:563-575
    (f 0 σ).bind fun x =>
      let y := expect .rparen x.2
      some (.call lhs tk x.1 y.1, y.2)
  | .prepost => some (.post lhs tk, σ)                                -- expr.c:586-589
  | .squares =>                                                       -- expr.c:614-631
    (f 0 σ).bind fun x =>
      let y := expect .rsquare x.2
      some (.squares lhs tk x.1 y.1, y.2)
  | .ternary => execTernary f lhs tk σ
  | _ => some (.null, σ)

/-- Consume a token and call the function of its unary rule, expr.c:394-399. -/
def popNud (E : Env) (f : Par) (r : Rule) (σ : PS) : Option (Ex × PS) :=
  match σ.rest with
  | [] => some (.null, σ)
  | tk :: rest => nud E f r tk { σ with done := tk :: σ.done, rest := rest }

/-- First half of `expr_exec1`, expr.c:376-401: the leading operand. -/
def operand (E : Env) (f : Par) (σ : PS) : Option (Ex × PS) :=
  match peek E σ with
  | none => some (.null, σ)
  | some tk =>
    match findRule tk.ty true with
    | none =>
      match callback E.recover σ with
      | (some ts, σ1) => some (.recov ts, σ1)
      | (none, σ1) => some (.null, σ1)
    | some r =>
      if tk.ty = .ident then
        match callback E.recover σ with
        | (some ts, σ1) => some (.recov ts, σ1)
        | (none, σ1) => popNud E f r σ1
      else popNud E f r σ

mutual
/-- `expr_exec1`, expr.c:372-429. -/
def exec1 (E : Env) : Nat → Par
  | 0, _, _ => none
  | n + 1, pc, σ =>
    (operand E (exec1 E n) σ).bind fun x =>
      if x.1 = .null then some (.null, x.2) else loop E n pc x.1 x.2

/-- The loop of `expr_exec1`, expr.c:403-426. -/
def loop (E : Env) : Nat → Nat → Ex → PS → Option (Ex × PS)
  | 0, _, _, _ => none
  | n + 1, pc, ex, σ =>
    match peek E σ with
    | none => some (ex, σ)
    | some tk =>
      match findRule tk.ty false with
      | none => some (ex, σ)
      | some r =>
        if r.pc ≤ pc then some (ex, σ)
        else
          (led (exec1 E n) r ex tk { σ with done := tk :: σ.done, rest := σ.rest.tail }).bind
            fun x => if x.1 = .null ∨ x.2.err = true then some (.null, x.2)
              else loop E n pc x.1 x.2
end

/-- The parsing half of `expr_exec`, expr.c:311-326: parse with the lowest precedence. -/
def parse (E : Env) (σ : PS) : Option (Ex × PS) := exec1 E (2 * σ.rest.length + 2) 0 σ

/-- Tokens with `TOKEN_FLAG_BINARY`, token.h:46-102. -/
def binaryFlag (ty : TT) : Bool :=
  Knfmt.Lexer.keywords.any fun k => k.2.1 = ty && k.2.2.binary

/-- `expr_recover`, parser-expr.c:85-143. `type` stands for `parser_type_peek` and gives the number
of tokens of the type found; `braces` stands for `parser_braces` and `parser_stmt_expr_gnu`, tried at
a left brace. -/
def exprRecover (type : List Tok → List Tok → Option Nat) (braces : List Tok → List Tok → RecRes)
    (done rest : List Tok) : RecRes :=
  match type done rest with
  | some n =>
    let nx : TT := ((rest.drop n).head?.map (·.ty)).getD .eof
    let pv : Option TT := done.head?.map (·.ty)
    if pv = some .sizeof ∨
        ((pv = some .lparen ∨ pv = some .comma) ∧ (nx = .rparen ∨ nx = .comma ∨ nx = .eof)) then
      ⟨true, n, false⟩
    else ⟨false, 0, false⟩
  | none =>
    match rest with
    | [] => ⟨false, 0, false⟩
    | tk :: _ =>
      if binaryFlag tk.ty then
        match done.head?.map (·.ty) with
        | some TT.lparen => ⟨true, 1, false⟩
        | some TT.comma => ⟨true, 1, false⟩
        | _ => ⟨false, 1, false⟩
      else if tk.ty = .lbrace then braces done rest
      else if tk.ty = .comma then ⟨true, 1, false⟩
      else ⟨false, 0, false⟩

end Knfmt.Expr
