import Verif.Simple.Decl
/-!
# The small simplifications

simple-static.c, simple-implicit-int.c, simple-stmt-empty-loop.c, simple-stmt-switch.c and
simple-decl-proto.c. Tokens are named by their address, `Node.id`. `none` stands for a failed assertion or
the use of a null pointer. Branches (`#if`) are not followed when looking at the tokens that come next.
-/
namespace Knfmt.Small

open Knfmt.Lexer (TT)
open Knfmt.Stream (Node Fix)
open Knfmt.Stmt (node pos next prev isMoveable removeId)
open Knfmt.Forward (from_ update)
open Knfmt.SimpleDecl (Ed insertKw)

/-! ## simple-static.c -/

/-- `find_static_token`, simple-static.c:8-21, on the tokens from `beg` on. `none` if they end before `fin`. -/
def findStatic (fin : Nat) : List Node → Option (Option Node)
  | [] => none
  | t :: ts =>
    if t.type = .kStatic then some (some t)
    else if t.id = fin then some none
    else findStatic fin ts

/-- `lexer_move_before`, lexer.c:506-523. -/
def moveBeforeId (ts : List Node) (before mv : Nat) : Option (List Node) :=
  match pos ts before, pos ts mv with
  | some i, some k => Knfmt.Stream.moveBefore ts i k
  | _, _ => none

/-- `simple_static`, simple-static.c:23-35: the tokens and the last token of the type. -/
def simpleStatic (ts : List Node) (beg fin : Nat) : Option (List Node × Nat) :=
  match findStatic fin (from_ ts beg) with
  | none => none
  | some none => some (ts, fin)
  | some (some t) =>
    if t.id = beg ∨ !isMoveable t then some (ts, fin)
    else
      match (if t.id = fin then (prev ts fin).map (·.id) else some fin), moveBeforeId ts beg t.id with
      | some fin, some ts => some (ts, fin)
      | _, _ => none

/-! ## simple-implicit-int.c -/

/-- `is_implicit_int`, simple-implicit-int.c:9-15. -/
def isImplicitInt (ts : List Node) (beg fin : Nat) (ty : TT) : Bool :=
  match node ts beg with
  | none => false
  | some t => decide (beg = fin) && decide (t.type = ty) && isMoveable t

/-- `simple_implicit_int`, simple-implicit-int.c:17-25: the tokens and the last token of the type. -/
def simpleImplicitInt (e : Ed) (beg fin : Nat) : Option (Ed × Nat) :=
  if !isImplicitInt e.ts beg fin .unsigned && !isImplicitInt e.ts beg fin .signed then some (e, fin)
  else (insertKw e fin .kInt ['i', 'n', 't']).map fun e' => (e', e.fresh)

/-! ## simple-stmt-empty-loop.c -/

/-- The loop of `lexer_peek_if_pair`, lexer.c:690-701: the right brace that closes `n` left ones. -/
def closing : Nat → List Node → Option Node
  | _, [] => none
  | n, t :: ts =>
    if t.type = .eof then none
    else if t.type = .lbrace then closing (n + 1) ts
    else if t.type = .rbrace then if n ≤ 1 then some t else closing (n - 1) ts
    else closing n ts

/-- `sense_empty_loop_braces`, simple-stmt-empty-loop.c:9-24. `none` if there is no token after `{`. -/
def senseEmptyLoopBraces (ts : List Node) (lb rb : Node) : Option Bool :=
  if !isMoveable lb || !isMoveable rb then some false
  else
    match next ts lb.id with
    | none => none
    | some nx =>
      if nx.id = rb.id then some true
      else some (decide (nx.type = .semi) && isMoveable nx && decide ((next ts nx.id).map (·.id) = some rb.id))

/-- `insert_continue`, simple-stmt-empty-loop.c:26-31. -/
def insertContinue (e : Ed) (after : Nat) : Option Ed :=
  insertKw e after .kContinue ['c', 'o', 'n', 't', 'i', 'n', 'u', 'e']

/-- `simple_stmt_empty_loop_braces`, simple-stmt-empty-loop.c:39-54. `rest` are the tokens to come. -/
def emptyLoopBraces (e : Ed) (rest : List Node) : Option Ed :=
  match rest with
  | [] => some e
  | lb :: rest =>
    if lb.type ≠ .lbrace then some e
    else
      match closing 1 rest with
      | none => some e
      | some rb =>
        match senseEmptyLoopBraces e.ts lb rb with
        | none => none
        | some false => some e
        | some true =>
          match insertContinue e lb.id with
          | none => none
          | some e' =>
            match next e'.ts e.fresh with
            | none => none
            | some nx => if nx.type ≠ .semi then insertKw e' e.fresh .semi [';'] else some e'

/-- `simple_stmt_empty_loop_no_braces`, simple-stmt-empty-loop.c:56-66. `back` is the token consumed last. -/
def emptyLoopNoBraces (e : Ed) (back : Nat) (rest : List Node) : Option Ed :=
  match rest with
  | [] => some e
  | t :: _ => if t.type ≠ .semi then some e else insertContinue e back

/-- The simplification as done after the right parenthesis of a loop, parser-stmt.c:416-422 and 575-582.
`back` is this parenthesis. -/
def emptyLoop (e : Ed) (back : Nat) : Option Ed :=
  let rest := (from_ e.ts back).tail
  if (rest.head?.map (·.type)) = some .lbrace then emptyLoopBraces e rest else emptyLoopNoBraces e back rest

/-! ## simple-stmt-switch.c -/

/-- `simple_stmt_switch`, simple-stmt-switch.c:15-38. -/
def stmtSwitch (e : Ed) (kw : Nat) : Option Ed :=
  match from_ e.ts kw with
  | d :: c :: s :: _ =>
    if d.type = .kDefault ∧ c.type = .colon ∧ s.type = .semi then
      (insertKw e c.id .kBreak ['b', 'r', 'e', 'a', 'k']).map fun e' =>
        { e' with ts := update e'.ts e.fresh fun t => { t with lno := t.lno + 1 } }
    else some e
  | _ => some e

/-! ## simple-decl-proto.c -/

/-- `struct simple_decl_proto`, simple-decl-proto.c:14-24: for every argument the name found. -/
structure Proto where
  args : List (Option Nat) := []
  ignore : Bool := false
deriving DecidableEq, Repr

/-- What the parser reports, parser-func.c:206-207 and 259-263. -/
inductive Call where
  | arg
  | ident (tk : Nat)
deriving DecidableEq, Repr

/-- `simple_decl_proto_arg_ident`, simple-decl-proto.c:80-94. -/
def protoIdent (ts : List Node) (σ : Proto) (tk : Nat) : Option Proto :=
  if σ.args = [] then none
  else
    match prev ts tk with
    | none => none
    | some pv =>
      if pv.type = .star ∨ pv.flags.type ∨ pv.flags.qualifier then
        some { σ with args := σ.args.dropLast ++ [some tk] }
      else some { σ with ignore := true }

/-- One report; `simple_decl_proto_arg` is simple-decl-proto.c:73-78. -/
def protoCall (ts : List Node) (σ : Proto) : Call → Option Proto
  | .arg => some { σ with args := σ.args ++ [none] }
  | .ident tk => protoIdent ts σ tk

/-- All reports. -/
def protoCalls (ts : List Node) : Proto → List Call → Option Proto
  | σ, [] => some σ
  | σ, c :: cs =>
    match protoCall ts σ c with
    | none => none
    | some σ => protoCalls ts σ cs

/-- The loop that removes the names, simple-decl-proto.c:57-62. -/
def removeNames : List Node → List (Option Nat) → Option (List Node)
  | ts, [] => some ts
  | ts, none :: as => removeNames ts as
  | ts, some tk :: as =>
    match removeId ts none tk with
    | none => none
    | some (ts, _) => removeNames ts as

/-- `simple_decl_proto_leave`, simple-decl-proto.c:38-63. -/
def protoLeave (ts : List Node) (σ : Proto) : Option (List Node) :=
  if σ.ignore then some ts
  else
    let unnamed := (σ.args.filter (·.isNone)).length
    if unnamed = 0 ∨ σ.args.length = unnamed then some ts else removeNames ts σ.args

/-- The simplification of a prototype, parser-func.c:147-173. -/
def simpleProto (ts : List Node) (cs : List Call) : Option (List Node) :=
  match protoCalls ts {} cs with
  | none => none
  | some σ => protoLeave ts σ

end Knfmt.Small
