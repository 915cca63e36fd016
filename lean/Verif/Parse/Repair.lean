import Verif.Parse.Model
/-!
# A parser that notices the end of the file while parsing a type

The loop of `parser_type` does not look for the end of the file (parser-type.c:224-304), all other
loops do. Here is the parser with something else done in this case.
-/
namespace Knfmt.Parse

/-- One round of the loop of `parser_type` with `G` done at the end of the file. Not part of the
program. -/
def typeRoundG (G : M (Unit ⊕ Res)) (X : Cx) (d : Id) (ti : TI) (u : Unit) : M (Unit ⊕ Res) := fun s =>
  if s.rest = [] then G s else typeRoundM X d ti u s

/-- `parser_type` with `G` done at the end of the file. -/
def typeG (G : M (Unit ⊕ Res)) (X : Cx) (d : Id) (ti : TI) : M Res := loop X.n (typeRoundG G X d ti) ()

/-- All functions of the parser with `T` in place of `parser_type`. -/
def recsT (T : Cx → Id → TI → M Res) (E : Env) : Nat → Rec
  | 0 =>
    { expr := fun _ _ => none, type := fun _ _ _ => none, braces := fun _ _ _ => none
      block := fun _ _ _ _ => none, stmt := fun _ _ => none, decl := fun _ _ _ => none
      root := fun _ _ => none }
  | n + 1 =>
    let X : Cx := { E := E, R := recsT T E n, n := n }
    { expr := exprF X, type := T X, braces := bracesF X, block := blockF X, stmt := stmtF X
      decl := declF X, root := rootF X }

/-- With `parser_type` itself nothing is changed. -/
theorem recsT_typeF (E : Env) : ∀ n, recsT typeF E n = recs E n
  | 0 => rfl
  | n + 1 => by rw [recsT, recs, recsT_typeF E n]

/-- The state before the first token is parsed. -/
def start (ts : List Tok) : St := { done := [], rest := ts, L := [.opn 0 .root, .cls 0], next := 1 }

/-- `parser_exec` up to `doc_exec`, see `parserExec`: the outcome is whether all went well, `none` if
the fuel is not sufficient. -/
def parserRun (E : Env) (fuel : Nat) (ts : List Tok) : Option (Bool × St) :=
  loop fuel (execRound (recs E fuel) 0) () (start ts)

/-- The same with `T` in place of `parser_type`. -/
def parserRunT (T : Cx → Id → TI → M Res) (E : Env) (fuel : Nat) (ts : List Tok) : Option (Bool × St) :=
  loop fuel (execRound (recsT T E fuel) 0) () (start ts)

/-- `parserExec` is about the same run. -/
theorem parserExec_run' (E : Env) (fuel : Nat) (ts : List Tok) :
    parserExec E fuel ts = match parserRun E fuel ts with
      | some (true, s') => some (toks s'.L, s'.gh)
      | _ => none := rfl

/-- The repair: report an error. -/
def atEof : M (Unit ⊕ Res) := parserFail >>= fun r => pure (.inr r)

/-- `parser_type` repaired. -/
def typeFixed : Cx → Id → TI → M Res := typeG atEof

/-- The run of the repaired parser. -/
def parserRunFixed : Env → Nat → List Tok → Option (Bool × St) := parserRunT typeFixed

end Knfmt.Parse
