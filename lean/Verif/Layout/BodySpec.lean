import Verif.Layout.AgainSpec
/-!
# Formatting a function a second time (C96): specification
-/
namespace Knfmt.Layout.Spec
open Knfmt.Layout

/-- The depth of the body of a statement at depth `d`. -/
def armDepth (d : Nat) (s : Stmt) : Nat := if isBlock s then d else d + 1

/-- What is printed after something followed by a new line: an empty line is kept. -/
def tidy (a : After) : After := if a = .blank then .blank else .line

/-- What is printed between a branch and `else`. -/
def elseAfter (t : Stmt) : After := if isBlock t then .none else if (ending t).1 then .line else tidy (ending t).2

mutual
/-- A statement printed at depth `d`, read again; `x` is printed after it, and `ln` gives the lines of the blocks of
declarations. -/
def stmtAgain (H : Hand) (ln : List Decl → Nat) (d : Nat) (x : After) : Stmt → Stmt
  | .expr e _ => .expr e x
  | .ret e _ => .ret e x
  | .jump kw _ => .jump kw x
  | .goto l _ => .goto l x
  | .semi _ => .semi x
  | .label sp l _ => .label sp l (decide (x = .blank))
  | .block b _ => .block (stmtsAgain H ln (d + 1) .line b) x
  | .loop kw sp e s => .loop kw sp e (stmtAgain H ln (armDepth d s) x s)
  | .loop3 u v w s => .loop3 u v w (stmtAgain H ln (armDepth d s) x s)
  | .cond e t r => .cond e (stmtAgain H ln (armDepth d t) (if isNone r then x else elseAfter t) t) (elseAgain H ln d x r)
  | .doWhile s e _ => .doWhile (stmtAgain H ln (armDepth d s) (if isBlock s then .none else tidy (ending s).2) s) e x
  | .switch e b _ => .switch e (stmtsAgain H ln d .line b) x
  | .case e b => .case e (belowAgain H ln d x b)
  | .decls b => .decls (blockAgain (d * H.width) x (ln b) (b.zip (H.gaps (d * H.width) b)))
@[inherit_doc stmtAgain] def elseAgain (H : Hand) (ln : List Decl → Nat) (d : Nat) (x : After) : Else → Else
  | .none => .none
  | .elif e t r => .elif e (stmtAgain H ln (armDepth d t) (if isNone r then x else elseAfter t) t) (elseAgain H ln d x r)
  | .els s => .els (stmtAgain H ln (armDepth d s) x s)
@[inherit_doc stmtAgain] def belowAgain (H : Hand) (ln : List Decl → Nat) (d : Nat) (x : After) : Stmts → Stmts
  | .nil => .nil
  | .cons s r => .cons (stmtAgain H ln (armDepth d s) (if isNil r then x else tidy (ending s).2) s) (stmtsAgain H ln (d + 1) x r)
@[inherit_doc stmtAgain] def stmtsAgain (H : Hand) (ln : List Decl → Nat) (d : Nat) (x : After) : Stmts → Stmts
  | .nil => .nil
  | .cons s r => .cons (stmtAgain H ln d (if isNil r then x else tidy (ending s).2) s) (stmtsAgain H ln d x r)
end

/-- What is printed after the left brace of a function: no empty line before declarations. -/
def openAgain (a : After) : Stmts → After
  | .nil => .line
  | .cons s _ => if isDecls s then .line else tidy a

mutual
/-- The blocks of declarations in a statement at depth `d`, with their depths. -/
def stmtBlocks (d : Nat) : Stmt → List (Nat × List Decl)
  | .expr _ _ | .ret _ _ | .jump _ _ | .goto _ _ | .semi _ | .label _ _ _ => []
  | .block b _ => stmtsBlocks (d + 1) b
  | .loop _ _ _ s | .loop3 _ _ _ s | .doWhile s _ _ => stmtBlocks (armDepth d s) s
  | .cond _ t r => stmtBlocks (armDepth d t) t ++ elseBlocks d r
  | .switch _ b _ => stmtsBlocks d b
  | .case _ b => belowBlocks d b
  | .decls b => [(d, b)]
@[inherit_doc stmtBlocks] def elseBlocks (d : Nat) : Else → List (Nat × List Decl)
  | .none => []
  | .elif _ t r => stmtBlocks (armDepth d t) t ++ elseBlocks d r
  | .els s => stmtBlocks (armDepth d s) s
@[inherit_doc stmtBlocks] def belowBlocks (d : Nat) : Stmts → List (Nat × List Decl)
  | .nil => []
  | .cons s r => stmtBlocks (armDepth d s) s ++ stmtsBlocks (d + 1) r
@[inherit_doc stmtBlocks] def stmtsBlocks (d : Nat) : Stmts → List (Nat × List Decl)
  | .nil => []
  | .cons s r => stmtBlocks d s ++ stmtsBlocks d r
end

end Knfmt.Layout.Spec
