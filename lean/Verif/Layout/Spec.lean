import Verif.Layout.Model
import Verif.Util.Spec
/-!
# The layout of statements (C90): specification

The statements of a function are written one per line, indented by one step for each statement they are nested in.
Labels are not indented.
-/
namespace Knfmt.Layout.Spec
open Knfmt.Expr (Ex)
open Knfmt.Layout

/-- How text is written: the width of a step, whether tabs are used, the text of an expression on one line and the
white space after the types of declarations that begin in a column. -/
structure Hand where
  width : Nat
  tabs : Bool
  expr : Ex → List Char
  gaps : Nat → List Decl → List (List Char)

/-- The white space in front of a line at depth `d`. -/
def Hand.indent (H : Hand) (d : Nat) : List Char :=
  if H.tabs then List.replicate (d * H.width / 8) '\t' ++ List.replicate (d * H.width % 8) ' '
  else List.replicate (d * H.width) ' '

/-- A new line at depth `d`. -/
def Hand.nl (H : Hand) (d : Nat) : List Char := '\n' :: H.indent d

/-- The statement is a label. -/
def isLabel : Stmt → Bool
  | .label _ _ _ => true
  | _ => false

/-- The statement is a block of declarations. -/
def isDecls : Stmt → Bool
  | .decls _ => true
  | _ => false

/-- A new line for a statement at depth `d`. -/
def Hand.top (H : Hand) (d : Nat) (s : Stmt) : List Char := if isLabel s then ['\n'] else H.nl d

/-- An expression that may be missing. -/
def Hand.opt (H : Hand) : Option Ex → List Char
  | some e => H.expr e
  | none => []

/-- The same, with a space in front of it. -/
def Hand.pad (H : Hand) : Option Ex → List Char
  | some e => ' ' :: H.expr e
  | none => []

/-- Texts with a separator between them. -/
def joined (sep : List Char) : List (List Char) → List Char
  | [] => []
  | [w] => w
  | w :: ws => w ++ (sep ++ joined sep ws)

/-- `const char **` -/
def typeText (t : Typ) : List Char :=
  joined [' '] t.words ++ (if t.stars = 0 then [] else ' ' :: List.replicate t.stars '*')

/-- A type and what comes after it on the same line: no space after a star. -/
def typeNext (t : Typ) : List Char := typeText t ++ (if t.stars = 0 then [' '] else [])

/-- `[10][]` -/
def dimsText : List (Option (List Char)) → List Char
  | [] => []
  | d :: ds => ['['] ++ ((match d with | none => [] | some n => n) ++ ([']'] ++ dimsText ds))

/-- `char *argv[]` -/
def paramText (p : Param) : List Char :=
  match p.name with
  | none => typeText p.typ
  | some (n, ds) => typeNext p.typ ++ (n ++ dimsText ds)

/-- `[10][]` -/
def sizesText (H : Hand) : List (Option Ex) → List Char
  | [] => []
  | d :: ds => ['['] ++ (H.opt d ++ ([']'] ++ sizesText H ds))

/-- `*p[2] = 0` -/
def varText (H : Hand) (x : Var) : List Char :=
  List.replicate x.stars '*' ++ (x.name ++ (sizesText H x.dims ++ (match x.init with
    | none => []
    | some e => [' ', '=', ' '] ++ H.expr e)))

/-- `x, y = 1` or `f(int, char *)`, and nothing for `struct s;`. -/
def tailText (H : Hand) : Tail → List Char
  | .vars x ys => joined [',', ' '] ((x :: ys).map (varText H))
  | .args n ps => n ++ (['('] ++ (joined [',', ' '] (ps.map paramText) ++ [')']))
  | .bare => []

/-- What comes before the first name of a declaration: the type, the white space `gap` and the stars. -/
def leadText (gap : List Char) (d : Decl) : List Char :=
  joined [' '] d.words ++ (gap ++ List.replicate d.stars '*')

/-- A declaration on one line. -/
def declText (H : Hand) (gap : List Char) (d : Decl) : List Char :=
  leadText gap d ++ (tailText H d.tail ++ [';'])

/-- What comes after the last declaration. -/
def lastAft : List Decl → After
  | [] => .none
  | [d] => d.aft
  | _ :: ds => lastAft ds

/-- An empty line of the source. -/
def emptyLine : After → List Char
  | .blank => ['\n']
  | _ => []

mutual
/-- What the source has after the last token of a statement, and whether this token is a right brace. -/
def ending : Stmt → Bool × After
  | .expr _ a | .ret _ a | .jump _ a | .goto _ a | .semi a | .doWhile _ _ a => (false, a)
  | .label _ _ blank => (false, if blank then .blank else .line)
  | .block _ a | .switch _ _ a => (true, a)
  | .loop _ _ _ s | .loop3 _ _ _ s => ending s
  | .cond _ t r => endingElse (ending t) r
  | .case _ b => endingList (false, .none) b
  | .decls b => (false, lastAft b)
def endingElse (x : Bool × After) : Else → Bool × After
  | .none => x
  | .elif _ t r => endingElse (ending t) r
  | .els s => ending s
def endingList (x : Bool × After) : Stmts → Bool × After
  | .nil => x
  | .cons s r => endingList (ending s) r
end

/-- Between a statement and `while`: the empty line is kept. -/
def Hand.next (H : Hand) (d : Nat) (s : Stmt) : List Char := emptyLine (ending s).2 ++ H.nl d

/-- Between a branch and `else`: on the same line after the braces of the branch. -/
def Hand.before (H : Hand) (d : Nat) (t : Stmt) : List Char :=
  if isBlock t then [' '] else (if (ending t).1 then [] else emptyLine (ending t).2) ++ H.nl d

/-- The body `s` of a statement at depth `d`, given its text at each depth: a block is on the same line, and everything
else is on the next line. -/
def Hand.arm (H : Hand) (d : Nat) (s : Stmt) (t : Nat → List Char) : List Char :=
  if isBlock s then [' '] ++ t d else H.top (d + 1) s ++ t (d + 1)

mutual
/-- A statement at depth `d`. -/
def lay (H : Hand) (d : Nat) : Stmt → List Char
  | .expr e _ => H.expr e ++ [';']
  | .ret none _ => ['r', 'e', 't', 'u', 'r', 'n'] ++ [';']
  | .ret (some e) _ => ['r', 'e', 't', 'u', 'r', 'n'] ++ ([' '] ++ (H.expr e ++ [';']))
  | .jump kw _ => kw ++ [';']
  | .goto l _ => ['g', 'o', 't', 'o'] ++ ([' '] ++ (l ++ [';']))
  | .semi _ => [';']
  | .label sp l _ => (if sp then [' '] else []) ++ (l ++ [':'])
  | .block b _ => ['{'] ++ (inside H (d + 1) b ++ (H.nl d ++ ['}']))
  | .loop kw sp e s => kw ++ ((if sp then [' '] else []) ++ (['('] ++ (H.opt e ++ ([')'] ++ H.arm d s (fun d => lay H d s)))))
  | .loop3 x y z s =>
    ['f', 'o', 'r'] ++ ([' '] ++ (['('] ++ (H.opt x ++ ([';'] ++ (H.pad y ++ ([';'] ++ (H.pad z ++ ([')'] ++ H.arm d s (fun d => lay H d s)))))))))
  | .cond e t r => ['i', 'f'] ++ ([' '] ++ (['('] ++ (H.expr e ++ ([')'] ++ (H.arm d t (fun d => lay H d t) ++ layElse H d (H.before d t) r)))))
  | .doWhile s e _ =>
    ['d', 'o'] ++ (H.arm d s (fun d => lay H d s) ++ ((if isBlock s then [' '] else H.next d s) ++
      (['w', 'h', 'i', 'l', 'e'] ++ ([' '] ++ (['('] ++ (H.expr e ++ ([')'] ++ [';'])))))))
  | .switch e b _ =>
    ['s', 'w', 'i', 't', 'c', 'h'] ++ ([' '] ++ (['('] ++ (H.expr e ++ ([')'] ++ ([' '] ++ (['{'] ++
      (inside H d b ++ (H.nl d ++ ['}']))))))))
  | .case none b => ['d', 'e', 'f', 'a', 'u', 'l', 't'] ++ ([':'] ++ below H d b)
  | .case (some e) b => ['c', 'a', 's', 'e'] ++ ([' '] ++ (H.expr e ++ ([':'] ++ below H d b)))
  | .decls b => joined (H.nl d) (List.zipWith (declText H) (H.gaps (d * H.width) b) b)

/-- `else` and what comes after it; `x` comes before it. -/
def layElse (H : Hand) (d : Nat) (x : List Char) : Else → List Char
  | .none => []
  | .elif e t r => x ++ (['e', 'l', 's', 'e'] ++ ([' '] ++ (['i', 'f'] ++ ([' '] ++ (['('] ++ (H.expr e ++ ([')'] ++
      (H.arm d t (fun d => lay H d t) ++ layElse H d (H.before d t) r))))))))
  | .els s => x ++ (['e', 'l', 's', 'e'] ++ H.arm d s (fun d => lay H d s))

/-- The statements of a case at depth `d`: a block on the same line, and everything else below. -/
def below (H : Hand) (d : Nat) : Stmts → List Char
  | .nil => []
  | .cons s r => H.arm d s (fun d => lay H d s) ++ rest H (d + 1) (emptyLine (ending s).2) r

/-- The statements of a list at depth `d`, each on a line of its own. -/
def inside (H : Hand) (d : Nat) : Stmts → List Char
  | .nil => []
  | .cons s r => H.top d s ++ (lay H d s ++ rest H d (emptyLine (ending s).2) r)

/-- The statements of a list after the first one; `x` comes before them: the empty lines are kept. -/
def rest (H : Hand) (d : Nat) (x : List Char) : Stmts → List Char
  | .nil => []
  | .cons s r => x ++ (H.top d s ++ (lay H d s ++ rest H d (emptyLine (ending s).2) r))
end

/-- The body of a function: an empty line may come first, but not before declarations. -/
def body (H : Hand) (a : After) : Stmts → List Char
  | .nil => ['{'] ++ (H.nl 0 ++ ['}'])
  | .cons s r => ['{'] ++ ((if isDecls s then [] else emptyLine a) ++ (inside H 1 (.cons s r) ++ (H.nl 0 ++ ['}'])))

/-- No line is longer than the limit; the first one begins at column `c`. -/
def Within (lim : Nat) : Nat → List Char → Prop
  | c, [] => c ≤ lim
  | c, x :: s => c ≤ lim ∧ Within lim (Knfmt.Spec.advance c x) s

end Knfmt.Layout.Spec
