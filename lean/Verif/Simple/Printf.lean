import Verif.Expr.Model
/-!
# simple-expr-printf.c: dropping the newline of an error message

The tokens of the lexer are a list; halting at a branch is not modelled here, see
`Verif.Stream`. Taking a token out of an empty list stands for the end of the file.
-/
namespace Knfmt.Printf

open Knfmt.Expr (Tok)

/-- `identify_function`, simple-expr-printf.c:19-50, with the names of clang.h:14-26. -/
def identify (tk : Tok) : Option Nat :=
  if tk.ty ≠ .ident then none
  else if tk.str = "perror".toList ∨ tk.str = "vwarn".toList ∨ tk.str = "vwarnx".toList ∨
    tk.str = "warn".toList ∨ tk.str = "warnx".toList then some 0
  else if tk.str = "err".toList ∨ tk.str = "errx".toList ∨ tk.str = "verr".toList ∨
    tk.str = "verrx".toList ∨ tk.str = "vwarnc".toList ∨ tk.str = "warnc".toList then some 1
  else if tk.str = "errc".toList ∨ tk.str = "verrc".toList then some 2
  else none

/-- The loop over the arguments in front of the format, simple-expr-printf.c:63-68: how many tokens
are consumed, counting from `n`, and what is left. -/
def skipArgs : Nat → List Tok → Nat → Option (Nat × List Tok)
  | 0, ts, n => some (n, ts)
  | k + 1, _ :: c :: ts, n => if c.ty = .comma then skipArgs k ts (n + 2) else none
  | _ + 1, _, _ => none

/-- The loop over the strings, simple-expr-printf.c:69-70: the index of the last one. -/
def lastString : List Tok → Nat → Option Nat → Option Nat
  | t :: ts, n, last => if t.ty = .string then lastString ts (n + 1) (some n) else last
  | [], _, last => last

/-- `find_format_argument_inner`, simple-expr-printf.c:52-71: the index of the token. -/
def findInner (argno : Nat) : List Tok → Option Nat
  | f :: lp :: ts =>
    if f.ty = .ident ∧ lp.ty = .lparen then
      match skipArgs argno ts 2 with
      | none => none
      | some (n, ts) => lastString ts n none
    else none
  | _ => none

/-- `string_has_line`, simple-expr-printf.c:87-95. -/
def hasLine (s : List Char) : Bool :=
  decide (s.length ≥ 3) && decide (s.drop (s.length - 3) = ['\\', 'n', '"'])

/-- `arena_sprintf` with `"%.*s"`, simple-expr-printf.c:112-114: a negative precision is no
precision, a NUL ends the text. -/
def sanitize (s : List Char) : List Char :=
  let t := (s.drop 1).takeWhile (· ≠ '\x00')
  ['"'] ++ (if s.length ≥ 4 then t.take (s.length - 4) else t) ++ ['"']

/-- `simple_expr_printf`, simple-expr-printf.c:97-116, for the token at index `i`;
`find_format_argument`, simple-expr-printf.c:74-85, seeks to it. -/
def simpleExprPrintf (ts : List Tok) (i : Nat) : List Tok :=
  match ts[i]? with
  | none => ts
  | some tk =>
    match identify tk with
    | none => ts
    | some argno =>
      match findInner argno (ts.drop i) with
      | none => ts
      | some k =>
        match ts[i + k]? with
        | none => ts
        | some f => if hasLine f.str then ts.set (i + k) { f with str := sanitize f.str } else ts

end Knfmt.Printf
