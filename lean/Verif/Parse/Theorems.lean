import Verif.Parse.BalanceExpr
/-!
# What the parser does with the tokens of a file

The specification is `Spec.Tidy`, see `Verif.Parse.Drop`, or plain equality of lists without their
semicolons. `parserExec E fuel ts = some (out, g)` says that the parser accepts the file `ts` (all
tokens but the end of file one), that the document it hands over holds the tokens `out` in this order
and that `g` are the things recorded on the way, see `Ghost`. `E` are all decisions on layout, that is
style, options, widths and white space.
-/
namespace Knfmt.Parse
open Knfmt.Lexer (TT)
open Knfmt.Parse.Spec (ends Tidy Tidy')

/-- Tokens numbered from one, all on a line of their own. -/
def number (n : Nat) : List (TT × String) → List Tok
  | [] => []
  | (ty, w) :: l => { id := n, ty := ty, str := w.toList, lno := n, cno := 8 } :: number (n + 1) l

/-- The words of tokens. -/
def words (ts : List Tok) : List String := ts.map fun t => String.ofList t.str

/-- All questions are answered by no. -/
def envNo : Env := { ask := fun _ _ => false }

/-- All questions are answered by yes. -/
def envYes : Env := { ask := fun _ _ => true }

/-- `int f(int a) { if (a) { return a + 1; }; ; while (--a) g(a, "x"); return 0; }` -/
def exFile : List Tok := number 1 [
  (.kInt, "int"), (.ident, "f"), (.lparen, "("), (.kInt, "int"), (.ident, "a"), (.rparen, ")"),
  (.lbrace, "{"), (.kIf, "if"), (.lparen, "("), (.ident, "a"), (.rparen, ")"), (.lbrace, "{"),
  (.kReturn, "return"), (.ident, "a"), (.plus, "+"), (.literal, "1"), (.semi, ";"), (.rbrace, "}"),
  (.semi, ";"), (.kReturn, "return"), (.literal, "0"), (.semi, ";"), (.rbrace, "}")]

set_option maxRecDepth 100000 in
example : (parserExec envNo 60 exFile).map (fun x => (words x.1, x.2)) = some (["int", "f", "(", "int", "a", ")",
  "{", "if", "(", "a", ")", "{", "return", "a", "+", "1", ";", "}", "return", "0", ";", "}"], {}) := by
  decide +kernel


/-- The full claim: whatever the parser accepts, it keeps all tokens but redundant semicolons in
order. -/
def C64_statement : Prop :=
  ∀ (E : Env) (fuel : Nat) (ts out : List Tok) (g : Ghost), (∀ t ∈ ts, t.ty ≠ .eof) →
    parserExec E fuel ts = some (out, g) → Tidy ts out

/-- C64, as long as none of the recorded things happens: a file accepted by the parser is printed with
all of its tokens in order, but possibly without redundant semicolons. -/
theorem C64_tokens_kept_in_order_partial (E : Env) (fuel : Nat) (ts out : List Tok) (g : Ghost)
    (ht : ∀ t ∈ ts, t.ty ≠ .eof) (h : parserExec E fuel ts = some (out, g))
    (hs : g.swallowed = false) (hl : g.lost = false) (hm : g.misplaced = false) :
    Tidy ts out := parserExec_tidy h ht hs hl hm

/-- C64: a misplaced semicolon is all that can be wrong unless tokens were swallowed or lost. All other
tokens are there, in order. -/
theorem C64_other_tokens_kept_in_order_partial (E : Env) (fuel : Nat) (ts out : List Tok) (g : Ghost)
    (ht : ∀ t ∈ ts, t.ty ≠ .eof) (h : parserExec E fuel ts = some (out, g))
    (hs : g.swallowed = false) (hl : g.lost = false) :
    out.filter (fun t => decide (t.ty ≠ .semi)) = ts.filter (fun t => decide (t.ty ≠ .semi)) :=
  parserExec_noSemi h ht hs hl

/-- C64: nothing at all is removed if no semicolon follows a semicolon or a right brace. -/
theorem C64_all_tokens_kept_partial (E : Env) (fuel : Nat) (ts out : List Tok) (g : Ghost)
    (ht : ∀ t ∈ ts, t.ty ≠ .eof) (h : parserExec E fuel ts = some (out, g))
    (hs : g.swallowed = false) (hl : g.lost = false) (hm : g.misplaced = false)
    (hn : ∀ x y t u, ts = x ++ t :: u :: y → t.ty = .semi ∨ t.ty = .rbrace → u.ty ≠ .semi) :
    out = ts := by
  refine (parserExec_tidy h ht hs hl hm).same (fun e => by cases e) ?_
  intro x y t u hx he
  refine hn x y t u hx ?_
  simpa [ends] using he

/-- C64: style, options, widths and white space have no influence on the tokens, apart from redundant
semicolons. -/
theorem C64_same_tokens_for_all_layouts_partial (E E' : Env) (fuel fuel' : Nat)
    (ts out out' : List Tok) (g g' : Ghost) (ht : ∀ t ∈ ts, t.ty ≠ .eof)
    (h : parserExec E fuel ts = some (out, g)) (h' : parserExec E' fuel' ts = some (out', g'))
    (hs : g.swallowed = false) (hl : g.lost = false)
    (hs' : g'.swallowed = false) (hl' : g'.lost = false) :
    out.filter (fun t => decide (t.ty ≠ .semi)) = out'.filter (fun t => decide (t.ty ≠ .semi)) := by
  rw [parserExec_noSemi h ht hs hl, parserExec_noSemi h' ht hs' hl']

/-- C65: no token is printed more often than it occurs in the source, and none is invented. This needs
no assumption on the run. -/
theorem C65_no_token_printed_twice (E : Env) (fuel : Nat) (ts out : List Tok) (g : Ghost)
    (ht : ∀ t ∈ ts, t.ty ≠ .eof) (h : parserExec E fuel ts = some (out, g)) :
    ∀ t, t.ty ≠ .eof → out.count t ≤ ts.count t := parserExec_count h ht

/-- C65: every token printed comes from the source. -/
theorem C65_no_token_invented (E : Env) (fuel : Nat) (ts out : List Tok) (g : Ghost)
    (ht : ∀ t ∈ ts, t.ty ≠ .eof) (h : parserExec E fuel ts = some (out, g)) :
    ∀ t ∈ out, t.ty ≠ .eof → t ∈ ts := by
  intro t hm he
  have := parserExec_count h ht t he
  exact List.count_pos_iff.1 (Nat.lt_of_lt_of_le (List.count_pos_iff.2 hm) this)

/-! ## The conditions are needed -/

/-- `int n, (*fn)(void);` -/
def exMisplaced : List Tok := number 1 [
  (.kInt, "int"), (.ident, "n"), (.comma, ","), (.lparen, "("), (.star, "*"), (.ident, "fn"),
  (.rparen, ")"), (.lparen, "("), (.void, "void"), (.rparen, ")"), (.semi, ";")]

/-- `int ,;` -/
def exLost : List Tok := number 1 [(.kInt, "int"), (.comma, ","), (.semi, ";")]

/-- `int a[x ? y : ];` -/
def exSwallowed : List Tok := number 1 [
  (.kInt, "int"), (.ident, "a"), (.lsquare, "["), (.ident, "x"), (.question, "?"), (.ident, "y"),
  (.colon, ":"), (.rsquare, "]"), (.semi, ";")]

set_option maxRecDepth 100000 in
/-- Finding: the semicolon of a declaration is printed in the middle of it. -/
theorem C64_semicolon_misplaced : (parserExec envNo 60 exMisplaced).map (fun x => (words x.1, x.2)) =
    some (["int", "n", ",", ";", "(", "*", "fn", ")", "(", "void", ")"], { misplaced := true }) := by
  decide +kernel

set_option maxRecDepth 100000 in
/-- Finding: a comma is lost. -/
theorem C64_comma_lost : (parserExec envNo 60 exLost).map (fun x => (words x.1, x.2)) =
    some (["int", ";"], { lost := true }) := by
  decide +kernel

set_option maxRecDepth 100000 in
/-- Finding: an incomplete expression is swallowed. -/
theorem C64_expression_swallowed : (parserExec envNo 60 exSwallowed).map (fun x => (words x.1, x.2)) =
    some (["int", "a", "[", "]", ";"], { swallowed := true }) := by
  decide +kernel

set_option maxRecDepth 100000 in
/-- The full claim is wrong: a valid declaration is printed with its semicolon in the wrong place. -/
theorem C64_statement_false : ¬ C64_statement := by
  intro h
  have h1 : ∃ out g, parserExec envNo 60 exMisplaced = some (out, g) ∧ out ≠ exMisplaced := by
    have : ((parserExec envNo 60 exMisplaced).any fun x => decide (x.1 ≠ exMisplaced)) = true := by
      decide +kernel
    cases e : parserExec envNo 60 exMisplaced with
    | none => rw [e] at this; cases this
    | some x =>
      rw [e] at this
      exact ⟨x.1, x.2, rfl, of_decide_eq_true this⟩
  obtain ⟨out, g, h1, h2⟩ := h1
  refine h2 (Tidy'.same (h _ _ _ _ _ ?_ h1) (fun e => by cases e) ?_)
  · decide
  · intro x y t u hx he
    have hall : ∀ v ∈ exMisplaced.dropLast, ends v = false := by decide
    have : t ∈ exMisplaced.dropLast := by
      rw [hx, List.dropLast_append_of_ne_nil (by simp), List.dropLast_cons_of_ne_nil (by simp)]
      simp
    rw [hall t this] at he
    cases he

/-! ## The claims apply -/

set_option maxRecDepth 100000 in
example : ∀ t ∈ exFile, t.ty ≠ .eof := by decide

set_option maxRecDepth 100000 in
example : ((parserExec envYes 60 exFile).map fun x => (words x.1, x.2)) =
    (parserExec envNo 60 exFile).map fun x => (words x.1, x.2) := by
  decide +kernel

end Knfmt.Parse
