import Verif.Expr.RemarkProps
import Verif.Expr.Fixed
/-!
# Line comments that swallow code (C89)

The code does not keep C89: `C89_statement_false`. Where a line break is removed or ignored, what comes behind a line
comment becomes part of it.
-/
namespace Knfmt.ExprDoc
open Knfmt.Doc (Firm slashes core CommentText)
open Knfmt.Doc.Spec
open Knfmt.Expr

/-- The text without white space. -/
def squeeze (s : List Char) : List Char := s.filter fun c => !white c

theorem laid_squeeze {ps : List Piece} {s : List Char} {o : Bool} (h : Laid ps s o) :
    squeeze s = squeeze (ps.flatMap (·.text)) := by
  unfold squeeze
  induction h with
  | start => rfl
  | white _ hc ih => simp [List.filter_append, ih, hc]
  | piece _ ih => simp [List.filter_append, ih]

/-- On one line only the last piece is a line comment. -/
theorem laid_one {ps : List Piece} {s : List Char} {o : Bool} (h : Laid ps s o) (hn : '\n' ∉ s) :
    (∀ p ∈ ps.dropLast, p.line = false) ∧ (o = false → ∀ p ∈ ps, p.line = false) := by
  induction h with
  | start => simp
  | @white ps s o c _ hc ih =>
    have ih := ih fun h => hn (by simp [h])
    have hcn : c ≠ '\n' := by rintro rfl; exact hn (by simp)
    simpa [hcn] using ih
  | @piece ps s p _ ih =>
    have ih := (ih fun h => hn (by simp [h])).2 rfl
    refine ⟨by simpa using ih, fun hp q hq => ?_⟩
    rcases List.mem_append.1 hq with h | h
    · exact ih q h
    · simp only [List.mem_singleton] at h
      subst h
      exact hp

/-- A text of one line, with only one line comment in the source, ends with it or is without it. -/
theorem laid_codes {ps : List Piece} {s : List Char} {o : Bool} (h : Laid ps s o) (hn : '\n' ∉ s) {ws : List (List Char)}
    (hw : (ps.filter (·.code)).map (·.text) = ws) {k : Piece} (hk : ∀ p ∈ ps, p.code = false → p = k) (hl : k.line = true) :
    squeeze s = squeeze ws.flatten ∨ squeeze s = squeeze (ws.flatten ++ k.text) := by
  have h1 := (laid_one h hn).1
  rw [laid_squeeze h]
  have codes : ∀ p ∈ ps.dropLast, p.code = true := by
    intro p hp
    cases hc : p.code with
    | true => rfl
    | false =>
      have := hk p (List.dropLast_subset ps hp) hc
      subst this
      rw [h1 _ hp] at hl
      cases hl
  rcases List.eq_nil_or_concat ps with rfl | ⟨qs, q, rfl⟩
  · subst hw; exact Or.inl rfl
  · simp only [List.concat_eq_append, List.dropLast_concat] at codes
    have hf : qs.filter (·.code) = qs := List.filter_eq_self.2 codes
    simp only [List.concat_eq_append, List.filter_append, hf] at hw ⊢
    cases hc : q.code with
    | true =>
      left
      simp [hc] at hw
      rw [← hw]
      simp [List.flatMap, squeeze]
    | false =>
      right
      have := hk q (by simp) hc
      subst this
      simp [hc] at hw
      rw [← hw]
      simp [List.flatMap, squeeze]

/-- The tokens `x`, `=`, `(`, `a` and `)`. -/
def inParensToks : List Tok :=
  [⟨0, .ident, ['x']⟩, ⟨1, .equal, ['=']⟩, ⟨2, .lparen, ['(']⟩, ⟨3, .ident, ['a']⟩, ⟨4, .rparen, [')']⟩]

/-- What the lexer finds behind them. -/
def inParensTab : RTab :=
  ⟨[[.space], [.space], [], [.comment true [' ', '/', '/', ' ', 'c'], .line true false], []], [1, 1, 1, 1, 2]⟩

/-- `x = (a)` -/
def inParensEx : Ex := .bin (.lit ⟨0, .ident, ['x']⟩) ⟨1, .equal, ['=']⟩
  (.parens ⟨2, .lparen, ['(']⟩ (.lit ⟨3, .ident, ['a']⟩) (some ⟨4, .rparen, [')']⟩))

/-- `x = (a // c`, and `)` on the next line. -/
def inParens : List Char := ['x', ' ', '=', ' ', '(', 'a', ' ', '/', '/', ' ', 'c', '\n', ')']

theorem inParens_survey : survey ctx inParens = some (inParensToks, inParensTab) := by decide +kernel
theorem inParens_parse : parse ints ⟨[], inParensToks, false⟩ =
    some (inParensEx, ⟨inParensToks.reverse, [], false⟩) := by decide +kernel

/-- **Before the closing parenthesis the line break is removed**: the parenthesis becomes part of the comment. -/
theorem swallow_parens : remark ints ctx { indent := 4 } {} inParens = some ['x', ' ', '=', ' ', '(', 'a', ' ', '/', '/', ' ', 'c', ')'] := by decide +kernel

/-- **C89 is false.** -/
theorem C89_statement_false : ¬ C89_statement := by
  intro h
  obtain ⟨ps, o, hl, hw, hc⟩ := h ints ctx { indent := 4 } {} inParens _ _ _ _ _ rfl rfl rfl inParens_survey
    inParens_parse rfl ⟨trivial, trivial⟩ swallow_parens
  have hk : ∀ p ∈ ps, p.code = false → p = ⟨false, true, ['/', '/', ' ', 'c']⟩ := by
    intro p hp h1
    have := hc p hp h1
    have e : comments inParensTab = [⟨false, true, ['/', '/', ' ', 'c']⟩] := by decide +kernel
    rw [e] at this
    simpa using this
  rcases laid_codes hl (by decide) hw hk rfl with h1 | h1
  · exact absurd h1 (by decide)
  · exact absurd h1 (by decide)

/-- **After `.` and `->` as well.** -/
theorem swallow_field : remark ints ctx { indent := 4 } {} ['x', ' ', '=', ' ', 'a', '.', ' ', '/', '/', ' ', 'c', '\n', ' ', 'b'] = some ['x', ' ', '=', ' ', 'a', '.', ' ', '/', '/', ' ', 'c', 'b'] := by decide +kernel

/-- **After a blank line no line break of the source is kept**, doc.c:1230-1234: the last argument becomes part of
the comment before it. -/
theorem swallow_blank : remark ints ctx { indent := 4 } {} ['f', '(', 'a', ',', ' ', '/', '/', ' ', 'c', '\n', '\n', ' ', 'b', ',', ' ', '/', '/', ' ', 'd', '\n', ' ', 'c', ')'] = some ['f', '(', 'a', ',', ' ', '/', '/', ' ', 'c', '\n', ' ', ' ', ' ', ' ', ' ', 'b', ',', ' ', '/', '/', ' ', 'd', ' ', 'c', ')'] := by decide +kernel

/-- **The same after a line that had to be broken**: with a column limit of 16 the last argument becomes part of a
comment. -/
theorem swallow_long : remark ints ctx { indent := 4 } { limit := 16 } ['f', '(', 'a', 'a', 'a', 'a', 'a', 'a', ',', ' ', 'b', 'b', 'b', 'b', 'b', ',', ' ', 'c', ',', ' ', '/', '/', ' ', 'd', '\n', ' ', 'd', ',', ' ', '/', '/', ' ', 'x', '\n', ' ', 'd', ',', ' ', '/', '/', ' ', 'e', '\n', ' ', 'd', ')'] = some ['f', '(', 'a', 'a', 'a', 'a', 'a', 'a', ',', '\n', ' ', ' ', ' ', ' ', 'b', 'b', 'b', 'b', 'b', ',', '\n', ' ', ' ', ' ', ' ', 'c', ',', ' ', '/', '/', ' ', 'd', '\n', ' ', ' ', ' ', ' ', 'd', ',', ' ', '/', '/', ' ', 'x', '\n', ' ', ' ', ' ', ' ', 'd', ',', ' ', '/', '/', ' ', 'e', ' ', 'd', ')'] := by decide +kernel

/-! ### The hypotheses of `C89_partial` are met -/

theorem firm_last {s : List Char} {c : Char} (h : s.getLast? = some c) (hc : white c = false) : Firm s := by
  obtain ⟨q, e⟩ := List.getLast?_eq_some_iff.1 h
  exact ⟨q, c, e, hc⟩

/-- `f(a, // c`, `b + // d` and `c)` -/
def callToks : List Tok :=
  [⟨0, .ident, ['f']⟩, ⟨1, .lparen, ['(']⟩, ⟨2, .ident, ['a']⟩, ⟨3, .comma, [',']⟩, ⟨4, .ident, ['b']⟩,
    ⟨5, .plus, ['+']⟩, ⟨6, .ident, ['c']⟩, ⟨7, .rparen, [')']⟩]

def callTab : RTab :=
  ⟨[[], [], [], [.comment true [' ', '/', '/', ' ', 'c'], .line true false], [.space],
    [.comment true [' ', '/', '/', ' ', 'd'], .line true false], [], []], [1, 1, 1, 1, 2, 2, 3, 3]⟩

def callEx : Ex := .call (.lit ⟨0, .ident, ['f']⟩) ⟨1, .lparen, ['(']⟩
  (.bin (.lit ⟨2, .ident, ['a']⟩) ⟨3, .comma, [',']⟩
    (.bin (.lit ⟨4, .ident, ['b']⟩) ⟨5, .plus, ['+']⟩ (.lit ⟨6, .ident, ['c']⟩))) (some ⟨7, .rparen, [')']⟩)

theorem callTab_cases (i : Nat) : callTab.at i ∈ [[], [.space], [.comment true [' ', '/', '/', ' ', 'c'], .line true false],
    [.comment true [' ', '/', '/', ' ', 'd'], .line true false]] := by
  rcases Nat.lt_or_ge i 8 with h | h
  · have : i ∈ List.range 8 := List.mem_range.2 h
    revert this
    revert i
    decide
  · unfold RTab.at
    rw [List.getD_eq_getElem?_getD, List.getElem?_eq_none (by simpa [callTab] using h)]
    simp

example : ∃ ps o, Laid ps ['f', '(', 'a', ',', ' ', '/', '/', ' ', 'c', '\n', ' ', ' ', ' ', ' ', 'b', ' ', '+', ' ', '/', '/', ' ', 'd', '\n', ' ', ' ', ' ', ' ', 'c', ')'] o ∧
    (ps.filter (·.code)).map (·.text) = callToks.map (·.str) ∧ ∀ p ∈ ps, p.code = false → p ∈ comments callTab := by
  refine C89_partial (E := ints) (cx := ctx) (C := { indent := 4 }) (env := {}) (e := callEx)
    (src := ['f', '(', 'a', ',', ' ', '/', '/', ' ', 'c', '\n', ' ', 'b', ' ', '+', ' ', '/', '/', ' ', 'd', '\n', ' ', 'c', ')'])
    (τ := ⟨callToks.reverse, [], false⟩) ⟨rfl, rfl, rfl, rfl, rfl⟩ rfl (by decide) rfl (by decide +kernel) (by decide +kernel) rfl
    ⟨trivial, Or.inr ⟨trivial, trivial, trivial⟩⟩ (fun i => ?_) (by simp [quiets, callEx]) ?_ (by decide)
    (by decide +kernel) (by decide +kernel)
  · have h := callTab_cases i
    simp only [List.mem_cons, List.not_mem_nil, or_false] at h
    rcases h with h | h | h | h <;> rw [h]
    · exact fair_nil
    · exact ⟨by simp, by simp, trivial⟩
    · refine ⟨by simp, fun c s hx => ?_, fun _ => rfl, trivial⟩
      simp only [List.mem_cons, Rem.comment.injEq, reduceCtorEq, List.not_mem_nil, or_false] at hx
      obtain ⟨rfl, rfl⟩ := hx
      exact ⟨⟨firm_last (c := 'c') (by decide) (by decide), by decide⟩, by decide⟩
    · refine ⟨by simp, fun c s hx => ?_, fun _ => rfl, trivial⟩
      simp only [List.mem_cons, Rem.comment.injEq, reduceCtorEq, List.not_mem_nil, or_false] at hx
      obtain ⟨rfl, rfl⟩ := hx
      exact ⟨⟨firm_last (c := 'd') (by decide) (by decide), by decide⟩, by decide⟩
  · intro x hx
    simp only [callToks, List.mem_cons, List.not_mem_nil, or_false] at hx
    rcases hx with rfl | rfl | rfl | rfl | rfl | rfl | rfl | rfl <;>
      exact ⟨firm_last rfl (by decide), by decide⟩

end Knfmt.ExprDoc
