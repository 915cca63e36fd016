import Verif.Lexer.Joins
/-! # The text of a token is a token on its own (C79) -/
namespace Knfmt.Lexer
open Knfmt.Spec

theorem takeWhile_idem (p : Char → Bool) (l : List Char) : (l.takeWhile p).takeWhile p = l.takeWhile p := by
  induction l with
  | nil => rfl
  | cons c l ih =>
    by_cases h : p c = true
    · simp [h, ih]
    · simp [h]

/-- What is read as a token in front of some text is read as the same token without it, unless it is a
character that belongs to no token. -/
theorem isToken_of_at {r s : List Char} {ty : TT} (h : TokenAt r s ty) (hn : ty ≠ .kNone) : IsToken s ty := by
  have hp : s <+: r ∧ Lexeme s s ty := by
    cases h.lexeme with
    | operator _ _ k h1 h2 h3 h4 =>
      refine ⟨h1.2.1, .operator _ _ k ⟨h1.1, List.prefix_refl _, fun o' _ hp => hp.length_le⟩ ?_ h3 h4⟩
      rintro ⟨d, rest', e, hd⟩
      obtain ⟨x, hx⟩ := h1.2.1
      exact h2 ⟨d, rest' ++ x, by rw [← hx, e]; rfl, hd⟩
    | quoted pre body rest q h1 h2 =>
      refine ⟨⟨rest, by simp⟩, ?_⟩
      exact .quoted pre body [] q h1 h2
    | number c rest h1 =>
      refine ⟨List.prefix_cons_iff.2 (Or.inr ⟨_, rfl, List.takeWhile_prefix _⟩), ?_⟩
      have := Lexeme.number c (rest.takeWhile isNum) (by
        rcases h1 with h1 | ⟨d, rest', e, hd⟩
        · exact Or.inl h1
        · right
          injection e with e1 e2
          subst e1 e2
          have : isNum d = true := by simp [isNum, isXdigit, hd]
          exact ⟨d, rest'.takeWhile isNum, by simp [this], hd⟩)
      rwa [takeWhile_idem] at this
    | keyword c rest k h1 h2 h3 =>
      refine ⟨List.prefix_cons_iff.2 (Or.inr ⟨_, rfl, List.takeWhile_prefix _⟩), ?_⟩
      have := Lexeme.keyword c (rest.takeWhile identChar) k h1 h2 (by rw [takeWhile_idem]; exact h3)
      rwa [takeWhile_idem] at this
    | ident c rest h1 h2 h3 =>
      have hp : c :: rest.takeWhile identChar <+: c :: rest :=
        List.prefix_cons_iff.2 (Or.inr ⟨_, rfl, List.takeWhile_prefix _⟩)
      refine ⟨hp, ?_⟩
      have := Lexeme.ident c (rest.takeWhile identChar) h1 (fun pre q ho hx => h2 pre q ho (hx.trans hp))
        (by rw [takeWhile_idem]; exact h3)
      rwa [takeWhile_idem] at this
    | other => exact absurd rfl hn
    | eof => exact absurd rfl h.notEof
    | openQuote => exact absurd rfl h.notEof
    | otherLast => exact absurd rfl h.notEof
  exact ⟨hp.2, h.notEof, h.first, fun hx => h.noLine (hx.trans hp.1), fun hx => h.noBlock (hx.trans hp.1)⟩

/-- The tokens of a text are tokens. -/
theorem Spelled.isToken {inp : List Char} {ts : List (List Char × TT)} (h : Spelled inp ts)
    (hn : ∀ x ∈ ts, x.2 ≠ .kNone) : ∀ x ∈ ts, IsToken x.1 x.2 := by
  induction h with
  | nil => simp
  | cons b s rest ty ts _ h2 _ ih =>
    intro x hx
    rcases List.mem_cons.1 hx with rfl | hx
    · exact isToken_of_at h2 (hn _ (by simp))
    · exact ih (fun y hy => hn y (by simp [hy])) x hx

end Knfmt.Lexer
