import Verif.Parse.Near
import Verif.Expr.Pairs
/-!
# Tokens that may be written next to each other are not read as one (C79)
-/
namespace Knfmt.Parse.Spec
open Knfmt.Lexer Knfmt.Spec
open Knfmt.ExprDoc (nexts joins_op wordChar kind_word kind_two)

/-- What the table of the tokens, token-defs.h, says about types: operators. -/
theorem table_ops : ∀ k ∈ table, kind k.1 = 0 → opHead k.2.1 = k.1.head? ∧ (opHead k.2.1).isSome ∧
    ((nexts k.1).all fun c => (opNexts k.2.1).contains c) = true ∧
    k.2.1 ≠ .literal ∧ k.2.1 ≠ .string ∧ (k.1 = ['/'] → k.2.1 = .slash) ∧ (k.1 = ['.'] → k.2.1 = .period) ∧
    ((nexts k.1).all fun c => !wordChar c || (decide (c = '.') && decide (k.2.1 = .period))) = true := by
  decide +kernel

/-- What the table of the tokens says about types: words. -/
theorem table_names : ∀ k ∈ table, kind k.1 = 3 →
    opHead k.2.1 = none ∧ k.2.1 ≠ .literal ∧ k.2.1 ≠ .string := by
  decide +kernel

/-- The table has only operators and words. -/
theorem table_kinds : ∀ k ∈ table, kind k.1 = 0 ∨ kind k.1 = 3 := by decide +kernel

/-- The characters operators begin with. -/
theorem heads : ∀ k ∈ table, kind k.1 = 0 → ∀ c ∈ k.1.head?.toList,
    (isNum c = true → c = '.') ∧ identChar c = false ∧ isQuote c = false ∧ isDigit c = false := by
  decide +kernel

theorem kind_three {c : Char} {t : List Char} (h : kind (c :: t) = 3) :
    identStart c = true ∧ isDigit c = false := by
  have e : kind (c :: t) = if isQuote c || (c = 'L' && t.head?.any isQuote) then 1
    else if isDigit c || (c = '.' && t.head?.any isDigit) then 2
    else if identStart c then 3
    else if operators.any fun o => o.isPrefixOf (c :: t) then 0
    else 4 := rfl
  rw [e] at h
  split at h
  · omega
  · split at h
    · omega
    · next hq =>
      split at h
      · next hs =>
        refine ⟨hs, ?_⟩
        cases hd : isDigit c with
        | false => rfl
        | true => rw [hd] at hq; exact absurd rfl hq
      · split at h <;> omega

/-- The token `b` is an operator, a constant, a string or a word. -/
theorem second {c : Char} {t : List Char} {b : TT} (h : IsToken (c :: t) b) :
    (opHead b = some c ∧ (isNum c = true → c = '.') ∧ identChar c = false ∧ isQuote c = false ∧
      isDigit c = false) ∨
    (opHead b = none ∧ wordChar c = true ∧ (b = .literal ∨ isDigit c = false) ∧ c ≠ '/' ∧ c ≠ '*' ∧
      (b ≠ .literal → c ≠ '.')) := by
  rcases lexeme_inv h.lexeme with ⟨hk, _, k, hk', h1, h2⟩ | ⟨hk, h1⟩ | ⟨hk, _, _, h0, _, h1⟩ |
    ⟨hk, x, r, h0, _, h1⟩ | ⟨hk, x, r, h0, h00, h1⟩ | ⟨_, h1, _⟩
  · left
    have hk0 : kind k.1 = 0 := by rw [h1]; exact hk
    have := table_ops k hk' hk0
    rw [h1] at this
    have hh := heads k hk' hk0 c (by rw [h1]; simp)
    exact ⟨by rw [h2, this.1]; rfl, hh⟩
  · right
    have hw := kind_word (Or.inl hk)
    rcases h1 with ⟨pre, body, rest, q, ho, _, _, h2, h3⟩ | ⟨_, _, _, _, _, _, _, h1⟩
    · have hc : isDigit c = false ∧ c ≠ '/' ∧ c ≠ '*' ∧ c ≠ '.' := by
        obtain ⟨h4, h5⟩ := ho
        have : c = q ∨ c = 'L' := by
          rcases h4 with h4 | h4 <;> rw [h4] at h2 <;> injection h2 with h2 <;> simp [h2]
        rcases this with h | h
        · rcases h5 with h5 | h5 <;> rw [h, h5] <;> decide
        · rw [h]; decide
      refine ⟨?_, hw, Or.inr hc.1, hc.2.1, hc.2.2.1, fun _ => hc.2.2.2⟩
      rw [h3]; split <;> rfl
    · exact absurd h1 h.notEof
  · right
    refine ⟨by rw [h1]; rfl, kind_word (Or.inr (Or.inl hk)), Or.inl h1, ?_, ?_, fun h => absurd h1 h⟩
    · rintro rfl; rcases kind_two hk with h | h <;> exact absurd h (by decide)
    · rintro rfl; rcases kind_two hk with h | h <;> exact absurd h (by decide)
  · right
    have hw := kind_word (Or.inr (Or.inr hk))
    obtain ⟨hs, hd⟩ := kind_three hk
    have hne : ∀ y, identStart y = false → c ≠ y := by
      intro y hy e; rw [← e, hs] at hy; cases hy
    refine ⟨?_, hw, Or.inr hd, hne _ (by decide), hne _ (by decide), fun _ => hne _ (by decide)⟩
    rcases h1 with ⟨k, hk', h1, h2⟩ | ⟨_, h1⟩
    · rw [h2]
      exact (table_names k hk' (by rw [h1]; exact hk)).1
    · rw [h1]; rfl
  · injection h0 with e1 e2
    injection h00 with e3 e4
    rw [← e2, e4, if_pos rfl] at h1
    exact absurd h1 h.notEof
  · cases h1

/-- The criterion is correct. -/
theorem near_joins {s t : List Char} {c : Char} {a b : TT} (ha : IsToken s a) (hb : IsToken (c :: t) b)
    (hn : near a b = true) : joins s c = false := by
  have hB := second hb
  cases hj : joins s c with
  | false => rfl
  | true =>
    exfalso
    rcases lexeme_inv ha.lexeme with ⟨hk, _, k, hk', h1, h2⟩ | ⟨hk, _⟩ | ⟨hk, _, _, _, _, h2⟩ |
      ⟨hk, _, _, _, _, h2⟩ | ⟨_, _, _, h0, h00, h1⟩ | ⟨_, _, _, h1⟩
    · have hk0 : kind k.1 = 0 := by rw [h1]; exact hk
      obtain ⟨_, _, t3, t4, t5, t6, t7, t8⟩ := table_ops k hk' hk0
      rw [h1, ← h2] at t3
      rw [h1, ← h2] at t6 t7 t8
      rw [← h2] at t4 t5
      rw [List.all_eq_true] at t3 t8
      unfold near at hn
      rcases hB with ⟨b1, b2, b3, b4, b5⟩ | ⟨b1, b2, b3, b4, b5, b6⟩
      · rw [b1] at hn
        dsimp only at hn
        rw [if_neg t4, Bool.not_eq_true'] at hn
        rcases joins_op hk hj with h | ⟨_, h⟩ | ⟨h, h'⟩
        · rw [t3 c h] at hn; cases hn
        · rw [b5] at h; cases h
        · rw [t6 h] at hn
          rcases h' with h' | h' <;> rw [h'] at hn <;> exact absurd hn (by decide)
      · rw [b1] at hn
        simp only [t5, decide_false, Bool.false_or, Bool.and_eq_true, Bool.not_eq_true', Bool.and_eq_false_iff,
          decide_eq_false_iff_not] at hn
        rcases joins_op hk hj with h | ⟨h', h⟩ | ⟨_, h⟩
        · have := t8 c h
          simp only [b2, Bool.not_true, Bool.false_or, Bool.and_eq_true, decide_eq_true_eq] at this
          rcases hn.2 with h' | h'
          · exact h' this.2
          · exact b6 h' this.1
        · rw [h] at b3
          rcases hn.2 with h'' | h''
          · exact h'' (t7 h')
          · rcases b3 with b3 | b3
            · exact h'' b3
            · cases b3
        · rcases h with h | h
          · exact b4 h
          · exact b5 h
    · unfold joins at hj; rw [hk] at hj; cases hj
    · unfold joins at hj
      rw [hk] at hj
      rw [h2] at hn
      unfold near at hn
      rcases hB with ⟨b1, b2, _⟩ | ⟨b1, _⟩
      · rw [b1] at hn
        dsimp only at hn
        rw [if_pos rfl, b2 hj] at hn
        exact absurd hn (by decide)
      · rw [b1] at hn
        simp [opHead] at hn
    · unfold joins at hj
      rw [hk] at hj
      rcases hB with ⟨_, _, b3, b4, _⟩ | ⟨b1, _⟩
      · rw [b3, b4] at hj; simp at hj
      · unfold near at hn
        rw [b1] at hn
        have : opHead a = none ∧ a ≠ .string := by
          rcases h2 with ⟨k, hk', h2, h3⟩ | ⟨_, h2⟩
          · rw [h3]
            have := table_names k hk' (by rw [h2]; exact hk)
            exact ⟨this.1, this.2.2⟩
          · rw [h2]; exact ⟨rfl, nofun⟩
        simp [this.1, this.2] at hn
    · rw [h00] at h0
      injection h0 with e1 e2
      rw [← e2, if_pos rfl] at h1
      exact absurd h1 ha.notEof
    · exact absurd h1 ha.notEof

/-- The criterion for any next token is correct. -/
theorem loose_joins {s t : List Char} {c : Char} {a b : TT} (ha : IsToken s a) (hb : IsToken (c :: t) b)
    (hn : loose a = true) : joins s c = false := by
  apply near_joins ha hb
  unfold loose at hn
  simp only [Bool.or_eq_true, decide_eq_true_eq, Bool.and_eq_true] at hn
  unfold near
  rcases hn with hn | ⟨⟨h1, h2⟩, h3⟩
  · rw [hn]; cases opHead b <;> rfl
  · rw [List.isEmpty_iff] at h2
    have : a ≠ .literal := by rintro rfl; exact absurd h1 (by decide)
    cases opHead b with
    | none => simp [h1, h3]
    | some c => simp [this, h2]

end Knfmt.Parse.Spec
