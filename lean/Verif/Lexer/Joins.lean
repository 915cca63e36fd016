import Verif.Lexer.ReadBack
/-! # When tokens may be written next to each other (C77) -/
namespace Knfmt.Spec

open Knfmt.Lexer

/-- The character `c` right after the token `s` would be taken for a part of it, or start a
comment with it. -/
def joins (s : List Char) (c : Char) : Bool :=
  match kind s with
  | 0 => operators.any (fun o => (s ++ [c]).isPrefixOf o) || (s = ['.'] && isDigit c) ||
      (s = ['/'] && (c = '/' || c = '*'))
  | 1 => false
  | 2 => isNum c
  | 3 => identChar c || (s = ['L'] && isQuote c)
  | _ => true

/-- The text `s` is a token. -/
def IsToken (s : List Char) (ty : TT) : Prop := TokenAt s s ty

/-- What may follow a token: nothing, or a character that does not belong to it. -/
def Ends (s r : List Char) : Prop := ∀ c r', r = c :: r' → joins s c = false

end Knfmt.Spec

namespace Knfmt.Lexer

open Knfmt.Str Knfmt.Util Knfmt.Spec

theorem takeWhile_append_stop {p : Char → Bool} {a r : List Char} (ha : a.takeWhile p = a)
    (hr : ∀ c r', r = c :: r' → p c = false) : (a ++ r).takeWhile p = a := by
  have hall : ∀ c ∈ a, p c = true := by
    rw [← ha]; exact fun c hc => List.all_eq_true.mp List.all_takeWhile c hc
  rw [List.takeWhile_append_of_pos hall]
  cases r with
  | nil => simp
  | cons c r' => rw [List.takeWhile_cons_of_neg (by simp [hr c r' rfl])]; simp

theorem isToken_append {s r : List Char} {ty : TT} (h : IsToken s ty) (hr : Ends s r) :
    TokenAt (s ++ r) s ty := by
  obtain ⟨hl, he, ⟨c0, t0, hs, hb, hh⟩, n1, n2⟩ := h
  have hinv := lexeme_inv hl
  -- no comment
  have hcom : ∀ d, (d = '/' ∨ d = '*') → ¬ ['/', d] <+: s → ¬ ['/', d] <+: s ++ r := by
    intro d hd hn hp
    rw [hs] at hp hn
    cases t0 with
    | cons c1 t1 =>
      apply hn
      obtain ⟨u, hu⟩ := hp
      simp only [List.cons_append, List.nil_append, List.cons.injEq] at hu
      exact ⟨t1, by rw [hu.1, hu.2.1]; rfl⟩
    | nil =>
      obtain ⟨u, hu⟩ := hp
      simp only [List.cons_append, List.nil_append, List.cons.injEq] at hu
      have hc0 := hu.1
      subst hc0
      have := hr d u hu.2.symm
      rw [hs] at this
      have hk : kind ['/'] = 0 := by decide +kernel
      unfold joins at this
      rw [hk] at this
      simp only [Bool.or_eq_false_iff] at this
      rcases hd with rfl | rfl
      · exact absurd this.2 (by decide)
      · exact absurd this.2 (by decide)
  refine ⟨?_, he, ⟨c0, t0, hs, hb, hh⟩, hcom '/' (Or.inl rfl) n1, hcom '*' (Or.inr rfl) n2⟩
  rcases hinv with ⟨k, i1, kk, i2, i3, i4⟩ | ⟨k, i⟩ | ⟨k, c, rest, i1, i2, i3⟩ | ⟨k, c, rest, i1, i2, i3⟩ |
      ⟨k, c, rest, i1, i2, i3⟩ | ⟨k, i1, i2, i3⟩
  · -- operator
    have hj : ∀ c r', r = c :: r' → (∀ o ∈ operators, ¬ (s ++ [c]) <+: o) ∧ (s = ['.'] → isDigit c = false) := by
      intro c r' e
      have := hr c r' e
      unfold joins at this
      rw [k] at this
      simp only [Bool.or_eq_false_iff, List.any_eq_false, Bool.and_eq_false_iff, decide_eq_false_iff_not] at this
      refine ⟨fun o ho hp => this.1.1 o ho (List.isPrefixOf_iff_prefix.mpr hp), fun e => ?_⟩
      rcases this.1.2 with h | h
      · exact absurd e h
      · exact h
    rw [i4]
    refine Lexeme.operator _ _ kk ⟨i1.1, ⟨r, rfl⟩, ?_⟩ ?_ i2 i3
    · intro o ho hp
      rcases Nat.lt_or_ge s.length o.length with hlt | hge
      · exfalso
        cases r with
        | nil => rw [List.append_nil] at hp; have := hp.length_le; omega
        | cons c r' =>
          refine (hj c r' rfl).1 o ho (List.prefix_of_prefix_length_le (⟨r', by simp⟩ : s ++ [c] <+: s ++ c :: r') hp ?_)
          simp; omega
      · exact hge
    · rintro ⟨d, r', e, hd⟩
      rw [hs] at e
      simp only [List.cons_append, List.cons.injEq] at e
      cases t0 with
      | nil =>
        simp only [List.nil_append] at e
        have := (hj d r' e.2).2 (by rw [hs, e.1])
        rw [this] at hd; exact absurd hd (by decide)
      | cons d0 t1 =>
        simp only [List.cons_append, List.cons.injEq] at e
        have hk2 : kind s = 2 := by
          rw [hs, e.1, e.2.1]
          unfold kind
          dsimp only
          rw [if_neg (by simp [isQuote]), if_pos (by simp [hd])]
        rw [hk2] at k; exact absurd k (by decide)
  · rcases i with ⟨pre, body, rest, q, a1, a2, a3, a4, a5⟩ | ⟨pre, body, q, a1, a2, a3, a4, a5⟩
    · have hrest : rest = [] := by
        have := a3.symm.trans a4
        simpa using this
      subst hrest
      rw [a5]
      have e1 : s ++ r = pre ++ (body ++ q :: r) := by rw [a4]; simp
      rw [e1, a4]
      exact Lexeme.quoted pre body r q a1 a2
    · exact absurd a5 he
  · -- number
    have hj : ∀ c r', r = c :: r' → isNum c = false := by
      intro c r' e
      have := hr c r' e
      unfold joins at this
      rw [k] at this; exact this
    have e : rest.takeWhile isNum = rest := by
      have := i1.symm.trans i2
      simp only [List.cons.injEq, true_and] at this
      exact this.symm
    have hx : s ++ r = c :: (rest ++ r) := by rw [i1]; rfl
    have hy : s = c :: (rest ++ r).takeWhile isNum := by
      rw [takeWhile_append_stop e hj]; exact i1
    rw [hx, i3]
    conv => arg 2; rw [hy]
    apply Lexeme.number
    have hk : isDigit c = true ∨ (c = '.' ∧ rest.head?.any isDigit = true) := by
      rw [i1] at k
      unfold kind at k
      dsimp only at k
      split at k
      · exact absurd k (by decide)
      · split at k
        · next h =>
          simp only [Bool.or_eq_true, Bool.and_eq_true, decide_eq_true_eq] at h
          exact h
        · split at k
          · exact absurd k (by decide)
          · split at k <;> exact absurd k (by decide)
    rcases hk with h | ⟨h1, h2⟩
    · exact Or.inl h
    · right
      rw [fraction_iff]
      refine ⟨h1, ?_⟩
      cases rest with
      | nil => simp at h2
      | cons d l => simpa using h2
  · -- identifier
    have hj : ∀ c r', r = c :: r' → identChar c = false ∧ (s = ['L'] → isQuote c = false) := by
      intro c r' e
      have := hr c r' e
      unfold joins at this
      rw [k] at this
      simp only [Bool.or_eq_false_iff, Bool.and_eq_false_iff, decide_eq_false_iff_not] at this
      refine ⟨this.1, fun e => ?_⟩
      rcases this.2 with h | h
      · exact absurd e h
      · exact h
    have e : rest.takeWhile identChar = rest := by
      have := i1.symm.trans i2
      simp only [List.cons.injEq, true_and] at this
      exact this.symm
    have hk : identStart c = true ∧ (isQuote c || (c = 'L' && rest.head?.any isQuote)) = false := by
      rw [i1] at k
      unfold kind at k
      dsimp only at k
      split at k
      · exact absurd k (by decide)
      · next h1 =>
        split at k
        · exact absurd k (by decide)
        · split at k
          · next h => exact ⟨h, by simpa using h1⟩
          · split at k <;> exact absurd k (by decide)
    have hx : s ++ r = c :: (rest ++ r) := by rw [i1]; rfl
    have hy : s = c :: (rest ++ r).takeWhile identChar := by
      rw [takeWhile_append_stop e (fun c r' e => (hj c r' e).1)]; exact i1
    rw [hx]
    rcases i3 with ⟨kk, a1, a2, a3⟩ | ⟨a1, a2⟩
    · rw [a3]
      conv => arg 2; rw [hy]
      exact Lexeme.keyword _ _ kk hk.1 a1 (by rw [a2]; exact hy)
    · rw [a2]
      conv => arg 2; rw [hy]
      refine Lexeme.ident _ _ hk.1 ?_ (fun k' hk' => by rw [← hy]; exact a1 k' hk')
      intro pre q o1 o2
      have := (opens_iff c (rest ++ r)).mp ⟨pre, q, o1, o2⟩
      have hk2 := hk.2
      rw [Bool.or_eq_false_iff] at hk2
      rw [hk2.1, Bool.false_or, Bool.and_eq_true, decide_eq_true_eq] at this
      obtain ⟨t1, t2⟩ := this
      cases rest with
      | nil =>
        cases r with
        | nil => simp at t2
        | cons d r' =>
          have := (hj d r' rfl).2 (by rw [i1, t1])
          simp [this] at t2
      | cons d l =>
        have h3 := hk2.2
        rw [t1] at h3
        simp at h3 t2
        rw [h3] at t2; exact absurd t2 (by decide)
  · rw [i1] at i2
    simp only [List.cons.injEq, true_and] at i2
    rw [i3, if_pos i2] at he
    exact absurd rfl he
  · exact absurd i3 he

theorem operators_noblank : ∀ o ∈ operators, o.all (fun c => !gapChar c) = true := by decide +kernel

/-- White space ends every token. -/
theorem ends_gap {s : List Char} {ty : TT} (h : IsToken s ty) {c : Char} (hc : gapChar c = true) :
    joins s c = false := by
  have hcc : c = ' ' ∨ c = '\t' ∨ c = '\n' := by
    simpa [gapChar, or_assoc] using hc
  have hinv := lexeme_inv h.lexeme
  unfold joins
  rcases hinv with ⟨k, _⟩ | ⟨k, _⟩ | ⟨k, _⟩ | ⟨k, _⟩ | ⟨k, _, _, i1, i2, i3⟩ | ⟨k, i1, i2, i3⟩
  · rw [k]
    simp only [Bool.or_eq_false_iff, List.any_eq_false, Bool.and_eq_false_iff, decide_eq_false_iff_not]
    refine ⟨⟨fun o ho hp => ?_, Or.inr ?_⟩, Or.inr ?_⟩
    · have := operators_noblank o ho
      rw [List.all_eq_true] at this
      have := this c ((List.isPrefixOf_iff_prefix.mp hp).subset (by simp))
      rw [hc] at this; exact absurd this (by decide)
    · rcases hcc with rfl | rfl | rfl <;> decide
    · rcases hcc with rfl | rfl | rfl <;> decide
  · rw [k]; rfl
  · rw [k]; show isNum c = false; rcases hcc with rfl | rfl | rfl <;> decide
  · rw [k]
    simp only [Bool.or_eq_false_iff, Bool.and_eq_false_iff]
    exact ⟨by rcases hcc with rfl | rfl | rfl <;> decide, Or.inr (by rcases hcc with rfl | rfl | rfl <;> decide)⟩
  · rw [i1] at i2
    simp only [List.cons.injEq, true_and] at i2
    exact absurd (by rw [i3, if_pos i2]) h.notEof
  · exact absurd i3 h.notEof

end Knfmt.Lexer
