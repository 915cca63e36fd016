import Verif.Lexer.Theorems
/-! # The lexical rules give one token only (C51) -/
namespace Knfmt.Lexer

open Knfmt.Spec

/-- Quotes. -/
def isQuote (c : Char) : Bool := c = '"' || c = '\''

/-- Which of the lexical rules applies. -/
def kind : List Char → Nat
  | [] => 5
  | c :: rest =>
    if isQuote c || (c = 'L' && rest.head?.any isQuote) then 1
    else if isDigit c || (c = '.' && rest.head?.any isDigit) then 2
    else if identStart c then 3
    else if operators.any fun o => o.isPrefixOf (c :: rest) then 0
    else 4

theorem fraction_iff (c : Char) (rest : List Char) :
    StartsFraction (c :: rest) ↔ c = '.' ∧ rest.head?.any isDigit = true := by
  unfold StartsFraction
  constructor
  · rintro ⟨d, r, h, hd⟩
    simp only [List.cons.injEq] at h
    rw [h.1, h.2]
    exact ⟨rfl, by simpa using hd⟩
  · rintro ⟨h1, h2⟩
    cases rest with
    | nil => simp at h2
    | cons d r => exact ⟨d, r, by rw [h1], by simpa using h2⟩

theorem opens_iff (c : Char) (rest : List Char) :
    (∃ pre q, Opens pre q ∧ pre <+: c :: rest) ↔
      (isQuote c || (c = 'L' && rest.head?.any isQuote)) = true := by
  constructor
  · rintro ⟨pre, q, ⟨h1, h2⟩, t, ht⟩
    have hq : isQuote q = true := by rcases h2 with h | h <;> rw [h] <;> decide
    rcases h1 with rfl | rfl
    · simp only [List.cons_append, List.cons.injEq] at ht
      rw [← ht.1, hq]; rfl
    · simp only [List.cons_append, List.nil_append, List.cons.injEq] at ht
      rw [← ht.1, ← ht.2]; simp [hq]
  · intro h
    have hq : ∀ q, isQuote q = true → q = '"' ∨ q = '\'' := by
      intro q h; simpa [isQuote] using h
    rw [Bool.or_eq_true] at h
    rcases h with h | h
    · exact ⟨[c], c, ⟨Or.inl rfl, hq c h⟩, ⟨rest, rfl⟩⟩
    · rw [Bool.and_eq_true, decide_eq_true_eq] at h
      cases rest with
      | nil => simp at h
      | cons q r =>
        exact ⟨['L', q], q, ⟨Or.inr rfl, hq q (by simpa using h.2)⟩, ⟨r, by rw [h.1]; rfl⟩⟩

theorem operators_first : ∀ o ∈ operators, o.head?.any (fun c => isQuote c || isDigit c || identStart c || c = 'L') = false := by
  decide +kernel

theorem table_unique : ∀ k ∈ table, ∀ k' ∈ table, k.1 = k'.1 → k.2.1 = k'.2.1 := by
  decide +kernel

theorem table_L : ∀ k ∈ table, k.1 ≠ ['L'] := by decide +kernel

theorem table_quote : ∀ k ∈ table, k.1.head?.any isQuote = false := by decide +kernel

/-- Every rule, with what it says about the characters. -/
theorem lexeme_inv {r s : List Char} {t : TT} (h : Lexeme r s t) :
    (kind r = 0 ∧ LongestOperator r s ∧ ∃ k ∈ table, k.1 = s ∧ t = k.2.1) ∨
    (kind r = 1 ∧ ((∃ pre body rest q, Opens pre q ∧ Quoted q body ∧ r = pre ++ (body ++ q :: rest) ∧
        s = pre ++ (body ++ [q]) ∧ t = if q = '"' then .string else .literal) ∨
      (∃ pre body q, Opens pre q ∧ (∀ b rest, body = b ++ q :: rest → ¬ Quoted q b) ∧ r = pre ++ body ∧
        s = r ∧ t = .eof))) ∨
    (kind r = 2 ∧ ∃ c rest, r = c :: rest ∧ s = c :: rest.takeWhile isNum ∧ t = .literal) ∨
    (kind r = 3 ∧ ∃ c rest, r = c :: rest ∧ s = c :: rest.takeWhile identChar ∧
      ((∃ k ∈ table, k.1 = s ∧ t = k.2.1) ∨ ((∀ k ∈ table, k.1 ≠ s) ∧ t = .ident))) ∨
    (kind r = 4 ∧ ∃ c rest, r = c :: rest ∧ s = [c] ∧ t = if rest = [] then .eof else .kNone) ∨
    (kind r = 5 ∧ r = [] ∧ s = [] ∧ t = .eof) := by
  have hstart : ∀ (c : Char), identStart c = true → isQuote c = false ∧ isDigit c = false ∧ c ≠ '.' := by
    intro c hc
    refine ⟨?_, ?_, ?_⟩
    · cases hq : isQuote c with
      | false => rfl
      | true =>
        simp only [isQuote, Bool.or_eq_true, decide_eq_true_eq] at hq
        rcases hq with h | h <;> rw [h] at hc <;> exact absurd hc (by decide)
    · cases hd : isDigit c with
      | false => rfl
      | true =>
        simp only [isDigit, identStart, isAlpha, isUpper, isLower, Bool.or_eq_true, Bool.and_eq_true,
          decide_eq_true_eq] at hd hc
        have e : 'A'.toNat = 65 := rfl
        have e1 : 'Z'.toNat = 90 := rfl
        have e2 : 'a'.toNat = 97 := rfl
        have e3 : 'z'.toNat = 122 := rfl
        have e4 : '0'.toNat = 48 := rfl
        have e5 : '9'.toNat = 57 := rfl
        rcases hc with (h | h) | h
        · omega
        · omega
        · rw [h] at hd; exact absurd hd (by decide)
    · intro h; rw [h] at hc; exact absurd hc (by decide)
  cases h with
  | operator _ _ k h1 h2 h3 h4 =>
    left
    refine ⟨?_, h1, k, h3, h4, rfl⟩
    obtain ⟨ho, hp, _⟩ := h1
    cases r with
    | nil => exact absurd (List.prefix_nil.mp hp) (operators_nonempty _ ho)
    | cons c rest =>
      have hc : s.head? = some c := by
        cases s with
        | nil => exact absurd rfl (operators_nonempty _ ho)
        | cons x s => simp only [List.cons_prefix_cons] at hp; rw [hp.1]; rfl
      have hf := operators_first s ho
      rw [hc] at hf
      simp only [Option.any_some, Bool.or_eq_false_iff, decide_eq_false_iff_not] at hf
      obtain ⟨⟨⟨f1, f2⟩, f3⟩, f4⟩ := hf
      rw [fraction_iff] at h2
      have hany : operators.any (fun o => o.isPrefixOf (c :: rest)) = true := by
        rw [List.any_eq_true]
        exact ⟨s, ho, List.isPrefixOf_iff_prefix.mpr hp⟩
      unfold kind
      dsimp only
      rw [if_neg (by simp [f1, f4]), if_neg (by rw [f2]; simpa using h2), if_neg (by simp [f3]),
        if_pos hany]
  | quoted pre body rest q h1 h2 =>
    right; left
    refine ⟨?_, Or.inl ⟨pre, body, rest, q, h1, h2, rfl, rfl, rfl⟩⟩
    cases hr : pre ++ (body ++ q :: rest) with
    | nil => simp at hr
    | cons c tl =>
      have := (opens_iff c tl).mp ⟨pre, q, h1, ⟨body ++ q :: rest, hr⟩⟩
      unfold kind; dsimp only; rw [if_pos this]
  | openQuote pre body q h1 h2 =>
    right; left
    refine ⟨?_, Or.inr ⟨pre, body, q, h1, h2, rfl, rfl, rfl⟩⟩
    cases hr : pre ++ body with
    | nil =>
      obtain ⟨h, _⟩ := h1
      rcases h with rfl | rfl <;> simp at hr
    | cons c tl =>
      have := (opens_iff c tl).mp ⟨pre, q, h1, ⟨body, hr⟩⟩
      unfold kind; dsimp only; rw [if_pos this]
  | number c rest h1 =>
    right; right; left
    refine ⟨?_, c, rest, rfl, rfl, rfl⟩
    rw [fraction_iff] at h1
    have hq : (isQuote c || (c = 'L' && rest.head?.any isQuote)) = false := by
      rcases h1 with h | h
      · have : isQuote c = false ∧ c ≠ 'L' := by
          constructor
          · cases hq : isQuote c with
            | false => rfl
            | true =>
              simp only [isQuote, Bool.or_eq_true, decide_eq_true_eq] at hq
              rcases hq with h' | h' <;> rw [h'] at h <;> exact absurd h (by decide)
          · intro h'; rw [h'] at h; exact absurd h (by decide)
        simp [this.1, this.2]
      · rw [h.1]; simp [isQuote]
    unfold kind
    dsimp only
    rw [if_neg (by rw [hq]; decide), if_pos]
    rcases h1 with h | h
    · rw [h]; rfl
    · rw [h.1, h.2]; rfl
  | keyword c rest k h1 h2 h3 =>
    right; right; right; left
    refine ⟨?_, c, rest, rfl, rfl, Or.inl ⟨k, h2, h3, rfl⟩⟩
    obtain ⟨f1, f2, f3⟩ := hstart c h1
    have hq : (isQuote c || (c = 'L' && rest.head?.any isQuote)) = false := by
      rw [f1, Bool.false_or]
      cases hx : (c = 'L' && rest.head?.any isQuote : Bool) with
      | false => rfl
      | true =>
        exfalso
        rw [Bool.and_eq_true, decide_eq_true_eq] at hx
        cases rest with
        | nil => simp at hx
        | cons q r =>
          have hq : isQuote q = true := by simpa using hx.2
          refine table_L k h2 ?_
          rw [h3, hx.1, List.takeWhile_cons_of_neg]
          simp only [isQuote, Bool.or_eq_true, decide_eq_true_eq] at hq
          rcases hq with h | h <;> rw [h] <;> decide
    unfold kind
    dsimp only
    rw [if_neg (by rw [hq]; decide), if_neg (by simp [f2, f3]), if_pos h1]
  | ident c rest h1 h2 h3 =>
    right; right; right; left
    refine ⟨?_, c, rest, rfl, rfl, Or.inr ⟨h3, rfl⟩⟩
    obtain ⟨f1, f2, f3⟩ := hstart c h1
    have hq : ¬ (isQuote c || (c = 'L' && rest.head?.any isQuote)) = true := by
      rw [← opens_iff]
      rintro ⟨pre, q, a, b⟩
      exact h2 pre q a b
    unfold kind
    dsimp only
    rw [if_neg hq, if_neg (by simp [f2, f3]), if_pos h1]
  | other c d rest h1 h2 h3 h4 h5 =>
    right; right; right; right; left
    refine ⟨?_, c, d :: rest, rfl, rfl, by simp⟩
    have hL : c ≠ 'L' := by intro h; rw [h] at h3; exact absurd h3 (by decide)
    have hdot : c ≠ '.' := by
      intro h; exact h1 ['.'] (by decide +kernel) (by rw [h]; exact ⟨_, rfl⟩)
    have hany : ¬ operators.any (fun o => o.isPrefixOf (c :: d :: rest)) = true := by
      rw [List.any_eq_true]
      rintro ⟨o, ho, hp⟩
      exact h1 o ho (List.isPrefixOf_iff_prefix.mp hp)
    unfold kind
    dsimp only
    rw [if_neg (by simp [isQuote, h4, h5, hL]), if_neg (by simp [h2, hdot]), if_neg (by simp [h3]), if_neg hany]
  | eof => right; right; right; right; right; exact ⟨rfl, rfl, rfl, rfl⟩
  | otherLast c h1 h2 h3 h4 h5 =>
    right; right; right; right; left
    refine ⟨?_, c, [], rfl, rfl, by simp⟩
    have hany : ¬ operators.any (fun o => o.isPrefixOf [c]) = true := by
      rw [List.any_eq_true]
      rintro ⟨o, ho, hp⟩
      exact h1 o ho (List.isPrefixOf_iff_prefix.mp hp)
    unfold kind
    dsimp only
    rw [if_neg (by simp [isQuote, h4, h5]), if_neg (by simp [h2]), if_neg (by simp [h3]), if_neg hany]

theorem quoted_split {q : Char} {a b x y : List Char} (ha : Quoted q a) (hb : Quoted q b)
    (h : a ++ q :: x = b ++ q :: y) (hq : q ≠ '\\') : a = b := by
  induction ha generalizing b with
  | nil =>
    cases hb with
    | nil => rfl
    | plain c s h1 h2 h3 =>
      simp only [List.nil_append, List.cons_append, List.cons.injEq] at h
      exact absurd h.1.symm h1
    | escape c s h1 =>
      simp only [List.nil_append, List.cons_append, List.cons.injEq] at h
      exact absurd h.1 hq
  | plain c s h1 h2 h3 ih =>
    cases hb with
    | nil =>
      simp only [List.nil_append, List.cons_append, List.cons.injEq] at h
      exact absurd h.1 h1
    | plain c' s' h1' h2' h3' =>
      simp only [List.cons_append, List.cons.injEq] at h
      rw [h.1, ih h3' h.2]
    | escape c' s' h1' =>
      simp only [List.cons_append, List.cons.injEq] at h
      exact absurd h.1 h2
  | escape c s h1 ih =>
    cases hb with
    | nil =>
      simp only [List.nil_append, List.cons_append, List.cons.injEq] at h
      exact absurd h.1.symm hq
    | plain c' s' h1' h2' h3' =>
      simp only [List.cons_append, List.cons.injEq] at h
      exact absurd h.1.symm h2'
    | escape c' s' h1' =>
      simp only [List.cons_append, List.cons.injEq, true_and] at h
      rw [h.1, ih h1' h.2]

theorem opens_unique {pre pre' x y : List Char} {q q' : Char} (h : Opens pre q) (h' : Opens pre' q')
    (e : pre ++ x = pre' ++ y) : pre = pre' ∧ q = q' ∧ x = y := by
  obtain ⟨h1, h2⟩ := h
  obtain ⟨h1', h2'⟩ := h'
  have hL : 'L' ≠ '"' ∧ 'L' ≠ '\'' := by decide
  rcases h1 with rfl | rfl <;> rcases h1' with rfl | rfl <;>
    simp only [List.cons_append, List.nil_append, List.cons.injEq] at e
  · exact ⟨by rw [e.1], e.1, e.2⟩
  · rw [e.1] at h2; rcases h2 with h | h
    · exact absurd h hL.1
    · exact absurd h hL.2
  · rw [← e.1] at h2'; rcases h2' with h | h
    · exact absurd h hL.1
    · exact absurd h hL.2
  · exact ⟨by rw [e.2.1], e.2.1, e.2.2⟩

theorem opens_ne {pre : List Char} {q : Char} (h : Opens pre q) : q ≠ '\\' := by
  rcases h.2 with h | h <;> rw [h] <;> decide

/-- C51: no two tokens can be read at the same position. -/
theorem lexeme_unique {r s s' : List Char} {t t' : TT} (h : Lexeme r s t) (h' : Lexeme r s' t') :
    s = s' ∧ t = t' := by
  have i := lexeme_inv h
  have j := lexeme_inv h'
  rcases i with ⟨k, i1, i2⟩ | ⟨k, i⟩ | ⟨k, c, rest, i1, i2, i3⟩ | ⟨k, c, rest, i1, i2, i3⟩ |
      ⟨k, c, rest, i1, i2, i3⟩ | ⟨k, i1, i2, i3⟩ <;>
    rcases j with ⟨k', j1, j2⟩ | ⟨k', j⟩ | ⟨k', c', rest', j1, j2, j3⟩ | ⟨k', c', rest', j1, j2, j3⟩ |
      ⟨k', c', rest', j1, j2, j3⟩ | ⟨k', j1, j2, j3⟩ <;>
    first
    | (exfalso; rw [k] at k'; exact absurd k' (by decide))
    | skip
  · have hl : s = s' := by
      have e1 := i1.2.2 s' j1.1 j1.2.1
      have e2 := j1.2.2 s i1.1 i1.2.1
      exact (List.prefix_of_prefix_length_le i1.2.1 j1.2.1 e2).eq_of_length (by omega)
    obtain ⟨a, a1, a2, a3⟩ := i2
    obtain ⟨b, b1, b2, b3⟩ := j2
    exact ⟨hl, by rw [a3, b3]; exact table_unique a a1 b b1 (by rw [a2, b2, hl])⟩
  · rcases i with ⟨pre, body, rest, q, a1, a2, a3, a4, a5⟩ | ⟨pre, body, q, a1, a2, a3, a4, a5⟩ <;>
      rcases j with ⟨pre', body', rest', q', b1, b2, b3, b4, b5⟩ | ⟨pre', body', q', b1, b2, b3, b4, b5⟩
    · obtain ⟨e1, e2, e3⟩ := opens_unique a1 b1 (a3.symm.trans b3)
      subst e2
      have := quoted_split a2 b2 e3 (opens_ne a1)
      exact ⟨by rw [a4, b4, e1, this], by rw [a5, b5]⟩
    · obtain ⟨e1, e2, e3⟩ := opens_unique a1 b1 (a3.symm.trans b3)
      subst e2
      exact absurd a2 (b2 _ _ e3.symm)
    · obtain ⟨e1, e2, e3⟩ := opens_unique a1 b1 (a3.symm.trans b3)
      subst e2
      exact absurd b2 (a2 _ _ e3)
    · exact ⟨by rw [a4, b4], by rw [a5, b5]⟩
  · rw [i1] at j1
    simp only [List.cons.injEq] at j1
    exact ⟨by rw [i2, j2, j1.1, j1.2], by rw [i3, j3]⟩
  · rw [i1] at j1
    simp only [List.cons.injEq] at j1
    have hs : s = s' := by rw [i2, j2, j1.1, j1.2]
    refine ⟨hs, ?_⟩
    rcases i3 with ⟨a, a1, a2, a3⟩ | ⟨a1, a2⟩ <;> rcases j3 with ⟨b, b1, b2, b3⟩ | ⟨b1, b2⟩
    · rw [a3, b3]; exact table_unique a a1 b b1 (by rw [a2, b2, hs])
    · exact absurd (a2.trans hs) (b1 a a1)
    · exact absurd (b2.trans hs.symm) (a1 b b1)
    · rw [a2, b2]
  · rw [i1] at j1
    simp only [List.cons.injEq] at j1
    exact ⟨by rw [i2, j2, j1.1], by rw [i3, j3, j1.2]⟩
  · exact ⟨by rw [i2, j2], by rw [i3, j3]⟩

end Knfmt.Lexer
