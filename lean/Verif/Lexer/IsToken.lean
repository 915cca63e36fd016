import Verif.Lexer.Joins
/-! # Texts that are tokens (C77)

How to see that a text is a token. -/
namespace Knfmt.Lexer

open Knfmt.Spec

/-- `o` is an operator and not the start of a longer one that is in it. -/
def opCheck (o : List Char) (ty : TT) : Bool :=
  operators.any (· = o) && operators.all (fun o' => !o'.isPrefixOf o || o'.length ≤ o.length) &&
    table.any (fun k => k.1 = o && k.2.1 = ty) && kind o = 0 && ty ≠ .eof &&
    o.head?.any (fun c => !blank c && c ≠ '#')

theorem table_nocomment : ∀ k ∈ table, ¬ ['/', '/'] <+: k.1 ∧ ¬ ['/', '*'] <+: k.1 := by decide +kernel

theorem isToken_op {o : List Char} {ty : TT} (h : opCheck o ty = true) : IsToken o ty := by
  unfold opCheck at h
  simp only [Bool.and_eq_true, List.any_eq_true, List.all_eq_true, decide_eq_true_eq, Bool.or_eq_true,
    Bool.not_eq_true'] at h
  obtain ⟨⟨⟨⟨⟨⟨x, hx, e⟩, h2⟩, k, hk, k1, k2⟩, h4⟩, h5⟩, h6⟩ := h
  rw [e] at hx
  cases o with
  | nil => simp at h6
  | cons c t =>
    simp only [List.head?_cons, Option.any_some, Bool.and_eq_true, Bool.not_eq_true', decide_eq_true_eq] at h6
    have hc := table_nocomment k hk
    rw [k1] at hc
    refine ⟨?_, h5, ⟨c, t, rfl, h6.1, h6.2⟩, hc.1, hc.2⟩
    rw [← k2]
    refine .operator _ _ k ⟨hx, List.prefix_refl _, ?_⟩ ?_ hk k1
    · intro o' ho' hp
      rcases h2 o' ho' with h | h
      · rw [← List.isPrefixOf_iff_prefix, h] at hp; exact absurd hp (by decide)
      · exact h
    · rw [fraction_iff]
      rintro ⟨hf1, hf2⟩
      have e : kind (c :: t) = if isQuote c || (c = 'L' && t.head?.any isQuote) then 1
        else if isDigit c || (c = '.' && t.head?.any isDigit) then 2
        else if identStart c then 3
        else if operators.any fun o => o.isPrefixOf (c :: t) then 0
        else 4 := rfl
      rw [e] at h4
      split at h4
      · omega
      · rw [if_pos (by rw [hf1, hf2]; rfl)] at h4
        omega

theorem takeWhile_all {p : Char → Bool} {l : List Char} (h : l.all p = true) : l.takeWhile p = l := by
  induction l with
  | nil => rfl
  | cons c l ih =>
    simp only [List.all_cons, Bool.and_eq_true] at h
    rw [List.takeWhile_cons_of_pos h.1, ih h.2]

theorem not_blank {p : Char → Bool} {c : Char} (h : p c = true)
    (hp : p ' ' = false ∧ p '\t' = false ∧ p '\x0c' = false ∧ p '\x0b' = false ∧ p '\n' = false ∧ p '\r' = false) :
    blank c = false := by
  cases hb : blank c with
  | false => rfl
  | true =>
    simp only [blank, Bool.or_eq_true, decide_eq_true_eq] at hb
    obtain ⟨a1, a2, a3, a4, a5, a6⟩ := hp
    rcases hb with ((((e | e) | e) | e) | e) | e <;> rw [e] at h
    · exact absurd (a1.symm.trans h) (by decide)
    · exact absurd (a2.symm.trans h) (by decide)
    · exact absurd (a3.symm.trans h) (by decide)
    · exact absurd (a4.symm.trans h) (by decide)
    · exact absurd (a5.symm.trans h) (by decide)
    · exact absurd (a6.symm.trans h) (by decide)

/-- A word that is no keyword. -/
theorem isToken_ident {c : Char} {t : List Char} (h1 : identStart c = true) (h2 : t.all identChar = true)
    (h3 : table.all (fun k => k.1 ≠ c :: t) = true) : IsToken (c :: t) .ident := by
  have ht : t.takeWhile identChar = t := by
    exact takeWhile_all h2
  have hq : ∀ c, identChar c = true → isQuote c = false := by
    intro c h
    cases hq : isQuote c with
    | false => rfl
    | true =>
      have : c = '"' ∨ c = '\'' := by simpa [isQuote] using hq
      rcases this with e | e <;> rw [e] at h <;> exact absurd h (by decide)
  have hc : identChar c = true := by
    unfold identStart at h1; unfold identChar
    simp only [Bool.or_eq_true] at h1 ⊢
    rcases h1 with h | h
    · exact Or.inl (Or.inl h)
    · exact Or.inr h
  have hop : ¬ (isQuote c || (c = 'L' && t.head?.any isQuote)) = true := by
    rw [hq c hc]
    cases t with
    | nil => simp
    | cons d t =>
      simp only [List.all_cons, Bool.and_eq_true] at h2
      simp [hq d h2.1]
  have hno : ∀ d, (d = '#' ∨ d = '/') → c ≠ d := by
    intro d hd e
    rw [e] at h1
    rcases hd with h | h <;> rw [h] at h1 <;> exact absurd h1 (by decide)
  refine ⟨?_, by decide, ⟨c, t, rfl, ?_, hno '#' (Or.inl rfl)⟩, ?_, ?_⟩
  · have := Lexeme.ident c t h1 ?_ ?_
    · rw [ht] at this; exact this
    · intro pre q ho hp
      exact hop ((opens_iff c t).1 ⟨pre, q, ho, hp⟩)
    · rw [ht]
      intro k hk
      have := List.all_eq_true.1 h3 k hk
      simpa using this
  · exact not_blank h1 (by decide)
  · rintro ⟨u, hu⟩
    simp only [List.cons_append, List.cons.injEq] at hu
    exact hno '/' (Or.inr rfl) hu.1.symm
  · rintro ⟨u, hu⟩
    simp only [List.cons_append, List.cons.injEq] at hu
    exact hno '/' (Or.inr rfl) hu.1.symm

/-- A number. -/
theorem isToken_number {c : Char} {t : List Char} (h1 : isDigit c = true) (h2 : t.all isNum = true) :
    IsToken (c :: t) .literal := by
  have ht : t.takeWhile isNum = t := by
    exact takeWhile_all h2
  have hno : ∀ d, isDigit d = false → c ≠ d := by
    intro d hd e
    rw [e, hd] at h1
    exact absurd h1 (by decide)
  refine ⟨?_, by decide, ⟨c, t, rfl, ?_, hno '#' (by decide)⟩, ?_, ?_⟩
  · have := Lexeme.number c t (Or.inl h1)
    rw [ht] at this; exact this
  · exact not_blank h1 (by decide)
  · rintro ⟨u, hu⟩
    simp only [List.cons_append, List.cons.injEq] at hu
    exact hno '/' (by decide) hu.1.symm
  · rintro ⟨u, hu⟩
    simp only [List.cons_append, List.cons.injEq] at hu
    exact hno '/' (by decide) hu.1.symm

/-- A string or character constant without backslashes. -/
theorem isToken_quoted {q : Char} {b : List Char} (hq : q = '"' ∨ q = '\'')
    (hb : b.all (fun c => c ≠ q && c ≠ '\\') = true) :
    IsToken (q :: (b ++ [q])) (if q = '"' then .string else .literal) := by
  have hQ : Quoted q b := by
    induction b with
    | nil => exact .nil
    | cons c b ih =>
      simp only [List.all_cons, Bool.and_eq_true, decide_eq_true_eq] at hb
      exact .plain c b hb.1.1 hb.1.2 (ih hb.2)
  refine ⟨Lexeme.quoted [q] b [] q ⟨Or.inl rfl, hq⟩ hQ, ?_, ⟨q, _, rfl, ?_, ?_⟩, ?_, ?_⟩
  · split <;> decide
  · rcases hq with h | h <;> rw [h] <;> decide
  · rcases hq with h | h <;> rw [h] <;> decide
  · rintro ⟨u, hu⟩
    simp only [List.cons_append, List.cons.injEq] at hu
    rcases hq with h | h <;> rw [h] at hu <;> exact absurd hu.1 (by decide)
  · rintro ⟨u, hu⟩
    simp only [List.cons_append, List.cons.injEq] at hu
    rcases hq with h | h <;> rw [h] at hu <;> exact absurd hu.1 (by decide)

/-- A keyword. -/
theorem isToken_keyword {c : Char} {t : List Char} {ty : TT} (h1 : identStart c = true) (h2 : t.all identChar = true)
    (h3 : table.any (fun k => k.1 = c :: t && k.2.1 = ty) = true) (h4 : ty ≠ .eof) : IsToken (c :: t) ty := by
  have ht : t.takeWhile identChar = t := takeWhile_all h2
  have hno : ∀ d, (d = '#' ∨ d = '/') → c ≠ d := by
    intro d hd e
    rw [e] at h1
    rcases hd with h | h <;> rw [h] at h1 <;> exact absurd h1 (by decide)
  rw [List.any_eq_true] at h3
  obtain ⟨k, hk, h3⟩ := h3
  simp only [Bool.and_eq_true, decide_eq_true_eq] at h3
  refine ⟨?_, h4, ⟨c, t, rfl, not_blank h1 (by decide), hno '#' (Or.inl rfl)⟩, ?_, ?_⟩
  · have := Lexeme.keyword c t k h1 hk (by rw [ht, h3.1])
    rw [ht, h3.2] at this; exact this
  · rintro ⟨u, hu⟩
    simp only [List.cons_append, List.cons.injEq] at hu
    exact hno '/' (Or.inr rfl) hu.1.symm
  · rintro ⟨u, hu⟩
    simp only [List.cons_append, List.cons.injEq] at hu
    exact hno '/' (Or.inr rfl) hu.1.symm

end Knfmt.Lexer
