import Verif.Expr.Meaning
/-!
# Constants and string literals are single tokens (C78)
-/
namespace Knfmt.Spec
open Knfmt.Lexer

/-! ## Specification: constants and string literals, C11 6.4.4 and 6.4.5 -/

def octals : List Char := ['0', '1', '2', '3', '4', '5', '6', '7']
def digits : List Char := octals ++ ['8', '9']
def hexals : List Char := digits ++ ['a', 'b', 'c', 'd', 'e', 'f', 'A', 'B', 'C', 'D', 'E', 'F']

/-- All of the characters are of a kind. -/
def Of (p s : List Char) : Prop := ∀ c ∈ s, c ∈ p

/-- One or more characters of a kind. -/
def Some1 (p s : List Char) : Prop := s ≠ [] ∧ Of p s

/-- integer-suffix -/
def intSuffixes : List (List Char) :=
  let u := [['u'], ['U']]
  let l := [['l'], ['L'], ['l', 'l'], ['L', 'L']]
  [[]] ++ u ++ l ++ u.flatMap (fun a => l.map (a ++ ·)) ++ l.flatMap (fun a => u.map (a ++ ·))

/-- floating-suffix -/
def floatSuffixes : List (List Char) := [[], ['f'], ['F'], ['l'], ['L']]

/-- sign -/
def signs : List (List Char) := [[], ['+'], ['-']]

/-- exponent-part and binary-exponent-part: a letter, maybe a sign, digits -/
inductive Exponent (letters : List Char) : List Char → Prop
  | mk (e : Char) (sign ds : List Char) : e ∈ letters → sign ∈ signs → Some1 digits ds →
      Exponent letters (e :: (sign ++ ds))

/-- fractional-constant and hexadecimal-fractional-constant: a period with digits on a side -/
inductive Fraction (p : List Char) : List Char → Prop
  | right (a b : List Char) : Of p a → Some1 p b → Fraction p (a ++ '.' :: b)
  | left (a : List Char) : Some1 p a → Fraction p (a ++ ['.'])

/-- integer-constant and floating-constant, C11 6.4.4.1 and 6.4.4.2 -/
inductive Constant : List Char → Prop
  | decimal (c : Char) (ds sfx : List Char) : c ∈ digits → c ≠ '0' → Of digits ds →
      sfx ∈ intSuffixes → Constant (c :: (ds ++ sfx))
  | octal (ds sfx : List Char) : Of octals ds → sfx ∈ intSuffixes → Constant ('0' :: (ds ++ sfx))
  | hex (x : Char) (ds sfx : List Char) : x = 'x' ∨ x = 'X' → Some1 hexals ds → sfx ∈ intSuffixes →
      Constant ('0' :: x :: (ds ++ sfx))
  | fraction (f e sfx : List Char) : Fraction digits f → (e = [] ∨ Exponent ['e', 'E'] e) → sfx ∈ floatSuffixes →
      Constant (f ++ (e ++ sfx))
  | exponent (ds e sfx : List Char) : Some1 digits ds → Exponent ['e', 'E'] e → sfx ∈ floatSuffixes →
      Constant (ds ++ (e ++ sfx))
  | hexFraction (x : Char) (f e sfx : List Char) : x = 'x' ∨ x = 'X' → Fraction hexals f → Exponent ['p', 'P'] e →
      sfx ∈ floatSuffixes → Constant ('0' :: x :: (f ++ (e ++ sfx)))
  | hexExponent (x : Char) (ds e sfx : List Char) : x = 'x' ∨ x = 'X' → Some1 hexals ds → Exponent ['p', 'P'] e →
      sfx ∈ floatSuffixes → Constant ('0' :: x :: (ds ++ (e ++ sfx)))

/-- encoding-prefix; `u8` is for strings only -/
def prefixes (q : Char) : List (List Char) := [[], ['L'], ['u'], ['U']] ++ (if q = '"' then [['u', '8']] else [])

/-- string-literal and character-constant: in the quotes any characters but the quote, the backslash and
the new line, and escape sequences, which are a backslash and some other characters -/
inductive Literal : List Char → Prop
  | mk (q : Char) (pre body : List Char) : q = '"' ∨ q = '\'' → pre ∈ prefixes q → Quoted q body →
      '\n' ∉ body → Literal (pre ++ q :: (body ++ [q]))

end Knfmt.Spec

namespace Knfmt.Lexer
open Knfmt.Spec

/-- Characters of constants. -/
def constChars : List Char := hexals ++ ['.', 'x', 'X', 'u', 'U', 'l', 'L', '+', '-', 'p', 'P']

theorem constChars_num : ∀ c ∈ constChars, isNum c = true ∨ c ∈ ['+', '-', 'p', 'P'] := by decide

theorem digits_digit : ∀ c ∈ digits, isDigit c = true := by decide

theorem of_append {p a b : List Char} (ha : Of p a) (hb : Of p b) : Of p (a ++ b) := by
  intro c hc
  rcases List.mem_append.1 hc with h | h
  · exact ha c h
  · exact hb c h

theorem of_cons {p b : List Char} {c : Char} (ha : c ∈ p) (hb : Of p b) : Of p (c :: b) :=
  of_append (a := [c]) (fun _ h => by rw [List.mem_singleton.1 h]; exact ha) hb

theorem of_mono {p q s : List Char} (h : Of p s) (hpq : ∀ c ∈ p, c ∈ q) : Of q s := fun c hc => hpq c (h c hc)

theorem octals_const : ∀ c ∈ octals, c ∈ constChars := by decide
theorem digits_const : ∀ c ∈ digits, c ∈ constChars := by decide
theorem hexals_const : ∀ c ∈ hexals, c ∈ constChars := by decide
theorem intSuffixes_const : ∀ s ∈ intSuffixes, Of constChars s := by unfold Of; decide
theorem floatSuffixes_const : ∀ s ∈ floatSuffixes, Of constChars s := by unfold Of; decide
theorem signs_const : ∀ s ∈ signs, Of constChars s := by unfold Of; decide

theorem exponent_const {l s : List Char} (h : Exponent l s) (hl : ∀ c ∈ l, c ∈ constChars) : Of constChars s := by
  obtain ⟨e, sign, ds, h1, h2, h3⟩ := h
  exact of_cons (hl e h1) (of_append (signs_const _ h2) (of_mono h3.2 digits_const))

theorem fraction_const {l s : List Char} (h : Fraction l s) (hl : ∀ c ∈ l, c ∈ constChars) : Of constChars s := by
  cases h with
  | right a b h1 h2 => exact of_append (of_mono h1 hl) (of_cons (by decide) (of_mono h2.2 hl))
  | left a h => exact of_append (of_mono h.2 hl) (of_cons (by decide) (fun _ h => by simp at h))

theorem x_const {x : Char} (h : x = 'x' ∨ x = 'X') : x ∈ constChars := by
  rcases h with h | h <;> rw [h] <;> decide

/-- The characters of a constant, and how it begins. -/
theorem constant_chars {s : List Char} (h : Constant s) : Of constChars s ∧
    ∃ c t, s = c :: t ∧ (isDigit c = true ∨ StartsFraction s) := by
  have dig : ∀ (ds r : List Char), Some1 digits ds → ∃ c t, ds ++ r = c :: t ∧ (isDigit c = true ∨ StartsFraction (ds ++ r)) := by
    intro ds r h
    cases ds with
    | nil => exact absurd rfl h.1
    | cons d ds => exact ⟨d, ds ++ r, rfl, Or.inl (digits_digit d (h.2 d (by simp)))⟩
  cases h with
  | decimal c ds sfx h1 h2 h3 h4 =>
    exact ⟨of_cons (digits_const c h1) (of_append (of_mono h3 digits_const) (intSuffixes_const _ h4)),
      _, _, rfl, Or.inl (digits_digit c h1)⟩
  | octal ds sfx h1 h2 =>
    exact ⟨of_cons (by decide) (of_append (of_mono h1 octals_const) (intSuffixes_const _ h2)),
      _, _, rfl, Or.inl (by decide)⟩
  | hex x ds sfx h1 h2 h3 =>
    exact ⟨of_cons (by decide) (of_cons (x_const h1) (of_append (of_mono h2.2 hexals_const) (intSuffixes_const _ h3))),
      _, _, rfl, Or.inl (by decide)⟩
  | fraction f e sfx h1 h2 h3 =>
    refine ⟨of_append (fraction_const h1 digits_const) (of_append ?_ (floatSuffixes_const _ h3)), ?_⟩
    · rcases h2 with h | h
      · rw [h]; exact fun _ h => by simp at h
      · exact exponent_const h (by decide)
    · cases h1 with
      | right a b h1 h2 =>
        cases a with
        | cons d a => exact ⟨d, _, rfl, Or.inl (digits_digit d (h1 d (by simp)))⟩
        | nil =>
          cases b with
          | nil => exact absurd rfl h2.1
          | cons d b => exact ⟨_, _, rfl, Or.inr ⟨d, _, rfl, digits_digit d (h2.2 d (by simp))⟩⟩
      | left a h1 =>
        rw [List.append_assoc]
        exact dig a _ h1
  | exponent ds e sfx h1 h2 h3 =>
    exact ⟨of_append (of_mono h1.2 digits_const) (of_append (exponent_const h2 (by decide)) (floatSuffixes_const _ h3)),
      dig _ _ h1⟩
  | hexFraction x f e sfx h1 h2 h3 h4 =>
    exact ⟨of_cons (by decide) (of_cons (x_const h1) (of_append (fraction_const h2 hexals_const)
      (of_append (exponent_const h3 (by decide)) (floatSuffixes_const _ h4)))), _, _, rfl, Or.inl (by decide)⟩
  | hexExponent x ds e sfx h1 h2 h3 h4 =>
    exact ⟨of_cons (by decide) (of_cons (x_const h1) (of_append (of_mono h2.2 hexals_const)
      (of_append (exponent_const h3 (by decide)) (floatSuffixes_const _ h4)))), _, _, rfl, Or.inl (by decide)⟩

theorem number_token {s : List Char} (h : ∃ c t, s = c :: t ∧ (isDigit c = true ∨ StartsFraction s))
    (ha : ∀ c ∈ s, isNum c = true) : IsToken s .literal := by
  obtain ⟨c, t, rfl, h1⟩ := h
  have ht : t.takeWhile isNum = t := takeWhile_all (List.all_eq_true.2 fun c hc => ha c (by simp [hc]))
  have hc := ha c (by simp)
  have hno : ∀ d, isNum d = false → c ≠ d := by
    intro d hd e
    rw [e, hd] at hc
    exact absurd hc (by decide)
  refine ⟨?_, by decide, ⟨c, t, rfl, not_blank hc (by decide), hno '#' (by decide)⟩, ?_, ?_⟩
  · have := Lexeme.number c t h1
    rw [ht] at this; exact this
  · rintro ⟨u, hu⟩
    simp only [List.cons_append, List.cons.injEq] at hu
    exact hno '/' (by decide) hu.1.symm
  · rintro ⟨u, hu⟩
    simp only [List.cons_append, List.cons.injEq] at hu
    exact hno '/' (by decide) hu.1.symm

/-- A constant without the sign of an exponent and without a binary exponent is one token. -/
theorem constant_token_partial {s : List Char} (h : Constant s) (hs : ∀ c ∈ s, c ∉ ['+', '-', 'p', 'P']) :
    IsToken s .literal := by
  obtain ⟨h1, h2⟩ := constant_chars h
  refine number_token h2 ?_
  intro c hc
  rcases constChars_num c (h1 c hc) with h | h
  · exact h
  · exact absurd h (hs c hc)

/-- A string literal or character constant without prefix, or with the prefix `L`, is one token. -/
theorem literal_token_partial {s : List Char} (h : Literal s) (hs : s.head? ≠ some 'u' ∧ s.head? ≠ some 'U') :
    IsToken s .string ∨ IsToken s .literal := by
  obtain ⟨q, pre, body, h1, h2, h3, _⟩ := h
  have hpre : pre = [] ∨ pre = ['L'] := by
    have : pre = [] ∨ pre = ['L'] ∨ pre.head? = some 'u' ∨ pre.head? = some 'U' := by
      unfold prefixes at h2
      simp only [List.mem_append, List.mem_cons, List.not_mem_nil, or_false] at h2
      rcases h2 with (h | h | h | h) | h
      · exact Or.inl h
      · exact Or.inr (Or.inl h)
      · rw [h]; simp
      · rw [h]; simp
      · split at h
        · simp only [List.mem_singleton] at h; rw [h]; simp
        · simp at h
    rcases this with h | h | h | h
    · exact Or.inl h
    · exact Or.inr h
    · exact absurd (by rw [List.head?_append, h]; rfl) hs.1
    · exact absurd (by rw [List.head?_append, h]; rfl) hs.2
  have hop : Opens (pre ++ [q]) q := by
    rcases hpre with h | h <;> rw [h]
    · exact ⟨Or.inl rfl, h1⟩
    · exact ⟨Or.inr rfl, h1⟩
  have hlex := Lexeme.quoted (pre ++ [q]) body [] q hop h3
  have e : pre ++ q :: (body ++ [q]) = (pre ++ [q]) ++ (body ++ [q]) := by simp
  have hfirst : ∃ c t, pre ++ q :: (body ++ [q]) = c :: t ∧ (c = q ∨ c = 'L') := by
    rcases hpre with h | h <;> rw [h]
    · exact ⟨_, _, rfl, Or.inl rfl⟩
    · exact ⟨_, _, rfl, Or.inr rfl⟩
  have hq : ∀ c, c = q ∨ c = 'L' → blank c = false ∧ c ≠ '#' ∧ c ≠ '/' := by
    intro c hc
    rcases hc with hc | hc
    · rw [hc]; rcases h1 with h | h <;> rw [h] <;> decide
    · rw [hc]; decide
  have main : ∀ ty, Lexeme (pre ++ q :: (body ++ [q])) (pre ++ q :: (body ++ [q])) ty → ty ≠ .eof →
      IsToken (pre ++ q :: (body ++ [q])) ty := by
    intro ty hl hne
    obtain ⟨c, t, hct, hc⟩ := hfirst
    obtain ⟨b1, b2, b3⟩ := hq c hc
    refine ⟨hl, hne, ⟨c, t, hct, b1, b2⟩, ?_, ?_⟩
    · rw [hct]; rintro ⟨u, hu⟩
      simp only [List.cons_append, List.cons.injEq] at hu
      exact b3 hu.1.symm
    · rw [hct]; rintro ⟨u, hu⟩
      simp only [List.cons_append, List.cons.injEq] at hu
      exact b3 hu.1.symm
  rw [← e] at hlex
  split at hlex
  · exact Or.inl (main _ hlex (by decide))
  · exact Or.inr (main _ hlex (by decide))

/-- Tokens with a blank after each of them. -/
theorem spelled_blank (ts : List (List Char × TT)) (h : ∀ x ∈ ts, IsToken x.1 x.2) :
    Spelled (ts.flatMap fun x => x.1 ++ [' ']) ts := by
  have main : ∀ (b : List Char), (∀ c ∈ b, gapChar c = true) → Spelled (b ++ ts.flatMap fun x => x.1 ++ [' ']) ts := by
    induction ts with
    | nil => intro b hb; rw [List.flatMap_nil, List.append_nil]; exact .nil b hb
    | cons x ts ih =>
      intro b hb
      rw [List.flatMap_cons, List.append_assoc]
      refine .cons b x.1 _ x.2 ts hb (isToken_append (h x (by simp)) ?_) (ih (fun y hy => h y (by simp [hy])) [' '] ?_)
      · intro c r' hc
        simp only [List.cons_append, List.nil_append, List.cons.injEq] at hc
        rw [← hc.1]
        exact ends_gap (h x (by simp)) (by decide)
      · intro c hc; rw [List.mem_singleton.1 hc]; decide
  exact main [] (by simp)

/-- **C78** `constants_read_partial`: constants and string literals, with blanks in between, are
read as just as many tokens. Missing are those for which it is false: constants with the sign of an exponent
or with a binary exponent, and literals with a prefix other than `L`. -/
theorem constants_read_partial (cs : List (List Char)) (cx : Ctx)
    (h : ∀ s ∈ cs, (Constant s ∧ ∀ c ∈ s, c ∉ ['+', '-', 'p', 'P']) ∨
      (Literal s ∧ s.head? ≠ some 'u' ∧ s.head? ≠ some 'U')) (text : List Char)
    (ht : text = cs.flatMap fun s => s ++ [' ']) :
    (tokenizeLoop text cx init).2.map (fun t => t.tok.str.text text) = cs.map some ++ [some []] ∧
    ∀ t ∈ (tokenizeLoop text cx init).2.dropLast, t.tok.type = .literal ∨ t.tok.type = .string := by
  have hty : ∃ ts : List (List Char × TT), ts.map (·.1) = cs ∧ (∀ x ∈ ts, IsToken x.1 x.2) ∧
      ∀ x ∈ ts, x.2 = .literal ∨ x.2 = .string := by
    clear ht
    induction cs with
    | nil => exact ⟨[], rfl, by simp, by simp⟩
    | cons s cs ih =>
      obtain ⟨ts, h1, h2, h3⟩ := ih fun x hx => h x (by simp [hx])
      have : ∃ ty, IsToken s ty ∧ (ty = .literal ∨ ty = .string) := by
        rcases h s (by simp) with ⟨a, b⟩ | ⟨a, b⟩
        · exact ⟨_, constant_token_partial a b, Or.inl rfl⟩
        · rcases literal_token_partial a b with h | h
          · exact ⟨_, h, Or.inr rfl⟩
          · exact ⟨_, h, Or.inl rfl⟩
      obtain ⟨ty, g1, g2⟩ := this
      refine ⟨(s, ty) :: ts, by rw [List.map_cons, h1], ?_, ?_⟩
      · intro x hx
        rcases List.mem_cons.1 hx with hx | hx
        · rw [hx]; exact g1
        · exact h2 x hx
      · intro x hx
        rcases List.mem_cons.1 hx with hx | hx
        · rw [hx]; exact g2
        · exact h3 x hx
  obtain ⟨ts, h1, h2, h3⟩ := hty
  have hsp := spelled_blank ts h2
  have htx : text = ts.flatMap fun x => x.1 ++ [' '] := by
    rw [ht, ← h1, List.flatMap_map]
  rw [← htx] at hsp
  have := (read_back text cx ts hsp).1
  constructor
  · have := congrArg (List.map Prod.fst) this
    simpa [List.map_map, Function.comp_def, ← h1] using this
  · intro t hmem
    have hm : (tokenizeLoop text cx init).2.map (fun t => t.tok.type) = ts.map (·.2) ++ [.eof] := by
      have := congrArg (List.map Prod.snd) this
      simpa [List.map_map, Function.comp_def] using this
    have hd : (tokenizeLoop text cx init).2.dropLast.map (fun t => t.tok.type) = ts.map (·.2) := by
      rw [List.map_dropLast, hm, List.dropLast_concat]
    have : t.tok.type ∈ ts.map (·.2) := by
      rw [← hd]
      exact List.mem_map.2 ⟨t, hmem, rfl⟩
    obtain ⟨x, hx, e⟩ := List.mem_map.1 this
    rw [← e]
    exact h3 x hx

end Knfmt.Lexer

namespace Knfmt.ExprDoc
open Knfmt.Lexer (TT)
open Knfmt.Spec (Constant Literal)
open Knfmt.Doc (docExec)
open Knfmt.Expr

/-- Constants and literals that meet the hypotheses: `0x1fUL`, `.5e3f`, `L"a\""`, `'\''`. -/
example : (Constant ['0', 'x', '1', 'f', 'U', 'L'] ∧ ∀ c ∈ ['0', 'x', '1', 'f', 'U', 'L'], c ∉ ['+', '-', 'p', 'P']) ∧
    (Constant ['.', '5', 'e', '3', 'f'] ∧ ∀ c ∈ ['.', '5', 'e', '3', 'f'], c ∉ ['+', '-', 'p', 'P']) :=
  ⟨⟨.hex 'x' ['1', 'f'] ['U', 'L'] (Or.inl rfl) ⟨by simp, by unfold Knfmt.Spec.Of; decide⟩ (by decide), by decide⟩,
   ⟨.fraction ['.', '5'] ['e', '3'] ['f'] (.right [] ['5'] (by simp [Knfmt.Spec.Of]) ⟨by simp, by unfold Knfmt.Spec.Of; decide⟩)
      (Or.inr (.mk 'e' [] ['3'] (by decide) (by decide) ⟨by simp, by unfold Knfmt.Spec.Of; decide⟩)) (by decide), by decide⟩⟩

example : (Literal ['L', '"', 'a', '\\', '"', '"'] ∧ Literal ['\'', '\\', '\'', '\'']) :=
  ⟨.mk '"' ['L'] ['a', '\\', '"'] (Or.inl rfl) (by decide)
      (.plain 'a' _ (by decide) (by decide) (.escape '"' _ .nil)) (by decide),
   .mk '\'' [] ['\\', '\''] (Or.inr rfl) (by decide) (.escape '\'' _ .nil) (by decide)⟩

/-- **`1e-5` is read as a subtraction** and printed as `1e - 5`, which is not C. -/
theorem exponent_sign_fails : Constant ['1', 'e', '-', '5'] ∧
    tokens ['1', 'e', '-', '5'] =
      [(some ['1', 'e'], .literal), (some ['-'], .minus), (some ['5'], .literal), (some [], .eof)] ∧
    ∃ e, parse ints ⟨[], [⟨0, .literal, ['1', 'e']⟩, ⟨1, .minus, ['-']⟩, ⟨2, .literal, ['5']⟩], false⟩ =
      some (e, ⟨[⟨2, .literal, ['5']⟩, ⟨1, .minus, ['-']⟩, ⟨0, .literal, ['1', 'e']⟩], [], false⟩) ∧
    (docExec {} false [] (exprDoc {} e)).buf.reverse = ['1', 'e', ' ', '-', ' ', '5'] :=
  ⟨.exponent ['1'] ['e', '-', '5'] [] ⟨by simp, by unfold Knfmt.Spec.Of; decide⟩
      (.mk 'e' ['-'] ['5'] (by decide) (by decide) ⟨by simp, by unfold Knfmt.Spec.Of; decide⟩) (by decide),
    by decide +kernel,
    .bin (.lit ⟨0, .literal, ['1', 'e']⟩) ⟨1, .minus, ['-']⟩ (.lit ⟨2, .literal, ['5']⟩),
    by decide +kernel, by decide +kernel⟩

/-- **`0x1p3` is read as two tokens**, a constant and an identifier. -/
theorem binary_exponent_fails : Constant ['0', 'x', '1', 'p', '3'] ∧
    tokens ['0', 'x', '1', 'p', '3'] = [(some ['0', 'x', '1'], .literal), (some ['p', '3'], .ident), (some [], .eof)] :=
  ⟨.hexExponent 'x' ['1'] ['p', '3'] [] (Or.inl rfl) ⟨by simp, by unfold Knfmt.Spec.Of; decide⟩
      (.mk 'p' [] ['3'] (by decide) (by decide) ⟨by simp, by unfold Knfmt.Spec.Of; decide⟩) (by decide),
    by decide +kernel⟩

/-- **`u8"x"` is read as two tokens**, an identifier and a string, and printed as `u8 "x"`, which is
not C. -/
theorem literal_prefix_fails : Literal ['u', '8', '"', 'x', '"'] ∧
    tokens ['u', '8', '"', 'x', '"'] = [(some ['u', '8'], .ident), (some ['"', 'x', '"'], .string), (some [], .eof)] ∧
    ∃ e, parse ints ⟨[], [⟨0, .ident, ['u', '8']⟩, ⟨1, .string, ['"', 'x', '"']⟩], false⟩ =
      some (e, ⟨[⟨1, .string, ['"', 'x', '"']⟩, ⟨0, .ident, ['u', '8']⟩], [], false⟩) ∧
    (docExec {} false [] (exprDoc {} e)).buf.reverse = ['u', '8', ' ', '"', 'x', '"'] :=
  ⟨.mk '"' ['u', '8'] ['x'] (Or.inl rfl) (by decide) (.plain 'x' _ (by decide) (by decide) .nil) (by decide),
    by decide +kernel, .concat (.lit ⟨0, .ident, ['u', '8']⟩) ⟨1, .string, ['"', 'x', '"']⟩,
    by decide +kernel, by decide +kernel⟩

end Knfmt.ExprDoc
