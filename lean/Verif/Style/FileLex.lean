import Verif.Style.From
import Verif.Style.FileSpec
/-!
# The tokens of a text that is written from words
-/
namespace Knfmt.Style

open Knfmt.Style.Spec (Space IsWord IsNum Value Written Word)

/-- White space without comments. -/
inductive Blanks : List Char → Prop where
  | nil : Blanks []
  | blank {c : Char} {s : List Char} : c ∈ [' ', '\t', '\n', '\x0c'] → Blanks s → Blanks (c :: s)
  | crlf {s : List Char} : Blanks s → Blanks ('\r' :: '\n' :: s)

/-- Nothing, or something that does not start with white space. -/
def Clean (s : List Char) : Prop := ∀ c r, s = c :: r → c ∉ [' ', '\t', '\n', '\r', '\x0c']

theorem eatLines_head (s old p : List Char) (h : old = p ++ s) (hp : ∀ c ∈ p, c ∈ ['\r', ' ', '\t']) :
    (∀ r, eatLines old s ≠ '\n' :: r) ∧ ∀ r, eatLines old s ≠ '\r' :: '\n' :: r := by
  induction s generalizing old p with
  | nil =>
    rw [eatLines]
    simp only [List.append_nil] at h
    subst h
    constructor
    · rintro r rfl
      have := hp '\n' (by simp)
      simp at this
    · rintro r rfl
      have := hp '\n' (by simp)
      simp at this
  | cons c s ih =>
    rw [eatLines]
    split
    · exact ih s [] rfl (by simp)
    · next hc =>
      split
      · next hc' =>
        refine ih old (p ++ [c]) (by rw [h]; simp) ?_
        intro x hx
        rcases List.mem_append.mp hx with hx | hx
        · exact hp x hx
        · rw [List.mem_singleton] at hx
          subst hx
          simpa [or_assoc] using hc'
      · next hc' =>
        subst h
        cases p with
        | nil =>
          simp only [List.nil_append]
          constructor
          · rintro r e
            simp only [List.cons.injEq] at e
            exact hc e.1
          · rintro r e
            simp only [List.cons.injEq] at e
            exact hc' (by simp [e.1])
        | cons a p =>
          constructor
          · rintro r e
            simp only [List.cons_append, List.cons.injEq] at e
            have := hp a (by simp)
            rw [e.1] at this
            simp at this
          · rintro r e
            simp only [List.cons_append, List.cons.injEq] at e
            cases p with
            | nil =>
              simp only [List.nil_append, List.cons.injEq] at e
              exact hc e.2.1
            | cons b p =>
              simp only [List.cons_append, List.cons.injEq] at e
              have := hp b (by simp)
              rw [e.2.1] at this
              simp at this

/-- Nothing is left that could be skipped. -/
def Stuck (r : List Char) : Prop :=
  (∀ c t, r = c :: t → c ∉ [' ', '\t', '\n', '\x0c']) ∧ ∀ t, r ≠ '\r' :: '\n' :: t

theorem eatSpaces_head (s : List Char) (c : Char) (t : List Char) (h : eatSpaces s = c :: t) :
    c ∉ [' ', '\t', '\x0c'] := by
  unfold eatSpaces at h
  have : ∀ l : List Char, l.dropWhile (fun c => c = ' ' || c = '\x0c' || c = '\t') = c :: t →
      ¬ (c = ' ' ∨ c = '\x0c' ∨ c = '\t') := by
    intro l
    induction l with
    | nil => simp
    | cons x l ih =>
      rw [List.dropWhile_cons]
      split
      · exact ih
      · next hx =>
        intro e
        simp only [List.cons.injEq] at e
        rw [e.1] at hx
        simpa [or_assoc] using hx
  have := this s h
  simp only [List.mem_cons, List.not_mem_nil, or_false]
  grind

theorem stuck_of {r : List Char} (h1 : ∀ c t, r = c :: t → c ∉ [' ', '\t', '\x0c']) (h2 : ∀ t, r ≠ '\n' :: t)
    (h3 : ∀ t, r ≠ '\r' :: '\n' :: t) : Stuck r := by
  refine ⟨?_, h3⟩
  intro c t e
  have := h1 c t e
  have : c ≠ '\n' := fun e' => h2 t (by rw [e, e'])
  simp only [List.mem_cons, List.not_mem_nil, or_false] at *
  grind

theorem skip_stuck (got : Bool) (s : List Char)
    (h : got = true → ∀ c t, s = c :: t → c ∉ [' ', '\t', '\x0c']) : Stuck (skip got s) := by
  induction got, s using skip.induct with
  | case1 got s l hl =>
    rw [skip, if_pos hl]
    obtain ⟨h1, h2⟩ := eatLines_head s s [] rfl (by simp)
    refine stuck_of ?_ h1 h2
    have : eatLines s s = s := hl.1
    rw [this]
    exact h hl.2
  | case2 got s l hl r hr ih =>
    rw [skip, if_neg hl]
    simp only
    rw [dif_pos hr]
    exact ih fun _ c t e => eatSpaces_head _ c t e
  | case3 got s l hl r hr =>
    rw [skip, if_neg hl]
    simp only
    rw [dif_neg hr]
    obtain ⟨h1, h2⟩ := eatLines_head s s [] rfl (by simp)
    refine stuck_of ?_ h1 h2
    have h3 : eatSpaces (eatLines s s) = eatLines s s := by
      have h4 : eatSpaces (eatLines s s) <:+ eatLines s s := List.dropWhile_suffix _
      exact h4.eq_of_length (by have := h4.length_le; simp only [r, l] at hr; omega)
    intro c t e
    rw [← h3] at e
    exact eatSpaces_head _ c t e

theorem skip_blanks {b y : List Char} (hb : Blanks b) (hy : Clean y) : skip false (b ++ y) = y := by
  obtain ⟨g, hg, hc⟩ := skip_split false (b ++ y)
  have hs := skip_stuck false (b ++ y) (by simp)
  revert hg hs
  generalize skip false (b ++ y) = r
  intro hg hs
  induction hb generalizing g with
  | nil =>
    cases g with
    | nil => exact hg.symm
    | cons a g =>
      have := hy a (g ++ r) (by simpa using hg)
      exact absurd (hc a (by simp)) this
  | @blank c s hcb _ ih =>
    cases g with
    | nil =>
      have := hs.1 c (s ++ y) (by simpa using hg.symm)
      exact absurd hcb this
    | cons a g =>
      simp only [List.cons_append, List.cons.injEq] at hg
      exact ih g (fun x hx => hc x (by simp [hx])) hg.2
  | @crlf s _ ih =>
    cases g with
    | nil => exact absurd hg.symm (hs.2 (s ++ y))
    | cons a g =>
      simp only [List.cons_append, List.cons.injEq] at hg
      cases g with
      | nil =>
        have := hs.1 '\n' (s ++ y) (by simpa using hg.2.symm)
        simp at this
      | cons a' g =>
        simp only [List.cons_append, List.cons.injEq] at hg
        exact ih g (fun x hx => hc x (by simp [hx])) hg.2.2

theorem space_split {g s : List Char} (hg : Space g) (hs : Clean s) :
    ∃ b y, g ++ s = b ++ y ∧ Blanks b ∧ Clean y := by
  induction hg with
  | nil => exact ⟨[], s, rfl, .nil, hs⟩
  | @blank c t hc _ ih =>
    obtain ⟨b, y, h1, h2, h3⟩ := ih
    exact ⟨c :: b, y, by simp [h1], .blank hc h2, h3⟩
  | @crlf t _ ih =>
    obtain ⟨b, y, h1, h2, h3⟩ := ih
    exact ⟨'\r' :: '\n' :: b, y, by simp [h1], .crlf h2, h3⟩
  | @comment b t hb _ ih =>
    refine ⟨[], _, rfl, .nil, ?_⟩
    intro c r e
    simp only [List.cons.injEq] at e
    rw [← e.1]
    decide

/-- What `read` does after white space. -/
def readAt (s : List Char) : Read :=
  match readInteger s with
  | (some i, r) => .tok ⟨.int, s.take (s.length - r.length), i⟩ r
  | (none, []) => .eof
  | (none, c :: t) =>
    if c = '#' then
      match afterLine t with
      | none => .eof
      | some r => read r
    else if isAlpha c || c = '_' then
      .tok (keyword (c :: t.takeWhile wordChar)) (t.dropWhile wordChar)
    else if c = '-' || c = '.' || c = ':' then
      .tok (keyword (c :: t.takeWhile (· = c))) (t.dropWhile (· = c))
    else if c = '\'' then
      match quoted t with
      | none => .eof
      | some (b, r) => .tok (quotedTok b) r
    else .bad

theorem read_eq (s : List Char) : read s = readAt (skip false s) := by
  rw [read]
  unfold readAt
  split
  · next h => rw [h]
  · next h => rw [h]
  · next h =>
    rw [h]
    simp only
    split
    · split
      · next h' => rw [h']
      · next h' => rw [h']
    · rfl

theorem read_congr {a b : List Char} (h : skip false a = skip false b) : read a = read b := by
  rw [read_eq, read_eq, h]

theorem afterLine_append {b s : List Char} (h : '\n' ∉ b) : afterLine (b ++ '\n' :: s) = some s := by
  induction b with
  | nil => simp [afterLine]
  | cons c b ih =>
    simp only [List.mem_cons, not_or] at h
    simp only [List.cons_append, afterLine]
    rw [if_neg (fun e => h.1 e.symm)]
    exact ih h.2

theorem afterLine_none {b : List Char} (h : '\n' ∉ b) : afterLine b = none := by
  induction b with
  | nil => rfl
  | cons c b ih =>
    simp only [List.mem_cons, not_or] at h
    rw [afterLine, if_neg (fun e => h.1 e.symm)]
    exact ih h.2

theorem read_clean {s : List Char} (h : Clean s) : read s = readAt s := by
  rw [read_eq, show skip false s = s from skip_blanks .nil h]

theorem integerBody_digit {string : Bool} {s₀ s : List Char} {c : Char} (hc : isDigit c = true) :
    integerBody string s₀ (c :: s) =
      (some (integerRest string 1 (c :: s)).1, (integerRest string 1 (c :: s)).2) := by
  unfold integerBody
  exact if_pos hc

theorem integerBody_minus {string : Bool} {s₀ s : List Char} {d : Char} (hd : isDigit d = true) :
    integerBody string s₀ ('-' :: d :: s) =
      (some (integerRest string (-1) (d :: s)).1, (integerRest string (-1) (d :: s)).2) := by
  unfold integerBody
  simp only [show isDigit '-' = false from rfl, Bool.false_eq_true, if_false, if_true]
  exact if_pos hd

theorem integerBody_dash {string : Bool} {s₀ s : List Char} (hs : s ≠ [])
    (hd : ∀ c t, s = c :: t → isDigit c = false) : integerBody string s₀ ('-' :: s) = (none, s₀) := by
  unfold integerBody
  simp only [show isDigit '-' = false from rfl, Bool.false_eq_true, if_false, if_true]
  cases s with
  | nil => exact absurd rfl hs
  | cons c t => simp [hd c t rfl]

theorem readInteger_other {c : Char} {t : List Char} (h1 : isDigit c = false) (h2 : c ≠ '-') (h3 : c ≠ '\'') :
    readInteger (c :: t) = (none, c :: t) := by
  unfold readInteger
  split
  · next h => simp only [List.cons.injEq] at h; exact absurd h.1 h3
  · unfold integerBody
    simp only [h1, h2, Bool.false_eq_true, if_false]

theorem read_comment {b s : List Char} (h : '\n' ∉ b) : read ('#' :: b ++ '\n' :: s) = read s := by
  have hc : Clean ('#' :: b ++ '\n' :: s) := by
    intro c r e
    simp only [List.cons_append, List.cons.injEq] at e
    rw [← e.1]; decide
  rw [read_clean hc, readAt]
  rw [List.cons_append, readInteger_other (by decide) (by decide) (by decide)]
  simp only [if_true]
  rw [afterLine_append h]

theorem read_space {g s : List Char} (hg : Space g) (hs : Clean s) : read (g ++ s) = read s := by
  induction hg with
  | nil => rfl
  | @blank c t hc ht ih =>
    rw [← ih]
    obtain ⟨b, y, h1, h2, h3⟩ := space_split ht hs
    refine read_congr ?_
    rw [List.cons_append, h1, skip_blanks h2 h3, ← List.cons_append, skip_blanks (.blank hc h2) h3]
  | @crlf t ht ih =>
    rw [← ih]
    obtain ⟨b, y, h1, h2, h3⟩ := space_split ht hs
    refine read_congr ?_
    rw [List.cons_append, List.cons_append, h1, skip_blanks h2 h3, ← List.cons_append, ← List.cons_append,
      skip_blanks (.crlf h2) h3]
  | @comment b t hb _ ih =>
    have := read_comment (s := t ++ s) hb
    rw [ih] at this
    simpa using this

theorem takeWhile_stop {p : Char → Bool} {s r : List Char} (h : ∀ c ∈ s, p c = true)
    (hr : ∀ c t, r = c :: t → p c = false) : (s ++ r).takeWhile p = s ∧ (s ++ r).dropWhile p = r := by
  induction s with
  | nil =>
    cases r with
    | nil => exact ⟨rfl, rfl⟩
    | cons c r => simp [hr c r rfl]
  | cons c s ih =>
    have := ih fun x hx => h x (by simp [hx])
    simp only [List.cons_append, List.takeWhile_cons, List.dropWhile_cons, h c (by simp), if_true]
    exact ⟨by rw [this.1], this.2⟩

/-- Nothing follows, or white space or a colon. -/
def Ends (r : List Char) : Prop := r = [] ∨ ∃ c ∈ [' ', '\t', '\n', '\x0c', '\r', ':'], r.head? = some c

theorem Ends.head {r : List Char} (h : Ends r) {c : Char} {t : List Char} (e : r = c :: t) :
    c ∈ [' ', '\t', '\n', '\x0c', '\r', ':'] := by
  rcases h with rfl | ⟨x, hx, hr⟩
  · simp at e
  · subst e
    simp only [List.head?_cons, Option.some.injEq] at hr
    subst hr
    exact hx

theorem alpha_not_digit {c : Char} (h : isAlpha c = true ∨ c = '_') :
    isDigit c = false ∧ c ≠ '-' ∧ c ≠ '\'' ∧ c ≠ '#' ∧ c ∉ [' ', '\t', '\n', '\r', '\x0c'] := by
  rcases h with h | rfl
  · simp only [isAlpha, Bool.or_eq_true, Bool.and_eq_true, decide_eq_true_eq] at h
    simp only [isDigit, Bool.and_eq_false_iff, decide_eq_false_iff_not, List.mem_cons, List.not_mem_nil, or_false]
    have e : ∀ d : Char, c = d → ¬ ((('a' ≤ d ∧ d ≤ 'z') ∨ ('A' ≤ d ∧ d ≤ 'Z')) = False) := by
      rintro d rfl
      simp [h]
    refine ⟨?_, ?_, ?_, ?_, ?_⟩
    · simp only [Char.le_def, UInt32.le_iff_toNat_le] at h ⊢
      revert h
      generalize c.val.toNat = n
      intro h
      have h1 : 'a'.val.toNat = 97 := rfl
      have h2 : 'z'.val.toNat = 122 := rfl
      have h3 : 'A'.val.toNat = 65 := rfl
      have h4 : 'Z'.val.toNat = 90 := rfl
      have h5 : '0'.val.toNat = 48 := rfl
      have h6 : '9'.val.toNat = 57 := rfl
      omega
    · intro hc; exact e _ hc (by decide)
    · intro hc; exact e _ hc (by decide)
    · intro hc; exact e _ hc (by decide)
    · rintro (hc | hc | hc | hc | hc) <;> exact e _ hc (by decide)
  · decide

theorem isWord_parts {w : List Char} (h : IsWord w) :
    ∃ c s, w = c :: s ∧ (isAlpha c = true ∨ c = '_') ∧ ∀ x ∈ s, wordChar x = true := by
  obtain ⟨c, s, rfl, hc, hs⟩ := h
  refine ⟨c, s, rfl, ?_, ?_⟩
  · simp only [isAlpha, Bool.or_eq_true, Bool.and_eq_true, decide_eq_true_eq]
    grind
  · intro x hx
    have := hs x hx
    simp only [List.mem_cons, List.not_mem_nil, or_false, not_or] at this
    simp [wordChar, isSpace, this]

theorem wordChar_ends {r : List Char} (h : Ends r) : ∀ c t, r = c :: t → wordChar c = false := by
  intro c t e
  have h1 := h.head e
  have h2 : ∀ c ∈ [' ', '\t', '\n', '\x0c', '\r', ':'], wordChar c = false := by decide
  exact h2 c h1

theorem digit_ends {r : List Char} (h : Ends r) : ∀ c t, r = c :: t → isDigit c = false := by
  intro c t e
  have h1 := h.head e
  have h2 : ∀ c ∈ [' ', '\t', '\n', '\x0c', '\r', ':'], isDigit c = false := by decide
  exact h2 c h1

theorem read_word {w r : List Char} (h : IsWord w) (hr : Ends r) : read (w ++ r) = .tok (keyword w) r := by
  obtain ⟨c, s, rfl, hc, hs⟩ := isWord_parts h
  obtain ⟨h1, h2, h3, h4, h5⟩ := alpha_not_digit hc
  have hcl : Clean (c :: s ++ r) := by
    intro x t e
    simp only [List.cons_append, List.cons.injEq] at e
    rw [← e.1]; exact h5
  have hw := takeWhile_stop hs (wordChar_ends hr)
  rw [read_clean hcl, readAt, List.cons_append, readInteger_other h1 h2 h3]
  simp only [h4, if_false]
  rw [if_pos (by simpa using hc), hw.1, hw.2]

theorem read_num {neg : Bool} {d r : List Char} (h : IsNum d) (hr : Ends r) :
    read ((if neg then ['-'] else []) ++ d ++ r) =
      .tok ⟨.int, (if neg then ['-'] else []) ++ d, wrap (digits 0 d * (if neg then -1 else 1))⟩ r := by
  obtain ⟨hne, hd⟩ := h
  have hd' : ∀ c ∈ d, isDigit c = true := fun c hc => isDigit_iff.mpr (hd c hc)
  have hw := takeWhile_stop hd' (digit_ends hr)
  obtain ⟨c, t, rfl⟩ : ∃ c t, d = c :: t := by
    cases d with
    | nil => exact absurd rfl hne
    | cons c t => exact ⟨c, t, rfl⟩
  have hc := hd' c (by simp)
  have hne : ∀ x : Char, isDigit x = false → c ≠ x := by
    rintro x hx rfl
    rw [hc] at hx
    simp at hx
  have hcl : c ∉ [' ', '\t', '\n', '\r', '\x0c'] := by
    simp only [List.mem_cons, List.not_mem_nil, or_false, not_or]
    exact ⟨hne _ rfl, hne _ rfl, hne _ rfl, hne _ rfl, hne _ rfl⟩
  cases neg
  · simp only [Bool.false_eq_true, if_false, List.nil_append]
    have hri : readInteger (c :: t ++ r) = (some (wrap (digits 0 (c :: t) * 1)), r) := by
      unfold readInteger
      split
      · next h => simp only [List.cons_append, List.cons.injEq] at h; exact absurd h.1 (hne _ rfl)
      · rw [List.cons_append, integerBody_digit hc]
        unfold integerRest
        rw [← List.cons_append, hw.1, hw.2]
        simp
    rw [read_clean (by
      intro x y e
      simp only [List.cons_append, List.cons.injEq] at e
      rw [← e.1]; exact hcl), readAt, hri]
    simp only [Read.tok.injEq, Tok.mk.injEq, true_and, and_true]
    exact List.take_left' (by simp; omega)
  · simp only [if_true]
    have hri : readInteger (['-'] ++ (c :: t) ++ r) = (some (wrap (digits 0 (c :: t) * -1)), r) := by
      unfold readInteger
      split
      · next h => simp at h
      · simp only [List.cons_append, List.nil_append]
        rw [integerBody_minus hc]
        unfold integerRest
        rw [← List.cons_append, hw.1, hw.2]
        simp
    rw [read_clean (by
      intro x y e
      simp only [List.cons_append, List.cons.injEq] at e
      rw [← e.1]; decide), readAt, hri]
    simp only [Read.tok.injEq, Tok.mk.injEq, true_and, and_true]
    exact List.take_left' (by simp; omega)

theorem read_quotedNum {neg : Bool} {d r : List Char} (h : IsNum d) :
    read ('\'' :: (if neg then ['-'] else []) ++ d ++ ['\''] ++ r) =
      .tok ⟨.int, '\'' :: (if neg then ['-'] else []) ++ d ++ ['\''], wrap (digits 0 d * (if neg then -1 else 1))⟩ r := by
  obtain ⟨hne, hd⟩ := h
  have hd' : ∀ c ∈ d, isDigit c = true := fun c hc => isDigit_iff.mpr (hd c hc)
  have hw := takeWhile_stop (p := isDigit) (r := ['\''] ++ r) hd' (by
    intro c t e
    simp only [List.cons_append, List.nil_append, List.cons.injEq] at e
    rw [← e.1]; decide)
  obtain ⟨c, t, rfl⟩ : ∃ c t, d = c :: t := by
    cases d with
    | nil => exact absurd rfl hne
    | cons c t => exact ⟨c, t, rfl⟩
  have hc := hd' c (by simp)
  have hcl : ∀ s, Clean ('\'' :: s) := by
    intro s x y e
    simp only [List.cons.injEq] at e
    rw [← e.1]; decide
  cases neg
  · simp only [Bool.false_eq_true, if_false, List.cons_append, List.nil_append, List.append_assoc]
    have hri : readInteger ('\'' :: c :: (t ++ '\'' :: r)) = (some (wrap (digits 0 (c :: t) * 1)), r) := by
      unfold readInteger
      simp only
      rw [integerBody_digit hc]
      unfold integerRest
      simp only [List.cons_append, List.nil_append] at hw
      rw [hw.1, hw.2]
      simp
    rw [read_clean (hcl _), readAt, hri]
    simp only [Read.tok.injEq, Tok.mk.injEq, true_and, and_true]
    have h1 : '\'' :: c :: (t ++ '\'' :: r) = ('\'' :: c :: (t ++ ['\''])) ++ r := by simp
    rw [h1]
    exact List.take_left' (by simp; omega)
  · simp only [if_true, List.cons_append, List.nil_append, List.append_assoc]
    have hri : readInteger ('\'' :: '-' :: c :: (t ++ '\'' :: r)) = (some (wrap (digits 0 (c :: t) * -1)), r) := by
      unfold readInteger
      simp only
      rw [integerBody_minus hc]
      unfold integerRest
      simp only [List.cons_append, List.nil_append] at hw
      rw [hw.1, hw.2]
      simp
    rw [read_clean (hcl _), readAt, hri]
    simp only [Read.tok.injEq, Tok.mk.injEq, true_and, and_true]
    have h1 : '\'' :: '-' :: c :: (t ++ '\'' :: r) = ('\'' :: '-' :: c :: (t ++ ['\''])) ++ r := by simp
    rw [h1]
    exact List.take_left' (by simp; omega)

theorem quoted_append {s r : List Char} (h : '\'' ∉ s) : quoted (s ++ '\'' :: r) = some (s, r) := by
  induction s with
  | nil => simp [quoted]
  | cons c s ih =>
    simp only [List.mem_cons, not_or] at h
    rw [List.cons_append, quoted, if_neg (fun e => h.1 e.symm), ih h.2]
    rfl

theorem read_quoted {s r : List Char} (h : '\'' ∉ s)
    (hs : ∀ c t, s = c :: t → ¬ ('0' ≤ c ∧ c ≤ '9') ∧ c ≠ '-') :
    read ('\'' :: s ++ ['\''] ++ r) = .tok (quotedTok s) r := by
  have hcl : Clean ('\'' :: s ++ ['\''] ++ r) := by
    intro x y e
    simp only [List.cons_append, List.cons.injEq] at e
    rw [← e.1]; decide
  have hri : readInteger ('\'' :: s ++ ['\''] ++ r) = (none, '\'' :: (s ++ '\'' :: r)) := by
    simp only [List.cons_append, List.append_assoc, List.nil_append]
    unfold readInteger
    simp only
    cases s with
    | nil => simp [integerBody, isDigit]
    | cons c t =>
      obtain ⟨h1, h2⟩ := hs c t rfl
      have : isDigit c = false := by
        cases hd : isDigit c
        · rfl
        · exact absurd (isDigit_iff.mp hd) h1
      simp [integerBody, this, h2]
  rw [read_clean hcl, readAt, hri]
  simp only
  rw [if_neg (by decide), if_neg (by decide), if_neg (by decide), quoted_append h]
  rfl

theorem read_colon {r : List Char} (h : r.head? ≠ some ':') : read (':' :: r) = .tok (keyword [':']) r := by
  have hcl : Clean (':' :: r) := by
    intro x y e
    simp only [List.cons.injEq] at e
    rw [← e.1]; decide
  have hw := takeWhile_stop (p := (· = ':')) (s := []) (r := r) (by simp) (by
    rintro c t rfl
    simpa using h)
  rw [read_clean hcl, readAt, readInteger_other (by decide) (by decide) (by decide)]
  simp only [List.nil_append] at hw
  simp only [hw.1, hw.2]
  rw [if_neg (by decide), if_neg (by decide), if_pos (by decide)]

theorem read_dots {r : List Char} (h : Ends r) : read ("...".toList ++ r) = .tok (keyword "...".toList) r := by
  have hcl : Clean ('.' :: '.' :: '.' :: r) := by
    intro x y e
    simp only [List.cons.injEq] at e
    rw [← e.1]; decide
  have hw := takeWhile_stop (p := (· = '.')) (s := ['.', '.']) (r := r) (by simp) (by
    rintro c t e
    have h1 := h.head e
    have h2 : ∀ c ∈ [' ', '\t', '\n', '\x0c', '\r', ':'], decide (c = '.') = false := by decide
    exact h2 c h1)
  show read ('.' :: '.' :: '.' :: r) = _
  rw [read_clean hcl, readAt, readInteger_other (by decide) (by decide) (by decide)]
  simp only [List.cons_append, List.nil_append] at hw
  simp only [hw.1, hw.2]
  rw [if_neg (by decide), if_neg (by decide), if_pos (by decide)]
  rfl

theorem read_dashes {w r : List Char} (hw : w = ['-'] ∨ w = ['-', '-', '-']) (h : Ends r) (hr : r ≠ [] ∨ w ≠ ['-']) :
    read (w ++ r) = .tok (keyword w) r := by
  obtain ⟨s, rfl, hs⟩ : ∃ s, w = '-' :: s ∧ ∀ c ∈ s, c = '-' := by
    rcases hw with rfl | rfl
    · exact ⟨[], rfl, by simp⟩
    · exact ⟨['-', '-'], rfl, by simp⟩
  have hcl : Clean ('-' :: s ++ r) := by
    intro x y e
    simp only [List.cons_append, List.cons.injEq] at e
    rw [← e.1]; decide
  have hw := takeWhile_stop (p := (· = '-')) (s := s) (r := r) (by simpa using hs) (by
    rintro c t e
    have h1 := h.head e
    have h2 : ∀ c ∈ [' ', '\t', '\n', '\x0c', '\r', ':'], decide (c = '-') = false := by decide
    exact h2 c h1)
  have hri : readInteger ('-' :: s ++ r) = (none, '-' :: (s ++ r)) := by
    unfold readInteger
    split
    · next h => simp at h
    · rw [List.cons_append]
      refine integerBody_dash ?_ ?_
      · intro he
        rw [List.append_eq_nil_iff] at he
        rcases hr with hr | hr
        · exact absurd he.2 hr
        · rw [he.1] at hr; exact absurd rfl hr
      · intro d t he
        cases s with
        | nil => exact digit_ends h d t he
        | cons a s =>
          simp only [List.cons_append, List.cons.injEq] at he
          rw [← he.1, hs a (by simp)]
          decide
  rw [read_clean hcl, readAt, hri]
  simp only [hw.1, hw.2]
  rw [if_neg (by decide), if_neg (by decide), if_pos (by decide)]

end Knfmt.Style
