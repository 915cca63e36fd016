import Verif.Expr.ReadBack
/-!
# Which tokens of an expression may stand next to each other (C77)
-/
namespace Knfmt.ExprDoc
open Knfmt.Lexer
open Knfmt.Spec
open Knfmt.Doc.Spec (Item items texts Apart)

/-- The characters that make a longer operator, or the start of one, when put after `s`. -/
def nexts (s : List Char) : List Char :=
  operators.filterMap fun o => if s.isPrefixOf o then o[s.length]? else none

theorem joins_op {s : List Char} {c : Char} (hk : kind s = 0) (h : joins s c = true) :
    c ∈ nexts s ∨ (s = ['.'] ∧ isDigit c = true) ∨ (s = ['/'] ∧ (c = '/' ∨ c = '*')) := by
  unfold joins at h
  rw [hk] at h
  simp only [Bool.or_eq_true, List.any_eq_true, Bool.and_eq_true, decide_eq_true_eq] at h
  rcases h with (⟨o, ho, hp⟩ | h) | h
  · left
    rw [List.isPrefixOf_iff_prefix] at hp
    obtain ⟨t, ht⟩ := hp
    rw [nexts, List.mem_filterMap]
    refine ⟨o, ho, ?_⟩
    have : s.isPrefixOf o = true := by
      rw [List.isPrefixOf_iff_prefix]
      exact ⟨c :: t, by rw [← ht]; simp⟩
    rw [if_pos this, ← ht]
    simp
  · exact Or.inr (Or.inl h)
  · exact Or.inr (Or.inr h)

/-- The texts of the operators that occur in expressions without white space on a side. -/
def opText : TT → Option (List Char)
  | .plus => some ['+']
  | .minus => some ['-']
  | .star => some ['*']
  | .amp => some ['&']
  | .exclaim => some ['!']
  | .tilde => some ['~']
  | .plusplus => some ['+', '+']
  | .minusminus => some ['-', '-']
  | .lparen => some ['(']
  | .rparen => some [')']
  | .lsquare => some ['[']
  | .rsquare => some [']']
  | .comma => some [',']
  | .period => some ['.']
  | .arrow => some ['-', '>']
  | .slash => some ['/']
  | .pipe => some ['|']
  | .question => some ['?']
  | .colon => some [':']
  | _ => none

theorem table_text : ∀ k ∈ table, ∀ x ∈ (opText k.2.1).toList, k.1 = x := by decide +kernel

theorem table_words : ∀ k ∈ table, k.2.1 ≠ .ident ∧ k.2.1 ≠ .literal ∧ k.2.1 ≠ .string ∧ k.2.1 ≠ .eof ∧
    (k.2.1 = .sizeof → k.1.head?.any identStart = true ∧ kind k.1 = 3) := by decide +kernel

theorem token_op {s x : List Char} {ty : TT} (h : IsToken s ty) (hx : opText ty = some x) : s = x := by
  have tab : ∀ k ∈ table, k.1 = s → ty = k.2.1 → s = x := by
    intro k hk h1 h2
    rw [← h1]
    exact table_text k hk x (by rw [← h2, hx]; simp)
  rcases lexeme_inv h.lexeme with ⟨_, _, k, hk, h1, h2⟩ | ⟨_, h1⟩ | ⟨_, _, _, _, _, h1⟩ | ⟨_, _, _, _, _, h1⟩ |
    ⟨_, _, _, _, _, h1⟩ | ⟨_, _, _, h1⟩
  · exact tab k hk h1 h2
  · rcases h1 with ⟨_, _, _, _, _, _, _, _, h1⟩ | ⟨_, _, _, _, _, _, _, h1⟩
    · rw [h1] at hx; split at hx <;> exact absurd hx (by simp [opText])
    · exact absurd h1 h.notEof
  · rw [h1] at hx; exact absurd hx (by simp [opText])
  · rcases h1 with ⟨k, hk, h1, h2⟩ | ⟨_, h1⟩
    · exact tab k hk h1 h2
    · rw [h1] at hx; exact absurd hx (by simp [opText])
  · rw [h1] at hx; split at hx <;> exact absurd hx (by simp [opText])
  · exact absurd h1 h.notEof

/-- The types of tokens an expression begins with. -/
def starter : TT → Bool
  | .ident | .literal | .string | .lparen | .exclaim | .tilde | .plus | .minus | .star | .amp
  | .plusplus | .minusminus | .sizeof => true
  | _ => false

/-- The types of tokens an expression ends with. -/
def ender : TT → Bool
  | .ident | .literal | .string | .rparen | .rsquare | .plusplus | .minusminus => true
  | _ => false

/-- Characters that names, constants and strings begin with. -/
def wordChar (c : Char) : Bool := identStart c || isDigit c || isQuote c || c = '.'

theorem kind_word {c : Char} {t : List Char} (h : kind (c :: t) = 1 ∨ kind (c :: t) = 2 ∨ kind (c :: t) = 3) :
    wordChar c = true := by
  have e : kind (c :: t) = if isQuote c || (c = 'L' && t.head?.any isQuote) then 1
    else if isDigit c || (c = '.' && t.head?.any isDigit) then 2
    else if identStart c then 3
    else if operators.any fun o => o.isPrefixOf (c :: t) then 0
    else 4 := rfl
  by_cases h1 : (isQuote c || (c = 'L' && t.head?.any isQuote)) = true
  · rw [Bool.or_eq_true] at h1
    rcases h1 with hq | hq
    · simp [wordChar, hq]
    · simp only [Bool.and_eq_true, decide_eq_true_eq] at hq
      rw [hq.1]; decide
  · rw [if_neg h1] at e
    by_cases h2 : (isDigit c || (c = '.' && t.head?.any isDigit)) = true
    · rw [Bool.or_eq_true] at h2
      rcases h2 with hq | hq
      · simp [wordChar, hq]
      · simp only [Bool.and_eq_true, decide_eq_true_eq] at hq
        rw [hq.1]; decide
    · rw [if_neg h2] at e
      by_cases h3 : identStart c = true
      · simp [wordChar, h3]
      · rw [if_neg h3] at e
        rw [e] at h
        split at h <;> omega

theorem kind_two {c : Char} {t : List Char} (h : kind (c :: t) = 2) : isDigit c = true ∨ c = '.' := by
  have e : kind (c :: t) = if isQuote c || (c = 'L' && t.head?.any isQuote) then 1
    else if isDigit c || (c = '.' && t.head?.any isDigit) then 2
    else if identStart c then 3
    else if operators.any fun o => o.isPrefixOf (c :: t) then 0
    else 4 := rfl
  rw [e] at h
  split at h
  · omega
  · split at h
    · next hq =>
      simp only [Bool.or_eq_true, Bool.and_eq_true, decide_eq_true_eq] at hq
      exact hq.imp id And.left
    · split at h
      · omega
      · split at h <;> omega

theorem starter_head {c : Char} {t : List Char} {ty : TT} (h : IsToken (c :: t) ty) (hs : starter ty = true) :
    (∃ x, opText ty = some x ∧ c :: t = x) ∨ wordChar c = true := by
  cases hx : opText ty with
  | some x => exact Or.inl ⟨x, rfl, token_op h hx⟩
  | none =>
    right
    have hty : ty = .ident ∨ ty = .literal ∨ ty = .string ∨ ty = .sizeof := by
      cases ty <;> first | exact absurd hs (by decide) | exact absurd hx (by decide) | simp
    have tab : ∀ k ∈ table, k.1 = c :: t → ty = k.2.1 → wordChar c = true := by
      intro k hk h1 h2
      have := table_words k hk
      rw [← h2, h1] at this
      obtain ⟨a, b, d, _, e⟩ := this
      rcases hty with h | h | h | h
      · exact absurd h a
      · exact absurd h b
      · exact absurd h d
      · have := (e h).1
        simp only [List.head?_cons, Option.any_some] at this
        simp [wordChar, this]
    rcases lexeme_inv h.lexeme with ⟨_, _, k, hk, h1, h2⟩ | ⟨hk, _⟩ | ⟨hk, _⟩ | ⟨hk, _⟩ |
      ⟨_, _, _, h0, h00, h1⟩ | ⟨_, h1, _⟩
    · exact tab k hk h1 h2
    · exact kind_word (Or.inl hk)
    · exact kind_word (Or.inr (Or.inl hk))
    · exact kind_word (Or.inr (Or.inr hk))
    · rw [h1] at hty
      split at hty <;> rcases hty with h | h | h | h <;> exact absurd h (by decide)
    · exact absurd h1 (by simp)

/-- The text of a number. -/
def Number (s : List Char) : Prop := ∃ c r, s = c :: r ∧ (isDigit c = true ∨ c = '.')

/-- What may come right after an operand. -/
theorem ender_joins {s : List Char} {ty : TT} (h : IsToken s ty) (he : ender ty = true) {c : Char}
    (hc : c ∈ [')', ']', '(', '[', ',', '+', '-', '*', '/', '|'] ∨ (c = '.' ∧ ¬ Number s)) : joins s c = false := by
  have hid : identChar c = false ∧ isQuote c = false := by
    rcases hc with hc | ⟨hc, _⟩
    · simp only [List.mem_cons, List.not_mem_nil, or_false] at hc
      rcases hc with h | h | h | h | h | h | h | h | h | h <;> rw [h] <;> decide
    · rw [hc]; decide
  rcases lexeme_inv h.lexeme with ⟨hk, _, k, hk', h1, h2⟩ | ⟨hk, _⟩ | ⟨hk, x, r, h1, _⟩ | ⟨hk, _⟩ |
    ⟨_, _, _, h0, h00, h1⟩ | ⟨_, _, _, h1⟩
  · cases hj : joins s c with
    | false => rfl
    | true =>
      exfalso
      have hw := table_words k hk'
      rw [← h2] at hw
      have hs : s = [')'] ∨ s = [']'] ∨ s = ['+', '+'] ∨ s = ['-', '-'] := by
        have : ∀ x, opText ty = some x → s = x := fun x hx => token_op h hx
        cases ty <;> first
          | exact absurd he (by decide)
          | exact absurd rfl hw.1
          | exact absurd rfl hw.2.1
          | exact absurd rfl hw.2.2.1
          | (rw [this _ rfl]; simp)
      have hn : nexts s = [] := by rcases hs with h | h | h | h <;> rw [h] <;> decide +kernel
      rcases joins_op hk hj with h | ⟨h, _⟩ | ⟨h, _⟩
      · rw [hn] at h; simp at h
      · rw [h] at hs; simp at hs
      · rw [h] at hs; simp at hs
  · unfold joins; rw [hk]; rfl
  · unfold joins; rw [hk]
    show isNum c = false
    rcases hc with hc | ⟨hc, hn⟩
    · simp only [List.mem_cons, List.not_mem_nil, or_false] at hc
      rcases hc with h | h | h | h | h | h | h | h | h | h <;> rw [h] <;> decide
    · exfalso
      apply hn
      refine ⟨x, r, h1, ?_⟩
      rw [h1] at hk
      exact kind_two hk
  · unfold joins; rw [hk]
    show (identChar c || (s = ['L'] && isQuote c)) = false
    rw [hid.1, hid.2]; simp
  · rw [h1] at he
    split at he <;> exact absurd he (by decide)
  · exact absurd h1 h.notEof

/-- Nothing is joined with a closing parenthesis. -/
theorem operators_rparen : ∀ o ∈ operators, (o.drop 1).all (fun c => c ≠ ')') = true := by decide +kernel

theorem joins_rparen {s : List Char} {ty : TT} (h : IsToken s ty) : joins s ')' = false := by
  rcases lexeme_inv h.lexeme with ⟨hk, _⟩ | ⟨hk, _⟩ | ⟨hk, x, r, h1, _⟩ | ⟨hk, _⟩ |
    ⟨_, _, _, h0, h00, h1⟩ | ⟨_, _, _, h1⟩
  · cases hj : joins s ')' with
    | false => rfl
    | true =>
      exfalso
      unfold joins at hj
      rw [hk] at hj
      simp only [Bool.or_eq_true, List.any_eq_true, Bool.and_eq_true, decide_eq_true_eq] at hj
      rcases hj with (⟨o, ho, hp⟩ | ⟨_, h⟩) | ⟨_, h⟩
      · rw [List.isPrefixOf_iff_prefix] at hp
        obtain ⟨t, ht⟩ := hp
        have := operators_rparen o ho
        rw [List.all_eq_true] at this
        obtain ⟨c, s', hs, _⟩ := h.first
        have := this ')' (by rw [← ht, hs]; simp)
        exact absurd this (by decide)
      · exact absurd h (by decide)
      · rcases h with h | h <;> exact absurd h (by decide)
  · unfold joins; rw [hk]; rfl
  · unfold joins; rw [hk]; show isNum ')' = false; decide
  · unfold joins; rw [hk]
    show (identChar ')' || (s = ['L'] && isQuote ')')) = false
    rw [show identChar ')' = false by decide, show isQuote ')' = false by decide]; simp
  · rw [h00] at h0
    simp only [List.cons.injEq, true_and] at h0
    exact absurd (by rw [h1, if_pos h0.symm]) h.notEof
  · exact absurd h1 h.notEof

/-- An operator that is no part of a longer one. -/
theorem alone_joins {s x : List Char} {ty : TT} (h : IsToken s ty) (hx : opText ty = some x)
    (hn : nexts x = []) (h1 : x ≠ ['.']) (h2 : x ≠ ['/']) (hk : kind x = 0) (c : Char) : joins s c = false := by
  rw [token_op h hx]
  cases hj : joins x c with
  | false => rfl
  | true =>
    rcases joins_op hk hj with h | ⟨h, _⟩ | ⟨h, _⟩
    · rw [hn] at h; simp at h
    · exact absurd h h1
    · exact absurd h h2

/-! ## Lists of items -/

theorem apart_cons {i : Item} {l : List Item} : Apart (i :: l) ↔
    (∀ s c t, i = .text s → l.head? = some (.text (c :: t)) → joins s c = false) ∧ Apart l := by
  constructor
  · intro h
    refine ⟨?_, fun a s c t b e => h (i :: a) s c t b (by rw [e]; rfl)⟩
    intro s c t hi hl
    cases l with
    | nil => simp at hl
    | cons j l =>
      simp only [List.head?_cons, Option.some.injEq] at hl
      exact h [] s c t l (by rw [hi, hl]; rfl)
  · rintro ⟨h1, h2⟩ a s c t b e
    cases a with
    | nil =>
      simp only [List.nil_append, List.cons.injEq] at e
      exact h1 s c t e.1 (by rw [e.2]; rfl)
    | cons j a =>
      simp only [List.cons_append, List.cons.injEq] at e
      exact h2 a s c t b e.2

theorem apart_nil : Apart [] := by
  intro a s c t b e
  simp at e

theorem apart_append {a b : List Item} (ha : Apart a) (hb : Apart b)
    (h : ∀ s c t, a.getLast? = some (.text s) → b.head? = some (.text (c :: t)) → joins s c = false) :
    Apart (a ++ b) := by
  induction a with
  | nil => exact hb
  | cons i a ih =>
    rw [List.cons_append, apart_cons]
    rw [apart_cons] at ha
    cases a with
    | nil =>
      refine ⟨?_, hb⟩
      intro s c t hi hl
      exact h s c t (by rw [hi]; rfl) hl
    | cons j a =>
      refine ⟨fun s c t hi hl => ha.1 s c t hi hl, ih ha.2 ?_⟩
      intro s c t h1 h2
      exact h s c t (by rw [List.getLast?_cons_cons]; exact h1) h2

/-! ## Trees -/
open Knfmt.Expr (Ex yield Gram binop assignop prefixop incop)

/-- An operator of type `a` right before a token of type `b` makes another operator. -/
def Merges (a b : TT) : Prop :=
  (a = .plus ∧ (b = .plus ∨ b = .plusplus)) ∨ (a = .minus ∧ (b = .minus ∨ b = .minusminus)) ∨
    (a = .amp ∧ b = .amp)

/-- Trees without

* a prefix `+`, `-` or `&` whose operand begins with the same character;
* a division without spaces whose right operand begins with `*`;
* a period after a number. -/
def Clean (spaced : Expr.Tok → Bool) : Ex → Prop
  | .null | .lit _ | .recov _ => True
  | .un op e => Clean spaced e ∧ ∀ t, (yield e).head? = some t → ¬ Merges op.ty t.ty
  | .pre _ e | .post e _ | .parens _ e _ | .cast _ _ _ e | .sizeofE _ e | .sizeofP _ _ e _ | .concat e _ =>
    Clean spaced e
  | .bin l op r => Clean spaced l ∧ Clean spaced r ∧
      (op.ty = .slash → spaced op = false → ∀ t, (yield r).head? = some t → t.ty ≠ .star)
  | .tern c _ m _ t => Clean spaced c ∧ Clean spaced m ∧ Clean spaced t
  | .call f _ a _ | .squares f _ a _ => Clean spaced f ∧ Clean spaced a
  | .field l op r => Clean spaced l ∧ Clean spaced r ∧
      (op.ty = .period → ∀ t, (yield l).getLast? = some t → ¬ Number t.str)

theorem starter_char {c : Char} {t : List Char} {ty : TT} (h : IsToken (c :: t) ty) (hs : starter ty = true) :
    c ≠ '=' ∧ c ≠ '>' ∧ c ≠ '/' ∧ c ≠ '|' ∧ (c = '+' → ty = .plus ∨ ty = .plusplus) ∧
      (c = '-' → ty = .minus ∨ ty = .minusminus) ∧ (c = '&' → ty = .amp) ∧ (c = '*' → ty = .star) := by
  rcases starter_head h hs with ⟨x, hx, e⟩ | h
  · cases ty <;> first
      | exact absurd hs (by decide)
      | (exfalso; simp [opText] at hx; done)
      | (simp only [opText, Option.some.injEq] at hx
         rw [← hx] at e
         injection e with e _
         rw [e]
         decide)
  · refine ⟨?_, ?_, ?_, ?_, ?_, ?_, ?_, ?_⟩ <;> intro hc <;> rw [hc] at h <;> exact absurd h (by decide)

/-- A prefix operator and what its operand begins with. -/
theorem prefix_joins {op : Expr.Tok} {c : Char} {t : List Char} {ty : TT} (ho : IsToken op.str op.ty)
    (hp : prefixop op.ty = true) (h : IsToken (c :: t) ty) (hs : starter ty = true) (hm : ¬ Merges op.ty ty) :
    joins op.str c = false := by
  obtain ⟨c1, c2, _, _, c5, c6, c7, _⟩ := starter_char h hs
  have go : ∀ x : List Char, opText op.ty = some x → kind x = 0 → x ≠ ['.'] → x ≠ ['/'] →
      (∀ d ∈ nexts x, c ≠ d) → joins op.str c = false := by
    intro x hx hk h1 h2 hn
    rw [token_op ho hx]
    cases hj : joins x c with
    | false => rfl
    | true =>
      rcases joins_op hk hj with h | ⟨h, _⟩ | ⟨h, _⟩
      · exact absurd rfl (hn c h)
      · exact absurd h h1
      · exact absurd h h2
  have n1 : nexts ['!'] = ['='] := by decide +kernel
  have n2 : nexts ['~'] = [] := by decide +kernel
  have n3 : ∀ d ∈ nexts ['+'], d = '+' ∨ d = '=' := by decide +kernel
  have n4 : ∀ d ∈ nexts ['-'], d = '-' ∨ d = '=' ∨ d = '>' := by decide +kernel
  have n5 : ∀ d ∈ nexts ['*'], d = '=' := by decide +kernel
  have n6 : ∀ d ∈ nexts ['&'], d = '&' ∨ d = '=' := by decide +kernel
  have hty : op.ty = .exclaim ∨ op.ty = .tilde ∨ op.ty = .plus ∨ op.ty = .minus ∨ op.ty = .star ∨ op.ty = .amp := by
    revert hp
    cases op.ty <;> simp [prefixop]
  rcases hty with e | e | e | e | e | e
  · refine go ['!'] (by rw [e]; rfl) (by decide +kernel) (by decide) (by decide) ?_
    rw [n1]; intro d hd; simp only [List.mem_singleton] at hd; rw [hd]; exact c1
  · refine go ['~'] (by rw [e]; rfl) (by decide +kernel) (by decide) (by decide) ?_
    rw [n2]; intro d hd; simp at hd
  · refine go ['+'] (by rw [e]; rfl) (by decide +kernel) (by decide) (by decide) ?_
    intro d hd hc
    rcases n3 d hd with h | h
    · exact hm (Or.inl ⟨e, c5 (hc.trans h)⟩)
    · exact c1 (hc.trans h)
  · refine go ['-'] (by rw [e]; rfl) (by decide +kernel) (by decide) (by decide) ?_
    intro d hd hc
    rcases n4 d hd with h | h | h
    · exact hm (Or.inr (Or.inl ⟨e, c6 (hc.trans h)⟩))
    · exact c1 (hc.trans h)
    · exact c2 (hc.trans h)
  · refine go ['*'] (by rw [e]; rfl) (by decide +kernel) (by decide) (by decide) ?_
    intro d hd hc
    exact c1 (hc.trans (n5 d hd))
  · refine go ['&'] (by rw [e]; rfl) (by decide +kernel) (by decide) (by decide) ?_
    intro d hd hc
    rcases n6 d hd with h | h
    · exact hm (Or.inr (Or.inr ⟨e, c7 (hc.trans h)⟩))
    · exact c1 (hc.trans h)

theorem space_ops : ∀ k ∈ keywords, k.2.2.space = true → k.2.1 = .star ∨ k.2.1 = .slash ∨ k.2.1 = .pipe := by
  decide +kernel

/-- A binary operator without spaces and what its right operand begins with. -/
theorem tight_joins {C : Conf} {op : Expr.Tok} {c : Char} {t : List Char} {ty : TT} (ho : IsToken op.str op.ty)
    (hp : hasSpaces C op = false) (h : IsToken (c :: t) ty) (hs : starter ty = true)
    (hm : op.ty = .slash → C.spaced op = false → ty ≠ .star) :
    joins op.str c = false ∧ ∃ d, op.str = [d] ∧ (d = '*' ∨ d = '/' ∨ d = '|') := by
  unfold hasSpaces at hp
  simp only [Bool.or_eq_false_iff, Bool.not_eq_false'] at hp
  have hty : op.ty = .star ∨ op.ty = .slash ∨ op.ty = .pipe := by
    have := hp.1
    unfold spaceFlag at this
    rw [List.any_eq_true] at this
    obtain ⟨k, hk, h⟩ := this
    simp only [Bool.and_eq_true, decide_eq_true_eq] at h
    rw [← h.1]
    exact space_ops k hk h.2
  obtain ⟨c1, _, c3, c4, _, _, _, c8⟩ := starter_char h hs
  have n5 : ∀ d ∈ nexts ['*'], d = '=' := by decide +kernel
  have n7 : ∀ d ∈ nexts ['/'], d = '=' := by decide +kernel
  have n8 : ∀ d ∈ nexts ['|'], d = '|' ∨ d = '=' := by decide +kernel
  rcases hty with e | e | e
  · rw [token_op ho (x := ['*']) (by rw [e]; rfl)]
    refine ⟨?_, '*', rfl, Or.inl rfl⟩
    cases hj : joins ['*'] c with
    | false => rfl
    | true =>
      rcases joins_op (by decide +kernel) hj with h | ⟨h, _⟩ | ⟨h, _⟩
      · exact absurd (n5 c h) c1
      · exact absurd h (by decide)
      · exact absurd h (by decide)
  · rw [token_op ho (x := ['/']) (by rw [e]; rfl)]
    refine ⟨?_, '/', rfl, Or.inr (Or.inl rfl)⟩
    cases hj : joins ['/'] c with
    | false => rfl
    | true =>
      rcases joins_op (by decide +kernel) hj with h | ⟨h, _⟩ | ⟨_, h | h⟩
      · exact absurd (n7 c h) c1
      · exact absurd h (by decide)
      · exact absurd h c3
      · exact absurd (c8 h) (hm e hp.2)
  · rw [token_op ho (x := ['|']) (by rw [e]; rfl)]
    refine ⟨?_, '|', rfl, Or.inr (Or.inr rfl)⟩
    cases hj : joins ['|'] c with
    | false => rfl
    | true =>
      rcases joins_op (by decide +kernel) hj with h | ⟨h, _⟩ | ⟨h, _⟩
      · rcases n8 c h with h | h
        · exact absurd h c4
        · exact absurd h c1
      · exact absurd h (by decide)
      · exact absurd h (by decide)

end Knfmt.ExprDoc
