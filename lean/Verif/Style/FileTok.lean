import Verif.Style.FileLex
/-!
# The tokens of a text that is written from words, continued
-/
namespace Knfmt.Style

open Knfmt.Style.Spec (Space IsWord IsNum Value Written Word Numeric Valid Invalid)

/-- The token of a word. -/
def tokOf (w : List Char) : Tok :=
  match read (w ++ [' ']) with
  | .tok t _ => t
  | _ => ⟨.eof, [], 0⟩

theorem ends_blank : Ends [' '] := Or.inr ⟨' ', by simp, rfl⟩

theorem tokOf_eq {w : List Char} {t : Tok} {r : List Char} (h : read (w ++ [' ']) = .tok t r) : tokOf w = t := by
  unfold tokOf
  rw [h]

/-- What the type of the token of a value is. -/
structure TyOk (w : List Char) (t : Tok) : Prop where
  colon : t.ty ≠ .colon
  seq : t.ty ≠ .seq
  docBegin : t.ty ≠ .docBegin
  docEnd : t.ty ≠ .docEnd
  kw : ∀ v, t.ty = .kw v → Word w (Spec.name v)
  int : t.ty = .int → Numeric w ∨ Word w "Integer".toList

theorem tyOk_int {w : List Char} {x : List Char} {i : Int} (h : Numeric w) : TyOk w ⟨.int, x, i⟩ :=
  ⟨by simp, by simp, by simp, by simp, by simp, fun _ => Or.inl h⟩

theorem tyOk_keyword {w s : List Char} (hw : Word w s) (h : s ∉ [":".toList, "-".toList, "---".toList, "...".toList]) :
    TyOk w (keyword s) := by
  have hk := (keyword_ty s).2.2
  have key : ∀ ty x, (keyword s).ty = ty → tyName ty = some x → ty ≠ .unknown → s = x := by
    intro ty x e hx hu
    rcases hk with hk | hk
    · exact absurd (e.symm.trans hk) hu
    · rw [e, hx] at hk
      simpa using hk.symm
  simp only [List.mem_cons, List.not_mem_nil, or_false, not_or] at h
  refine ⟨?_, ?_, ?_, ?_, ?_, ?_⟩
  · intro e; exact h.1 (key _ _ e rfl (by simp))
  · intro e; exact h.2.1 (key _ _ e rfl (by simp))
  · intro e; exact h.2.2.1 (key _ _ e rfl (by simp))
  · intro e; exact h.2.2.2 (key _ _ e rfl (by simp))
  · intro v e; rw [← key _ _ e rfl (by simp)]; exact hw
  · intro e; right; rw [← key _ _ e rfl (by simp)]; exact hw

theorem tyOk_quoted {w s : List Char} (hw : Word w s) (h : s ∉ [":".toList, "-".toList, "---".toList, "...".toList]) :
    TyOk w (quotedTok s) := by
  rcases quotedTok_ty s with e | e
  · exact ⟨by simp [e], by simp [e], by simp [e], by simp [e], by simp [e], by simp [e]⟩
  · rw [e]; exact tyOk_keyword hw h

theorem isWord_not_special {w : List Char} (h : IsWord w) :
    w ∉ [":".toList, "-".toList, "---".toList, "...".toList] := by
  obtain ⟨c, s, rfl, hc, -⟩ := h
  have : c ≠ ':' ∧ c ≠ '-' ∧ c ≠ '.' := by
    refine ⟨?_, ?_, ?_⟩ <;> (rintro rfl; revert hc; decide)
  intro hm
  simp only [List.mem_cons, List.not_mem_nil, or_false] at hm
  rcases hm with hm | hm | hm | hm
  · exact this.1 (List.cons.inj hm).1
  · exact this.2.1 (List.cons.inj hm).1
  · exact this.2.1 (List.cons.inj hm).1
  · exact this.2.2 (List.cons.inj hm).1

theorem clean_append {c : Char} {s r : List Char} (h : c ∉ [' ', '\t', '\n', '\r', '\x0c']) : Clean (c :: s ++ r) := by
  intro x t e
  simp only [List.cons_append, List.cons.injEq] at e
  rw [← e.1]; exact h

theorem digit_clean {c : Char} (h : '0' ≤ c ∧ c ≤ '9') : c ∉ [' ', '\t', '\n', '\r', '\x0c'] := by
  simp only [List.mem_cons, List.not_mem_nil, or_false, not_or]
  refine ⟨?_, ?_, ?_, ?_, ?_⟩ <;> (rintro rfl; revert h; decide)

/-- The token of a value. -/
theorem value_tok {w : List Char} (h : Value w) :
    (∀ r, Ends r → read (w ++ r) = .tok (tokOf w) r) ∧ (∀ r, Clean (w ++ r)) ∧ w ≠ [] ∧ TyOk w (tokOf w) := by
  suffices H : ∃ t, (∀ r, Ends r → read (w ++ r) = .tok t r) ∧ (∀ r, Clean (w ++ r)) ∧ w ≠ [] ∧ TyOk w t by
    obtain ⟨t, h1, h2⟩ := H
    rw [tokOf_eq (h1 [' '] ends_blank)]
    exact ⟨h1, h2⟩
  cases h with
  | word h =>
    refine ⟨keyword w, fun r hr => read_word h hr, ?_, ?_, tyOk_keyword (Or.inl rfl) (isWord_not_special h)⟩
    · obtain ⟨c, s, rfl, hc, hs⟩ := isWord_parts h
      exact fun r => clean_append (alpha_not_digit hc).2.2.2.2
    · obtain ⟨c, s, rfl, -, -⟩ := h
      simp
  | number h =>
    refine ⟨_, fun r hr => by simpa using read_num (neg := false) h hr, ?_, h.1, tyOk_int ⟨w, h, Or.inl rfl⟩⟩
    intro r
    obtain ⟨h1, h2⟩ := h
    cases w with
    | nil => exact absurd rfl h1
    | cons c s => exact clean_append (digit_clean (h2 c (by simp)))
  | @negative d h =>
    refine ⟨_, fun r hr => by simpa using read_num (neg := true) h hr, ?_, by simp,
      tyOk_int ⟨d, h, Or.inr (Or.inl rfl)⟩⟩
    exact fun r => clean_append (by decide)
  | @quotedNumber d h =>
    refine ⟨_, fun r hr => by simpa using read_quotedNum (neg := false) (r := r) h, ?_, by simp,
      tyOk_int ⟨d, h, Or.inr (Or.inr (Or.inl rfl))⟩⟩
    exact fun r => clean_append (by decide)
  | @quotedNegative d h =>
    refine ⟨_, fun r hr => by simpa using read_quotedNum (neg := true) (r := r) h, ?_, by simp,
      tyOk_int ⟨d, h, Or.inr (Or.inr (Or.inr rfl))⟩⟩
    exact fun r => clean_append (by decide)
  | @quoted s h1 h2 h3 =>
    refine ⟨quotedTok s, fun r hr => read_quoted h1 h2, ?_, by simp, tyOk_quoted (Or.inr rfl) ?_⟩
    · exact fun r => clean_append (by decide)
    · intro hm
      simp only [List.mem_cons, List.not_mem_nil, or_false, not_or] at hm h3
      rcases hm with rfl | rfl | rfl | rfl
      · exact h3.1 rfl
      · exact (h2 '-' [] rfl).2 rfl
      · exact (h2 '-' ['-', '-'] rfl).2 rfl
      · exact h3.2 rfl

theorem tokOf_word {w : List Char} (h : IsWord w) : tokOf w = keyword w := tokOf_eq (read_word h ends_blank)

theorem name_word_all : ∀ k ∈ all, (match Spec.name k with
    | c :: s => isAlpha c && s.all wordChar && s.all (· ≠ '\'')
    | [] => false) = true := by decide +kernel

theorem name_word (k : Kw) : IsWord (Spec.name k) := by
  have h := name_word_all k (mem_all k)
  revert h
  cases hn : Spec.name k with
  | nil => simp
  | cons c s =>
    intro h
    simp only [Bool.and_eq_true, List.all_eq_true, isAlpha, Bool.or_eq_true, decide_eq_true_eq] at h
    refine ⟨c, s, rfl, by grind, ?_⟩
    intro x hx
    have := h.1.2 x hx
    simp only [wordChar, isSpace, Bool.and_eq_true, Bool.not_eq_true', Bool.or_eq_false_iff,
      decide_eq_false_iff_not, decide_eq_true_eq] at this
    simp only [List.mem_cons, List.not_mem_nil, or_false, not_or]
    grind

theorem name_quote (k : Kw) : '\'' ∉ Spec.name k ∧
    ∀ c r, Spec.name k = c :: r → ¬ ('0' ≤ c ∧ c ≤ '9') ∧ c ≠ '-' := by
  have h := name_word_all k (mem_all k)
  revert h
  cases hn : Spec.name k with
  | nil => simp
  | cons c s =>
    intro h
    simp only [Bool.and_eq_true, List.all_eq_true, decide_eq_true_eq] at h
    obtain ⟨h1, h2, h3, -⟩ := alpha_not_digit (Or.inl h.1.1)
    constructor
    · simp only [List.mem_cons, not_or]
      exact ⟨fun e => h3 e.symm, fun hm => h.2 _ hm rfl⟩
    · intro c' r e
      simp only [List.cons.injEq] at e
      rw [← e.1]
      refine ⟨fun hd => ?_, h2⟩
      rw [isDigit_iff.mpr hd] at h1
      simp at h1

theorem tokOf_name {k : Kw} (h : k ≠ .CaseInsensitive) : tokOf (Spec.name k) = ⟨.kw k, Spec.name k, 0⟩ := by
  rw [tokOf_word (name_word k), keyword_name h]

/-- The type of the token of a name, also between quotes. -/
theorem tokOf_named {k : Kw} {w : List Char} (h : k ≠ .CaseInsensitive) (hw : Word w (Spec.name k)) :
    (tokOf w).ty = .kw k := by
  rcases hw with rfl | rfl
  · rw [tokOf_name h]
  · rw [tokOf_eq (read_quoted (name_quote k).1 (name_quote k).2)]
    unfold quotedTok
    rw [keyword_name h]
    simp

/-- The token of a number. -/
theorem tokOf_number {d w : List Char} (hd : IsNum d) (hw : Word w d) (h : Spec.decimal d ≤ 2147483647) :
    (tokOf w).ty = .int ∧ (tokOf w).int = (Spec.decimal d : Int) := by
  have hv : wrap (digits 0 d * 1) = (Spec.decimal d : Int) := by
    have h2 : digits 0 d = (Spec.decimal d : Int) := digits_eq d 0 h
    rw [h2, Int.mul_one]
    exact wrap_id (by omega) (by omega)
  rcases hw with rfl | rfl
  · have h1 := read_num (neg := false) hd ends_blank
    simp only [Bool.false_eq_true, if_false, List.nil_append] at h1
    rw [tokOf_eq h1]
    exact ⟨rfl, hv⟩
  · have h1 := read_quotedNum (neg := false) (r := [' ']) hd
    simp only [Bool.false_eq_true, if_false] at h1
    rw [tokOf_eq (w := '\'' :: d ++ ['\'']) (by simpa using h1)]
    exact ⟨rfl, by simpa using hv⟩

theorem tokOf_colon : (tokOf [':']).ty = .colon := by
  rw [tokOf_eq (read_colon (r := [' ']) (by simp))]
  decide

theorem tokOf_seq : (tokOf ['-']).ty = .seq := by
  rw [tokOf_eq (read_dashes (Or.inl rfl) ends_blank (Or.inl (by simp)))]
  decide

theorem tokOf_begin : (tokOf "---".toList).ty = .docBegin := by
  rw [show "---".toList = ['-', '-', '-'] from rfl, tokOf_eq (read_dashes (Or.inr rfl) ends_blank (Or.inl (by simp)))]
  decide

theorem tokOf_finish : (tokOf "...".toList).ty = .docEnd := by
  rw [tokOf_eq (read_dots ends_blank)]
  decide

/-- The tokens of a written text are those of its words. -/
theorem written_tokenize {ws : List (List Char)} {text : List Char} (h : Written ws text) :
    tokenize text = some (ws.map tokOf) := by
  induction h with
  | @nil g hg =>
    refine tokenize_eof ?_
    have := read_space (s := []) hg (by intro c r e; simp at e)
    rw [List.append_nil] at this
    rw [this, read_clean (by intro c r e; simp at e)]
    simp [readAt, readInteger, integerBody]
  | @comment g b hg hb =>
    refine tokenize_eof ?_
    have hc : Clean ('#' :: b) := by
      intro c r e
      simp only [List.cons.injEq] at e
      rw [← e.1]; decide
    rw [read_space hg hc, read_clean hc, readAt, readInteger_other (by decide) (by decide) (by decide)]
    simp only [if_true]
    rw [afterLine_none hb]
  | @colon g r ws hg hw hr ih =>
    have hc : Clean (':' :: r) := by
      intro c t e
      simp only [List.cons.injEq] at e
      rw [← e.1]; decide
    have h1 : read (g ++ ':' :: r) = .tok (tokOf [':']) r := by
      rw [read_space hg hc, read_colon hr, tokOf_eq (read_colon (r := [' ']) (by simp))]
    rw [tokenize_tok h1, ih]
    rfl
  | @word g w r ws hg hv hw hr ih =>
    have hE : Ends r := by
      rcases hr with hr | hr
      · exact Or.inl hr.1
      · exact Or.inr hr
    have h1 : read (w ++ r) = .tok (tokOf w) r ∧ Clean (w ++ r) := by
      rcases hv with hv | hv
      · exact ⟨(value_tok hv).1 r hE, (value_tok hv).2.1 r⟩
      · simp only [List.mem_cons, List.not_mem_nil, or_false] at hv
        rcases hv with rfl | rfl | rfl
        · have hne : r ≠ [] := by
            rintro rfl
            rcases hr with hr | ⟨c, _, hr⟩
            · exact hr.2 rfl
            · simp at hr
          have e := tokOf_eq (read_dashes (Or.inl rfl) ends_blank (Or.inl (by simp)))
          exact ⟨by rw [show "-".toList = ['-'] from rfl, e]; exact read_dashes (Or.inl rfl) hE (Or.inl hne),
            clean_append (by decide)⟩
        · have e := tokOf_eq (read_dashes (Or.inr rfl) ends_blank (Or.inl (by simp)))
          exact ⟨by rw [show "---".toList = ['-', '-', '-'] from rfl, e]
                    exact read_dashes (Or.inr rfl) hE (Or.inr (by simp)), clean_append (by decide)⟩
        · have e := tokOf_eq (read_dots ends_blank)
          exact ⟨by rw [e]; exact read_dots hE, clean_append (by decide)⟩
    have h2 : read (g ++ w ++ r) = .tok (tokOf w) r := by
      rw [List.append_assoc, read_space hg h1.2, h1.1]
    rw [tokenize_tok h2, ih]
    rfl

end Knfmt.Style
