import Verif.Style.Reads
/-!
# The options of a .clang-format file
-/
namespace Knfmt.Style

open Knfmt.Style.Spec (IsWord IsNum Value Written Word Numeric Valid Invalid Entry words OtherKey Plain Ignored
  update Reads Sets Means Space Conf)

/-- A file is read, and this is the style it gives; `none` if there is no file. -/
def Parsed (env : Env) (text : Option (List Char)) (st : State) : Prop := ∃ n, parseBuffer env n text = some st

theorem bounded (env : Env) : ∃ b, Bounded env b := by
  have key : ∀ l : List Kw, ∃ b, ∀ k ∈ l, ∀ text, env.dump k = some text → text.length ≤ b := by
    intro l
    induction l with
    | nil => exact ⟨0, by simp⟩
    | cons x l ih =>
      obtain ⟨b, hb⟩ := ih
      cases hx : env.dump x with
      | none =>
        refine ⟨b, ?_⟩
        intro k hk text ht
        rcases List.mem_cons.mp hk with rfl | hk
        · rw [hx] at ht; simp at ht
        · exact hb k hk text ht
      | some t =>
        refine ⟨max b t.length, ?_⟩
        intro k hk text ht
        rcases List.mem_cons.mp hk with rfl | hk
        · rw [hx] at ht
          simp only [Option.some.injEq] at ht
          subst ht
          exact Nat.le_max_right _ _
        · exact Nat.le_trans (hb k hk text ht) (Nat.le_max_left _ _)
  obtain ⟨b, hb⟩ := key all
  exact ⟨b, fun k text ht => hb k (mem_all k) text ht⟩

/-- How often the loop is entered at most: for each byte of the file, and of a style it is based on. -/
theorem parse_bound {env : Env} {b n : Nat} {text : List Char} (hb : Bounded env b) (hn : b + text.length < n) :
    ∃ st, parseBuffer env n (some text) = some st := by
  unfold parseBuffer parseYaml
  simp only
  cases ht : tokenize text with
  | none => exact ⟨defaults, rfl⟩
  | some ts =>
    have hl := tokenize_length ht
    obtain ⟨o, h1, -, -⟩ := documents_total hb (n - 1) false defaults ts (by
      simp only [show defaults.depth = 0 from rfl, if_true]; omega)
    rw [show n - 1 + 1 = n by omega] at h1
    simp only [h1]
    exact ⟨_, rfl⟩

/-- C45: whatever is in the file, it is read and gives exactly one style. -/
theorem style_total (env : Env) (text : Option (List Char)) :
    ∃ st, Parsed env text st ∧ ∀ st', Parsed env text st' → st' = st := by
  have h : ∃ st, Parsed env text st := by
    cases text with
    | none => exact ⟨_, 0, rfl⟩
    | some text =>
      obtain ⟨b, hb⟩ := bounded env
      obtain ⟨st, hst⟩ := parse_bound (n := b + text.length + 1) (text := text) hb (by omega)
      exact ⟨st, _, hst⟩
  obtain ⟨st, n, hn⟩ := h
  refine ⟨st, ⟨n, hn⟩, ?_⟩
  rintro st' ⟨m, hm⟩
  have h1 := parseBuffer_mono (Nat.le_max_left n m) hn
  have h2 := parseBuffer_mono (Nat.le_max_right n m) hm
  rw [h1] at h2
  simpa using h2.symm

theorem parsed_unique {env : Env} {text : Option (List Char)} {st st' : State} (h : Parsed env text st)
    (h' : Parsed env text st') : st' = st := by
  obtain ⟨s, _, hs⟩ := style_total env text
  rw [hs st h, hs st' h']

theorem default_eq : defaultVals = Spec.default := by
  funext k
  cases k <;> rfl

/-- C45: without a file all options have their default. -/
theorem style_no_file {env : Env} {st : State} (h : Parsed env none st) {k : Kw} (hk : k ≠ .BasedOnStyle) :
    style st k = Spec.default k := by
  obtain ⟨n, h⟩ := h
  simp only [parseBuffer, Option.some.injEq] at h
  subst h
  unfold style set
  simp only [if_neg hk]
  rw [← default_eq]
  rfl

theorem tokMeans_means {k : Kw} {c : Tok} {v : Val} {w : List Char} (h : TokMeans k c v) (hl : Lexeme c w) :
    Means k w v := by
  cases h with
  | named hv hc => exact .named hv (lexeme_kw hl hc)
  | number hk hc =>
    rcases lexeme_int hl hc with hn | ⟨h0, hn⟩
    · exact .number hk hn
    · rw [h0]; exact .integer hk hn

theorem src_sets {text : List Char} {ts : List Tok} {k : Kw} {v : Val} (ht : tokenize text = some ts)
    (h : Src ts k v) : Sets text k v := by
  obtain ⟨pre, a, b, c, post, rfl, ha, hb, hc⟩ := h
  obtain ⟨p, wa, g1, wb, g2, wc, q, h1, l1, k1, l2, k2, l3⟩ := tokenize_three ht
  exact ⟨p, wa, g1, wb, g2, wc, q, h1, lexeme_kw l1 ha, k1, lexeme_colon l2 hb, k2, tokMeans_means hc l3⟩

/-- C45: the value of an option is its default, or something in the file sets the option to it, or the file
names a style it is based on and something in that one sets the option to it. -/
theorem style_from {env : Env} {text : List Char} {st : State} (h : Parsed env (some text) st) {k : Kw}
    (hk : k ≠ .IncludeCategories) :
    style st k = Spec.default k ∨ Sets text k (style st k) ∨
      ∃ b base, Sets text .BasedOnStyle (.kw b) ∧ env.dump b = some base ∧ Sets base k (style st k) := by
  obtain ⟨b, hb⟩ := bounded env
  cases ht : tokenize text with
  | none =>
    obtain ⟨n, h⟩ := h
    simp only [parseBuffer, parseYaml, ht, Option.map_some, Option.some.injEq] at h
    subst h
    left
    rw [← default_eq]
    rfl
  | some ts =>
    obtain ⟨o, h1, -, h2⟩ := documents_total hb (b + ts.length) false defaults ts (by
      simp only [show defaults.depth = 0 from rfl, if_true]; omega)
    have h3 : Parsed env (some text) o.2.1 := by
      refine ⟨b + ts.length + 1, ?_⟩
      simp only [parseBuffer, parseYaml, ht, h1, Option.map_some]
    have h4 := parsed_unique h3 h
    subst h4
    rcases h2.vals k hk with e | e | ⟨_, x, base, us, e1, e2, e3, e4⟩
    · left
      rw [← default_eq]
      exact e
    · exact Or.inr (Or.inl (src_sets ht e))
    · exact Or.inr (Or.inr ⟨x, base, src_sets ht e1, e2, src_sets e3 e4⟩)

/-- C45: an option that the file does not set, and that is not set by a style it is based on, keeps its
default. What is missing: the meaning of a number is its value modulo 2³², so that a number that is not valid
is used, and `Integer` is a number, see `negative_number` and `integer_word`. -/
theorem style_default_partial {env : Env} {text : List Char} {st : State} (h : Parsed env (some text) st) {k : Kw}
    (hk : k ≠ .IncludeCategories) (h1 : ∀ v, ¬ Sets text k v)
    (h2 : ∀ b base v, Sets text .BasedOnStyle (.kw b) → env.dump b = some base → ¬ Sets base k v) :
    style st k = Spec.default k := by
  rcases style_from h hk with e | e | ⟨b, base, e1, e2, e3⟩
  · exact e
  · exact absurd e (h1 _)
  · exact absurd e3 (h2 b base _ e1 e2)

/-- C63: reading a text that is written from entries gives what the entries mean. -/
theorem parsed_reads {env : Env} {text : List Char} {es : List Entry} {c : Conf} {st : State}
    (hw : Written (es.flatMap words) text) (hr : Reads env 0 false true ⟨Spec.default, []⟩ es c)
    (h : Parsed env (some text) st) : st = ⟨c.vals, none, 0, c.cats⟩ := by
  obtain ⟨n, hn⟩ := ((reads_done hr (written_lexical hw)).1 rfl).1
  have ht := written_tokenize hw
  rw [toksOf_words] at ht
  have h3 : Parsed env (some text) ⟨c.vals, none, 0, c.cats⟩ := by
    refine ⟨n, ?_⟩
    have hd : defaults = ⟨Spec.default, none, 0, []⟩ := by
      unfold defaults
      rw [default_eq]
    simp only [parseBuffer, parseYaml, ht, hd, hn, Option.map_some]
  exact parsed_unique h3 h

/-- C63: the values of the options. -/
theorem style_reads {env : Env} {text : List Char} {es : List Entry} {c : Conf} {st : State}
    (hw : Written (es.flatMap words) text) (hr : Reads env 0 false true ⟨Spec.default, []⟩ es c)
    (h : Parsed env (some text) st) (k : Kw) : style st k = c.vals k := by
  rw [parsed_reads hw hr h]
  rfl

/-- C63: the categories of includes. -/
theorem categories_reads {env : Env} {text : List Char} {es : List Entry} {c : Conf} {st : State}
    (hw : Written (es.flatMap words) text) (hr : Reads env 0 false true ⟨Spec.default, []⟩ es c)
    (h : Parsed env (some text) st) : st.cats = c.cats := by
  rw [parsed_reads hw hr h]

/-- C63: what entries mean is unique, if they mean something. -/
theorem reads_unique {env : Env} {text : List Char} {es : List Entry} {c c' : Conf}
    (hw : Written (es.flatMap words) text) (hr : Reads env 0 false true ⟨Spec.default, []⟩ es c)
    (hr' : Reads env 0 false true ⟨Spec.default, []⟩ es c') : c = c' := by
  obtain ⟨st, hst, -⟩ := style_total env (some text)
  have h1 := parsed_reads hw hr hst
  rw [parsed_reads hw hr' hst] at h1
  cases c; cases c'
  simp only [State.mk.injEq] at h1
  simp [h1]

/-! ## One line -/

/-- The lines of options and their values. -/
def lines (l : List (Kw × List Char)) : List Char :=
  l.flatMap fun p => Spec.name p.1 ++ ": ".toList ++ p.2 ++ "\n".toList

/-- The value of an option is the last one given. -/
def lastOf (l : List (Kw × List Char × Val)) (k : Kw) (d : Val) : Val :=
  l.foldl (fun v p => if p.1 = k then p.2.2 else v) d

theorem valid_value {k : Kw} {w : List Char} {v : Val} (h : Valid k w v) : Value w := by
  cases h with
  | @named x _ _ hw =>
    rcases hw with rfl | rfl
    · exact .word (name_word x)
    · refine .quoted (name_quote x).1 (name_quote x).2 ?_
      have := isWord_not_special (name_word x)
      simp only [List.mem_cons, List.not_mem_nil, or_false, not_or] at this ⊢
      exact ⟨this.1, this.2.2.2⟩
  | number _ hd hw _ _ =>
    rcases hw with rfl | rfl
    · exact .number hd
    · exact .quotedNumber hd

theorem written_head {ws : List (List Char)} {r : List Char} (h : Written ws r) (w : List Char)
    (hw : Value w) : Written ([':'] :: w :: ws) ([':', ' '] ++ w ++ '\n' :: r) := by
  have h1 : Written (w :: ws) ([' '] ++ w ++ '\n' :: r) := by
    refine .word (.blank (by simp) .nil) (Or.inl hw) ?_ (Or.inr ⟨'\n', by simp, rfl⟩)
    cases h with
    | nil hg => exact .nil (.blank (by simp) hg)
    | comment hg hb => rw [← List.cons_append]; exact .comment (.blank (by simp) hg) hb
    | colon hg hr hc => rw [← List.cons_append]; exact .colon (.blank (by simp) hg) hr hc
    | word hg hv hr hc => rw [← List.cons_append, ← List.cons_append]; exact .word (.blank (by simp) hg) hv hr hc
  exact .colon (g := []) .nil h1 (by simp)

theorem written_lines (l : List (Kw × List Char × Val)) (h : ∀ p ∈ l, Valid p.1 p.2.1 p.2.2) :
    Written ((l.map fun p => Entry.option p.1 p.2.1).flatMap words) (lines (l.map fun p => (p.1, p.2.1))) := by
  induction l with
  | nil => exact .nil .nil
  | cons p l ih =>
    have ih := ih fun q hq => h q (by simp [hq])
    have hv := valid_value (h p (by simp))
    have h1 := written_head ih p.2.1 hv
    have h2 := Written.word (g := []) .nil (Or.inl (.word (name_word p.1))) h1 (Or.inr ⟨':', by simp, rfl⟩)
    simpa [lines, words] using h2

/-- C63: in a file of options and valid values, one per line, the last value of each option counts. -/
theorem style_lines {env : Env} {l : List (Kw × List Char × Val)} {st : State}
    (hl : ∀ p ∈ l, Spec.isBrace p.1 = false ∧ Spec.isCategory p.1 = false ∧ Valid p.1 p.2.1 p.2.2 ∧
      p.1 ≠ .Language ∧ p.1 ≠ .BasedOnStyle)
    (h : Parsed env (some (lines (l.map fun p => (p.1, p.2.1)))) st) (k : Kw) :
    style st k = lastOf l k (Spec.default k) := by
  have hw := written_lines l fun p hp => (hl p hp).2.2.1
  have key : ∀ (l : List (Kw × List Char × Val)) (f : Conf) (s : Bool), (∀ p ∈ l, Spec.isBrace p.1 = false ∧
      Spec.isCategory p.1 = false ∧ Valid p.1 p.2.1 p.2.2 ∧ p.1 ≠ .Language ∧ p.1 ≠ .BasedOnStyle) →
      Reads env 0 false s f (l.map fun p => Entry.option p.1 p.2.1) ⟨fun k => lastOf l k (f.vals k), f.cats⟩ := by
    intro l
    induction l with
    | nil => intro f s _; exact .nil
    | cons p l ih =>
      intro f s hl
      obtain ⟨h1, h2, h3, h4, h5⟩ := hl p (by simp)
      have := ih (f.update p.1 p.2.2) false fun q hq => hl q (by simp [hq])
      have he : (fun k => lastOf (p :: l) k (f.vals k)) = fun k => lastOf l k ((f.update p.1 p.2.2).vals k) := by
        funext k
        simp only [lastOf, List.foldl_cons, Conf.update, update, eq_comm]
      rw [he]
      exact .set h1 h2 h3 (fun e => absurd e h4) (fun e => absurd e h5) this
  exact style_reads hw (key l ⟨Spec.default, []⟩ true hl) h k

end Knfmt.Style
