import Verif.Doc.Fits
/-!
# Printing tokens and comments while nothing has to be broken (C89)

`Laid` says what it means that no token is behind a line comment on the same line. `wp` follows the printer
through a document all of whose groups fit, and `exec_laid` proves that it tells the truth.
-/
namespace Knfmt.Doc.Spec

/-- A token or a comment, as it is printed. -/
structure Piece where
  code : Bool
  /-- everything up to the end of the line belongs to it -/
  line : Bool
  text : List Char
deriving DecidableEq, Repr

/-- White space. -/
def white (c : Char) : Bool := c = ' ' || c = '\t' || c = '\n'

/-- **Reading a text from the left to the right**, it consists of the given tokens and comments with white space
between them. The last argument says that a line comment has not ended yet: the next token or comment must not come
before the end of the line. -/
inductive Laid : List Piece → List Char → Bool → Prop where
  | start : Laid [] [] false
  | white {ps s o c} : Laid ps s o → white c = true → Laid ps (s ++ [c]) (o && decide (c ≠ '\n'))
  | piece {ps s p} : Laid ps s false → Laid (ps ++ [p]) (s ++ p.text) p.line

end Knfmt.Doc.Spec

namespace Knfmt.Doc
open Knfmt.Util Knfmt.Doc.Spec

/-- A text that does not end with white space. -/
def Firm (s : List Char) : Prop := ∃ q d, s = q ++ [d] ∧ white d = false

theorem blank_white {c : Char} (h : blank c = true) : white c = true := by
  simp only [blank, white, Bool.or_eq_true, decide_eq_true_eq] at *
  exact Or.inl h

theorem laid_whites {ps : List Piece} {s : List Char} {o : Bool} (h : Laid ps s o) (w : List Char)
    (hw : ∀ c ∈ w, blank c = true) : Laid ps (s ++ w) o := by
  induction w generalizing s with
  | nil => simpa using h
  | cons c w ih =>
    have hc := hw c (by simp)
    have h2 := Laid.white h (blank_white hc)
    have e : (o && decide (c ≠ '\n')) = o := by
      have : c ≠ '\n' := by rintro rfl; exact absurd hc (by decide)
      simp [this]
    rw [e] at h2
    have := ih h2 (fun x hx => hw x (by simp [hx]))
    simpa using this

theorem laid_unblank {ps : List Piece} {t : List Char} {o : Bool} (hf : ∀ p ∈ ps, Firm p.text) (h : Laid ps t o)
    {s : List Char} {c : Char} (e : t = s ++ [c]) (hc : blank c = true) : Laid ps s o := by
  cases h with
  | start => simp at e
  | @white _ s' o' c' h' hw =>
    obtain ⟨rfl, h2⟩ := List.append_inj' e rfl
    simp only [List.cons.injEq, and_true] at h2
    subst h2
    have : c' ≠ '\n' := by rintro rfl; exact absurd hc (by decide)
    simpa [this] using h'
  | @piece ps' s' p h' =>
    obtain ⟨q, d, hq, hd⟩ := hf p (by simp)
    rw [hq, ← List.append_assoc] at e
    obtain ⟨_, h2⟩ := List.append_inj' e rfl
    simp only [List.cons.injEq, and_true] at h2
    subst h2
    rw [blank_white hc] at hd
    cases hd

theorem laid_drop {ps : List Piece} {o : Bool} (hf : ∀ p ∈ ps, Firm p.text) (w b : List Char)
    (h : Laid ps (w ++ b).reverse o) (hw : ∀ c ∈ w, blank c = true) : Laid ps b.reverse o := by
  induction w with
  | nil => exact h
  | cons c w ih =>
    refine ih (laid_unblank hf h (c := c) (by simp) (hw c (by simp))) fun x hx => hw x (by simp [hx])

theorem trimLoop_col (b : List Char) (col : Nat) : (trimLoop b col).2 ≤ col := by
  induction b generalizing col with
  | nil => exact Nat.le_refl _
  | cons c b ih =>
    unfold trimLoop
    split
    · exact Nat.le_trans (ih _) (Nat.sub_le _ _)
    · exact Nat.le_refl _

theorem advance_mono (c : Char) {a b : Nat} (h : a ≤ b) : Knfmt.Spec.advance a c ≤ Knfmt.Spec.advance b c := by
  unfold Knfmt.Spec.advance Knfmt.Spec.nextTabStop
  split
  · omega
  · split <;> omega

theorem width_mono (s : List Char) {a b : Nat} (h : a ≤ b) : strwidth s a ≤ strwidth s b := by
  rw [width_column, width_column]
  induction s generalizing a b with
  | nil => exact h
  | cons c s ih =>
    rw [Knfmt.Util.column_cons, Knfmt.Util.column_cons]
    exact ih (advance_mono c h)

/-- What is known about the printer: a line break is pending, a line comment has not ended, a bound for the column and
one for the parentheses to align after. -/
structure Pos where
  p : Bool
  o : Bool
  c : Nat
  par : Nat

/-- The text begins a comment that ends with the line. -/
def slashes (s : List Char) : Bool := (s.dropWhile blank).take 2 = ['/', '/']

/-- A text without the blanks at its ends. -/
def core (s : List Char) : List Char := ((s.dropWhile blank).reverse.dropWhile blank).reverse

/-- The pieces of a document. -/
def pieces : Doc → List Piece
  | .seq a b => pieces a ++ pieces b
  | .group d | .indent _ d => pieces d
  | .literal s (some _) => [⟨true, false, s⟩]
  | .verbatim s _ => [⟨false, slashes s, core s⟩]
  | _ => []

/-- A token: it does not end with white space. -/
def TokenText (s : List Char) : Prop := Firm s

/-- A comment: blanks, something that neither begins nor ends with white space, and blanks. -/
def CommentText (s : List Char) : Prop := Firm (core s) ∧ s.getLast? ≠ some '\n'

/-- **What has to hold so that `Q` holds after printing a document**: `lim` is the column limit, `I` the largest
indentation and `K` the largest number of parentheses to align after. -/
def wp (lim I K : Nat) : Doc → (Pos → Prop) → Pos → Prop
  | .nil, Q, s => Q s
  | .seq a b, Q, s => wp lim I K a (wp lim I K b Q) s
  | .group d, Q, s => wp lim I K d Q s
  | .indent v d, Q, s =>
    (v = 2 ^ 30 ∧ s.par + 1 ≤ K ∧ wp lim I K d Q { s with par := s.par + 1 }) ∨ (v ≤ 0 ∧ wp lim I K d Q s)
  | .literal x none, Q, s => x = [' '] ∧ s.c + 1 ≤ lim ∧ Q { s with c := s.c + 1 }
  | .literal x (some _), Q, s =>
    TokenText x ∧ (s.o = true → s.p = true) ∧ strwidth x s.c ≤ lim ∧ Q ⟨false, false, strwidth x s.c, s.par⟩
  | .verbatim x _, Q, s =>
    CommentText x ∧ (s.o = true → s.p = true) ∧ strwidth x s.c ≤ lim ∧
      Q ⟨false, slashes x, strwidth x s.c, s.par⟩
  | .line, Q, s => s.c + 1 ≤ lim ∧ Q { s with c := s.c + 1 }
  | .softline _, Q, s => Q s
  | .hardline, Q, s => s.p = true ∧ Q ⟨false, false, I + K, s.par⟩
  | .optline, Q, s => Q ⟨true, s.o, I + K, s.par⟩
  | _, _, _ => False

theorem wp_mono {lim I K : Nat} {d : Doc} {Q R : Pos → Prop} (h : ∀ s, Q s → R s) {s : Pos}
    (hw : wp lim I K d Q s) : wp lim I K d R s := by
  induction d generalizing Q R s with
  | seq a b iha ihb => exact iha (fun s hs => ihb h hs) hw
  | group d ih => exact ih h hw
  | indent v d ih =>
    rcases hw with ⟨h1, h2, h3⟩ | ⟨h1, h2⟩
    · exact Or.inl ⟨h1, h2, ih h h3⟩
    · exact Or.inr ⟨h1, ih h h2⟩
  | literal x t => cases t with
    | none => exact ⟨hw.1, hw.2.1, h _ hw.2.2⟩
    | some t => exact ⟨hw.1, hw.2.1, hw.2.2.1, h _ hw.2.2.2⟩
  | verbatim x t => exact ⟨hw.1, hw.2.1, hw.2.2.1, h _ hw.2.2.2⟩
  | line => exact ⟨hw.1, h _ hw.2⟩
  | hardline => exact ⟨hw.1, h _ hw.2⟩
  | nil => exact h _ hw
  | softline n => exact h _ hw
  | optline => exact h _ hw
  | _ => exact hw

/-! ### Everything fits -/

theorem fitCheck_ok {env : Env} {φ : FitSt} (h : φ.col ≤ env.limit) : fitCheck env φ = φ := by
  unfold fitCheck
  rw [if_neg (by omega)]

theorem fitsWalk_ok {env : Env} {I K : Nat} {d : Doc} {Q : Pos → Prop} {s : Pos} {φ : FitSt}
    (hw : wp env.limit I K d Q s) (hp : s.p = false) (hc : φ.col ≤ s.c) (hl : φ.col ≤ env.limit) (ho : 0 < φ.optline)
    (hs : φ.stop = false) (hf : φ.fits = true) :
    (fitsWalk env d φ).fits = true ∧ ((fitsWalk env d φ).stop = false →
      ∃ s', Q s' ∧ s'.p = false ∧ (fitsWalk env d φ).col ≤ s'.c ∧ (fitsWalk env d φ).col ≤ env.limit ∧
        0 < (fitsWalk env d φ).optline) := by
  induction d generalizing Q s φ with
  | nil => rw [fitsWalk]; simp only [hs, Bool.false_eq_true, if_false]; exact ⟨hf, fun _ => ⟨s, hw, hp, hc, hl, ho⟩⟩
  | seq a b iha ihb =>
    rw [fitsWalk]; simp only [hs, Bool.false_eq_true, if_false]
    have h1 := iha hw hp hc hl ho hs hf
    cases hst : (fitsWalk env a φ).stop with
    | true =>
      have e : fitsWalk env b (fitsWalk env a φ) = fitsWalk env a φ := by
        generalize fitsWalk env a φ = ψ at hst
        unfold fitsWalk; simp [hst]
      rw [e]
      exact ⟨h1.1, fun h => absurd h (by simp [hst])⟩
    | false =>
      obtain ⟨s', hq, hp', hc', hl', ho'⟩ := h1.2 hst
      exact ihb hq hp' hc' hl' ho' hst h1.1
  | group d ih =>
    rw [fitsWalk]; simp only [hs, Bool.false_eq_true, if_false]
    rw [fitCheck_ok hl]; exact ih hw hp hc hl ho hs hf
  | indent v d ih =>
    rw [fitsWalk]; simp only [hs, Bool.false_eq_true, if_false]
    rw [fitCheck_ok hl]
    rcases hw with ⟨_, _, h3⟩ | ⟨_, h2⟩
    · exact ih h3 hp hc hl ho hs hf
    · exact ih h2 hp hc hl ho hs hf
  | literal x t =>
    rw [fitsWalk]; simp only [hs, Bool.false_eq_true, if_false]
    cases t with
    | none =>
      obtain ⟨rfl, h2, h3⟩ := hw
      have e : strwidth [' '] φ.col = φ.col + 1 := rfl
      rw [fitCheck_ok (by show strwidth [' '] φ.col ≤ _; omega)]
      exact ⟨hf, fun _ => ⟨_, h3, hp, by show strwidth [' '] φ.col ≤ s.c + 1; omega,
        by show strwidth [' '] φ.col ≤ _; omega, ho⟩⟩
    | some t =>
      obtain ⟨_, _, h2, h3⟩ := hw
      have hm := width_mono x hc
      rw [fitCheck_ok (by show strwidth x φ.col ≤ _; omega)]
      exact ⟨hf, fun _ => ⟨_, h3, rfl, hm, by show strwidth x φ.col ≤ _; omega, ho⟩⟩
  | verbatim x t =>
    rw [fitsWalk]; simp only [hs, Bool.false_eq_true, if_false]
    obtain ⟨hx, _, h2, h3⟩ := hw
    have hm := width_mono x hc
    rw [if_neg hx.2, fitCheck_ok (by show strwidth x φ.col ≤ _; omega)]
    exact ⟨hf, fun _ => ⟨_, h3, rfl, hm, by show strwidth x φ.col ≤ _; omega, ho⟩⟩
  | line =>
    rw [fitsWalk]; simp only [hs, Bool.false_eq_true, if_false]
    obtain ⟨h2, h3⟩ := hw
    rw [fitCheck_ok (by show φ.col + 1 ≤ _; omega)]
    exact ⟨hf, fun _ => ⟨_, h3, hp, by show φ.col + 1 ≤ s.c + 1; omega, by show φ.col + 1 ≤ _; omega, ho⟩⟩
  | softline n =>
    rw [fitsWalk]; simp only [hs, Bool.false_eq_true, if_false]
    rw [fitCheck_ok hl]
    exact ⟨hf, fun _ => ⟨s, hw, hp, hc, hl, ho⟩⟩
  | hardline => exact absurd hw.1 (by simp [hp])
  | optline =>
    rw [fitsWalk]; simp only [hs, Bool.false_eq_true, if_false]
    rw [if_pos (by omega)]
    exact ⟨hf, fun h => absurd h (by simp)⟩
  | align a => exact hw.elim
  | mute n => exact hw.elim
  | unmute n => exact hw.elim
  | noindent d => exact hw.elim
  | optional d => exact hw.elim
  | minimize i ms d => exact hw.elim
  | scope d => exact hw.elim
  | maxlines n d => exact hw.elim

/-! ### Printing -/

/-- The state of the printer. -/
structure Sim (env : Env) (I K : Nat) (σ : St) (s : Pos) (ps : List Piece) : Prop where
  mode : σ.mode = .munge
  mute : σ.mute = 0
  optline : 0 < σ.optline
  newline : σ.newline = s.p
  limit : σ.col ≤ env.limit
  col : s.p = false → σ.col ≤ s.c
  pend : s.p = true → I + K ≤ s.c
  cur : σ.cur ≤ I
  pre : σ.pre ≤ I
  par : σ.parens ≤ s.par
  max : s.par ≤ K
  maxlines : 0 < σ.maxlines
  fresh : s.o = true → σ.nlines = 0
  lines : 0 < σ.nlines → σ.col ≤ I + K
  firm : ∀ p ∈ ps, Firm p.text
  laid : Laid ps σ.buf.reverse s.o

section
variable {env : Env} {I K : Nat}

theorem sim_trim {σ : St} {s : Pos} {ps : List Piece} (h : Sim env I K σ s ps) : Sim env I K (trimSpaces σ) s ps := by
  obtain ⟨w, e, hw, _⟩ := trimLoop_spec σ.buf σ.col
  have hc := trimLoop_col σ.buf σ.col
  have hb : Laid ps (trimSpaces σ).buf.reverse s.o := by
    have := h.laid
    rw [e] at this
    exact laid_drop h.firm _ _ this hw
  exact ⟨h.mode, h.mute, h.optline, h.newline, Nat.le_trans hc h.limit, fun hp => Nat.le_trans hc (h.col hp), h.pend,
    h.cur, h.pre, h.par, h.max, h.maxlines, h.fresh, fun hn => Nat.le_trans hc (h.lines hn), h.firm, hb⟩

theorem strindent_zero (n : Nat) (b : Bool) : (strindent n b 0).2 = n := by
  rw [strindent_position, strindent_width n 0 b (Or.inl rfl)]
  omega

theorem strindent_blanks (n : Nat) (b : Bool) (pos : Nat) : ∀ c ∈ (strindent n b pos).1, blank c = true := by
  rw [strindent_bytes]
  intro c hc
  split at hc
  · simp at hc; rcases hc with hc | hc <;> simp [hc.2, blank]
  · simp at hc; simp [hc.2, blank]

/-- The new line made by `emitPending`. -/
theorem sim_pending {σ : St} {s : Pos} {ps : List Piece} (h : Sim env I K σ s ps) (hp : s.p = true)
    (hIK : I + K ≤ env.limit) (f : PF) : Sim env I K (emitPending env f false σ) ⟨false, false, s.c, s.par⟩ ps := by
  have hpend := h.pend hp
  by_cases hn : σ.nlines ≥ σ.maxlines
  · have e : emitPending env f false σ =
        { σ with refit := true, newline := false, muteline := σ.muteline || false } := by
      unfold emitPending emitLine
      rw [if_pos hn]
    rw [e]
    have hmax := h.maxlines
    have hl := h.lines (by omega)
    have ho : s.o = false := by
      cases ho : s.o with
      | false => rfl
      | true => have := h.fresh ho; omega
    refine ⟨h.mode, h.mute, h.optline, rfl, h.limit, fun _ => Nat.le_trans hl hpend, fun h => absurd h (by simp), h.cur,
      h.pre, h.par, h.max, h.maxlines, fun h => absurd h (by simp), h.lines, h.firm, ?_⟩
    have := h.laid
    rw [ho] at this
    exact this
  · obtain ⟨w, e, hw, _⟩ := trimLoop_spec σ.buf σ.col
    have hb : Laid ps (trimLoop σ.buf σ.col).1.reverse s.o := (sim_trim h).laid
    have hb2 : Laid ps ('\n' :: (trimLoop σ.buf σ.col).1).reverse false := by
      have := Laid.white hb (c := '\n') (by decide)
      simpa using this
    -- the state after the new line
    have key : ∀ τ : St, τ = newLine env { f with newline := true } false
          { σ with refit := true, newline := false, muteline := σ.muteline || false } →
        Sim env I K τ ⟨false, false, s.c, s.par⟩ ps ∧ τ.col = 0 := by
      rintro τ rfl
      refine ⟨⟨h.mode, h.mute, h.optline, rfl, Nat.zero_le _, fun _ => Nat.zero_le _, fun h => absurd h (by simp), h.cur,
        h.pre, h.par, h.max, h.maxlines, fun h => absurd h (by simp), fun _ => Nat.zero_le _, h.firm, hb2⟩, rfl⟩
    have e2 : emitPending env f false σ = (if f.indent then
        printIndent env (newLine env { f with newline := true } false
          { σ with refit := true, newline := false, muteline := σ.muteline || false })
          (newLine env { f with newline := true } false
          { σ with refit := true, newline := false, muteline := σ.muteline || false }).cur
        else newLine env { f with newline := true } false
          { σ with refit := true, newline := false, muteline := σ.muteline || false }) := by
      unfold emitPending emitLine
      rw [if_neg hn]
    rw [e2]
    obtain ⟨k1, k2⟩ := key _ rfl
    generalize newLine env { f with newline := true } false
          { σ with refit := true, newline := false, muteline := σ.muteline || false } = τ at *
    split
    · unfold printIndent
      have h1 := k1.cur
      have h2 := k1.pre
      have h3 := k1.par
      have h4 := k1.max
      simp only at h3 h4
      split
      · have hw := strindent_blanks (τ.pre + τ.parens) env.useTabs τ.col
        have hc : (strindent (τ.pre + τ.parens) env.useTabs τ.col).2 = τ.pre + τ.parens := by rw [k2, strindent_zero]
        refine ⟨k1.mode, k1.mute, k1.optline, k1.newline, ?_, fun _ => ?_, k1.pend, k1.cur, k1.pre, k1.par, k1.max,
          k1.maxlines, k1.fresh, fun _ => ?_, k1.firm, ?_⟩
        · show (strindent (τ.pre + τ.parens) env.useTabs τ.col).2 ≤ _; omega
        · show (strindent (τ.pre + τ.parens) env.useTabs τ.col).2 ≤ s.c; omega
        · show (strindent (τ.pre + τ.parens) env.useTabs τ.col).2 ≤ _; omega
        · show Laid ps ((strindent (τ.pre + τ.parens) env.useTabs τ.col).1.reverse ++ τ.buf).reverse false
          rw [List.reverse_append, List.reverse_reverse]
          exact laid_whites k1.laid _ hw
      · have hw := strindent_blanks τ.cur env.useTabs τ.col
        have hc : (strindent τ.cur env.useTabs τ.col).2 = τ.cur := by rw [k2, strindent_zero]
        refine ⟨k1.mode, k1.mute, k1.optline, k1.newline, ?_, fun _ => ?_, k1.pend, k1.cur, k1.cur, k1.par, k1.max,
          k1.maxlines, k1.fresh, fun _ => ?_, k1.firm, ?_⟩
        · show (strindent τ.cur env.useTabs τ.col).2 ≤ _; omega
        · show (strindent τ.cur env.useTabs τ.col).2 ≤ s.c; omega
        · show (strindent τ.cur env.useTabs τ.col).2 ≤ _; omega
        · show Laid ps ((strindent τ.cur env.useTabs τ.col).1.reverse ++ τ.buf).reverse false
          rw [List.reverse_append, List.reverse_reverse]
          exact laid_whites k1.laid _ hw
    · exact k1

theorem mute_false (hd : env.diff = none) {σ : St} (h : σ.mute = 0) : isMute env σ = false := by
  simp [isMute, diffIsMute, hd, h]

/-- A text with a piece in it is printed. -/
theorem sim_text {σ : St} {c par : Nat} {ps : List Piece} (h : Sim env I K σ ⟨false, false, c, par⟩ ps) (p : Piece)
    (a b : List Char) (ha : ∀ x ∈ a, blank x = true) (hb : ∀ x ∈ b, blank x = true) (hf : Firm p.text)
    (hw : strwidth (a ++ p.text ++ b) c ≤ env.limit) :
    Sim env I K (emitText env false (a ++ p.text ++ b) σ) ⟨false, p.line, strwidth (a ++ p.text ++ b) c, par⟩ (ps ++ [p]) := by
  have hc := width_mono (a ++ p.text ++ b) (h.col rfl)
  simp only at hc
  refine ⟨h.mode, h.mute, h.optline, h.newline, Nat.le_trans hc hw, fun _ => hc, fun h => absurd h (by simp), h.cur, h.pre,
    h.par, h.max, h.maxlines, fun _ => rfl, fun h => absurd h (by simp [emitText, column]), ?_, ?_⟩
  · intro q hq
    rcases List.mem_append.1 hq with hq | hq
    · exact h.firm q hq
    · simp only [List.mem_singleton] at hq; rw [hq]; exact hf
  · show Laid _ ((a ++ p.text ++ b).reverse ++ σ.buf).reverse _
    rw [List.reverse_append, List.reverse_reverse]
    have := laid_whites (Laid.piece (p := p) (laid_whites h.laid a ha)) b hb
    simpa using this

theorem takeWhile_blank {s : List Char} {x : Char} (h : x ∈ s.takeWhile blank) : blank x = true := by
  induction s with
  | nil => cases h
  | cons c s ih =>
    unfold List.takeWhile at h
    split at h
    · rcases List.mem_cons.1 h with rfl | h
      · assumption
      · exact ih h
    · cases h

theorem core_split (s : List Char) : ∃ a b, s = a ++ core s ++ b ∧ (∀ x ∈ a, blank x = true) ∧
    (∀ x ∈ b, blank x = true) := by
  refine ⟨s.takeWhile blank, ((s.dropWhile blank).reverse.takeWhile blank).reverse, ?_, ?_, ?_⟩
  · have h2 : (s.dropWhile blank).reverse =
        (s.dropWhile blank).reverse.takeWhile blank ++ (s.dropWhile blank).reverse.dropWhile blank :=
      (List.takeWhile_append_dropWhile).symm
    have h3 : s.dropWhile blank = core s ++ ((s.dropWhile blank).reverse.takeWhile blank).reverse := by
      have := congrArg List.reverse h2
      rw [List.reverse_reverse, List.reverse_append] at this
      exact this
    rw [List.append_assoc, ← h3]
    exact (List.takeWhile_append_dropWhile).symm
  · intro x hx
    exact takeWhile_blank hx
  · intro x hx
    exact takeWhile_blank (List.mem_reverse.1 hx)

theorem firm_ne {s : List Char} (h : Firm s) (c : Char) (hc : white c = true) : s ≠ [c] := by
  rintro rfl
  obtain ⟨q, d, e, hd⟩ := h
  have := List.append_inj' (s₁ := []) (t₁ := [c]) (s₂ := q) (t₂ := [d]) e rfl
  have h2 := this.2
  simp only [List.cons.injEq, and_true] at h2
  subst h2
  rw [hc] at hd; cases hd

/-- A token or a comment is printed by `print`. -/
theorem sim_print (hd : env.diff = none) (hIK : I + K ≤ env.limit) {σ : St} {s : Pos} {ps : List Piece}
    (h : Sim env I K σ s ps) (p : Piece) (a b : List Char) (ha : ∀ x ∈ a, blank x = true) (hb : ∀ x ∈ b, blank x = true)
    (hf : Firm p.text) (ho : s.o = true → s.p = true) (hw : strwidth (a ++ p.text ++ b) s.c ≤ env.limit) (f : PF)
    (hx1 : a ++ p.text ++ b ≠ [' ']) (hx2 : a ++ p.text ++ b ≠ ['\n']) :
    Sim env I K (print env σ (a ++ p.text ++ b) f).1 ⟨false, p.line, strwidth (a ++ p.text ++ b) s.c, s.par⟩ (ps ++ [p]) := by
  have hm := mute_false hd h.mute
  unfold print
  simp only [hm, Bool.false_and, hx2, decide_false, Bool.or_false, hx1, if_false, Bool.false_eq_true]
  split
  · rename_i hn
    have hp : s.p = true := by rw [← h.newline]; exact hn
    exact sim_text (sim_pending (σ := { σ with muteline := σ.muteline })
      ⟨h.mode, h.mute, h.optline, h.newline, h.limit, h.col, h.pend, h.cur, h.pre, h.par, h.max, h.maxlines, h.fresh,
        h.lines, h.firm, h.laid⟩ hp hIK f) p a b ha hb hf hw
  · rename_i hn
    have hp : s.p = false := by rw [← h.newline]; simpa using hn
    have ho' : s.o = false := by
      cases ho'' : s.o with
      | false => rfl
      | true => rw [ho ho''] at hp; cases hp
    obtain ⟨sp, so, sc, spar⟩ := s
    simp only at hp ho'
    subst hp ho'
    exact sim_text (σ := { σ with muteline := σ.muteline })
      ⟨h.mode, h.mute, h.optline, h.newline, h.limit, h.col, h.pend, h.cur, h.pre, h.par, h.max, h.maxlines, h.fresh,
        h.lines, h.firm, h.laid⟩ p a b ha hb hf hw

/-- A space is printed. -/
theorem sim_space (hd : env.diff = none) {σ : St} {s : Pos} {ps : List Piece}
    (h : Sim env I K σ s ps) (hw : s.c + 1 ≤ env.limit) (f : PF) :
    Sim env I K (print env σ [' '] f).1 { s with c := s.c + 1 } ps := by
  have hm := mute_false hd h.mute
  unfold print
  simp only [hm, Bool.false_and, show ([' '] : List Char) ≠ ['\n'] by decide, decide_false, Bool.or_false, if_false,
    Bool.false_eq_true, if_true]
  split
  · refine ⟨h.mode, h.mute, h.optline, h.newline, h.limit, fun hp => Nat.le_succ_of_le (h.col hp),
      fun hp => Nat.le_succ_of_le (h.pend hp), h.cur, h.pre, h.par, h.max, h.maxlines, h.fresh, h.lines, h.firm, h.laid⟩
  · rename_i hn
    have hp : s.p = false := by rw [← h.newline]; simpa using hn
    have hc := h.col hp
    refine ⟨h.mode, h.mute, h.optline, h.newline, ?_, fun hp => ?_, fun hp' => ?_, h.cur, h.pre, h.par, h.max,
      h.maxlines, fun _ => rfl, fun h => absurd h (by simp [emitText, column]), h.firm, ?_⟩
    · show σ.col + 1 ≤ _; omega
    · show σ.col + 1 ≤ s.c + 1; omega
    · rw [hp] at hp'; cases hp'
    · show Laid ps (' ' :: σ.buf).reverse s.o
      rw [List.reverse_cons]
      exact laid_whites h.laid [' '] (by simp [blank])

theorem sim_congr {σ τ : St} {s : Pos} {ps : List Piece} (h : Sim env I K σ s ps) (h1 : τ.mode = σ.mode)
    (h2 : τ.mute = σ.mute) (h3 : τ.optline = σ.optline) (h4 : τ.newline = σ.newline) (h5 : τ.col = σ.col)
    (h6 : τ.cur ≤ I) (h7 : τ.pre = σ.pre) (h8 : τ.parens ≤ s.par) (h9 : τ.maxlines = σ.maxlines)
    (h10 : τ.nlines = σ.nlines) (h11 : τ.buf = σ.buf) : Sim env I K τ s ps :=
  ⟨by rw [h1]; exact h.mode, by rw [h2]; exact h.mute, by rw [h3]; exact h.optline, by rw [h4]; exact h.newline,
    by rw [h5]; exact h.limit, by rw [h5]; exact h.col, h.pend, h6, by rw [h7]; exact h.pre, h8, h.max,
    by rw [h9]; exact h.maxlines, by rw [h10]; exact h.fresh, by rw [h10, h5]; exact h.lines, h.firm,
    by rw [h11]; exact h.laid⟩

/-- **Printing a document all of whose groups fit**: the pieces come in order and no line comment goes on. -/
theorem exec_laid (hd : env.diff = none) (hIK : I + K ≤ env.limit) {d : Doc} {Q : Pos → Prop} {s : Pos} {σ : St}
    {ps : List Piece} (h : Sim env I K σ s ps) (hw : wp env.limit I K d Q s) :
    ∃ s', s.par ≤ s'.par ∧ Q s' ∧ Sim env I K (exec env d σ) s' (ps ++ pieces d) := by
  induction d generalizing Q s σ ps with
  | nil => exact ⟨s, Nat.le_refl _, hw, by simpa [pieces, exec] using h⟩
  | seq a b iha ihb =>
    obtain ⟨s1, hp1, hq1, h1⟩ := iha h hw
    obtain ⟨s2, hp2, hq2, h2⟩ := ihb h1 hq1
    exact ⟨s2, Nat.le_trans hp1 hp2, hq2, by simpa [pieces, exec, List.append_assoc] using h2⟩
  | group d ih =>
    rw [exec]
    simp only [groupEnter, hd, groupLeave, Bool.false_and, Bool.false_eq_true, if_false]
    split
    · exact ih h hw
    · have hf : fits env { σ with refit := false } (.group d) = true := by
        unfold fits
        split
        · exact decide_eq_true h.limit
        · rename_i hn
          have hp : s.p = false := by rw [← h.newline]; simpa using hn
          exact (fitsWalk_ok (d := .group d) (s := s) (φ := { col := σ.col, optline := σ.optline }) hw hp (h.col hp)
            h.limit h.optline rfl rfl).1
      rw [if_pos hf]
      obtain ⟨s', hp, hq, hs⟩ := ih (σ := { σ with refit := false, mode := .munge })
        (sim_congr h h.mode.symm rfl rfl rfl rfl h.cur rfl h.par rfl rfl rfl) hw
      exact ⟨s', hp, hq, sim_congr hs (by show σ.mode = _; rw [h.mode, hs.mode]) rfl rfl rfl rfl hs.cur rfl hs.par rfl
        rfl rfl⟩
  | indent v d ih =>
    rw [exec]
    rcases hw with ⟨rfl, h2, h3⟩ | ⟨h2, h3⟩
    · have b30 : hasBit (2 ^ 30) 30 = true := by decide
      unfold execIndent indentEnter
      simp only [b30, if_true]
      have hpar := h.par
      obtain ⟨s', hp, hq, hs⟩ := ih (σ := { σ with parens := if parensAlign σ.buf then σ.parens + 1 else σ.parens })
        (s := { s with par := s.par + 1 }) (ps := ps)
        ⟨h.mode, h.mute, h.optline, h.newline, h.limit, h.col, h.pend, h.cur, h.pre,
          by show (if parensAlign σ.buf then σ.parens + 1 else σ.parens) ≤ s.par + 1; split <;> omega,
          h2, h.maxlines, h.fresh, h.lines, h.firm, h.laid⟩ h3
      simp only at hp
      exact ⟨s', by omega, hq, sim_congr hs rfl rfl rfl rfl rfl hs.cur rfl
        (by show σ.parens ≤ s'.par; omega) rfl rfl rfl⟩
    · have hb : ∀ n, hasBit v n = false := fun n => by
        unfold hasBit
        rw [decide_eq_false (by omega)]; rfl
      unfold execIndent indentEnter
      simp only [hb, Bool.false_eq_true, if_false]
      rw [if_neg (by omega)]
      obtain ⟨s', hp, hq, hs⟩ := ih (σ := { σ with cur := σ.cur - (-v).toNat })
        (sim_congr h rfl rfl rfl rfl rfl (Nat.le_trans (Nat.sub_le _ _) h.cur) rfl h.par rfl rfl rfl) h3
      exact ⟨s', hp, hq, sim_congr hs rfl rfl rfl rfl rfl h.cur rfl hs.par rfl rfl rfl⟩
  | literal x t =>
    rw [exec]
    have e : diffLiteral env σ t = σ := by simp [diffLiteral, hd]
    rw [e]
    cases t with
    | none =>
      obtain ⟨rfl, h2, h3⟩ := hw
      exact ⟨{ s with c := s.c + 1 }, Nat.le_refl _, h3, by simpa [pieces] using sim_space hd h h2 { indent := true }⟩
    | some t =>
      obtain ⟨h1, ho, h2, h3⟩ := hw
      refine ⟨⟨false, false, strwidth x s.c, s.par⟩, Nat.le_refl _, h3, ?_⟩
      have := sim_print hd hIK h ⟨true, false, x⟩ [] [] (by simp) (by simp) h1 ho (by simpa using h2) { indent := true }
        (by simpa using firm_ne h1 ' ' (by decide)) (by simpa using firm_ne h1 '\n' (by decide))
      simpa [pieces] using this
  | verbatim x t =>
    rw [exec]
    obtain ⟨⟨h1, hl⟩, ho, h2, h3⟩ := hw
    refine ⟨⟨false, slashes x, strwidth x s.c, s.par⟩, Nat.le_refl _, h3, ?_⟩
    have hm := mute_false hd h.mute
    obtain ⟨a, b, e, ha, hb⟩ := core_split x
    have hx2 : x ≠ ['\n'] := by rintro rfl; exact hl rfl
    have hx1 : x ≠ [' '] := by
      rintro rfl
      obtain ⟨q, d, e2, _⟩ := h1
      have : core [' '] = [] := by decide
      rw [this] at e2
      simp at e2
    unfold execVerbatim
    simp only [hm, Bool.false_and, Bool.false_eq_true, if_false, diffVerbatim, hd, hl, decide_false, Bool.and_false,
      Bool.or_false, hx2, diffLeave, Option.isSome_none, false_and]
    have hs := sim_trim h
    have := sim_print hd hIK (σ := { trimSpaces σ with newline := (trimSpaces σ).newline })
      (sim_congr hs rfl rfl rfl rfl rfl hs.cur rfl hs.par rfl rfl rfl) ⟨false, slashes x, core x⟩ a b ha hb h1 ho
      (by show strwidth (a ++ core x ++ b) _ ≤ _; rw [← e]; exact h2) {} (by show a ++ core x ++ b ≠ _; rw [← e]; exact hx1)
      (by show a ++ core x ++ b ≠ _; rw [← e]; exact hx2)
    simp only [← e] at this
    simpa [pieces] using this
  | line =>
    rw [exec]
    simp only [h.mode]
    have := sim_space hd h hw.1 { indent := true }
    refine ⟨{ s with c := s.c + 1 }, Nat.le_refl _, hw.2, ?_⟩
    simp only [pieces, List.append_nil]
    exact sim_congr this rfl rfl rfl rfl rfl this.cur rfl this.par rfl rfl rfl
  | softline n =>
    rw [exec]
    simp only [h.mode]
    exact ⟨s, Nat.le_refl _, hw, by simpa [pieces] using h⟩
  | hardline =>
    rw [exec]
    obtain ⟨hp, hq⟩ := hw
    have hm := mute_false hd h.mute
    have hn : σ.newline = true := by rw [h.newline, hp]
    refine ⟨⟨false, false, I + K, s.par⟩, Nat.le_refl _, hq, ?_⟩
    have e : (print env σ ['\n'] { indent := true }).1 =
        emitPending env { indent := true } false { σ with muteline := σ.muteline || false } := by
      unfold print
      simp [hm, hn]
    rw [e]
    have := sim_pending (s := { s with c := I + K }) (ps := ps) (σ := { σ with muteline := σ.muteline || false })
      ⟨h.mode, h.mute, h.optline, h.newline, h.limit, fun h => absurd h (by simp [hp]), fun _ => Nat.le_refl _, h.cur, h.pre,
        h.par, h.max, h.maxlines, h.fresh, h.lines, h.firm, h.laid⟩ hp hIK { indent := true }
    simpa [pieces] using this
  | optline =>
    rw [exec]
    refine ⟨⟨true, s.o, I + K, s.par⟩, Nat.le_refl _, hw, ?_⟩
    have ho := h.optline
    simp only [pieces, List.append_nil]
    exact ⟨h.mode, h.mute, h.optline, by show (σ.newline || decide (σ.optline ≠ 0)) = true; simp; omega, h.limit,
      fun h => absurd h (by simp), fun _ => Nat.le_refl _, h.cur, h.pre, h.par, h.max, h.maxlines, h.fresh, h.lines,
      h.firm, h.laid⟩
  | align a => exact hw.elim
  | mute n => exact hw.elim
  | unmute n => exact hw.elim
  | noindent d => exact hw.elim
  | optional d => exact hw.elim
  | minimize i ms d => exact hw.elim
  | scope d => exact hw.elim
  | maxlines n d => exact hw.elim

theorem bits_small {v : Nat} (hv : v < 2 ^ 27) {n : Nat} (hn : 27 ≤ n) : hasBit (v : Int) n = false := by
  unfold hasBit
  rw [Bool.and_eq_false_iff]
  right
  exact Nat.testBit_lt_two_pow (Nat.lt_of_lt_of_le hv (Nat.pow_le_pow_right (by omega) hn))

/-- **Printing from the beginning**: the document is put into a group, in a line of its own and indented by `v`. -/
theorem exec_top (hd : env.diff = none) (hIK : I + K ≤ env.limit) {d : Doc} {v : Nat} (hv : v < 2 ^ 27) (hI : v ≤ I)
    (hw : wp env.limit I K d (fun _ => True) ⟨false, false, 0, 0⟩) :
    ∃ o, Laid (pieces d) (docExec env false []
      (.maxlines 1 (.scope (.group (.optional (if v > 0 then .indent v d else d)))))).buf.reverse o := by
  have walk : (fitsWalk env (.group (.optional (if v > 0 then .indent v d else d))) { col := 0, optline := 0 }).fits = true := by
    rw [fitsWalk]
    simp only [Bool.false_eq_true, if_false]
    have h0 : fitCheck env { col := 0, optline := 0 } = { col := 0, optline := 0 } := fitCheck_ok (Nat.zero_le _)
    rw [h0, fitsWalk]
    simp only [Bool.false_eq_true, if_false]
    have h1 : fitCheck env { col := 0, optline := 1 } = { col := 0, optline := 1 } := fitCheck_ok (Nat.zero_le _)
    simp only [Nat.zero_add, h1]
    have h2 := (fitsWalk_ok (d := d) (s := ⟨false, false, 0, 0⟩) (φ := { col := 0, optline := 1 }) hw rfl (Nat.le_refl _)
            (Nat.zero_le _) (by decide) rfl rfl).1
    split
    · rw [fitsWalk]
      simp only [Bool.false_eq_true, if_false, h1]
      exact h2
    · exact h2
  have start : ∀ c, c ≤ v → Sim env I K { buf := [], mode := .munge, maxlines := 1, optline := 1, cur := c } ⟨false, false, 0, 0⟩ [] :=
    fun c hc => ⟨rfl, rfl, Nat.zero_lt_one, rfl, Nat.zero_le _, fun _ => Nat.le_refl _, fun h => absurd h (by simp),
      Nat.le_trans hc hI, Nat.zero_le _, Nat.le_refl _, Nat.zero_le _, Nat.zero_lt_one, fun _ => rfl, fun _ => Nat.zero_le _,
      by simp, Laid.start⟩
  have body : ∃ o, Laid (pieces d) (exec env (if v > 0 then .indent v d else d)
      { buf := [], mode := .munge, maxlines := 1, optline := 1 }).buf.reverse o := by
    split
    · rw [exec]
      unfold execIndent indentEnter
      simp only [bits_small hv (show 27 ≤ 30 by decide), bits_small hv (show 27 ≤ 29 by decide),
        bits_small hv (show 27 ≤ 28 by decide), bits_small hv (show 27 ≤ 27 by decide), Bool.false_eq_true, if_false]
      rw [if_pos (by omega)]
      obtain ⟨s', _, _, hs⟩ := exec_laid hd hIK (start (0 + (v : Int).toNat) (by omega)) hw
      exact ⟨s'.o, by simpa using hs.laid⟩
    · obtain ⟨s', _, _, hs⟩ := exec_laid hd hIK (start 0 (Nat.zero_le _)) hw
      exact ⟨s'.o, by simpa using hs.laid⟩
  obtain ⟨o, ho⟩ := body
  refine ⟨o, ?_⟩
  unfold docExec diffExit
  simp only [hd, Bool.false_eq_true, if_false]
  rw [exec, exec, exec]
  simp only [groupEnter, hd, groupLeave, Bool.false_and, Bool.false_eq_true, if_false, reduceCtorEq, false_and]
  unfold fits
  simp only [Bool.false_eq_true, if_false, walk, if_true]
  rw [exec]
  exact ho

end
end Knfmt.Doc
