import Verif.Doc.Exact
import Verif.Lexer.Joins
/-! C77, printing: the output consists of the texts of a document, with white space wherever
the document asks for a space or a line. -/
namespace Knfmt.Doc.Spec

/-- What a document consists of, read from left to right: texts, and places where there has
to be white space. -/
inductive Item where
  | text (s : List Char)
  | sep
deriving DecidableEq, Repr

/-- The texts of a document and the places where it has a space, a line, a hard line or an
alignment that is not empty. -/
def items : Doc → List Item
  | .seq d ds => items d ++ items ds
  | .group d | .indent _ d | .noindent d | .optional d | .minimize _ _ d
  | .scope d | .maxlines _ d => items d
  | .literal s _ => if s = [' '] then [.sep] else [.text s]
  | .verbatim s _ => if s = ['\n'] then [] else [.text s]
  | .line | .hardline => [.sep]
  | .align a => if a.indent + a.spaces = 0 then [] else [.sep]
  | _ => []

/-- The texts among the items. -/
def texts : List Item → List (List Char)
  | [] => []
  | .text s :: l => s :: texts l
  | .sep :: l => texts l

/-- Texts that follow each other without white space in between are such that the first
character of the second one is not taken for a part of the first one. -/
def Apart (l : List Item) : Prop :=
  ∀ a s c t b, l = a ++ .text s :: .text (c :: t) :: b → Knfmt.Spec.joins s c = false

end Knfmt.Doc.Spec

namespace Knfmt.Doc
open Knfmt.Util Knfmt.Doc.Spec
open Knfmt.Spec (gapChar IsToken Ends joins Spelled)

/-- A text that begins with something else than white space and does not end with blanks. -/
def TextOk (s : List Char) : Prop :=
  (∃ c t, s = c :: t ∧ gapChar c = false) ∧ ∀ c, s.getLast? = some c → gapChar c = false

theorem blank_gap {c : Char} (h : blank c = true) : gapChar c = true := by
  simp only [blank, Bool.or_eq_true, decide_eq_true_eq] at h
  rcases h with h | h <;> subst h <;> decide

/-- Documents without comments, preprocessor directives and muted parts. -/
def Tame : Doc → Prop
  | .seq d ds => Tame d ∧ Tame ds
  | .group d | .indent _ d | .optional d | .minimize _ _ d | .scope d => Tame d
  | .maxlines n d => 1 ≤ n ∧ Tame d
  | .literal s _ => s = [' '] ∨ TextOk s
  | .verbatim s _ => s = ['\n']
  | .noindent _ | .mute _ | .unmute _ => False
  | _ => True

/-- The items in the buffer, last byte and last item first. -/
def RendS : List Item → List Char → Prop
  | [], b => ∀ c ∈ b, gapChar c = true
  | .text t :: l, b => ∃ w rest, b = w ++ t.reverse ++ rest ∧ (∀ c ∈ w, gapChar c = true) ∧ TextOk t ∧
      RendS l rest
  | .sep :: l, b => RendS l b ∧ ∃ c rest, b = c :: rest ∧ gapChar c = true

/-- The items without the places for white space at the end. -/
def strip : List Item → List Item
  | .sep :: l => strip l
  | l => l

theorem RendS.strip {l : List Item} {b : List Char} (h : RendS l b) : RendS (strip l) b := by
  induction l with
  | nil => exact h
  | cons i l ih =>
    cases i with
    | text t => exact h
    | sep => exact ih h.1

theorem RendS.unstrip {l : List Item} {b : List Char} (h : RendS (Knfmt.Doc.strip l) b)
    (hb : ∃ c rest, b = c :: rest ∧ gapChar c = true) : RendS l b := by
  induction l with
  | nil => exact h
  | cons i l ih =>
    cases i with
    | text t => exact h
    | sep => exact ⟨ih h, hb⟩

theorem RendS.push {l : List Item} {b w : List Char} (h : RendS l b) (hw : ∀ c ∈ w, gapChar c = true) :
    RendS l (w ++ b) := by
  induction l with
  | nil =>
    intro c hc
    rcases List.mem_append.mp hc with hc | hc
    · exact hw c hc
    · exact h c hc
  | cons i l ih =>
    cases i with
    | text t =>
      obtain ⟨w', rest, e, h1, h2, h3⟩ := h
      refine ⟨w ++ w', rest, by rw [e]; simp, ?_, h2, h3⟩
      intro c hc
      rcases List.mem_append.mp hc with hc | hc
      · exact hw c hc
      · exact h1 c hc
    | sep =>
      refine ⟨ih h.1, ?_⟩
      cases w with
      | nil => exact h.2
      | cons x w => exact ⟨x, w ++ b, rfl, hw x (List.mem_cons_self ..)⟩

/-- Dropping blanks, if white space is left or none is needed. -/
theorem RendS.drop {l : List Item} {b w : List Char} (h : RendS l (w ++ b)) (hw : ∀ c ∈ w, blank c = true)
    (hb : Knfmt.Doc.strip l = l ∨ ∃ c rest, b = c :: rest ∧ gapChar c = true) : RendS l b := by
  induction l with
  | nil => exact fun c hc => h c (List.mem_append.mpr (Or.inr hc))
  | cons i l ih =>
    cases i with
    | text t =>
      clear ih hb
      revert h hw
      induction w with
      | nil => exact fun _ h => h
      | cons x w ih =>
        intro hw h
        refine ih (fun c hc => hw c (List.mem_cons_of_mem _ hc)) ?_
        have hx := hw x (List.mem_cons_self ..)
        obtain ⟨w', rest, e, h1, h2, h3⟩ := h
        cases w' with
        | nil =>
          exfalso
          obtain ⟨y, t', ht⟩ : ∃ y t', t.reverse = y :: t' := by
            cases ht : t.reverse with
            | nil =>
              obtain ⟨⟨c, s, hs, _⟩, _⟩ := h2
              rw [hs] at ht; simp at ht
            | cons y t' => exact ⟨y, t', rfl⟩
          rw [ht] at e
          simp only [List.nil_append, List.cons_append, List.cons.injEq] at e
          have := h2.2 y (by rw [List.getLast?_eq_head?_reverse, ht]; rfl)
          rw [← e.1, blank_gap hx] at this
          simp at this
        | cons y w' =>
          simp only [List.cons_append, List.cons.injEq] at e
          exact ⟨w', rest, e.2, fun c hc => h1 c (List.mem_cons_of_mem _ hc), h2, h3⟩
    | sep =>
      have hb' : ∃ c rest, b = c :: rest ∧ gapChar c = true := by
        rcases hb with hb | hb
        · exfalso
          have : (Knfmt.Doc.strip l).length = l.length + 1 := by
            rw [show Knfmt.Doc.strip l = Knfmt.Doc.strip (.sep :: l) from rfl, hb]; rfl
          have hle : ∀ l, (Knfmt.Doc.strip l).length ≤ l.length := by
            intro l
            induction l with
            | nil => exact Nat.le_refl _
            | cons i l ih =>
              cases i with
              | text => exact Nat.le_refl _
              | sep => exact Nat.le_succ_of_le ih
          have := hle l
          omega
        · exact hb
      exact ⟨ih h.1 (Or.inr hb'), hb'⟩

/-- Blanks at the end replaced by a new line. -/
theorem RendS.line {l : List Item} {b w : List Char} (h : RendS l (w ++ b)) (hw : ∀ c ∈ w, blank c = true) :
    RendS l ('\n' :: b) := by
  have h1 : RendS (Knfmt.Doc.strip l) b := by
    refine RendS.drop (w := w) h.strip hw (Or.inl ?_)
    clear h
    induction l with
    | nil => rfl
    | cons i l ih =>
      cases i with
      | text => rfl
      | sep => exact ih
  exact (h1.push (w := ['\n']) (by simp [gapChar])).unstrip ⟨'\n', b, rfl, by decide⟩

theorem strip_strip (l : List Item) : strip (strip l) = strip l := by
  induction l with
  | nil => rfl
  | cons i l ih =>
    cases i with
    | text => rfl
    | sep => exact ih

/-- What is kept about the printer's state, apart from the items. -/
structure Inv (σ : St) : Prop where
  mute : σ.mute = 0
  max : 1 ≤ σ.maxlines
  nl : 0 < σ.nlines → ∃ w b, σ.buf = w ++ '\n' :: b ∧ ∀ c ∈ w, blank c = true

/-- The items printed so far, the last one first. With a new line pending, the white space
at the end is yet to come. -/
structure Rel (l : List Item) (σ : St) : Prop extends Inv σ where
  rend : RendS (if σ.newline then strip l else l) σ.buf

theorem Rel.weak {l : List Item} {σ : St} (h : Rel l σ) : RendS (strip l) σ.buf := by
  have := h.rend
  split at this
  · exact this
  · exact this.strip

theorem Rel.congr {l : List Item} {σ τ : St} (h : Rel l σ) (hb : τ.buf = σ.buf) (hn : τ.newline = σ.newline)
    (hl : τ.nlines = σ.nlines) (hm : τ.mute = σ.mute) (hx : 1 ≤ τ.maxlines) : Rel l τ :=
  ⟨⟨by rw [hm]; exact h.mute, hx, by rw [hl, hb]; exact h.nl⟩, by rw [hb, hn]; exact h.rend⟩

theorem sepInv_trim {σ : St} (h : Inv σ) : Inv (trimSpaces σ) := by
  refine ⟨h.mute, h.max, ?_⟩
  intro hn
  obtain ⟨w, b, e, hw⟩ := h.nl hn
  refine ⟨[], b, ?_, by simp⟩
  show (trimLoop σ.buf σ.col).1 = _
  rw [e]
  clear e
  generalize σ.col = col
  induction w generalizing col with
  | nil => simp [trimLoop, blank]
  | cons x w ih =>
    have hx := hw x (List.mem_cons_self ..)
    simp only [List.cons_append, trimLoop, hx, if_true]
    exact ih (fun c hc => hw c (List.mem_cons_of_mem _ hc)) _

theorem sepInv_indent (env : Env) {σ : St} (h : Inv σ) (n : Nat) : Inv (printIndent env σ n) := by
  obtain ⟨w, c, p, e, hw⟩ := printIndent_spec env σ n
  rw [e]
  refine ⟨h.mute, h.max, ?_⟩
  intro hn
  obtain ⟨w', b, e', hw'⟩ := h.nl hn
  refine ⟨w ++ w', b, by show w ++ σ.buf = _; rw [e']; simp, ?_⟩
  intro c hc
  rcases List.mem_append.mp hc with hc | hc
  · exact hw c hc
  · exact hw' c hc

theorem rendS_indent {l : List Item} (env : Env) {σ : St} (h : RendS l σ.buf) (n : Nat) :
    RendS l (printIndent env σ n).buf := by
  obtain ⟨w, c, p, e, hw⟩ := printIndent_spec env σ n
  rw [e]
  exact h.push fun c hc => blank_gap (hw c hc)

theorem rendS_trim {l : List Item} {σ : St} (h : RendS (strip l) σ.buf) :
    RendS (strip l) (trimSpaces σ).buf := by
  obtain ⟨w, e, hw, _⟩ := trimLoop_spec σ.buf σ.col
  rw [e] at h
  exact h.drop hw (Or.inl (strip_strip l))

/-- A new line is printed, or there is one already. -/
theorem sep_emitLine (env : Env) (f : PF) {l : List Item} {σ : St} (hi : Inv σ) (hr : RendS (strip l) σ.buf) :
    Inv (emitLine env f false σ) ∧ RendS (.sep :: l) (emitLine env f false σ).buf ∧
      (emitLine env f false σ).newline = σ.newline := by
  have done : ∀ {b : List Char}, RendS (strip l) b → (∃ w b', b = w ++ '\n' :: b' ∧ ∀ c ∈ w, blank c = true) →
      RendS (.sep :: l) b := by
    intro b hb ⟨w, b', e, hw⟩
    have hh : ∃ c rest, b = c :: rest ∧ gapChar c = true := by
      cases w with
      | nil => exact ⟨'\n', b', e, by decide⟩
      | cons x w => exact ⟨x, w ++ '\n' :: b', e, blank_gap (hw x (List.mem_cons_self ..))⟩
    exact ⟨hb.unstrip hh, hh⟩
  have hn : (newLine env f false σ).buf = '\n' :: (trimSpaces σ).buf := rfl
  have h1 : Inv (newLine env f false σ) := ⟨hi.mute, hi.max, fun _ => ⟨[], (trimSpaces σ).buf, hn, by simp⟩⟩
  have h2 : RendS (strip l) (newLine env f false σ).buf := by
    rw [hn]
    exact (rendS_trim hr).push (w := ['\n']) (by simp [gapChar])
  have h3 : 0 < (newLine env f false σ).nlines := Nat.succ_pos _
  unfold emitLine
  split
  · next h =>
    exact ⟨hi, done hr (hi.nl (by have := hi.max; omega)), rfl⟩
  · split
    · have hx := sepInv_indent env h1 (newLine env f false σ).cur
      obtain ⟨w, c, p, e, hw⟩ := printIndent_spec env (newLine env f false σ) (newLine env f false σ).cur
      refine ⟨hx, done (rendS_indent env h2 _) (hx.nl ?_), ?_⟩
      · rw [e]; exact h3
      · rw [e]; rfl
    · exact ⟨h1, done h2 (h1.nl h3), rfl⟩

theorem sep_pending (env : Env) (f : PF) {l : List Item} {σ : St} (hi : Inv σ) (hr : RendS (strip l) σ.buf) :
    Inv (emitPending env f false σ) ∧ RendS (.sep :: l) (emitPending env f false σ).buf ∧
      (emitPending env f false σ).newline = false := by
  unfold emitPending
  exact sep_emitLine env _ (σ := { σ with refit := true, newline := false, muteline := σ.muteline || false })
    ⟨hi.mute, hi.max, hi.nl⟩ hr

theorem isMute_rel {env : Env} (hd : env.diff = none) {σ : St} (h : Inv σ) (f : PF) :
    (isMute env σ && !f.force) = false := by
  rw [isMute_none hd, h.mute]; rfl

/-- Printing a new line. -/
theorem rel_line {env : Env} (hd : env.diff = none) (f : PF) {l : List Item} {σ : St} (hi : Inv σ)
    (hr : RendS (strip l) σ.buf) : Rel (.sep :: l) (print env σ ['\n'] f).1 := by
  unfold print
  rw [isMute_rel hd hi]
  simp only [decide_true, Bool.and_false, Bool.or_false, if_true]
  have hi' : Inv { σ with muteline := σ.muteline } := ⟨hi.mute, hi.max, hi.nl⟩
  split
  · rw [if_neg (by decide)]
    obtain ⟨h1, h2, h3⟩ := sep_pending env f hi' hr
    exact ⟨h1, by rw [h3]; exact h2⟩
  · next h0 =>
    obtain ⟨h1, h2, h3⟩ := sep_emitLine env f hi' hr
    refine ⟨h1, ?_⟩
    have h0' : σ.newline = false := by simpa using h0
    dsimp only
    rw [if_neg (by rw [h3, h0']; decide)]
    exact h2

theorem Rel.drop_sep {l : List Item} {σ : St} (h : Rel (.sep :: l) σ) : Rel l σ := by
  refine ⟨h.toInv, ?_⟩
  have := h.rend
  split at this
  · next hn => rw [if_pos hn]; exact this
  · next hn => rw [if_neg hn]; exact this.1

/-- Printing a space. -/
theorem rel_space {env : Env} (hd : env.diff = none) (f : PF) {l : List Item} {σ : St} (h : Rel l σ) :
    Rel (.sep :: l) (print env σ [' '] f).1 := by
  unfold print
  rw [isMute_rel hd h.toInv]
  simp only [show ([' '] : List Char) ≠ ['\n'] by decide, decide_false, Bool.and_false, Bool.or_false, if_true]
  split
  · next hn =>
    refine ⟨⟨h.mute, h.max, h.nl⟩, ?_⟩
    have := h.rend
    have hn' : σ.newline = true := hn
    rw [hn'] at this
    dsimp only
    rw [hn']
    exact this
  · next hn =>
    have hn' : σ.newline = false := by simpa using hn
    refine ⟨⟨h.mute, h.max, ?_⟩, ?_⟩
    · intro h0
      exact absurd h0 (Nat.lt_irrefl 0)
    · have := h.rend
      rw [hn'] at this
      show RendS (if σ.newline then _ else _) (' ' :: σ.buf)
      rw [hn']
      exact ⟨RendS.push (w := [' ']) this (by simp [gapChar]), ' ', σ.buf, rfl, by decide⟩

/-- Printing a text. -/
theorem rel_text {env : Env} (hd : env.diff = none) (f : PF) {l : List Item} {σ : St} (h : Rel l σ)
    {s : List Char} (hs : TextOk s) : Rel (.text s :: l) (print env σ s f).1 := by
  have h1 : s ≠ [' '] := by
    rintro rfl
    obtain ⟨⟨c, t, e, hc⟩, _⟩ := hs
    injection e with e1 e2
    rw [← e1] at hc
    exact absurd hc (by decide)
  have h2 : s ≠ ['\n'] := by
    rintro rfl
    obtain ⟨⟨c, t, e, hc⟩, _⟩ := hs
    injection e with e1 e2
    rw [← e1] at hc
    exact absurd hc (by decide)
  have emit : ∀ τ : St, Inv τ → RendS l τ.buf → τ.newline = false → Rel (.text s :: l) (emitText env false s τ) := by
    intro τ hi hr hn
    refine ⟨⟨hi.mute, hi.max, fun h0 => absurd h0 (Nat.lt_irrefl 0)⟩, ?_⟩
    show RendS (if τ.newline then _ else _) (s.reverse ++ τ.buf)
    rw [hn]
    exact ⟨[], τ.buf, by simp, by simp, hs, hr⟩
  unfold print
  rw [isMute_rel hd h.toInv]
  simp only [h1, h2, decide_false, Bool.and_false, Bool.or_false, if_false]
  split
  · obtain ⟨g1, g2, g3⟩ := sep_pending env f (σ := { σ with muteline := σ.muteline }) ⟨h.mute, h.max, h.nl⟩ h.weak
    exact emit _ g1 g2.1 g3
  · next hn =>
    have hn' : σ.newline = false := by simpa using hn
    have hr := h.rend
    rw [hn'] at hr
    exact emit { σ with muteline := σ.muteline } ⟨h.mute, h.max, h.nl⟩ hr hn'

/-- What executing a document adds, unless it fails. -/
def Spaces (d : Doc) (f : St → St) : Prop :=
  ∀ (σ : St) (l : List Item), (f σ).ub = false → Rel l σ → Rel ((items d).reverse ++ l) (f σ)

theorem Rel.maxl {l : List Item} {σ : St} (h : Rel l σ) : 1 ≤ σ.maxlines := h.max

theorem rel_indent {l : List Item} (env : Env) {σ : St} (h : Rel l σ) (n : Nat) : Rel l (printIndent env σ n) := by
  refine ⟨sepInv_indent env h.toInv n, ?_⟩
  have hn : (printIndent env σ n).newline = σ.newline := by
    obtain ⟨w, c, p, e, hw⟩ := printIndent_spec env σ n
    rw [e]
  rw [hn]
  exact rendS_indent env h.rend n

theorem indentEnter_rel (env : Env) (v : Int) {σ : St} {l : List Item} (h : Rel l σ) :
    Rel l (indentEnter env v σ) := by
  unfold indentEnter
  split
  · exact h.congr rfl rfl rfl rfl h.max
  · split
    · exact rel_indent env h _
    · split
      · exact h.congr rfl rfl rfl rfl h.max
      · split <;> exact h.congr rfl rfl rfl rfl h.max

theorem execIndent_spaces {d : Doc} {f : St → St} (h : Spaces d f) (env : Env) (v : Int) :
    Spaces d (execIndent env v f) := by
  intro σ l hu hr
  have hi := indentEnter_rel env v hr
  have := h (indentEnter env v σ) l
  unfold execIndent at hu ⊢
  split at hu
  · next h30 => rw [if_pos h30]; have g := this hu hi; exact g.congr rfl rfl rfl rfl g.max
  · next h30 =>
    rw [if_neg h30]
    split at hu
    · next h29 => rw [if_pos h29]; exact this hu hi
    · next h29 => rw [if_neg h29]; have g := this hu hi; exact g.congr rfl rfl rfl rfl g.max

theorem minimize1_spaces {d : Doc} {f : St → St} (h : Spaces d f) (env : Env) (id : Nat)
    (ms : List Minimizer) (i : Nat) : Spaces d fun σ => minimize1 env id ms f σ i := by
  intro σ l hu hr
  simp only [minimize1] at hu ⊢
  split at hu
  · simp at hu
  · next m _ =>
    exact execIndent_spaces h env m.indent
      { σ with force := if m.force ∨ (id, i) ∈ σ.forced then some i else σ.force } l hu
      (hr.congr rfl rfl rfl rfl hr.max)

theorem execMinimize_spaces {d : Doc} {f : St → St} (h : Spaces d f) (env : Env) (id : Nat)
    (ms : List Minimizer) : Spaces d (execMinimize env id ms f) := by
  intro σ l hu hr
  unfold execMinimize at hu ⊢
  split at hu
  · exact minimize1_spaces h env id ms _ σ l hu hr
  · split at hu
    · simp at hu
    · next τ best e =>
      obtain ⟨F, u, hτ⟩ := choose_restore env id ms f σ
      rw [e] at hτ
      dsimp only at hτ
      subst hτ
      have g := minimize1_spaces h env id ms best { σ with forced := F, ub := u, idx := some best } l hu
        (hr.congr rfl rfl rfl rfl hr.max)
      exact g.congr rfl rfl rfl rfl g.max

/-- An alignment that is not empty writes at least one blank. -/
theorem execAlign_some (a : Align) (σ : St) : ∃ w c, execAlign a σ = { σ with buf := w ++ σ.buf, col := c } ∧
    (∀ x ∈ w, blank x) ∧ (a.indent + a.spaces ≠ 0 → w ≠ []) := by
  obtain ⟨w, c, e, hw⟩ := execAlign_spec a σ
  refine ⟨w, c, e, hw, ?_⟩
  rintro h rfl
  have hl := congrArg (fun τ : St => τ.buf.length) e
  have hp : ∀ (τ : St) n, (printIndent1 τ n false).buf.length = n + τ.buf.length := by
    intro τ n
    simp [printIndent1, strindent, strindentSpaces_eq]
  have ht : ∀ n (τ : St), 0 < n → τ.buf.length < (alignTabs τ n).buf.length := by
    intro n τ hn
    rw [alignTabs_eq, if_neg (by omega)]
    obtain ⟨k, c, e⟩ := alignTabs_spec (n - (8 - τ.col % 8)) { τ with buf := '\t' :: τ.buf, col := τ.col + (8 - τ.col % 8) }
    rw [e]
    simp
    omega
  dsimp only at hl
  simp only [List.nil_append] at hl
  unfold execAlign at hl
  split at hl
  · rw [hp] at hl
    rcases Nat.eq_zero_or_pos a.indent with h0 | h0
    · have := alignTabs_spec 0 σ
      rw [h0, alignTabs_eq, if_pos rfl] at hl
      omega
    · have := ht _ σ h0
      omega
  · rw [hp] at hl
    omega

theorem exec_spaces {env : Env} (hd : env.diff = none) (d : Doc) (ht : Tame d) : Spaces d (exec env d) := by
  induction d with
  | nil => intro σ l _ hr; exact hr
  | seq d ds ih1 ih2 =>
    intro σ l hu hr
    rw [exec] at hu ⊢
    have h1 := ih1 ht.1 σ l (exec_ub hd ds _ hu) hr
    have h2 := ih2 ht.2 _ _ hu h1
    rw [items, List.reverse_append, List.append_assoc]
    exact h2
  | group d ih =>
    intro σ l hu hr
    rw [exec_group_none hd] at hu ⊢
    split at hu
    · next hc => rw [if_pos hc]; exact ih ht σ l hu hr
    · next hc =>
      rw [if_neg hc]
      have e : groupSt env σ d = { σ with refit := false, mode := (groupSt env σ d).mode } := by
        rw [groupSt, if_neg hc]
      have := ih ht (groupSt env σ d) l hu (by rw [e]; exact hr.congr rfl rfl rfl rfl hr.max)
      exact this.congr rfl rfl rfl rfl this.max
  | indent n d ih => exact execIndent_spaces (ih ht) env n
  | noindent d ih => exact absurd ht id
  | align a =>
    intro σ l _ hr
    obtain ⟨w, c, e, hw, hne⟩ := execAlign_some a σ
    rw [exec, e, items]
    have h1 : Rel l { σ with buf := w ++ σ.buf, col := c } := by
      refine ⟨⟨hr.mute, hr.max, ?_⟩, hr.rend.push fun c hc => blank_gap (hw c hc)⟩
      intro hn
      obtain ⟨w', b, e', hw'⟩ := hr.nl hn
      refine ⟨w ++ w', b, by show w ++ σ.buf = _; rw [e']; simp, ?_⟩
      intro c hc
      rcases List.mem_append.mp hc with hc | hc
      · exact hw c hc
      · exact hw' c hc
    split
    · exact h1
    · next h0 =>
      refine ⟨h1.toInv, ?_⟩
      have h2 := h1.rend
      have h3 := hne h0
      show RendS (if σ.newline then strip l else .sep :: l) (w ++ σ.buf)
      split
      · next hn =>
        rw [if_pos hn] at h2
        exact h2
      · next hn =>
        rw [if_neg hn] at h2
        refine ⟨h2, ?_⟩
        cases w with
        | nil => exact absurd rfl h3
        | cons x w => exact ⟨x, w ++ σ.buf, rfl, blank_gap (hw x (List.mem_cons_self ..))⟩
  | literal s tk =>
    intro σ l _ hr
    rw [exec_literal_none hd]
    rw [items]
    split
    · next hs => rw [hs]; exact rel_space hd _ hr
    · next hs => exact rel_text hd _ hr (ht.resolve_left hs)
  | verbatim s tk =>
    intro σ l _ hr
    have hs : s = ['\n'] := ht
    subst hs
    rw [items, if_pos rfl]
    rw [exec, execVerbatim_none hd]
    rw [if_neg (by rw [hr.mute]; simp)]
    dsimp only
    have := (rel_line hd {} (σ := { trimSpaces σ with
          newline := σ.newline || (decide ((['\n'] : List Char).length > 1) && decide ((['\n'] : List Char).getLast? = some '\n')
            && decide ((trimSpaces σ).col > 0)) }) (l := l)
      ⟨hr.mute, hr.max, (sepInv_trim hr.toInv).nl⟩ (rendS_trim hr.weak)).drop_sep
    split
    · exact rel_indent env this _
    · exact this
  | line =>
    intro σ l _ hr
    rw [exec]
    split
    · exact rel_line hd _ hr.toInv hr.weak
    · have := rel_space hd { indent := true } hr
      exact this.congr rfl rfl rfl rfl this.max
  | softline n =>
    intro σ l _ hr
    rw [exec]
    split
    · exact (rel_line hd _ hr.toInv hr.weak).drop_sep
    · exact hr
  | hardline =>
    intro σ l _ hr
    exact rel_line hd _ hr.toInv hr.weak
  | optline =>
    intro σ l _ hr
    refine ⟨⟨hr.mute, hr.max, hr.nl⟩, ?_⟩
    show RendS (if (σ.newline || _) then strip l else l) σ.buf
    split
    · exact hr.weak
    · next hn =>
      have : σ.newline = false := by
        cases h : σ.newline with
        | false => rfl
        | true => rw [h] at hn; simp at hn
      have h2 := hr.rend
      rw [this] at h2
      exact h2
  | mute n => exact absurd ht id
  | unmute n => exact absurd ht id
  | optional d ih =>
    intro σ l hu hr
    have := ih ht { σ with optline := σ.optline + 1 } l hu (hr.congr rfl rfl rfl rfl hr.max)
    exact this.congr rfl rfl rfl rfl this.max
  | minimize id ms d ih => exact execMinimize_spaces (ih ht) env id ms
  | scope d ih =>
    intro σ l hu hr
    exact ih ht { σ with statLines := 0 } l hu (hr.congr rfl rfl rfl rfl hr.max)
  | maxlines n d ih =>
    intro σ l hu hr
    have := ih ht.2 { σ with maxlines := n } l hu (hr.congr rfl rfl rfl rfl ht.1)
    exact this.congr rfl rfl rfl rfl hr.max

/-- A token neither begins nor ends with white space. -/
theorem token_text {s : List Char} {ty : Lexer.TT} (h : IsToken s ty) : TextOk s := by
  constructor
  · obtain ⟨c, t, e, hb, _⟩ := h.first
    refine ⟨c, t, e, ?_⟩
    cases hg : gapChar c with
    | false => rfl
    | true =>
      simp only [gapChar, Bool.or_eq_true, decide_eq_true_eq] at hg
      rcases hg with (hg | hg) | hg <;> rw [hg] at hb <;> exact absurd hb (by decide)
  · intro c hc
    have hm : c ∈ s := List.mem_of_getLast? hc
    cases hg : gapChar c with
    | false => rfl
    | true =>
      exfalso
      have hcc : c = ' ' ∨ c = '\t' ∨ c = '\n' := by
        simpa [gapChar, or_assoc] using hg
      rcases Lexer.lexeme_inv h.lexeme with ⟨_, k, _⟩ | ⟨_, k⟩ | ⟨_, d, r, e, e', _⟩ | ⟨_, d, r, e, e', _⟩ |
        ⟨_, _, _, i1, i2, i3⟩ | ⟨_, i1, i2, i3⟩
      · have := Lexer.operators_noblank s k.1
        rw [List.all_eq_true] at this
        have := this c hm
        rw [hg] at this; exact absurd this (by decide)
      · rcases k with ⟨pre, body, rest, q, ho, _, _, e, _⟩ | ⟨_, _, _, _, _, _, _, e⟩
        · rw [e, ← List.append_assoc, List.getLast?_concat] at hc
          injection hc with hc
          rcases ho.2 with hq | hq <;> rw [← hc, hq] at hg <;> exact absurd hg (by decide)
        · exact h.notEof e
      · cases r with
        | nil =>
          rw [e] at hm
          simp only [List.mem_singleton] at hm
          obtain ⟨x, t, ex, hb, _⟩ := h.first
          rw [e] at ex
          injection ex with ex _
          rw [← ex, ← hm] at hb
          rcases hcc with h | h | h <;> rw [h] at hb <;> exact absurd hb (by decide)
        | cons y r =>
          have : c ∈ (y :: r).takeWhile Lexer.isNum := by
            rw [e'] at hc
            injection (e.symm.trans e') with _ e2
            rw [← e2] at hc ⊢
            rw [List.getLast?_cons_cons] at hc
            exact List.mem_of_getLast? hc
          have := mem_takeWhile_imp this
          rcases hcc with h | h | h <;> rw [h] at this <;> exact absurd this (by decide)
      · cases r with
        | nil =>
          rw [e] at hm
          simp only [List.mem_singleton] at hm
          obtain ⟨x, t, ex, hb, _⟩ := h.first
          rw [e] at ex
          injection ex with ex _
          rw [← ex, ← hm] at hb
          rcases hcc with h | h | h <;> rw [h] at hb <;> exact absurd hb (by decide)
        | cons y r =>
          have : c ∈ (y :: r).takeWhile Knfmt.Spec.identChar := by
            rw [e'] at hc
            injection (e.symm.trans e') with _ e2
            rw [← e2] at hc ⊢
            rw [List.getLast?_cons_cons] at hc
            exact List.mem_of_getLast? hc
          have := mem_takeWhile_imp this
          rcases hcc with h | h | h <;> rw [h] at this <;> exact absurd this (by decide)
      · rw [i1] at i2
        simp only [List.cons.injEq, true_and] at i2
        exact absurd (by rw [i3, if_pos i2]) h.notEof
      · exact h.notEof i3

theorem spelled_push {r w : List Char} {ts : List (List Char × Lexer.TT)} (h : Spelled r ts)
    (hw : ∀ c ∈ w, gapChar c = true) : Spelled (w ++ r) ts := by
  have mem : ∀ b : List Char, (∀ c ∈ b, gapChar c = true) → ∀ c ∈ w ++ b, gapChar c = true := by
    intro b hb c hc
    rcases List.mem_append.mp hc with hc | hc
    · exact hw c hc
    · exact hb c hc
  cases h with
  | nil _ hb => exact .nil _ (mem _ hb)
  | cons b s rest ty ts hb ht hs =>
    rw [← List.append_assoc]
    exact .cons (w ++ b) s rest ty ts (mem _ hb) ht hs

theorem texts_append (a b : List Item) : texts (a ++ b) = texts a ++ texts b := by
  induction a with
  | nil => rfl
  | cons i a ih => cases i <;> simp [texts, ih]

theorem apart_left {a b : List Item} (h : Apart (a ++ b)) : Apart a :=
  fun x s c t y e => h x s c t (y ++ b) (by rw [e]; simp)

/-- The tokens are found in the buffer. -/
theorem spelled_of_rend (l : List Item) : ∀ (b r : List Char) (us ts : List (List Char × Lexer.TT)),
    RendS l b → Apart l.reverse → texts l.reverse = us.map (·.1) → (∀ x ∈ us, IsToken x.1 x.2) →
    Spelled r ts → (∀ t l', l = .text t :: l' → Ends t r ∨ ∃ c rest, b = c :: rest ∧ gapChar c = true) →
    Spelled (b.reverse ++ r) (us ++ ts) := by
  induction l with
  | nil =>
    intro b r us ts hb _ hu _ hs _
    have : us = [] := by simpa [texts] using hu
    rw [this]
    exact spelled_push hs fun c hc => hb c (List.mem_reverse.mp hc)
  | cons i l ih =>
    intro b r us ts hb ha hu hk hs he
    rw [List.reverse_cons] at ha hu
    cases i with
    | sep =>
      refine ih b r us ts hb.1 (apart_left ha) ?_ hk hs fun t l' _ => Or.inr hb.2
      rw [← hu, texts_append]
      simp [texts]
    | text t =>
      obtain ⟨w, rest, e, hw, ht, hr⟩ := hb
      rw [texts_append] at hu
      obtain ⟨us', x, rfl⟩ : ∃ us' x, us = us' ++ [x] := by
        have : us ≠ [] := by
          rintro rfl
          simp [texts] at hu
        exact ⟨us.dropLast, us.getLast this, (List.dropLast_concat_getLast this).symm⟩
      simp only [texts, List.map_append, List.map_cons, List.map_nil] at hu
      have hu' := List.append_inj' hu rfl
      have hx : t = x.1 := by simpa using hu'.2
      have hxt : IsToken t x.2 := by rw [hx]; exact hk x (by simp)
      have hends : Ends t (w.reverse ++ r) := by
        intro c r' hc
        cases hwr : w.reverse with
        | nil =>
          have hw0 : w = [] := by simpa using hwr
          rw [hwr] at hc
          rcases he t l rfl with h | ⟨d, rest', hd, hg⟩
          · exact h c r' hc
          · exfalso
            rw [hw0, hd] at e
            have h1 : t.reverse.head? = some d := by
              cases htr : t.reverse with
              | nil =>
                obtain ⟨⟨y, t', hy, _⟩, _⟩ := ht
                rw [hy] at htr; simp at htr
              | cons y t' =>
                rw [htr] at e
                simp only [List.nil_append, List.cons_append, List.cons.injEq] at e
                rw [e.1]; rfl
            have := ht.2 d (by rw [List.getLast?_eq_head?_reverse]; exact h1)
            rw [hg] at this
            simp at this
        | cons y w' =>
          rw [hwr] at hc
          simp only [List.cons_append, List.cons.injEq] at hc
          refine Lexer.ends_gap hxt (hw c (List.mem_reverse.mp ?_))
          rw [hwr, hc.1]
          exact List.mem_cons_self ..
      have hsp : Spelled (t ++ (w.reverse ++ r)) ((t, x.2) :: ts) := by
        have := Spelled.cons [] t (w.reverse ++ r) x.2 ts (by simp) (Lexer.isToken_append hxt hends)
          (spelled_push hs fun c hc => hw c (List.mem_reverse.mp hc))
        exact this
      have := ih rest (t ++ (w.reverse ++ r)) us' ((t, x.2) :: ts) hr (apart_left ha) hu'.1
        (fun y hy => hk y (List.mem_append.mpr (Or.inl hy))) hsp (by
          intro u l' hl
          left
          intro c r' hc
          obtain ⟨⟨y, t', hy, _⟩, _⟩ := ht
          rw [hy] at hc
          simp only [List.cons_append, List.cons.injEq] at hc
          refine ha l'.reverse u c t' [] ?_
          rw [hl, hy, hc.1]
          simp)
      rw [e]
      simp only [List.reverse_append, List.reverse_reverse, List.append_assoc, List.singleton_append]
      rw [show x = (t, x.2) from by rw [hx]]
      exact this

/-- C77, printing: the output of a document without comments is made of its texts, in the
order of the document, and each of them is a token of the output. -/
theorem doc_exec_spelled (env : Env) (hd : env.diff = none) (d : Doc) (ht : Tame d)
    (hu : (docExec env false [] d).ub = false) (ts : List (List Char × Lexer.TT))
    (hi : texts (items d) = ts.map (·.1)) (hk : ∀ x ∈ ts, IsToken x.1 x.2) (ha : Apart (items d)) :
    Spelled (docExec env false [] d).buf.reverse ts := by
  have e : docExec env false [] d = exec env d {} := by simp [docExec, diffExit, hd]
  rw [e] at hu ⊢
  have h0 : Rel [] ({} : St) := ⟨⟨rfl, by decide, fun h => absurd h (by decide)⟩, by
    intro c hc; simp at hc⟩
  have h1 := exec_spaces hd d ht {} [] hu h0
  rw [List.append_nil] at h1
  have finish : ∀ l : List Item, RendS l (exec env d {}).buf → Apart l.reverse → texts l.reverse = ts.map (·.1) →
      Spelled (exec env d {}).buf.reverse ts := by
    intro l hl hal htl
    have := spelled_of_rend l (exec env d {}).buf [] ts [] hl hal htl hk (.nil [] (by simp))
      (fun t l' _ => Or.inl fun c r' h => by simp at h)
    simpa using this
  have h2 := h1.weak
  have key : ∀ l : List Item, Apart l.reverse → Apart (strip l).reverse ∧ texts (strip l).reverse = texts l.reverse := by
    intro l
    induction l with
    | nil => exact fun h => ⟨h, rfl⟩
    | cons i l ih =>
      intro h
      cases i with
      | text => exact ⟨h, rfl⟩
      | sep =>
        rw [List.reverse_cons] at h
        obtain ⟨g1, g2⟩ := ih (apart_left h)
        refine ⟨g1, ?_⟩
        show texts (strip l).reverse = _
        rw [g2, List.reverse_cons, texts_append]
        simp [texts]
  obtain ⟨k1, k2⟩ := key (items d).reverse (by rw [List.reverse_reverse]; exact ha)
  rw [List.reverse_reverse] at k2
  exact finish _ h2 k1 (by rw [k2]; exact hi)

end Knfmt.Doc
