import Verif.Doc.Fits
import Verif.Doc.Sep
/-! C86: what is printed on one line is the text of the document on one line. -/
namespace Knfmt.Doc
open Knfmt.Util Knfmt.Doc.Spec

/-- Nothing but blanks is ever taken back. -/
def Grows (f : St → St) : Prop := ∀ σ, '\n' ∈ σ.buf → '\n' ∈ (f σ).buf

theorem grows_trim : Grows trimSpaces := by
  intro σ h
  obtain ⟨w, e, hw, _⟩ := trimLoop_spec σ.buf σ.col
  rw [e] at h
  rcases List.mem_append.1 h with h | h
  · have := hw _ h; simp [blank] at this
  · exact h

theorem grows_indent (env : Env) (σ : St) (n : Nat) (h : '\n' ∈ σ.buf) : '\n' ∈ (printIndent env σ n).buf := by
  obtain ⟨w, c, p, e, _⟩ := printIndent_spec env σ n
  rw [e]
  exact List.mem_append.2 (Or.inr h)

theorem newLine_grows (env : Env) (f : PF) (m : Bool) (σ : St) (h : '\n' ∈ σ.buf) : '\n' ∈ (newLine env f m σ).buf := by
  have ht := grows_trim { σ with
    nlines := σ.nlines + 1
    statLines := if f.force then σ.statLines else σ.statLines + 1
    optline := if f.newline then σ.optline else 0 } h
  show '\n' ∈ (if m then _ else '\n' :: _)
  split
  · exact ht
  · exact List.mem_cons_self ..

theorem emitLine_grows (env : Env) (f : PF) (m : Bool) (σ : St) (h : '\n' ∈ σ.buf) : '\n' ∈ (emitLine env f m σ).buf := by
  have := newLine_grows env f m σ h
  unfold emitLine
  split
  · exact h
  · split
    · exact grows_indent _ _ _ this
    · exact this

theorem emitText_grows (env : Env) (m : Bool) (s : List Char) (σ : St) (h : '\n' ∈ σ.buf) :
    '\n' ∈ (emitText env m s σ).buf := by
  show '\n' ∈ (if m then σ.buf else s.reverse ++ σ.buf)
  split
  · exact h
  · exact List.mem_append.2 (Or.inr h)

theorem print_grows (env : Env) (s : List Char) (f : PF) : Grows fun σ => (print env σ s f).1 := by
  intro σ h
  have hp : ∀ m σ', '\n' ∈ St.buf σ' → '\n' ∈ (emitPending env f m σ').buf := fun m σ' h => emitLine_grows _ _ _ _ h
  dsimp only
  unfold print
  dsimp only
  split
  · split
    · exact h
    · split
      · exact hp _ _ h
      · exact emitText_grows _ _ _ _ (hp _ _ h)
  · split
    · exact emitLine_grows _ _ _ _ h
    · exact emitText_grows _ _ _ _ h

theorem execIndent_grows (env : Env) (v : Int) {f : St → St} (hf : Grows f) : Grows (execIndent env v f) := by
  intro σ h
  have he : '\n' ∈ (indentEnter env v σ).buf := by
    unfold indentEnter
    split
    · exact h
    · split
      · exact grows_indent _ _ _ h
      · split
        · exact h
        · split <;> exact h
  have := hf _ he
  unfold execIndent
  split
  · exact this
  · split <;> exact this

theorem minimize1_grows (env : Env) (id : Nat) (ms : List Minimizer) (i : Nat) {f : St → St} (hf : Grows f) :
    Grows fun σ => minimize1 env id ms f σ i := by
  intro σ h
  dsimp only
  unfold minimize1
  split
  · exact h
  · exact execIndent_grows env _ hf _ h

theorem execMinimize_grows (env : Env) (id : Nat) (ms : List Minimizer) {f : St → St} (hf : Grows f) :
    Grows (execMinimize env id ms f) := by
  intro σ h
  unfold execMinimize
  split
  · exact minimize1_grows env id ms _ hf σ h
  · obtain ⟨F, u, hc⟩ := choose_restore env id ms f σ
    generalize choose env id ms f σ = r at hc ⊢
    obtain ⟨ρ, o⟩ := r
    simp only at hc
    subst hc
    cases o with
    | none => exact h
    | some best => exact minimize1_grows env id ms _ hf _ h

theorem execAlign_grows (a : Align) : Grows (execAlign a) := by
  intro σ h
  rw [execAlign_column]
  exact List.mem_append.2 (Or.inr h)

theorem exec_grows {env : Env} (hd : env.diff = none) {n : Nat} (d : Doc) (h : Plain n d) : Grows (exec env d) := by
  induction d with
  | nil => exact fun σ h => h
  | seq d ds ih1 ih2 => exact fun σ hb => ih2 h.2 _ (ih1 h.1 _ hb)
  | group d ih =>
    intro σ hb
    rw [exec_group_none hd]
    split
    · exact ih h _ hb
    · refine ih h (groupSt env σ d) ?_
      unfold groupSt
      split <;> exact hb
  | indent v d ih => exact execIndent_grows env v (ih h.2)
  | noindent d => exact h.elim
  | align a => exact execAlign_grows a
  | literal s tk =>
    intro σ hb
    rw [exec_literal_none hd]
    exact print_grows env s _ σ hb
  | verbatim s tk => exact h.elim
  | line =>
    intro σ hb
    unfold exec
    split
    · exact print_grows env _ _ σ hb
    · exact print_grows env _ _ σ hb
  | softline k =>
    intro σ hb
    unfold exec
    split
    · exact print_grows env _ _ σ hb
    · exact hb
  | hardline => exact h.elim
  | optline => exact h.elim
  | mute k => exact h.elim
  | unmute k => exact h.elim
  | optional d ih => exact fun σ hb => ih h { σ with optline := σ.optline + 1 } hb
  | minimize id ms d ih => exact execMinimize_grows env id ms (ih h.2.2)
  | scope d ih => exact fun σ hb => ih h { σ with statLines := 0 } hb
  | maxlines k d ih => exact fun σ hb => ih h { σ with maxlines := k } hb

/-- No document forbids a line to end. -/
def Lined : Doc → Prop
  | .seq d ds => Lined d ∧ Lined ds
  | .group d | .indent _ d | .noindent d | .optional d | .minimize _ _ d | .scope d => Lined d
  | .maxlines k d => 1 ≤ k ∧ Lined d
  | _ => True

/-- The printer is in the middle of a line. -/
structure Mid (n : Nat) (σ : St) : Prop where
  newline : σ.newline = false
  mute : σ.mute = 0
  nlines : σ.nlines = 0
  maxlines : 1 ≤ σ.maxlines
  ok : Ok n σ

/-- The text is appended and the line goes on. -/
structure Goes (n : Nat) (σ τ : St) (s : List Char) : Prop where
  buf : τ.buf = s.reverse ++ σ.buf
  col : τ.col = Knfmt.Spec.column σ.col s
  mid : Mid n τ

/-- Either a line is ended or the text on one line is appended. -/
def OneLine (n : Nat) (d : Doc) (f : St → St) : Prop :=
  ∀ σ : St, Mid n σ → '\n' ∈ (f σ).buf ∨ Goes n σ (f σ) (flat d σ.col)

theorem text_goes {n : Nat} {env : Env} (hd : env.diff = none) {σ : St} (h : Mid n σ) (s : List Char)
    (hs : '\n' ∉ s) (f : PF) : Goes n σ (print env σ s f).1 s := by
  have hmu : (isMute env σ && !f.force) = false := by rw [isMute_none hd]; simp [h.mute]
  have hne : s ≠ ['\n'] := by rintro rfl; simp at hs
  have hf := print_frame env σ s f
  have e : (print env σ s f).1 = emitText env false s { σ with muteline := σ.muteline } := by
    unfold print
    rw [hmu]
    dsimp only
    rw [if_neg (by simp [h.newline]), if_neg (by simp [hne])]
    simp
  refine ⟨?_, ?_, ?_, by rw [hf.mute]; exact h.mute, ?_, by rw [hf.maxlines]; exact h.maxlines, print_ok env h.ok s f⟩
  · rw [e]; rfl
  · rw [e, ← width_column]; rfl
  · rw [e]; exact h.newline
  · rw [e]; rfl

theorem line_breaks {n : Nat} {env : Env} (hd : env.diff = none) {σ : St} (h : Mid n σ) (f : PF) :
    '\n' ∈ (print env σ ['\n'] f).1.buf := by
  have hmu : (isMute env σ && !f.force) = false := by rw [isMute_none hd]; simp [h.mute]
  unfold print
  rw [hmu]
  dsimp only
  rw [if_neg (by simp [h.newline]), if_pos (by simp)]
  dsimp only
  unfold emitLine
  rw [if_neg (by dsimp only; have := h.nlines; have := h.maxlines; omega)]
  have hb : ∀ σ', '\n' ∈ (newLine env f false σ').buf := fun σ' => List.mem_cons_self ..
  split
  · exact grows_indent _ _ _ (hb _)
  · exact hb _

theorem execIndent_line {n : Nat} {env : Env} {d : Doc} {f : St → St} (hf : OneLine n d f)
    (v : Int) (hv : ¬ forcesIndent v) : OneLine n d (execIndent env v f) := by
  intro σ h
  obtain ⟨e1, e2, e3, e4, e5⟩ := indentEnter_flat env v hv σ
  have e6 : (indentEnter env v σ).nlines = σ.nlines ∧ (indentEnter env v σ).maxlines = σ.maxlines := by
    have h29 : hasBit v 29 = false := by
      unfold hasBit
      cases h : decide (v > 0) with
      | false => rfl
      | true =>
        cases h2 : v.toNat.testBit 29 with
        | false => rfl
        | true => exact absurd ⟨of_decide_eq_true h, h2⟩ hv
    unfold indentEnter
    rw [h29]
    split
    · exact ⟨rfl, rfl⟩
    · rw [if_neg (by simp)]
      split
      · exact ⟨rfl, rfl⟩
      · split <;> exact ⟨rfl, rfl⟩
  have := hf (indentEnter env v σ) ⟨by rw [e3]; exact h.newline, by rw [e4]; exact h.mute,
    by rw [e6.1]; exact h.nlines, by rw [e6.2]; exact h.maxlines, indentEnter_ok env h.ok v⟩
  rw [e2] at this
  unfold execIndent
  rcases this with this | this
  · left
    split
    · exact this
    · split <;> exact this
  · right
    obtain ⟨a, b, c⟩ := this
    rw [e1] at a
    rw [e2] at b
    split
    · exact ⟨a, b, ⟨c.newline, c.mute, c.nlines, c.maxlines, c.ok⟩⟩
    · split
      · exact ⟨a, b, c⟩
      · exact ⟨a, b, ⟨c.newline, c.mute, c.nlines, c.maxlines, c.ok⟩⟩

theorem minimize1_line {n : Nat} {env : Env} {d : Doc} {f : St → St} (hf : OneLine n d f)
    (id : Nat) {ms : List Minimizer} (hl : ms.length = n) (hms : ∀ m ∈ ms, ¬ forcesIndent m.indent)
    {i : Nat} (hi : i < n) : OneLine n d fun σ => minimize1 env id ms f σ i := by
  intro σ h
  dsimp only
  unfold minimize1
  split
  · next e => rw [List.getElem?_eq_none_iff] at e; omega
  · next m e =>
    have := execIndent_line (env := env) hf m.indent (hms m (List.mem_of_getElem? e))
      { σ with force := if m.force ∨ (id, i) ∈ σ.forced then some i else σ.force }
      ⟨h.newline, h.mute, h.nlines, h.maxlines, h.ok⟩
    rcases this with this | ⟨a, b, c⟩
    · exact Or.inl this
    · exact Or.inr ⟨a, b, c⟩

/-- Printing a document ends a line, or appends the text of the document on one line. -/
theorem exec_line {env : Env} (hd : env.diff = none) {n : Nat} (hn : 0 < n) (d : Doc)
    (h : Plain n d) (hl : Lined d) : OneLine n d (exec env d) := by
  induction d with
  | nil => exact fun σ hm => Or.inr ⟨rfl, rfl, hm⟩
  | seq d ds ih1 ih2 =>
    intro σ hm
    rcases ih1 h.1 hl.1 σ hm with a | a
    · exact Or.inl (exec_grows hd ds h.2 _ a)
    · rcases ih2 h.2 hl.2 _ a.mid with b | b
      · exact Or.inl b
      · right
        rw [a.col] at b
        refine ⟨?_, ?_, b.mid⟩
        · rw [exec, b.buf, a.buf]; simp [flat]
        · rw [exec, b.col, a.col, flat, Knfmt.Util.column_append]
  | group d ih =>
    intro σ hm
    rw [exec_group_none hd]
    split
    · exact ih h hl σ hm
    · next hc =>
      have hg : ∃ m, groupSt env σ d = { σ with refit := false, mode := m } := by
        rw [groupSt, if_neg hc]; exact ⟨_, rfl⟩
      obtain ⟨m, hg⟩ := hg
      rw [hg]
      rcases ih h hl { σ with refit := false, mode := m } ⟨hm.newline, hm.mute, hm.nlines, hm.maxlines, hm.ok⟩ with a | a
      · exact Or.inl a
      · exact Or.inr ⟨a.buf, a.col, ⟨a.mid.newline, a.mid.mute, a.mid.nlines, a.mid.maxlines, a.mid.ok⟩⟩
  | indent v d ih => exact execIndent_line (ih h.2 hl) v h.1
  | noindent d => exact h.elim
  | align a =>
    intro σ hm
    right
    rw [exec, execAlign_column]
    exact ⟨rfl, rfl, ⟨hm.newline, hm.mute, hm.nlines, hm.maxlines, hm.ok⟩⟩
  | literal s tk =>
    intro σ hm
    right
    rw [exec_literal_none hd]
    exact text_goes hd hm s h _
  | verbatim s tk => exact h.elim
  | line =>
    intro σ hm
    unfold exec
    split
    · exact Or.inl (line_breaks hd hm _)
    · right
      have a := text_goes hd hm [' '] (by decide) { indent := true }
      exact ⟨a.buf, a.col, ⟨a.mid.newline, a.mid.mute, a.mid.nlines, a.mid.maxlines, a.mid.ok⟩⟩
  | softline k =>
    intro σ hm
    unfold exec
    split
    · exact Or.inl (line_breaks hd hm _)
    · exact Or.inr ⟨rfl, rfl, hm⟩
  | hardline => exact h.elim
  | optline => exact h.elim
  | mute k => exact h.elim
  | unmute k => exact h.elim
  | optional d ih =>
    intro σ hm
    rcases ih h hl { σ with optline := σ.optline + 1 } ⟨hm.newline, hm.mute, hm.nlines, hm.maxlines, hm.ok⟩ with a | a
    · exact Or.inl a
    · exact Or.inr ⟨a.buf, a.col, ⟨a.mid.newline, a.mid.mute, a.mid.nlines, a.mid.maxlines, a.mid.ok⟩⟩
  | minimize id ms d ih =>
    intro σ hm
    cases hi : σ.idx with
    | some i =>
      simp only [exec, execMinimize, hi]
      exact minimize1_line (ih h.2.2 hl) id h.1 h.2.1 (hm.ok.2 i hi) σ hm
    | none =>
      obtain ⟨F, best, hb, e⟩ := choose_ok env id h.1 hn
        (exec_ok hd hn d (plain_uniform d h.2.2)) σ hm.ok
      simp only [exec, execMinimize, hi, e]
      rcases minimize1_line (env := env) (ih h.2.2 hl) id h.1 h.2.1 hb { σ with forced := F, idx := some best }
        ⟨hm.newline, hm.mute, hm.nlines, hm.maxlines, ⟨hm.ok.1, fun j e => by simp at e; omega⟩⟩ with a | a
      · exact Or.inl a
      · exact Or.inr ⟨a.buf, a.col, ⟨a.mid.newline, a.mid.mute, a.mid.nlines, a.mid.maxlines,
          ⟨a.mid.ok.1, fun j e => by simp at e⟩⟩⟩
  | scope d ih =>
    intro σ hm
    rcases ih h hl { σ with statLines := 0 } ⟨hm.newline, hm.mute, hm.nlines, hm.maxlines, hm.ok⟩ with a | a
    · exact Or.inl a
    · exact Or.inr ⟨a.buf, a.col, a.mid⟩
  | maxlines k d ih =>
    intro σ hm
    rcases ih h hl.2 { σ with maxlines := k } ⟨hm.newline, hm.mute, hm.nlines, hl.1, hm.ok⟩ with a | a
    · exact Or.inl a
    · exact Or.inr ⟨a.buf, a.col, ⟨a.mid.newline, a.mid.mute, a.mid.nlines, hm.maxlines, a.mid.ok⟩⟩

/-- What is printed without a new line is the text of the document on one line. -/
theorem docExec_line (env : Env) (hd : env.diff = none) {n : Nat} (hn : 0 < n) (d : Doc) (h : Plain n d)
    (hl : Lined d) (hx : '\n' ∉ (docExec env false [] d).buf.reverse) :
    (docExec env false [] d).buf.reverse = flat d 0 := by
  have e : docExec env false [] d = exec env d {} := by simp [docExec, diffExit, hd]
  rw [e] at hx ⊢
  rcases exec_line hd hn d h hl {} ⟨rfl, rfl, rfl, by decide, ⟨rfl, by simp⟩⟩ with a | a
  · exact absurd (List.mem_reverse.2 a) hx
  · rw [a.buf]; simp

/-- The text of items on one line. -/
def render : List Item → List Char
  | [] => []
  | .text s :: l => s ++ render l
  | .sep :: l => ' ' :: render l

theorem render_append (a b : List Item) : render (a ++ b) = render a ++ render b := by
  induction a with
  | nil => rfl
  | cons i a ih => cases i <;> simp [render, ih]

/-- No alignment. -/
def Unaligned : Doc → Prop
  | .seq d ds => Unaligned d ∧ Unaligned ds
  | .group d | .indent _ d | .noindent d | .optional d | .minimize _ _ d | .scope d | .maxlines _ d => Unaligned d
  | .align _ => False
  | _ => True

theorem flat_items {n : Nat} (d : Doc) (h : Plain n d) (ha : Unaligned d) (c : Nat) : flat d c = render (items d) := by
  induction d generalizing c with
  | seq d ds ih1 ih2 => rw [flat, items, render_append, ih1 h.1 ha.1, ih2 h.2 ha.2]
  | group d ih | optional d ih | scope d ih | maxlines _ d ih => exact ih h ha c
  | indent v d ih => exact ih h.2 ha c
  | minimize _ _ d ih => exact ih h.2.2 ha c
  | literal s tk =>
    rw [flat, items]
    split
    · next e => rw [e]; rfl
    · simp [render]
  | align a => exact ha.elim
  | _ => first | rfl | exact h.elim

end Knfmt.Doc
