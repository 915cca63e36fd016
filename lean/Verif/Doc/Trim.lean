import Verif.Doc.Minimize
/-! C21: no trailing white space. -/
namespace Knfmt.Doc.Spec

/-- No line that is followed by another one ends with a blank. -/
def NoTrailing (s : List Char) : Prop :=
  ∀ a c b, s = a ++ c :: '\n' :: b → c ≠ ' ' ∧ c ≠ '\t'

/-- The texts in a document have no blanks before a new line, and no literal longer
than a new line begins with one. -/
def Tidy : Doc → Prop
  | .seq d ds => Tidy d ∧ Tidy ds
  | .group d | .indent _ d | .noindent d | .optional d | .minimize _ _ d
  | .scope d | .maxlines _ d => Tidy d
  | .literal s _ => NoTrailing s ∧ (s.head? = some '\n' → s = ['\n'])
  | .verbatim s _ => NoTrailing s
  | _ => True

end Knfmt.Doc.Spec

namespace Knfmt.Doc
open Knfmt.Util Knfmt.Doc.Spec

/-- The last byte is not a blank. -/
def Trimmed (b : List Char) : Prop := ∀ x, b.head? = some x → blank x = false

/-- A property of the buffer kept by writing blanks, by dropping them at the end and by
writing a new line not preceded by blanks. -/
structure BufInv (I : List Char → Prop) : Prop where
  drop : ∀ w b, I (w ++ b) → (∀ x ∈ w, blank x) → I b
  blanks : ∀ w b, I b → (∀ x ∈ w, blank x) → I (w ++ b)
  line : ∀ b, I b → Trimmed b → I ('\n' :: b)

/-- The texts of a document may be written: literals anywhere, verbatim text after
something else than a blank. -/
def TextInv (I : List Char → Prop) : Doc → Prop
  | .seq d ds => TextInv I d ∧ TextInv I ds
  | .group d | .indent _ d | .noindent d | .optional d | .minimize _ _ d
  | .scope d | .maxlines _ d => TextInv I d
  | .literal s _ => s ≠ ['\n'] → ∀ b, I b → I (s.reverse ++ b)
  | .verbatim s _ => ∀ b, I b → Trimmed b → I (s.reverse ++ b)
  | _ => True

section
variable {I : List Char → Prop} (hI : BufInv I)
include hI

theorem inv_trim {σ : St} (h : I σ.buf) : I (trimSpaces σ).buf ∧ Trimmed (trimSpaces σ).buf := by
  obtain ⟨w, e, hw, ht⟩ := trimLoop_spec σ.buf σ.col
  refine ⟨hI.drop w _ ?_ hw, ht⟩
  show I (w ++ (trimLoop σ.buf σ.col).1)
  rw [← e]; exact h

theorem inv_printIndent (env : Env) {σ : St} (n : Nat) (h : I σ.buf) : I (printIndent env σ n).buf := by
  obtain ⟨w, c, p, e, hw⟩ := printIndent_spec env σ n
  rw [e]; exact hI.blanks w _ h hw

theorem inv_newLine (env : Env) (f : PF) (m : Bool) {σ : St} (h : I σ.buf) :
    I (newLine env f m σ).buf ∧ Trimmed (newLine env f m σ).buf := by
  have ht := inv_trim hI h
  show I (if m then (trimSpaces σ).buf else '\n' :: (trimSpaces σ).buf) ∧
    Trimmed (if m then (trimSpaces σ).buf else '\n' :: (trimSpaces σ).buf)
  split
  · exact ht
  · exact ⟨hI.line _ ht.1 ht.2, by intro x hx; simp at hx; subst hx; decide⟩

theorem inv_emitLine (env : Env) (f : PF) (m : Bool) {σ : St} (h : I σ.buf) :
    I (emitLine env f m σ).buf ∧
      (f.indent = false → Trimmed σ.buf → Trimmed (emitLine env f m σ).buf) := by
  unfold emitLine
  split
  · exact ⟨h, fun _ t => t⟩
  · split
    · next hf => exact ⟨inv_printIndent hI env _ (inv_newLine hI env f m h).1, by simp [hf]⟩
    · exact ⟨(inv_newLine hI env f m h).1, fun _ _ => (inv_newLine hI env f m h).2⟩

theorem inv_emitPending (env : Env) (f : PF) (m : Bool) (σ : St) (h : I σ.buf) :
    I (emitPending env f m σ).buf ∧
      (f.indent = false → Trimmed σ.buf → Trimmed (emitPending env f m σ).buf) := by
  unfold emitPending
  exact inv_emitLine hI env { f with newline := true } m
    (σ := { σ with refit := true, newline := false, muteline := σ.muteline || m }) h

/-- Printing a text that may be written. -/
theorem inv_print (env : Env) (f : PF) (s : List Char) {σ : St} (h : I σ.buf)
    (hs : s ≠ ['\n'] → (∀ b, I b → I (s.reverse ++ b)) ∨
      (f.indent = false ∧ Trimmed σ.buf ∧ ∀ b, I b → Trimmed b → I (s.reverse ++ b))) :
    I (print env σ s f).1.buf := by
  have put : ∀ (m : Bool) (τ : St), I τ.buf →
      (f.indent = false → Trimmed σ.buf → Trimmed τ.buf) → s ≠ ['\n'] →
      I (emitText env m s τ).buf := by
    intro m τ hτ ht hn
    show I (if m then τ.buf else s.reverse ++ τ.buf)
    split
    · exact hτ
    · rcases hs hn with h1 | ⟨h1, h2, h3⟩
      · exact h1 _ hτ
      · exact h3 _ hτ (ht h1 h2)
  unfold print
  dsimp only
  split
  · split
    · exact h
    · split
      · refine (inv_emitPending hI env f _ _ ?_).1
        exact h
      · next hn =>
        refine put _ _ (inv_emitPending hI env f _ _ ?_).1 ?_ (by simpa using hn)
        · exact h
        · intro hf ht
          refine (inv_emitPending hI env f _ _ ?_).2 hf ht
          exact h
  · split
    · refine (inv_emitLine hI env f _ (σ := { σ with muteline := _ }) ?_).1
      exact h
    · next hn => exact put _ _ h (fun _ t => t) (by simpa using hn)

theorem inv_printLine (env : Env) (f : PF) {σ : St} (h : I σ.buf) :
    I (print env σ ['\n'] f).1.buf := inv_print hI env f ['\n'] h (by simp)

theorem inv_printSpace (env : Env) (f : PF) {σ : St} (h : I σ.buf) :
    I (print env σ [' '] f).1.buf :=
  inv_print hI env f [' '] h fun _ => Or.inl fun b hb => hI.blanks [' '] b hb (by simp [blank])

theorem inv_indent {f : St → St} (hf : ∀ σ, I σ.buf → I (f σ).buf) (env : Env) (v : Int) (σ : St)
    (h : I σ.buf) : I (execIndent env v f σ).buf := by
  have h1 : I (indentEnter env v σ).buf := by
    unfold indentEnter
    split
    · exact h
    · split
      · exact inv_printIndent hI env _ h
      · split
        · exact h
        · split <;> exact h
  have := hf _ h1
  unfold execIndent
  split
  · exact this
  · split <;> exact this

theorem inv_minimize1 {f : St → St} (hf : ∀ σ, I σ.buf → I (f σ).buf) (env : Env) (id : Nat)
    (ms : List Minimizer) (i : Nat) (σ : St) (h : I σ.buf) : I (minimize1 env id ms f σ i).buf := by
  unfold minimize1
  split
  · exact h
  · next m _ =>
    exact inv_indent hI hf env m.indent
      { σ with force := if m.force ∨ (id, i) ∈ σ.forced then some i else σ.force } h

theorem inv_verbatim {env : Env} (hd : env.diff = none) (s : List Char) (tk : Tok)
    (hs : ∀ b, I b → Trimmed b → I (s.reverse ++ b)) (σ : St) (h : I σ.buf) :
    I (execVerbatim env s tk σ).buf := by
  rw [execVerbatim_none hd]
  split
  · exact h
  · have ht := inv_trim hI h
    have hp : ∀ b : Bool, I (print env { trimSpaces σ with newline := b } s {}).1.buf := by
      intro b
      exact inv_print hI env {} s (σ := { trimSpaces σ with newline := b }) ht.1
        fun _ => Or.inr ⟨rfl, ht.2, hs⟩
    dsimp only
    split
    · exact inv_printIndent hI env _ (hp _)
    · exact hp _

/-- The printer keeps such properties. -/
theorem exec_inv {env : Env} (hd : env.diff = none) (d : Doc) (ht : TextInv I d) :
    ∀ σ, I σ.buf → I (exec env d σ).buf := by
  induction d with
  | nil => exact fun σ h => h
  | seq d ds ih1 ih2 => exact fun σ h => ih2 ht.2 _ (ih1 ht.1 _ h)
  | group d ih =>
    intro σ h
    rw [exec_group_none hd]
    split
    · exact ih ht σ h
    · next hc =>
      refine ih ht (groupSt env σ d) ?_
      rw [groupSt, if_neg hc]; exact h
  | indent v d ih => exact fun σ h => inv_indent hI (ih ht) env v σ h
  | noindent d ih =>
    intro σ h
    exact ih ht { trimSpaces σ with cur := 0, pre := 0 } (inv_trim hI h).1
  | align a =>
    intro σ h
    obtain ⟨w, c, e, hw⟩ := execAlign_spec a σ
    rw [exec, e]; exact hI.blanks w _ h hw
  | literal s tk =>
    intro σ h
    rw [exec_literal_none hd]
    exact inv_print hI env _ s h fun hn => Or.inl (ht hn)
  | verbatim s tk => exact fun σ h => inv_verbatim hI hd s tk ht σ h
  | line =>
    intro σ h
    rw [exec]
    split
    · exact inv_printLine hI env _ h
    · exact inv_printSpace hI env _ h
  | softline _ =>
    intro σ h
    rw [exec]
    split
    · exact inv_printLine hI env _ h
    · exact h
  | hardline => intro σ h; exact inv_printLine hI env _ h
  | optline => exact fun σ h => h
  | mute k => intro σ h; rw [exec, (execMute_text hd k true σ).2.1]; exact h
  | unmute k => intro σ h; rw [exec, (execMute_text hd k false σ).2.1]; exact h
  | optional d ih => intro σ h; exact ih ht { σ with optline := σ.optline + 1 } h
  | minimize id ms d ih =>
    intro σ h
    rw [exec]
    unfold execMinimize
    split
    · exact inv_minimize1 hI (ih ht) env id ms _ σ h
    · obtain ⟨F, u, hc⟩ := choose_restore env id ms (exec env d) σ
      split
      · next τ e =>
        rw [e] at hc
        dsimp only at hc
        subst hc
        exact h
      · next τ best e =>
        rw [e] at hc
        dsimp only at hc
        subst hc
        exact inv_minimize1 hI (ih ht) env id ms best
          { σ with forced := F, ub := u, idx := some best } h
  | scope d ih => intro σ h; exact ih ht { σ with statLines := 0 } h
  | maxlines k d ih => intro σ h; exact ih ht { σ with maxlines := k } h

end

/-- No blank before a new line, in the buffer. -/
def CleanR : List Char → Prop
  | [] => True
  | c :: b => (c = '\n' → Trimmed b) ∧ CleanR b

theorem cleanR_iff (b : List Char) : CleanR b ↔ NoTrailing b.reverse := by
  have key : CleanR b ↔ ∀ a c r, b = r ++ '\n' :: c :: a → blank c = false := by
    induction b with
    | nil => simp [CleanR]
    | cons x b ih =>
      unfold CleanR
      rw [ih]
      constructor
      · rintro ⟨h1, h2⟩ a c r e
        cases r with
        | nil =>
          simp only [List.nil_append, List.cons.injEq] at e
          exact h1 e.1 c (by rw [e.2]; rfl)
        | cons y r =>
          simp only [List.cons_append, List.cons.injEq] at e
          exact h2 a c r e.2
      · intro h
        refine ⟨?_, fun a c r e => h a c (x :: r) (by rw [e]; rfl)⟩
        rintro rfl y hy
        cases b with
        | nil => simp at hy
        | cons z b =>
          simp only [List.head?_cons, Option.some.injEq] at hy
          subst hy
          exact h b z [] rfl
  rw [key]
  have hb : ∀ c, blank c = false ↔ c ≠ ' ' ∧ c ≠ '\t' := by intro c; simp [blank]
  constructor
  · intro h a c r e
    rw [← hb]
    apply h a.reverse c r.reverse
    have := congrArg List.reverse e
    simpa using this
  · intro h a c r e
    rw [hb]
    apply h a.reverse c r.reverse
    rw [e]; simp

theorem cleanR_drop (w b : List Char) (h : CleanR (w ++ b)) : CleanR b := by
  induction w with
  | nil => exact h
  | cons x w ih => exact ih h.2

theorem cleanR_inv : BufInv CleanR where
  drop w b h _ := cleanR_drop w b h
  blanks w b h hw := by
    induction w with
    | nil => exact h
    | cons x w ih =>
      refine ⟨?_, ih fun y hy => hw y (List.mem_cons_of_mem _ hy)⟩
      rintro rfl
      have := hw '\n' (List.mem_cons_self ..)
      simp [blank] at this
  line b h ht := ⟨fun _ => ht, h⟩

theorem cleanR_text (s b : List Char) (hs : NoTrailing s) (hb : CleanR b)
    (h0 : s.head? = some '\n' → Trimmed b) : CleanR (s.reverse ++ b) := by
  rw [cleanR_iff] at hb ⊢
  intro a c r e
  simp only [List.reverse_append, List.reverse_reverse] at e
  have h1 : (b.reverse ++ s) = (a ++ [c]) ++ '\n' :: r := by rw [e]; simp
  rcases List.append_eq_append_iff.mp h1 with ⟨t, h2, h3⟩ | ⟨t, h2, h3⟩
  · -- the new line is in `s`
    cases t with
    | nil =>
      simp only [List.nil_append] at h3
      simp only [List.append_nil] at h2
      have := h0 (by rw [h3]; rfl) c (by
        have h4 := congrArg List.reverse h2
        simp only [List.reverse_append, List.reverse_cons, List.reverse_nil, List.nil_append,
          List.reverse_reverse] at h4
        rw [← h4]; rfl)
      simpa [blank] using this
    | cons y t =>
      have h4 : ∃ t', y :: t = t' ++ [c] := by
        rcases List.eq_nil_or_concat (y :: t) with h | ⟨l, z, h⟩
        · simp at h
        · refine ⟨l, ?_⟩
          rw [h] at h2
          rw [List.concat_eq_append, ← List.append_assoc] at h2
          have := List.append_inj_right' h2 rfl
          rw [h, List.concat_eq_append, this]
      obtain ⟨t', h4⟩ := h4
      rw [h4] at h3
      exact hs t' c r (by rw [h3]; simp)
  · -- the new line is in `b`
    cases t with
    | nil =>
      simp only [List.nil_append] at h3
      simp only [List.append_nil] at h2
      have := h0 (by rw [← h3]; rfl) c (by
        have h4 := congrArg List.reverse h2
        simp only [List.reverse_append, List.reverse_cons, List.reverse_nil, List.nil_append,
          List.reverse_reverse] at h4
        rw [h4]; rfl)
      simpa [blank] using this
    | cons y t =>
      simp only [List.cons_append, List.cons.injEq] at h3
      obtain ⟨rfl, h3⟩ := h3
      exact hb a c t (by rw [h2]; simp)

theorem tidy_textInv (d : Doc) (h : Tidy d) : TextInv CleanR d := by
  induction d with
  | seq d ds ih1 ih2 => exact ⟨ih1 h.1, ih2 h.2⟩
  | group d ih | indent _ d ih | noindent d ih | optional d ih | minimize _ _ d ih
  | scope d ih | maxlines _ d ih => exact ih h
  | literal s tk =>
    intro hn b hb
    exact cleanR_text s b h.1 hb fun e => absurd (h.2 e) hn
  | verbatim s tk => intro b hb ht; exact cleanR_text s b h hb fun _ => ht
  | _ => trivial

theorem cleanR_trimLines (b : List Char) (h : CleanR b) : CleanR (trimLines b) := by
  induction b using trimLines.induct with
  | case1 b ih => rw [trimLines]; exact ih h.2
  | case2 b hb => rw [trimLines]; exact h; exact hb

/-- C21: if the texts in the document have no blanks before new lines, and neither has
the text printed before, the output has none. -/
theorem doc_exec_no_trailing (env : Env) (hd : env.diff = none) (trim : Bool) (pre : List Char)
    (d : Doc) (hp : NoTrailing pre) (ht : Tidy d) :
    NoTrailing (docExec env trim pre d).buf.reverse := by
  rw [← cleanR_iff]
  have h0 : CleanR pre.reverse := by rw [cleanR_iff]; simpa using hp
  have h1 : CleanR (exec env d { buf := pre.reverse }).buf :=
    exec_inv cleanR_inv hd d (tidy_textInv d ht) { buf := pre.reverse } h0
  simp only [docExec, diffExit, hd]
  split
  · exact cleanR_trimLines _ h1
  · exact h1

/-- The hypotheses hold of a document with a space before a line break. -/
example : Tidy (.seq (.literal "a".toList none) (.seq (.literal " ".toList none)
      (.seq .hardline (.seq (.verbatim "/* b */\n".toList { id := 0 }) .nil)))) ∧
    (docExec {} false [] (.seq (.literal "a".toList none) (.seq (.literal " ".toList none)
      (.seq .hardline (.seq (.verbatim "/* b */\n".toList { id := 0 }) .nil))))).buf.reverse =
      "a\n/* b */\n".toList := by
  refine ⟨⟨⟨?_, by decide⟩, ⟨?_, by decide⟩, trivial, ?_, trivial⟩, by decide +kernel⟩
  · intro a c b e; have := congrArg List.length e; simp at this; omega
  · intro a c b e; have := congrArg List.length e; simp at this; omega
  · intro a c b e
    match a, e with
    | [], e | [_], e | [_, _], e | [_, _, _], e | [_, _, _, _], e | [_, _, _, _, _], e => simp at e
    | [_, _, _, _, _, _], e => simp at e; rw [← e.2.2.2.2.2.2.1]; decide
    | _ :: _ :: _ :: _ :: _ :: _ :: _ :: t, e =>
      have := congrArg List.length e; simp at this; omega

end Knfmt.Doc
