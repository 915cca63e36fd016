import Verif.Doc.Lemmas
/-! C20: the printer changes white space only. -/
namespace Knfmt.Doc.Spec

/-- White space: what the printer may add and remove. -/
def space (c : Char) : Bool := c = ' ' || c = '\t' || c = '\n'

/-- A text without its white space. -/
def nonblank (s : List Char) : List Char := s.filter fun c => !space c

/-- The text of a document read from left to right, leaving out what is muted.
A mute document with value `n` adds `n` to the level, unless that would make it
negative; text is shown at level zero. -/
def text : Doc → Int → List Char × Int
  | .seq d ds, m => ((text d m).1 ++ (text ds (text d m).2).1, (text ds (text d m).2).2)
  | .group d, m | .indent _ d, m | .noindent d, m | .optional d, m | .minimize _ _ d, m
  | .scope d, m | .maxlines _ d, m => text d m
  | .literal s _, m | .verbatim s _, m => (if m = 0 then s else [], m)
  | .mute n, m | .unmute n, m => ([], if n > 0 ∨ m + n ≥ 0 then m + n else m)
  | _, m => ([], m)

/-- All the text of a document read from left to right. -/
def leaves : Doc → List Char
  | .seq d ds => leaves d ++ leaves ds
  | .group d | .indent _ d | .noindent d | .optional d | .minimize _ _ d
  | .scope d | .maxlines _ d => leaves d
  | .literal s _ | .verbatim s _ => s
  | _ => []

/-- Nothing in the document is muted. -/
def Unmuted : Doc → Prop
  | .seq d ds => Unmuted d ∧ Unmuted ds
  | .group d | .indent _ d | .noindent d | .optional d | .minimize _ _ d
  | .scope d | .maxlines _ d => Unmuted d
  | .mute _ | .unmute _ => False
  | _ => True

end Knfmt.Doc.Spec

namespace Knfmt.Doc
open Knfmt.Util Knfmt.Doc.Spec

/-- The buffer, last byte first, without white space. -/
def nb (b : List Char) : List Char := b.filter fun c => !space c

theorem nb_append (a b : List Char) : nb (a ++ b) = nb a ++ nb b := by simp [nb]

theorem nb_reverse (a : List Char) : nb a.reverse = (nonblank a).reverse := by
  simp [nb, nonblank, List.filter_reverse]

theorem nb_blank {w : List Char} (h : ∀ x ∈ w, blank x) : nb w = [] := by
  rw [nb, List.filter_eq_nil_iff]
  intro x hx
  have := h x hx
  simp only [blank, Bool.or_eq_true, decide_eq_true_eq] at this
  simp only [space]
  rcases this with h | h <;> simp [h]

theorem nb_trim (σ : St) : nb (trimSpaces σ).buf = nb σ.buf := by
  obtain ⟨w, e, hw, _⟩ := trimLoop_spec σ.buf σ.col
  show nb (trimLoop σ.buf σ.col).1 = _
  conv => rhs; rw [e]
  rw [nb_append, nb_blank hw, List.nil_append]

theorem nb_printIndent1 (σ : St) (n : Nat) (t : Bool) : nb (printIndent1 σ n t).buf = nb σ.buf := by
  obtain ⟨w, c, e, h⟩ := printIndent1_spec σ n t
  rw [e]; simp [nb_append, nb_blank h]

theorem nb_printIndent (env : Env) (σ : St) (n : Nat) : nb (printIndent env σ n).buf = nb σ.buf := by
  obtain ⟨w, c, p, e, h⟩ := printIndent_spec env σ n
  rw [e]; simp [nb_append, nb_blank h]

theorem nb_newLine (env : Env) (f : PF) (m : Bool) (σ : St) :
    nb (newLine env f m σ).buf = nb σ.buf := by
  show nb (if m then (trimSpaces σ).buf else '\n' :: (trimSpaces σ).buf) = _
  split
  · exact nb_trim σ
  · rw [← nb_trim σ]; simp [nb, space]

theorem nb_emitLine (env : Env) (f : PF) (m : Bool) (σ : St) :
    nb (emitLine env f m σ).buf = nb σ.buf := by
  unfold emitLine
  split
  · rfl
  · split
    · rw [nb_printIndent, nb_newLine]
    · rw [nb_newLine]

theorem nb_emitText (env : Env) (m : Bool) (s : List Char) (σ : St) :
    nb (emitText env m s σ).buf = (if m then [] else (nonblank s).reverse) ++ nb σ.buf := by
  show nb (if m then σ.buf else s.reverse ++ σ.buf) = _
  split
  · rfl
  · rw [nb_append, nb_reverse]

theorem nb_emitPending (env : Env) (f : PF) (m : Bool) (σ : St) :
    nb (emitPending env f m σ).buf = nb σ.buf := by
  unfold emitPending; rw [nb_emitLine]

/-- What `doc_print` adds. -/
theorem nb_print (env : Env) (σ : St) (s : List Char) (f : PF) :
    nb (print env σ s f).1.buf =
      (if isMute env σ && !f.force then [] else (nonblank s).reverse) ++ nb σ.buf := by
  unfold print
  dsimp only
  have e0 : nonblank [' '] = [] := by decide
  have e1 : nonblank ['\n'] = [] := by decide
  split
  · split
    · next h => subst h; simp [e0]
    · split
      · next h =>
        have h : s = ['\n'] := by simpa using h
        subst h; rw [nb_emitPending]; simp [e1]
      · rw [nb_emitText, nb_emitPending]
  · split
    · next h =>
      have h : s = ['\n'] := by simpa using h
      subst h; rw [nb_emitLine]; simp [e1]
    · rw [nb_emitText]

theorem print_mute (env : Env) (σ : St) (s : List Char) (f : PF) :
    (print env σ s f).1.mute = σ.mute := (print_frame env σ s f).mute

theorem execMute_text {env : Env} (hd : env.diff = none) (n : Int) (b : Bool) (σ : St) :
    (execMute env n b σ).mute = (if n > 0 ∨ σ.mute + n ≥ 0 then σ.mute + n else σ.mute) ∧
      (execMute env n b σ).buf = σ.buf ∧ (execMute env n b σ).ub = σ.ub := by
  have e : (n > 0 ∨ σ.mute ≥ -n) ↔ (n > 0 ∨ σ.mute + n ≥ 0) := by omega
  obtain ⟨df, h⟩ := execMute_none hd n b σ
  simp only [e] at h
  rw [h]
  by_cases h0 : (if n > 0 ∨ σ.mute + n ≥ 0 then σ.mute + n else σ.mute) = 0
  · rw [if_pos h0]; exact ⟨h0.symm, rfl, rfl⟩
  · rw [if_neg h0]; exact ⟨rfl, rfl, rfl⟩

theorem execVerbatim_text {env : Env} (hd : env.diff = none) (s : List Char) (tk : Tok) (σ : St) :
    (execVerbatim env s tk σ).mute = σ.mute ∧
      nb (execVerbatim env s tk σ).buf =
        (nonblank (if σ.mute = 0 then s else [])).reverse ++ nb σ.buf ∧
      (execVerbatim env s tk σ).ub = σ.ub := by
  rw [execVerbatim_none hd]
  by_cases hm : σ.mute = 0
  · rw [if_neg (by simpa using hm), if_pos hm]
    dsimp only
    have key : ∀ τ : St, τ.mute = 0 → nb (print env τ s {}).1.buf =
        (nonblank s).reverse ++ nb τ.buf := by
      intro τ h; rw [nb_print, isMute_none hd]; simp [h]
    split
    · refine ⟨?_, ?_, ?_⟩
      · rw [(printIndent_frame _ _ _).mute, print_mute]; rfl
      · rw [nb_printIndent, key]
        · exact congrArg _ (nb_trim σ)
        · exact hm
      · rw [(printIndent_frame _ _ _).ub, (print_frame _ _ _ _).ub]; rfl
    · refine ⟨?_, ?_, ?_⟩
      · rw [print_mute]; rfl
      · rw [key]
        · exact congrArg _ (nb_trim σ)
        · exact hm
      · rw [(print_frame _ _ _ _).ub]; rfl
  · rw [if_pos (by simpa using hm), if_neg hm]
    exact ⟨rfl, rfl, rfl⟩

/-! A failure is never forgotten. -/

def Mono (f : St → St) : Prop := ∀ σ, (f σ).ub = false → σ.ub = false

theorem execIndent_ub (env : Env) (v : Int) {f : St → St} (hf : Mono f) : Mono (execIndent env v f) := by
  intro σ h
  have h1 : (f (indentEnter env v σ)).ub = false := by
    unfold execIndent at h
    split at h
    · exact h
    · split at h <;> exact h
  have h2 := hf _ h1
  have h3 : (indentEnter env v σ).ub = σ.ub := by
    unfold indentEnter
    split
    · rfl
    · split
      · exact (printIndent_frame _ _ _).ub
      · split
        · rfl
        · split <;> rfl
  rw [h3] at h2; exact h2

theorem minimize1_ub (env : Env) (id : Nat) (ms : List Minimizer) {f : St → St} (hf : Mono f)
    (i : Nat) : Mono fun σ => minimize1 env id ms f σ i := by
  intro σ h
  simp only [minimize1] at h
  split at h
  · simp at h
  · next m _ =>
    exact execIndent_ub env _ hf
      { σ with force := if m.force ∨ (id, i) ∈ σ.forced then some i else σ.force } h

theorem trials_ub (env : Env) (id : Nat) (ms : List Minimizer) {f : St → St} (hf : Mono f) (sn : St)
    (is : List Nat) : ∀ σ, (trials env id ms f sn σ is).1.ub = false → σ.ub = false := by
  induction is with
  | nil => intro σ h; exact h
  | cons i is ih =>
    intro σ h
    have h1 := ih _ h
    exact minimize1_ub env id ms hf i
      { σ with statLines := 0, statExceeds := 0, force := none, idx := some i } h1

theorem execMinimize_ub (env : Env) (id : Nat) (ms : List Minimizer) {f : St → St} (hf : Mono f) :
    Mono (execMinimize env id ms f) := by
  intro σ h
  unfold execMinimize at h
  split at h
  · exact minimize1_ub env id ms hf _ σ h
  · split at h
    · simp at h
    · next τ best e =>
      have h1 : ({ τ with idx := some best } : St).ub = false :=
        minimize1_ub env id ms hf best { τ with idx := some best } h
      have h2 : τ = (choose env id ms f σ).1 := by rw [e]
      rw [h2] at h1
      exact trials_ub env id ms hf σ _ σ h1

theorem execAlign_ub (a : Align) (σ : St) : (execAlign a σ).ub = σ.ub := by
  obtain ⟨w, c, e, _⟩ := execAlign_spec a σ
  rw [e]

theorem exec_ub {env : Env} (hd : env.diff = none) (d : Doc) : Mono (exec env d) := by
  induction d with
  | nil => exact fun σ h => h
  | seq d ds ih1 ih2 => exact fun σ h => ih1 _ (ih2 _ h)
  | group d ih =>
    intro σ h
    rw [exec_group_none hd] at h
    split at h
    · exact ih _ h
    · next hc =>
      have := ih (groupSt env σ d) h
      rw [groupSt, if_neg hc] at this
      exact this
  | indent n d ih => exact execIndent_ub env n ih
  | noindent d ih =>
    intro σ h
    have := ih _ h
    exact this
  | align a => intro σ h; rw [exec, execAlign_ub] at h; exact h
  | literal s tk =>
    intro σ h
    rw [exec_literal_none hd, (print_frame _ _ _ _).ub] at h; exact h
  | verbatim s tk =>
    intro σ h
    rw [exec, (execVerbatim_text hd s tk σ).2.2] at h; exact h
  | line =>
    intro σ h
    rw [exec] at h
    split at h
    · rw [(print_frame _ _ _ _).ub] at h; exact h
    · have := (print_frame env σ [' '] { indent := true }).ub
      dsimp only at h
      rw [this] at h; exact h
  | softline n =>
    intro σ h
    rw [exec] at h
    split at h
    · rw [(print_frame _ _ _ _).ub] at h; exact h
    · exact h
  | hardline => intro σ h; rw [exec, (print_frame _ _ _ _).ub] at h; exact h
  | optline => exact fun σ h => h
  | mute n => intro σ h; rw [exec, (execMute_text hd n true σ).2.2] at h; exact h
  | unmute n => intro σ h; rw [exec, (execMute_text hd n false σ).2.2] at h; exact h
  | optional d ih =>
    intro σ h
    exact ih { σ with optline := σ.optline + 1 } h
  | minimize id ms d ih => exact execMinimize_ub env id ms ih
  | scope d ih => intro σ h; exact ih { σ with statLines := 0 } h
  | maxlines n d ih => intro σ h; exact ih { σ with maxlines := n } h

/-- What executing a document does to the visible text, unless it fails. -/
def Adds (d : Doc) (f : St → St) : Prop :=
  ∀ σ : St, (f σ).ub = false → (f σ).mute = (text d σ.mute).2 ∧
    nb (f σ).buf = (nonblank (text d σ.mute).1).reverse ++ nb σ.buf

theorem indentEnter_text (env : Env) (v : Int) (σ : St) :
    (indentEnter env v σ).mute = σ.mute ∧ nb (indentEnter env v σ).buf = nb σ.buf := by
  unfold indentEnter
  split
  · exact ⟨rfl, rfl⟩
  · split
    · exact ⟨(printIndent_frame _ _ _).mute, nb_printIndent _ _ _⟩
    · split
      · exact ⟨rfl, rfl⟩
      · split <;> exact ⟨rfl, rfl⟩

theorem execIndent_text {d : Doc} {f : St → St} (h : Adds d f) (env : Env) (v : Int) :
    Adds d (execIndent env v f) := by
  intro σ hu
  have := h (indentEnter env v σ)
  rw [(indentEnter_text env v σ).1, (indentEnter_text env v σ).2] at this
  unfold execIndent at hu ⊢
  split at hu
  · next h30 => rw [if_pos h30]; exact this hu
  · next h30 =>
    rw [if_neg h30]
    split at hu
    · next h29 => rw [if_pos h29]; exact this hu
    · next h29 => rw [if_neg h29]; exact this hu

theorem minimize1_text {d : Doc} {f : St → St} (h : Adds d f) (env : Env) (id : Nat)
    (ms : List Minimizer) (i : Nat) : Adds d fun σ => minimize1 env id ms f σ i := by
  intro σ hu
  simp only [minimize1] at hu ⊢
  split at hu
  · simp at hu
  · exact execIndent_text h env _ _ hu

theorem execMinimize_text {d : Doc} {f : St → St} (h : Adds d f) (env : Env) (id : Nat)
    (ms : List Minimizer) : Adds d (execMinimize env id ms f) := by
  intro σ hu
  unfold execMinimize at hu ⊢
  split at hu
  · exact minimize1_text h env id ms _ σ hu
  · split at hu
    · simp at hu
    · next τ best e =>
      obtain ⟨F, u, hτ⟩ := choose_restore env id ms f σ
      rw [e] at hτ
      dsimp only at hτ
      subst hτ
      exact minimize1_text h env id ms best { σ with forced := F, ub := u, idx := some best } hu

theorem exec_text {env : Env} (hd : env.diff = none) (d : Doc) : Adds d (exec env d) := by
  induction d with
  | nil => intro σ _; simp [exec, text, nonblank]
  | seq d ds ih1 ih2 =>
    intro σ hu
    rw [exec] at hu ⊢
    have h1 := ih1 σ (exec_ub hd ds _ hu)
    have h2 := ih2 _ hu
    rw [h1.1, h1.2] at h2
    refine ⟨h2.1, ?_⟩
    rw [h2.2]
    simp [text, nonblank]
  | group d ih =>
    intro σ hu
    rw [exec_group_none hd] at hu ⊢
    split at hu
    · next hc => rw [if_pos hc]; exact ih σ hu
    · next hc =>
      rw [if_neg hc]
      have := ih (groupSt env σ d) hu
      have e : (groupSt env σ d).mute = σ.mute ∧ (groupSt env σ d).buf = σ.buf := by
        rw [groupSt, if_neg hc]; exact ⟨rfl, rfl⟩
      rw [e.1, e.2] at this
      exact this
  | indent n d ih => exact execIndent_text ih env n
  | noindent d ih =>
    intro σ hu
    rw [exec] at hu ⊢
    have := ih { trimSpaces σ with cur := 0, pre := 0 } hu
    dsimp only at this ⊢
    rw [nb_trim] at this
    exact this
  | align a =>
    intro σ _
    obtain ⟨w, c, e, hw⟩ := execAlign_spec a σ
    rw [exec, e]
    simp [text, nonblank, nb_append, nb_blank hw]
  | literal s tk =>
    intro σ _
    rw [exec_literal_none hd, print_mute, nb_print, isMute_none hd]
    refine ⟨rfl, ?_⟩
    by_cases h : σ.mute = 0 <;> simp [text, h, nonblank]
  | verbatim s tk =>
    intro σ _
    have := execVerbatim_text hd s tk σ
    exact ⟨this.1, this.2.1⟩
  | line =>
    intro σ _
    rw [exec]
    split
    · rw [print_mute, nb_print]; simp [text, nonblank, space]
    · dsimp only; rw [print_mute, nb_print]; simp [text, nonblank, space]
  | softline n =>
    intro σ _
    rw [exec]
    split
    · rw [print_mute, nb_print]; simp [text, nonblank, space]
    · simp [text, nonblank]
  | hardline =>
    intro σ _
    rw [exec, print_mute, nb_print]; simp [text, nonblank, space]
  | optline => intro σ _; simp [exec, text, nonblank]
  | mute n =>
    intro σ _
    have := execMute_text hd n true σ
    rw [exec, this.1, this.2.1]; simp [text, nonblank]
  | unmute n =>
    intro σ _
    have := execMute_text hd n false σ
    rw [exec, this.1, this.2.1]; simp [text, nonblank]
  | optional d ih => intro σ hu; exact ih { σ with optline := σ.optline + 1 } hu
  | minimize id ms d ih => exact execMinimize_text ih env id ms
  | scope d ih => intro σ hu; exact ih { σ with statLines := 0 } hu
  | maxlines n d ih => intro σ hu; exact ih { σ with maxlines := n } hu

theorem nb_trimLines (b : List Char) : nb (trimLines b) = nb b := by
  induction b using trimLines.induct with
  | case1 b ih => rw [trimLines, ih]; simp [nb, space]
  | case2 b h => rw [trimLines]; exact h

/-- C20: without a diff, printing a document appends to the buffer a text that
differs from the visible text of the document in white space only. -/
theorem doc_exec_text (env : Env) (hd : env.diff = none) (trim : Bool) (pre : List Char) (d : Doc)
    (hu : (docExec env trim pre d).ub = false) :
    nonblank (docExec env trim pre d).buf.reverse = nonblank pre ++ nonblank (text d 0).1 := by
  have e : docExec env trim pre d =
      { exec env d { buf := pre.reverse } with
        buf := if trim then trimLines (exec env d { buf := pre.reverse }).buf
          else (exec env d { buf := pre.reverse }).buf } := by
    simp [docExec, diffExit, hd]
  rw [e] at hu ⊢
  have := (exec_text hd d { buf := pre.reverse } hu).2
  have h2 : nb (if trim then trimLines (exec env d { buf := pre.reverse }).buf
      else (exec env d { buf := pre.reverse }).buf) = nb (exec env d { buf := pre.reverse }).buf := by
    split
    · exact nb_trimLines _
    · rfl
  dsimp only
  have key : ∀ b : List Char, nonblank b.reverse = (nb b).reverse := by
    intro b; simp [nb, nonblank, List.filter_reverse]
  rw [key, h2, this, nb_reverse]
  simp

theorem text_unmuted (d : Doc) (h : Unmuted d) : text d 0 = (leaves d, 0) := by
  induction d with
  | seq d ds ih1 ih2 => simp [text, leaves, ih1 h.1, ih2 h.2]
  | group d ih | indent _ d ih | noindent d ih | optional d ih | minimize _ _ d ih
  | scope d ih | maxlines _ d ih => exact ih h
  | mute _ => exact h.elim
  | unmute _ => exact h.elim
  | _ => simp [text, leaves]

/-- C20 for a document in which nothing is muted: all its text is printed, in
order. -/
theorem doc_exec_leaves (env : Env) (hd : env.diff = none) (trim : Bool) (pre : List Char) (d : Doc)
    (hm : Unmuted d) (hu : (docExec env trim pre d).ub = false) :
    nonblank (docExec env trim pre d).buf.reverse = nonblank pre ++ nonblank (leaves d) := by
  rw [doc_exec_text env hd trim pre d hu, text_unmuted d hm]

end Knfmt.Doc
