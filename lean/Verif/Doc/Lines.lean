import Verif.Doc.Trim
/-! C22: blank lines are limited. -/
namespace Knfmt.Doc.Spec

/-- There are never more than `m` new lines in a row. -/
def MaxRun (m : Nat) (s : List Char) : Prop :=
  ∀ n a b, s = a ++ List.replicate n '\n' ++ b → n ≤ m

/-- Whether the document read so far ends with white space written as text, when it did
or did not before. -/
def endsSpaced : Doc → Bool → Bool
  | .seq d ds, b => endsSpaced ds (endsSpaced d b)
  | .group d, b | .indent _ d, b | .noindent d, b | .optional d, b | .minimize _ _ d, b
  | .scope d, b | .maxlines _ d, b => endsSpaced d b
  | .literal s _, _ => s.all fun c => c = ' ' || c = '\t'
  | .line, _ => true
  | .softline _, _ | .hardline, _ | .optline, _ => false
  | _, b => b

/-- A new line alone, or a text that does not start with a new line, ends with visible text
and perhaps a new line, and has no more than `m` new lines in a row. -/
def BlockText (m : Nat) (s : List Char) : Prop :=
  s = ['\n'] ∨ ∃ t c, (s = t ++ [c] ∨ s = t ++ [c, '\n']) ∧ space c = false ∧
    s.head? ≠ some '\n' ∧ MaxRun m t

/-- A document without muted parts in which texts have no new lines, no line limit is above
`m`, and no line break comes right after a space. `v` says whether verbatim texts are
allowed, and `b` whether there is a space before the document. -/
def WellSpaced (v : Bool) (m : Nat) : Doc → Bool → Prop
  | .seq d ds, b => WellSpaced v m d b ∧ WellSpaced v m ds (endsSpaced d b)
  | .group d, b | .indent _ d, b | .noindent d, b | .optional d, b | .minimize _ _ d, b
  | .scope d, b => WellSpaced v m d b
  | .maxlines n d, b => n ≤ m ∧ WellSpaced v m d b
  | .literal s _, _ => '\n' ∉ s
  | .line, b | .softline _, b | .hardline, b | .optline, b => b = false
  | .verbatim s _, b => v = true ∧ BlockText m s ∧ b = false
  | .mute _, _ | .unmute _, _ => False
  | _, _ => True

end Knfmt.Doc.Spec

namespace Knfmt.Doc
open Knfmt.Util Knfmt.Doc.Spec

/-- The new lines in the white space at the end of the buffer. -/
def trailing (b : List Char) : Nat := ((b.takeWhile space).filter (· = '\n')).length

theorem blank_space {c : Char} (h : blank c = true) : space c = true ∧ c ≠ '\n' := by
  simp only [blank, Bool.or_eq_true, decide_eq_true_eq] at h
  rcases h with h | h <;> subst h <;> decide

theorem trailing_blanks (w b : List Char) (h : ∀ x ∈ w, blank x) : trailing (w ++ b) = trailing b := by
  induction w with
  | nil => rfl
  | cons x w ih =>
    have hx := blank_space (h x (List.mem_cons_self ..))
    have := ih fun y hy => h y (List.mem_cons_of_mem _ hy)
    unfold trailing at this ⊢
    rw [List.cons_append, List.takeWhile_cons, if_pos hx.1, List.filter_cons_of_neg (by simpa using hx.2)]
    exact this

theorem trailing_line (b : List Char) : trailing ('\n' :: b) = trailing b + 1 := by
  unfold trailing
  rw [List.takeWhile_cons, if_pos (by decide), List.filter_cons_of_pos (by simp)]
  rfl

/-- `MaxRun` for the buffer, last byte first. -/
def RunR (m : Nat) (b : List Char) : Prop :=
  ∀ n a r, b = a ++ List.replicate n '\n' ++ r → n ≤ m

theorem runR_tail {m : Nat} {w b : List Char} (h : RunR m (w ++ b)) : RunR m b := by
  intro n a r e
  exact h n (w ++ a) r (by rw [e]; simp)

theorem runR_other {m : Nat} {c : Char} {b : List Char} (h : RunR m b) (hc : c ≠ '\n') :
    RunR m (c :: b) := by
  intro n a r e
  cases a with
  | nil =>
    cases n with
    | zero => omega
    | succ n =>
      rw [List.replicate_succ] at e
      simp only [List.nil_append, List.cons_append, List.cons.injEq] at e
      exact absurd e.1 hc
  | cons x a =>
    simp only [List.cons_append, List.cons.injEq] at e
    exact h n a r (by rw [e.2])

theorem runR_text {m : Nat} {w b : List Char} (h : RunR m b) (hw : '\n' ∉ w) : RunR m (w ++ b) := by
  induction w with
  | nil => exact h
  | cons x w ih =>
    simp only [List.mem_cons, not_or] at hw
    exact runR_other (ih hw.2) fun e => hw.1 e.symm

theorem trailing_run (n : Nat) (r : List Char) : n ≤ trailing (List.replicate n '\n' ++ r) := by
  induction n with
  | zero => omega
  | succ n ih => rw [List.replicate_succ, List.cons_append, trailing_line]; omega

theorem runR_line {m : Nat} {b : List Char} (h : RunR m b) (ht : trailing b + 1 ≤ m) :
    RunR m ('\n' :: b) := by
  intro n a r e
  cases a with
  | nil =>
    simp only [List.nil_append] at e
    have h1 := trailing_run n r
    rw [← e, trailing_line] at h1
    omega
  | cons x a =>
    simp only [List.cons_append, List.cons.injEq] at e
    exact h n a r (by rw [e.2])

/-- The invariant; `b` says that a space was written and `k` that verbatim text was. -/
structure LineInv (k : Bool) (m : Nat) (b : Bool) (σ : St) : Prop where
  run : RunR (m + k.toNat) σ.buf
  count : b = false ∨ σ.newline = true → trailing σ.buf ≤ σ.nlines + k.toNat
  max : σ.maxlines ≤ m
  mute : σ.mute = 0

theorem trailing_trim (σ : St) : trailing (trimSpaces σ).buf = trailing σ.buf := by
  obtain ⟨w, e, hw, _⟩ := trimLoop_spec σ.buf σ.col
  show trailing (trimLoop σ.buf σ.col).1 = _
  conv => rhs; rw [e]
  rw [trailing_blanks w _ hw]

theorem run_trim {m : Nat} {σ : St} (h : RunR m σ.buf) : RunR m (trimSpaces σ).buf := by
  obtain ⟨w, e, _, _⟩ := trimLoop_spec σ.buf σ.col
  rw [e] at h
  exact runR_tail h

theorem blanks_no_line {w : List Char} (h : ∀ x ∈ w, blank x) : '\n' ∉ w := by
  intro hm
  have := h _ hm
  simp [blank] at this

theorem LineInv.blanks {k : Bool} {m : Nat} {b : Bool} {σ : St} (h : LineInv k m b σ) {w : List Char} {c p : Nat}
    (hw : ∀ x ∈ w, blank x) : LineInv k m b { σ with buf := w ++ σ.buf, col := c, pre := p } :=
  ⟨runR_text h.run (blanks_no_line hw),
    fun hb => by dsimp only; rw [trailing_blanks w _ hw]; exact h.count hb, h.max, h.mute⟩

/-- A new line. -/
theorem line_emitLine {k : Bool} {m : Nat} (env : Env) (f : PF) {σ : St}
    (h : RunR (m + k.toNat) σ.buf) (hc : trailing σ.buf ≤ σ.nlines + k.toNat) (hm : σ.maxlines ≤ m) :
    RunR (m + k.toNat) (emitLine env f false σ).buf ∧
      trailing (emitLine env f false σ).buf ≤ (emitLine env f false σ).nlines + k.toNat ∧
      (emitLine env f false σ).newline = σ.newline := by
  have hn : ∀ τ : St, τ = newLine env f false σ → σ.nlines < σ.maxlines →
      RunR (m + k.toNat) τ.buf ∧ trailing τ.buf ≤ τ.nlines + k.toNat ∧ τ.newline = σ.newline := by
    rintro τ rfl hlt
    have hb : (newLine env f false σ).buf = '\n' :: (trimSpaces σ).buf := rfl
    have hl : (newLine env f false σ).nlines = σ.nlines + 1 := rfl
    rw [hb, hl, trailing_line, trailing_trim]
    exact ⟨runR_line (run_trim h) (by rw [trailing_trim]; omega), by omega, rfl⟩
  unfold emitLine
  split
  · exact ⟨h, hc, rfl⟩
  · next hlt =>
    have := hn _ rfl (by omega)
    split
    · obtain ⟨w, c, p, e, hw⟩ := printIndent_spec env (newLine env f false σ)
        (newLine env f false σ).cur
      rw [e]
      dsimp only
      rw [trailing_blanks w _ hw]
      exact ⟨runR_text this.1 (blanks_no_line hw), this.2⟩
    · exact this

theorem mute_print {env : Env} (hd : env.diff = none) {σ : St} (h : σ.mute = 0) (f : PF) :
    (isMute env σ && !f.force) = false := by rw [isMute_none hd]; simp [h]

theorem line_printLine {k : Bool} {m : Nat} {env : Env} (hd : env.diff = none) (f : PF) {σ : St}
    (h : LineInv k m false σ) : LineInv k m false (print env σ ['\n'] f).1 := by
  have hf := print_frame env σ ['\n'] f
  suffices h' : RunR (m + k.toNat) (print env σ ['\n'] f).1.buf ∧
      trailing (print env σ ['\n'] f).1.buf ≤ (print env σ ['\n'] f).1.nlines + k.toNat from
    ⟨h'.1, fun _ => h'.2, by rw [hf.maxlines]; exact h.max, by rw [hf.mute]; exact h.mute⟩
  have hm := mute_print hd h.mute f
  have hc := h.count (Or.inl rfl)
  unfold print
  rw [hm]
  simp only [decide_true, Bool.and_false, Bool.or_false, List.cons.injEq, and_true]
  rw [if_neg (show ¬ '\n' = ' ' by decide)]
  split
  · have := line_emitLine env { f with newline := true } (k := k) (m := m)
      (σ := { σ with refit := true, newline := false, muteline := σ.muteline || false }) h.run hc h.max
    exact ⟨this.1, this.2.1⟩
  · have := line_emitLine env f (k := k) (m := m) h.run hc h.max
    exact ⟨this.1, this.2.1⟩

theorem trailing_text {s b : List Char} (h : s.all (fun c => c = ' ' || c = '\t') = false)
    (hn : '\n' ∉ s) : trailing (s.reverse ++ b) = 0 := by
  have key : ∀ w : List Char, (∃ c ∈ w, blank c = false) → '\n' ∉ w → trailing (w ++ b) = 0 := by
    intro w
    induction w with
    | nil => rintro ⟨c, hc, _⟩; simp at hc
    | cons x w ih =>
      rintro ⟨c, hc, hb⟩ hw
      simp only [List.mem_cons, not_or] at hw
      by_cases hx : blank x = true
      · have : trailing (x :: w ++ b) = trailing (w ++ b) :=
          trailing_blanks [x] (w ++ b) (by simpa using hx)
        rw [this]
        refine ih ?_ hw.2
        rcases List.mem_cons.mp hc with e | e
        · subst e; rw [hb] at hx; simp at hx
        · exact ⟨c, e, hb⟩
      · have hs : space x = false := by
          have : blank x = false := by simpa using hx
          simp only [blank, Bool.or_eq_false_iff, decide_eq_false_iff_not] at this
          simp only [space, Bool.or_eq_false_iff, decide_eq_false_iff_not]
          exact ⟨this, fun e => hw.1 e.symm⟩
        unfold trailing
        rw [List.cons_append, List.takeWhile_cons, if_neg (by simp [hs])]
        rfl
  apply key
  · rw [List.all_eq_false] at h
    obtain ⟨c, hc, hb⟩ := h
    exact ⟨c, List.mem_reverse.mpr hc, by simpa [blank] using hb⟩
  · simpa using hn

/-- A text without new lines. -/
theorem line_printText {k : Bool} {m : Nat} {env : Env} (hd : env.diff = none) (f : PF) {b : Bool} {σ : St}
    (h : LineInv k m b σ) (s : List Char) (hs : '\n' ∉ s) :
    LineInv k m (s.all fun c => c = ' ' || c = '\t') (print env σ s f).1 := by
  have hf := print_frame env σ s f
  suffices h' : RunR (m + k.toNat) (print env σ s f).1.buf ∧
      ((s.all fun c => c = ' ' || c = '\t') = false ∨ (print env σ s f).1.newline = true →
        trailing (print env σ s f).1.buf ≤ (print env σ s f).1.nlines + k.toNat) from
    ⟨h'.1, h'.2, by rw [hf.maxlines]; exact h.max, by rw [hf.mute]; exact h.mute⟩
  have hm := mute_print hd h.mute f
  have hne : s ≠ ['\n'] := by rintro rfl; simp at hs
  have text : ∀ τ : St, RunR (m + k.toNat) τ.buf → τ.newline = false →
      RunR (m + k.toNat) (emitText env false s τ).buf ∧
      ((s.all fun c => c = ' ' || c = '\t') = false ∨ (emitText env false s τ).newline = true →
        trailing (emitText env false s τ).buf ≤ (emitText env false s τ).nlines + k.toNat) := by
    intro τ hr hnl
    have e1 : (emitText env false s τ).buf = s.reverse ++ τ.buf := rfl
    have e2 : (emitText env false s τ).newline = τ.newline := rfl
    have e3 : (emitText env false s τ).nlines = 0 := rfl
    rw [e1, e2, e3]
    refine ⟨runR_text hr (by simpa using hs), ?_⟩
    rintro (hb | hb)
    · rw [trailing_text hb hs]; omega
    · rw [hnl] at hb; simp at hb
  unfold print
  rw [hm]
  simp only [decide_eq_false hne, Bool.false_and, Bool.or_false, Bool.false_eq_true, if_false]
  by_cases hnl : σ.newline = true
  · rw [if_pos hnl]
    have hc := h.count (Or.inr hnl)
    split
    · exact ⟨h.run, fun _ => hc⟩
    · have := line_emitLine env { f with newline := true } (k := k) (m := m)
        (σ := { σ with refit := true, newline := false, muteline := σ.muteline || false }) h.run hc h.max
      exact text _ this.1 this.2.2
  · rw [if_neg hnl]
    exact text { σ with muteline := σ.muteline } h.run (by simpa using hnl)

theorem line_indent {k : Bool} {m : Nat} {b b' : Bool} {f : St → St}
    (hf : ∀ σ, (f σ).ub = false → LineInv k m b σ → LineInv k m b' (f σ)) (env : Env) (v : Int)
    (τ : St) (hτ : LineInv k m b τ) (hu : (execIndent env v f τ).ub = false) :
    LineInv k m b' (execIndent env v f τ) := by
  have h1 : LineInv k m b (indentEnter env v τ) := by
    unfold indentEnter
    split
    · exact ⟨hτ.run, hτ.count, hτ.max, hτ.mute⟩
    · split
      · obtain ⟨w, c, p, e, hw⟩ := printIndent_spec env τ τ.cur
        rw [e]; exact hτ.blanks hw
      · split
        · exact ⟨hτ.run, hτ.count, hτ.max, hτ.mute⟩
        · split <;> exact ⟨hτ.run, hτ.count, hτ.max, hτ.mute⟩
  have hu' : (f (indentEnter env v τ)).ub = false := by
    unfold execIndent at hu
    split at hu
    · exact hu
    · split at hu <;> exact hu
  have := hf _ hu' h1
  unfold execIndent
  split
  · exact ⟨this.run, this.count, this.max, this.mute⟩
  · split
    · exact this
    · exact ⟨this.run, this.count, this.max, this.mute⟩

theorem line_minimize1 {k : Bool} {m : Nat} {b b' : Bool} {f : St → St}
    (hf : ∀ σ, (f σ).ub = false → LineInv k m b σ → LineInv k m b' (f σ)) (env : Env) (id : Nat)
    (ms : List Minimizer) (i : Nat) (σ : St) (h : LineInv k m b σ)
    (hu : (minimize1 env id ms f σ i).ub = false) : LineInv k m b' (minimize1 env id ms f σ i) := by
  unfold minimize1 at hu ⊢
  split
  · next e => rw [e] at hu; simp at hu
  · next mi e =>
    rw [e] at hu
    exact line_indent hf env mi.indent _ ⟨h.run, h.count, h.max, h.mute⟩ hu

/-- The length of the run of new lines at the end of the buffer. -/
def lead (b : List Char) : Nat := (b.takeWhile (· = '\n')).length

theorem lead_run (n : Nat) (r : List Char) : n ≤ lead (List.replicate n '\n' ++ r) := by
  induction n with
  | zero => omega
  | succ n ih =>
    unfold lead at ih ⊢
    rw [List.replicate_succ, List.cons_append, List.takeWhile_cons, if_pos (by simp),
      List.length_cons]
    omega

theorem lead_le {m : Nat} {b : List Char} (h : RunR m b) : lead b ≤ m := by
  refine h _ [] (b.dropWhile (· = '\n')) ?_
  have h1 : b.takeWhile (· = '\n') = List.replicate (lead b) '\n' := by
    refine List.eq_replicate_iff.mpr ⟨rfl, fun c hc => ?_⟩
    simpa using mem_takeWhile_imp hc
  rw [← h1, List.nil_append, List.takeWhile_append_dropWhile]

theorem runR_cons {m : Nat} {c : Char} {b : List Char} (h : RunR m b) (hl : lead (c :: b) ≤ m) :
    RunR m (c :: b) := by
  intro n a r e
  cases a with
  | nil =>
    have := lead_run n r
    rw [List.nil_append] at e
    rw [← e] at this
    omega
  | cons x a =>
    simp only [List.cons_append, List.cons.injEq] at e
    exact h n a r (by rw [e.2])

/-- Runs do not extend over another character. -/
theorem runR_between {m : Nat} {u v : List Char} {c : Char} (hc : c ≠ '\n') (hu : RunR m u)
    (hv : RunR m v) : RunR m (u ++ c :: v) := by
  induction u with
  | nil => exact runR_other hv hc
  | cons x u ih =>
    refine runR_cons (ih (runR_tail (w := [x]) hu)) ?_
    have h1 : lead (x :: (u ++ c :: v)) = lead (x :: u) := by
      have key : ∀ w : List Char, lead (w ++ c :: v) = lead w := by
        intro w
        induction w with
        | nil => simp [lead, hc]
        | cons y w ih =>
          unfold lead at ih ⊢
          rw [List.cons_append, List.takeWhile_cons, List.takeWhile_cons]
          split
          · simp only [List.length_cons, ih]
          · rfl
      exact key (x :: u)
    exact Nat.le_trans (Nat.le_of_eq h1) (lead_le hu)

theorem runR_iff {m : Nat} {b : List Char} : RunR m b ↔ MaxRun m b.reverse := by
  constructor
  · intro h n a r e
    refine h n r.reverse a.reverse ?_
    have := congrArg List.reverse e
    simpa using this
  · intro h n a r e
    refine h n r.reverse a.reverse ?_
    rw [e]; simp

theorem RunR.mono {m n : Nat} {b : List Char} (h : RunR m b) (hn : m ≤ n) : RunR n b :=
  fun k a r e => Nat.le_trans (h k a r e) hn

theorem runR_nil (m : Nat) : RunR m [] := by
  intro n a r e
  have := congrArg List.length e
  simp at this
  omega

/-- The buffer after a verbatim text. -/
theorem runR_block {m : Nat} {s b : List Char} (hs : BlockText m s) (h1 : s ≠ ['\n'])
    (hb : RunR (m + 1) b) : RunR (m + 1) (s.reverse ++ b) ∧ trailing (s.reverse ++ b) ≤ 1 := by
  rcases hs with hs | ⟨t, c, hs, hc, hh, ht⟩
  · exact absurd hs h1
  · have hcn : c ≠ '\n' := by rintro rfl; simp [space] at hc
    have hrt : RunR m t.reverse := runR_iff.mpr (by simpa using ht)
    have h2 : RunR (m + 1) (t.reverse ++ b) := by
      cases t with
      | nil => exact hb
      | cons x t =>
        have hx : x ≠ '\n' := by
          rcases hs with hs | hs <;> (rw [hs] at hh; simpa using hh)
        rw [List.reverse_cons] at hrt ⊢
        rw [List.append_assoc]
        refine runR_between hx ?_ hb
        exact (runR_iff.mpr fun n a r e => by
          refine ht n (x :: a) r ?_
          rw [List.reverse_reverse] at e
          rw [e]; rfl : RunR m t.reverse).mono (by omega)
    have h3 : RunR (m + 1) (c :: (t.reverse ++ b)) := runR_other h2 hcn
    have h4 : trailing (c :: (t.reverse ++ b)) = 0 := by
      unfold trailing
      rw [List.takeWhile_cons, if_neg (by simp [hc])]; rfl
    rcases hs with hs | hs
    · have e : s.reverse ++ b = c :: (t.reverse ++ b) := by rw [hs]; simp
      rw [e, h4]
      exact ⟨h3, by omega⟩
    · have e : s.reverse ++ b = '\n' :: c :: (t.reverse ++ b) := by rw [hs]; simp
      rw [e, trailing_line, h4]
      exact ⟨runR_line h3 (by rw [h4]; omega), by omega⟩

theorem line_printBlock {m : Nat} {env : Env} (hd : env.diff = none) (f : PF) {σ : St}
    (h : LineInv true m false σ) (s : List Char) (hs : BlockText m s) :
    LineInv true m false (print env σ s f).1 := by
  by_cases h1 : s = ['\n']
  · rw [h1]; exact line_printLine hd f h
  have hf := print_frame env σ s f
  suffices h' : RunR (m + 1) (print env σ s f).1.buf ∧
      trailing (print env σ s f).1.buf ≤ (print env σ s f).1.nlines + 1 from
    ⟨h'.1, fun _ => h'.2, by rw [hf.maxlines]; exact h.max, by rw [hf.mute]; exact h.mute⟩
  have hm := mute_print hd h.mute f
  have hc := h.count (Or.inl rfl)
  have text : ∀ τ : St, RunR (m + 1) τ.buf →
      RunR (m + 1) (emitText env false s τ).buf ∧
      trailing (emitText env false s τ).buf ≤ (emitText env false s τ).nlines + 1 := by
    intro τ hr
    have e1 : (emitText env false s τ).buf = s.reverse ++ τ.buf := rfl
    have e3 : (emitText env false s τ).nlines = 0 := rfl
    rw [e1, e3]
    exact runR_block hs h1 hr
  unfold print
  rw [hm]
  simp only [decide_eq_false h1, Bool.false_and, Bool.or_false, Bool.false_eq_true, if_false]
  split
  · split
    · exact ⟨h.run, hc⟩
    · have := line_emitLine env { f with newline := true } (k := true) (m := m)
        (σ := { σ with refit := true, newline := false, muteline := σ.muteline || false }) h.run hc h.max
      exact text _ this.1
  · exact text { σ with muteline := σ.muteline } h.run

theorem line_verbatim {m : Nat} {env : Env} (hd : env.diff = none) (s : List Char) (tk : Tok)
    (hs : BlockText m s) {σ : St} (h : LineInv true m false σ) :
    LineInv true m false (execVerbatim env s tk σ) := by
  rw [execVerbatim_none hd, if_neg (by rw [h.mute]; simp)]
  dsimp only
  have hp := line_printBlock hd {}
    (σ := { trimSpaces σ with
      newline := σ.newline || (decide (s.length > 1) && decide (s.getLast? = some '\n')
        && decide ((trimSpaces σ).col > 0)) })
    ⟨run_trim h.run, fun _ => by dsimp only; rw [trailing_trim]; exact h.count (Or.inl rfl),
      h.max, h.mute⟩ s hs
  split
  · generalize (print env _ s {}).1 = ρ at hp ⊢
    obtain ⟨w, c, p, e, hw⟩ := printIndent_spec env ρ (if (trimSpaces σ).col > 0 then ρ.cur else ρ.pre)
    rw [e]
    exact hp.blanks hw
  · exact hp

theorem exec_lines {env : Env} (hd : env.diff = none) (k : Bool) (m : Nat) (d : Doc) :
    ∀ (b : Bool) (σ : St), WellSpaced k m d b → (exec env d σ).ub = false → LineInv k m b σ →
      LineInv k m (endsSpaced d b) (exec env d σ) := by
  induction d with
  | nil => exact fun b σ _ _ h => h
  | seq d ds ih1 ih2 =>
    intro b σ hw hu h
    exact ih2 _ _ hw.2 hu (ih1 _ _ hw.1 (exec_ub hd ds _ hu) h)
  | group d ih =>
    intro b σ hw hu h
    rw [exec_group_none hd] at hu ⊢
    split at hu
    · next hc => rw [if_pos hc]; exact ih b σ hw hu h
    · next hc =>
      rw [if_neg hc]
      have : LineInv k m b (groupSt env σ d) := by
        rw [groupSt, if_neg hc]; exact ⟨h.run, h.count, h.max, h.mute⟩
      have := ih b _ hw hu this
      exact ⟨this.run, this.count, this.max, this.mute⟩
  | indent v d ih =>
    intro b σ hw hu h
    exact line_indent (fun τ hu h => ih b τ hw hu h) env v σ h hu
  | noindent d ih =>
    intro b σ hw hu h
    have h1 : LineInv k m b { trimSpaces σ with cur := 0, pre := 0 } :=
      ⟨run_trim h.run, fun hb => by dsimp only; rw [trailing_trim]; exact h.count hb, h.max, h.mute⟩
    have := ih b _ hw hu h1
    exact ⟨this.run, this.count, this.max, this.mute⟩
  | align a =>
    intro b σ _ _ h
    obtain ⟨w, c, e, hw⟩ := execAlign_spec a σ
    rw [exec, e]
    exact h.blanks (p := σ.pre) hw
  | literal s tk =>
    intro b σ hw _ h
    rw [exec_literal_none hd]
    exact line_printText hd _ h s hw
  | verbatim s tk =>
    intro b σ hw _ h
    obtain ⟨hk, hs, hb⟩ := hw
    subst hb hk
    exact line_verbatim hd s tk hs h
  | line =>
    intro b σ hw _ h
    have hb : b = false := hw
    subst hb
    rw [exec]
    split
    · have := line_printLine hd { indent := true } h
      exact ⟨this.run, fun _ => this.count (Or.inl rfl), this.max, this.mute⟩
    · have := line_printText hd { indent := true } h [' '] (by decide)
      exact ⟨this.run, this.count, this.max, this.mute⟩
  | softline _ =>
    intro b σ hw _ h
    have hb : b = false := hw
    subst hb
    rw [exec]
    split
    · exact line_printLine hd { indent := true } h
    · exact h
  | hardline =>
    intro b σ hw _ h
    have hb : b = false := hw
    subst hb
    exact line_printLine hd { indent := true } h
  | optline =>
    intro b σ hw _ h
    have hb : b = false := hw
    subst hb
    exact ⟨h.run, fun _ => h.count (Or.inl rfl), h.max, h.mute⟩
  | mute _ => exact fun _ _ hw => hw.elim
  | unmute _ => exact fun _ _ hw => hw.elim
  | optional d ih =>
    intro b σ hw hu h
    have := ih b { σ with optline := σ.optline + 1 } hw hu ⟨h.run, h.count, h.max, h.mute⟩
    exact ⟨this.run, this.count, this.max, this.mute⟩
  | minimize id ms d ih =>
    intro b σ hw hu h
    simp only [exec] at hu ⊢
    unfold execMinimize at hu ⊢
    split at hu
    · exact line_minimize1 (fun τ hu h => ih b τ hw hu h) env id ms _ σ h hu
    · split at hu
      · simp at hu
      · next τ best e =>
        obtain ⟨F, u, hτ⟩ := choose_restore env id ms (exec env d) σ
        rw [e] at hτ
        dsimp only at hτ
        subst hτ
        have := line_minimize1 (fun τ hu h => ih b τ hw hu h) env id ms best
          { σ with forced := F, ub := u, idx := some best } ⟨h.run, h.count, h.max, h.mute⟩ hu
        exact ⟨this.run, this.count, this.max, this.mute⟩
  | scope d ih =>
    intro b σ hw hu h
    exact ih b { σ with statLines := 0 } hw hu ⟨h.run, h.count, h.max, h.mute⟩
  | maxlines n d ih =>
    intro b σ hw hu h
    have := ih b { σ with maxlines := n } hw.2 hu ⟨h.run, h.count, hw.1, h.mute⟩
    exact ⟨this.run, this.count, h.max, this.mute⟩

theorem runR_trimLines {m : Nat} (b : List Char) (h : RunR m b) : RunR m (trimLines b) := by
  induction b using trimLines.induct with
  | case1 b ih => rw [trimLines]; exact ih (runR_tail (w := ['\n']) h)
  | case2 b hb => rw [trimLines]; exact h; exact hb

theorem doc_exec_lines {env : Env} (hd : env.diff = none) (k : Bool) (trim : Bool) (pre : List Char)
    (d : Doc) (m : Nat) (hm : 2 ≤ m) (hp : MaxRun m pre) (hl : ∀ c, pre.getLast? = some c → ¬ space c)
    (hw : WellSpaced k m d false) (hu : (docExec env trim pre d).ub = false) :
    MaxRun (m + k.toNat) (docExec env trim pre d).buf.reverse := by
  have e : docExec env trim pre d =
      { exec env d { buf := pre.reverse } with
        buf := if trim then trimLines (exec env d { buf := pre.reverse }).buf
          else (exec env d { buf := pre.reverse }).buf } := by
    simp [docExec, diffExit, hd]
  rw [e] at hu ⊢
  have h0 : LineInv k m false { buf := pre.reverse } := by
    refine ⟨runR_iff.mpr ?_, fun _ => ?_, hm, rfl⟩
    · intro n a b e
      have := hp n a b (by simpa using e)
      omega
    · dsimp only
      rw [List.getLast?_eq_head?_reverse] at hl
      unfold trailing
      cases h : pre.reverse with
      | nil => simp
      | cons c r => rw [List.takeWhile_cons, if_neg (hl c (by rw [h]; rfl))]; simp
  have h1 := (exec_lines hd k m d false _ hw hu h0).run
  rw [← runR_iff]
  dsimp only
  split
  · exact runR_trimLines _ h1
  · exact h1

/-- C22 for documents without verbatim and muted parts in which line breaks do not come
right after a space: the output has no more than `m` new lines in a row, `m` being at least
two and the largest limit given in the document. -/
theorem doc_exec_lines_partial (env : Env) (hd : env.diff = none) (trim : Bool) (pre : List Char)
    (d : Doc) (m : Nat) (hm : 2 ≤ m) (hp : MaxRun m pre) (hl : ∀ c, pre.getLast? = some c → ¬ space c)
    (hw : WellSpaced false m d false) (hu : (docExec env trim pre d).ub = false) :
    MaxRun m (docExec env trim pre d).buf.reverse :=
  doc_exec_lines hd false trim pre d m hm hp hl hw hu

/-- C22 for documents with verbatim texts, such as comments: there is at most one new line
more, that of the verbatim text. -/
theorem doc_exec_lines_block_partial (env : Env) (hd : env.diff = none) (trim : Bool)
    (pre : List Char) (d : Doc) (m : Nat) (hm : 2 ≤ m) (hp : MaxRun m pre)
    (hl : ∀ c, pre.getLast? = some c → ¬ space c)
    (hw : WellSpaced true m d false) (hu : (docExec env trim pre d).ub = false) :
    MaxRun (m + 1) (docExec env trim pre d).buf.reverse :=
  doc_exec_lines hd true trim pre d m hm hp hl hw hu

/-- A document with an empty line, spaces and a longer run of breaks. -/
def linesExample : Doc :=
  .seq (.literal "a".toList none) (.seq .hardline (.seq .hardline (.seq .hardline
    (.seq (.literal "b".toList none) (.seq .line (.seq (.literal "c".toList none) .nil))))))

/-- The hypotheses of `doc_exec_lines_partial` hold of it. -/
example : WellSpaced false 2 linesExample false ∧ (docExec {} false [] linesExample).ub = false ∧
    (docExec {} false [] linesExample).buf.reverse = "a\n\nb\nc".toList :=
  ⟨⟨by show _ ∉ _; decide, rfl, rfl, rfl, by show _ ∉ _; decide, rfl, by show _ ∉ _; decide, trivial⟩,
    by decide +kernel, by decide +kernel⟩

/-- A document with a comment on a line of its own. -/
def linesBlockExample : Doc :=
  .seq (.literal "a".toList none) (.seq .hardline (.seq (.verbatim "/*b*/\n".toList { id := 0 })
    (.seq .hardline (.seq .hardline (.seq (.literal "c".toList none) .nil)))))

/-- The hypotheses of `doc_exec_lines_block_partial` hold of it, and three new lines in a
row do occur. -/
example : WellSpaced true 2 linesBlockExample false ∧
    (docExec {} false [] linesBlockExample).ub = false ∧
    (docExec {} false [] linesBlockExample).buf.reverse = "a\n/*b*/\n\n\nc".toList := by
  refine ⟨⟨by show _ ∉ _; decide, rfl, ⟨rfl, Or.inr ⟨"/*b*".toList, '/', Or.inr rfl, by decide,
      by decide, ?_⟩, rfl⟩, rfl, rfl, by show _ ∉ _; decide, trivial⟩, by decide +kernel, by decide +kernel⟩
  intro n a b e
  have h : '\n' ∉ a ++ List.replicate n '\n' ++ b := by rw [← e]; decide
  cases n with
  | zero => omega
  | succ n => simp [List.replicate_succ] at h

/-- A space between line breaks makes the printer forget the lines it has written: there
are three new lines in a row although the limit is two. -/
theorem doc_exec_lines_space :
    (docExec {} false [] (concat [.literal "a".toList none, .hardline, .hardline,
      .literal " ".toList none, .hardline, .literal "b".toList none])).buf.reverse =
      "a\n\n\nb".toList := by
  decide +kernel

end Knfmt.Doc
