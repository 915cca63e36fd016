import Verif.Doc.Minimize
/-! C20, the stronger form: texts are printed byte for byte, with white space between them. -/
namespace Knfmt.Doc.Spec

/-- What a document consists of, read from left to right: texts and changes of the mute
level. -/
inductive Event where
  | text (s : List Char)
  | mute (n : Int)
deriving DecidableEq, Repr

/-- The texts and mute levels of a document, from left to right. -/
def events : Doc → List Event
  | .seq d ds => events d ++ events ds
  | .group d | .indent _ d | .noindent d | .optional d | .minimize _ _ d
  | .scope d | .maxlines _ d => events d
  | .literal s _ | .verbatim s _ => [.text s]
  | .mute n | .unmute n => [.mute n]
  | _ => []

/-- The mute level after a change by `n`; it does not become negative. -/
def nextLevel (m n : Int) : Int := if n > 0 ∨ m + n ≥ 0 then m + n else m

/-- The mute level after the events. -/
def level : List Event → Int → Int
  | [], m => m
  | .text _ :: l, m => level l m
  | .mute n :: l, m => level l (nextLevel m n)

/-- A text without the blanks at its end. -/
def rtrim (s : List Char) : List Char :=
  (s.reverse.dropWhile fun c => c = ' ' || c = '\t').reverse

/-- The texts shown, without the blanks at their ends. Texts that are white space only are
left out. -/
def visible : List Event → Int → List (List Char)
  | [], _ => []
  | .text s :: l, m =>
    if m = 0 ∧ (∃ c ∈ s, space c = false) then rtrim s :: visible l m else visible l m
  | .mute n :: l, m => visible l (nextLevel m n)

/-- `out` consists of the given texts in order, byte for byte, with nothing but white
space before, between and after them. -/
def Renders : List (List Char) → List Char → Prop
  | [], out => ∀ c ∈ out, space c = true
  | t :: ts, out => ∃ w rest, out = w ++ t ++ rest ∧ (∀ c ∈ w, space c = true) ∧ Renders ts rest

end Knfmt.Doc.Spec

namespace Knfmt.Doc
open Knfmt.Util Knfmt.Doc.Spec

/-- `Renders` on the buffer, last byte first, the last text first. -/
def RendR : List (List Char) → List Char → Prop
  | [], b => ∀ c ∈ b, space c = true
  | t :: ts, b => ∃ w rest, b = w ++ t.reverse ++ rest ∧ (∀ c ∈ w, space c = true) ∧
      (∀ c, t.getLast? = some c → blank c = false) ∧ t ≠ [] ∧ RendR ts rest

theorem RendR.push {ts : List (List Char)} {b w : List Char} (h : RendR ts b)
    (hw : ∀ c ∈ w, space c = true) : RendR ts (w ++ b) := by
  cases ts with
  | nil =>
    intro c hc
    rcases List.mem_append.mp hc with hc | hc
    · exact hw c hc
    · exact h c hc
  | cons t ts =>
    obtain ⟨w', rest, e, h1, h2, h3, h4⟩ := h
    refine ⟨w ++ w', rest, by rw [e]; simp, ?_, h2, h3, h4⟩
    intro c hc
    rcases List.mem_append.mp hc with hc | hc
    · exact hw c hc
    · exact h1 c hc

theorem RendR.drop {ts : List (List Char)} {b w : List Char} (h : RendR ts (w ++ b))
    (hw : ∀ c ∈ w, blank c = true) : RendR ts b := by
  induction w with
  | nil => exact h
  | cons x w ih =>
    refine ih ?_ fun c hc => hw c (List.mem_cons_of_mem _ hc)
    have hx := hw x (List.mem_cons_self ..)
    cases ts with
    | nil => exact fun c hc => h c (List.mem_cons_of_mem _ hc)
    | cons t ts =>
      obtain ⟨w', rest, e, h1, h2, h3, h4⟩ := h
      cases w' with
      | nil =>
        exfalso
        obtain ⟨y, t', ht⟩ : ∃ y t', t.reverse = y :: t' := by
          cases ht : t.reverse with
          | nil => exact absurd (by simpa using ht) h3
          | cons y t' => exact ⟨y, t', rfl⟩
        rw [ht] at e
        simp only [List.nil_append, List.cons_append, List.cons.injEq] at e
        have := h2 y (by rw [List.getLast?_eq_head?_reverse, ht]; rfl)
        rw [← e.1, hx] at this
        simp at this
      | cons y w' =>
        simp only [List.cons_append, List.cons.injEq] at e
        exact ⟨w', rest, e.2, fun c hc => h1 c (List.mem_cons_of_mem _ hc), h2, h3, h4⟩

theorem rtrim_spec (s : List Char) : ∃ w, s.reverse = w ++ (rtrim s).reverse ∧ (∀ c ∈ w, blank c = true) ∧
    ∀ c, (rtrim s).getLast? = some c → blank c = false := by
  refine ⟨s.reverse.takeWhile fun c => c = ' ' || c = '\t', ?_, ?_, ?_⟩
  · simp [rtrim, List.takeWhile_append_dropWhile]
  · intro c hc
    exact mem_takeWhile_imp hc
  · intro c hc
    rw [List.getLast?_eq_head?_reverse, rtrim, List.reverse_reverse] at hc
    have := List.head?_dropWhile_not (fun c => c = ' ' || c = '\t') s.reverse
    rw [hc] at this
    simpa [blank] using this

theorem RendR.text {ts : List (List Char)} {b : List Char} (h : RendR ts b) (s : List Char)
    (hs : ∃ c ∈ s, space c = false) : RendR (rtrim s :: ts) (s.reverse ++ b) := by
  obtain ⟨w, e, hw, hl⟩ := rtrim_spec s
  refine ⟨w, b, by rw [e], fun c hc => (blank_space' (hw c hc)), hl, ?_, h⟩
  intro h0
  rw [h0] at e
  obtain ⟨c, hc, h1⟩ := hs
  have : c ∈ w := by
    have := List.mem_reverse.mpr hc
    rw [e] at this
    simpa using this
  have := blank_space' (hw c this)
  rw [h1] at this
  simp at this
where
  blank_space' {c : Char} (h : blank c = true) : space c = true := by
    simp only [blank, Bool.or_eq_true, decide_eq_true_eq] at h
    rcases h with h | h <;> subst h <;> decide

theorem RendR.renders {ts : List (List Char)} {b : List Char} (h : RendR ts b) :
    Renders ts.reverse b.reverse := by
  have key : ∀ (ts : List (List Char)) (b : List Char), RendR ts b → ∀ (us : List (List Char)) (r : List Char),
      Renders us r → Renders (ts.reverse ++ us) (b.reverse ++ r) := by
    intro ts
    induction ts with
    | nil =>
      intro b hb us r hr
      cases us with
      | nil =>
        intro c hc
        rcases List.mem_append.mp hc with hc | hc
        · exact hb c (List.mem_reverse.mp hc)
        · exact hr c hc
      | cons u us =>
        obtain ⟨w, rest, e, h1, h2⟩ := hr
        refine ⟨b.reverse ++ w, rest, by rw [e]; simp, ?_, h2⟩
        intro c hc
        rcases List.mem_append.mp hc with hc | hc
        · exact hb c (List.mem_reverse.mp hc)
        · exact h1 c hc
    | cons t ts ih =>
      intro b hb us r hr
      obtain ⟨w, rest, e, h1, _, _, h4⟩ := hb
      have hsp : Renders us (w.reverse ++ r) := by
        cases us with
        | nil =>
          intro c hc
          rcases List.mem_append.mp hc with hc | hc
          · exact h1 c (List.mem_reverse.mp hc)
          · exact hr c hc
        | cons u us =>
          obtain ⟨w', rest', e', h1', h2'⟩ := hr
          refine ⟨w.reverse ++ w', rest', by rw [e']; simp, ?_, h2'⟩
          intro c hc
          rcases List.mem_append.mp hc with hc | hc
          · exact h1 c (List.mem_reverse.mp hc)
          · exact h1' c hc
      have := ih rest h4 (t :: us) (t ++ (w.reverse ++ r))
        ⟨[], w.reverse ++ r, by simp, by simp, hsp⟩
      rw [e]
      simpa using this
  have := key ts b h [] [] (by intro c hc; simp at hc)
  simpa using this

theorem blanks_space {w : List Char} (h : ∀ x ∈ w, blank x) : ∀ c ∈ w, space c = true :=
  fun c hc => RendR.text.blank_space' (h c hc)

theorem rend_trim {ts : List (List Char)} {σ : St} (h : RendR ts σ.buf) :
    RendR ts (trimSpaces σ).buf := by
  obtain ⟨w, e, hw, _⟩ := trimLoop_spec σ.buf σ.col
  rw [e] at h
  exact h.drop hw

theorem rend_indent {ts : List (List Char)} (env : Env) {σ : St} (h : RendR ts σ.buf) (n : Nat) :
    RendR ts (printIndent env σ n).buf := by
  obtain ⟨w, c, p, e, hw⟩ := printIndent_spec env σ n
  rw [e]
  exact h.push (blanks_space hw)

theorem rend_emitLine {ts : List (List Char)} (env : Env) (f : PF) (m : Bool) {σ : St}
    (h : RendR ts σ.buf) : RendR ts (emitLine env f m σ).buf := by
  have hn : RendR ts (newLine env f m σ).buf := by
    have e : (newLine env f m σ).buf =
        if m then (trimSpaces σ).buf else '\n' :: (trimSpaces σ).buf := rfl
    rw [e]
    split
    · exact rend_trim h
    · exact (rend_trim h).push (w := ['\n']) (by simp [space])
  unfold emitLine
  split
  · exact h
  · split
    · exact rend_indent env hn _
    · exact hn

/-- `ts` with the text `s`, unless it is muted or white space only. -/
def addText (m : Bool) (s : List Char) (ts : List (List Char)) : List (List Char) :=
  if m = false ∧ ∃ c ∈ s, space c = false then rtrim s :: ts else ts

theorem addText_space {x : Char} (hx : space x = true) (m : Bool) (ts : List (List Char)) :
    addText m [x] ts = ts := by
  rw [addText, if_neg]
  rintro ⟨_, c, hc, h1⟩
  simp only [List.mem_singleton] at hc
  rw [hc, hx] at h1
  simp at h1

theorem rend_emitText {ts : List (List Char)} (env : Env) (m : Bool) (s : List Char) {σ : St}
    (h : RendR ts σ.buf) : RendR (addText m s ts) (emitText env m s σ).buf := by
  have e : (emitText env m s σ).buf = if m then σ.buf else s.reverse ++ σ.buf := rfl
  rw [e, addText]
  cases m with
  | true => simpa using h
  | false =>
    by_cases hs : ∃ c ∈ s, space c = false
    · rw [if_pos ⟨rfl, hs⟩]
      exact h.text s hs
    · rw [if_neg (fun x => hs x.2)]
      refine h.push (w := s.reverse) ?_
      intro c hc
      cases hsp : space c with
      | true => rfl
      | false => exact absurd ⟨c, List.mem_reverse.mp hc, hsp⟩ hs

theorem rend_emitPending {ts : List (List Char)} (env : Env) (f : PF) (m : Bool) {σ : St}
    (h : RendR ts σ.buf) : RendR ts (emitPending env f m σ).buf := by
  unfold emitPending
  exact rend_emitLine env _ _ h

/-- What `doc_print` adds. -/
theorem rend_print {ts : List (List Char)} (env : Env) (f : PF) {σ : St} (h : RendR ts σ.buf)
    (s : List Char) :
    RendR (addText (isMute env σ && !f.force) s ts) (print env σ s f).1.buf := by
  unfold print
  dsimp only
  split
  · split
    · next hs => rw [hs, addText_space (by decide)]; exact h
    · split
      · next hs =>
        rw [of_decide_eq_true hs, addText_space (by decide)]
        exact rend_emitPending env _ _ h
      · exact rend_emitText env _ s (rend_emitPending env _ _ h)
  · split
    · next hs =>
      rw [of_decide_eq_true hs, addText_space (by decide)]
      exact rend_emitLine env _ _ h
    · exact rend_emitText env _ s h

theorem level_append (a b : List Event) (m : Int) : level (a ++ b) m = level b (level a m) := by
  induction a generalizing m with
  | nil => rfl
  | cons e a ih =>
    cases e with
    | text s => exact ih m
    | mute n => exact ih _

theorem visible_append (a b : List Event) (m : Int) :
    visible (a ++ b) m = visible a m ++ visible b (level a m) := by
  induction a generalizing m with
  | nil => rfl
  | cons e a ih =>
    cases e with
    | text s =>
      simp only [List.cons_append, visible, level, ih]
      split <;> rfl
    | mute n => exact ih _

/-- What executing a document adds, unless it fails. -/
def Rends (d : Doc) (f : St → St) : Prop :=
  ∀ (σ : St) (ts : List (List Char)), (f σ).ub = false → RendR ts σ.buf →
    (f σ).mute = level (events d) σ.mute ∧
    RendR ((visible (events d) σ.mute).reverse ++ ts) (f σ).buf

theorem indentEnter_rend (env : Env) (v : Int) (σ : St) {ts : List (List Char)} (h : RendR ts σ.buf) :
    (indentEnter env v σ).mute = σ.mute ∧ RendR ts (indentEnter env v σ).buf := by
  refine ⟨(indentEnter_text env v σ).1, ?_⟩
  unfold indentEnter
  split
  · exact h
  · split
    · exact rend_indent env h _
    · split
      · exact h
      · split <;> exact h

theorem execIndent_rend {d : Doc} {f : St → St} (h : Rends d f) (env : Env) (v : Int) :
    Rends d (execIndent env v f) := by
  intro σ ts hu hr
  have hi := indentEnter_rend env v σ hr
  have := h (indentEnter env v σ) ts
  rw [hi.1] at this
  unfold execIndent at hu ⊢
  split at hu
  · next h30 => rw [if_pos h30]; exact this hu hi.2
  · next h30 =>
    rw [if_neg h30]
    split at hu
    · next h29 => rw [if_pos h29]; exact this hu hi.2
    · next h29 => rw [if_neg h29]; exact this hu hi.2

theorem minimize1_rend {d : Doc} {f : St → St} (h : Rends d f) (env : Env) (id : Nat)
    (ms : List Minimizer) (i : Nat) : Rends d fun σ => minimize1 env id ms f σ i := by
  intro σ ts hu hr
  simp only [minimize1] at hu ⊢
  split at hu
  · simp at hu
  · next m _ =>
    exact execIndent_rend h env m.indent
      { σ with force := if m.force ∨ (id, i) ∈ σ.forced then some i else σ.force } ts hu hr

theorem execMinimize_rend {d : Doc} {f : St → St} (h : Rends d f) (env : Env) (id : Nat)
    (ms : List Minimizer) : Rends d (execMinimize env id ms f) := by
  intro σ ts hu hr
  unfold execMinimize at hu ⊢
  split at hu
  · exact minimize1_rend h env id ms _ σ ts hu hr
  · split at hu
    · simp at hu
    · next τ best e =>
      obtain ⟨F, u, hτ⟩ := choose_restore env id ms f σ
      rw [e] at hτ
      dsimp only at hτ
      subst hτ
      exact minimize1_rend h env id ms best { σ with forced := F, ub := u, idx := some best } ts hu hr

theorem visible_text (s : List Char) (m : Int) :
    visible [.text s] m = if m = 0 ∧ (∃ c ∈ s, space c = false) then [rtrim s] else [] := by
  simp only [visible]

theorem exec_rend {env : Env} (hd : env.diff = none) (d : Doc) : Rends d (exec env d) := by
  have text : ∀ (σ : St) (s : List Char) (f : PF) (ts : List (List Char)), f.force = false →
      RendR ts σ.buf → RendR ((visible [.text s] σ.mute).reverse ++ ts) (print env σ s f).1.buf := by
    intro σ s f ts hf hr
    have := rend_print env f hr s
    rw [isMute_none hd, hf] at this
    rw [visible_text]
    by_cases hm : σ.mute = 0
    · by_cases hs : ∃ c ∈ s, space c = false
      · rw [if_pos ⟨hm, hs⟩]
        rw [addText, if_pos ⟨by simp [hm], hs⟩] at this
        exact this
      · rw [if_neg (fun x => hs x.2)]
        rw [addText, if_neg (fun x => hs x.2)] at this
        exact this
    · rw [if_neg (fun x => hm x.1)]
      rw [addText, if_neg (fun x => by simp [hm] at x)] at this
      exact this
  have line : ∀ (σ : St) (c : Char) (f : PF) (ts : List (List Char)), f.force = false →
      space c = true → RendR ts σ.buf → RendR ts (print env σ [c] f).1.buf := by
    intro σ c f ts hf hc hr
    have := text σ [c] f ts hf hr
    rw [visible_text, if_neg (by simp [hc])] at this
    exact this
  induction d with
  | nil => intro σ ts _ hr; exact ⟨rfl, hr⟩
  | seq d ds ih1 ih2 =>
    intro σ ts hu hr
    rw [exec] at hu ⊢
    have h1 := ih1 σ ts (exec_ub hd ds _ hu) hr
    have h2 := ih2 _ _ hu h1.2
    rw [h1.1] at h2
    refine ⟨by rw [h2.1, events, level_append], ?_⟩
    rw [events, visible_append, List.reverse_append, List.append_assoc]
    exact h2.2
  | group d ih =>
    intro σ ts hu hr
    rw [exec_group_none hd] at hu ⊢
    split at hu
    · next hc => rw [if_pos hc]; exact ih σ ts hu hr
    · next hc =>
      rw [if_neg hc]
      have e : (groupSt env σ d).mute = σ.mute ∧ (groupSt env σ d).buf = σ.buf := by
        rw [groupSt, if_neg hc]; exact ⟨rfl, rfl⟩
      have := ih (groupSt env σ d) ts hu (by rw [e.2]; exact hr)
      rw [e.1] at this
      exact this
  | indent n d ih => exact execIndent_rend ih env n
  | noindent d ih =>
    intro σ ts hu hr
    rw [exec] at hu ⊢
    exact ih { trimSpaces σ with cur := 0, pre := 0 } ts hu (rend_trim hr)
  | align a =>
    intro σ ts _ hr
    obtain ⟨w, c, e, hw⟩ := execAlign_spec a σ
    rw [exec, e]
    exact ⟨rfl, hr.push (blanks_space hw)⟩
  | literal s tk =>
    intro σ ts _ hr
    rw [exec_literal_none hd]
    exact ⟨print_mute _ _ _ _, text σ s _ ts rfl hr⟩
  | verbatim s tk =>
    intro σ ts _ hr
    refine ⟨(execVerbatim_text hd s tk σ).1, ?_⟩
    rw [exec, execVerbatim_none hd]
    split
    · next hm =>
      show RendR ((visible [.text s] σ.mute).reverse ++ ts) _
      rw [visible_text, if_neg (by simp [hm])]
      exact hr
    · next hm =>
      dsimp only
      have := text { trimSpaces σ with
          newline := σ.newline || (decide (s.length > 1) && decide (s.getLast? = some '\n')
            && decide ((trimSpaces σ).col > 0)) } s {} ts rfl (rend_trim hr)
      split
      · exact rend_indent env this _
      · exact this
  | line =>
    intro σ ts _ hr
    rw [exec]
    split
    · exact ⟨print_mute _ _ _ _, line σ '\n' _ ts rfl (by decide) hr⟩
    · exact ⟨print_mute _ _ _ _, line σ ' ' _ ts rfl (by decide) hr⟩
  | softline n =>
    intro σ ts _ hr
    rw [exec]
    split
    · exact ⟨print_mute _ _ _ _, line σ '\n' _ ts rfl (by decide) hr⟩
    · exact ⟨rfl, hr⟩
  | hardline =>
    intro σ ts _ hr
    exact ⟨print_mute _ _ _ _, line σ '\n' _ ts rfl (by decide) hr⟩
  | optline => intro σ ts _ hr; exact ⟨rfl, hr⟩
  | mute n =>
    intro σ ts _ hr
    have := execMute_text hd n true σ
    rw [exec, this.1, this.2.1]
    exact ⟨rfl, hr⟩
  | unmute n =>
    intro σ ts _ hr
    have := execMute_text hd n false σ
    rw [exec, this.1, this.2.1]
    exact ⟨rfl, hr⟩
  | optional d ih => intro σ ts hu hr; exact ih { σ with optline := σ.optline + 1 } ts hu hr
  | minimize id ms d ih => exact execMinimize_rend ih env id ms
  | scope d ih => intro σ ts hu hr; exact ih { σ with statLines := 0 } ts hu hr
  | maxlines n d ih => intro σ ts hu hr; exact ih { σ with maxlines := n } ts hu hr

/-- C20, stronger: the output consists of the visible texts of the document byte for byte
and in order, with white space around them. With `DOC_EXEC_TRIM`, new lines are then
dropped from the end. -/
theorem doc_exec_renders (env : Env) (hd : env.diff = none) (trim : Bool) (d : Doc)
    (hu : (docExec env trim [] d).ub = false) :
    ∃ out, Renders (visible (events d) 0) out ∧
      ((docExec env trim [] d).buf.reverse = out ∨
        trim = true ∧ ∃ k, out = (docExec env trim [] d).buf.reverse ++ List.replicate k '\n' ∧
          (docExec env trim [] d).buf.head? = some '\n') := by
  have e : docExec env trim [] d =
      { exec env d {} with
        buf := if trim then trimLines (exec env d {}).buf else (exec env d {}).buf } := by
    simp [docExec, diffExit, hd]
  rw [e] at hu ⊢
  have h1 := (exec_rend hd d {} [] hu (by intro c hc; simp at hc)).2
  refine ⟨(exec env d {}).buf.reverse, by simpa using h1.renders, ?_⟩
  dsimp only
  have trimmed : ∀ b : List Char, trimLines b = b ∨
      ∃ k, b = List.replicate k '\n' ++ trimLines b ∧ (trimLines b).head? = some '\n' := by
    intro b
    induction b using trimLines.induct with
    | case1 b ih =>
      rw [trimLines]
      right
      rcases ih with ih | ⟨k, h1, h2⟩
      · exact ⟨1, by rw [ih]; rfl, by rw [ih]; rfl⟩
      · exact ⟨k + 1, by rw [List.replicate_succ, List.cons_append, ← h1], h2⟩
    | case2 b hb => left; rw [trimLines]; exact hb
  split
  · next ht =>
    rcases trimmed (exec env d {}).buf with h | ⟨k, h2, h3⟩
    · left; rw [h]
    · right
      refine ⟨ht, k, ?_, h3⟩
      conv => lhs; rw [h2]
      simp
  · left; rfl

end Knfmt.Doc

namespace Knfmt.Doc
open Knfmt.Doc.Spec

/-- A document with an assignment, a comment with blanks at its end and a muted part. -/
def rendersExample : Doc :=
  concat [.group (.indent 8 (concat [.literal "a =".toList none, .line,
      .literal "1; ".toList none])), .hardline, .verbatim "/* c */  \n".toList { id := 0 },
    .mute 1, .literal "hidden".toList none, .unmute (-1), .literal "b;".toList none]

/-- The hypotheses of `doc_exec_renders` are met, and the output is not the texts alone. -/
example : (docExec { limit := 80 } true [] rendersExample).ub = false ∧
    visible (events rendersExample) 0 =
      ["a =".toList, "1;".toList, "/* c */  \n".toList, "b;".toList] ∧
    (docExec { limit := 80 } true [] rendersExample).buf.reverse =
      "a = 1;\n/* c */  \nb;".toList := by
  refine ⟨by decide +kernel, by decide +kernel, by decide +kernel⟩

end Knfmt.Doc
