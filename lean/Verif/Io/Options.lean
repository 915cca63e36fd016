import Verif.Io.Model
/-!
# knfmt.c, options.c: the options (C83)

What getopt(3) makes of the arguments is given: the options in order, with their arguments.
-/
namespace Knfmt.Io

/-- What getopt(3) returns for `"c:Ddist:"`, knfmt.c:70; `other` for anything else. -/
inductive Opt where
  | c (path : Path)
  | D
  | d
  | i
  | s
  | t (flags : List Char)
  | other
deriving DecidableEq, Repr

/-- The letters of the kinds of traces, trace-types.h:4-15, in order. The first one stands for all kinds. -/
def traceLetters : List Char := ['a', 'c', 'C', 'd', 'D', 'f', 'l', 'p', 's', 'S', 't']

/-- `ctotrace`, options.c:39-48. -/
def ctotrace (c : Char) : Option Nat := traceLetters.findIdx? (· == c)

/-- `options_trace_parse`, options.c:17-37: the levels, unsigned numbers of 32 bits; `none` if a flag is
unknown. -/
def traceParse : List Nat → List Char → Option (List Nat)
  | tr, [] => some tr
  | tr, f :: fs =>
    match ctotrace f with
    | none => none
    | some 0 => traceParse (List.replicate traceLetters.length (2 ^ 32 - 1)) fs
    | some idx => traceParse (tr.set idx (((tr[idx]?).getD 0 + 1) % 2 ^ 32)) fs

/-- What is set by options. -/
structure Set where
  options : Options := {}
  clangFormat : Option Path := none
  trace : List Nat := List.replicate traceLetters.length 0
deriving DecidableEq, Repr

/-- The loop over the options, knfmt.c:70-94; `none` if the program exits with status 1. -/
def optLoop : Set → List Opt → Option Set
  | st, [] => some st
  | st, o :: os =>
    match o with
    | .c p => optLoop { st with clangFormat := some p } os
    | .D => optLoop { st with options := { st.options with diffparse := true } } os
    | .d => optLoop { st with options := { st.options with diff := true } } os
    | .i => optLoop { st with options := { st.options with inplace := true } } os
    | .s => optLoop { st with options := { st.options with simple := true } } os
    | .t fl =>
      match traceParse st.trace fl with
      | none => none
      | some tr => optLoop { st with trace := tr } os
    | .other => none

/-- `options_trace_level`, options.h:17-21, `trace`, trace.h:4-7: something is traced if the level is not 0. -/
def Set.traces (st : Set) (letter : Char) : Bool :=
  match ctotrace letter with
  | none => false
  | some i => decide (0 < (st.trace[i]?).getD 0)

/-! ## Specification -/

namespace Spec

/-- The letters of all -t options. -/
def letters (os : List Opt) : List Char := os.flatMap fun o => match o with | .t fl => fl | _ => []

/-- The kinds of traces but `all`. -/
def kinds : List Char := ['c', 'C', 'd', 'D', 'f', 'l', 'p', 's', 'S', 't']

/-- The arguments of -c. -/
def configs (os : List Opt) : List Path := os.flatMap fun o => match o with | .c p => [p] | _ => []

end Spec

/-! ## Proofs -/

theorem ctotrace_none {c : Char} : ctotrace c = none ↔ c ∉ traceLetters := by
  unfold ctotrace
  rw [List.findIdx?_eq_none_iff]
  constructor
  · intro h hm
    have := h c hm
    simp at this
  · intro h x hx
    simp only [beq_eq_false_iff_ne, ne_eq]
    rintro rfl
    exact h hx

theorem ctotrace_some {c : Char} {n : Nat} (h : ctotrace c = some n) : traceLetters[n]? = some c := by
  unfold ctotrace at h
  rw [List.findIdx?_eq_some_iff_getElem] at h
  obtain ⟨h1, h2, -⟩ := h
  rw [List.getElem?_eq_getElem h1]
  simpa using h2

theorem traceParse_append (tr : List Nat) (a b : List Char) :
    traceParse tr (a ++ b) = (traceParse tr a).bind fun tr => traceParse tr b := by
  induction a generalizing tr with
  | nil => rfl
  | cons f fs ih =>
    simp only [List.cons_append, traceParse]
    cases ctotrace f with
    | none => rfl
    | some n => cases n <;> exact ih _

theorem traceParse_none {tr : List Nat} {fs : List Char} :
    traceParse tr fs = none ↔ ∃ f ∈ fs, f ∉ traceLetters := by
  induction fs generalizing tr with
  | nil => simp [traceParse]
  | cons f fs ih =>
    simp only [traceParse]
    cases hf : ctotrace f with
    | none =>
      simp only [true_iff]
      exact ⟨f, by simp, ctotrace_none.mp hf⟩
    | some n =>
      have hm : f ∈ traceLetters := by
        by_cases h : f ∈ traceLetters
        · exact h
        · rw [ctotrace_none.mpr h] at hf; cases hf
      cases n with
      | zero =>
        simp only [ih, List.mem_cons]
        exact ⟨fun ⟨x, h1, h2⟩ => ⟨x, Or.inr h1, h2⟩, fun ⟨x, h1, h2⟩ => ⟨x, h1.resolve_left (fun e => h2 (e ▸ hm)), h2⟩⟩
      | succ n =>
        simp only [ih, List.mem_cons]
        exact ⟨fun ⟨x, h1, h2⟩ => ⟨x, Or.inr h1, h2⟩, fun ⟨x, h1, h2⟩ => ⟨x, h1.resolve_left (fun e => h2 (e ▸ hm)), h2⟩⟩

theorem traceParse_length {tr tr' : List Nat} {fs : List Char} (hl : tr.length = traceLetters.length)
    (h : traceParse tr fs = some tr') : tr'.length = traceLetters.length := by
  induction fs generalizing tr with
  | nil => simp only [traceParse, Option.some.injEq] at h; rw [← h]; exact hl
  | cons f fs ih =>
    simp only [traceParse] at h
    split at h
    · cases h
    · exact ih (by simp) h
    · exact ih (by simpa using hl) h

/-- The level of a kind that is not named after `a`. -/
theorem traceParse_level {tr tr' : List Nat} {fs : List Char} {c : Char} {i : Nat} (hi : ctotrace c = some (i + 1))
    (hl : tr.length = traceLetters.length) (h : traceParse tr fs = some tr')
    (hb : (tr[i + 1]?).getD 0 + fs.count c < 2 ^ 32) (hn : ¬ ∃ x y, fs = x ++ 'a' :: y ∧ c ∈ y) :
    (tr'[i + 1]?).getD 0 = if 'a' ∈ fs then 2 ^ 32 - 1 else (tr[i + 1]?).getD 0 + fs.count c := by
  have hlt : i + 1 < traceLetters.length := by
    have := ctotrace_some hi
    exact (List.getElem?_eq_some_iff.mp this).1
  induction fs generalizing tr with
  | nil => simp only [traceParse, Option.some.injEq] at h; simp [h]
  | cons f fs ih =>
    simp only [traceParse] at h
    cases hf : ctotrace f with
    | none => rw [hf] at h; cases h
    | some n =>
      have hn' : ¬ ∃ x y, fs = x ++ 'a' :: y ∧ c ∈ y := by
        rintro ⟨x, y, rfl, hy⟩
        exact hn ⟨f :: x, y, rfl, hy⟩
      cases n with
      | zero =>
        rw [hf] at h
        have hfa : f = 'a' := by
          have := ctotrace_some hf
          simp [traceLetters] at this
          exact this.symm
        subst hfa
        have hc : c ∉ fs := fun hc => hn ⟨[], fs, rfl, hc⟩
        have hc0 : fs.count c = 0 := List.count_eq_zero.mpr hc
        have := ih (by simp) h (by rw [hc0]; simp [hlt]) hn'
        rw [this, hc0]
        simp [hlt]
      | succ n =>
        rw [hf] at h
        have hfa : f ≠ 'a' := by
          rintro rfl
          have : ctotrace 'a' = some 0 := by decide
          rw [this] at hf; cases hf
        have hmem : ('a' ∈ f :: fs) ↔ 'a' ∈ fs := by simp [hfa.symm]
        by_cases hfc : f = c
        · subst hfc
          have hin : n = i := by rw [hi] at hf; simpa using hf.symm
          subst hin
          have hcnt : (f :: fs).count f = fs.count f + 1 := List.count_cons_self
          rw [hcnt] at hb
          have hlt2 : n + 1 < tr.length := hl ▸ hlt
          have hset : ((tr.set (n + 1) (((tr[n + 1]?).getD 0 + 1) % 2 ^ 32))[n + 1]?).getD 0 = (tr[n + 1]?).getD 0 + 1 := by
            rw [List.getElem?_set_self hlt2]
            exact Nat.mod_eq_of_lt (by omega)
          have := ih (by simpa using hl) h (by rw [hset]; omega) hn'
          rw [this, hset, hcnt]
          simp only [hmem]
          split <;> omega
        · have hne : n + 1 ≠ i + 1 := by
            intro e
            rw [← e] at hi
            have h1 := ctotrace_some hi
            have h2 := ctotrace_some hf
            rw [h1] at h2
            exact hfc (Option.some.inj h2).symm
          have hcnt : (f :: fs).count c = fs.count c := List.count_cons_of_ne hfc
          rw [hcnt] at hb ⊢
          have hset : ((tr.set (n + 1) (((tr[n + 1]?).getD 0 + 1) % 2 ^ 32))[i + 1]?).getD 0 = (tr[i + 1]?).getD 0 := by
            rw [List.getElem?_set_ne hne]
          have := ih (by simpa using hl) h (by rw [hset]; exact hb) hn'
          rw [this, hset]
          simp only [hmem]

theorem optLoop_spec {st st' : Set} {os : List Opt} (h : optLoop st os = some st') :
    st'.options.diffparse = (st.options.diffparse || decide (.D ∈ os)) ∧
    st'.options.diff = (st.options.diff || decide (.d ∈ os)) ∧
    st'.options.inplace = (st.options.inplace || decide (.i ∈ os)) ∧
    st'.options.simple = (st.options.simple || decide (.s ∈ os)) ∧
    st'.clangFormat = (Spec.configs os).getLast?.or st.clangFormat ∧
    traceParse st.trace (Spec.letters os) = some st'.trace := by
  induction os generalizing st with
  | nil =>
    simp only [optLoop, Option.some.injEq] at h
    subst h
    simp [Spec.configs, Spec.letters, traceParse]
  | cons o os ih =>
    cases o with
    | c p =>
      obtain ⟨h1, h2, h3, h4, h5, h6⟩ := ih h
      refine ⟨by simpa using h1, by simpa using h2, by simpa using h3, by simpa using h4, ?_, h6⟩
      rw [h5]
      simp only [Spec.configs, List.flatMap_cons, List.singleton_append]
      cases hx : List.flatMap (fun o => match o with | Opt.c p => [p] | _ => []) os with
      | nil => rfl
      | cons a l => simp [List.getLast?_cons]
    | D => obtain ⟨h1, h2, h3, h4, h5, h6⟩ := ih h; exact ⟨by simpa using h1, by simpa using h2, by simpa using h3, by simpa using h4, h5, h6⟩
    | d => obtain ⟨h1, h2, h3, h4, h5, h6⟩ := ih h; exact ⟨by simpa using h1, by simpa using h2, by simpa using h3, by simpa using h4, h5, h6⟩
    | i => obtain ⟨h1, h2, h3, h4, h5, h6⟩ := ih h; exact ⟨by simpa using h1, by simpa using h2, by simpa using h3, by simpa using h4, h5, h6⟩
    | s => obtain ⟨h1, h2, h3, h4, h5, h6⟩ := ih h; exact ⟨by simpa using h1, by simpa using h2, by simpa using h3, by simpa using h4, h5, h6⟩
    | t fl =>
      simp only [optLoop] at h
      cases ht : traceParse st.trace fl with
      | none => rw [ht] at h; cases h
      | some tr =>
        rw [ht] at h
        obtain ⟨h1, h2, h3, h4, h5, h6⟩ := ih h
        refine ⟨by simpa using h1, by simpa using h2, by simpa using h3, by simpa using h4, h5, ?_⟩
        show traceParse st.trace (fl ++ Spec.letters os) = _
        rw [traceParse_append, ht]
        exact h6
    | other => cases h

/-- **C83.** The flags are those named, in any order and any number of times; of several -c the last one
counts. -/
theorem options_flags {os : List Opt} {st : Set} (h : optLoop {} os = some st) :
    (st.options.diffparse = true ↔ .D ∈ os) ∧ (st.options.diff = true ↔ .d ∈ os) ∧
    (st.options.inplace = true ↔ .i ∈ os) ∧ (st.options.simple = true ↔ .s ∈ os) ∧
    st.clangFormat = (Spec.configs os).getLast? := by
  obtain ⟨h1, h2, h3, h4, h5, -⟩ := optLoop_spec h
  refine ⟨by rw [h1]; simp, by rw [h2]; simp, by rw [h3]; simp, by rw [h4]; simp, ?_⟩
  rw [h5]
  cases (Spec.configs os).getLast? <;> rfl

/-- **C83**, errors: options are refused exactly if one is unknown or a letter of -t is. -/
theorem options_refused {os : List Opt} :
    optLoop {} os = none ↔ .other ∈ os ∨ ∃ f ∈ Spec.letters os, f ≠ 'a' ∧ f ∉ Spec.kinds := by
  have hk : ∀ f, f ∉ traceLetters ↔ f ≠ 'a' ∧ f ∉ Spec.kinds := by
    intro f
    rw [show traceLetters = 'a' :: Spec.kinds from rfl, List.mem_cons]
    simp
  have key : ∀ st : Set, optLoop st os = none ↔ .other ∈ os ∨ ∃ f ∈ Spec.letters os, f ∉ traceLetters := by
    induction os with
    | nil => intro st; simp [optLoop, Spec.letters]
    | cons o os ih =>
      intro st
      cases o with
      | other => simp [optLoop]
      | t fl =>
        have hl : Spec.letters (.t fl :: os) = fl ++ Spec.letters os := rfl
        rw [hl]
        simp only [optLoop]
        cases ht : traceParse st.trace fl with
        | none =>
          obtain ⟨f, h1, h2⟩ := traceParse_none.mp ht
          simp only [true_iff]
          exact Or.inr ⟨f, List.mem_append_left _ h1, h2⟩
        | some tr =>
          have hno : ¬ ∃ f ∈ fl, f ∉ traceLetters := by
            rw [← traceParse_none (tr := st.trace), ht]; simp
          simp only [ih, List.mem_cons, reduceCtorEq, false_or]
          constructor
          · rintro (h | ⟨f, h1, h2⟩)
            · exact Or.inl h
            · exact Or.inr ⟨f, List.mem_append_right _ h1, h2⟩
          · rintro (h | ⟨f, h1, h2⟩)
            · exact Or.inl h
            · rcases List.mem_append.mp h1 with h1 | h1
              · exact absurd ⟨f, h1, h2⟩ hno
              · exact Or.inr ⟨f, h1, h2⟩
      | c p => simp only [optLoop, ih]; simp [Spec.letters]
      | D => simp only [optLoop, ih]; simp [Spec.letters]
      | d => simp only [optLoop, ih]; simp [Spec.letters]
      | i => simp only [optLoop, ih]; simp [Spec.letters]
      | s => simp only [optLoop, ih]; simp [Spec.letters]
  rw [key]
  constructor
  · rintro (h | ⟨f, h1, h2⟩)
    · exact Or.inl h
    · exact Or.inr ⟨f, h1, (hk f).mp h2⟩
  · rintro (h | ⟨f, h1, h2⟩)
    · exact Or.inl h
    · exact Or.inr ⟨f, h1, (hk f).mpr h2⟩

/-- **C83**, traces: a kind is traced exactly if it, or `a`, is named. Missing, and false of the program: a kind named
after `a`, see `trace_fails`, and four thousand million letters. -/
theorem options_trace_partial {os : List Opt} {st : Set} (h : optLoop {} os = some st) (c : Char)
    (hc : c ∈ Spec.kinds) (hb : (Spec.letters os).count c < 2 ^ 32)
    (hn : ¬ ∃ x y, Spec.letters os = x ++ 'a' :: y ∧ c ∈ y) :
    st.traces c = true ↔ c ∈ Spec.letters os ∨ 'a' ∈ Spec.letters os := by
  obtain ⟨-, -, -, -, -, h6⟩ := optLoop_spec h
  obtain ⟨i, hi⟩ : ∃ i, ctotrace c = some (i + 1) := by
    simp only [Spec.kinds, List.mem_cons, List.not_mem_nil, or_false] at hc
    rcases hc with rfl | rfl | rfl | rfl | rfl | rfl | rfl | rfl | rfl | rfl <;> exact ⟨_, rfl⟩
  have h0 : (((({} : Set).trace)[i + 1]?).getD 0) = 0 := by
    show (((List.replicate traceLetters.length 0)[i + 1]?).getD 0) = 0
    rw [List.getElem?_replicate]
    split <;> rfl
  have := traceParse_level hi (by simp) h6 (by rw [h0]; simpa using hb) hn
  unfold Set.traces
  rw [hi]
  simp only [this, decide_eq_true_eq, h0]
  split
  · next ha => simp [ha]
  · next ha =>
    rw [Nat.zero_add, List.count_pos_iff]
    simp [ha]

/-- `-tal`: the lexer is not traced, although named twice. -/
theorem trace_fails : ∃ st, optLoop {} [.t ['a', 'l']] = some st ∧ st.traces 'l' = false ∧ st.traces 'd' = true :=
  ⟨_, rfl, by decide, by decide⟩

/-- `-d -s -tlla -c x -c y`. -/
example : ∃ st, optLoop {} [.d, .s, .t ['l', 'l', 'a'], .c ['x'], .c ['y']] = some st ∧ st.traces 'l' = true ∧
    st.options = { diff := true, simple := true } ∧ st.clangFormat = some ['y'] :=
  ⟨_, rfl, by decide, by decide, by decide⟩

end Knfmt.Io
