import Verif.Comment.Lemmas
/-!
# C27: comment clean-up only touches white space
-/
namespace Knfmt.Comment

open Knfmt.Util Knfmt.Spec

/-- The lines of a text: maximal parts without line feeds (specification). -/
def linesOf : List Char → List (List Char)
  | [] => [[]]
  | c :: s =>
    if c = '\n' then [] :: linesOf s
    else match linesOf s with
      | [] => [[c]]
      | l :: ls => (c :: l) :: ls

theorem linesOf_append_nl (l rest : List Char) (h : '\n' ∉ l) :
    linesOf (l ++ '\n' :: rest) = l :: linesOf rest := by
  induction l with
  | nil => simp [linesOf]
  | cons c l ih =>
    simp at h
    rw [List.cons_append, linesOf, if_neg (Ne.symm h.1), ih h.2]

theorem linesOf_glue (crlf : Bool) (ls : List (List Char)) (h : ∀ l ∈ ls, '\n' ∉ l) :
    linesOf (glue crlf ls) = ls.map (· ++ if crlf then ['\r'] else []) ++ [[]] := by
  induction ls with
  | nil => rfl
  | cons l ls ih =>
    have : glue crlf (l :: ls) = (l ++ if crlf then ['\r'] else []) ++ '\n' :: glue crlf ls := by
      simp [glue]
    rw [this, linesOf_append_nl, ih (fun l hl => h l (List.mem_cons_of_mem _ hl))]
    · simp
    · have hl := h l (List.mem_cons_self ..)
      cases crlf <;> simp [hl]

/-- Description of every run in terms of lines. -/
theorem commentTrim_eq (usetabs : Bool) (s : List Char) (h : s.getLast? = some '\n') :
    ∃ (ls : List (List Char)) (crlf : Bool), ls ≠ [] ∧ (∀ l ∈ ls, '\n' ∉ l) ∧ s = glue false ls ∧
      (crlf = true ↔ ∃ p, s = p ++ ['\r', '\n']) ∧
      commentTrim usetabs s = .text (glue crlf (ls.map (trimLine usetabs))) := by
  obtain ⟨ls, hne, hm, he⟩ := exists_lines s h
  rw [← List.head?_reverse] at h
  unfold commentTrim
  cases hr : s.reverse with
  | nil => rw [hr] at h; simp at h
  | cons c before =>
    rw [hr] at h; simp at h; subst h
    simp only
    refine ⟨ls, decide (before.head? = some '\r'), hne, hm, he, ?_, ?_⟩
    rotate_left 1
    · rw [he, trimLoop_glue _ _ _ hm]
    · simp only [decide_eq_true_eq]
      have hs : s = before.reverse ++ ['\n'] := by
        rw [← List.reverse_reverse s, hr]; simp
      constructor
      · intro hh
        cases before with
        | nil => simp at hh
        | cons d b => simp at hh; subst hh; exact ⟨b.reverse, by rw [hs]; simp⟩
      · rintro ⟨p, hp⟩
        rw [hp] at hr
        simp at hr
        rw [← hr]; rfl

/-- C27: cleaning up never reads outside of the comment, and leaves a comment
alone exactly if it does not end in a line feed. -/
theorem comment_trim_defined (usetabs : Bool) (s : List Char) :
    commentTrim usetabs s ≠ .undefined ∧
      (commentTrim usetabs s = .unchanged ↔ s.getLast? ≠ some '\n') := by
  by_cases h : s.getLast? = some '\n'
  · obtain ⟨_, _, _, _, _, _, e⟩ := commentTrim_eq usetabs s h
    rw [e]; simp [h]
  · have : commentTrim usetabs s = .unchanged := by
      rw [← List.head?_reverse] at h
      unfold commentTrim
      split
      · next hr => rw [hr] at h; simp at h
      · rfl
    rw [this]; simp [h]

/-- C27: the non-blank characters of the comment are kept, in order. -/
theorem comment_trim_nonblank (usetabs : Bool) (s t : List Char)
    (h : commentTrim usetabs s = .text t) :
    t.filter (fun c => !isSpace c) = s.filter (fun c => !isSpace c) := by
  have hl : s.getLast? = some '\n' := by
    by_cases hl : s.getLast? = some '\n'
    · exact hl
    · rw [((comment_trim_defined usetabs s).2).mpr hl] at h; simp at h
  obtain ⟨ls, crlf, _, hm, he, _, e⟩ := commentTrim_eq usetabs s hl
  rw [e] at h
  simp at h; subst h he
  clear e hm hl
  rename_i hne hcr
  clear hne hcr
  induction ls with
  | nil => rfl
  | cons l ls ih =>
    simp only [List.map_cons, glue, List.filter_append, trimLine_nonspace, ih]
    cases crlf <;> simp [show isSpace '\r' = true by decide]

/-- C27: the number of lines is kept. -/
theorem comment_trim_lines (usetabs : Bool) (s t : List Char)
    (h : commentTrim usetabs s = .text t) : (linesOf t).length = (linesOf s).length := by
  have hl : s.getLast? = some '\n' := by
    by_cases hl : s.getLast? = some '\n'
    · exact hl
    · rw [((comment_trim_defined usetabs s).2).mpr hl] at h; simp at h
  obtain ⟨ls, crlf, _, hm, he, _, e⟩ := commentTrim_eq usetabs s hl
  rw [e] at h
  simp at h; subst h he
  rw [linesOf_glue _ _ hm, linesOf_glue]
  · simp
  · intro l hl
    obtain ⟨k, hk, rfl⟩ := List.mem_map.mp hl
    exact trimLine_no_nl _ (hm k hk)

/-- C27: no line of the result ends in white space, other than the carriage
return of its line terminator, which is present on every line or on none,
according to the last line of the comment. -/
theorem comment_trim_no_trailing (usetabs : Bool) (s t : List Char)
    (h : commentTrim usetabs s = .text t) :
    ∃ crlf : Bool, (crlf = true ↔ ∃ p, s = p ++ ['\r', '\n']) ∧
      ∃ ls : List (List Char), linesOf t = ls.map (· ++ if crlf then ['\r'] else []) ++ [[]] ∧
        ∀ l ∈ ls, ∀ c, l.getLast? = some c → isSpace c = false := by
  have hl : s.getLast? = some '\n' := by
    by_cases hl : s.getLast? = some '\n'
    · exact hl
    · rw [((comment_trim_defined usetabs s).2).mpr hl] at h; simp at h
  obtain ⟨ls, crlf, _, hm, he, hcr, e⟩ := commentTrim_eq usetabs s hl
  rw [e] at h
  simp at h; subst h
  refine ⟨crlf, hcr, ls.map (trimLine usetabs), ?_, ?_⟩
  · rw [linesOf_glue]
    intro l hl
    obtain ⟨k, hk, rfl⟩ := List.mem_map.mp hl
    exact trimLine_no_nl _ (hm k hk)
  · intro l hl c hc
    obtain ⟨k, _, rfl⟩ := List.mem_map.mp hl
    exact trimLine_last _ _ _ hc

theorem glue_getLast (crlf : Bool) (ls : List (List Char)) (h : ls ≠ []) :
    ∃ p l, ls.getLast? = some l ∧
      glue crlf ls = p ++ (l ++ (if crlf then ['\r'] else []) ++ ['\n']) := by
  induction ls with
  | nil => simp at h
  | cons k ls ih =>
    cases ls with
    | nil => exact ⟨[], k, by simp, by simp [glue]⟩
    | cons m ls =>
      obtain ⟨p, l, hl, e⟩ := ih (by simp)
      refine ⟨k ++ (if crlf then ['\r'] else []) ++ ['\n'] ++ p, l, ?_, ?_⟩
      · rw [List.getLast?_cons_cons]; exact hl
      · rw [glue, e]; simp

/-- C27: doing it twice is the same as once. -/
theorem comment_trim_idempotent (usetabs : Bool) (s t : List Char)
    (h : commentTrim usetabs s = .text t) : commentTrim usetabs t = .text t := by
  have hl : s.getLast? = some '\n' := by
    by_cases hl : s.getLast? = some '\n'
    · exact hl
    · rw [((comment_trim_defined usetabs s).2).mpr hl] at h; simp at h
  obtain ⟨ls, crlf, hne, hm, he, hcr, e⟩ := commentTrim_eq usetabs s hl
  rw [e] at h
  simp at h
  obtain ⟨p, l, hl, hlast⟩ := glue_getLast crlf (ls.map (trimLine usetabs)) (by simpa using hne)
  have htl : t.getLast? = some '\n' := by
    rw [← h, hlast, ← List.append_assoc, List.getLast?_concat]
  obtain ⟨k, _, rfl⟩ : ∃ k, k ∈ ls ∧ trimLine usetabs k = l := by
    have := List.mem_of_getLast? hl
    simpa using this
  obtain ⟨ls', crlf', hne', hm', he', hcr', e'⟩ := commentTrim_eq usetabs t htl
  -- same line endings
  have hc : crlf' = crlf := by
    have : crlf' = true ↔ crlf = true := by
      rw [hcr']
      constructor
      · rintro ⟨q, hq⟩
        rw [← h, hlast] at hq
        cases crlf with
        | true => rfl
        | false =>
          simp only [Bool.false_eq_true, if_false, List.append_nil] at hq
          rw [← List.append_assoc, show q ++ ['\r', '\n'] = (q ++ ['\r']) ++ ['\n'] by simp] at hq
          have hq := List.append_cancel_right hq
          have hq := congrArg List.getLast? hq
          rw [List.getLast?_concat] at hq
          exfalso
          by_cases hk : trimLine usetabs k = []
          · -- the previous line feed is not a carriage return
            rw [hk, List.append_nil] at hq
            have hp : p = [] ∨ p.getLast? = some '\n' := by
              rw [hk] at hlast hl
              simp only [Bool.false_eq_true, if_false, List.append_nil, List.nil_append] at hlast
              have hlast' := hlast
              rcases List.eq_nil_or_concat (ls.map (trimLine usetabs)) with h0 | ⟨ms, m, h0⟩
              · rw [h0] at hl; simp at hl
              · rw [h0, List.concat_eq_append, List.getLast?_concat] at hl
                simp at hl; subst hl
                rw [h0, List.concat_eq_append] at hlast
                have gl : ∀ a b : List (List Char), glue false (a ++ b) = glue false a ++ glue false b := by
                  intro a b
                  induction a with
                  | nil => rfl
                  | cons x a ih => simp [glue, ih]
                rw [gl] at hlast
                have hp : glue false ms = p := by
                  apply List.append_cancel_right (bs := ['\n'])
                  rw [← hlast]; simp [glue]
                rw [← hp]
                cases ms with
                | nil => left; rfl
                | cons x ms =>
                  right
                  obtain ⟨p2, l2, _, e2⟩ := glue_getLast false (x :: ms) (by simp)
                  rw [e2, ← List.append_assoc, List.getLast?_concat]
            rcases hp with rfl | hp
            · simp at hq
            · rw [hp] at hq; simp at hq
          · rw [getLast?_append_ne _ _ hk] at hq
            have := trimLine_last _ _ _ hq
            simp [isSpace] at this
      · intro hcr; subst hcr
        exact ⟨p ++ trimLine usetabs k, by rw [← h, hlast]; simp⟩
    cases crlf <;> cases crlf' <;> simp_all
  subst hc
  -- the lines of the result
  have hlines : ls' = (ls.map (trimLine usetabs)).map (· ++ if crlf' then ['\r'] else []) := by
    have h1 := linesOf_glue false ls' hm'
    have h2 := linesOf_glue crlf' (ls.map (trimLine usetabs)) (by
      intro l hl
      obtain ⟨k, hk, rfl⟩ := List.mem_map.mp hl
      exact trimLine_no_nl _ (hm k hk))
    rw [← he', ← h, h2] at h1
    have := List.append_cancel_right h1
    simpa using this.symm
  rw [e', hlines, List.map_map, List.map_map]
  congr 1
  rw [← h]
  congr 1
  apply List.map_congr_left
  intro a _
  simp only [Function.comp]
  cases crlf'
  · exact trimLine_idem usetabs a [] (Or.inl rfl)
  · exact trimLine_idem usetabs a ['\r'] (Or.inr rfl)

/-- A comment with trailing blanks and unusual indentation: the hypotheses are met. -/
example : commentTrim true "/*\t \n         * x  \n    y\t\n\n */\n".toList =
    .text "/*\n\t * x\n    y\n\n */\n".toList := by
  decide +kernel

end Knfmt.Comment
