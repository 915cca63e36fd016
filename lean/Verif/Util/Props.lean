import Verif.Util.Lemmas
import Verif.Str.Props
/-!
# Properties of util.c: C25, C26 and the path helpers used by include guards (C30)
-/
namespace Knfmt.Util

open Knfmt.Str Knfmt.Spec

/-- C26: `strwidth` ends and returns the display column of the specification. -/
theorem strwidth_spec (s : List Char) (pos : Nat) :
    strwidthWith matchUntilDefault s pos = some (column pos s) ∧
      strwidth s pos = column pos s :=
  ⟨strwidthLoop_column _ _ _ (Nat.le_refl _), strwidth_inner' s pos⟩

example : column 3 "ab\tc\n\tde".toList = 10 := by decide

/-- C26: `colwidth` counts the same columns starting from one. -/
theorem colwidth_spec (s : List Char) (cno : Nat) (h : 1 ≤ cno) :
    colwidthWith matchUntilDefault s cno = some (column (cno - 1) s + 1) := by
  unfold colwidthWith
  obtain ⟨pos, rfl⟩ : ∃ pos, cno = pos + 1 := ⟨cno - 1, by omega⟩
  rw [colwidthLoop_eq, strwidthLoop_column _ _ _ (Nat.le_refl _)]
  rfl

example : (1 : Nat) ≤ 5 ∧ column (5 - 1) "x\ty".toList + 1 = 10 := by decide

/-- C26: the width of a concatenation is the width of the second part starting
where the first ended. -/
theorem strwidth_append (a b : List Char) (pos : Nat) :
    strwidthWith matchUntilDefault (a ++ b) pos =
      (strwidthWith matchUntilDefault a pos).bind (strwidthWith matchUntilDefault b ·) := by
  rw [(strwidth_spec _ _).1, (strwidth_spec _ _).1, Option.bind_some, (strwidth_spec _ _).1,
    column_append]

/-- C26: text containing neither tabs nor line feeds is as wide as it is long. -/
theorem strwidth_plain (s : List Char) (pos : Nat) (h : ∀ c ∈ s, c ≠ '\t' ∧ c ≠ '\n') :
    strwidthWith matchUntilDefault s pos = some (pos + s.length) := by
  rw [(strwidth_spec _ _).1]
  congr 1
  induction s generalizing pos with
  | nil => rfl
  | cons c s ih =>
    have hc := h c (List.mem_cons_self ..)
    rw [column_cons, ih _ (fun c hc => h c (List.mem_cons_of_mem _ hc))]
    simp [advance, hc.1, hc.2]
    omega

example : ∀ c ∈ "int x;".toList, c ≠ '\t' ∧ c ≠ '\n' := by decide

/-- C25: the white space emitted for an indentation: tabs only if enabled and
then as many as possible, the rest spaces. -/
theorem strindent_bytes (indent pos : Nat) (usetabs : Bool) :
    (strindent indent usetabs pos).1 =
      if usetabs then List.replicate (indent / 8) '\t' ++ List.replicate (indent % 8) ' '
      else List.replicate indent ' ' := by
  cases usetabs with
  | false => simp [strindent, strindentSpaces_eq]
  | true =>
    simp only [strindent, if_true, strindentTabs_eq indent 0 pos (by omega), strindentSpaces_eq]
    rw [show indent - (0 + (indent - 0) / 8 * 8) = indent % 8 by omega]
    rfl

/-- C25: the returned position is the display column reached. -/
theorem strindent_position (indent pos : Nat) (usetabs : Bool) :
    (strindent indent usetabs pos).2 = column pos (strindent indent usetabs pos).1 := by
  cases usetabs with
  | false =>
    rw [strindent_bytes]
    simp [strindent, strindentSpaces_eq, column_spaces]
  | true =>
    rw [strindent_bytes]
    simp only [strindent, if_true, strindentTabs_eq indent 0 pos (by omega), strindentSpaces_eq]
    rw [column_append, column_spaces]
    rw [show indent - (0 + (indent - 0) / 8 * 8) = indent % 8 by omega]
    rfl

/-- C25: the indentation is `indent` columns wide, when started on a tab stop or
when tabs are not used. (From another column a tab is narrower than eight.) -/
theorem strindent_width (indent pos : Nat) (usetabs : Bool)
    (h : pos % 8 = 0 ∨ usetabs = false ∨ indent < 8) :
    column pos (strindent indent usetabs pos).1 = pos + indent := by
  rw [strindent_bytes]
  cases usetabs with
  | false => simp [column_spaces]
  | true =>
    simp only [if_true]
    rw [column_append, column_spaces, column_tabs]
    simp at h
    split <;> omega

example : (strindent 13 true 0).1 = "\t     ".toList := by
  rw [strindent_bytes]; decide

example : column 0 (strindent 13 true 0).1 = 13 ∧ column 5 (strindent 13 false 5).1 = 18 :=
  ⟨strindent_width 13 0 true (by simp), strindent_width 13 5 false (by simp)⟩

/-- C25: the side condition of `strindent_width` is needed. -/
theorem strindent_width_unaligned : column 3 (strindent 8 true 3).1 ≠ 3 + 8 := by
  rw [strindent_bytes]; decide

/-! ## Paths -/

theorem pathSliceLoop_join (bf : List Char) (h : bf ≠ []) (ps : List (List Char)) :
    pathSliceLoop bf ps = join ['/'] (bf :: ps) := by
  induction ps generalizing bf with
  | nil => rfl
  | cons p ps ih =>
    unfold pathSliceLoop
    rw [if_pos (List.length_pos_iff.mpr h), ih _ (by simp)]
    cases ps with
    | nil => simp [join]
    | cons q ps => simp [join]

theorem pathSliceLoop_nil (ps : List (List Char)) :
    pathSliceLoop [] ps = join ['/'] (ps.dropWhile (· = [])) := by
  induction ps with
  | nil => rfl
  | cons p ps ih =>
    unfold pathSliceLoop
    simp only [List.length_nil, gt_iff_lt, Nat.lt_irrefl, if_false, List.nil_append]
    by_cases h : p = []
    · subst h; simpa using ih
    · rw [pathSliceLoop_join _ h, List.dropWhile_cons_of_neg (by simpa using h)]

theorem join_append_suffix (xs ys : List (List Char)) :
    join ['/'] ys <:+ join ['/'] (xs ++ ys) := by
  induction xs with
  | nil => exact List.suffix_refl _
  | cons x xs ih =>
    refine ih.trans ?_
    rw [List.cons_append]
    generalize xs ++ ys = zs
    cases zs with
    | nil => simp [join]
    | cons z zs => exact ⟨x ++ ['/'], by simp [join]⟩

/-- C30 (used for include guards): slicing a path ends, and the result is a
trailing part of the path. -/
theorem path_slice_suffix (path : List Char) (n : Nat) :
    ∃ r, pathSlice path n = some r ∧ r <:+ path := by
  obtain ⟨cs, hs, _, hj⟩ := split_join ['/'] path (by simp)
  unfold pathSlice
  rw [hs]
  simp only
  split
  · exact ⟨path, rfl, List.suffix_refl _⟩
  · refine ⟨_, rfl, ?_⟩
    rw [pathSliceLoop_nil, ← hj]
    have : cs = cs.take (cs.length - n) ++
        ((cs.drop (cs.length - n)).takeWhile (· = []) ++
          (cs.drop (cs.length - n)).dropWhile (· = [])) := by
      rw [List.takeWhile_append_dropWhile, List.take_append_drop]
    conv => rhs; rw [this, ← List.append_assoc]
    exact join_append_suffix _ _

/-- C30: the number of slashes in a slice of `n` components is below `n`, unless
the path has fewer components than asked for. -/
theorem path_slice_components (path : List Char) (n : Nat) (cs : List (List Char))
    (hs : split ['/'] path = some cs) (hn : n ≤ cs.length)
    (hne : ∀ c ∈ cs, c ≠ []) :
    pathSlice path n = some (join ['/'] (cs.drop (cs.length - n))) := by
  unfold pathSlice
  rw [hs]
  simp only
  rw [if_neg (by omega), pathSliceLoop_nil]
  congr 2
  cases hd : cs.drop (cs.length - n) with
  | nil => rfl
  | cons c ds =>
    rw [List.dropWhile_cons_of_neg]
    have : c ∈ cs := List.mem_of_mem_drop (i := cs.length - n) (by rw [hd]; exact List.mem_cons_self ..)
    simpa using hne c this

example : split ['/'] "src/sub/a.h".toList = some ["src".toList, "sub".toList, "a.h".toList] ∧
    pathSlice "src/sub/a.h".toList 2 = some "sub/a.h".toList := by decide

/-- Dropping leading slashes: with all components selected, an absolute path is
returned without its leading slash. -/
theorem path_slice_absolute : pathSlice "/a".toList 2 = some "a".toList := by decide

theorem strrchrDot_none (s : List Char) : strrchrDot s = none ↔ '.' ∉ s := by
  induction s with
  | nil => simp [strrchrDot]
  | cons c s ih =>
    unfold strrchrDot
    cases h : strrchrDot s with
    | some t =>
      have : '.' ∈ s := by
        by_cases hm : '.' ∈ s
        · exact hm
        · rw [ih.mpr hm] at h; simp at h
      simp [this]
    | none =>
      have := ih.mp h
      by_cases hc : c = '.'
      · simp [hc]
      · simp [hc, this, Ne.symm hc]

theorem strrchrDot_some (s t : List Char) :
    strrchrDot s = some t ↔ ∃ p q, s = p ++ t ∧ t = '.' :: q ∧ '.' ∉ q := by
  induction s generalizing t with
  | nil =>
    simp only [strrchrDot, reduceCtorEq, false_iff]
    rintro ⟨p, q, h, rfl, _⟩
    simp at h
  | cons c s ih =>
    unfold strrchrDot
    cases h : strrchrDot s with
    | some u =>
      obtain ⟨p, q, hs, hu, hq⟩ := (ih u).mp h
      constructor
      · rintro ⟨rfl⟩
        exact ⟨c :: p, q, by simp [hs], hu, hq⟩
      · rintro ⟨p', q', hs', rfl, hq'⟩
        cases p' with
        | nil =>
          simp at hs'
          exfalso
          apply hq'
          rw [← hs'.2, hs, hu]; simp
        | cons d p' =>
          simp at hs'
          show some u = _; rw [← h]
          exact (ih _).mpr ⟨p', q', hs'.2, rfl, hq'⟩
    | none =>
      have hn := (strrchrDot_none s).mp h
      simp only
      constructor
      · split
        · next hc =>
          rintro ⟨rfl⟩
          exact ⟨[], s, rfl, by simp [hc], hn⟩
        · simp
      · rintro ⟨p, q, hs, rfl, hq⟩
        cases p with
        | nil => simp at hs; simp [hs.1, hs.2]
        | cons d p =>
          simp at hs
          exfalso; apply hn; rw [hs.2]; simp

/-- C30: a path is taken to be a header exactly if it ends in `.h`. -/
theorem is_path_header_iff (path : List Char) :
    isPathHeader path = true ↔ ['.', 'h'] <:+ path := by
  unfold isPathHeader
  cases h : strrchrDot path with
  | none =>
    have := (strrchrDot_none path).mp h
    simp only [Bool.false_eq_true, false_iff]
    rintro ⟨p, rfl⟩
    exact this (by simp)
  | some t =>
    obtain ⟨p, q, hs, ht, hq⟩ := (strrchrDot_some path t).mp h
    simp only [beq_iff_eq]
    constructor
    · rintro rfl; exact ⟨p, hs.symm⟩
    · rintro ⟨p', hp⟩
      have : strrchrDot path = some ['.', 'h'] :=
        (strrchrDot_some _ _).mpr ⟨p', ['h'], hp.symm, rfl, by decide⟩
      rw [h] at this
      simpa using this

example : isPathHeader "a/b.c.h".toList = true ∧ isPathHeader "a.h/b".toList = false := by decide

end Knfmt.Util
