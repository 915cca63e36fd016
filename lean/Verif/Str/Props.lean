import Verif.Str.Lemmas
/-!
# Properties of the libks string functions (C43, C44)
-/
namespace Knfmt.Str

/-! ## Specification -/

/-- A byte belongs to one of the ranges. -/
def InRanges (rs : List (Char × Char)) (c : Char) : Prop :=
  ∃ r ∈ rs, r.1.toNat ≤ c.toNat ∧ c.toNat ≤ r.2.toNat

/-- `n` is the length of the longest prefix of `s` all of whose bytes satisfy `P`. -/
def LongestPrefix (P : Char → Prop) (s : List Char) (n : Nat) : Prop :=
  n ≤ s.length ∧ (∀ i, i < n → ∃ c, s[i]? = some c ∧ P c) ∧ (∀ c, s[n]? = some c → ¬ P c)

theorem anyRangeU8_iff (rs : List (Char × Char)) (c : Char) :
    anyRangeU8 rs c = true ↔ InRanges rs c := by
  induction rs with
  | nil => simp [anyRangeU8, InRanges]
  | cons r rs ih =>
    obtain ⟨lo, hi⟩ := r
    unfold anyRangeU8
    rw [Bool.or_eq_true, ih, Bool.and_eq_true, decide_eq_true_iff, decide_eq_true_iff]
    simp [InRanges]

/-- C43: the portable span function returns the length of the longest prefix
inside the ranges. -/
theorem str_match_default_spec (rs : List (Char × Char)) (h : AsciiRanges rs)
    (s : List Char) :
    LongestPrefix (InRanges rs) s (matchDefault rs s) := by
  induction s with
  | nil => simp [LongestPrefix, matchDefault]
  | cons c s ih =>
    have hc := anyRange_eq_u8 rs h c
    have hiff := anyRangeU8_iff rs c
    unfold matchDefault
    rw [hc]
    by_cases hh : anyRangeU8 rs c = true
    · rw [if_pos hh]
      obtain ⟨h1, h2, h3⟩ := ih
      refine ⟨by simp; omega, ?_, ?_⟩
      · intro i hi
        cases i with
        | zero => exact ⟨c, rfl, hiff.mp hh⟩
        | succ i => exact h2 i (by omega)
      · intro d hd
        rw [Nat.add_comm] at hd
        exact h3 d hd
    · rw [if_neg hh]
      refine ⟨by simp, by simp, ?_⟩
      intro d hd
      simp at hd
      subst hd
      exact fun hp => hh (hiff.mpr hp)

/-- C43: the portable complement span function returns the length of the longest
prefix outside the ranges. -/
theorem str_match_until_default_spec (rs : List (Char × Char)) (h : AsciiRanges rs)
    (s : List Char) :
    LongestPrefix (fun c => ¬ InRanges rs c) s (matchUntilDefault rs s) := by
  induction s with
  | nil => simp [LongestPrefix, matchUntilDefault]
  | cons c s ih =>
    have hc := anyRange_eq_u8 rs h c
    have hiff := anyRangeU8_iff rs c
    unfold matchUntilDefault
    rw [hc]
    by_cases hh : anyRangeU8 rs c = true
    · rw [if_pos hh]
      refine ⟨by simp, by simp, ?_⟩
      intro d hd
      simp at hd
      subst hd
      exact fun hp => hp (hiff.mp hh)
    · rw [if_neg hh]
      obtain ⟨h1, h2, h3⟩ := ih
      refine ⟨by simp; omega, ?_, ?_⟩
      · intro i hi
        cases i with
        | zero => exact ⟨c, rfl, fun hp => hh (hiff.mpr hp)⟩
        | succ i => exact h2 i (by omega)
      · intro d hd
        rw [Nat.add_comm] at hd
        exact h3 d hd

/-- C43: the SSE4.2 span function agrees with the portable one on every byte
string, NUL bytes included, for at most eight ASCII ranges. -/
theorem str_match_native_eq_default (rs : List (Char × Char)) (h : AsciiRanges rs)
    (h8 : rs.length ≤ 8) (s : List Char) :
    matchNative rs s = matchDefault rs s := by
  induction hn : s.length using Nat.strongRecOn generalizing s with
  | _ n ih =>
    unfold matchNative
    split
    · next hlt =>
      rw [tzcnt_neg_eq rs h h8, pad16, matchDefault_append_nul rs h]
    · next hlt =>
      have ih := ih (s.drop 16).length (by simp; omega) (s.drop 16) rfl
      simp only
      rw [tzcnt_neg_eq rs h h8 _, ih, matchDefault_take_drop rs s 16]
      have hlen : (s.take 16).length = 16 := by simp; omega
      have ha := any_not_intRes1 rs h h8 (s.take 16)
      by_cases hm : matchDefault rs (s.take 16) = (s.take 16).length
      · rw [if_pos hm, if_neg]
        · rw [hlen]
        · rintro (hc | hc)
          · exact ha.mp hc hm
          · refine matchDefault_nul rs h _ ?_ hm
            simpa using hc
      · rw [if_neg hm, if_pos (Or.inl (ha.mpr hm))]

example : matchNative [('a', 'z'), ('0', '9')] "abcdefghijklmnopqrst0123 X".toList = 24 := by
  rw [str_match_native_eq_default] <;> simp [AsciiRanges] <;> decide

/-- C43, part: the SSE4.2 complement span function agrees with the portable one
on every byte string *without NUL bytes*. Missing: strings with NUL bytes, for
which the claim is false, see `str_match_until_native_ne_default`. -/
theorem str_match_until_native_eq_default_partial (rs : List (Char × Char)) (h : AsciiRanges rs)
    (h8 : rs.length ≤ 8) (s : List Char) (hn : '\x00' ∉ s) :
    matchUntilNative rs s = matchUntilDefault rs s := by
  induction hl : s.length using Nat.strongRecOn generalizing s with
  | _ n ih =>
    unfold matchUntilNative
    split
    · next hlt =>
      simp only [pad16, intRes1_append_nul, intRes1_any_false rs h h8 s hn]
      by_cases hh : (s.map (anyRange rs)).any id = true
      · rw [if_pos (by simp only [List.any_append, hh, Bool.true_or]), tzcnt_append _ _ hh,
          tzcnt_map_any]
      · simp only [Bool.not_eq_true] at hh
        rw [if_neg (by rw [List.any_append, hh]; simp), matchUntil_none rs s hh]
    · next hlt =>
      have hnt : '\x00' ∉ s.take 16 := fun hc => hn (List.mem_of_mem_take hc)
      have ih := ih (s.drop 16).length (by simp; omega) (s.drop 16)
        (fun hc => hn (List.mem_of_mem_drop hc)) rfl
      simp only [intRes1_any_false rs h h8 _ hnt, ih, tzcnt_map_any]
      have := matchUntil_split rs (s.take 16) (s.drop 16)
      rw [List.take_append_drop] at this
      rw [this]
      have hlen : (s.take 16).length = 16 := by simp; omega
      rw [hlen]

example : matchUntilNative [('\t', '\t'), ('\n', '\n')] "int main(void)\tx".toList = 14 := by
  rw [str_match_until_native_eq_default_partial] <;> simp [AsciiRanges] <;> decide

/-- C43, negation: with a NUL byte before the match, the SSE4.2 complement span
function misses it. The argument is the range set used for measuring widths
(util.c:19, util.c:48). -/
theorem str_match_until_native_ne_default :
    matchUntilNative [('\t', '\t'), ('\n', '\n')] "a\x00\tb".toList ≠
      matchUntilDefault [('\t', '\t'), ('\n', '\n')] "a\x00\tb".toList := by
  have h1 : matchUntilDefault [('\t', '\t'), ('\n', '\n')] "a\x00\tb".toList = 2 := by decide
  rw [h1]
  unfold matchUntilNative
  decide

/-! ## Splitting (C44) -/

/-- The parts joined by the separator. -/
def join (delim : List Char) : List (List Char) → List Char
  | [] => []
  | [p] => p
  | p :: q :: ps => p ++ delim ++ join delim (q :: ps)

/-- `delim` occurs somewhere in `s`. -/
def Occurs (delim s : List Char) : Prop := ∃ a b, s = a ++ delim ++ b

theorem strstr_none (delim s : List Char) (h : strstr delim s = none) : ¬ Occurs delim s := by
  induction s with
  | nil =>
    simp only [strstr] at h
    split at h
    · simp at h
    · next hp =>
      rintro ⟨a, b, hab⟩
      have hab : a = [] ∧ delim = [] ∧ b = [] := by simpa using hab.symm
      exact hp (by simp [isPrefix, hab.2.1])
  | cons c s ih =>
    simp only [strstr] at h
    split at h
    · simp at h
    · next hp =>
      rw [Option.map_eq_none_iff] at h
      rintro ⟨a, b, hab⟩
      cases a with
      | nil => exact hp ((isPrefix_iff _ _).mpr ⟨b, by simpa using hab⟩)
      | cons x a =>
        simp only [List.cons_append, List.cons.injEq] at hab
        exact ih h ⟨a, b, by simpa using hab.2⟩

theorem strstr_some (delim s a b : List Char) (h : strstr delim s = some (a, b)) :
    s = a ++ delim ++ b := by
  induction s generalizing a with
  | nil =>
    simp only [strstr] at h
    split at h
    · next hp =>
      obtain ⟨t, ht⟩ := (isPrefix_iff _ _).mp hp
      simp at h ht; simp [h.1, h.2, ht]
    · simp at h
  | cons c s ih =>
    simp only [strstr] at h
    split at h
    · next hp =>
      obtain ⟨t, ht⟩ := (isPrefix_iff _ _).mp hp
      simp only [Option.some.injEq, Prod.mk.injEq] at h
      rw [← h.1, ← h.2, ht]; simp
    · rw [Option.map_eq_some_iff] at h
      obtain ⟨⟨a', b'⟩, h1, h2⟩ := h
      simp only [Prod.mk.injEq] at h2
      rw [← h2.1, ← h2.2]
      simp [ih a' (by rw [h1, h2.2])]
      simp [h2.2]

/-- The part found by `strstr` has no earlier occurrence of the separator: no
occurrence ends inside it or starts in it. -/
theorem strstr_first (delim s a b : List Char) (h : strstr delim s = some (a, b)) :
    ∀ a' b', s = a' ++ delim ++ b' → a.length ≤ a'.length := by
  induction s generalizing a with
  | nil =>
    intro a' b' hab
    simp only [strstr] at h
    split at h
    · simp at h; simp [h.1]
    · simp at h
  | cons c s ih =>
    intro a' b' hab
    simp only [strstr] at h
    split at h
    · simp at h; simp [h.1]
    · next hp =>
      rw [Option.map_eq_some_iff] at h
      obtain ⟨⟨a'', b''⟩, h1, h2⟩ := h
      simp only [Prod.mk.injEq] at h2
      cases a' with
      | nil => exact absurd ((isPrefix_iff _ _).mpr ⟨b', by simpa using hab⟩) hp
      | cons x a' =>
        simp only [List.cons_append, List.cons.injEq] at hab
        have := ih a'' (by rw [h1, h2.2]) a' b' (by simpa using hab.2)
        rw [← h2.1]; simp; exact this

/-- C44: splitting at a non-empty separator terminates, yields at least one part,
and joining the parts with the separator gives the string back. -/
theorem split_join (delim s : List Char) (hd : delim ≠ []) :
    ∃ parts, split delim s = some parts ∧ parts ≠ [] ∧ join delim parts = s := by
  suffices H : ∀ fuel s, s.length ≤ fuel →
      ∃ parts, splitLoop delim fuel s = some parts ∧ parts ≠ [] ∧ join delim parts = s from
    H _ s (Nat.le_refl _)
  intro fuel
  induction fuel with
  | zero =>
    intro s hs
    have : s = [] := by cases s with | nil => rfl | cons => simp at hs
    subst this
    unfold splitLoop
    cases hss : strstr delim [] with
    | none => exact ⟨[[]], by simp, by simp, rfl⟩
    | some p =>
      have := strstr_some delim [] p.1 p.2 hss
      simp at this
      exact absurd this.2.1 hd
  | succ fuel ih =>
    intro s hs
    unfold splitLoop
    cases hss : strstr delim s with
    | none => exact ⟨[s], by simp, by simp, rfl⟩
    | some p =>
      obtain ⟨a, b⟩ := p
      have heq := strstr_some delim s a b hss
      have hlen : b.length ≤ fuel := by
        have h1 : s.length = a.length + delim.length + b.length := by
          rw [heq]; simp; omega
        have : delim.length ≠ 0 := by simpa using hd
        omega
      obtain ⟨ps, h1, h2, h3⟩ := ih b hlen
      refine ⟨a :: ps, by simp [h1], by simp, ?_⟩
      cases ps with
      | nil => exact absurd rfl h2
      | cons q qs => simp only [join, h3, heq]

/-- C44: no part contains the separator. -/
theorem split_no_separator (delim s : List Char) (hd : delim ≠ []) (parts : List (List Char))
    (h : split delim s = some parts) : ∀ p ∈ parts, ¬ Occurs delim p := by
  suffices H : ∀ fuel s parts, splitLoop delim fuel s = some parts →
      ∀ p ∈ parts, ¬ Occurs delim p from H _ s parts h
  intro fuel
  induction fuel with
  | zero =>
    intro s parts h
    unfold splitLoop at h
    cases hss : strstr delim s with
    | none =>
      simp [hss] at h; subst h
      simpa using strstr_none delim s hss
    | some p => simp [hss] at h
  | succ fuel ih =>
    intro s parts h
    unfold splitLoop at h
    cases hss : strstr delim s with
    | none =>
      simp [hss] at h; subst h
      simpa using strstr_none delim s hss
    | some ab =>
      obtain ⟨a, b⟩ := ab
      simp only [hss, Option.map_eq_some_iff] at h
      obtain ⟨ps, h1, rfl⟩ := h
      intro p hp
      rcases List.mem_cons.mp hp with hp | hp
      · subst hp
        rintro ⟨x, y, hxy⟩
        have heq := strstr_some delim s p b hss
        have hf := strstr_first delim s p b hss x (y ++ delim ++ b) (by rw [heq, hxy]; simp)
        rw [hxy] at hf
        have : delim.length ≠ 0 := by simpa using hd
        simp at hf; omega
      · exact ih b ps h1 p hp

example : split "/".toList "/usr/src/a.c".toList =
    some ["".toList, "usr".toList, "src".toList, "a.c".toList] := by decide

/-- C44: the empty separator makes the split loop forever (no caller passes it). -/
theorem split_empty_separator_diverges (s : List Char) : split [] s = none := by
  suffices H : ∀ fuel s, splitLoop [] fuel s = none from H _ s
  intro fuel
  induction fuel with
  | zero => intro s; cases s <;> simp [splitLoop, strstr, isPrefix]
  | succ n ih => intro s; cases s <;> simp [splitLoop, strstr, isPrefix, ih]

end Knfmt.Str
