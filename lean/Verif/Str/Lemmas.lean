import Verif.Str.Model
namespace Knfmt.Str

/-- All pairs are ASCII, with a non-NUL lower bound. -/
def AsciiRanges (rs : List (Char × Char)) : Prop :=
  ∀ r ∈ rs, 1 ≤ r.1.toNat ∧ r.1.toNat < 128 ∧ r.2.toNat < 128

theorem anyRange_eq_u8 (rs : List (Char × Char)) (h : AsciiRanges rs) (c : Char) :
    anyRange rs c = anyRangeU8 rs c := by
  induction rs with
  | nil => rfl
  | cons r rs ih =>
    obtain ⟨lo, hi⟩ := r
    have ih := ih (fun r hr => h r (List.mem_cons_of_mem _ hr))
    have hr := h (lo, hi) (List.mem_cons_self ..)
    simp only at hr
    simp only [anyRange, anyRangeU8, ih]
    have : (schar c ≥ schar lo ∧ schar c ≤ schar hi) ↔
        (lo.toNat ≤ c.toNat ∧ c.toNat ≤ hi.toNat) := by
      unfold schar
      split <;> split <;> split <;> omega
    by_cases hh : lo.toNat ≤ c.toNat ∧ c.toNat ≤ hi.toNat
    · simp [this.mpr hh, hh.1, hh.2]
    · rw [if_neg (fun h => hh (this.mp h))]
      have : (decide (lo.toNat ≤ c.toNat) && decide (c.toNat ≤ hi.toNat)) = false := by
        simp; omega
      simp [this]

theorem anyRange_nul (rs : List (Char × Char)) (h : AsciiRanges rs) :
    anyRange rs '\x00' = false := by
  rw [anyRange_eq_u8 rs h _]
  induction rs with
  | nil => rfl
  | cons r rs ih =>
    obtain ⟨lo, hi⟩ := r
    have hr := h (lo, hi) (List.mem_cons_self ..)
    simp only [anyRangeU8, ih (fun r hr => h r (List.mem_cons_of_mem _ hr)), Bool.or_false]
    have : ('\x00' : Char).toNat = 0 := by decide
    simp only at hr; simp [this]; omega

theorem intRes1_length (rs : List (Char × Char)) (s : List Char) :
    (intRes1 rs s).length = s.length := by
  induction s with
  | nil => rfl
  | cons c s ih => unfold intRes1; split <;> simp [*]

theorem tzcnt_neg_eq (rs : List (Char × Char)) (h : AsciiRanges rs) (h8 : rs.length ≤ 8)
    (s : List Char) :
    tzcnt ((intRes1 rs s).map (!·)) = matchDefault rs s := by
  induction s with
  | nil => rfl
  | cons c s ih =>
    unfold intRes1 matchDefault
    by_cases h0 : c = '\x00'
    · subst h0
      simp [anyRange_nul rs h, List.replicate_succ, tzcnt]
    · rw [if_neg h0, anyRange_eq_u8 rs h c, List.take_of_length_le h8]
      cases hh : anyRangeU8 rs c <;> simp [tzcnt, ih]

theorem matchDefault_append_nul (rs : List (Char × Char)) (h : AsciiRanges rs)
    (s : List Char) (n : Nat) :
    matchDefault rs (s ++ List.replicate n '\x00') = matchDefault rs s := by
  induction s with
  | nil =>
    cases n <;> simp [matchDefault, List.replicate_succ, anyRange_nul rs h]
  | cons c s ih => simp [matchDefault, ih]

theorem matchDefault_take_drop (rs : List (Char × Char)) (s : List Char) (n : Nat) :
    matchDefault rs s =
      if matchDefault rs (s.take n) = (s.take n).length then
        (s.take n).length + matchDefault rs (s.drop n)
      else matchDefault rs (s.take n) := by
  induction s generalizing n with
  | nil => simp [matchDefault]
  | cons c s ih =>
    cases n with
    | zero => simp [matchDefault]
    | succ n =>
      simp only [List.take_succ_cons, List.drop_succ_cons, matchDefault, List.length_cons]
      cases anyRange rs c with
      | false => simp
      | true =>
        simp only [if_true]
        rw [ih n]
        split <;> split <;> omega

theorem any_not_intRes1 (rs : List (Char × Char)) (h : AsciiRanges rs) (h8 : rs.length ≤ 8)
    (s : List Char) :
    (((intRes1 rs s).map (!·)).any id = true) ↔ matchDefault rs s ≠ s.length := by
  induction s with
  | nil => simp [intRes1, matchDefault]
  | cons c s ih =>
    unfold intRes1 matchDefault
    by_cases h0 : c = '\x00'
    · subst h0
      simp [anyRange_nul rs h, List.replicate_succ]
    · rw [if_neg h0, anyRange_eq_u8 rs h c, List.take_of_length_le h8]
      cases hh : anyRangeU8 rs c
      · simp
      · simp only [List.map_cons, Bool.not_true, List.any_cons, id, Bool.false_or, ih, if_true,
          List.length_cons]
        omega

theorem matchDefault_nul (rs : List (Char × Char)) (h : AsciiRanges rs) (s : List Char)
    (h0 : '\x00' ∈ s) : matchDefault rs s ≠ s.length := by
  induction s with
  | nil => simp at h0
  | cons c s ih =>
    unfold matchDefault
    rcases List.mem_cons.mp h0 with h1 | h1
    · subst h1; simp [anyRange_nul rs h]
    · have := ih h1
      cases anyRange rs c <;> simp <;> omega

theorem intRes1_any_false (rs : List (Char × Char)) (h : AsciiRanges rs) (h8 : rs.length ≤ 8)
    (s : List Char) (hn : '\x00' ∉ s) :
    intRes1 rs s = s.map (anyRange rs) := by
  induction s with
  | nil => rfl
  | cons c s ih =>
    have ih := ih (fun hh => hn (List.mem_cons_of_mem _ hh))
    have h0 : c ≠ '\x00' := fun hh => hn (by simp [hh])
    unfold intRes1
    rw [if_neg h0, ih, ← anyRange_eq_u8 _ (fun r hr => h r (List.mem_of_mem_take hr)) c,
      List.take_of_length_le h8]
    rfl

theorem intRes1_append_nul (rs : List (Char × Char)) (s : List Char) (n : Nat) :
    intRes1 rs (s ++ List.replicate n '\x00') = intRes1 rs s ++ List.replicate n false := by
  induction s with
  | nil => cases n <;> simp [intRes1, List.replicate_succ]
  | cons c s ih =>
    simp only [List.cons_append, intRes1]
    split
    · simp [← List.replicate_append_replicate, List.replicate_succ]
    · simp [ih]

theorem tzcnt_map_any (rs : List (Char × Char)) (s : List Char) :
    tzcnt (s.map (anyRange rs)) = matchUntilDefault rs s := by
  induction s with
  | nil => rfl
  | cons c s ih => simp only [List.map_cons, tzcnt, matchUntilDefault, ih]

theorem tzcnt_append (a b : List Bool) (h : a.any id = true) : tzcnt (a ++ b) = tzcnt a := by
  induction a with
  | nil => simp at h
  | cons x a ih =>
    cases x
    · simp at h; simp [tzcnt, ih (by simpa using h)]
    · simp [tzcnt]

theorem matchUntil_none (rs : List (Char × Char)) (s : List Char)
    (h : (s.map (anyRange rs)).any id = false) : matchUntilDefault rs s = s.length := by
  induction s with
  | nil => rfl
  | cons c s ih =>
    simp only [List.map_cons, List.any_cons, Bool.or_eq_false_iff, id] at h
    simp [matchUntilDefault, h.1, ih h.2]; omega

theorem matchUntil_split (rs : List (Char × Char)) (a b : List Char) :
    matchUntilDefault rs (a ++ b) =
      if (a.map (anyRange rs)).any id then matchUntilDefault rs a
      else a.length + matchUntilDefault rs b := by
  induction a with
  | nil => simp
  | cons c s ih =>
    simp only [List.cons_append, matchUntilDefault, ih, List.map_cons, List.any_cons, id]
    cases anyRange rs c with
    | true => simp
    | false => simp only [Bool.false_or, Bool.false_eq_true, if_false, List.length_cons]; split <;> omega

theorem isPrefix_iff (d s : List Char) : isPrefix d s = true ↔ ∃ t, s = d ++ t := by
  induction d generalizing s with
  | nil => simp [isPrefix]
  | cons x d ih =>
    cases s with
    | nil => simp [isPrefix]
    | cons c s =>
      simp only [isPrefix, Bool.and_eq_true, beq_iff_eq, ih, List.cons_append, List.cons.injEq]
      constructor
      · rintro ⟨h, t, ht⟩; exact ⟨t, h.symm, ht⟩
      · rintro ⟨t, h, ht⟩; exact ⟨h.symm, t, ht⟩

end Knfmt.Str
