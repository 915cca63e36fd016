/-!
# libks/arithmetic.c

The portable versions of the overflow checks. `libks/arithmetic.h:48-187` uses the
compiler built-ins instead where available; those are part of the trusted base.
Types are given by their bounds. Signed intermediate results out of range and division
by zero are undefined behaviour.
-/
namespace Knfmt.Arith

/-- Outcome of a checked operation. -/
inductive Res where
  /-- Undefined behaviour. -/
  | undefined
  /-- The function returned 1. -/
  | overflow
  /-- The function returned 0 and stored the value. -/
  | ok (v : Int)
deriving DecidableEq, Repr

/-- A signed computation in a type with the given bounds. -/
def ck (mn mx v : Int) : Option Int := if mn ≤ v ∧ v ≤ mx then some v else none

/-- Signed division truncates; `none` if undefined. -/
def ckDiv (mn mx a b : Int) : Option Int := if b = 0 then none else ck mn mx (Int.tdiv a b)

/-- `*c = v; return 0`. -/
def store (v : Option Int) : Res := match v with | none => .undefined | some v => .ok v

/-- `if (p && test)`; evaluated left to right, `none` is undefined. -/
def guard (p : Prop) [Decidable p] (test : Option Bool) : Option Bool :=
  if p then test else some false

/-- `SIGNED_ADD_OVERFLOW`, libks/arithmetic.c:21-27. -/
def signedAdd (mn mx a b : Int) : Res :=
  match guard (b > 0) ((ck mn mx (mx - b)).map (fun t => decide (a > t))) with
  | none => .undefined
  | some true => .overflow
  | some false =>
    match guard (b < 0) ((ck mn mx (mn - b)).map (fun t => decide (a < t))) with
    | none => .undefined
    | some true => .overflow
    | some false => store (ck mn mx (a + b))

/-- `SIGNED_SUB_OVERFLOW`, libks/arithmetic.c:29-35. -/
def signedSub (mn mx a b : Int) : Res :=
  match guard (b > 0) ((ck mn mx (mn + b)).map (fun t => decide (a < t))) with
  | none => .undefined
  | some true => .overflow
  | some false =>
    match guard (b < 0) ((ck mn mx (mx + b)).map (fun t => decide (a > t))) with
    | none => .undefined
    | some true => .overflow
    | some false => store (ck mn mx (a - b))

/-- `SIGNED_MUL_OVERFLOW`, libks/arithmetic.c:37-48. -/
def signedMul (mn mx a b : Int) : Res :=
  match guard (a > 0 ∧ b > 0) ((ckDiv mn mx mx b).map (fun t => decide (a > t))) with
  | none => .undefined
  | some true => .overflow
  | some false =>
    match guard (a > 0 ∧ b < 0) ((ckDiv mn mx mn a).map (fun t => decide (b < t))) with
    | none => .undefined
    | some true => .overflow
    | some false =>
      match guard (a < 0 ∧ b > 0) ((ckDiv mn mx mn b).map (fun t => decide (a < t))) with
      | none => .undefined
      | some true => .overflow
      | some false =>
        match guard (a < 0 ∧ b < 0) ((ckDiv mn mx mx a).map (fun t => decide (b < t))) with
        | none => .undefined
        | some true => .overflow
        | some false => store (ck mn mx (a * b))

/-- `UNSIGNED_ADD_OVERFLOW`, libks/arithmetic.c:50-55. -/
def unsignedAdd (mx a b : Nat) : Res :=
  if a > mx - b then .overflow else .ok ((a + b) % (mx + 1) : Nat)

/-- `UNSIGNED_SUB_OVERFLOW`, libks/arithmetic.c:57-62. Unsigned subtraction wraps. -/
def unsignedSub (mx a b : Nat) : Res :=
  if b > a then .overflow else .ok ((a + (mx + 1) - b) % (mx + 1) : Nat)

/-- `UNSIGNED_MUL_OVERFLOW`, libks/arithmetic.c:64-69. -/
def unsignedMul (mx a b : Nat) : Res :=
  if b = 0 then .undefined
  else if a > mx / b then .overflow else .ok ((a * b) % (mx + 1) : Nat)

/-! ## Properties -/

/-- What a check must do: the exact result if it is in range, overflow otherwise. -/
def Correct (mn mx exact : Int) (r : Res) : Prop :=
  (mn ≤ exact ∧ exact ≤ mx ∧ r = .ok exact) ∨ (¬ (mn ≤ exact ∧ exact ≤ mx) ∧ r = .overflow)

theorem guard_pos {p : Prop} [Decidable p] {mn mx v : Int} {f : Int → Bool} (hp : p)
    (hv : mn ≤ v ∧ v ≤ mx) : guard p ((ck mn mx v).map f) = some (f v) := by
  simp [guard, hp, ck, hv]

theorem guard_neg {p : Prop} [Decidable p] {t : Option Bool} (hp : ¬ p) : guard p t = some false := by
  simp [guard, hp]

theorem store_ck {mn mx v : Int} (hv : mn ≤ v ∧ v ≤ mx) : store (ck mn mx v) = .ok v := by
  simp [store, ck, hv]

/-- C42: signed addition, for every width. -/
theorem signed_add_correct (M a b : Int) (ha : -M ≤ a ∧ a ≤ M - 1) (hb : -M ≤ b ∧ b ≤ M - 1) :
    Correct (-M) (M - 1) (a + b) (signedAdd (-M) (M - 1) a b) := by
  unfold Correct signedAdd
  rcases Int.lt_trichotomy b 0 with h | h | h
  · rw [guard_neg (by omega), guard_pos h (by omega)]
    by_cases hr : a < -M - b
    · right; rw [decide_eq_true hr]; exact ⟨by omega, rfl⟩
    · left; rw [decide_eq_false hr]; exact ⟨by omega, by omega, store_ck (by omega)⟩
  · rw [guard_neg (by omega), guard_neg (by omega)]
    left; exact ⟨by omega, by omega, store_ck (by omega)⟩
  · rw [guard_pos h (by omega), guard_neg (by omega)]
    by_cases hr : a > M - 1 - b
    · right; rw [decide_eq_true hr]; exact ⟨by omega, rfl⟩
    · left; rw [decide_eq_false hr]; exact ⟨by omega, by omega, store_ck (by omega)⟩

/-- C42: signed subtraction. -/
theorem signed_sub_correct (M a b : Int) (ha : -M ≤ a ∧ a ≤ M - 1) (hb : -M ≤ b ∧ b ≤ M - 1) :
    Correct (-M) (M - 1) (a - b) (signedSub (-M) (M - 1) a b) := by
  unfold Correct signedSub
  rcases Int.lt_trichotomy b 0 with h | h | h
  · rw [guard_neg (by omega), guard_pos h (by omega)]
    by_cases hr : a > M - 1 + b
    · right; rw [decide_eq_true hr]; exact ⟨by omega, rfl⟩
    · left; rw [decide_eq_false hr]; exact ⟨by omega, by omega, store_ck (by omega)⟩
  · rw [guard_neg (by omega), guard_neg (by omega)]
    left; exact ⟨by omega, by omega, store_ck (by omega)⟩
  · rw [guard_pos h (by omega), guard_neg (by omega)]
    by_cases hr : a < -M + b
    · right; rw [decide_eq_true hr]; exact ⟨by omega, rfl⟩
    · left; rw [decide_eq_false hr]; exact ⟨by omega, by omega, store_ck (by omega)⟩

/-- A truncating division of a non-negative number by a positive one. -/
theorem tdiv_bounds {a b : Int} (ha : 0 ≤ a) (hb : 0 < b) :
    0 ≤ a.tdiv b ∧ a.tdiv b ≤ a ∧ ∀ c, c ≤ a.tdiv b ↔ c * b ≤ a := by
  rw [Int.tdiv_eq_ediv_of_nonneg ha]
  refine ⟨Int.ediv_nonneg ha (by omega), ?_, fun c => Int.le_ediv_iff_mul_le hb⟩
  exact Int.ediv_le_self b ha

theorem guardDiv_pos {p : Prop} [Decidable p] {mn mx a b : Int} {f : Int → Bool} (hp : p) (hb : b ≠ 0)
    (hv : mn ≤ a.tdiv b ∧ a.tdiv b ≤ mx) :
    guard p ((ckDiv mn mx a b).map f) = some (f (a.tdiv b)) := by
  simp [guard, hp, ckDiv, hb, ck, hv]

/-- C42: signed multiplication. -/
theorem signed_mul_correct (M a b : Int) (ha : -M ≤ a ∧ a ≤ M - 1) (hb : -M ≤ b ∧ b ≤ M - 1) :
    Correct (-M) (M - 1) (a * b) (signedMul (-M) (M - 1) a b) := by
  unfold Correct signedMul
  rcases Int.lt_trichotomy a 0 with h | h | h
  · rcases Int.lt_trichotomy b 0 with h' | h' | h'
    · -- both negative
      rw [guard_neg (by omega), guard_neg (by omega), guard_neg (by omega)]
      have hd := tdiv_bounds (a := M - 1) (b := -a) (by omega) (by omega)
      have e : (M - 1).tdiv a = -((M - 1).tdiv (-a)) := by rw [Int.tdiv_neg]; omega
      rw [guardDiv_pos ⟨h, h'⟩ (by omega) (by rw [e]; omega)]
      have hx := hd.2.2 (-b)
      have hm : -b * -a = a * b := by rw [Int.neg_mul_neg, Int.mul_comm]
      rw [hm] at hx
      have hpos : 0 ≤ a * b := Int.mul_nonneg_of_nonpos_of_nonpos (by omega) (by omega)
      by_cases hr : b < (M - 1).tdiv a
      · right; simp only; rw [decide_eq_true hr]; rw [e] at hr; exact ⟨by omega, rfl⟩
      · left; simp only; rw [decide_eq_false hr]; rw [e] at hr; exact ⟨by omega, by omega, store_ck (by omega)⟩
    · subst h'
      rw [guard_neg (by omega), guard_neg (by omega), guard_neg (by omega), guard_neg (by omega)]
      left; rw [Int.mul_zero]; exact ⟨by omega, by omega, store_ck (by omega)⟩
    · -- a < 0 < b
      rw [guard_neg (by omega), guard_neg (by omega)]
      have hd := tdiv_bounds (a := M) (b := b) (by omega) (by omega)
      have e : (-M).tdiv b = -(M.tdiv b) := Int.neg_tdiv ..
      rw [guardDiv_pos ⟨h, h'⟩ (by omega) (by rw [e]; omega), guard_neg (by omega)]
      have hx := hd.2.2 (-a)
      have hm : -a * b = -(a * b) := Int.neg_mul ..
      rw [hm] at hx
      have hneg : a * b ≤ 0 := Int.mul_nonpos_of_nonpos_of_nonneg (by omega) (by omega)
      by_cases hr : a < (-M).tdiv b
      · right; simp only; rw [decide_eq_true hr]; rw [e] at hr; exact ⟨by omega, rfl⟩
      · left; simp only; rw [decide_eq_false hr]; rw [e] at hr; exact ⟨by omega, by omega, store_ck (by omega)⟩
  · subst h
    rw [guard_neg (by omega), guard_neg (by omega), guard_neg (by omega), guard_neg (by omega)]
    left; rw [Int.zero_mul]; exact ⟨by omega, by omega, store_ck (by omega)⟩
  · rcases Int.lt_trichotomy b 0 with h' | h' | h'
    · -- b < 0 < a
      rw [guard_neg (by omega)]
      have hd := tdiv_bounds (a := M) (b := a) (by omega) (by omega)
      have e : (-M).tdiv a = -(M.tdiv a) := Int.neg_tdiv ..
      rw [guardDiv_pos ⟨h, h'⟩ (by omega) (by rw [e]; omega), guard_neg (by omega), guard_neg (by omega)]
      have hx := hd.2.2 (-b)
      have hm : -b * a = -(a * b) := by rw [Int.neg_mul, Int.mul_comm]
      rw [hm] at hx
      have hneg : a * b ≤ 0 := Int.mul_nonpos_of_nonneg_of_nonpos (by omega) (by omega)
      by_cases hr : b < (-M).tdiv a
      · right; simp only; rw [decide_eq_true hr]; rw [e] at hr; exact ⟨by omega, rfl⟩
      · left; simp only; rw [decide_eq_false hr]; rw [e] at hr; exact ⟨by omega, by omega, store_ck (by omega)⟩
    · subst h'
      rw [guard_neg (by omega), guard_neg (by omega), guard_neg (by omega), guard_neg (by omega)]
      left; rw [Int.mul_zero]; exact ⟨by omega, by omega, store_ck (by omega)⟩
    · have hd := tdiv_bounds (a := M - 1) (b := b) (by omega) (by omega)
      rw [guardDiv_pos ⟨h, h'⟩ (by omega) (by omega), guard_neg (by omega), guard_neg (by omega),
        guard_neg (by omega)]
      have hx := hd.2.2 a
      have hpos : 0 ≤ a * b := Int.mul_nonneg (by omega) (by omega)
      by_cases hr : a > (M - 1).tdiv b
      · right; simp only; rw [decide_eq_true hr]; exact ⟨by omega, rfl⟩
      · left; simp only; rw [decide_eq_false hr]; exact ⟨by omega, by omega, store_ck (by omega)⟩

/-- C42: unsigned addition and subtraction. -/
theorem unsigned_add_correct (mx a b : Nat) (hb : b ≤ mx) :
    Correct 0 mx (a + b : Int) (unsignedAdd mx a b) := by
  unfold Correct unsignedAdd
  by_cases h : a > mx - b
  · right; rw [if_pos h]; exact ⟨by omega, rfl⟩
  · left; rw [if_neg h, Nat.mod_eq_of_lt (by omega)]; exact ⟨by omega, by omega, by simp⟩

theorem unsigned_sub_correct (mx a b : Nat) (ha : a ≤ mx) :
    Correct 0 mx (a - b : Int) (unsignedSub mx a b) := by
  unfold Correct unsignedSub
  by_cases h : b > a
  · right; rw [if_pos h]; exact ⟨by omega, rfl⟩
  · left
    have e : (a + (mx + 1) - b) % (mx + 1) = a - b := by
      rw [show a + (mx + 1) - b = (a - b) + (mx + 1) by omega, Nat.add_mod_right]
      exact Nat.mod_eq_of_lt (by omega)
    rw [if_neg h, e]
    exact ⟨by omega, by omega, by rw [Int.ofNat_sub (by omega)]⟩

/-- C42: unsigned multiplication, unless the second operand is zero. -/
theorem unsigned_mul_correct_partial (mx a b : Nat) (hb : b ≠ 0) :
    Correct 0 mx (a * b : Int) (unsignedMul mx a b) := by
  unfold Correct unsignedMul
  rw [if_neg hb]
  have hx : a ≤ mx / b ↔ a * b ≤ mx := Nat.le_div_iff_mul_le (by omega)
  have e : (a * b : Int) = ((a * b : Nat) : Int) := by simp
  rw [e]
  by_cases h : a > mx / b
  · right; rw [if_pos h]; exact ⟨by omega, rfl⟩
  · left; rw [if_neg h, Nat.mod_eq_of_lt (by omega)]; exact ⟨by omega, by omega, rfl⟩

/-- C42 is false of the portable unsigned multiplication: multiplying by zero divides by
zero. (The compiler built-in is used wherever there is one.) -/
theorem unsigned_mul_by_zero (mx a : Nat) : unsignedMul mx a 0 = .undefined := rfl

/-- C42 at the widths used, e.g. `KS_u32_sub_overflow` in doc.c:769. -/
example : signedMul (-2 ^ 31) (2 ^ 31 - 1) (-2 ^ 31) (-1) = .overflow ∧
    signedMul (-2 ^ 31) (2 ^ 31 - 1) (-2 ^ 31) 1 = .ok (-2 ^ 31) ∧
    unsignedSub (2 ^ 32 - 1) 3 4 = .overflow ∧ unsignedMul (2 ^ 64 - 1) (2 ^ 32) (2 ^ 32) = .overflow := by
  decide +kernel

end Knfmt.Arith
