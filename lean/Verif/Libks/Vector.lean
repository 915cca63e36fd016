import Verif.Common
/-!
# libks/vector.c

The memory behind a vector is the list `mem` of its `vc_siz` elements; elements are
values of a type `α`. Fresh memory is arbitrary. An access outside `mem` is undefined
behaviour (`none`). `size_t` and `unsigned long` have 64 bits.

`realloc` is given the bytes in use as old size (libks/vector.c:219), so only the
elements below `len` need to survive; that is what the model keeps.
-/
namespace Knfmt.Vector

def ULONG_MAX : Nat := 2 ^ 64 - 1

/-- Reduction of a sum to 64 bits. -/
@[irreducible] def wrap (n : Nat) : Nat := n % 2 ^ 64

theorem wrap_of_le {n : Nat} (h : n ≤ ULONG_MAX) : wrap n = n := by
  unfold wrap
  exact Nat.mod_eq_of_lt (by unfold ULONG_MAX at h; omega)

/-- `sizeof(struct vector)` on LP64: four callback words and three sizes,
libks/vector.c:32-38. -/
def HDR : Nat := 56

/-- `struct vector`. -/
structure Vec (α : Type) where
  mem : List α
  siz : Nat
  stride : Nat
  len : Nat
deriving Repr

/-- The allocator: fail, or hand out memory with these contents. -/
structure Alloc (α : Type) where
  fail : Bool
  junk : Nat → α

/-- The doubling loop, libks/vector.c:205-210. `none` is an overflow. -/
def grow (newsiz want : Nat) (h : 0 < newsiz) : Option Nat :=
  if newsiz < want then
    if newsiz > ULONG_MAX / 2 then none else grow (newsiz * 2) want (by omega)
  else some newsiz
termination_by want - newsiz

/-- `enum vector_error`, libks/vector.c:26-30. -/
inductive Err where
  | reallocated
  | success
  | error
deriving DecidableEq, Repr

variable {α : Type}

/-- `vector_init_impl`, libks/vector.c:73-86. -/
def init (stride : Nat) : Vec α := { mem := [], siz := 0, stride := stride, len := 0 }

/-- `vector_reserve1`, libks/vector.c:191-230. Products and sums are computed in
`size_t`; `none` is a division by a stride of zero. -/
def reserve1 (v : Vec α) (len : Nat) (a : Alloc α) : Option (Vec α × Err) :=
  if v.len > ULONG_MAX - len then some (v, .error)
  else if wrap (v.len + len) ≤ v.siz then some (v, .success)
  else
    match grow (if v.siz = 0 then 16 else v.siz) (wrap (v.len + len)) (by split <;> omega) with
    | none => some (v, .error)
    | some newsiz =>
      if v.stride = 0 then none
      else if newsiz > ULONG_MAX / v.stride then some (v, .error)
      else if newsiz * v.stride > ULONG_MAX - HDR then some (v, .error)
      else if a.fail then some (v, .error)
      else
        some ({ v with mem := v.mem.take v.len ++ (List.range (newsiz - v.len)).map a.junk,
                       siz := newsiz }, .reallocated)

/-- `vector_reserve`, libks/vector.c:101-116; the flag is the returned error. -/
def reserve (v : Vec α) (n : Nat) (a : Alloc α) : Option (Vec α × Bool) :=
  (reserve1 v n a).map fun r => (r.1, r.2 == .error)

/-- Store into an element. -/
def store (v : Vec α) (i : Nat) (x : α) : Option (Vec α) :=
  if i < v.mem.length then some { v with mem := v.mem.set i x } else none

/-- The end of `vector_alloc`, libks/vector.c:133-141. -/
def append (v : Vec α) (zero : Option α) : Option (Vec α × Option Nat) :=
  match zero with
  | none => some ({ v with len := v.len + 1 }, some v.len)
  | some z => (store v v.len z).map fun w => ({ w with len := w.len + 1 }, some w.len)

/-- `vector_alloc`, libks/vector.c:118-142: the index of the new element, `none` for
`ULONG_MAX`. With `zero` the element is cleared. -/
def alloc (v : Vec α) (zero : Option α) (a : Alloc α) : Option (Vec α × Option Nat) :=
  match reserve1 v 1 a with
  | none => none
  | some (v, .error) => some (v, none)
  | some (v, _) => append v zero

/-- `vector_pop`, libks/vector.c:144-152. -/
def pop (v : Vec α) : Vec α × Option Nat :=
  if v.len = 0 then (v, none) else ({ v with len := v.len - 1 }, some (v.len - 1))

/-- `vector_clear`, libks/vector.c:154-160. -/
def clear (v : Vec α) : Vec α := { v with len := 0 }

/-- `vector_first`, libks/vector.c:171-179. -/
def first (v : Vec α) : Option Nat := if v.len = 0 then none else some 0

/-- `vector_last`, libks/vector.c:181-189. -/
def last (v : Vec α) : Option Nat := if v.len = 0 then none else some (v.len - 1)

/-- `vector_sort`, libks/vector.c:162-169: `qsort(3)` of the elements in use. -/
def sort (qsort : List α → List α) (v : Vec α) : Vec α :=
  if v.len > 0 then { v with mem := qsort (v.mem.take v.len) ++ v.mem.drop v.len } else v

/-! ## Properties -/

/-- The sequence a vector stands for. -/
def content (v : Vec α) : List α := v.mem.take v.len

/-- Invariant: the elements fit in an allocation whose size in bytes did not overflow. -/
structure Inv (v : Vec α) : Prop where
  mem : v.mem.length = v.siz
  len : v.len ≤ v.siz
  stride : 0 < v.stride
  bytes : v.siz * v.stride + HDR ≤ ULONG_MAX

theorem grow_spec {newsiz want r : Nat} {h : 0 < newsiz} (e : grow newsiz want h = some r) :
    want ≤ r ∧ newsiz ≤ r := by
  induction newsiz, h using grow.induct want with
  | case1 newsiz h hlt hgt => rw [grow] at e; simp [hlt, hgt] at e
  | case2 newsiz h hlt hgt ih =>
    rw [grow] at e
    simp [hlt, hgt] at e
    have := ih e
    omega
  | case3 newsiz h hlt =>
    rw [grow] at e
    simp [hlt] at e
    omega

theorem init_inv (stride : Nat) (h : 0 < stride) : Inv (init stride : Vec α) ∧ content (init stride : Vec α) = [] :=
  ⟨⟨rfl, Nat.le_refl _, h, by simp [init, HDR, ULONG_MAX]⟩, rfl⟩

theorem reserve1_spec {v : Vec α} (hv : Inv v) (n : Nat) (hn : n ≤ ULONG_MAX) (a : Alloc α) :
    ∃ v' e, reserve1 v n a = some (v', e) ∧ Inv v' ∧ content v' = content v ∧ v'.len = v.len ∧
      (e = .error → v' = v) ∧ (e ≠ .error → v.len + n ≤ v'.siz) := by
  unfold reserve1
  split
  · exact ⟨v, _, rfl, hv, rfl, rfl, fun _ => rfl, by simp⟩
  · next hov =>
    have hmax : v.siz ≤ ULONG_MAX :=
      Nat.le_trans (Nat.le_trans (Nat.le_mul_of_pos_right _ hv.stride) (Nat.le_add_right _ HDR)) hv.bytes
    have hw : wrap (v.len + n) = v.len + n := wrap_of_le (by have := hv.len; omega)
    rw [hw]
    split
    · next h => exact ⟨v, _, rfl, hv, rfl, rfl, fun _ => rfl, fun _ => h⟩
    · split
      · exact ⟨v, _, rfl, hv, rfl, rfl, fun _ => rfl, by simp⟩
      · next newsiz hg =>
        have hs := grow_spec hg
        have hst := hv.stride
        rw [if_neg (by omega)]
        split
        · exact ⟨v, _, rfl, hv, rfl, rfl, fun _ => rfl, by simp⟩
        · split
          · exact ⟨v, _, rfl, hv, rfl, rfl, fun _ => rfl, by simp⟩
          · next hb =>
            split
            · exact ⟨v, _, rfl, hv, rfl, rfl, fun _ => rfl, by simp⟩
            · have h1 := hv.mem; have h2 := hv.len
              refine ⟨_, _, rfl, ⟨?_, ?_, hst, ?_⟩, ?_, rfl, by simp, fun _ => hs.1⟩
              · simp; omega
              · simp; omega
              · simp only
                have : HDR ≤ ULONG_MAX := by simp [HDR, ULONG_MAX]
                omega
              · simp only [content]
                rw [List.take_append_of_le_length (by simp; omega)]
                exact List.take_of_length_le (by simp; omega)

/-- C37: `VECTOR_ALLOC` and `VECTOR_CALLOC` append one element and return its index, or
fail and change nothing. -/
theorem alloc_spec {v : Vec α} (hv : Inv v) (zero : Option α) (a : Alloc α) :
    ∃ v' r, alloc v zero a = some (v', r) ∧ Inv v' ∧
      match r with
      | none => content v' = content v
      | some i => i = (content v).length ∧
          ∃ x, content v' = content v ++ [x] ∧ ∀ z, zero = some z → x = z := by
  unfold alloc
  obtain ⟨v1, e, h1, hi, hc, hl, he, hs⟩ := reserve1_spec hv 1 (by simp [ULONG_MAX]) a
  rw [h1]
  have hlen : (content v).length = v.len := by have := hv.mem; have := hv.len; simp [content]; omega
  have fin : v.len + 1 ≤ v1.siz → ∃ v' r, append v1 zero = some (v', r) ∧ Inv v' ∧
      match r with
      | none => content v' = content v
      | some i => i = (content v).length ∧
          ∃ x, content v' = content v ++ [x] ∧ ∀ z, zero = some z → x = z := by
    intro hs
    have hm := hi.mem
    have hlt : v1.len < v1.mem.length := by omega
    cases zero with
    | none =>
      refine ⟨_, _, rfl, ⟨hi.mem, by simp only; omega, hi.stride, hi.bytes⟩, by omega,
        v1.mem[v1.len], ?_, by simp⟩
      simp only [content] at hc ⊢
      rw [← hc, List.take_add_one, List.getElem?_eq_getElem hlt]
      rfl
    | some z =>
      refine ⟨{ v1 with mem := v1.mem.set v1.len z, len := v1.len + 1 }, some v1.len,
        by simp only [append, store]; rw [if_pos hlt]; rfl,
        ⟨by simpa using hi.mem, by simp only; omega, hi.stride, hi.bytes⟩, by omega, z, ?_, by simp⟩
      simp only [content] at hc ⊢
      rw [← hc, List.take_add_one, List.getElem?_set_self hlt, List.take_set_of_le (Nat.le_refl _)]
      rfl
  cases e with
  | error => exact ⟨v1, none, rfl, hi, hc⟩
  | success => exact fin (hs (by simp))
  | reallocated => exact fin (hs (by simp))

/-- C37: popping removes the last element and returns its index. -/
theorem pop_spec {v : Vec α} (hv : Inv v) :
    Inv (pop v).1 ∧ content (pop v).1 = (content v).dropLast ∧
      ((pop v).2 = none ↔ content v = []) ∧ (∀ i, (pop v).2 = some i → i + 1 = (content v).length) := by
  have h1 := hv.mem; have h2 := hv.len
  unfold pop
  split
  · next h => exact ⟨hv, by simp [content, h], by simp [content, h], by simp⟩
  · next h =>
    refine ⟨⟨hv.mem, by simp; omega, hv.stride, hv.bytes⟩, ?_, ?_, ?_⟩
    · simp only [content]
      rw [List.dropLast_eq_take, List.take_take]
      congr 1
      simp; omega
    · simp [content, h]
      intro h'; rw [h'] at h1; simp at h1; omega
    · intro i hi
      simp at hi
      simp [content]; omega

/-- C37: first and last element. -/
theorem first_last_spec {v : Vec α} (hv : Inv v) :
    (first v).map (fun i => v.mem[i]?) = (content v).head?.map some ∧
      (last v).map (fun i => v.mem[i]?) = (content v).getLast?.map some := by
  have h1 := hv.mem; have h2 := hv.len
  unfold first last content
  split
  · next h => simp [h]
  · next h =>
    constructor
    · cases hm : v.mem with
      | nil => simp [hm] at h1; omega
      | cons x m => simp [List.head?_take, h]
    · simp only [Option.map_some]
      rw [List.getLast?_eq_getElem?, List.length_take, Nat.min_eq_left (by omega),
        List.getElem?_take_of_lt (by omega), List.getElem?_eq_getElem (by omega)]
      rfl

/-- The operations on the sequence. -/
inductive Op (α : Type) where
  /-- `VECTOR_ALLOC` followed by a store through the pointer returned, if any -/
  | push (x : α)
  | calloc (zero : α)
  | pop
  | clear
  | reserve (n : Nat)
  /-- store through the pointer to an element -/
  | set (i : Nat) (x : α)
  | sort (qsort : List α → List α)

/-- Run one operation; the flag is set if it failed. -/
def Op.run (v : Vec α) (op : Op α) (a : Alloc α) : Option (Vec α × Bool) :=
  match op with
  | .push x =>
    match Vector.alloc v none a with
    | none => none
    | some (v, none) => some (v, true)
    | some (v, some i) => (store v i x).map fun v => (v, false)
  | .calloc z => (Vector.alloc v (some z) a).map fun r => (r.1, r.2.isNone)
  | .pop => some ((Vector.pop v).1, false)
  | .clear => some (Vector.clear v, false)
  | .reserve n => Vector.reserve v n a
  | .set i x => if i < v.len then (store v i x).map fun v => (v, false) else some (v, true)
  | .sort q => some (Vector.sort q v, false)

/-- The same operation on a list. -/
def Op.spec (s : List α) (op : Op α) : List α :=
  match op with
  | .push x => s ++ [x]
  | .calloc z => s ++ [z]
  | .pop => s.dropLast
  | .clear => []
  | .reserve _ => s
  | .set i x => s.set i x
  | .sort q => q s

def runAll (v : Vec α) : List (Op α × Alloc α) → Option (Vec α × List Bool)
  | [] => some (v, [])
  | (op, a) :: ops =>
    match op.run v a with
    | none => none
    | some (v, e) => (runAll v ops).map fun r => (r.1, e :: r.2)

def specAll (s : List α) : List (Op α × Bool) → List α
  | [] => s
  | (op, e) :: ops => specAll (if e then s else op.spec s) ops

/-- Sorting functions permute their argument; a number of elements is a `size_t`. -/
def Op.Ok : Op α → Prop
  | .reserve n => n ≤ ULONG_MAX
  | .sort q => ∀ l, (q l).Perm l
  | _ => True

theorem store_spec {v : Vec α} (hv : Inv v) (i : Nat) (x : α) (h : i < v.len) :
    ∃ v', store v i x = some v' ∧ Inv v' ∧ content v' = (content v).set i x := by
  have h1 := hv.mem; have h2 := hv.len
  refine ⟨_, if_pos (by omega), ⟨by simpa using hv.mem, hv.len, hv.stride, hv.bytes⟩, ?_⟩
  simp [content, List.take_set]

/-- C37: whatever the history and whenever memory runs out, no access is out of bounds,
no size overflows, and the vector holds what the same history gives on a list when the
operations that reported failure are left out. -/
theorem vector_history (v : Vec α) (hv : Inv v) (ops : List (Op α × Alloc α))
    (hok : ∀ o ∈ ops, o.1.Ok) :
    ∃ v' es, runAll v ops = some (v', es) ∧ Inv v' ∧ es.length = ops.length ∧
      content v' = specAll (content v) ((ops.map Prod.fst).zip es) := by
  induction ops generalizing v with
  | nil => exact ⟨v, [], rfl, hv, rfl, rfl⟩
  | cons o ops ih =>
    obtain ⟨op, a⟩ := o
    have hop : op.Ok := hok _ (List.mem_cons_self ..)
    have hlen : (content v).length = v.len := by
      have := hv.mem; have := hv.len; simp [content]; omega
    have step : ∃ v' e, op.run v a = some (v', e) ∧ Inv v' ∧
        content v' = if e then content v else op.spec (content v) := by
      cases op with
      | push x =>
        obtain ⟨v1, r, h1, h2, h3⟩ := alloc_spec hv none a
        simp only [Op.run]
        rw [h1]
        cases r with
        | none => exact ⟨v1, true, rfl, h2, h3⟩
        | some i =>
          simp only at h3
          obtain ⟨hi, y, hy, _⟩ := h3
          have hl : (content v1).length = v1.len := by
            have := h2.mem; have := h2.len; simp [content]; omega
          rw [hy] at hl
          simp at hl
          obtain ⟨v2, e1, e2, e3⟩ := store_spec h2 i x (by omega)
          refine ⟨v2, false, by simp only [e1]; rfl, e2, ?_⟩
          rw [e3, hy, hi]
          simp [Op.spec]
      | calloc z =>
        obtain ⟨v1, r, h1, h2, h3⟩ := alloc_spec hv (some z) a
        simp only [Op.run]
        rw [h1]
        cases r with
        | none => exact ⟨v1, true, rfl, h2, h3⟩
        | some i =>
          simp only at h3
          obtain ⟨hi, y, hy, hz⟩ := h3
          exact ⟨v1, false, rfl, h2, by rw [hy, hz z rfl]; rfl⟩
      | pop => exact ⟨_, false, rfl, (pop_spec hv).1, (pop_spec hv).2.1⟩
      | clear => exact ⟨_, false, rfl, ⟨hv.mem, Nat.zero_le _, hv.stride, hv.bytes⟩, by simp [content, clear, Op.spec]⟩
      | reserve n =>
        obtain ⟨v1, e, h1, h2, h3, _⟩ := reserve1_spec hv n hop a
        refine ⟨v1, e == .error, by simp [Op.run, Vector.reserve, h1], h2, ?_⟩
        rw [h3, Op.spec, ite_self]
      | set i x =>
        simp only [Op.run]
        by_cases h : i < v.len
        · obtain ⟨v1, e1, e2, e3⟩ := store_spec hv i x h
          exact ⟨v1, false, by simp only [if_pos h]; rw [e1]; rfl, e2, e3⟩
        · exact ⟨v, true, by simp only [if_neg h], hv, rfl⟩
      | sort q =>
        refine ⟨_, false, rfl, ?_, ?_⟩
        · unfold Vector.sort
          split
          · refine ⟨?_, hv.len, hv.stride, hv.bytes⟩
            have hp := (hop (v.mem.take v.len)).length_eq
            have := hv.mem; have := hv.len
            simp at hp ⊢; omega
          · exact hv
        · unfold Vector.sort
          split
          · have hp := (hop (v.mem.take v.len)).length_eq
            have := hv.mem; have := hv.len
            simp only [content, Bool.false_eq_true, if_false, Op.spec]
            rw [List.take_append_of_le_length (by rw [hp]; simp; omega)]
            apply List.take_of_length_le
            simp at hp; omega
          · next h =>
            have h0 : v.len = 0 := by omega
            simp only [content, h0, List.take_zero, Bool.false_eq_true, if_false, Op.spec]
            exact (List.Perm.nil_eq (hop []).symm)
    obtain ⟨v1, e, h1, h2, h3⟩ := step
    obtain ⟨v', es, h4, h5, h6, h7⟩ := ih v1 h2 (fun o ho => hok o (List.mem_cons_of_mem _ ho))
    refine ⟨v', e :: es, by simp [runAll, h1, h4], h5, by simp [h6], ?_⟩
    simp only [List.map_cons, List.zip_cons_cons, specAll]
    rw [h7, h3]

/-- A vector of numbers across two growths, a failing allocation and a sort. -/
example : (runAll (init 8 : Vec Nat)
    (((List.range 17).map fun i => (Op.push i, ⟨false, fun _ => 7⟩)) ++
      [(.pop, ⟨true, fun _ => 7⟩), (.reserve 100, ⟨true, fun _ => 7⟩), (.sort List.reverse, ⟨true, fun _ => 7⟩),
       (.calloc 0, ⟨false, fun _ => 7⟩)])).map (fun r => (content r.1, r.2.drop 16)) =
    some ([15, 14, 13, 12, 11, 10, 9, 8, 7, 6, 5, 4, 3, 2, 1, 0, 0], [false, false, true, false, false]) := by
  decide +kernel

end Knfmt.Vector
