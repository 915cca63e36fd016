import Verif.Common
/-!
# libks/buffer.c

`bf_ptr` is the list `mem` of the bytes allocated (empty for `NULL`); bytes are
characters. Memory handed out by the allocator has arbitrary contents. Accesses outside
`mem` are undefined behaviour (`none`). `size_t` and `unsigned long` have 64 bits.
-/
namespace Knfmt.Buffer

def ULONG_MAX : Nat := 2 ^ 64 - 1

/-- Reduction of a sum to 64 bits. -/
@[irreducible] def wrap (n : Nat) : Nat := n % 2 ^ 64

theorem wrap_of_le {n : Nat} (h : n ≤ ULONG_MAX) : wrap n = n := by
  unfold wrap
  exact Nat.mod_eq_of_lt (by unfold ULONG_MAX at h; omega)

/-- `struct buffer`, libks/buffer.c:30-35. -/
structure Buf where
  mem : List Char
  siz : Nat
  len : Nat
deriving DecidableEq, Repr

/-- What the allocator does: fail, or hand out memory with these bytes. -/
structure Alloc where
  fail : Bool
  junk : Nat → Char

/-- The doubling loop of `buffer_reserve`, libks/buffer.c:322-326. `none` is an overflow. -/
def grow (newsiz newlen : Nat) (h : 0 < newsiz) : Option Nat :=
  if newsiz < newlen then
    if newsiz > ULONG_MAX / 2 then none else grow (newsiz * 2) newlen (by omega)
  else some newsiz
termination_by newlen - newsiz

/-- `realloc(3)`: the old bytes followed by arbitrary ones. -/
def realloc (mem : List Char) (newsiz : Nat) (a : Alloc) : List Char :=
  mem ++ (List.range (newsiz - mem.length)).map a.junk

/-- `buffer_reserve`, libks/buffer.c:306-335. The flag is the returned error. -/
def reserve (b : Buf) (len : Nat) (a : Alloc) : Buf × Bool :=
  if len > ULONG_MAX - b.len then (b, true)
  else
    let newlen := wrap (b.len + len)
    if b.siz > 0 ∧ b.siz ≥ newlen then (b, false)
    else
      match grow (if b.siz = 0 then 16 else b.siz) newlen (by split <;> omega) with
      | none => (b, true)
      | some newsiz =>
        if a.fail then (b, true)
        else ({ b with mem := realloc b.mem newsiz a, siz := newsiz }, false)

/-- `memcpy` of `s` to `mem + off`; `none` if out of bounds. -/
def write (mem : List Char) (off : Nat) (s : List Char) : Option (List Char) :=
  if off + s.length ≤ mem.length then some (mem.take off ++ s ++ mem.drop (off + s.length))
  else none

/-- `buffer_alloc_impl`, libks/buffer.c:53-68: `none` if memory is exhausted. -/
def alloc (initSize : Nat) (a : Alloc) : Option Buf :=
  let r := reserve { mem := [], siz := 0, len := 0 } initSize a
  if r.2 then none else some r.1

/-- `buffer_puts`, libks/buffer.c:140-150. -/
def puts (b : Buf) (s : List Char) (a : Alloc) : Option (Buf × Bool) :=
  if s.length = 0 then some (b, false)
  else
    let r := reserve b s.length a
    if r.2 then some (r.1, true)
    else (write r.1.mem r.1.len s).map fun m =>
      ({ r.1 with mem := m, len := r.1.len + s.length }, false)

/-- `buffer_putc`, libks/buffer.c:152-156. -/
def putc (b : Buf) (c : Char) (a : Alloc) : Option (Buf × Bool) := puts b [c] a

/-- `buffer_vprintf`, libks/buffer.c:170-195. `s` is the text the format expands to, a
string without NUL; `none` for a failing `vsnprintf`. The terminating NUL is written but
not counted. -/
def printf (b : Buf) (s : Option (List Char)) (a : Alloc) : Option (Buf × Bool) :=
  match s with
  | none => some (b, true)
  | some s =>
    let r := reserve b (s.length + 1) a
    if r.2 then some (r.1, true)
    else
      let room := r.1.siz - r.1.len
      -- vsnprintf writes at most `room` bytes including the NUL
      (write r.1.mem r.1.len (if s.length ≥ room then s.take (room - 1) else s ++ ['\x00'])).map fun m =>
        if s.length ≥ room then ({ r.1 with mem := m }, true)
        else ({ r.1 with mem := m, len := r.1.len + s.length }, false)

/-- `buffer_release`, libks/buffer.c:197-207: the memory and the emptied buffer. -/
def release (b : Buf) : List Char × Buf := (b.mem, { mem := [], siz := 0, len := 0 })

/-- `buffer_str`, libks/buffer.c:209-217: `some (none, _)` is the `NULL` returned. -/
def str (b : Buf) (a : Alloc) : Option (Option (List Char) × Buf) :=
  let needs : Option Bool :=
    if b.len = 0 then some true
    else (b.mem[b.len - 1]?).map (fun c => decide (c ≠ '\x00'))
  match needs with
  | none => none
  | some false => some (some (release b).1, (release b).2)
  | some true =>
    match putc b '\x00' a with
    | none => none
    | some (b, true) => some (none, b)
    | some (b, false) => some (some (release b).1, (release b).2)

/-- `buffer_reset`, libks/buffer.c:219-223. -/
def reset (b : Buf) : Buf := { b with len := 0 }

/-- `buffer_pop`, libks/buffer.c:225-232. -/
def pop (b : Buf) (n : Nat) : Buf × Nat :=
  let n := if n > b.len then b.len else n
  ({ b with len := b.len - n }, n)

/-- `memcmp(3)`: the difference of the first bytes that differ. -/
def memcmp : List Char → List Char → Int
  | c :: s, d :: t => if c = d then memcmp s t else (c.toNat : Int) - d.toNat
  | _, _ => 0

/-- `buffer_cmp`, libks/buffer.c:234-242. -/
def cmp (a b : Buf) : Int :=
  if a.len ≠ b.len then 1
  else if a.len = 0 then 0
  else memcmp (a.mem.take a.len) (b.mem.take a.len)

/-- One call of `buffer_getline_impl`, libks/buffer.c:274-297: the line, up to a NUL byte
in it, and the new offset. The buffer for the line never fails to grow. -/
def getline (b : Buf) (off : Nat) : Option (List Char × Nat) :=
  if off ≥ b.len then none
  else
    let rest := (b.mem.take b.len).drop off
    let line := rest.takeWhile (· ≠ '\n')
    some (line.takeWhile (· ≠ '\x00'), off + line.length + 1)

/-- All lines from `off` on. -/
def getlines (b : Buf) (off : Nat) : List (List Char) :=
  match _h : getline b off with
  | none => []
  | some (l, off') => l :: getlines b off'
termination_by b.len - off
decreasing_by
  unfold getline at _h
  split at _h
  · simp at _h
  · simp at _h; omega

/-- `buffer_read_fd_impl`, libks/buffer.c:113-130. -/
inductive ReadResult where
  | running (b : Buf) (rest : List Char)
  | done (b : Buf)
  | error (b : Buf)
  | undefined
deriving Repr

/-- Reply to `read(2)`: failure or the number of bytes, and the allocator. -/
structure ReadReply where
  fail : Bool
  n : Nat
  alloc : Alloc

/-- `read(2)` gives at most the room asked for, at most what is left, and nothing only if
asked for nothing or at the end of the file. -/
def readCount (room left n : Nat) : Nat :=
  if room = 0 ∨ left = 0 then 0 else max 1 (min n (min room left))

def readLoop (b : Buf) (rest : List Char) : List ReadReply → ReadResult
  | [] => .running b rest
  | r :: rs =>
    if r.fail then .error b
    else
      let n := readCount (b.siz - b.len) rest.length r.n
      match write b.mem b.len (rest.take n) with
      | none => .undefined
      | some m =>
        if n = 0 then .done b
        else
          let b := { b with mem := m, len := b.len + n }
          let res := reserve b (b.siz / 2) r.alloc
          if res.2 then .error res.1 else readLoop res.1 (rest.drop n) rs

/-! ## Properties -/

/-- The bytes the buffer holds, `buffer_get_ptr` and `buffer_get_len`. -/
def content (b : Buf) : List Char := b.mem.take b.len

/-- Invariant of buffers. -/
structure Inv (b : Buf) : Prop where
  mem : b.mem.length = b.siz
  len : b.len ≤ b.siz
  max : b.siz ≤ ULONG_MAX

theorem grow_spec {newsiz newlen r : Nat} {h : 0 < newsiz} (e : grow newsiz newlen h = some r)
    (hm : newsiz ≤ ULONG_MAX) : newlen ≤ r ∧ newsiz ≤ r ∧ r ≤ ULONG_MAX := by
  induction newsiz, h using grow.induct newlen with
  | case1 newsiz h hlt hgt => rw [grow] at e; simp [hlt, hgt] at e
  | case2 newsiz h hlt hgt ih =>
    rw [grow] at e
    simp [hlt, hgt] at e
    have := ih e (by omega)
    omega
  | case3 newsiz h hlt =>
    rw [grow] at e
    simp [hlt] at e
    omega

/-- Everything about `buffer_reserve`. -/
theorem reserve_spec {b : Buf} (hb : Inv b) (len : Nat) (a : Alloc) :
    Inv (reserve b len a).1 ∧ content (reserve b len a).1 = content b ∧
      (reserve b len a).1.len = b.len ∧ b.siz ≤ (reserve b len a).1.siz ∧
      ((reserve b len a).2 = true → (reserve b len a).1 = b) ∧
      ((reserve b len a).2 = false → b.len + len ≤ (reserve b len a).1.siz ∧ 0 < (reserve b len a).1.siz) := by
  unfold reserve
  split
  · exact ⟨hb, rfl, rfl, Nat.le_refl _, fun _ => rfl, by simp⟩
  · next hov =>
    have hw : wrap (b.len + len) = b.len + len := wrap_of_le (by have := hb.len; have := hb.max; omega)
    simp only [hw]
    split
    · next h => exact ⟨hb, rfl, rfl, Nat.le_refl _, fun _ => rfl, fun _ => ⟨h.2, h.1⟩⟩
    · split
      · exact ⟨hb, rfl, rfl, Nat.le_refl _, fun _ => rfl, by simp⟩
      · next newsiz hg =>
        have hmx := hb.max
        have hs := grow_spec hg (by split <;> first | (unfold ULONG_MAX; omega) | omega)
        have hs' : b.siz ≤ newsiz := by 
          have h21 := hs.2.1
          by_cases h0 : b.siz = 0
          · rw [if_pos h0] at h21; omega
          · rw [if_neg h0] at h21; omega
        have hpos : 0 < newsiz := by 
          have h21 := hs.2.1
          by_cases h0 : b.siz = 0
          · rw [if_pos h0] at h21; omega
          · rw [if_neg h0] at h21; omega
        have hlen : (realloc b.mem newsiz a).length = newsiz := by
          have := hb.mem
          simp [realloc]; omega
        split
        · exact ⟨hb, rfl, rfl, Nat.le_refl _, fun _ => rfl, by simp⟩
        · refine ⟨⟨hlen, ?_, hs.2.2⟩, ?_, rfl, hs', by simp, fun _ => ⟨hs.1, hpos⟩⟩
          · have := hb.len; simp; omega
          · have h1 := hb.mem; have h2 := hb.len
            simp [content, realloc, List.take_append, h1, h2]

theorem write_spec {mem : List Char} {off : Nat} {s : List Char} (h : off + s.length ≤ mem.length) :
    ∃ m, write mem off s = some m ∧ m.length = mem.length ∧
      m.take (off + s.length) = mem.take off ++ s ∧ ∀ k, k ≤ off → m.take k = mem.take k := by
  refine ⟨_, if_pos h, ?_, ?_, ?_⟩
  · simp; omega
  · rw [List.take_append]
    have : (mem.take off ++ s).length = off + s.length := by simp; omega
    rw [this, Nat.sub_self, List.take_zero, List.append_nil]
    exact List.take_of_length_le (by omega)
  · intro k hk
    rw [List.append_assoc, List.take_append, List.take_take]
    have : (mem.take off).length = off := by simp; omega
    rw [this, show k - off = 0 by omega, List.take_zero, List.append_nil, Nat.min_eq_left hk]

/-- C40: appending either succeeds or leaves the contents alone. -/
theorem puts_spec {b : Buf} (hb : Inv b) (s : List Char) (a : Alloc) :
    ∃ b' e, puts b s a = some (b', e) ∧ Inv b' ∧
      content b' = if e then content b else content b ++ s := by
  unfold puts
  split
  · next h => exact ⟨b, false, rfl, hb, by simp [List.length_eq_zero_iff.mp h]⟩
  · obtain ⟨h1, h2, h3, h4, h5, h6⟩ := reserve_spec hb s.length a
    simp only
    split
    · next h => exact ⟨_, true, rfl, h1, by simpa using h2⟩
    · next h =>
      have h6 := h6 (by simpa using h)
      obtain ⟨m, e1, e2, e3, _⟩ := write_spec (mem := (reserve b s.length a).1.mem)
        (off := (reserve b s.length a).1.len) (s := s) (by rw [h1.mem]; omega)
      refine ⟨{ (reserve b s.length a).1 with
          mem := m, len := (reserve b s.length a).1.len + s.length }, false,
        by rw [e1]; rfl, ⟨?_, ?_, h1.max⟩, ?_⟩
      · simp [e2, h1.mem]
      · simp; omega
      · simp only [content, Bool.false_eq_true, if_false]
        rw [e3]
        congr 1

/-- C40: formatted output. -/
theorem printf_spec {b : Buf} (hb : Inv b) (s : Option (List Char)) (a : Alloc) :
    ∃ b' e, printf b s a = some (b', e) ∧ Inv b' ∧ (s = none → e = true) ∧
      content b' = if e then content b else content b ++ s.getD [] := by
  unfold printf
  cases s with
  | none => exact ⟨b, true, rfl, hb, fun _ => rfl, rfl⟩
  | some s =>
    obtain ⟨h1, h2, h3, h4, h5, h6⟩ := reserve_spec hb (s.length + 1) a
    simp only
    split
    · next h => exact ⟨_, true, rfl, h1, by simp, by simpa using h2⟩
    · next h =>
      have h6 := h6 (by simpa using h)
      have hroom : ¬ s.length ≥ (reserve b (s.length + 1) a).1.siz - (reserve b (s.length + 1) a).1.len := by
        omega
      obtain ⟨m, e1, e2, e3, e4⟩ := write_spec (mem := (reserve b (s.length + 1) a).1.mem)
        (off := (reserve b (s.length + 1) a).1.len) (s := s ++ ['\x00']) (by rw [h1.mem]; simp; omega)
      refine ⟨{ (reserve b (s.length + 1) a).1 with
          mem := m, len := (reserve b (s.length + 1) a).1.len + s.length }, false,
        by rw [if_neg hroom, e1, Option.map_some, if_neg hroom], ⟨?_, ?_, h1.max⟩, by simp, ?_⟩
      · simp [e2, h1.mem]
      · simp; omega
      · simp only [content, Bool.false_eq_true, if_false, Option.getD_some]
        have : m.take ((reserve b (s.length + 1) a).1.len + s.length) =
            (reserve b (s.length + 1) a).1.mem.take (reserve b (s.length + 1) a).1.len ++ s := by
          have e5 := congrArg (List.take ((reserve b (s.length + 1) a).1.len + s.length)) e3
          rw [List.take_take, Nat.min_eq_left (by simp)] at e5
          rw [e5, ← List.append_assoc]
          rw [List.take_append_of_le_length]
          · apply List.take_of_length_le
            have := h1.mem; have := h1.len
            simp; omega
          · have := h1.mem; have := h1.len
            simp; omega
        rw [this]
        congr 1

/-- C40: discarding from the end. -/
theorem pop_spec {b : Buf} (hb : Inv b) (n : Nat) :
    Inv (pop b n).1 ∧ (pop b n).2 = min n (content b).length ∧
      content (pop b n).1 = (content b).take ((content b).length - n) := by
  have h1 := hb.mem; have h2 := hb.len
  unfold pop content
  refine ⟨⟨hb.mem, ?_, hb.max⟩, ?_, ?_⟩
  · simp; omega
  · simp; split <;> omega
  · simp only [List.take_take, List.length_take]
    congr 1
    split <;> omega

theorem memcmp_eq_zero (s t : List Char) (h : s.length = t.length) : memcmp s t = 0 ↔ s = t := by
  induction s generalizing t with
  | nil => cases t <;> simp_all [memcmp]
  | cons c s ih =>
    cases t with
    | nil => simp at h
    | cons d t =>
      unfold memcmp
      by_cases hc : c = d
      · rw [if_pos hc, ih t (by simpa using h)]; simp [hc]
      · rw [if_neg hc]
        simp only [List.cons.injEq, hc, false_and, iff_false]
        intro he
        apply hc
        apply Char.ext
        apply UInt32.toNat.inj
        have h1 : c.val.toNat = c.toNat := rfl
        have h2 : d.val.toNat = d.toNat := rfl
        omega

/-- C40: comparing buffers is comparing the bytes they hold. -/
theorem cmp_spec {a b : Buf} (ha : Inv a) (hb : Inv b) : cmp a b = 0 ↔ content a = content b := by
  have h1 := ha.mem; have h2 := ha.len; have h3 := hb.mem; have h4 := hb.len
  unfold cmp content
  split
  · next h =>
    constructor
    · intro h'; omega
    · intro h'
      have := congrArg List.length h'
      simp at this; omega
  · next h =>
    simp only [ne_eq, Decidable.not_not] at h
    split
    · next h0 => simp [h0, ← h]
    · rw [memcmp_eq_zero _ _ (by simp; omega), h]

/-- C40: `buffer_str` gives the contents as a C string. -/
theorem str_spec {b : Buf} (hb : Inv b) (a : Alloc) :
    ∃ s b', str b a = some (s, b') ∧ Inv b' ∧
      match s with
      | some m => content b' = [] ∧
          m.takeWhile (· ≠ '\x00') = (content b).takeWhile (· ≠ '\x00') ∧ '\x00' ∈ m
      | none => content b' = content b := by
  have h1 := hb.mem; have h2 := hb.len
  have hrel : ∀ b : Buf, Inv (release b).2 ∧ content (release b).2 = [] := by
    intro b
    exact ⟨⟨rfl, Nat.le_refl _, by unfold ULONG_MAX; simp [release]⟩, rfl⟩
  have hpre : ∀ (m c d : List Char), m = c ++ d → '\x00' ∈ c →
      m.takeWhile (· ≠ '\x00') = c.takeWhile (· ≠ '\x00') := by
    intro m c d e hz
    subst e
    induction c with
    | nil => simp at hz
    | cons x c ih =>
      by_cases hx : x = '\x00'
      · simp [hx]
      · simp [Ne.symm hx] at hz
        simp [hx]
        simpa using ih hz
  have hput : ∃ s b', (match putc b '\x00' a with
      | none => none
      | some (b, true) => some (none, b)
      | some (b, false) => some (some (release b).1, (release b).2)) = some (s, b') ∧ Inv b' ∧
      match s with
      | some m => content b' = [] ∧
          m.takeWhile (· ≠ '\x00') = (content b).takeWhile (· ≠ '\x00') ∧ '\x00' ∈ m
      | none => content b' = content b := by
    unfold putc
    obtain ⟨b', e, hp, hi, hc⟩ := puts_spec hb ['\x00'] a
    rw [hp]
    cases e with
    | true => exact ⟨none, b', rfl, hi, by simpa using hc⟩
    | false =>
      refine ⟨some b'.mem, _, rfl, (hrel b').1, (hrel b').2, ?_, ?_⟩
      · simp at hc
        have e1 : b'.mem = (content b ++ ['\x00']) ++ b'.mem.drop b'.len := by
          rw [← hc]; exact (List.take_append_drop ..).symm
        rw [hpre _ _ _ e1 (by simp)]
        have : ∀ c : List Char, (c ++ ['\x00']).takeWhile (· ≠ '\x00') = c.takeWhile (· ≠ '\x00') := by
          intro c
          induction c with
          | nil => simp
          | cons x c ih =>
            by_cases hx : x = '\x00'
            · simp [hx]
            · simp [hx]
              simpa using ih
        exact this _
      · simp at hc
        have : '\x00' ∈ content b' := by rw [hc]; simp
        exact List.mem_of_mem_take this
  unfold str
  by_cases h0 : b.len = 0
  · rw [if_pos h0]
    exact hput
  · rw [if_neg h0]
    have hlt : b.len - 1 < b.mem.length := by omega
    rw [List.getElem?_eq_getElem hlt]
    simp only [Option.map_some]
    by_cases hz : b.mem[b.len - 1] = '\x00'
    · simp only [hz, ne_eq, not_true_eq_false, decide_false]
      refine ⟨_, _, rfl, (hrel b).1, (hrel b).2, ?_, ?_⟩
      · apply hpre _ _ (b.mem.drop b.len) (List.take_append_drop ..).symm
        apply List.mem_iff_getElem.mpr
        exact ⟨b.len - 1, by simp; omega, by simpa using hz⟩
      · exact hz ▸ List.getElem_mem hlt
    · simp only [hz, ne_eq, not_false_eq_true, decide_true]
      exact hput

/-- Appending operations. -/
inductive Op where
  | puts (s : List Char)
  | putc (c : Char)
  | printf (s : Option (List Char))
  | reset
  | pop (n : Nat)
  | reserve (n : Nat)

/-- Run one operation; `none` is undefined behaviour, the flag the error returned. -/
def Op.run (b : Buf) (op : Op) (a : Alloc) : Option (Buf × Bool) :=
  match op with
  | .puts s => Buffer.puts b s a
  | .putc c => Buffer.putc b c a
  | .printf s => Buffer.printf b s a
  | .reset => some (Buffer.reset b, false)
  | .pop n => some ((Buffer.pop b n).1, false)
  | .reserve n => some (Buffer.reserve b n a)

/-- The same operation on a byte string. -/
def Op.spec (s : List Char) (op : Op) : List Char :=
  match op with
  | .puts t => s ++ t
  | .putc c => s ++ [c]
  | .printf t => s ++ t.getD []
  | .reset => []
  | .pop n => s.take (s.length - n)
  | .reserve _ => s

/-- Run a history, recording which operations failed. -/
def runAll (b : Buf) : List (Op × Alloc) → Option (Buf × List Bool)
  | [] => some (b, [])
  | (op, a) :: ops =>
    match op.run b a with
    | none => none
    | some (b, e) => (runAll b ops).map fun r => (r.1, e :: r.2)

/-- The byte string after the operations that did not fail. -/
def specAll (s : List Char) : List (Op × Bool) → List Char
  | [] => s
  | (op, e) :: ops => specAll (if e then s else op.spec s) ops

/-- C40: whatever the history and whenever memory runs out, there is no access out of
bounds, and the buffer holds what the same history gives on a byte string when the
operations that reported an error are left out. -/
theorem buffer_history (b : Buf) (hb : Inv b) (ops : List (Op × Alloc)) :
    ∃ b' es, runAll b ops = some (b', es) ∧ Inv b' ∧ es.length = ops.length ∧
      content b' = specAll (content b) ((ops.map Prod.fst).zip es) := by
  induction ops generalizing b with
  | nil => exact ⟨b, [], rfl, hb, rfl, rfl⟩
  | cons o ops ih =>
    obtain ⟨op, a⟩ := o
    have step : ∃ b' e, op.run b a = some (b', e) ∧ Inv b' ∧
        content b' = if e then content b else op.spec (content b) := by
      cases op with
      | puts s => exact puts_spec hb s a
      | putc c => exact puts_spec hb [c] a
      | printf s => obtain ⟨b', e, h1, h2, _, h3⟩ := printf_spec hb s a; exact ⟨b', e, h1, h2, h3⟩
      | reset => exact ⟨_, false, rfl, ⟨hb.mem, Nat.zero_le _, hb.max⟩, by simp [content, reset, Op.spec]⟩
      | pop n => exact ⟨_, false, rfl, (pop_spec hb n).1, by simpa [Op.spec] using (pop_spec hb n).2.2⟩
      | reserve n =>
        obtain ⟨h1, h2, _⟩ := reserve_spec hb n a
        refine ⟨(Buffer.reserve b n a).1, (Buffer.reserve b n a).2, rfl, h1, ?_⟩
        rw [h2, Op.spec, ite_self]
    obtain ⟨b1, e, h1, h2, h3⟩ := step
    obtain ⟨b', es, h4, h5, h6, h7⟩ := ih b1 h2
    refine ⟨b', e :: es, by simp [runAll, h1, h4], h5, by simp [h6], ?_⟩
    simp only [List.map_cons, List.zip_cons_cons, specAll]
    rw [h7, h3]

theorem alloc_inv {n : Nat} {a : Alloc} {b : Buf} (h : alloc n a = some b) :
    Inv b ∧ content b = [] ∧ n ≤ b.siz ∧ 0 < b.siz := by
  unfold alloc at h
  have hi : Inv { mem := [], siz := 0, len := 0 } := ⟨rfl, Nat.le_refl _, by unfold ULONG_MAX; simp⟩
  obtain ⟨h1, h2, h3, h4, h5, h6⟩ := reserve_spec hi n a
  simp only at h
  split at h
  · simp at h
  · next he =>
    simp at h
    rw [← h]
    exact ⟨h1, by rw [h2]; rfl, by simpa using (h6 (by simpa using he)).1, (h6 (by simpa using he)).2⟩

/-- A new buffer meets the hypothesis of `buffer_history` by `alloc_inv`; it grows when
needed and survives a failing allocation. -/
example : (alloc 3 ⟨false, fun _ => 'x'⟩).bind (fun b =>
    (runAll b [(.puts "hello, ".toList, ⟨false, fun _ => 'y'⟩),
      (.puts "0123456789".toList, ⟨true, fun _ => 'z'⟩),
      (.puts "0123456789".toList, ⟨false, fun _ => 'z'⟩), (.pop 3, ⟨true, fun _ => 'x'⟩)]).map
        (fun r => (content r.1, r.2))) = some ("hello, 0123456".toList, [false, true, false, false]) := by
  decide +kernel

/-- Lines of a text; a last line without line feed counts, and a line ends at a NUL. -/
def lines : List Char → List (List Char)
  | [] => []
  | s@(_ :: _) =>
    let l := s.takeWhile (· ≠ '\n')
    l.takeWhile (· ≠ '\x00') :: lines (s.drop (l.length + 1))
termination_by s => s.length

/-- C40: reading line by line gives the lines. -/
theorem getlines_spec {b : Buf} (hb : Inv b) : getlines b 0 = lines (content b) := by
  have h1 := hb.mem; have h2 := hb.len
  have : ∀ (n off : Nat), b.len - off ≤ n → getlines b off = lines ((content b).drop off) := by
    intro n
    induction n with
    | zero =>
      intro off hn
      rw [getlines]
      have : getline b off = none := by unfold getline; rw [if_pos (by omega)]
      split
      · have : (content b).drop off = [] := by simp [content]; omega
        rw [this, lines]
      · next l o e => rw [this] at e; simp at e
    | succ n ih =>
      intro off hn
      rw [getlines]
      by_cases ho : off ≥ b.len
      · have : getline b off = none := by unfold getline; rw [if_pos ho]
        split
        · have : (content b).drop off = [] := by simp [content]; omega
          rw [this, lines]
        · next l o e => rw [this] at e; simp at e
      · have e : getline b off = some
            ((((b.mem.take b.len).drop off).takeWhile (· ≠ '\n')).takeWhile (· ≠ '\x00'),
              off + (((b.mem.take b.len).drop off).takeWhile (· ≠ '\n')).length + 1) := by
          unfold getline; rw [if_neg ho]
        split
        · next e' => rw [e'] at e; simp at e
        · next l o e' =>
          rw [e'] at e
          injection e with e
          injection e with e1 e2
          subst e1 e2
          have hne : (content b).drop off ≠ [] := by simp [content]; omega
          cases hs : (content b).drop off with
          | nil => exact absurd hs hne
          | cons c s =>
            rw [lines]
            have hs' : (b.mem.take b.len).drop off = c :: s := hs
            rw [hs']
            congr 1
            rw [ih _ (by omega), ← hs, List.drop_drop]
            congr 2
  simpa using this _ 0 (Nat.le_refl _)

/-- C04: reading a file into a buffer gives all of it, however the operating system
splits it up, and never asks for zero bytes, which would look like the end of the file. -/
theorem read_fd_spec (b : Buf) (hb : Inv b) (hroom : b.len < b.siz) (h2 : 2 ≤ b.siz) (data : List Char)
    (rs : List ReadReply) :
    match readLoop b data rs with
    | .running b' rest => Inv b' ∧ ∃ s, data = s ++ rest ∧ content b' = content b ++ s
    | .done b' => Inv b' ∧ content b' = content b ++ data
    | .error _ => True
    | .undefined => False := by
  induction rs generalizing b data with
  | nil => exact ⟨hb, [], by simp⟩
  | cons r rs ih =>
    have hmem := hb.mem
    unfold readLoop
    by_cases hf : r.fail
    · rw [if_pos hf]; trivial
    · rw [if_neg hf]
      simp only
      generalize hn : readCount (b.siz - b.len) data.length r.n = n
      have hnb : n ≤ b.siz - b.len ∧ n ≤ data.length ∧ (n = 0 → data.length = 0) := by
        rw [← hn]; unfold readCount; split <;> omega
      have htl : (data.take n).length = n := by simp; omega
      obtain ⟨m, e1, e2, e3, e4⟩ := write_spec (mem := b.mem) (off := b.len) (s := data.take n)
        (by omega)
      rw [e1]
      simp only
      by_cases h0 : n = 0
      · rw [if_pos h0]
        refine ⟨hb, ?_⟩
        rw [List.length_eq_zero_iff.mp (hnb.2.2 h0), List.append_nil]
      · rw [if_neg h0]
        have hb1 : Inv { b with mem := m, len := b.len + n } :=
          ⟨by simp; omega, by simp; omega, hb.max⟩
        have hc1 : content { b with mem := m, len := b.len + n } = content b ++ data.take n := by
          rw [htl] at e3
          exact e3
        obtain ⟨r1, r2, r3, r4, r5, r6⟩ := reserve_spec hb1 (b.siz / 2) r.alloc
        generalize hres : reserve { b with mem := m, len := b.len + n } (b.siz / 2) r.alloc = res at *
        by_cases he : res.2
        · rw [if_pos he]; trivial
        · rw [if_neg he]
          have r6 := r6 (by simpa using he)
          simp only at r3 r4 r6
          have ih := ih res.1 r1 (by omega) (by omega) (data.drop n)
          rw [r2, hc1] at ih
          split
          · next b' rest hr =>
            rw [hr] at ih
            obtain ⟨hi, s, hs1, hs2⟩ := ih
            refine ⟨hi, data.take n ++ s, ?_, by rw [hs2, List.append_assoc]⟩
            rw [List.append_assoc, ← hs1, List.take_append_drop]
          · next b' hr =>
            rw [hr] at ih
            refine ⟨ih.1, ?_⟩
            rw [ih.2, List.append_assoc, List.take_append_drop]
          · trivial
          · next hr => rw [hr] at ih; exact ih

/-- Three reads, with growth in between. -/
example : (match (alloc 0 ⟨false, fun _ => 'x'⟩) with
    | none => none
    | some b =>
      let a : ReadReply := ⟨false, 100, ⟨false, fun _ => 'y'⟩⟩
      match readLoop b "0123456789abcdefghij".toList [a, a, a] with
      | .done b => some (content b)
      | _ => none) = some "0123456789abcdefghij".toList := by decide +kernel

end Knfmt.Buffer
