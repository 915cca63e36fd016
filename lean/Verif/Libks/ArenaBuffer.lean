import Verif.Libks.Arena
import Verif.Libks.Buffer
/-!
# libks/arena-buffer.c

Buffers (libks/buffer.c) whose memory comes from an arena (libks/arena.c). Bytes are numbers. The fields of
`struct buffer` are kept beside the memory of the arena; its 56 bytes are allocated there all the same. The callback
for `free` does nothing without AddressSanitizer (libks/arena-buffer.c:91-95).
-/
namespace Knfmt.ArenaBuffer
open Knfmt.Arena (Arena Scope Obj Mem Res MallocOk arenaMalloc arenaRealloc arenaAlloc)

/-- `struct buffer`, libks/buffer.c:30-35, with the scope that `arena_buffer_alloc` stores as argument of the
callbacks. A null `ptr` is address 0. `released` marks a string obtained from `buffer_str`, which is not a buffer. -/
structure Buf where
  scope : Scope
  hdr : Nat
  ptr : Nat
  siz : Nat
  len : Nat
  released : Bool
deriving DecidableEq, Repr

/-- The allocation holding the bytes. -/
def Buf.region (b : Buf) : Obj := ⟨b.ptr, b.siz, b.scope.id⟩

/-- `sizeof(struct buffer)`, libks/buffer.c:30-35 and libks/buffer.h:26-31. -/
def STRUCT : Nat := 56

/-- `callback_realloc`, libks/arena-buffer.c:83-89: the scope is the one the buffer was allocated in. -/
def callbackRealloc (st : Arena.State) (b : Buf) (new : Nat) (al : Nat → Option Nat) : Res (Arena.State × Nat) :=
  match arenaRealloc st.arena b.scope st.mem b.ptr b.siz new al with
  | .ok (a, m, some p) =>
    .ok ({ st with arena := a, mem := m, objs := ⟨p, new, b.scope.id⟩ :: st.objs.erase b.region }, p)
  | .ok (_, _, none) => .undefined
  | .exit => .exit
  | .trap => .trap
  | .undefined => .undefined

/-- `buffer_reserve`, libks/buffer.c:306-335. The flag is the returned error. -/
def reserve (st : Arena.State) (b : Buf) (len : Nat) (al : Nat → Option Nat) : Res (Arena.State × Buf × Bool) :=
  if len > Buffer.ULONG_MAX - b.len then .ok (st, b, true)
  else if b.siz > 0 ∧ b.siz ≥ b.len + len then .ok (st, b, false)
  else
    match Buffer.grow (if b.siz = 0 then 16 else b.siz) (b.len + len) (by split <;> omega) with
    | none => .ok (st, b, true)
    | some newsiz =>
      match callbackRealloc st b newsiz al with
      | .ok (st, p) => .ok (st, { b with ptr := p, siz := newsiz }, false)
      | .exit => .exit
      | .trap => .trap
      | .undefined => .undefined

/-- `memcpy(3)` from a string of the program to `dst`. -/
def store (m : Mem) (dst : Nat) (s : List Nat) : Mem :=
  fun x => if dst ≤ x ∧ x < dst + s.length then s.getD (x - dst) 0 else m x

/-- The bytes `s` put behind the bytes in use; outside the allocation it is undefined behaviour. -/
def fill (st : Arena.State) (b : Buf) (s : List Nat) : Res Arena.State :=
  if b.len + s.length > b.siz then .undefined
  else .ok { st with mem := store st.mem (b.ptr + b.len) s }

/-- `buffer_puts`, libks/buffer.c:141-151. -/
def puts (st : Arena.State) (b : Buf) (s : List Nat) (al : Nat → Option Nat) : Res (Arena.State × Buf × Bool) :=
  if s.length = 0 then .ok (st, b, false)
  else
    match reserve st b s.length al with
    | .ok (st, b, true) => .ok (st, b, true)
    | .ok (st, b, false) =>
      match fill st b s with
      | .ok st => .ok (st, { b with len := b.len + s.length }, false)
      | .exit => .exit
      | .trap => .trap
      | .undefined => .undefined
    | .exit => .exit
    | .trap => .trap
    | .undefined => .undefined

/-- `buffer_vprintf`, libks/buffer.c:171-195. `s` is what the format expands to, without the NUL behind it. Since
`buffer_reserve` made room for both, the second `vsnprintf` writes all of it. -/
def printf (st : Arena.State) (b : Buf) (s : List Nat) (al : Nat → Option Nat) : Res (Arena.State × Buf × Bool) :=
  match reserve st b (s.length + 1) al with
  | .ok (st, b, true) => .ok (st, b, true)
  | .ok (st, b, false) =>
    match fill st b (s ++ [0]) with
    | .ok st => .ok (st, { b with len := b.len + s.length }, false)
    | .exit => .exit
    | .trap => .trap
    | .undefined => .undefined
  | .exit => .exit
  | .trap => .trap
  | .undefined => .undefined

/-- One round of the loop of `buffer_read_fd_impl`, libks/buffer.c:116-127, in which `read(2)` delivers `s`. -/
def readOnce (st : Arena.State) (b : Buf) (s : List Nat) (al : Nat → Option Nat) : Res (Arena.State × Buf × Bool) :=
  match fill st b s with
  | .ok st => reserve st { b with len := b.len + s.length } (b.siz / 2) al
  | .exit => .exit
  | .trap => .trap
  | .undefined => .undefined

/-- `buffer_alloc_impl` called from `arena_buffer_alloc`, libks/buffer.c:53-68 and libks/arena-buffer.c:29-38. -/
def alloc (st : Arena.State) (initSize : Nat) (al al' : Nat → Option Nat) : Res (Arena.State × Buf × Bool) :=
  match st.scopes with
  | [] => .undefined
  | sc :: _ =>
    match arenaMalloc st.arena sc STRUCT al with
    | .ok (a, p) =>
      reserve { st with arena := a, objs := ⟨p, STRUCT, sc.id⟩ :: st.objs }
        { scope := sc, hdr := p, ptr := 0, siz := 0, len := 0, released := false } initSize al'
    | .exit => .exit
    | .trap => .trap
    | .undefined => .undefined

/-- `buffer_release`, libks/buffer.c:197-207: the string and the emptied buffer. -/
def release (b : Buf) : Buf × Buf := ({ b with released := true }, { b with ptr := 0, siz := 0, len := 0 })

/-- `buffer_str`, libks/buffer.c:209-217: the string, unless it is `NULL`, and the buffer. -/
def str (st : Arena.State) (b : Buf) (al : Nat → Option Nat) : Res (Arena.State × Option Buf × Buf) :=
  if b.len = 0 ∨ st.mem (b.ptr + (b.len - 1)) ≠ 0 then
    match puts st b [0] al with
    | .ok (st, b, true) => .ok (st, none, b)
    | .ok (st, b, false) => .ok (st, some (release b).1, (release b).2)
    | .exit => .exit
    | .trap => .trap
    | .undefined => .undefined
  else .ok (st, some (release b).1, (release b).2)

/-- A program: the arena, and buffers and strings under the names the program gives them. -/
structure State where
  st : Arena.State
  bufs : Nat → Option Buf

/-- What a program may do. -/
inductive Op where
  /-- something with the arena itself -/
  | arena (op : Arena.Op)
  | alloc (id initSize : Nat) (al al' : Nat → Option Nat)
  | puts (id : Nat) (s : List Nat) (al : Nat → Option Nat)
  | printf (id : Nat) (s : List Nat) (al : Nat → Option Nat)
  | read (id : Nat) (s : List Nat) (al : Nat → Option Nat)
  | reset (id : Nat)
  | pop (id n : Nat)
  /-- the string obtained gets the name `id'` -/
  | str (id id' : Nat) (al : Nat → Option Nat)

def set (f : Nat → Option Buf) (id : Nat) (b : Option Buf) : Nat → Option Buf := fun i => if i = id then b else f i

/-- The buffer `id` changed by a function that may fail. -/
def change (s : State) (id : Nat) (f : Buf → Res (Arena.State × Buf × Bool)) : Res State :=
  match s.bufs id with
  | none => .undefined
  | some b =>
    match f b with
    | .ok (st, b, _) => .ok { st := st, bufs := set s.bufs id (some b) }
    | .exit => .exit
    | .trap => .trap
    | .undefined => .undefined

/-- What outlives leaving the innermost scope. -/
def survivors (st : Arena.State) (f : Nat → Option Buf) : Nat → Option Buf :=
  match st.scopes with
  | [] => f
  | sc :: _ => fun i => (f i).filter (fun b => b.scope.id < sc.id)

def Op.run (s : State) : Op → Res State
  | .arena op =>
    match op.run s.st with
    | .ok st => .ok { st := st, bufs := match op with | .leave => survivors s.st s.bufs | _ => s.bufs }
    | .exit => .exit
    | .trap => .trap
    | .undefined => .undefined
  | .alloc id n al al' =>
    match ArenaBuffer.alloc s.st n al al' with
    | .ok (st, b, false) => .ok { st := st, bufs := set s.bufs id (some b) }
    | .ok (st, _, true) => .ok { st := st, bufs := s.bufs }
    | .exit => .exit
    | .trap => .trap
    | .undefined => .undefined
  | .puts id t al => change s id fun b => ArenaBuffer.puts s.st b t al
  | .printf id t al => change s id fun b => ArenaBuffer.printf s.st b t al
  | .read id t al => change s id fun b => readOnce s.st b t al
  -- `buffer_reset`, libks/buffer.c:219-223
  | .reset id => change s id fun b => .ok (s.st, { b with len := 0 }, false)
  -- `buffer_pop`, libks/buffer.c:225-232
  | .pop id n => change s id fun b => .ok (s.st, { b with len := b.len - if n > b.len then b.len else n }, false)
  | .str id id' al =>
    match s.bufs id with
    | none => .undefined
    | some b =>
      match ArenaBuffer.str s.st b al with
      | .ok (st, r, b) => .ok { st := st, bufs := set (set s.bufs id (some b)) id' r }
      | .exit => .exit
      | .trap => .trap
      | .undefined => .undefined

/-- A program run; `exit` ends it. -/
def runs (s : State) : List Op → Res State
  | [] => .ok s
  | op :: ops =>
    match op.run s with
    | .ok s => runs s ops
    | .exit => .exit
    | .trap => .trap
    | .undefined => .undefined

/-- Nothing allocated yet. -/
def start (a : Arena) : State := { st := Arena.start a, bufs := fun _ => none }

/-! ## Specification -/

/-- The text in a buffer, or of a string, as read through its pointer and its length. -/
def shown (s : State) (id : Nat) : Option (List Nat) :=
  (s.bufs id).map fun b => (List.range b.len).map fun i => s.st.mem (b.ptr + i)

/-- What should be in the buffers: each has the number of scopes open when it was allocated and its text. -/
structure Ideal where
  depth : Nat
  texts : Nat → Option (Nat × List Nat)

/-- The text of one buffer changed. -/
def Ideal.edit (I : Ideal) (id : Nat) (f : List Nat → List Nat) : Ideal :=
  { I with texts := fun i => if i = id then (I.texts id).map fun x => (x.1, f x.2) else I.texts i }

/-- A string ends with a NUL. -/
def terminated (t : List Nat) : List Nat := if t.getLast? = some 0 then t else t ++ [0]

/-- The effect of an operation on the texts. -/
def Op.ideal (I : Ideal) : Op → Ideal
  | .arena .enter => { I with depth := I.depth + 1 }
  | .arena .leave => { depth := I.depth - 1, texts := fun i => (I.texts i).filter fun x => x.1 < I.depth }
  | .arena _ => I
  | .alloc id _ _ _ => { I with texts := fun i => if i = id then some (I.depth, []) else I.texts i }
  | .puts id s _ => I.edit id (· ++ s)
  | .printf id s _ => I.edit id (· ++ s)
  | .read id s _ => I.edit id (· ++ s)
  | .reset id => I.edit id fun _ => []
  | .pop id n => I.edit id fun t => t.take (t.length - n)
  | .str id id' _ =>
    { I with texts := fun i =>
        if i = id' then (I.texts id).map fun x => (x.1, terminated x.2)
        else if i = id then (I.texts id).map fun x => (x.1, [])
        else I.texts i }

/-- The texts after a program. -/
def ideal (ops : List Op) : Ideal := ops.foldl Op.ideal ⟨0, fun _ => none⟩

/-- `id` is the name of a buffer. -/
def IsBuf (s : State) (id : Nat) : Prop := ∃ b, s.bufs id = some b ∧ b.released = false

/-- The room asked for is less than half of the address space. -/
def Small (s : State) (id n : Nat) : Prop := ∀ b, s.bufs id = some b → b.len + n ≤ 2 ^ 63

/-- The program keeps away from the memory of its buffers and strings, except through them. -/
def Foreign (s : State) (o : Obj) : Prop := ∀ id b, s.bufs id = some b → o ≠ b.region ∧ o.addr ≠ b.hdr

/-- When an operation is allowed: names in use are not given twice, texts are not longer than memory allows,
`malloc(3)` and `read(2)` keep their promises. -/
def Op.Pre (s : State) : Op → Prop
  | .arena op => op.Pre s.st ∧ match op with
    | .realloc o _ _ => Foreign s o
    | .write o _ _ => Foreign s o
    | _ => True
  | .alloc id n al al' => s.st.scopes ≠ [] ∧ s.bufs id = none ∧ n ≤ 2 ^ 63 ∧ MallocOk s.st.arena.frames al ∧
      ∀ st', (Arena.Op.malloc STRUCT al).run s.st = .ok st' → MallocOk st'.arena.frames al'
  | .puts id t al => IsBuf s id ∧ Small s id t.length ∧ MallocOk s.st.arena.frames al
  | .printf id t al => IsBuf s id ∧ Small s id (t.length + 1) ∧ MallocOk s.st.arena.frames al
  | .read id t al => IsBuf s id ∧ MallocOk s.st.arena.frames al ∧
      ∀ b, s.bufs id = some b → t.length ≤ b.siz - b.len ∧ b.len + t.length + b.siz / 2 ≤ 2 ^ 63 ∧ t ≠ []
  | .reset id => IsBuf s id
  | .pop id _ => IsBuf s id
  | .str id id' al => IsBuf s id ∧ Small s id 1 ∧ s.bufs id' = none ∧ MallocOk s.st.arena.frames al

/-- Buffers are made larger only while the scope they were allocated in is the innermost one. -/
def Op.Innermost (s : State) : Op → Prop
  | .arena op => op.Innermost s.st
  | .puts id t _ => ∀ b, s.bufs id = some b → b.len + t.length ≤ b.siz ∨ b.scope.id = s.st.arena.refs
  | .printf id t _ => ∀ b, s.bufs id = some b → b.len + t.length + 1 ≤ b.siz ∨ b.scope.id = s.st.arena.refs
  | .read id t _ => ∀ b, s.bufs id = some b → b.len + t.length + b.siz / 2 ≤ b.siz ∨ b.scope.id = s.st.arena.refs
  | .str id _ _ => ∀ b, s.bufs id = some b → b.len + 1 ≤ b.siz ∨ b.scope.id = s.st.arena.refs
  | _ => True

/-- Every operation is allowed when its turn comes. -/
def Allowed (P : State → Op → Prop) (s : State) : List Op → Prop
  | [] => True
  | op :: ops => P s op ∧ ∀ s', op.run s = .ok s' → Allowed P s' ops

/-- **C88**: whatever a program does with an arena and with buffers allocated in it, it never traps and never reaches
undefined behaviour, and each buffer and each string made from one holds exactly what was put there, until the scope it
belongs to is left. -/
def C88_statement (P : State → Op → Prop) : Prop :=
  ∀ (page : Nat) (mem : Option Nat) (a : Arena) (ops : List Op), page % 8 = 0 →
    (∀ b, mem = some b → 0 < b ∧ b % 8 = 0) → arenaAlloc page mem = .ok a → Allowed P (start a) ops →
    runs (start a) ops = .exit ∨
    ∃ s, runs (start a) ops = .ok s ∧ Arena.Safe s.st ∧ ∀ id, shown s id = ((ideal ops).texts id).map (·.2)

/-! ## Proofs -/

theorem grow_ok {newsiz newlen : Nat} {h : 0 < newsiz} (hl : newlen ≤ 2 ^ 63) :
    ∃ r, Buffer.grow newsiz newlen h = some r := by
  induction newsiz, h using Buffer.grow.induct newlen with
  | case1 newsiz h hlt hgt => unfold Buffer.ULONG_MAX at hgt; omega
  | case2 newsiz h hlt hgt ih => rw [Buffer.grow]; simp only [hlt, hgt, if_true, if_false]; exact ih
  | case3 newsiz h hlt => rw [Buffer.grow]; simp only [hlt, if_false]; exact ⟨_, rfl⟩

theorem grow_ge {newsiz newlen r : Nat} {h : 0 < newsiz} (e : Buffer.grow newsiz newlen h = some r) :
    newlen ≤ r ∧ newsiz ≤ r := by
  induction newsiz, h using Buffer.grow.induct newlen with
  | case1 newsiz h hlt hgt => rw [Buffer.grow] at e; simp [hlt, hgt] at e
  | case2 newsiz h hlt hgt ih =>
    rw [Buffer.grow] at e
    simp only [hlt, hgt, if_true, if_false] at e
    have := ih e
    omega
  | case3 newsiz h hlt =>
    rw [Buffer.grow] at e
    simp only [hlt, if_false, Option.some.injEq] at e
    omega

/-- Only the number of a scope matters. -/
theorem realloc_scope {a : Arena} {s t : Scope} {m : Mem} {p o n : Nat} {al} (h : s.id = t.id) :
    arenaRealloc a s m p o n al = arenaRealloc a t m p o n al := by
  unfold arenaRealloc arenaMalloc
  rw [h]

/-- A buffer holds a text. -/
structure Holds (st : Arena.State) (b : Buf) (t : List Nat) : Prop where
  len : b.len = t.length
  fits : b.len ≤ b.siz
  null : b.siz = 0 → b.ptr = 0
  live : 0 < b.siz → b.region ∈ st.objs
  bytes : ∀ i, i < t.length → st.mem (b.ptr + i) = t.getD i 0

/-- What is left alone between two states, with one region replaced by another. -/
structure Step (st : Arena.State) (o o' : Obj) (st' : Arena.State) : Prop where
  inv : ∀ saved, Arena.Inv st saved → Arena.Inv st' saved
  scopes : st'.scopes = st.scopes
  refs : st'.arena.refs = st.arena.refs
  kept : ∀ p ∈ st.objs, p ≠ o → 0 < p.size → p ∈ st'.objs ∧ p ≠ o' ∧
    ∀ i, i < p.size → st'.mem (p.addr + i) = st.mem (p.addr + i)

theorem Step.refl (st : Arena.State) (o : Obj) : Step st o o st :=
  ⟨fun _ h => h, rfl, rfl, fun _ hp h _ => ⟨hp, h, fun _ _ => rfl⟩⟩

theorem Step.trans {st st' st'' : Arena.State} {o o' o'' : Obj} (h : Step st o o' st') (h' : Step st' o' o'' st'') :
    Step st o o'' st'' := by
  refine ⟨fun s hs => h'.inv s (h.inv s hs), h'.scopes.trans h.scopes, h'.refs.trans h.refs, ?_⟩
  intro p hp hne hz
  obtain ⟨h1, h2, h3⟩ := h.kept p hp hne hz
  obtain ⟨h4, h5, h6⟩ := h'.kept p h1 h2 hz
  exact ⟨h4, h5, fun i hi => (h6 i hi).trans (h3 i hi)⟩

/-- Two allocations that share a byte are the same. -/
theorem same_obj {st : Arena.State} {saved} (hI : Arena.Inv st saved) {o p : Obj} (ho : o ∈ st.objs) (hp : p ∈ st.objs)
    (hne : p ≠ o) : Arena.Disjoint o.addr o.size p.addr p.size :=
  Arena.erase_disjoint ho hI.disj p ((List.mem_erase_of_ne hne).2 hp)

theorem addr_pos {st : Arena.State} {saved} (hI : Arena.Inv st saved) {o : Obj} (ho : o ∈ st.objs) : 0 < o.addr := by
  obtain ⟨_, f, hf, h1, _⟩ := hI.good.inside o ho
  unfold Arena.HDR at h1
  omega

/-- Making room. -/
theorem reserve_spec {st : Arena.State} {saved} {b : Buf} {t : List Nat} {n : Nat} {al : Nat → Option Nat}
    (hI : Arena.Inv st saved) (hb : Holds st b t) (hsc : st.scopes ≠ []) (hal : MallocOk st.arena.frames al)
    (hn : b.len + n ≤ 2 ^ 63) (hin : (0 < b.siz ∧ b.len + n ≤ b.siz) ∨ b.scope.id = st.arena.refs) :
    reserve st b n al = .exit ∨ ∃ st' p z, reserve st b n al = .ok (st', { b with ptr := p, siz := z }, false) ∧
      Step st b.region { b with ptr := p, siz := z }.region st' ∧ Holds st' { b with ptr := p, siz := z } t ∧
      b.len + n ≤ z ∧ 0 < z := by
  unfold reserve
  rw [if_neg (by unfold Buffer.ULONG_MAX; omega)]
  by_cases hroom : b.siz > 0 ∧ b.siz ≥ b.len + n
  · rw [if_pos hroom]
    exact .inr ⟨st, b.ptr, b.siz, rfl, Step.refl _ _, hb, hroom.2, hroom.1⟩
  rw [if_neg hroom]
  have hid : b.scope.id = st.arena.refs := by
    rcases hin with h | h
    · exact absurd ⟨h.1, h.2⟩ hroom
    · exact h
  obtain ⟨z, hz⟩ := grow_ok (newsiz := if b.siz = 0 then 16 else b.siz) (h := by split <;> omega) hn
  have hge := grow_ge hz
  rw [hz]
  simp only []
  cases hscs : st.scopes with
  | nil => exact absurd hscs hsc
  | cons sc scs =>
    have hid' : sc.id = b.scope.id := by
      have h1 := hI.good
      have h2 := hI.refs
      rw [hscs] at h1 h2
      have := h1.id
      simp at h2
      omega
    have hz0 : 0 < z := by
      have := hge.2
      split at this <;> omega
    by_cases h0 : b.siz = 0
    · -- nothing allocated yet
      have hp0 := hb.null h0
      have hr : callbackRealloc st b z al = match (Arena.Op.malloc z al).run st with
          | .ok st' => match st'.objs with | [] => .undefined | o :: _ => .ok (st', o.addr)
          | .exit => .exit | .trap => .trap | .undefined => .undefined := by
        unfold callbackRealloc
        rw [realloc_scope hid'.symm, hp0, h0]
        have he : st.objs.erase b.region = st.objs := by
          apply List.erase_of_not_mem
          intro hm
          have := addr_pos hI hm
          simp [Buf.region, hp0] at this
        simp only [arenaRealloc, Arena.Op.run, hscs, he]
        simp only [Nat.zero_mod, ne_eq, not_true_eq_false, if_false]
        cases arenaMalloc st.arena sc z al <;> simp [hid']
      rw [hr]
      rcases Arena.step (op := .malloc z al) hI ⟨hsc, hal⟩ trivial with he | ⟨st', he, hI', hS, _, hsh⟩
      · left; rw [he]
      · right
        obtain ⟨o, ho, hoz⟩ := hS.malloced z al rfl
        have hos : o.scope = b.scope.id := by
          simp only [Arena.Op.run, hscs] at he
          cases hm : arenaMalloc st.arena sc z al with
          | ok v =>
            rw [hm] at he
            injection he with he
            subst he
            simp only [List.cons.injEq] at ho
            rw [← ho.1]
            exact hid'
          | _ => rw [hm] at he; cases he
        refine ⟨st', o.addr, z, by rw [he]; simp only [ho], ⟨?_, hsh.keep (by simp) (by simp), ?_, ?_⟩, ?_, hge.1, hz0⟩
        · intro sv hsv
          rcases Arena.step (op := .malloc z al) hsv ⟨hsc, hal⟩ trivial with he' | ⟨st'', he', hI'', _⟩
          · rw [he'] at he; cases he
          · rw [he'] at he; injection he with he; subst he; exact hI''
        · rw [hI'.refs, hI.refs, hsh.keep (by simp) (by simp)]
        · intro p hp _ hpz
          refine ⟨hS.live p hp, ?_, fun i hi => hS.contents p hp i hi⟩
          have hd := hI'.disj
          rw [ho, List.pairwise_cons] at hd
          have := hd.1 p hp p.addr
          intro hpe
          rw [hpe] at this
          simp only [Buf.region] at this
          omega
        · have ht : t = [] := by
            have h1 := hb.len
            have h2 := hb.fits
            exact List.length_eq_zero_iff.1 (by omega)
          subst ht
          refine ⟨hb.len, by have := hb.fits; simp only; omega, by simp only; omega, ?_, by simp⟩
          intro _
          rw [ho]
          simp only [Buf.region, List.mem_cons]
          left
          cases o
          simp only at hoz hos ⊢
          rw [hoz, hos]
    · have hlive := hb.live (by omega)
      have hr : callbackRealloc st b z al = match (Arena.Op.realloc b.region z al).run st with
          | .ok st' => match st'.objs with | [] => .undefined | o :: _ => .ok (st', o.addr)
          | .exit => .exit | .trap => .trap | .undefined => .undefined := by
        unfold callbackRealloc
        rw [realloc_scope hid'.symm]
        simp only [Arena.Op.run, hscs, Buf.region]
        cases arenaRealloc st.arena sc st.mem b.ptr b.siz z al with
        | ok v =>
          obtain ⟨a, m, _ | _⟩ := v
          · rfl
          · simp only [hid', ite_self]
        | _ => rfl
      rw [hr]
      have hpre : (Arena.Op.realloc b.region z al).Pre st := ⟨hsc, hal, hlive⟩
      have hinn : (Arena.Op.realloc b.region z al).Innermost st := .inr hid
      rcases Arena.step hI hpre hinn with he | ⟨st', he, hI', hS, _, hsh⟩
      · left; rw [he]
      · right
        obtain ⟨o, ho, hoz, hoc⟩ := hS.realloced _ _ _ rfl
        have hos : o.scope = b.scope.id := by
          simp only [Arena.Op.run, hscs, Buf.region] at he
          cases hm : arenaRealloc st.arena sc st.mem b.ptr b.siz z al with
          | ok v =>
            obtain ⟨a, m, p⟩ := v
            rw [hm] at he
            cases p with
            | none => cases he
            | some p =>
              injection he with he
              subst he
              simp only [List.cons.injEq] at ho
              rw [← ho.1]
              simp only [hid', ite_self]
          | _ => rw [hm] at he; cases he
        refine ⟨st', o.addr, z, by rw [he]; simp only [ho], ⟨?_, hsh.keep (by simp) (by simp), ?_, ?_⟩, ?_, hge.1, hz0⟩
        · intro sv hsv
          rcases Arena.step hsv hpre hinn with he' | ⟨st'', he', hI'', _⟩
          · rw [he'] at he; cases he
          · rw [he'] at he; injection he with he; subst he; exact hI''
        · rw [hI'.refs, hI.refs, hsh.keep (by simp) (by simp)]
        · intro p hp hne hpz
          have hpo : p ∈ (Arena.Op.realloc b.region z al).others st := (List.mem_erase_of_ne hne).2 hp
          refine ⟨hS.live p hpo, ?_, fun i hi => hS.contents p hpo i hi⟩
          have hd := hI'.disj
          rw [ho, List.pairwise_cons] at hd
          have := hd.1 p hpo p.addr
          intro hpe
          rw [hpe] at this
          simp only [Buf.region] at this
          omega
        · have h1 := hb.len
          have h2 := hb.fits
          refine ⟨hb.len, by simp only; omega, by simp only; omega, ?_, ?_⟩
          · intro _
            rw [ho]
            simp only [Buf.region, List.mem_cons]
            left
            cases o
            simp only at hoz hos ⊢
            rw [hoz, hos]
          · intro i hi
            rw [← hb.bytes i hi]
            exact hoc i (by simp only [Buf.region]; omega) (by omega)

/-- Bytes put behind those in use. -/
theorem fill_spec {st : Arena.State} {saved} {b : Buf} {t u : List Nat} (hI : Arena.Inv st saved) (hb : Holds st b t)
    (hz : b.len + u.length ≤ b.siz) (hz0 : 0 < b.siz) : ∃ st', fill st b u = .ok st' ∧ Step st b.region b.region st' ∧
    ∀ k, k ≤ u.length → Holds st' { b with len := b.len + k } (t ++ u.take k) := by
  have hlive := hb.live hz0
  refine ⟨{ st with mem := store st.mem (b.ptr + b.len) u }, ?_, ⟨?_, rfl, rfl, ?_⟩, ?_⟩
  · unfold fill
    rw [if_neg (by omega)]
  · intro sv h
    exact ⟨h.good, h.disj, h.refs, h.fs8, h.fs0, h.sc⟩
  · intro p hp hne hpz
    refine ⟨hp, hne, ?_⟩
    intro i hi
    have := same_obj hI hlive hp hne (p.addr + i)
    simp only [store]
    rw [if_neg]
    intro h
    simp only [Buf.region] at this
    omega
  · intro k hk
    have hl := hb.len
    refine ⟨by simp only [List.length_append, List.length_take]; omega, by simp only; omega, hb.null, hb.live, ?_⟩
    intro i hi
    simp only [List.length_append, List.length_take] at hi
    simp only [store]
    by_cases hit : i < t.length
    · rw [if_neg (by omega), hb.bytes i hit, List.getD_eq_getElem?_getD, List.getD_eq_getElem?_getD,
        List.getElem?_append_left hit]
    · rw [if_pos (by omega), List.getD_eq_getElem?_getD, List.getD_eq_getElem?_getD, List.getElem?_append_right (by omega),
        List.getElem?_take_of_lt (by omega)]
      congr 2
      omega

/-- The states that belong together. -/
inductive Fits (st : Arena.State) (depth : Nat) : Option Buf → Option (Nat × List Nat) → Prop
  | none : Fits st depth none none
  | some (b x) : b.scope.id = x.1 + 1 → (0 < x.1 ∧ x.1 ≤ depth) → Holds st b x.2 → Fits st depth (some b) (some x)

structure Rel (s : State) (I : Ideal) : Prop where
  inv : ∃ saved, Arena.Inv s.st saved
  depth : I.depth = s.st.scopes.length
  texts : ∀ id, Fits s.st I.depth (s.bufs id) (I.texts id)
  apart : ∀ i j b c, i ≠ j → s.bufs i = some b → s.bufs j = some c → 0 < b.siz → b.region ≠ c.region

theorem Holds.keep {st st' : Arena.State} {b : Buf} {t : List Nat} (h : Holds st b t)
    (hk : 0 < b.siz → b.region ∈ st'.objs ∧ ∀ i, i < b.siz → st'.mem (b.ptr + i) = st.mem (b.ptr + i)) : Holds st' b t := by
  refine ⟨h.len, h.fits, h.null, fun hz => (hk hz).1, ?_⟩
  intro i hi
  have h1 := h.len
  have h2 := h.fits
  rw [(hk (by omega)).2 i (by omega)]
  exact h.bytes i hi

/-- One buffer changed. -/
theorem Rel.update {s : State} {I : Ideal} (h : Rel s I) {id : Nat} {b b' : Buf} {x : Nat × List Nat} {st' : Arena.State}
    {f : List Nat → List Nat} (hb : s.bufs id = some b) (hx : I.texts id = some x)
    (hs : Step s.st b.region b'.region st') (hh : Holds st' b' (f x.2)) (hsc : b'.scope = b.scope) :
    Rel ⟨st', set s.bufs id (some b')⟩ (I.edit id f) := by
  obtain ⟨saved, hI⟩ := h.inv
  have hkeep : ∀ j c, j ≠ id → s.bufs j = some c → 0 < c.siz → c.region ∈ st'.objs ∧ c.region ≠ b'.region ∧
      ∀ i, i < c.siz → st'.mem (c.ptr + i) = s.st.mem (c.ptr + i) := by
    intro j c hj hc hz
    have hf := h.texts j
    rw [hc] at hf
    cases hI' : I.texts j with
    | none => rw [hI'] at hf; cases hf
    | some y =>
      rw [hI'] at hf
      cases hf with
      | some _ _ h1 h2 h3 => exact hs.kept c.region (h3.live hz) (h.apart j id c b hj hc hb hz) hz
  refine ⟨⟨saved, hs.inv saved hI⟩, by simp only [Ideal.edit]; rw [hs.scopes]; exact h.depth, ?_, ?_⟩
  · intro j
    simp only [set, Ideal.edit]
    by_cases hj : j = id
    · subst hj
      rw [if_pos rfl, if_pos rfl, hx]
      have hf := h.texts j
      rw [hb, hx] at hf
      cases hf with
      | some _ _ h1 h2 h3 => exact .some _ _ (by rw [hsc]; exact h1) h2 hh
    · rw [if_neg hj, if_neg hj]
      have hf := h.texts j
      cases hc : s.bufs j with
      | none =>
        rw [hc] at hf
        cases hI' : I.texts j with
        | none => exact .none
        | some y => rw [hI'] at hf; cases hf
      | some c =>
        rw [hc] at hf
        cases hI' : I.texts j with
        | none => rw [hI'] at hf; cases hf
        | some y =>
          rw [hI'] at hf
          cases hf with
          | some _ _ h1 h2 h3 =>
            exact .some _ _ h1 h2 (h3.keep fun hz => ⟨(hkeep j c hj hc hz).1, (hkeep j c hj hc hz).2.2⟩)
  · intro i j c d hij hc hd hz
    simp only [set] at hc hd
    by_cases hi : i = id
    · subst hi
      rw [if_pos rfl] at hc
      rw [if_neg (fun h => hij h.symm)] at hd
      injection hc with hc
      subst hc
      by_cases hdz : d.siz = 0
      · intro he
        have : b'.siz = d.siz := congrArg Obj.size he
        omega
      · exact fun he => (hkeep j d (fun h => hij h.symm) hd (by omega)).2.1 he.symm
    · rw [if_neg hi] at hc
      by_cases hj : j = id
      · subst hj
        rw [if_pos rfl] at hd
        injection hd with hd
        subst hd
        exact (hkeep i c hi hc hz).2.1
      · rw [if_neg hj] at hd
        exact h.apart i j c d hij hc hd hz

/-- The buffer an operation is about. -/
theorem Rel.at {s : State} {I : Ideal} (h : Rel s I) {id : Nat} {b : Buf} (hb : s.bufs id = some b) :
    ∃ x, I.texts id = some x ∧ b.scope.id = x.1 + 1 ∧ (0 < x.1 ∧ x.1 ≤ I.depth) ∧ Holds s.st b x.2 := by
  have hf := h.texts id
  rw [hb] at hf
  cases hI' : I.texts id with
  | none => rw [hI'] at hf; cases hf
  | some y =>
    rw [hI'] at hf
    cases hf with
    | some _ _ h1 h2 h3 => exact ⟨y, rfl, h1, h2, h3⟩

theorem Rel.scopes {s : State} {I : Ideal} (h : Rel s I) {id : Nat} {b : Buf} (hb : s.bufs id = some b) :
    s.st.scopes ≠ [] := by
  obtain ⟨x, _, _, hx, _⟩ := h.at hb
  have := h.depth
  intro h0
  rw [h0] at this
  simp at this
  omega

theorem puts_spec {st : Arena.State} {saved} {b : Buf} {t u : List Nat} {al : Nat → Option Nat}
    (hI : Arena.Inv st saved) (hb : Holds st b t) (hsc : st.scopes ≠ []) (hal : MallocOk st.arena.frames al)
    (hn : b.len + u.length ≤ 2 ^ 63) (hin : b.len + u.length ≤ b.siz ∨ b.scope.id = st.arena.refs) :
    puts st b u al = .exit ∨ ∃ st' b', puts st b u al = .ok (st', b', false) ∧
      Step st b.region b'.region st' ∧ Holds st' b' (t ++ u) ∧ b'.scope = b.scope ∧ b'.hdr = b.hdr ∧ b'.released = b.released ∧
      (0 < u.length → 0 < b'.siz) := by
  unfold puts
  by_cases hu : u.length = 0
  · rw [if_pos hu]
    have : u = [] := List.length_eq_zero_iff.1 hu
    subst this
    exact .inr ⟨st, b, rfl, Step.refl _ _, by simpa using hb, rfl, rfl, rfl, by simp⟩
  · rw [if_neg hu]
    rcases reserve_spec (n := u.length) hI hb hsc hal hn (by omega) with he | ⟨st1, p, z, he, hs1, hh1, hl, hz⟩
    · left; rw [he]
    · right
      rw [he]
      obtain ⟨st2, h1, h2, h3⟩ := fill_spec (u := u) (hs1.inv _ hI) hh1 hl hz
      simp only []
      rw [h1]
      refine ⟨st2, _, rfl, hs1.trans h2, ?_, rfl, rfl, rfl, fun _ => hz⟩
      have := h3 u.length (Nat.le_refl _)
      rw [List.take_length] at this
      exact this

theorem printf_spec {st : Arena.State} {saved} {b : Buf} {t u : List Nat} {al : Nat → Option Nat}
    (hI : Arena.Inv st saved) (hb : Holds st b t) (hsc : st.scopes ≠ []) (hal : MallocOk st.arena.frames al)
    (hn : b.len + (u.length + 1) ≤ 2 ^ 63) (hin : b.len + u.length + 1 ≤ b.siz ∨ b.scope.id = st.arena.refs) :
    printf st b u al = .exit ∨ ∃ st' b', printf st b u al = .ok (st', b', false) ∧
      Step st b.region b'.region st' ∧ Holds st' b' (t ++ u) ∧ b'.scope = b.scope := by
  unfold printf
  rcases reserve_spec (n := u.length + 1) hI hb hsc hal hn (by omega) with he | ⟨st1, p, z, he, hs1, hh1, hl, hz⟩
  · left; rw [he]
  · right
    rw [he]
    obtain ⟨st2, h1, h2, h3⟩ := fill_spec (u := u ++ [0]) (hs1.inv _ hI) hh1 (by simpa using hl) hz
    simp only []
    rw [h1]
    refine ⟨st2, _, rfl, hs1.trans h2, ?_, rfl⟩
    have := h3 u.length (by simp)
    rw [List.take_left'  rfl] at this
    exact this

theorem read_spec {st : Arena.State} {saved} {b : Buf} {t u : List Nat} {al : Nat → Option Nat}
    (hI : Arena.Inv st saved) (hb : Holds st b t) (hsc : st.scopes ≠ []) (hal : MallocOk st.arena.frames al)
    (hr : u.length ≤ b.siz - b.len) (hu : u ≠ [])
    (hn : b.len + u.length + b.siz / 2 ≤ 2 ^ 63) (hin : b.len + u.length + b.siz / 2 ≤ b.siz ∨ b.scope.id = st.arena.refs) :
    readOnce st b u al = .exit ∨ ∃ st' b', readOnce st b u al = .ok (st', b', false) ∧
      Step st b.region b'.region st' ∧ Holds st' b' (t ++ u) ∧ b'.scope = b.scope := by
  unfold readOnce
  have hul : 0 < u.length := List.length_pos_iff.2 hu
  obtain ⟨st1, h1, h2, h3⟩ := fill_spec (u := u) hI hb (by omega) (by omega)
  rw [h1]
  have hh := h3 u.length (Nat.le_refl _)
  rw [List.take_length] at hh
  have hal' : MallocOk st1.arena.frames al := by
    have : st1.arena = st.arena := by
      unfold fill at h1
      rw [if_neg (by omega)] at h1
      injection h1 with h1
      subst h1; rfl
    rw [this]; exact hal
  rcases reserve_spec (n := b.siz / 2) (h2.inv _ hI) hh (by rw [h2.scopes]; exact hsc) hal' hn
    (by rw [h2.refs]; simp only; omega) with he | ⟨st2, p, z, he, hs2, hh2, hl, hz⟩
  · left; simp only []; rw [he]
  · right
    simp only []
    rw [he]
    exact ⟨st2, _, rfl, h2.trans hs2, hh2, rfl⟩

theorem alloc_spec {st : Arena.State} {saved} {n : Nat} {al al' : Nat → Option Nat}
    (hI : Arena.Inv st saved) (hsc : st.scopes ≠ []) (hn : n ≤ 2 ^ 63) (hal : MallocOk st.arena.frames al)
    (hal' : ∀ st', (Arena.Op.malloc STRUCT al).run st = .ok st' → MallocOk st'.arena.frames al') :
    alloc st n al al' = .exit ∨ ∃ st' b, alloc st n al al' = .ok (st', b, false) ∧
      (∃ z, Step st ⟨0, 0, z⟩ b.region st') ∧ Holds st' b [] ∧ b.scope.id = st.scopes.length + 1 := by
  unfold alloc
  cases hscs : st.scopes with
  | nil => exact absurd hscs hsc
  | cons sc scs =>
    have hid : sc.id = scs.length + 2 := by
      have h1 := hI.good
      rw [hscs] at h1
      exact h1.id
    have hr := hI.refs
    rw [hscs] at hr
    simp only [List.length_cons] at hr
    simp only []
    rcases Arena.step (op := .malloc STRUCT al) hI ⟨hsc, hal⟩ trivial with he | ⟨st', he, hI', hS, _, hsh⟩
    · left
      simp only [Arena.Op.run, hscs] at he
      cases hm : arenaMalloc st.arena sc STRUCT al with
      | exit => rfl
      | ok v => rw [hm] at he; cases he
      | trap => rw [hm] at he; cases he
      | undefined => rw [hm] at he; cases he
    · have hal2 := hal' st' he
      have he0 := he
      simp only [Arena.Op.run, hscs] at he
      cases hm : arenaMalloc st.arena sc STRUCT al with
      | exit => rw [hm] at he; cases he
      | trap => rw [hm] at he; cases he
      | undefined => rw [hm] at he; cases he
      | ok v =>
        rw [hm] at he
        injection he with he
        simp only []
        have hst : { st with arena := v.1, objs := ⟨v.2, STRUCT, sc.id⟩ :: st.objs } = st' := by rw [← he, hscs]
        rw [← hscs, hst]
        have hstep : Step st ⟨0, 0, sc.id⟩ ⟨0, 0, sc.id⟩ st' := by
          refine ⟨?_, hsh.keep (by simp) (by simp), ?_, ?_⟩
          · intro sv hsv
            rcases Arena.step (op := .malloc STRUCT al) hsv ⟨hsc, hal⟩ trivial with he' | ⟨st'', he', hI'', _⟩
            · rw [he'] at he0; cases he0
            · rw [he'] at he0; injection he0 with he0; subst he0; exact hI''
          · rw [hI'.refs, hI.refs, hsh.keep (by simp) (by simp)]
          · intro p hp _ hz
            refine ⟨hS.live p hp, ?_, fun i hi => hS.contents p hp i hi⟩
            intro h
            rw [h] at hz
            simp at hz
        have hsc' : st'.scopes ≠ [] := by rw [hstep.scopes]; exact hsc
        rcases reserve_spec (b := { scope := sc, hdr := v.2, ptr := 0, siz := 0, len := 0, released := false }) (t := []) (n := n) hI'
          ⟨rfl, Nat.le_refl _, fun _ => rfl, fun h => absurd h (by simp), by simp⟩ hsc' hal2 (by simpa using hn)
          (.inr (by rw [hstep.refs]; simp only; omega)) with h | ⟨st2, p, z, h, hs2, hh2, hl, hz⟩
        · left; rw [h]
        · right
          rw [h]
          exact ⟨st2, _, rfl, ⟨sc.id, hstep.trans hs2⟩, hh2, by simp only [hscs, List.length_cons]; omega⟩

/-- The buffers seen by an operation on the arena. -/
theorem Rel.arena {s : State} {I : Ideal} (h : Rel s I) {op : Arena.Op} {st' : Arena.State} {saved}
    (hI' : Arena.Inv st' saved) (hS : Arena.StepOk s.st op st')
    (hf : ∀ id b, s.bufs id = some b → 0 < b.siz → b.region ∈ s.st.objs → b.region ∈ op.others s.st)
    {d : Nat} (hd : I.depth ≤ d) (hds : d = st'.scopes.length) :
    Rel ⟨st', s.bufs⟩ ⟨d, I.texts⟩ := by
  refine ⟨⟨saved, hI'⟩, hds, ?_, h.apart⟩
  intro j
  have hj := h.texts j
  cases hc : s.bufs j with
  | none =>
    rw [hc] at hj
    cases hi : I.texts j with
    | none => exact .none
    | some y => rw [hi] at hj; cases hj
  | some c =>
    rw [hc] at hj
    cases hi : I.texts j with
    | none => rw [hi] at hj; cases hj
    | some y =>
      rw [hi] at hj
      cases hj with
      | some _ _ h1 h2 h3 =>
        refine .some _ _ h1 ⟨h2.1, by simp only; omega⟩ (h3.keep fun hz => ?_)
        have hm := hf j c hc hz (h3.live hz)
        exact ⟨hS.live _ hm, fun i hi => hS.contents _ hm i hi⟩

/-- Leaving a scope. -/
theorem Rel.leave {s : State} {I : Ideal} (h : Rel s I) {st' : Arena.State} {saved} (hI' : Arena.Inv st' saved)
    (hS : Arena.StepOk s.st .leave st') (hsc : st'.scopes = s.st.scopes.tail) (hne : s.st.scopes ≠ []) :
    Rel ⟨st', survivors s.st s.bufs⟩ (Op.ideal I (.arena .leave)) := by
  obtain ⟨sv, hI⟩ := h.inv
  have hsurv : survivors s.st s.bufs = fun i => (s.bufs i).filter (fun b => b.scope.id < s.st.scopes.length + 1) := by
    unfold survivors
    cases hscs : s.st.scopes with
    | nil => exact absurd hscs hne
    | cons sc scs =>
      have h1 := hI.good
      rw [hscs] at h1
      simp only [h1.id, List.length_cons]
  rw [hsurv]
  refine ⟨⟨saved, hI'⟩, ?_, ?_, ?_⟩
  · simp only [Op.ideal, hsc, List.length_tail, h.depth]
  · intro j
    have hj := h.texts j
    simp only [Op.ideal]
    cases hc : s.bufs j with
    | none =>
      rw [hc] at hj
      cases hi : I.texts j with
      | none => exact .none
      | some y => rw [hi] at hj; cases hj
    | some c =>
      rw [hc] at hj
      cases hi : I.texts j with
      | none => rw [hi] at hj; cases hj
      | some y =>
        rw [hi] at hj
        cases hj with
        | some _ _ h1 h2 h3 =>
          have hd := h.depth
          by_cases hlt : y.1 < I.depth
          · have e1 : (some c).filter (fun b => decide (b.scope.id < s.st.scopes.length + 1)) = some c := by
              simp [Option.filter]; omega
            have e2 : (some y).filter (fun x => decide (x.1 < I.depth)) = some y := by simp [Option.filter, hlt]
            rw [e1, e2]
            refine .some _ _ h1 ⟨h2.1, by omega⟩ (h3.keep fun hz => ?_)
            have hm : c.region ∈ (Arena.Op.leave).others s.st := by
              simp only [Arena.Op.others, List.mem_filter, decide_eq_true_eq]
              exact ⟨h3.live hz, by show c.scope.id < _; omega⟩
            exact ⟨hS.live _ hm, fun i hi => hS.contents _ hm i hi⟩
          · have e1 : (some c).filter (fun b => decide (b.scope.id < s.st.scopes.length + 1)) = none := by
              simp [Option.filter]; omega
            have e2 : (some y).filter (fun x => decide (x.1 < I.depth)) = none := by simp [Option.filter]; omega
            rw [e1, e2]
            exact .none
  · intro i j b c hij hb hc hz
    simp only [Option.filter_eq_some_iff] at hb hc
    exact h.apart i j b c hij hb.1 hc.1 hz

/-- A new buffer. -/
theorem Rel.add {s : State} {I : Ideal} (h : Rel s I) {id : Nat} {b : Buf} {st' : Arena.State} {z : Nat}
    (hid : s.bufs id = none) (hs : Step s.st ⟨0, 0, z⟩ b.region st') (hh : Holds st' b [])
    (hsc : b.scope.id = s.st.scopes.length + 1) (hne : s.st.scopes ≠ []) :
    Rel ⟨st', set s.bufs id (some b)⟩ { I with texts := fun i => if i = id then some (I.depth, []) else I.texts i } := by
  obtain ⟨saved, hI⟩ := h.inv
  have hd := h.depth
  have hpos : 0 < s.st.scopes.length := List.length_pos_iff.2 hne
  have hkeep : ∀ j c, s.bufs j = some c → 0 < c.siz → c.region ∈ st'.objs ∧ c.region ≠ b.region ∧
      ∀ i, i < c.siz → st'.mem (c.ptr + i) = s.st.mem (c.ptr + i) := by
    intro j c hc hz
    obtain ⟨x, _, _, _, h3⟩ := h.at hc
    refine hs.kept c.region (h3.live hz) ?_ hz
    intro he
    have : c.siz = 0 := congrArg Obj.size he
    omega
  refine ⟨⟨saved, hs.inv saved hI⟩, by simp only [hs.scopes]; exact hd, ?_, ?_⟩
  · intro j
    simp only [set]
    by_cases hj : j = id
    · rw [if_pos hj, if_pos hj]
      exact .some _ _ (by simp only; omega) ⟨by simp only; omega, Nat.le_refl _⟩ hh
    · rw [if_neg hj, if_neg hj]
      have hf := h.texts j
      cases hc : s.bufs j with
      | none =>
        rw [hc] at hf
        cases hI' : I.texts j with
        | none => exact .none
        | some y => rw [hI'] at hf; cases hf
      | some c =>
        obtain ⟨x, h0, h1, h2, h3⟩ := h.at hc
        rw [h0]
        exact .some _ _ h1 h2 (h3.keep fun hz => ⟨(hkeep j c hc hz).1, (hkeep j c hc hz).2.2⟩)
  · intro i j c d hij hc hd hz
    simp only [set] at hc hd
    by_cases hi : i = id
    · subst hi
      rw [if_pos rfl] at hc
      rw [if_neg (fun h => hij h.symm)] at hd
      injection hc with hc
      subst hc
      by_cases hdz : d.siz = 0
      · intro he
        have : b.siz = d.siz := congrArg Obj.size he
        omega
      · exact fun he => (hkeep j d hd (by omega)).2.1 he.symm
    · rw [if_neg hi] at hc
      by_cases hj : j = id
      · subst hj
        rw [if_pos rfl] at hd
        injection hd with hd
        subst hd
        exact (hkeep i c hc hz).2.1
      · rw [if_neg hj] at hd
        exact h.apart i j c d hij hc hd hz

/-- A buffer handed out as a string. -/
theorem Rel.hand {s : State} {I : Ideal} (h : Rel s I) {id id' : Nat} {b : Buf} (hb : s.bufs id = some b) :
    Rel ⟨s.st, set (set s.bufs id (some (release b).2)) id' (some (release b).1)⟩
      { I with texts := fun i => if i = id' then I.texts id else if i = id then (I.texts id).map fun x => (x.1, []) else I.texts i } := by
  obtain ⟨x, h0, h1, h2, h3⟩ := h.at hb
  refine ⟨h.inv, h.depth, ?_, ?_⟩
  · intro j
    simp only [set]
    by_cases hj : j = id'
    · rw [if_pos hj, if_pos hj, h0]
      exact .some _ _ h1 h2 ⟨h3.len, h3.fits, h3.null, h3.live, h3.bytes⟩
    · rw [if_neg hj, if_neg hj]
      by_cases hj' : j = id
      · rw [if_pos hj', if_pos hj', h0]
        exact .some _ _ h1 h2 ⟨rfl, Nat.le_refl _, fun _ => rfl, fun h => absurd h (by simp [release]), by simp⟩
      · rw [if_neg hj', if_neg hj']
        exact h.texts j
  · intro i j c d hij hc hd hz
    simp only [set] at hc hd
    have hnull : ∀ e : Buf, 0 < e.siz → e.region ≠ (release b).2.region := by
      intro e he h
      have : e.siz = 0 := congrArg Obj.size h
      omega
    have hnull' : ∀ e : Buf, 0 < e.siz → (release b).2.region ≠ e.region := fun e he h => hnull e he h.symm
    by_cases hi : i = id'
    · rw [if_pos hi] at hc
      injection hc with hc
      subst hc
      rw [if_neg (by omega)] at hd
      by_cases hj : j = id
      · rw [if_pos hj] at hd
        injection hd with hd
        subst hd
        exact hnull _ hz
      · rw [if_neg hj] at hd
        exact h.apart id j b d (fun h => hj h.symm) hb hd hz
    · rw [if_neg hi] at hc
      by_cases hi' : i = id
      · rw [if_pos hi'] at hc
        injection hc with hc
        subst hc
        simp [release] at hz
      · rw [if_neg hi'] at hc
        by_cases hj : j = id'
        · rw [if_pos hj] at hd
          injection hd with hd
          subst hd
          exact h.apart i id c b hi' hc hb hz
        · rw [if_neg hj] at hd
          by_cases hj' : j = id
          · rw [if_pos hj'] at hd
            injection hd with hd
            subst hd
            exact hnull _ hz
          · rw [if_neg hj'] at hd
            exact h.apart i j c d hij hc hd hz

theorem set_set (f : Nat → Option Buf) (id : Nat) (b c : Option Buf) : set (set f id b) id c = set f id c := by
  funext i
  simp only [set]
  split <;> rfl

theorem step_arena {s : State} {I : Ideal} {op : Arena.Op} (h : Rel s I) (hpre : (Op.arena op).Pre s)
    (hin : (Op.arena op).Innermost s) :
    (Op.arena op).run s = .exit ∨ ∃ s', (Op.arena op).run s = .ok s' ∧ Rel s' (Op.ideal I (.arena op)) := by
  obtain ⟨saved, hI⟩ := h.inv
  rcases Arena.step hI hpre.1 hin with he | ⟨st', he, hI', hS, _, hsh⟩
  · left; simp only [Op.run, he]
  · right
    refine ⟨_, by simp only [Op.run, he]; rfl, ?_⟩
    have hother : ∀ o : Obj, Foreign s o → ∀ id b, s.bufs id = some b → 0 < b.siz → b.region ∈ s.st.objs →
        b.region ∈ s.st.objs.erase o := by
      intro o ho id b hb _ hm
      exact (List.mem_erase_of_ne (fun h => (ho id b hb).1 h.symm)).2 hm
    have hds : op ≠ .enter → op ≠ .leave → I.depth = st'.scopes.length := by
      intro h1 h2
      rw [hsh.keep h1 h2]; exact h.depth
    cases op with
    | leave => exact h.leave hI' hS (hsh.leave rfl) hpre.1
    | enter =>
      refine h.arena hI' hS (fun _ _ _ _ hm => hm) (by omega) ?_
      have h1 := hI'.refs
      have h2 := hI.refs
      have h3 := h.depth
      have h4 := hsh.enter rfl
      have h5 : st'.scopes.length = s.st.scopes.length + 1 := by
        simp only [Arena.Op.run, Arena.enter] at he
        cases hfr : s.st.arena.frames with
        | nil => rw [hfr] at he; cases he
        | cons f fs =>
          rw [hfr] at he
          injection he with he
          subst he
          simp
      omega
    | malloc n al => exact h.arena hI' hS (fun _ _ _ _ hm => hm) (Nat.le_refl _) (hds (by simp) (by simp))
    | calloc n k al => exact h.arena hI' hS (fun _ _ _ _ hm => hm) (Nat.le_refl _) (hds (by simp) (by simp))
    | realloc o n al => exact h.arena hI' hS (hother o hpre.2) (Nat.le_refl _) (hds (by simp) (by simp))
    | write o i v => exact h.arena hI' hS (hother o hpre.2) (Nat.le_refl _) (hds (by simp) (by simp))

/-- The last byte of a text in memory. -/
theorem Holds.last {st : Arena.State} {b : Buf} {t : List Nat} (h : Holds st b t) :
    (b.len = 0 ∨ st.mem (b.ptr + (b.len - 1)) ≠ 0) ↔ t.getLast? ≠ some 0 := by
  have hl := h.len
  cases ht : t with
  | nil => simp [ht] at hl; simp [hl]
  | cons x u =>
    have hb := h.bytes (t.length - 1) (by simp [ht])
    have hne : b.len ≠ 0 := by rw [hl, ht]; simp
    rw [hl, hb, ← ht, List.getLast?_eq_getElem?, List.getD_eq_getElem?_getD]
    rw [ht]
    simp

/-- One operation. -/
theorem step {s : State} {I : Ideal} {op : Op} (h : Rel s I) (hpre : op.Pre s) (hin : op.Innermost s) :
    op.run s = .exit ∨ ∃ s', op.run s = .ok s' ∧ Rel s' (op.ideal I) := by
  obtain ⟨saved, hI⟩ := h.inv
  cases op with
  | arena op => exact step_arena h hpre hin
  | alloc id n al al' =>
    obtain ⟨hsc, hid, hn, hal, hal'⟩ := hpre
    rcases alloc_spec hI hsc hn hal hal' with he | ⟨st', b, he, ⟨z, hs⟩, hh, hb⟩
    · left; simp only [Op.run, he]
    · right
      exact ⟨_, by simp only [Op.run, he], h.add hid hs hh hb hsc⟩
  | puts id t al =>
    obtain ⟨⟨b, hb, _⟩, hsm, hal⟩ := hpre
    obtain ⟨x, h0, h1, h2, h3⟩ := h.at hb
    simp only [Op.run, change, hb]
    rcases puts_spec (u := t) hI h3 (h.scopes hb) hal (hsm b hb) (hin b hb) with he | ⟨st', b', he, hs, hh, hsc, _⟩
    · left; rw [he]
    · right; rw [he]
      exact ⟨_, rfl, h.update (f := (· ++ t)) hb h0 hs hh hsc⟩
  | printf id t al =>
    obtain ⟨⟨b, hb, _⟩, hsm, hal⟩ := hpre
    obtain ⟨x, h0, h1, h2, h3⟩ := h.at hb
    simp only [Op.run, change, hb]
    rcases printf_spec (u := t) hI h3 (h.scopes hb) hal (hsm b hb) (hin b hb) with he | ⟨st', b', he, hs, hh, hsc⟩
    · left; rw [he]
    · right; rw [he]
      exact ⟨_, rfl, h.update (f := (· ++ t)) hb h0 hs hh hsc⟩
  | read id t al =>
    obtain ⟨⟨b, hb, _⟩, hal, hrd⟩ := hpre
    obtain ⟨x, h0, h1, h2, h3⟩ := h.at hb
    obtain ⟨hr1, hr2, hr3⟩ := hrd b hb
    simp only [Op.run, change, hb]
    rcases read_spec (u := t) hI h3 (h.scopes hb) hal hr1 hr3 hr2 (hin b hb) with he | ⟨st', b', he, hs, hh, hsc⟩
    · left; rw [he]
    · right; rw [he]
      exact ⟨_, rfl, h.update (f := (· ++ t)) hb h0 hs hh hsc⟩
  | reset id =>
    obtain ⟨b, hb, _⟩ := hpre
    obtain ⟨x, h0, h1, h2, h3⟩ := h.at hb
    right
    refine ⟨⟨s.st, set s.bufs id (some { b with len := 0 })⟩, by simp only [Op.run, change, hb], ?_⟩
    exact h.update (f := fun _ => []) (b' := { b with len := 0 }) hb h0 (Step.refl _ _) ⟨rfl, Nat.zero_le _, h3.null, h3.live, by simp⟩ rfl
  | pop id n =>
    obtain ⟨b, hb, _⟩ := hpre
    obtain ⟨x, h0, h1, h2, h3⟩ := h.at hb
    right
    refine ⟨⟨s.st, set s.bufs id (some { b with len := b.len - if n > b.len then b.len else n })⟩,
      by simp only [Op.run, change, hb], ?_⟩
    have hl := h3.len
    have hf := h3.fits
    refine h.update (f := fun t => t.take (t.length - n)) (b' := { b with len := b.len - if n > b.len then b.len else n }) hb h0 (Step.refl _ _) ⟨?_, ?_, h3.null, h3.live, ?_⟩ rfl
    · simp only [List.length_take]; split <;> omega
    · simp only; split <;> omega
    · intro i hi
      simp only [List.length_take] at hi
      simp only
      rw [h3.bytes i (by omega), List.getD_eq_getElem?_getD, List.getD_eq_getElem?_getD, List.getElem?_take_of_lt (by omega)]
  | str id id' al =>
    obtain ⟨⟨b, hb, _⟩, hsm, hid, hal⟩ := hpre
    obtain ⟨x, h0, h1, h2, h3⟩ := h.at hb
    have hne : id' ≠ id := by
      intro he; rw [he, hb] at hid; cases hid
    simp only [Op.run, hb, str]
    by_cases hz : b.len = 0 ∨ s.st.mem (b.ptr + (b.len - 1)) ≠ 0
    · rw [if_pos hz]
      rcases puts_spec (u := [0]) hI h3 (h.scopes hb) hal (hsm b hb) (hin b hb) with he | ⟨st', b', he, hs, hh, hsc, _⟩
      · left; rw [he]
      · right; rw [he]
        refine ⟨_, rfl, ?_⟩
        have hR := h.update (f := fun t => t ++ [0]) hb h0 hs hh hsc
        have := hR.hand (id := id) (id' := id') (b := b') (by simp [set])
        simp only [set_set] at this
        refine cast ?_ this
        congr 1
        simp only [Op.ideal, Ideal.edit]
        congr 1
        funext i
        simp only [terminated, if_neg (h3.last.1 hz), h0, if_true, Option.map_some]
        by_cases h1 : i = id'
        · simp [h1]
        · by_cases h2 : i = id <;> simp [h1, h2]
    · rw [if_neg hz]
      right
      refine ⟨_, rfl, ?_⟩
      have := h.hand (id' := id') hb
      refine cast ?_ this
      congr 1
      simp only [Op.ideal]
      congr 1
      funext i
      have hz' : x.2.getLast? = some 0 := by
        have := fun hc => hz (h3.last.2 hc)
        exact Decidable.of_not_not this
      simp only [terminated, h0, Option.map_some, if_pos hz']

/-- **C88**, as long as buffers are made larger only while the scope they were allocated in is the innermost one. -/
theorem C88_buffers_partial : C88_statement (fun s op => op.Pre s ∧ op.Innermost s) := by
  intro page mem a ops h8 hm ha hops
  have hR : Rel (start a) ⟨0, fun _ => none⟩ := by
    refine ⟨⟨[], Arena.alloc_inv h8 hm ha⟩, rfl, fun _ => .none, ?_⟩
    intro i j b c _ hb
    cases hb
  unfold ideal
  generalize start a = s at hops hR
  generalize (⟨0, fun _ => none⟩ : Ideal) = I at hR
  induction ops generalizing s I with
  | nil =>
    refine .inr ⟨s, rfl, ?_, ?_⟩
    · obtain ⟨sv, hI⟩ := hR.inv
      exact hI.safe
    · intro id
      simp only [shown, List.foldl_nil]
      have hf := hR.texts id
      cases hb : s.bufs id with
      | none =>
        rw [hb] at hf
        cases hi : I.texts id with
        | none => rfl
        | some y => rw [hi] at hf; cases hf
      | some b =>
        obtain ⟨x, h0, h1, h2, h3⟩ := hR.at hb
        rw [h0]
        simp only [Option.map_some, Option.some.injEq]
        apply List.ext_getElem
        · simp [h3.len]
        · intro i hi1 hi2
          simp only [List.getElem_map, List.getElem_range]
          rw [h3.bytes i hi2, List.getD_eq_getElem?_getD, List.getElem?_eq_getElem hi2, Option.getD_some]
  | cons op ops ih =>
    obtain ⟨⟨hpre, hin⟩, hrest⟩ := hops
    rcases step hR hpre hin with he | ⟨s', he, hR'⟩
    · left; simp only [runs, he]
    · simp only [runs, he, List.foldl_cons]
      exact ih s' (hrest s' he) _ hR'

/-! ## Examples -/

/-- Some operations, in programs for which `malloc(3)` always fails: all has to fit in the first frame. -/
inductive Cmd where
  | enter
  | leave
  | calloc (n k : Nat)
  | alloc (id n : Nat)
  | puts (id : Nat) (t : List Nat)
  | printf (id : Nat) (t : List Nat)
  | read (id : Nat) (t : List Nat)
  | pop (id n : Nat)
  | str (id id' : Nat)

def never : Nat → Option Nat := fun _ => none

def Cmd.op : Cmd → Op
  | .enter => .arena .enter
  | .leave => .arena .leave
  | .calloc n k => .arena (.calloc n k never)
  | .alloc id n => .alloc id n never never
  | .puts id t => .puts id t never
  | .printf id t => .printf id t never
  | .read id t => .read id t never
  | .pop id n => .pop id n
  | .str id id' => .str id id' never

/-- Is the operation allowed? With `strict`, also for its scope. -/
def Cmd.check (strict : Bool) (s : State) : Cmd → Bool
  | .enter => true
  | .leave => !s.st.scopes.isEmpty
  | .calloc _ _ => !s.st.scopes.isEmpty
  | .alloc id n => !s.st.scopes.isEmpty && (s.bufs id).isNone && decide (n ≤ 2 ^ 63)
  | .puts id t => match s.bufs id with
    | none => false
    | some b => !b.released && decide (b.len + t.length ≤ 2 ^ 63) &&
      (!strict || decide (b.len + t.length ≤ b.siz) || decide (b.scope.id = s.st.arena.refs))
  | .printf id t => match s.bufs id with
    | none => false
    | some b => !b.released && decide (b.len + (t.length + 1) ≤ 2 ^ 63) &&
      (!strict || decide (b.len + t.length + 1 ≤ b.siz) || decide (b.scope.id = s.st.arena.refs))
  | .read id t => match s.bufs id with
    | none => false
    | some b => !b.released && decide (t.length ≤ b.siz - b.len) && decide (b.len + t.length + b.siz / 2 ≤ 2 ^ 63) &&
      !t.isEmpty && (!strict || decide (b.len + t.length + b.siz / 2 ≤ b.siz) || decide (b.scope.id = s.st.arena.refs))
  | .pop id _ => match s.bufs id with
    | none => false
    | some b => !b.released
  | .str id id' => match s.bufs id with
    | none => false
    | some b => !b.released && decide (b.len + 1 ≤ 2 ^ 63) && (s.bufs id').isNone &&
      (!strict || decide (b.len + 1 ≤ b.siz) || decide (b.scope.id = s.st.arena.refs))

def checks (strict : Bool) (s : State) : List Cmd → Bool
  | [] => true
  | c :: cs => c.check strict s && match c.op.run s with | .ok s' => checks strict s' cs | _ => true

theorem never_ok (fr : List Arena.Frame) : MallocOk fr never := by
  intro n b h; cases h

theorem check_sound {strict : Bool} {s : State} {c : Cmd} (h : c.check strict s = true) :
    c.op.Pre s ∧ (strict = true → c.op.Innermost s) := by
  have hb : ∀ {id : Nat} {f : Buf → Bool}, (match s.bufs id with | none => false | some b => f b) = true →
      ∃ b, s.bufs id = some b ∧ f b = true := by
    intro id f h
    cases hs : s.bufs id with
    | none => rw [hs] at h; cases h
    | some b => rw [hs] at h; exact ⟨b, rfl, h⟩
  cases c with
  | enter => exact ⟨⟨trivial, trivial⟩, fun _ => trivial⟩
  | leave => simp [Cmd.check] at h; exact ⟨⟨h, trivial⟩, fun _ => trivial⟩
  | calloc n k => simp [Cmd.check] at h; exact ⟨⟨⟨h, never_ok _⟩, trivial⟩, fun _ => trivial⟩
  | alloc id n =>
    simp only [Cmd.check, Bool.and_eq_true, Bool.not_eq_true', List.isEmpty_eq_false_iff, Option.isNone_iff_eq_none,
      decide_eq_true_eq] at h
    exact ⟨⟨h.1.1, h.1.2, h.2, never_ok _, fun _ _ => never_ok _⟩, fun _ => trivial⟩
  | puts id t =>
    obtain ⟨b, h1, h2⟩ := hb h
    simp only [Bool.and_eq_true, Bool.not_eq_true', decide_eq_true_eq, Bool.or_eq_true] at h2
    refine ⟨⟨⟨b, h1, h2.1.1⟩, fun c hc => ?_, never_ok _⟩, fun hs c hc => ?_⟩ <;> rw [h1] at hc <;> injection hc with hc <;> subst hc
    · exact h2.1.2
    · rcases h2.2 with (h | h) | h
      · rw [hs] at h; cases h
      · exact .inl h
      · exact .inr h
  | printf id t =>
    obtain ⟨b, h1, h2⟩ := hb h
    simp only [Bool.and_eq_true, Bool.not_eq_true', decide_eq_true_eq, Bool.or_eq_true] at h2
    refine ⟨⟨⟨b, h1, h2.1.1⟩, fun c hc => ?_, never_ok _⟩, fun hs c hc => ?_⟩ <;> rw [h1] at hc <;> injection hc with hc <;> subst hc
    · exact h2.1.2
    · rcases h2.2 with (h | h) | h
      · rw [hs] at h; cases h
      · exact .inl h
      · exact .inr h
  | read id t =>
    obtain ⟨b, h1, h2⟩ := hb h
    simp only [Bool.and_eq_true, Bool.not_eq_true', decide_eq_true_eq, Bool.or_eq_true, List.isEmpty_eq_false_iff] at h2
    refine ⟨⟨⟨b, h1, h2.1.1.1.1⟩, never_ok _, fun c hc => ?_⟩, fun hs c hc => ?_⟩ <;> rw [h1] at hc <;> injection hc with hc <;> subst hc
    · exact ⟨h2.1.1.1.2, h2.1.1.2, h2.1.2⟩
    · rcases h2.2 with (h | h) | h
      · rw [hs] at h; cases h
      · exact .inl h
      · exact .inr h
  | pop id n =>
    obtain ⟨b, h1, h2⟩ := hb h
    exact ⟨⟨b, h1, by simpa using h2⟩, fun _ => trivial⟩
  | str id id' =>
    obtain ⟨b, h1, h2⟩ := hb h
    simp only [Bool.and_eq_true, Bool.not_eq_true', decide_eq_true_eq, Bool.or_eq_true, Option.isNone_iff_eq_none] at h2
    refine ⟨⟨⟨b, h1, h2.1.1.1⟩, fun c hc => ?_, h2.1.2, never_ok _⟩, fun hs c hc => ?_⟩ <;> rw [h1] at hc <;> injection hc with hc <;> subst hc
    · exact h2.1.1.2
    · rcases h2.2 with (h | h) | h
      · rw [hs] at h; cases h
      · exact .inl h
      · exact .inr h

theorem checks_pre {s : State} {cs : List Cmd} (h : checks false s cs = true) : Allowed Op.Pre s (cs.map Cmd.op) := by
  induction cs generalizing s with
  | nil => trivial
  | cons c cs ih =>
    simp only [checks, Bool.and_eq_true] at h
    refine ⟨(check_sound h.1).1, fun s' hs' => ih ?_⟩
    have h2 := h.2
    rw [hs'] at h2
    exact h2

theorem checks_strict {s : State} {cs : List Cmd} (h : checks true s cs = true) :
    Allowed (fun s op => op.Pre s ∧ op.Innermost s) s (cs.map Cmd.op) := by
  induction cs generalizing s with
  | nil => trivial
  | cons c cs ih =>
    simp only [checks, Bool.and_eq_true] at h
    refine ⟨⟨(check_sound h.1).1, (check_sound h.1).2 rfl⟩, fun s' hs' => ih ?_⟩
    have h2 := h.2
    rw [hs'] at h2
    exact h2

def sevens (n : Nat) : List Nat := List.replicate n 7

/-- What a program shows in the end. -/
def seen (cs : List Cmd) (id : Nat) : Option (Option (List Nat)) :=
  match runs (start Arena.exArena) (cs.map Cmd.op) with
  | .ok s => some (shown s id)
  | _ => none

def traps (cs : List Cmd) : Bool :=
  match runs (start Arena.exArena) (cs.map Cmd.op) with
  | .trap => true
  | _ => false

/-- Two buffers growing in turns, one in place and one by moving, a string, an inner scope. -/
def turns : List Cmd :=
  [.enter, .alloc 0 16, .alloc 1 1, .puts 0 (sevens 10), .puts 1 [1, 2, 3], .printf 0 [8, 9], .puts 1 (sevens 40),
   .enter, .alloc 2 1, .read 2 [5, 5], .str 2 3, .puts 0 [4], .pop 1 39, .leave, .calloc 10 10, .puts 0 (sevens 9), .str 1 4]

example : checks true (start Arena.exArena) turns = true := by decide +kernel
example : seen turns 0 = some (some (sevens 10 ++ [8, 9, 4] ++ sevens 9)) ∧ seen turns 4 = some (some [1, 2, 3, 7, 0]) ∧
    seen turns 1 = some (some []) ∧ seen turns 2 = some none ∧ seen (turns.take 13) 3 = some (some [5, 5, 0]) := by
  decide +kernel
example : ((ideal (turns.map Cmd.op)).texts 0).map (·.2) = some (sevens 10 ++ [8, 9, 4] ++ sevens 9) := by decide +kernel

/-- A buffer made larger in place from within an inner scope. -/
def growInner : List Cmd := [.enter, .alloc 0 16, .enter, .puts 0 (sevens 17), .leave, .calloc 1 8]

/-- **C88 is false of the code as it stands**: the text of a buffer may be overwritten by a later allocation if it was
appended to within an inner scope. -/
theorem outer_buffer_overwritten : ∃ s, Allowed Op.Pre (start Arena.exArena) (growInner.map Cmd.op) ∧
    runs (start Arena.exArena) (growInner.map Cmd.op) = .ok s ∧ shown s 0 = some (sevens 16 ++ [0]) ∧
    ((ideal (growInner.map Cmd.op)).texts 0).map (·.2) = some (sevens 17) := by
  have h : seen growInner 0 = some (some (sevens 16 ++ [0])) := by decide +kernel
  unfold seen at h
  cases hr : runs (start Arena.exArena) (growInner.map Cmd.op) with
  | ok s =>
    rw [hr] at h
    injection h with h
    exact ⟨s, checks_pre (by decide +kernel), rfl, h, by decide +kernel⟩
  | _ => rw [hr] at h; cases h

/-- If something was allocated in the inner scope, the program is killed instead. -/
theorem outer_buffer_traps : Allowed Op.Pre (start Arena.exArena)
      (List.map Cmd.op [.enter, .alloc 0 16, .enter, .calloc 1 8, .puts 0 (sevens 17)]) ∧
    runs (start Arena.exArena) (List.map Cmd.op [.enter, .alloc 0 16, .enter, .calloc 1 8, .puts 0 (sevens 17)]) = .trap := by
  refine ⟨checks_pre (by decide +kernel), ?_⟩
  have h : traps [.enter, .alloc 0 16, .enter, .calloc 1 8, .puts 0 (sevens 17)] = true := by decide +kernel
  unfold traps at h
  split at h
  · assumption
  · cases h

theorem C88_statement_false : ¬ C88_statement Op.Pre := by
  intro h
  obtain ⟨ha, hr⟩ := outer_buffer_traps
  rcases h 256 (some 4096) Arena.exArena _ rfl (by rintro b h; injection h with h; omega) rfl ha with he | ⟨s, he, _⟩ <;>
    rw [hr] at he <;> cases he

end Knfmt.ArenaBuffer
