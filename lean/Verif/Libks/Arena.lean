import Verif.Common
/-!
# libks/arena.c

Built without AddressSanitizer, so `POISON_SIZE` is zero (libks/arena.c:43-47). Addresses
are numbers. A frame is the region `[base, base + size)` handed out by `malloc(3)`; its
first 32 bytes hold `struct arena_frame` itself. Statistics, the locations reported by the
trap and `cleanup` callbacks are left out.
-/
namespace Knfmt.Arena

def SIZE_MAX : Nat := 2 ^ 64 - 1

/-- `sizeof(struct arena_frame)`, libks/arena.c:62-67. -/
def HDR : Nat := 32

/-- `struct arena_frame`, libks/arena.c:62-67. -/
structure Frame where
  base : Nat
  size : Nat
  len : Nat
deriving DecidableEq, Repr

/-- `struct arena`, libks/arena.c:69-78; the newest frame comes first. -/
structure Arena where
  frames : List Frame
  frameSize : Nat
  refs : Nat
deriving DecidableEq, Repr

/-- `struct arena_scope`, libks/arena.h:26-36; `none` is a null frame. -/
structure Scope where
  frame : Option Nat
  frameLen : Nat
  id : Nat
deriving DecidableEq, Repr

/-- Outcome of a call. -/
inductive Res (α : Type) where
  | ok (v : α)
  /-- `err(3)` or `errx(3)`: the program reports an error and exits -/
  | exit
  /-- `__builtin_trap` -/
  | trap
  | undefined
deriving Repr

/-- `align_address`, libks/arena.c:102-113, with `maxalign` 8 and no poison. -/
def align (n : Nat) : Nat := (n + 7) / 8 * 8

/-- `arena_push`, libks/arena.c:165-191: the address and the frame, or `none` for `NULL`. -/
def push (f : Frame) (size : Nat) : Option (Nat × Frame) :=
  if f.len + size > SIZE_MAX then none
  else if f.len + size > f.size then none
  else some (f.base + f.len, { f with len := if align (f.len + size) > f.size then f.size else align (f.len + size) })

/-- `arena_frame_alloc`, libks/arena.c:193-216. `mem` is what `malloc(3)` returns. -/
def frameAlloc (a : Arena) (frameSize : Nat) (mem : Option Nat) : Option Arena :=
  match mem with
  | none => none
  | some base =>
    match push { base := base, size := frameSize, len := 0 } HDR with
    | none => none
    | some (_, f) => some { a with frames := f :: a.frames }

/-- `arena_alloc`, libks/arena.c:218-238. -/
def arenaAlloc (pageSize : Nat) (mem : Option Nat) : Res Arena :=
  match frameAlloc { frames := [], frameSize := 16 * pageSize, refs := 1 } (16 * pageSize) mem with
  | none => .exit
  | some a => .ok a

/-- `arena_scope_enter_impl`, libks/arena.c:300-326. -/
def enter (a : Arena) : Res (Arena × Scope) :=
  match a.frames with
  | [] => .undefined
  | f :: _ => .ok ({ a with refs := a.refs + 1 }, { frame := some f.base, frameLen := f.len, id := a.refs + 1 })

/-- The loop freeing frames, libks/arena.c:273-285. -/
def popFrames (last : Option Nat) : List Frame → List Frame
  | [] => []
  | f :: fs => if some f.base = last then f :: fs else popFrames last fs

/-- `arena_scope_leave`, libks/arena.c:254-298. -/
def leave (a : Arena) (s : Scope) : Arena :=
  let last := if a.refs = 1 then none else s.frame
  let frames := match popFrames last a.frames with
    | [] => []
    | f :: fs => { f with len := if s.frameLen ≤ f.len then s.frameLen else 0 } :: fs
  { a with frames := frames, refs := a.refs - 1 }

/-- `arena_free`, libks/arena.c:240-252. -/
def free (a : Arena) : Arena :=
  if a.refs > 1 then { a with refs := a.refs - 1 }
  else leave a { frame := none, frameLen := 0, id := 0 }

/-- The doubling loop, libks/arena.c:381-386. `none` is the overflow. -/
def growSize (frameSize total : Nat) (h : 0 < frameSize) : Option Nat :=
  if frameSize < total then
    if 2 * frameSize > SIZE_MAX then none else growSize (2 * frameSize) total (by omega)
  else some frameSize
termination_by total - frameSize

/-- The slow path of `arena_malloc`, libks/arena.c:375-395. `malloc` maps the size asked for
to what `malloc(3)` returns. -/
def mallocSlow (a : Arena) (size : Nat) (malloc : Nat → Option Nat) : Res (Arena × Nat) :=
  if size + HDR > SIZE_MAX then .exit
  else if h : a.frameSize = 0 then .undefined
  else
    match growSize a.frameSize (size + HDR) (by omega) with
    | none => .exit
    | some n =>
      match frameAlloc a n (malloc n) with
      | none => .exit
      | some a =>
        match a.frames with
        | [] => .undefined
        | f :: fs =>
          match push f size with
          | none => .exit
          | some (p, f) => .ok ({ a with frames := f :: fs }, p)

/-- `arena_malloc`, libks/arena.c:359-396, including `arena_scope_validate`. -/
def arenaMalloc (a : Arena) (s : Scope) (size : Nat) (malloc : Nat → Option Nat) : Res (Arena × Nat) :=
  if s.id ≠ a.refs then .trap
  else
    match a.frames with
    | [] => .undefined
    | f :: fs =>
      match push f size with
      | some (p, f) => .ok ({ a with frames := f :: fs }, p)
      | none => mallocSlow a size malloc

/-- `arena_realloc_fast`, libks/arena.c:412-441: `some none` if it returned 0. There is no
`arena_scope_validate` here. -/
def reallocFast (a : Arena) (ptr old new : Nat) : Option (Option Arena) :=
  if new ≤ old then some (some a)
  else
    match a.frames with
    | [] => none
    | f :: fs =>
      if align (ptr + old) ≠ f.base + f.len then some none
      else
        match push { f with len := ptr - f.base } new with
        | none => some none
        | some (_, f) => some (some { a with frames := f :: fs })

/-- The memory. -/
abbrev Mem := Nat → Nat

/-- `memcpy(3)`. -/
def memcpy (m : Mem) (dst src n : Nat) : Mem := fun x => if dst ≤ x ∧ x < dst + n then m (src + (x - dst)) else m x

/-- `memset(3)` to zero. -/
def memset0 (m : Mem) (dst n : Nat) : Mem := fun x => if dst ≤ x ∧ x < dst + n then 0 else m x

/-- `arena_realloc`, libks/arena.c:443-472. `some none` in the result is the `NULL` for a
misaligned pointer; a null pointer argument is address 0. -/
def arenaRealloc (a : Arena) (s : Scope) (m : Mem) (ptr old new : Nat) (malloc : Nat → Option Nat) :
    Res (Arena × Mem × Option Nat) :=
  if ptr % 8 ≠ 0 then .ok (a, m, none)
  else
    match (if ptr ≠ 0 then reallocFast a ptr old new else some none) with
    | none => .undefined
    | some (some a) => .ok (a, m, some ptr)
    | some none =>
      match arenaMalloc a s new malloc with
      | .ok (a, p) => .ok (a, if ptr ≠ 0 then memcpy m p ptr old else m, some p)
      | .exit => .exit
      | .trap => .trap
      | .undefined => .undefined

/-- `arena_calloc`, libks/arena.c:398-410. -/
def arenaCalloc (a : Arena) (s : Scope) (m : Mem) (nmemb size : Nat) (malloc : Nat → Option Nat) :
    Res (Arena × Mem × Nat) :=
  if nmemb * size > SIZE_MAX then .exit
  else
    match arenaMalloc a s (nmemb * size) malloc with
    | .ok (a, p) => .ok (a, memset0 m p (nmemb * size), p)
    | .exit => .exit
    | .trap => .trap
    | .undefined => .undefined

/-! ## Specification -/

/-- A live allocation: its address, its size and the scope it belongs to. -/
structure Obj where
  addr : Nat
  size : Nat
  scope : Nat
deriving DecidableEq, Repr

/-- No byte belongs to both. -/
def Disjoint (a1 n1 a2 n2 : Nat) : Prop := ∀ x, ¬ ((a1 ≤ x ∧ x < a1 + n1) ∧ (a2 ≤ x ∧ x < a2 + n2))

/-- `malloc(3)`: an aligned region that fits the address space and is disjoint from the
regions in use. -/
def MallocOk (frames : List Frame) (malloc : Nat → Option Nat) : Prop :=
  ∀ n base, malloc n = some base → 0 < base ∧ base % 8 = 0 ∧
    ∀ f ∈ frames, base + n ≤ f.base ∨ f.base + f.size ≤ base

/-- The program: an arena, its open scopes, innermost first, the live allocations and
memory. -/
structure State where
  arena : Arena
  scopes : List Scope
  objs : List Obj
  mem : Mem

/-- What a program may do. Allocations use the innermost scope, scopes are left in reverse
order and bytes are written only inside live allocations. -/
inductive Op where
  | enter
  | leave
  | malloc (size : Nat) (al : Nat → Option Nat)
  | calloc (nmemb size : Nat) (al : Nat → Option Nat)
  /-- change the size of a live allocation -/
  | realloc (o : Obj) (size : Nat) (al : Nat → Option Nat)
  | write (o : Obj) (off v : Nat)

def Op.run (s : State) : Op → Res State
  | .enter =>
    match Arena.enter s.arena with
    | .ok (a, sc) => .ok { s with arena := a, scopes := sc :: s.scopes }
    | .exit => .exit | .trap => .trap | .undefined => .undefined
  | .leave =>
    match s.scopes with
    | [] => .undefined
    | sc :: scs => .ok { s with arena := Arena.leave s.arena sc, scopes := scs,
                                objs := s.objs.filter (fun o => o.scope < sc.id) }
  | .malloc size al =>
    match s.scopes with
    | [] => .undefined
    | sc :: _ =>
      match arenaMalloc s.arena sc size al with
      | .ok (a, p) => .ok { s with arena := a, objs := ⟨p, size, sc.id⟩ :: s.objs }
      | .exit => .exit | .trap => .trap | .undefined => .undefined
  | .calloc nmemb size al =>
    match s.scopes with
    | [] => .undefined
    | sc :: _ =>
      match arenaCalloc s.arena sc s.mem nmemb size al with
      | .ok (a, m, p) => .ok { s with arena := a, mem := m, objs := ⟨p, nmemb * size, sc.id⟩ :: s.objs }
      | .exit => .exit | .trap => .trap | .undefined => .undefined
  | .realloc o size al =>
    match s.scopes with
    | [] => .undefined
    | sc :: _ =>
      match arenaRealloc s.arena sc s.mem o.addr o.size size al with
      | .ok (a, m, some p) =>
        .ok { s with arena := a, mem := m, objs := ⟨p, size, if p = o.addr then o.scope else sc.id⟩ :: s.objs.erase o }
      | .ok (_, _, none) => .undefined
      | .exit => .exit | .trap => .trap | .undefined => .undefined
  | .write o off v => .ok { s with mem := fun x => if x = o.addr + off then v else s.mem x }

/-- When an operation is allowed; `malloc(3)` keeps its promise. -/
def Op.Pre (s : State) : Op → Prop
  | .enter => True
  | .leave => s.scopes ≠ []
  | .malloc _ al => s.scopes ≠ [] ∧ MallocOk s.arena.frames al
  | .calloc _ _ al => s.scopes ≠ [] ∧ MallocOk s.arena.frames al
  | .realloc o _ al => s.scopes ≠ [] ∧ MallocOk s.arena.frames al ∧ o ∈ s.objs
  | .write o off _ => o ∈ s.objs ∧ off < o.size

/-- Resizing only what belongs to the innermost scope, or shrinking. -/
def Op.Innermost (s : State) : Op → Prop
  | .realloc o size _ => size ≤ o.size ∨ o.scope = s.arena.refs
  | _ => True

/-- Aligned, inside a frame and behind its header, below what is free. -/
def Inside (frames : List Frame) (o : Obj) : Prop :=
  o.addr % 8 = 0 ∧ ∃ f ∈ frames, f.base + HDR ≤ o.addr ∧ o.addr + o.size ≤ f.base + f.len

/-- All that is promised about the live allocations. -/
structure Safe (s : State) : Prop where
  inside : ∀ o ∈ s.objs, Inside s.arena.frames o
  disj : s.objs.Pairwise (fun o p => Disjoint o.addr o.size p.addr p.size)

/-- A program run; `exit` ends it. -/
def runs (s : State) : List Op → Res State
  | [] => .ok s
  | op :: ops =>
    match op.run s with
    | .ok s => runs s ops
    | .exit => .exit | .trap => .trap | .undefined => .undefined

/-- Every operation is allowed when its turn comes. -/
def Allowed (P : State → Op → Prop) (s : State) : List Op → Prop
  | [] => True
  | op :: ops => P s op ∧ ∀ s', op.run s = .ok s' → Allowed P s' ops

/-- The allocations an operation is not about. -/
def Op.others (s : State) : Op → List Obj
  | .realloc o _ _ => s.objs.erase o
  | .write o _ _ => s.objs.erase o
  | .leave => s.objs.filter (fun o => o.scope < s.scopes.length + 1)
  | _ => s.objs

/-- What is promised about one step besides `Safe`: the other allocations stay live with
their contents, memory from `calloc` is zero, resizing keeps the contents up to the smaller
size. -/
structure StepOk (s : State) (op : Op) (s' : State) : Prop where
  live : ∀ p ∈ op.others s, p ∈ s'.objs
  contents : ∀ p ∈ op.others s, ∀ i, i < p.size → s'.mem (p.addr + i) = s.mem (p.addr + i)
  malloced : ∀ n al, op = .malloc n al → ∃ o, s'.objs = o :: s.objs ∧ o.size = n
  calloced : ∀ n m al, op = .calloc n m al → ∃ o, s'.objs = o :: s.objs ∧ o.size = n * m ∧
    ∀ i, i < n * m → s'.mem (o.addr + i) = 0
  realloced : ∀ o n al, op = .realloc o n al → ∃ o', s'.objs = o' :: s.objs.erase o ∧ o'.size = n ∧
    ∀ i, i < o.size → i < n → s'.mem (o'.addr + i) = s.mem (o.addr + i)
  written : ∀ o off v, op = .write o off v → s'.objs = s.objs ∧ s'.mem (o.addr + off) = v ∧
    ∀ i, i ≠ off → s'.mem (o.addr + i) = s.mem (o.addr + i)
  left : op = .leave → s'.objs = op.others s

/-! ## Proofs -/

structure FrameOk (f : Frame) : Prop where
  base : f.base % 8 = 0
  size : f.size % 8 = 0
  len : f.len % 8 = 0
  hdr : HDR ≤ f.len
  fit : f.len ≤ f.size
  pos : 0 < f.base

def Apart (f g : Frame) : Prop := f.base + f.size ≤ g.base ∨ g.base + g.size ≤ f.base

structure FramesOk (fr : List Frame) : Prop where
  each : ∀ f ∈ fr, FrameOk f
  apart : fr.Pairwise Apart

/-- The invariant: `saved` holds the frames as they were when each open scope was entered. -/
def Good : List Frame → List Scope → List (List Frame) → List Obj → Prop
  | fr, [], saved, objs => saved = [] ∧ FramesOk fr ∧ fr ≠ [] ∧ ∀ o ∈ objs, Inside fr o
  | fr, s :: ss, saved, objs => ∃ sv svs, saved = sv :: svs ∧ FramesOk fr ∧ (∀ o ∈ objs, Inside fr o ∧ o.scope ≤ s.id) ∧
      s.id = ss.length + 2 ∧
      (∃ pre f post, fr = pre ++ f :: post ∧ s.frame = some f.base ∧ s.frameLen ≤ f.len ∧
        sv = ⟨f.base, f.size, s.frameLen⟩ :: post) ∧
      Good sv ss svs (objs.filter (fun o => o.scope < s.id))

structure Inv (s : State) (saved : List (List Frame)) : Prop where
  good : Good s.arena.frames s.scopes saved s.objs
  disj : s.objs.Pairwise (fun o p => Disjoint o.addr o.size p.addr p.size)
  refs : s.arena.refs = s.scopes.length + 1
  fs8 : s.arena.frameSize % 8 = 0
  fs0 : 0 < s.arena.frameSize
  sc : ∀ o ∈ s.objs, o.scope ≤ s.arena.refs

theorem Good.framesOk {fr ss saved objs} (h : Good fr ss saved objs) : FramesOk fr := by
  cases ss with
  | nil => exact h.2.1
  | cons s ss => obtain ⟨_, _, _, h, _⟩ := h; exact h

theorem Good.inside {fr ss saved objs} (h : Good fr ss saved objs) : ∀ o ∈ objs, Inside fr o := by
  cases ss with
  | nil => exact h.2.2.2
  | cons s ss => obtain ⟨_, _, _, _, h, _⟩ := h; exact fun o ho => (h o ho).1

theorem Good.ne {fr ss saved objs} (h : Good fr ss saved objs) : fr ≠ [] := by
  cases ss with
  | nil => exact h.2.2.1
  | cons s ss =>
    obtain ⟨_, _, _, _, _, _, ⟨pre, f, post, h, _⟩, _⟩ := h
    subst h; simp

theorem Inv.safe {s saved} (h : Inv s saved) : Safe s := ⟨h.good.inside, h.disj⟩

/-- Fewer and smaller allocations. -/
theorem Good.mono {fr ss saved objs objs'} (h : Good fr ss saved objs)
    (hs : ∀ o' ∈ objs', ∃ o ∈ objs, o'.addr = o.addr ∧ o'.size ≤ o.size ∧ o'.scope = o.scope) :
    Good fr ss saved objs' := by
  have hin : ∀ {fr}, (∀ o ∈ objs, Inside fr o) → ∀ o ∈ objs', Inside fr o := by
    intro fr hi o' ho'
    obtain ⟨o, ho, ha, hz, _⟩ := hs o' ho'
    obtain ⟨h8, f, hf, h1, h2⟩ := hi o ho
    exact ⟨by omega, f, hf, by omega, by omega⟩
  induction ss generalizing fr saved objs objs' with
  | nil => exact ⟨h.1, h.2.1, h.2.2.1, hin h.2.2.2⟩
  | cons s ss ih =>
    obtain ⟨sv, svs, he, hok, hi, hid, hsp, hg⟩ := h
    refine ⟨sv, svs, he, hok, ?_, hid, hsp, ?_⟩
    · intro o' ho'
      refine ⟨hin (fun o ho => (hi o ho).1) o' ho', ?_⟩
      obtain ⟨o, ho, _, _, h⟩ := hs o' ho'
      rw [h]; exact (hi o ho).2
    · have hs' : ∀ o' ∈ objs'.filter (fun o => o.scope < s.id), ∃ o ∈ objs.filter (fun o => o.scope < s.id),
          o'.addr = o.addr ∧ o'.size ≤ o.size ∧ o'.scope = o.scope := by
        intro o' ho'
        simp only [List.mem_filter, decide_eq_true_eq] at ho'
        obtain ⟨o, ho, h⟩ := hs o' ho'.1
        exact ⟨o, by simp only [List.mem_filter, decide_eq_true_eq]; exact ⟨ho, by omega⟩, h⟩
      refine ih hg hs' ?_
      intro fr hi o' ho'
      obtain ⟨o, ho, ha, hz, _⟩ := hs' o' ho'
      obtain ⟨h8, f, hf, h1, h2⟩ := hi o ho
      exact ⟨by omega, f, hf, by omega, by omega⟩

theorem Inside.mono {fr fr' : List Frame} {o : Obj} (h : Inside fr o)
    (hs : ∀ f ∈ fr, ∃ f' ∈ fr', f'.base = f.base ∧ f.len ≤ f'.len) : Inside fr' o := by
  obtain ⟨h8, f, hf, h1, h2⟩ := h
  obtain ⟨f', hf', hb, hl⟩ := hs f hf
  exact ⟨h8, f', hf', by omega, by omega⟩

/-- Room taken in the newest frame. -/
theorem Good.grow {f f' : Frame} {fs s ss saved objs} (h : Good (f :: fs) (s :: ss) saved objs)
    (hok : FrameOk f') (hb : f'.base = f.base) (hz : f'.size = f.size) (hl : f.len ≤ f'.len) :
    Good (f' :: fs) (s :: ss) saved objs := by
  obtain ⟨sv, svs, he, hfr, hi, hid, ⟨pre, g, post, hsp, h1, h2, h3⟩, hg⟩ := h
  refine ⟨sv, svs, he, ⟨?_, ?_⟩, ?_, hid, ?_, hg⟩
  · intro g hg
    rcases List.mem_cons.mp hg with rfl | hg
    · exact hok
    · exact hfr.each g (by simp [hg])
  · have := hfr.apart
    rw [List.pairwise_cons] at this ⊢
    refine ⟨fun g hg => ?_, this.2⟩
    have := this.1 g hg
    unfold Apart at this ⊢
    omega
  · intro o ho
    refine ⟨(hi o ho).1.mono ?_, (hi o ho).2⟩
    intro g hg
    rcases List.mem_cons.mp hg with rfl | hg
    · exact ⟨f', by simp, hb, hl⟩
    · exact ⟨g, by simp [hg], rfl, Nat.le_refl _⟩
  · cases pre with
    | nil =>
      simp only [List.nil_append, List.cons.injEq] at hsp
      obtain ⟨rfl, rfl⟩ := hsp
      exact ⟨[], f', fs, rfl, by rw [hb]; exact h1, by omega, by rw [hb, hz]; exact h3⟩
    | cons p pre =>
      simp only [List.cons_append, List.cons.injEq] at hsp
      obtain ⟨rfl, rfl⟩ := hsp
      exact ⟨f' :: pre, g, post, rfl, h1, h2, h3⟩

/-- A new frame. -/
theorem Good.frame {f : Frame} {fs s ss saved objs} (h : Good fs (s :: ss) saved objs)
    (hok : FrameOk f) (ha : ∀ g ∈ fs, Apart f g) :
    Good (f :: fs) (s :: ss) saved objs := by
  obtain ⟨sv, svs, he, hfr, hi, hid, ⟨pre, g, post, hsp, h⟩, hg⟩ := h
  refine ⟨sv, svs, he, ⟨?_, ?_⟩, ?_, hid, ?_, hg⟩
  · intro g hg
    rcases List.mem_cons.mp hg with rfl | hg
    · exact hok
    · exact hfr.each g hg
  · exact List.pairwise_cons.mpr ⟨ha, hfr.apart⟩
  · intro o ho
    refine ⟨(hi o ho).1.mono ?_, (hi o ho).2⟩
    intro g hg
    exact ⟨g, by simp [hg], rfl, Nat.le_refl _⟩
  · exact ⟨f :: pre, g, post, by rw [hsp]; rfl, h⟩

/-- A new allocation in the innermost scope. -/
theorem Good.obj {fr s ss saved objs} {o : Obj} (h : Good fr (s :: ss) saved objs)
    (hi : Inside fr o) (hs : o.scope = s.id) : Good fr (s :: ss) saved (o :: objs) := by
  obtain ⟨sv, svs, he, hfr, hin, hid, hsp, hg⟩ := h
  refine ⟨sv, svs, he, hfr, ?_, hid, hsp, ?_⟩
  · intro p hp
    rcases List.mem_cons.mp hp with rfl | hp
    · exact ⟨hi, by omega⟩
    · exact hin p hp
  · rw [List.filter_cons_of_neg (by simp [hs])]
    exact hg

theorem align_spec (n : Nat) : align n % 8 = 0 ∧ n ≤ align n ∧ align n < n + 8 := by
  unfold align; omega

theorem push_spec {f f' : Frame} {n p : Nat} (hf : f.size % 8 = 0) (hp : push f n = some (p, f')) :
    p = f.base + f.len ∧ f'.base = f.base ∧ f'.size = f.size ∧ f.len + n ≤ f'.len ∧ f'.len ≤ f.size ∧
      f'.len % 8 = 0 ∧ f'.len = align (f.len + n) := by
  have ha := align_spec (f.len + n)
  have hal : f.len + n ≤ f.size → align (f.len + n) ≤ f.size := by unfold align; omega
  unfold push at hp
  split at hp
  · cases hp
  split at hp
  · cases hp
  simp only [Option.some.injEq, Prod.mk.injEq] at hp
  obtain ⟨rfl, rfl⟩ := hp
  refine ⟨rfl, rfl, rfl, ?_, ?_, ?_, ?_⟩ <;> simp only <;> rw [if_neg (by omega)] <;> omega

/-- An allocation at the end of the newest frame meets no other. -/
theorem fresh {f : Frame} {fs : List Frame} {n : Nat} {o : Obj} (hok : FramesOk (f :: fs)) (hfit : f.len + n ≤ f.size)
    (ho : Inside (f :: fs) o) : Disjoint (f.base + f.len) n o.addr o.size := by
  obtain ⟨_, g, hg, h1, h2⟩ := ho
  intro x hx
  rcases List.mem_cons.mp hg with rfl | hg'
  · omega
  · have := (List.pairwise_cons.mp hok.apart).1 g hg'
    have := (hok.each g hg).fit
    unfold Apart at *
    omega

theorem growSize_spec {a n t : Nat} (h : 0 < a) (h8 : a % 8 = 0) (hg : growSize a t h = some n) :
    t ≤ n ∧ n % 8 = 0 := by
  induction a, h using growSize.induct t with
  | case1 a h hlt hov => rw [growSize, if_pos hlt, if_pos hov] at hg; cases hg
  | case2 a h hlt hov ih =>
    rw [growSize, if_pos hlt, if_neg hov] at hg
    exact ih (by omega) hg
  | case3 a h hlt =>
    rw [growSize, if_neg hlt] at hg
    cases hg
    exact ⟨by omega, h8⟩

theorem frameAlloc_spec {a a' : Arena} {n : Nat} {m : Option Nat} (h8 : n % 8 = 0)
    (hm : ∀ b, m = some b → 0 < b ∧ b % 8 = 0) (h : frameAlloc a n m = some a') :
    ∃ b, m = some b ∧ a' = { a with frames := ⟨b, n, 32⟩ :: a.frames } ∧ FrameOk ⟨b, n, 32⟩ := by
  unfold frameAlloc at h
  cases m with
  | none => cases h
  | some b =>
    obtain ⟨hb0, hb8⟩ := hm b rfl
    simp only [] at h
    cases hp : push ⟨b, n, 0⟩ HDR with
    | none => rw [hp] at h; cases h
    | some r =>
      obtain ⟨p, f⟩ := r
      rw [hp] at h
      simp only [Option.some.injEq] at h
      obtain ⟨_, h1, h2, h3, h4, h5, h6⟩ := push_spec (f := ⟨b, n, 0⟩) h8 hp
      simp only [HDR, align] at h1 h2 h3 h4 h5 h6
      have hl : f.len = 32 := by omega
      have hf : f = ⟨b, n, 32⟩ := by
        cases f; simp only at h1 h2 hl; subst h1 h2 hl; rfl
      subst hf
      exact ⟨b, rfl, h.symm, ⟨hb8, h8, by simp, by simp [HDR], by simpa using h4, hb0⟩⟩

theorem malloc_spec {a a' : Arena} {s : Scope} {ss saved objs} {size p : Nat} {al : Nat → Option Nat}
    (hg : Good a.frames (s :: ss) saved objs) (h8 : a.frameSize % 8 = 0)
    (hal : MallocOk a.frames al) (h : arenaMalloc a s size al = .ok (a', p)) :
    Good a'.frames (s :: ss) saved (⟨p, size, s.id⟩ :: objs) ∧ a'.refs = a.refs ∧ a'.frameSize = a.frameSize ∧
      0 < p ∧ ∀ o ∈ objs, Disjoint p size o.addr o.size := by
  unfold arenaMalloc at h
  split at h
  · cases h
  rename_i hid
  cases hfr : a.frames with
  | nil => exact absurd hfr hg.ne
  | cons f fs =>
    rw [hfr] at h hg hal
    simp only [] at h
    have key : ∀ {f f' : Frame} {fs} {p}, Good (f :: fs) (s :: ss) saved objs → push f size = some (p, f') →
        Good (f' :: fs) (s :: ss) saved (⟨p, size, s.id⟩ :: objs) ∧ 0 < p ∧
          ∀ o ∈ objs, Disjoint p size o.addr o.size := by
      intro f f' fs p hg hp
      have hok := hg.framesOk.each f (by simp)
      obtain ⟨rfl, h1, h2, h3, h4, h5, _⟩ := push_spec hok.size hp
      have hok' : FrameOk f' := ⟨by rw [h1]; exact hok.base, by rw [h2]; exact hok.size, h5, by have := hok.hdr; omega,
        by omega, by rw [h1]; exact hok.pos⟩
      refine ⟨(hg.grow hok' h1 h2 (by omega)).obj ⟨?_, f', by simp, ?_, ?_⟩ rfl, ?_, ?_⟩
      · have := hok.base; have := hok.len; simp only; omega
      · have := hok.hdr; simp only; omega
      · simp only; omega
      · have := hok.pos; omega
      · intro o ho
        exact fresh hg.framesOk (by omega) (hg.inside o ho)
    cases hp : push f size with
    | some r =>
      obtain ⟨q, f'⟩ := r
      rw [hp] at h
      simp only [Res.ok.injEq, Prod.mk.injEq] at h
      obtain ⟨rfl, rfl⟩ := h
      obtain ⟨h1, h2, h3⟩ := key hg hp
      exact ⟨h1, rfl, rfl, h2, h3⟩
    | none =>
      rw [hp] at h
      simp only [mallocSlow] at h
      split at h
      · cases h
      split at h
      · cases h
      rename_i hz
      cases hgs : growSize a.frameSize (size + HDR) (by omega) with
      | none => rw [hgs] at h; cases h
      | some n =>
        rw [hgs] at h
        simp only [] at h
        obtain ⟨hn, hn8⟩ := growSize_spec _ h8 hgs
        cases hfa : frameAlloc a n (al n) with
        | none => rw [hfa] at h; cases h
        | some a1 =>
          rw [hfa] at h
          obtain ⟨b, hb, rfl, hokb⟩ := frameAlloc_spec hn8
            (fun b hb => ⟨(hal n b hb).1, (hal n b hb).2.1⟩) hfa
          simp only [hfr] at h
          have hg1 : Good (⟨b, n, 32⟩ :: f :: fs) (s :: ss) saved objs :=
            hg.frame hokb (fun g hg => (hal n b hb).2.2 g hg)
          cases hp2 : push ⟨b, n, 32⟩ size with
          | none => rw [hp2] at h; cases h
          | some r =>
            obtain ⟨q, f'⟩ := r
            rw [hp2] at h
            simp only [Res.ok.injEq, Prod.mk.injEq] at h
            obtain ⟨rfl, rfl⟩ := h
            obtain ⟨h1, h2, h3⟩ := key hg1 hp2
            exact ⟨h1, rfl, rfl, h2, h3⟩

/-- With a scope that is the innermost one, an allocation does not trap. -/
theorem malloc_outcome {a : Arena} {s : Scope} {size : Nat} {al : Nat → Option Nat}
    (hf : a.frames ≠ []) (hid : s.id = a.refs) (h0 : 0 < a.frameSize) :
    arenaMalloc a s size al = .exit ∨ ∃ r, arenaMalloc a s size al = .ok r := by
  unfold arenaMalloc
  rw [if_neg (by simp [hid])]
  cases hfr : a.frames with
  | nil => exact absurd hfr hf
  | cons f fs =>
    simp only []
    cases push f size with
    | some r => exact .inr ⟨_, rfl⟩
    | none =>
      simp only [mallocSlow]
      split
      · exact .inl rfl
      rw [dif_neg (by omega)]
      cases growSize a.frameSize (size + HDR) (by omega) with
      | none => exact .inl rfl
      | some n =>
        simp only [frameAlloc]
        cases al n with
        | none => exact .inl rfl
        | some b =>
          simp only []
          cases push ⟨b, n, 0⟩ HDR with
          | none => exact .inl rfl
          | some r =>
            simp only []
            cases push r.2 size with
            | none => exact .inl rfl
            | some r => exact .inr ⟨_, rfl⟩

/-- The object at the end of the newest frame: growing it in place meets no other. -/
theorem last_object {f : Frame} {fs : List Frame} {o p : Obj} {new : Nat} (hok : FramesOk (f :: fs))
    (ho : Inside (f :: fs) o) (hp : Inside (f :: fs) p) (hd : Disjoint o.addr o.size p.addr p.size)
    (hlast : align (o.addr + o.size) = f.base + f.len)
    (hfit : o.addr - f.base + new ≤ f.size) :
    f.base + HDR ≤ o.addr ∧ Disjoint o.addr new p.addr p.size := by
  have hal := align_spec (o.addr + o.size)
  obtain ⟨h8, g, hg, h1, h2⟩ := ho
  have hfo := hok.each f (by simp)
  have hH : HDR = 32 := rfl
  have hgf : g = f := by
    rcases List.mem_cons.mp hg with rfl | hg'
    · rfl
    · exfalso
      have h := (List.pairwise_cons.mp hok.apart).1 g hg'
      have hgo := hok.each g hg
      have := hgo.fit; have := hfo.fit; have := hfo.hdr; have := hgo.base; have := hgo.size
      have := hgo.len; have := hfo.base; have := hfo.len
      unfold Apart at h
      omega
  subst hgf
  refine ⟨h1, ?_⟩
  obtain ⟨p8, g', hg', p1, p2⟩ := hp
  intro x hx
  have := hfo.fit
  rcases List.mem_cons.mp hg' with rfl | hg''
  · by_cases hlt : p.addr < o.addr + o.size
    · -- the overlap was there before
      by_cases hos : o.size = 0
      · have := hfo.base; have := hfo.len
        omega
      · have := hd (max o.addr p.addr)
        omega
    · have := hfo.base; have := hfo.len
      omega
  · have h := (List.pairwise_cons.mp hok.apart).1 g' hg''
    have := (hok.each g' hg').fit
    unfold Apart at h
    omega

theorem popFrames_split {pre : List Frame} {f : Frame} {post : List Frame} (hok : FramesOk (pre ++ f :: post)) :
    popFrames (some f.base) (pre ++ f :: post) = f :: post := by
  induction pre with
  | nil => simp [popFrames]
  | cons g pre ih =>
    have h1 := (List.pairwise_cons.mp hok.apart).1 f (by simp)
    have h2 := hok.each f (by simp)
    have h3 := hok.each g (by simp)
    have hne : some g.base ≠ some f.base := by
      intro h
      injection h with h
      have := h2.hdr; have := h2.fit; have := h3.hdr; have := h3.fit
      have hH : HDR = 32 := rfl
      unfold Apart at h1
      omega
    simp only [List.cons_append, popFrames, if_neg hne]
    exact ih ⟨fun x hx => hok.each x (List.mem_cons_of_mem _ hx), (List.pairwise_cons.mp hok.apart).2⟩

/-- The frames to go back to, per open scope. -/
def Op.saved (s : State) (saved : List (List Frame)) : Op → List (List Frame)
  | .enter => s.arena.frames :: saved
  | .leave => saved.tail
  | _ => saved

theorem leave_spec {a : Arena} {s ss saved objs} (hg : Good a.frames (s :: ss) saved objs)
    (hr : a.refs = ss.length + 2) :
    ∃ sv svs, saved = sv :: svs ∧ leave a s = { a with frames := sv, refs := a.refs - 1 } ∧
      Good sv ss svs (objs.filter (fun o => o.scope < s.id)) := by
  obtain ⟨sv, svs, he, hfr, hi, hid, ⟨pre, f, post, hsp, h1, h2, h3⟩, hg⟩ := hg
  refine ⟨sv, svs, he, ?_, hg⟩
  unfold leave
  have hpop := popFrames_split (hsp ▸ hfr)
  simp only [if_neg (show ¬ a.refs = 1 by omega), h1, hsp, hpop, if_pos h2, h3]

theorem enter_good {f : Frame} {fs ss saved objs} {refs : Nat} (hg : Good (f :: fs) ss saved objs)
    (hr : refs = ss.length + 1) :
    (∀ o ∈ objs, o.scope ≤ refs) →
    Good (f :: fs) (⟨some f.base, f.len, refs + 1⟩ :: ss) ((f :: fs) :: saved) objs := by
  intro hsc
  refine ⟨f :: fs, saved, rfl, hg.framesOk, fun o ho => ⟨hg.inside o ho, ?_⟩, by simp [hr], ?_, ?_⟩
  · have := hsc o ho; simp only; omega
  · exact ⟨[], f, fs, rfl, rfl, Nat.le_refl _, rfl⟩
  · refine hg.mono ?_
    intro o' ho'
    exact ⟨o', (List.mem_filter.mp ho').1, rfl, Nat.le_refl _, rfl⟩

theorem realloc_spec {a a' : Arena} {s : Scope} {ss saved objs} {m m' : Mem} {o : Obj} {new p : Nat}
    {al : Nat → Option Nat}
    (hg : Good a.frames (s :: ss) saved objs) (h8 : a.frameSize % 8 = 0)
    (hd : objs.Pairwise (fun o p => Disjoint o.addr o.size p.addr p.size))
    (hal : MallocOk a.frames al) (ho : o ∈ objs) (hin : new ≤ o.size ∨ o.scope = s.id)
    (h : arenaRealloc a s m o.addr o.size new al = .ok (a', m', some p)) :
    Good a'.frames (s :: ss) saved (⟨p, new, if p = o.addr then o.scope else s.id⟩ :: objs.erase o) ∧
      a'.refs = a.refs ∧ a'.frameSize = a.frameSize ∧
      (∀ q ∈ objs.erase o, Disjoint p new q.addr q.size) ∧
      (∀ i, i < o.size → i < new → m' (p + i) = m (o.addr + i)) ∧
      (∀ x, ¬ (p ≤ x ∧ x < p + new) → m' x = m x) := by
  have hdis : ∀ q ∈ objs.erase o, Disjoint o.addr o.size q.addr q.size := by
    have : (o :: objs.erase o).Pairwise (fun o p => Disjoint o.addr o.size p.addr p.size) :=
      (List.Perm.pairwise_iff (fun {a b} h x hx => h x hx.symm) (List.perm_cons_erase ho)).mp hd
    exact (List.pairwise_cons.mp this).1
  have hsub : ∀ q ∈ objs.erase o, q ∈ objs := fun q hq => List.mem_of_mem_erase hq
  have hio := hg.inside o ho
  have hpos : o.addr ≠ 0 := by
    obtain ⟨_, f, _, h1, _⟩ := hio
    have hH : HDR = 32 := rfl
    omega
  unfold arenaRealloc at h
  rw [if_neg (by simp [hio.1]), if_pos hpos] at h
  cases hfr : a.frames with
  | nil => exact absurd hfr hg.ne
  | cons f fs =>
  unfold reallocFast at h
  by_cases hle : new ≤ o.size
  · rw [if_pos hle] at h
    simp only [Res.ok.injEq, Prod.mk.injEq, Option.some.injEq] at h
    obtain ⟨rfl, rfl, rfl⟩ := h
    refine ⟨?_, rfl, rfl, ?_, fun _ _ _ => rfl, fun _ _ => rfl⟩
    · rw [if_pos rfl]
      refine hg.mono ?_
      intro q hq
      rcases List.mem_cons.mp hq with rfl | hq
      · exact ⟨o, ho, rfl, hle, rfl⟩
      · exact ⟨q, hsub q hq, rfl, Nat.le_refl _, rfl⟩
    · intro q hq x hx
      exact hdis q hq x ⟨⟨hx.1.1, by omega⟩, hx.2⟩
  · rw [if_neg hle] at h
    have hos : o.scope = s.id := by omega
    simp only [hfr] at h
    -- the slow path
    have slow : ∀ {r : Res (Arena × Mem × Option Nat)}, r = .ok (a', m', some p) →
        (r = match arenaMalloc a s new al with
          | .ok (a, p) => .ok (a, if o.addr ≠ 0 then memcpy m p o.addr o.size else m, some p)
          | .exit => .exit
          | .trap => .trap
          | .undefined => .undefined) →
        Good a'.frames (s :: ss) saved (⟨p, new, if p = o.addr then o.scope else s.id⟩ :: objs.erase o) ∧
          a'.refs = a.refs ∧ a'.frameSize = a.frameSize ∧
          (∀ q ∈ objs.erase o, Disjoint p new q.addr q.size) ∧
          (∀ i, i < o.size → i < new → m' (p + i) = m (o.addr + i)) ∧
          (∀ x, ¬ (p ≤ x ∧ x < p + new) → m' x = m x) := by
      intro r hr1 hr2
      rw [hr1] at hr2
      cases hm : arenaMalloc a s new al with
      | exit => rw [hm] at hr2; cases hr2
      | trap => rw [hm] at hr2; cases hr2
      | undefined => rw [hm] at hr2; cases hr2
      | ok r =>
        obtain ⟨a1, p1⟩ := r
        rw [hm] at hr2
        simp only [Res.ok.injEq, Prod.mk.injEq, Option.some.injEq, if_pos hpos] at hr2
        obtain ⟨rfl, rfl, rfl⟩ := hr2
        obtain ⟨h1, h2, h3, _, h4⟩ := malloc_spec hg h8 hal hm
        refine ⟨h1.mono ?_, h2, h3, fun q hq => h4 q (hsub q hq), ?_, ?_⟩
        · intro q hq
          rcases List.mem_cons.mp hq with rfl | hq
          · exact ⟨⟨p, new, s.id⟩, by simp, rfl, Nat.le_refl _, by simp [hos]⟩
          · exact ⟨q, by simp [hsub q hq], rfl, Nat.le_refl _, rfl⟩
        · intro i hi _
          have : p + i - p = i := by omega
          simp only [memcpy, this]
          rw [if_pos (by omega)]
        · intro x hx
          simp only [memcpy]
          rw [if_neg (by omega)]
    by_cases hlast : align (o.addr + o.size) = f.base + f.len
    · rw [if_neg (by simpa using hlast)] at h
      cases hp : push { f with len := o.addr - f.base } new with
      | none =>
        simp only [hp] at h
        exact slow h rfl
      | some r =>
        obtain ⟨q, f'⟩ := r
        simp only [hp, Res.ok.injEq, Prod.mk.injEq, Option.some.injEq] at h
        obtain ⟨rfl, rfl, rfl⟩ := h
        have hok := hg.framesOk.each f (by simp [hfr])
        obtain ⟨hq, h1, h2, h3, h4, h5, h6⟩ := push_spec (f := ⟨f.base, f.size, o.addr - f.base⟩) hok.size hp
        simp only at hq h1 h2 h3 h4 h5 h6
        have hfok : FramesOk (f :: fs) := hfr ▸ hg.framesOk
        have hio' : Inside (f :: fs) o := hfr ▸ hio
        have hlo : f.base + HDR ≤ o.addr ∧ ∀ q ∈ objs.erase o, Disjoint o.addr new q.addr q.size := by
          refine ⟨?_, fun q hq => (last_object hfok hio' (hfr ▸ hg.inside q (hsub q hq)) (hdis q hq) hlast (by omega)).2⟩
          exact (last_object (p := ⟨o.addr, 0, 0⟩) (new := new) hfok hio' ⟨hio'.1, by
            obtain ⟨_, g, hg, h1, h2⟩ := hio'
            exact ⟨g, hg, h1, by simp only; omega⟩⟩ (by intro x hx; simp only at hx; omega) hlast (by omega)).1
        have hmono : align (o.addr + o.size) ≤ f.base + align (o.addr - f.base + new) := by
          have := hok.base
          have := hlo.1
          unfold align
          omega
        have hH : HDR = 32 := rfl
        have hhdr := hok.hdr
        have hl : f.len ≤ f'.len := by omega
        have hok' : FrameOk f' := ⟨by rw [h1]; exact hok.base, by rw [h2]; exact hok.size, h5, by omega,
          by omega, by rw [h1]; exact hok.pos⟩
        refine ⟨?_, rfl, rfl, hlo.2, fun _ _ _ => rfl, fun _ _ => rfl⟩
        rw [if_pos rfl, hos]
        have hg1 := (hfr ▸ hg : Good (f :: fs) (s :: ss) saved objs).grow hok' h1 h2 hl
        refine Good.obj (hg1.mono ?_) ⟨hio.1, f', by simp, by simp only; omega, by simp only; omega⟩ rfl
        intro q hq
        exact ⟨q, hsub q hq, rfl, Nat.le_refl _, rfl⟩
    · rw [if_pos hlast] at h
      simp only [] at h
      exact slow h rfl

theorem realloc_outcome {a : Arena} {s : Scope} {m : Mem} {ptr old new : Nat} {al : Nat → Option Nat}
    (hf : a.frames ≠ []) (hid : s.id = a.refs) (h0 : 0 < a.frameSize) (h8 : ptr % 8 = 0) :
    arenaRealloc a s m ptr old new al = .exit ∨ ∃ a' m' p, arenaRealloc a s m ptr old new al = .ok (a', m', some p) := by
  have hm := malloc_outcome (size := new) (al := al) hf hid h0
  unfold arenaRealloc
  rw [if_neg (by simp [h8])]
  have hnone : (if ptr ≠ 0 then reallocFast a ptr old new else some none) ≠ none := by
    split
    · unfold reallocFast
      split
      · simp
      · cases hfr : a.frames with
        | nil => exact absurd hfr hf
        | cons f fs =>
          simp only []
          split
          · simp
          · split <;> simp
    · simp
  cases hr : (if ptr ≠ 0 then reallocFast a ptr old new else some none) with
  | none => exact absurd hr hnone
  | some r =>
    cases r with
    | some a' => exact .inr ⟨_, _, _, rfl⟩
    | none =>
      simp only []
      rcases hm with hm | ⟨⟨a', p⟩, hm⟩
      · rw [hm]; exact .inl rfl
      · rw [hm]; exact .inr ⟨_, _, _, rfl⟩

theorem erase_disjoint {objs : List Obj} {o : Obj} (ho : o ∈ objs)
    (hd : objs.Pairwise (fun o p => Disjoint o.addr o.size p.addr p.size)) :
    ∀ q ∈ objs.erase o, Disjoint o.addr o.size q.addr q.size := by
  have : (o :: objs.erase o).Pairwise (fun o p => Disjoint o.addr o.size p.addr p.size) :=
    (List.Perm.pairwise_iff (fun {a b} h x hx => h x hx.symm) (List.perm_cons_erase ho)).mp hd
  exact (List.pairwise_cons.mp this).1

theorem Good.id {fr s ss saved objs} (h : Good fr (s :: ss) saved objs) : s.id = ss.length + 2 := by
  obtain ⟨_, _, _, _, _, h, _⟩ := h; exact h

/-- How the open scopes change. -/
structure Shape (s : State) (op : Op) (s' : State) : Prop where
  size : s'.arena.frameSize = s.arena.frameSize
  enter : op = .enter → s'.scopes.tail = s.scopes
  leave : op = .leave → s'.scopes = s.scopes.tail
  keep : op ≠ .enter → op ≠ .leave → s'.scopes = s.scopes

/-- One operation. -/
theorem step {s : State} {saved} {op : Op} (hI : Inv s saved) (hpre : op.Pre s) (hin : op.Innermost s) :
    op.run s = .exit ∨ ∃ s', op.run s = .ok s' ∧ Inv s' (op.saved s saved) ∧ StepOk s op s' ∧
      (op = .leave → saved.head? = some s'.arena.frames) ∧ Shape s op s' := by
  obtain ⟨a, scs, objs, m⟩ := s
  have hg := hI.good
  have hd := hI.disj
  have hr := hI.refs
  have h8 := hI.fs8
  have h0 := hI.fs0
  have hsc := hI.sc
  simp only at hg hd hr h8 h0 hsc
  cases op with
  | enter =>
    right
    cases hfr : a.frames with
    | nil => exact absurd hfr hg.ne
    | cons f fs =>
      refine ⟨⟨{ a with refs := a.refs + 1 }, ⟨some f.base, f.len, a.refs + 1⟩ :: scs, objs, m⟩, ?_, ?_, ?_, ?_, ⟨rfl, by simp, by simp, by simp⟩⟩
      · simp only [Op.run, enter, hfr]
      · refine ⟨?_, hd, ?_, h8, h0, ?_⟩
        · simp only [Op.saved, hfr]
          exact enter_good (hfr ▸ hg) hr hsc
        · simp [hr]
        · intro o ho
          have := hsc o ho
          simp only; omega
      · constructor <;> simp [Op.others] <;> grind
      · simp
  | leave =>
    right
    cases scs with
    | nil => exact absurd rfl hpre
    | cons sc scs =>
      obtain ⟨sv, svs, rfl, hl, hg'⟩ := leave_spec hg (by simpa using hr)
      have hid := hg.id
      refine ⟨⟨{ a with frames := sv, refs := a.refs - 1 }, scs, objs.filter (fun o => o.scope < sc.id), m⟩, ?_, ?_, ?_, ?_, ⟨rfl, by simp, by simp, by simp⟩⟩
      · simp only [Op.run, hl]
      · refine ⟨hg', hd.filter _, ?_, h8, h0, ?_⟩
        · simp at hr ⊢; omega
        · intro o ho
          simp only [List.mem_filter, decide_eq_true_eq] at ho
          simp at hr ⊢; omega
      · constructor <;> simp [Op.others, hid]
      · simp
  | malloc n al =>
    cases scs with
    | nil => exact absurd rfl hpre.1
    | cons sc scs =>
      have hid := hg.id
      rcases malloc_outcome (a := a) (s := sc) (size := n) (al := al) hg.ne (by simp at hr; omega) h0 with he | ⟨⟨a', p⟩, he⟩
      · left; simp only [Op.run, he]
      · right
        obtain ⟨h1, h2, h3, _, h4⟩ := malloc_spec hg h8 hpre.2 he
        refine ⟨⟨a', sc :: scs, ⟨p, n, sc.id⟩ :: objs, m⟩, by simp only [Op.run, he], ?_, ?_, by simp, ⟨h3, by simp, by simp, by simp⟩⟩
        · refine ⟨h1, List.pairwise_cons.mpr ⟨h4, hd⟩, by rw [h2]; exact hr, by rw [h3]; exact h8, by rw [h3]; exact h0, ?_⟩
          intro o ho
          simp only [h2]
          rcases List.mem_cons.mp ho with rfl | ho
          · simp at hr ⊢; omega
          · exact hsc o ho
        · constructor <;> simp [Op.others] <;> grind
  | calloc n k al =>
    cases scs with
    | nil => exact absurd rfl hpre.1
    | cons sc scs =>
      have hid := hg.id
      simp only [Op.run, arenaCalloc]
      by_cases hov : n * k > SIZE_MAX
      · left; rw [if_pos hov]
      rw [if_neg hov]
      rcases malloc_outcome (a := a) (s := sc) (size := n * k) (al := al) hg.ne (by simp at hr; omega) h0 with he | ⟨⟨a', p⟩, he⟩
      · left; simp only [he]
      · right
        obtain ⟨h1, h2, h3, _, h4⟩ := malloc_spec hg h8 hpre.2 he
        refine ⟨⟨a', sc :: scs, ⟨p, n * k, sc.id⟩ :: objs, memset0 m p (n * k)⟩, by simp only [he], ?_, ?_, by simp, ⟨h3, by simp, by simp, by simp⟩⟩
        · refine ⟨h1, List.pairwise_cons.mpr ⟨h4, hd⟩, by rw [h2]; exact hr, by rw [h3]; exact h8, by rw [h3]; exact h0, ?_⟩
          intro o ho
          simp only [h2]
          rcases List.mem_cons.mp ho with rfl | ho
          · simp at hr ⊢; omega
          · exact hsc o ho
        · constructor <;> simp only [Op.others]
          · intro q hq; simp [hq]
          · intro q hq i hi
            have := h4 q hq (q.addr + i)
            simp only [memset0]
            rw [if_neg (by omega)]
          · simp
          · rintro n' k' al' h
            injection h with h1 h2 h3
            subst h1 h2
            refine ⟨_, rfl, rfl, ?_⟩
            intro i hi
            simp only [memset0]
            rw [if_pos (by omega)]
          · simp
          · simp
          · simp
  | realloc o n al =>
    cases scs with
    | nil => exact absurd rfl hpre.1
    | cons sc scs =>
      have hid := hg.id
      have ho : o ∈ objs := hpre.2.2
      simp only [Op.run]
      rcases realloc_outcome (a := a) (s := sc) (m := m) (ptr := o.addr) (old := o.size) (new := n) (al := al) hg.ne
        (by simp at hr; omega) h0 (hg.inside o ho).1 with he | ⟨a', m', p, he⟩
      · left; simp only [he]
      · right
        have hin' : n ≤ o.size ∨ o.scope = sc.id := by
          rcases hin with h | h
          · exact .inl h
          · right; simp at hr h; omega
        obtain ⟨h1, h2, h3, h4, h5, h6⟩ := realloc_spec hg h8 hd hpre.2.1 ho hin' he
        refine ⟨⟨a', sc :: scs, ⟨p, n, if p = o.addr then o.scope else sc.id⟩ :: objs.erase o, m'⟩, by simp only [he], ?_, ?_, by simp, ⟨h3, by simp, by simp, by simp⟩⟩
        · refine ⟨h1, List.pairwise_cons.mpr ⟨h4, hd.sublist (List.erase_sublist ..)⟩, by rw [h2]; exact hr,
            by rw [h3]; exact h8, by rw [h3]; exact h0, ?_⟩
          intro q hq
          simp only [h2]
          rcases List.mem_cons.mp hq with rfl | hq
          · simp only
            split
            · exact hsc o ho
            · simp at hr ⊢; omega
          · exact hsc q (List.mem_of_mem_erase hq)
        · constructor <;> simp only [Op.others]
          · intro q hq; simp [hq]
          · intro q hq i hi
            refine h6 _ ?_
            have := h4 q hq (q.addr + i)
            omega
          · simp
          · simp
          · rintro o' n' al' h
            injection h with e1 e2 e3
            subst e1 e2
            exact ⟨_, rfl, rfl, h5⟩
          · simp
          · simp
  | write o off v =>
    right
    refine ⟨⟨a, scs, objs, fun x => if x = o.addr + off then v else m x⟩, rfl, ⟨hg, hd, hr, h8, h0, hsc⟩, ?_, by simp, ⟨rfl, by simp, by simp, by simp⟩⟩
    have ho : o ∈ objs := hpre.1
    have hoff : off < o.size := hpre.2
    have hdis := erase_disjoint ho hd
    constructor <;> simp only [Op.others]
    · intro q hq; exact List.mem_of_mem_erase hq
    · intro q hq i hi
      have := hdis q hq (q.addr + i)
      rw [if_neg (by omega)]
    · simp
    · simp
    · simp
    · rintro o' off' v' h
      injection h with e1 e2 e3
      subst e1 e2 e3
      refine ⟨trivial, by simp, ?_⟩
      intro i hi
      rw [if_neg (by omega)]
    · simp

/-- The state after `arena_alloc`. -/
def start (a : Arena) : State := { arena := a, scopes := [], objs := [], mem := fun _ => 0 }

theorem alloc_inv {page : Nat} {mem : Option Nat} {a : Arena} (h8 : page % 8 = 0)
    (hm : ∀ b, mem = some b → 0 < b ∧ b % 8 = 0) (h : arenaAlloc page mem = .ok a) : Inv (start a) [] := by
  unfold arenaAlloc at h
  split at h
  · cases h
  · rename_i a' ha
    injection h with h
    subst h
    obtain ⟨b, _, rfl, hok⟩ := frameAlloc_spec (by omega) hm ha
    refine ⟨⟨rfl, ⟨?_, ?_⟩, List.cons_ne_nil _ _, by simp [start]⟩, by simp [start], by simp [start], ?_, ?_, by simp [start]⟩
    · intro f hf; simp [start] at hf; subst hf; exact hok
    · simp [start]
    · simp only [start]; omega
    · have := hok.fit
      simp only [start] at this ⊢
      omega

/-- What holds along a run. -/
def Along (P : State → Op → State → Prop) (s : State) : List Op → Prop
  | [] => True
  | op :: ops => ∀ s', op.run s = .ok s' → P s op s' ∧ Along P s' ops

/-- **C41**, up to resizing an allocation of an outer scope: whatever a program does with an
arena, it never traps and never reaches undefined behaviour, at every moment the live
allocations are aligned, lie inside frames obtained from `malloc(3)` and do not overlap each
other, and every step leaves the contents of what it is not about alone. -/
theorem arena_history_partial {page : Nat} {mem : Option Nat} {a : Arena} {ops : List Op} (h8 : page % 8 = 0)
    (hm : ∀ b, mem = some b → 0 < b ∧ b % 8 = 0) (ha : arenaAlloc page mem = .ok a)
    (hops : Allowed (fun s op => op.Pre s ∧ op.Innermost s) (start a) ops) :
    (runs (start a) ops = .exit ∨ ∃ s, runs (start a) ops = .ok s) ∧
      Along (fun s op s' => Safe s ∧ Safe s' ∧ StepOk s op s') (start a) ops := by
  have hI := alloc_inv h8 hm ha
  generalize start a = s at hops hI
  generalize ([] : List (List Frame)) = saved at hI
  induction ops generalizing s saved with
  | nil => exact ⟨.inr ⟨_, rfl⟩, trivial⟩
  | cons op ops ih =>
    obtain ⟨⟨hpre, hin⟩, hrest⟩ := hops
    rcases step hI hpre hin with he | ⟨s', he, hI', hS, _, _⟩
    · refine ⟨.inl (by simp only [runs, he]), ?_⟩
      intro s' hs'
      rw [he] at hs'; cases hs'
    · have := ih s' (hrest s' he) _ hI'
      refine ⟨by simpa only [runs, he] using this.1, ?_⟩
      intro s'' hs''
      rw [he] at hs''
      injection hs'' with hs''
      subst hs''
      exact ⟨⟨hI.safe, hI'.safe, hS⟩, this.2⟩

/-- Each scope entered in between is left in between. -/
def balanced : Nat → List Op → Prop
  | n, [] => n = 0
  | n, .enter :: ops => balanced (n + 1) ops
  | 0, .leave :: _ => False
  | n + 1, .leave :: ops => balanced n ops
  | n, _ :: ops => balanced n ops

theorem runs_append (s : State) (xs ys : List Op) : runs s (xs ++ ys) =
    match runs s xs with | .ok s => runs s ys | .exit => .exit | .trap => .trap | .undefined => .undefined := by
  induction xs generalizing s with
  | nil => rfl
  | cons x xs ih =>
    simp only [List.cons_append, runs]
    cases x.run s <;> simp [ih]

theorem balanced_saved {s s' : State} {top base : List (List Frame)} {ops : List Op} (hI : Inv s (top ++ base))
    (hops : Allowed (fun s op => op.Pre s ∧ op.Innermost s) s ops) (hb : balanced top.length ops)
    (hr : runs s ops = .ok s') :
    Inv s' base ∧ s'.scopes = s.scopes.drop top.length ∧ s'.arena.frameSize = s.arena.frameSize := by
  induction ops generalizing s top with
  | nil =>
    simp only [balanced, List.length_eq_zero_iff] at hb
    subst hb
    injection hr with hr; subst hr
    exact ⟨hI, rfl, rfl⟩
  | cons op ops ih =>
    obtain ⟨⟨hpre, hin⟩, hrest⟩ := hops
    rcases step hI hpre hin with he | ⟨s1, he, hI', _, _, hsh⟩
    · simp only [runs, he] at hr; cases hr
    · simp only [runs, he] at hr
      cases op with
      | enter =>
        obtain ⟨h1, h2, h3⟩ := ih (top := s.arena.frames :: top) hI' (hrest s1 he) (by simpa [balanced] using hb) hr
        refine ⟨h1, ?_, h3.trans hsh.size⟩
        rw [h2, ← hsh.enter rfl, List.length_cons, List.drop_tail]
      | leave =>
        cases top with
        | nil => simp [balanced] at hb
        | cons t top =>
          obtain ⟨h1, h2, h3⟩ := ih (top := top) hI' (hrest s1 he) (by simpa [balanced] using hb) hr
          refine ⟨h1, ?_, h3.trans hsh.size⟩
          rw [h2, hsh.leave rfl, List.length_cons, List.drop_tail]
      | _ =>
        obtain ⟨h1, h2, h3⟩ := ih (top := top) hI' (hrest s1 he) (by cases hl : top.length <;> simpa [balanced, hl] using hb) hr
        exact ⟨h1, by rw [h2, hsh.keep (by simp) (by simp)], h3.trans hsh.size⟩

theorem Allowed.append {P : State → Op → Prop} {s : State} {xs ys : List Op} (h : Allowed P s (xs ++ ys)) :
    Allowed P s xs ∧ ∀ s', runs s xs = .ok s' → Allowed P s' ys := by
  induction xs generalizing s with
  | nil => refine ⟨trivial, ?_⟩; rintro s' hs; injection hs with hs; subst hs; exact h
  | cons x xs ih =>
    obtain ⟨h1, h2⟩ := h
    refine ⟨⟨h1, fun s' hs' => (ih (h2 s' hs')).1⟩, ?_⟩
    intro s' hs'
    cases hx : x.run s with
    | ok s1 => simp only [runs, hx] at hs'; exact (ih (h2 s1 hx)).2 s' hs'
    | exit => simp only [runs, hx] at hs'; cases hs'
    | trap => simp only [runs, hx] at hs'; cases hs'
    | undefined => simp only [runs, hx] at hs'; cases hs'

theorem runs_inv {s s' : State} {saved} {ops : List Op} (hI : Inv s saved)
    (hops : Allowed (fun s op => op.Pre s ∧ op.Innermost s) s ops) (hr : runs s ops = .ok s') :
    ∃ saved', Inv s' saved' := by
  induction ops generalizing s saved with
  | nil => injection hr with hr; subst hr; exact ⟨_, hI⟩
  | cons op ops ih =>
    obtain ⟨⟨hpre, hin⟩, hrest⟩ := hops
    rcases step hI hpre hin with he | ⟨s1, he, hI', _, _, _⟩
    · simp only [runs, he] at hr; cases hr
    · simp only [runs, he] at hr
      exact ih hI' (hrest s1 he) hr

/-- **C41**, scopes: entering a scope at any point of a program, doing whatever and leaving
it gives the arena back exactly as it was. Everything allocated since is free again, nothing
else is. -/
theorem scope_restores {page : Nat} {mem : Option Nat} {a : Arena} {before ops : List Op} {s s' : State}
    (h8 : page % 8 = 0)
    (hm : ∀ b, mem = some b → 0 < b ∧ b % 8 = 0) (ha : arenaAlloc page mem = .ok a)
    (hops : Allowed (fun s op => op.Pre s ∧ op.Innermost s) (start a) (before ++ .enter :: (ops ++ [.leave])))
    (hb : balanced 0 ops) (hs : runs (start a) before = .ok s)
    (hr : runs s (.enter :: (ops ++ [.leave])) = .ok s') :
    s'.arena = s.arena ∧ s'.scopes = s.scopes := by
  obtain ⟨hops1, hops2⟩ := Allowed.append hops
  have hops3 := hops2 s hs
  obtain ⟨saved, hI⟩ := runs_inv (alloc_inv h8 hm ha) hops1 hs
  obtain ⟨⟨hpre, hin⟩, hrest⟩ := hops3
  rcases step hI hpre hin with he | ⟨s1, he, hI1, _, _, hsh⟩
  · simp only [runs, he] at hr; cases hr
  · simp only [runs, he] at hr
    obtain ⟨ha1, ha2⟩ := Allowed.append (hrest s1 he)
    rw [runs_append] at hr
    cases h2 : runs s1 ops with
    | exit => rw [h2] at hr; cases hr
    | trap => rw [h2] at hr; cases hr
    | undefined => rw [h2] at hr; cases hr
    | ok s2 =>
      rw [h2] at hr
      simp only [] at hr
      obtain ⟨hI2, hsc, hz⟩ := balanced_saved (top := []) hI1 ha1 hb h2
      obtain ⟨⟨hpre2, hin2⟩, _⟩ := ha2 s2 h2
      rcases step hI2 hpre2 hin2 with he2 | ⟨s3, he3, hI3, _, hh, hsh3⟩
      · simp only [runs, he2] at hr; cases hr
      · simp only [runs, he3, Res.ok.injEq] at hr
        subst hr
        have hfr : s3.arena.frames = s.arena.frames := by
          have := hh rfl
          simpa [Op.saved] using this.symm
        have hsc3 : s3.scopes = s.scopes := by
          rw [hsh3.leave rfl, hsc, List.length_nil, List.drop_zero, hsh.enter rfl]
        refine ⟨?_, hsc3⟩
        have h1 := hI3.refs
        have h2 := hI.refs
        have h3 := hsh3.size
        have h4 := hsh.size
        rw [hsc3, ← h2] at h1
        generalize s3.arena = x at *
        generalize s.arena = y at *
        cases x; cases y
        simp only at *
        subst hfr h1
        congr 1
        omega

/-! ## What goes wrong -/

/-- A page size of 256 and `malloc(3)` always succeeding far away. -/
def exArena : Arena := { frames := [⟨4096, 4096, 32⟩], frameSize := 4096, refs := 1 }

example : arenaAlloc 256 (some 4096) = .ok exArena := rfl

/-- Is every pair of live allocations disjoint (checked on bounds, for the examples)? -/
def noOverlap (objs : List Obj) : Bool :=
  objs.all (fun o => (objs.erase o).all (fun p => o.addr + o.size ≤ p.addr ∨ p.addr + p.size ≤ o.addr))

def finalObjs (s : State) (ops : List Op) : Option (List Obj) :=
  match runs s ops with | .ok s => some s.objs | _ => none

/-- A program that grows, within an inner scope, an allocation of the outer one and then
allocates in the outer one. -/
def growOuter : List Op :=
  [.enter, .malloc 8 (fun _ => none), .enter, .realloc ⟨4128, 8, 2⟩ 64 (fun _ => none), .leave, .malloc 8 (fun _ => none)]

/-- **C41 is false of the code as it stands**: `arena_realloc` extends the last allocation of
the frame in place without checking the scope. If the allocation belongs to an outer scope,
leaving the inner one gives its tail away, and the next allocation overlaps it. -/
theorem realloc_of_outer_scope_overlaps :
    ∃ s o p, Allowed Op.Pre (start exArena) growOuter ∧ runs (start exArena) growOuter = .ok s ∧
      s.objs = [p, o] ∧ o.addr ≤ p.addr ∧ p.addr + p.size ≤ o.addr + o.size ∧ 0 < p.size := by
  refine ⟨⟨⟨[⟨4096, 4096, 48⟩], 4096, 2⟩, [⟨some 4096, 32, 2⟩], [⟨4136, 8, 2⟩, ⟨4128, 64, 2⟩], fun _ => 0⟩,
    ⟨4128, 64, 2⟩, ⟨4136, 8, 2⟩, ?_, rfl, rfl, by decide, by decide, by decide⟩
  simp only [growOuter, Allowed]
  refine ⟨trivial, ?_⟩
  rintro s h; cases h
  refine ⟨⟨by simp, by simp [MallocOk]⟩, ?_⟩
  rintro s h; cases h
  refine ⟨trivial, ?_⟩
  rintro s h; cases h
  refine ⟨⟨by simp, by simp [MallocOk], by simp [start, exArena]⟩, ?_⟩
  rintro s h; cases h
  refine ⟨by simp [Op.Pre], ?_⟩
  rintro s h; cases h
  refine ⟨⟨by simp, by simp [MallocOk]⟩, ?_⟩
  rintro s h; cases h
  trivial

/-- The same allocation made through the slow path would have been caught. -/
example : ∃ a sc, enter exArena = .ok (a, sc) ∧ ∃ a' sc', enter a = .ok (a', sc') ∧
    arenaMalloc a' sc 8 (fun _ => none) = .trap := ⟨_, _, rfl, _, _, rfl, rfl⟩

/-- Scopes left in the wrong order: the frame is considered empty, header included, and the
next allocation is the frame header itself. -/
theorem leave_out_of_order_hands_out_header :
    ∃ a1 s1 a2 s2 a3 p, enter exArena = .ok (a1, s1) ∧ arenaMalloc a1 s1 8 (fun _ => none) = .ok (a2, p) ∧
      enter a2 = .ok (a3, s2) ∧ ∃ a4 s3 a5, enter (leave (leave a3 s1) s2) = .ok (a4, s3) ∧
      arenaMalloc a4 s3 8 (fun _ => none) = .ok (a5, 4096) :=
  ⟨_, _, _, _, _, _, rfl, rfl, rfl, _, _, _, rfl, rfl⟩

/-- A program meeting the hypotheses: nested scopes, growing in place and by moving, a second
frame. -/
def exProg : List Op :=
  [.enter, .malloc 10 (fun _ => none), .calloc 3 4 (fun _ => none), .realloc ⟨4144, 12, 2⟩ 30 (fun _ => none),
   .write ⟨4144, 30, 2⟩ 29 7, .enter, .malloc 5000 (fun _ => some 65536), .realloc ⟨65568, 5000, 3⟩ 40 (fun _ => none),
   .leave, .realloc ⟨4128, 10, 2⟩ 20 (fun _ => none), .malloc 1 (fun _ => none)]

example : finalObjs (start exArena) exProg = some [⟨4200, 1, 2⟩, ⟨4176, 20, 2⟩, ⟨4144, 30, 2⟩] := by decide +kernel
example : finalObjs (start exArena) (exProg.take 8) = some [⟨65568, 40, 3⟩, ⟨4144, 30, 2⟩, ⟨4128, 10, 2⟩] := by
  decide +kernel
example : noOverlap [⟨4200, 1, 2⟩, ⟨4176, 20, 2⟩, ⟨4144, 30, 2⟩] = true := by decide

end Knfmt.Arena
