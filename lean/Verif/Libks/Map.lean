import Verif.Common
/-!
# libks/map.c

The hash map, for an arbitrary hash function in place of `HASH_JEN`. Elements are
identified by the order of their allocation; a value is the memory of an element, so
finding a key gives the element. Chains and the list in insertion order are lists of
elements; since an element is linked into a chain at most once, unlinking it is filtering
it out. Access to a bucket that does not exist or to an element no longer there is
undefined behaviour (`none`). Counters are 32 bit unsigned integers.
-/
set_option linter.unusedSectionVars false

namespace Knfmt.KMap

/-- `struct map_element`, libks/map.c:34-42. -/
structure Elem (K : Type) where
  id : Nat
  key : K
  hashv : Nat
deriving DecidableEq, Repr

/-- `struct UT_hash_bucket`, libks/map.c:335-352. -/
structure Bkt (K : Type) where
  chain : List (Elem K)
  count : Nat
  mult : Nat
deriving Repr

/-- `struct UT_hash_table`, libks/map.c:354-376. The number of buckets is the length of
the list. -/
structure Tbl (K : Type) where
  buckets : List (Bkt K)
  log2 : Nat
  numItems : Nat
  ineff : Nat
  noexpand : Bool
deriving Repr

/-- `struct map`, libks/map.c:44-62: the elements in insertion order, the table, and how
many elements have been allocated. The table is gone if there are no elements. -/
structure Map (K : Type) where
  app : List (Elem K)
  tbl : Option (Tbl K)
  allocated : Nat
deriving Repr

/-- Which of the allocations of an insertion fail. -/
structure Fail where
  elem : Bool
  table : Bool
  expand : Bool

variable {K : Type} [DecidableEq K]

/-- `MAP_INIT`, libks/map.c:101-130. -/
def init : Map K := { app := [], tbl := none, allocated := 0 }

/-- Unsigned 32 bit arithmetic. -/
def u32 (n : Nat) : Nat := n % 2 ^ 32

/-- `HASH_TO_BKT`, libks/map.c:608-612. -/
def toBkt (hashv n : Nat) : Nat := hashv &&& (n - 1)

def emptyBkt : Bkt K := { chain := [], count := 0, mult := 0 }

/-- `HASH_MAKE_TABLE`, libks/map.c:588-606. -/
def makeTable : Tbl K :=
  { buckets := List.replicate 32 emptyBkt, log2 := 5, numItems := 0, ineff := 0, noexpand := false }

/-- Body of the inner loop of `HASH_EXPAND_BUCKETS`, libks/map.c:538-553: the element goes
in front of its new chain. The number counts the items beyond the ideal chain length. -/
def rehash (ideal : Nat) (acc : Option (List (Bkt K) × Nat)) (e : Elem K) : Option (List (Bkt K) × Nat) :=
  match acc with
  | none => none
  | some (bs, nonideal) =>
    let i := toBkt e.hashv bs.length
    match bs[i]? with
    | none => none
    | some b =>
      let count := u32 (b.count + 1)
      let over := decide (count > ideal)
      let mult := if over && decide (count > u32 (b.mult * ideal)) then u32 (b.mult + 1) else b.mult
      some (bs.set i { chain := e :: b.chain, count := count, mult := mult },
        if over then u32 (nonideal + 1) else nonideal)

/-- `HASH_EXPAND_BUCKETS`, libks/map.c:516-565: `some none` is the error returned. -/
def expand (t : Tbl K) (fail : Bool) : Option (Option (Tbl K)) :=
  let n := t.buckets.length * 2
  if n ≥ 2 ^ 32 then some none
  else if fail then some none
  else
    let ideal := (t.numItems >>> (t.log2 + 1)) + (if t.numItems &&& (n - 1) ≠ 0 then 1 else 0)
    match (t.buckets.flatMap Bkt.chain).foldl (rehash ideal) (some (List.replicate n emptyBkt, 0)) with
    | none => none
    | some (bs, nonideal) =>
      let ineff := if nonideal > t.numItems >>> 1 then u32 (t.ineff + 1) else 0
      some (some { t with buckets := bs, log2 := t.log2 + 1, ineff := ineff,
                          noexpand := t.noexpand || decide (ineff > 1) })

/-- Put an element in front of bucket `i`, libks/map.c:405-413. -/
def pushed (t : Tbl K) (i : Nat) (b : Bkt K) (e : Elem K) : Tbl K :=
  { t with buckets := t.buckets.set i { b with chain := e :: b.chain, count := u32 (b.count + 1) },
           numItems := u32 (t.numItems + 1) }

/-- `HASH_ADD_TO_TABLE`, libks/map.c:399-421; the flag is the error returned. -/
def addToTable (t : Tbl K) (e : Elem K) (fail : Bool) : Option (Tbl K × Bool) :=
  let i := toBkt e.hashv t.buckets.length
  match t.buckets[i]? with
  | none => none
  | some b =>
    if u32 (b.count + 1) ≥ u32 (u32 (b.mult + 1) * 10) ∧ !t.noexpand then
      match expand (pushed t i b e) fail with
      | none => none
      | some none => some (pushed t i b e, true)
      | some (some t) => some (t, false)
    else some (pushed t i b e, false)

/-- `map_insert_n` and `HASH_ADD`, libks/map.c:156-171 and 378-397: the element inserted, or
`none` if the call returned `NULL`. -/
def insert (hash : K → Nat) (m : Map K) (key : K) (fail : Fail) : Option (Map K × Option Nat) :=
  if fail.elem then some (m, none)
  else
    let e : Elem K := { id := m.allocated, key := key, hashv := hash key }
    let m := { m with allocated := m.allocated + 1 }
    match m.tbl with
    | none =>
      if fail.table then some (m, none)
      else
        match addToTable makeTable e fail.expand with
        | none => none
        | some (t, err) => some ({ m with app := [e], tbl := some t }, if err then none else some e.id)
    | some t =>
      match addToTable t e fail.expand with
      | none => none
      | some (t, err) =>
        some ({ m with app := m.app ++ [e], tbl := some t }, if err then none else some e.id)

/-- `HASH_FIND`, libks/map.c:567-586. -/
def hashFind (hash : K → Nat) (m : Map K) (key : K) : Option (Option (Elem K)) :=
  match m.app, m.tbl with
  | [], _ => some none
  | _ :: _, none => none
  | _ :: _, some t =>
    match t.buckets[toBkt (hash key) t.buckets.length]? with
    | none => none
    | some b => some (b.chain.find? fun e => e.hashv = hash key ∧ e.key = key)

/-- `map_find`, libks/map.c:182-194. -/
def find (hash : K → Nat) (m : Map K) (key : K) : Option (Option Nat) :=
  (hashFind hash m key).map fun r => r.map Elem.id

/-- `HASH_DELETE` and `HASH_DEL_IN_BKT`, libks/map.c:444-485. -/
def hashDelete (m : Map K) (e : Elem K) : Option (Map K) :=
  match m.app with
  | [] => none
  | [_] => some { m with app := [], tbl := none }
  | _ =>
    match m.tbl with
    | none => none
    | some t =>
      let i := toBkt e.hashv t.buckets.length
      match t.buckets[i]? with
      | none => none
      | some b =>
        let b := { b with chain := b.chain.filter (fun x => x.id ≠ e.id), count := u32 (b.count + (2 ^ 32 - 1)) }
        let t := { t with buckets := t.buckets.set i b, numItems := u32 (t.numItems + (2 ^ 32 - 1)) }
        some { m with app := m.app.filter (fun x => x.id ≠ e.id), tbl := some t }

/-- `map_remove`, libks/map.c:208-222. -/
def remove (hash : K → Nat) (m : Map K) (key : K) : Option (Map K) :=
  match hashFind hash m key with
  | none => none
  | some none => some m
  | some (some e) => hashDelete m e

/-- `struct map_iterator`, libks/map.h:91-94: whether iteration began, and the next
element. -/
structure Iter where
  el : Option Nat
  nx : Option Nat
deriving Repr

/-- `el->next` of the element with this identity; `none` if it is gone. -/
def nextOf (app : List (Elem K)) (id : Nat) : Option (Option Nat) :=
  match app.dropWhile (fun x => x.id ≠ id) with
  | [] => none
  | _ :: rest => some (rest.head?.map Elem.id)

/-- `map_iterate`, libks/map.c:224-244. -/
def iterate (m : Map K) (it : Iter) : Option (Option Nat × Iter) :=
  if it.el.isNone ∧ it.nx.isNone then
    match m.app.head? with
    | none => some (none, it)
    | some e => (nextOf m.app e.id).map fun nx => (some e.id, { el := some e.id, nx := nx })
  else
    match it.nx with
    | none => some (none, it)
    | some id => (nextOf m.app id).map fun nx => (some id, { it with nx := nx })

/-- A loop with `MAP_ITERATE` that removes the keys of some of the entries it visits, as in
cpp-include.c:105-111. Visits at most `n` entries; the flag tells that the loop ended. -/
def iterLoop (hash : K → Nat) (p : K → Bool) (m : Map K) (it : Iter) : Nat → Option (Map K × List Nat × Bool)
  | 0 => some (m, [], false)
  | n + 1 =>
    match iterate m it with
    | none => none
    | some (none, _) => some (m, [], true)
    | some (some id, it) =>
      match m.app.find? (fun e => e.id = id) with
      | none => none
      | some e =>
        match (if p e.key then remove hash m e.key else some m) with
        | none => none
        | some m => (iterLoop hash p m it n).map fun r => (r.1, id :: r.2.1, r.2.2)

/-! ## Invariant -/

/-- The chain of every bucket holds the elements that belong there. -/
structure TInv (app : List (Elem K)) (t : Tbl K) : Prop where
  pos : 0 < t.buckets.length
  mem : ∀ i b, t.buckets[i]? = some b → ∀ e, e ∈ b.chain ↔ e ∈ app ∧ toBkt e.hashv t.buckets.length = i

structure Inv (hash : K → Nat) (m : Map K) : Prop where
  hv : ∀ e ∈ m.app, e.hashv = hash e.key
  fresh : ∀ e ∈ m.app, e.id < m.allocated
  nodup : (m.app.map Elem.id).Nodup
  tbl : match m.tbl with
    | none => m.app = []
    | some t => m.app ≠ [] ∧ TInv m.app t

theorem toBkt_lt (h n : Nat) (hn : 0 < n) : toBkt h n < n := by
  have : toBkt h n ≤ n - 1 := Nat.and_le_right
  omega

theorem rehash_foldl {ideal : Nat} (ps : List (Elem K)) :
    ∀ (bs : List (Bkt K)) (k : Nat) (qs : List (Elem K)), 0 < bs.length →
      (∀ i b, bs[i]? = some b → ∀ e, e ∈ b.chain ↔ e ∈ qs ∧ toBkt e.hashv bs.length = i) →
      ∃ bs' k', ps.foldl (rehash ideal) (some (bs, k)) = some (bs', k') ∧ bs'.length = bs.length ∧
        ∀ i b, bs'[i]? = some b → ∀ e, e ∈ b.chain ↔ (e ∈ qs ∨ e ∈ ps) ∧ toBkt e.hashv bs.length = i := by
  induction ps with
  | nil => intro bs k qs hpos h; exact ⟨bs, k, rfl, rfl, by simpa using h⟩
  | cons p ps ih =>
    intro bs k qs hpos h
    have hlt := toBkt_lt p.hashv bs.length hpos
    rw [List.foldl_cons]
    simp only [rehash, List.getElem?_eq_getElem hlt]
    generalize hb : bs[toBkt p.hashv bs.length] = b
    have hb' : bs[toBkt p.hashv bs.length]? = some b := by rw [List.getElem?_eq_getElem hlt, hb]
    generalize hnb : ({ chain := p :: b.chain, count := _, mult := _ } : Bkt K) = nb
    have hnbc : nb.chain = p :: b.chain := by rw [← hnb]
    obtain ⟨bs', k', h1, h2, h3⟩ := ih (bs.set (toBkt p.hashv bs.length) nb) _ (p :: qs) (by simpa using hpos) (by
      intro i c hc e
      rw [List.length_set]
      by_cases hi : toBkt p.hashv bs.length = i
      · subst hi
        rw [List.getElem?_set_self hlt] at hc
        injection hc with hc
        subst hc
        rw [hnbc, List.mem_cons, List.mem_cons, h _ _ hb' e]
        constructor
        · rintro (rfl | h)
          · exact ⟨.inl rfl, rfl⟩
          · exact ⟨.inr h.1, h.2⟩
        · rintro ⟨rfl | h1, h2⟩
          · exact .inl rfl
          · exact .inr ⟨h1, h2⟩
      · rw [List.getElem?_set_ne hi] at hc
        rw [h _ _ hc e, List.mem_cons]
        constructor
        · rintro ⟨h1, h2⟩; exact ⟨.inr h1, h2⟩
        · rintro ⟨rfl | h1, h2⟩
          · exact absurd h2 hi
          · exact ⟨h1, h2⟩)
    refine ⟨bs', k', h1, by simpa using h2, ?_⟩
    intro i c hc e
    have := h3 i c hc e
    rw [List.length_set] at this
    rw [this, List.mem_cons, List.mem_cons]
    constructor
    · rintro ⟨(h | h) | h, h'⟩
      · exact ⟨.inr (.inl h), h'⟩
      · exact ⟨.inl h, h'⟩
      · exact ⟨.inr (.inr h), h'⟩
    · rintro ⟨h | h | h, h'⟩
      · exact ⟨.inl (.inr h), h'⟩
      · exact ⟨.inl (.inl h), h'⟩
      · exact ⟨.inr h, h'⟩

theorem expand_spec {app : List (Elem K)} {t : Tbl K} (h : TInv app t) (fail : Bool) :
    ∃ r, expand t fail = some r ∧ ∀ t', r = some t' → TInv app t' := by
  unfold expand
  simp only
  split
  · exact ⟨none, rfl, by simp⟩
  · split
    · exact ⟨none, rfl, by simp⟩
    · have hpos := h.pos
      generalize (t.numItems >>> (t.log2 + 1)) + _ = ideal
      obtain ⟨bs', k', h1, h2, h3⟩ := rehash_foldl (ideal := ideal) (t.buckets.flatMap Bkt.chain)
        (List.replicate (t.buckets.length * 2) emptyBkt) 0 [] (by simp; omega) (by
          intro i b hb e
          rw [List.getElem?_replicate] at hb
          split at hb
          · injection hb with hb; subst hb; simp [emptyBkt]
          · simp at hb)
      rw [h1]
      refine ⟨_, rfl, ?_⟩
      intro t' ht'
      injection ht' with ht'
      subst ht'
      rw [List.length_replicate] at h2 h3
      refine ⟨by simp only; omega, ?_⟩
      intro i b hb e
      simp only at hb ⊢
      rw [h3 i b hb e, h2]
      constructor
      · rintro ⟨h | h', h4⟩
        · simp at h
        · refine ⟨?_, h4⟩
          obtain ⟨c, hc, he⟩ := List.mem_flatMap.mp h'
          obtain ⟨j, hj⟩ := List.mem_iff_getElem?.mp hc
          exact ((h.mem j c hj e).mp he).1
      · rintro ⟨h', h4⟩
        refine ⟨.inr ?_, h4⟩
        have hlt := toBkt_lt e.hashv t.buckets.length hpos
        refine List.mem_flatMap.mpr ⟨_, List.getElem_mem hlt, ?_⟩
        exact (h.mem _ _ (List.getElem?_eq_getElem hlt) e).mpr ⟨h', rfl⟩

theorem addToTable_spec {app : List (Elem K)} {t : Tbl K} (h : TInv app t)
    (e : Elem K) (fail : Bool) :
    ∃ t' err, addToTable t e fail = some (t', err) ∧ TInv (app ++ [e]) t' ∧ (fail = false → t.buckets.length < 2 ^ 31 → err = false) := by
  have hlt := toBkt_lt e.hashv t.buckets.length h.pos
  unfold addToTable
  simp only [List.getElem?_eq_getElem hlt]
  generalize hb : t.buckets[toBkt e.hashv t.buckets.length] = b
  have hb' : t.buckets[toBkt e.hashv t.buckets.length]? = some b := by rw [List.getElem?_eq_getElem hlt, hb]
  generalize hnt : pushed t (toBkt e.hashv t.buckets.length) b e = nt
  have hlen : nt.buckets.length = t.buckets.length := by rw [← hnt]; simp [pushed]
  have hi : TInv (app ++ [e]) nt := by
    refine ⟨by rw [hlen]; exact h.pos, ?_⟩
    intro i c hc x
    rw [hlen]
    rw [← hnt] at hc
    simp only [pushed] at hc
    rw [List.mem_append, List.mem_singleton]
    by_cases hi : toBkt e.hashv t.buckets.length = i
    · subst hi
      rw [List.getElem?_set_self hlt] at hc
      injection hc with hc
      subst hc
      rw [List.mem_cons, h.mem _ _ hb' x]
      constructor
      · rintro (rfl | h)
        · exact ⟨.inr rfl, rfl⟩
        · exact ⟨.inl h.1, h.2⟩
      · rintro ⟨h1 | rfl, h2⟩
        · exact .inr ⟨h1, h2⟩
        · exact .inl rfl
    · rw [List.getElem?_set_ne hi] at hc
      rw [h.mem _ _ hc x]
      constructor
      · rintro ⟨h1, h2⟩; exact ⟨.inl h1, h2⟩
      · rintro ⟨h1 | rfl, h2⟩
        · exact ⟨h1, h2⟩
        · exact absurd h2 hi
  split
  · obtain ⟨r, h1, h2⟩ := expand_spec hi fail
    rw [h1]
    cases r with
    | none =>
      refine ⟨nt, true, rfl, hi, ?_⟩
      intro hf hl
      exfalso
      unfold expand at h1
      rw [hlen, if_neg (by omega), hf] at h1
      simp only [Bool.false_eq_true, if_false] at h1
      split at h1 <;> simp at h1
    | some t' => exact ⟨t', false, rfl, h2 t' rfl, by simp⟩
  · exact ⟨nt, false, rfl, hi, by simp⟩

theorem makeTable_inv : TInv [] (makeTable : Tbl K) := by
  refine ⟨by simp [makeTable], ?_⟩
  intro i b hb e
  simp only [makeTable, List.getElem?_replicate] at hb
  split at hb
  · injection hb with hb; subst hb; simp [emptyBkt]
  · simp at hb

theorem init_inv (hash : K → Nat) : Inv hash (init : Map K) := ⟨by simp [init], by simp [init], by simp [init], rfl⟩

/-- Insertion: an entry for the key is added at the end, or the map is unchanged. If no
allocation fails and the table has fewer than `2 ^ 31` buckets, it is added. -/
theorem insert_spec {hash : K → Nat} {m : Map K} (hm : Inv hash m) (key : K) (fail : Fail) :
    ∃ m' r, insert hash m key fail = some (m', r) ∧ Inv hash m' ∧
      ((m'.app = m.app ∧ r = none) ∨ ∃ e, m'.app = m.app ++ [e] ∧ e.key = key ∧ e.id = m.allocated ∧
        (r = none ∨ r = some e.id)) ∧
      (∀ id, r = some id → ∃ e, m'.app = m.app ++ [e] ∧ e.key = key ∧ e.id = id) ∧
      (fail.elem = false → fail.table = false → fail.expand = false →
        (∀ t, m.tbl = some t → t.buckets.length < 2 ^ 31) → r = some m.allocated) := by
  unfold insert
  split
  · next hf => exact ⟨m, none, rfl, hm, .inl ⟨rfl, rfl⟩, by simp, by simp [hf]⟩
  · next hf =>
    simp only
    have happ : ∀ (t' : Tbl K) (_ : TInv (m.app ++ [⟨m.allocated, key, hash key⟩]) t'),
        Inv hash { app := m.app ++ [⟨m.allocated, key, hash key⟩], tbl := some t', allocated := m.allocated + 1 } := by
      intro t' ht'
      refine ⟨?_, ?_, ?_, ?_⟩
      · intro e he
        rcases List.mem_append.mp he with h | h
        · exact hm.hv e h
        · rw [List.mem_singleton.mp h]
      · intro e he
        rcases List.mem_append.mp he with h | h
        · exact Nat.lt_succ_of_lt (hm.fresh e h)
        · rw [List.mem_singleton.mp h]; exact Nat.lt_succ_self _
      · simp only [List.map_append, List.map_cons, List.map_nil]
        refine List.nodup_append.mpr ⟨hm.nodup, by simp, ?_⟩
        intro a ha b hb
        obtain ⟨e, he, rfl⟩ := List.mem_map.mp ha
        have := hm.fresh e he
        simp at hb
        omega
      · exact ⟨by simp, ht'⟩
    cases hmt : m.tbl with
    | none =>
      have hnil : m.app = [] := by have := hm.tbl; rw [hmt] at this; exact this
      simp only
      split
      · next ht =>
        refine ⟨_, none, rfl, ?_, .inl ⟨rfl, rfl⟩, by simp, by simp [ht]⟩
        exact ⟨by simp [hnil], by simp [hnil], by simp [hnil], by simpa using hnil⟩
      · obtain ⟨t', err, h1, h2, h3⟩ := addToTable_spec (makeTable_inv) ⟨m.allocated, key, hash key⟩ fail.expand
        rw [h1]
        have hi := happ t' (by simpa [hnil] using h2)
        rw [hnil, List.nil_append] at hi
        refine ⟨_, _, rfl, hi, .inr ⟨⟨m.allocated, key, hash key⟩, by simp [hnil], rfl, rfl, by cases err <;> simp⟩, ?_, ?_⟩
        · intro id hid
          refine ⟨_, by simp [hnil]; rfl, rfl, ?_⟩
          cases err <;> simp at hid
          exact hid
        · intro _ _ hx _
          have := h3 hx (by simp [makeTable])
          simp [this]
    | some t =>
      have ht := hm.tbl
      rw [hmt] at ht
      obtain ⟨t', err, h1, h2, h3⟩ := addToTable_spec ht.2 ⟨m.allocated, key, hash key⟩ fail.expand
      simp only
      rw [h1]
      refine ⟨_, _, rfl, happ t' h2, .inr ⟨⟨m.allocated, key, hash key⟩, rfl, rfl, rfl, by cases err <;> simp⟩, ?_, ?_⟩
      · intro id hid
        refine ⟨_, rfl, rfl, ?_⟩
        cases err <;> simp at hid
        exact hid
      · intro _ _ hx hl
        have := h3 hx (hl t rfl)
        simp [this]

theorem hashFind_spec {hash : K → Nat} {m : Map K} (hm : Inv hash m) (key : K) :
    ∃ r, hashFind hash m key = some r ∧
      match r with
      | none => ∀ e ∈ m.app, e.key ≠ key
      | some e => e ∈ m.app ∧ e.key = key := by
  unfold hashFind
  split
  · next h => exact ⟨none, rfl, by simp [h]⟩
  · next x xs h ht =>
    have := hm.tbl
    rw [ht] at this
    rw [h] at this
    simp at this
  · next x xs t h ht =>
    have hti := hm.tbl
    rw [ht] at hti
    have hlt := toBkt_lt (hash key) t.buckets.length hti.2.pos
    have hmem := hti.2.mem _ _ (List.getElem?_eq_getElem hlt)
    rw [List.getElem?_eq_getElem hlt]
    refine ⟨_, rfl, ?_⟩
    split
    · next hf =>
      intro e he hk
      rw [List.find?_eq_none] at hf
      have hh := hm.hv e he
      rw [hk] at hh
      have := hf e ((hmem e).mpr ⟨he, by rw [hh]⟩)
      simp [hh, hk] at this
    · next e hf =>
      have h1 := List.mem_of_find?_eq_some hf
      have h2 := List.find?_some hf
      simp at h2
      exact ⟨((hmem e).mp h1).1, h2.2⟩

theorem id_inj {app : List (Elem K)} (hn : (app.map Elem.id).Nodup) {a b : Elem K} (ha : a ∈ app) (hb : b ∈ app)
    (h : a.id = b.id) : a = b := by
  induction app with
  | nil => simp at ha
  | cons x xs ih =>
    rw [List.map_cons, List.nodup_cons] at hn
    rcases List.mem_cons.mp ha with rfl | ha' <;> rcases List.mem_cons.mp hb with rfl | hb'
    · rfl
    · exact absurd (List.mem_map.mpr ⟨b, hb', h.symm⟩) hn.1
    · exact absurd (List.mem_map.mpr ⟨a, ha', h⟩) hn.1
    · exact ih hn.2 ha' hb'

theorem hashDelete_spec {hash : K → Nat} {m : Map K} (hm : Inv hash m) {e : Elem K} (he : e ∈ m.app) :
    ∃ m', hashDelete m e = some m' ∧ Inv hash m' ∧ m'.app = m.app.filter (fun x => x.id ≠ e.id) ∧
      m'.allocated = m.allocated := by
  unfold hashDelete
  split
  · next h => rw [h] at he; simp at he
  · next x h =>
    rw [h] at he
    have : e = x := by simpa using he
    subst this
    refine ⟨_, rfl, ⟨by simp, by simp, by simp, rfl⟩, by simp [h], rfl⟩
  · next hne1 hne2 =>
    have ht := hm.tbl
    cases hmt : m.tbl with
    | none => rw [hmt] at ht; exact absurd ht hne1
    | some t =>
      rw [hmt] at ht
      have hlt := toBkt_lt e.hashv t.buckets.length ht.2.pos
      simp only [List.getElem?_eq_getElem hlt]
      generalize hb : t.buckets[toBkt e.hashv t.buckets.length] = b
      have hb' : t.buckets[toBkt e.hashv t.buckets.length]? = some b := by rw [List.getElem?_eq_getElem hlt, hb]
      refine ⟨_, rfl, ⟨?_, ?_, ?_, ?_, ?_, ?_⟩, rfl, rfl⟩
      · intro x hx; exact hm.hv x (List.mem_filter.mp hx).1
      · intro x hx; exact hm.fresh x (List.mem_filter.mp hx).1
      · exact hm.nodup.sublist (List.Sublist.map _ List.filter_sublist)
      · simp only
        cases happ : m.app with
        | nil => exact absurd happ hne1
        | cons x xs =>
          cases xs with
          | nil => exact absurd happ (hne2 x)
          | cons y ys =>
            have hnd := hm.nodup
            rw [happ] at hnd
            simp only [List.map_cons, List.nodup_cons, List.mem_cons, not_or] at hnd
            intro hc
            have h1 := List.filter_eq_nil_iff.mp hc x (by simp)
            have h2 := List.filter_eq_nil_iff.mp hc y (by simp)
            simp only [ne_eq, decide_not, Bool.not_eq_true', decide_eq_false_iff_not, Decidable.not_not] at h1 h2
            exact hnd.1.1 (h1.trans h2.symm)
      · simpa using ht.2.pos
      · intro i c hc x
        simp only [List.length_set] at hc ⊢
        rw [List.mem_filter]
        by_cases hi : toBkt e.hashv t.buckets.length = i
        · subst hi
          rw [List.getElem?_set_self hlt] at hc
          injection hc with hc
          subst hc
          simp only
          rw [List.mem_filter, ht.2.mem _ _ hb' x]
          constructor
          · rintro ⟨⟨h1, h2⟩, h3⟩; exact ⟨⟨h1, h3⟩, h2⟩
          · rintro ⟨⟨h1, h3⟩, h2⟩; exact ⟨⟨h1, h2⟩, h3⟩
        · rw [List.getElem?_set_ne hi] at hc
          rw [ht.2.mem _ _ hc x]
          constructor
          · rintro ⟨h1, h2⟩
            refine ⟨⟨h1, ?_⟩, h2⟩
            simp only [ne_eq, decide_not, Bool.not_eq_true', decide_eq_false_iff_not]
            intro hid
            have := id_inj hm.nodup h1 he hid
            subst this
            exact hi h2
          · rintro ⟨⟨h1, _⟩, h2⟩; exact ⟨h1, h2⟩

/-! ## Specification -/

/-- What a map stands for: keys and their elements in insertion order. -/
def entries (m : Map K) : List (K × Nat) := m.app.map fun e => (e.key, e.id)

/-- The element of a key. -/
def lookup (s : List (K × Nat)) (k : K) : Option Nat := (s.find? (fun p => p.1 = k)).map Prod.snd

/-- Each key has one entry. -/
def Unique (s : List (K × Nat)) : Prop := (s.map Prod.fst).Nodup

inductive Op (K : Type) where
  | insert (k : K) (fail : Fail)
  | find (k : K)
  | remove (k : K)

/-- Run an operation; the result is the element returned, if any. -/
def Op.run (hash : K → Nat) (m : Map K) : Op K → Option (Map K × Option Nat)
  | .insert k fail => KMap.insert hash m k fail
  | .find k => (KMap.find hash m k).map fun r => (m, r)
  | .remove k => (KMap.remove hash m k).map fun m => (m, none)

/-- Insertions are of keys not present, as everywhere in knfmt. -/
def Op.pre (s : List (K × Nat)) : Op K → Bool
  | .insert k _ => s.all (fun p => p.1 ≠ k)
  | _ => true

/-- What an operation may return and do to the entries. An insertion that reports failure
may leave the entry in the map. -/
def Op.Spec (s : List (K × Nat)) : Op K → Option Nat → List (K × Nat) → Prop
  | .insert k _, some id, s' => s' = s ++ [(k, id)] ∧ ∀ p ∈ s, p.2 ≠ id
  | .insert k fail, none, s' => (s' = s ∨ ∃ id, s' = s ++ [(k, id)]) ∧ (fail.elem = true → s' = s)
  | .find k, r, s' => s' = s ∧ r = lookup s k
  | .remove k, r, s' => r = none ∧ s' = s.filter (fun p => p.1 ≠ k)

theorem lookup_unique {s : List (K × Nat)} (hu : Unique s) {k : K} {v : Nat} (h : (k, v) ∈ s) :
    lookup s k = some v := by
  induction s with
  | nil => simp at h
  | cons p s ih =>
    unfold Unique at hu
    rw [List.map_cons, List.nodup_cons] at hu
    rcases List.mem_cons.mp h with rfl | h
    · simp [lookup]
    · have hne : p.1 ≠ k := fun hc => hu.1 (List.mem_map.mpr ⟨(k, v), h, hc.symm⟩)
      have := ih hu.2 h
      simp only [lookup, List.find?_cons, hne, decide_false] at this ⊢
      exact this

/-- C39: a key finds its element. -/
theorem find_spec {hash : K → Nat} {m : Map K} (hm : Inv hash m) (hu : Unique (entries m)) (k : K) :
    find hash m k = some (lookup (entries m) k) := by
  obtain ⟨r, h1, h2⟩ := hashFind_spec hm k
  unfold find
  rw [h1]
  cases r with
  | none =>
    simp only at h2
    have : lookup (entries m) k = none := by
      simp only [lookup, Option.map_eq_none_iff, List.find?_eq_none]
      intro p hp
      obtain ⟨e, he, rfl⟩ := List.mem_map.mp hp
      simpa using h2 e he
    rw [this]; rfl
  | some e =>
    simp only at h2
    rw [lookup_unique hu (List.mem_map.mpr ⟨e, h2.1, by rw [h2.2]⟩)]
    rfl

theorem remove_spec {hash : K → Nat} {m : Map K} (hm : Inv hash m) (hu : Unique (entries m)) (k : K) :
    ∃ m', remove hash m k = some m' ∧ Inv hash m' ∧ m'.app = m.app.filter (fun e => e.key ≠ k) := by
  obtain ⟨r, h1, h2⟩ := hashFind_spec hm k
  unfold remove
  rw [h1]
  cases r with
  | none =>
    refine ⟨m, rfl, hm, ?_⟩
    symm
    rw [List.filter_eq_self]
    intro e he
    simpa using h2 e he
  | some e =>
    simp only at h2
    obtain ⟨m', e1, e2, e3, _⟩ := hashDelete_spec hm h2.1
    refine ⟨m', e1, e2, ?_⟩
    rw [e3]
    apply List.filter_congr
    intro x hx
    have : x.id ≠ e.id ↔ x.key ≠ k := by
      constructor
      · intro h hk
        apply h
        have l1 := lookup_unique hu (k := k) (v := x.id) (List.mem_map.mpr ⟨x, hx, by rw [hk]⟩)
        have l2 := lookup_unique hu (k := k) (v := e.id) (List.mem_map.mpr ⟨e, h2.1, by rw [h2.2]⟩)
        rw [l1] at l2
        injection l2
      · intro h hk
        apply h
        rw [id_inj hm.nodup hx h2.1 hk, h2.2]
    simp [this]

theorem entries_filter {app : List (Elem K)} (p : K → Bool) :
    (app.filter (fun e => p e.key)).map (fun e => (e.key, e.id)) =
      (app.map (fun e => (e.key, e.id))).filter (fun q => p q.1) := by
  rw [List.filter_map]
  rfl

theorem step_spec {hash : K → Nat} {m : Map K} (hm : Inv hash m) (hu : Unique (entries m)) (op : Op K)
    (hpre : op.pre (entries m) = true) :
    ∃ m' r, op.run hash m = some (m', r) ∧ Inv hash m' ∧ Unique (entries m') ∧
      op.Spec (entries m) r (entries m') := by
  cases op with
  | insert k fail =>
    obtain ⟨m', r, h1, h2, h3, h4, _⟩ := insert_spec hm k fail
    refine ⟨m', r, h1, h2, ?_, ?_⟩
    · rcases h3 with ⟨h, _⟩ | ⟨e, h, hk, _⟩
      · simp only [entries, h]; exact hu
      · simp only [entries, h, List.map_append, List.map_cons, List.map_nil, Unique]
        refine List.nodup_append.mpr ⟨hu, by simp, ?_⟩
        intro a ha b hb
        obtain ⟨p, hp, rfl⟩ := List.mem_map.mp ha
        simp at hb
        rw [hb, hk]
        have := List.all_eq_true.mp hpre p hp
        simpa using this
    · cases r with
      | none =>
        refine ⟨?_, ?_⟩
        · rcases h3 with ⟨h, _⟩ | ⟨e, h, hk, _⟩
          · left; simp [entries, h]
          · right; exact ⟨e.id, by simp [entries, h, hk]⟩
        · intro hf
          simp only [insert, hf, if_true, Option.some.injEq, Prod.mk.injEq] at h1
          rw [h1.1]
      | some id =>
        obtain ⟨e, h, hk, hid⟩ := h4 id rfl
        refine ⟨by simp [entries, h, hk, hid], ?_⟩
        intro p hp
        obtain ⟨x, hx, rfl⟩ := List.mem_map.mp hp
        have hnd := h2.nodup
        rw [h, List.map_append, List.nodup_append] at hnd
        simp only
        rw [← hid]
        exact hnd.2.2 x.id (List.mem_map.mpr ⟨x, hx, rfl⟩) e.id (by simp)
  | find k => exact ⟨m, lookup (entries m) k, by simp [Op.run, find_spec hm hu k], hm, hu, rfl, rfl⟩
  | remove k =>
    obtain ⟨m', h1, h2, h3⟩ := remove_spec hm hu k
    have he : entries m' = (entries m).filter (fun p => p.1 ≠ k) := by
      unfold entries
      rw [h3]
      exact entries_filter (fun x => decide (x ≠ k))
    refine ⟨m', none, by simp [Op.run, h1], h2, ?_, rfl, he⟩
    rw [he]
    exact List.Nodup.sublist (List.Sublist.map _ List.filter_sublist) hu

/-- A history, its results and the entries it leaves. -/
inductive Runs : List (K × Nat) → List (Op K × Option Nat) → List (K × Nat) → Prop where
  | nil (s) : Runs s [] s
  | cons {s s' s'' op r rest} : op.Spec s r s' → Runs s' rest s'' → Runs s ((op, r) :: rest) s''

/-- Every insertion of a history is of a key that is not present. -/
def allowed (hash : K → Nat) (m : Map K) : List (Op K) → Bool
  | [] => true
  | op :: ops => op.pre (entries m) &&
      match op.run hash m with
      | none => true
      | some (m, _) => allowed hash m ops

def runAll (hash : K → Nat) (m : Map K) : List (Op K) → Option (Map K × List (Option Nat))
  | [] => some (m, [])
  | op :: ops =>
    match op.run hash m with
    | none => none
    | some (m, r) => (runAll hash m ops).map fun x => (x.1, r :: x.2)

/-- C39, for histories that insert only keys not present: no undefined behaviour, and every
result is that of an association list, whatever the hash function, the growth of the table
and the allocations that fail. -/
theorem map_history_partial {hash : K → Nat} {m : Map K} (hm : Inv hash m) (hu : Unique (entries m))
    (ops : List (Op K)) (ha : allowed hash m ops = true) :
    ∃ m' rs, runAll hash m ops = some (m', rs) ∧ rs.length = ops.length ∧ Inv hash m' ∧
      Unique (entries m') ∧ Runs (entries m) (ops.zip rs) (entries m') := by
  induction ops generalizing m with
  | nil => exact ⟨m, [], rfl, rfl, hm, hu, .nil _⟩
  | cons op ops ih =>
    simp only [allowed, Bool.and_eq_true] at ha
    obtain ⟨m1, r, h1, h2, h3, h4⟩ := step_spec hm hu op ha.1
    have ha2 := ha.2
    rw [h1] at ha2
    obtain ⟨m2, rs, e1, e2, e3, e4, e5⟩ := ih h2 h3 ha2
    exact ⟨m2, r :: rs, by simp [runAll, h1, e1], by simp [e2], e3, e4, .cons h4 e5⟩

/-- C39: an insertion succeeds unless an allocation fails or the table has `2 ^ 31`
buckets already. -/
theorem insert_succeeds {hash : K → Nat} {m : Map K} (hm : Inv hash m) (k : K)
    (hb : ∀ t, m.tbl = some t → t.buckets.length < 2 ^ 31) :
    ∃ m', insert hash m k ⟨false, false, false⟩ = some (m', some m.allocated) ∧
      entries m' = entries m ++ [(k, m.allocated)] := by
  obtain ⟨m', r, h1, _, _, h4, h5⟩ := insert_spec hm k ⟨false, false, false⟩
  have hr := h5 rfl rfl rfl hb
  subst hr
  obtain ⟨e, he, hk, hid⟩ := h4 _ rfl
  exact ⟨m', h1, by simp [entries, he, hk, hid]⟩

theorem nextOf_spec {as bs : List (Elem K)} {e : Elem K} (hn : ((as ++ e :: bs).map Elem.id).Nodup) :
    nextOf (as ++ e :: bs) e.id = some (bs.head?.map Elem.id) := by
  have : (as ++ e :: bs).dropWhile (fun x => decide (x.id ≠ e.id)) = e :: bs := by
    induction as with
    | nil => simp [List.dropWhile]
    | cons a as ih =>
      rw [List.cons_append, List.map_cons, List.nodup_cons] at hn
      have hne : a.id ≠ e.id := by
        intro hc
        apply hn.1
        rw [hc]
        exact List.mem_map.mpr ⟨e, by simp, rfl⟩
      rw [List.cons_append, List.dropWhile_cons]
      simp only [ne_eq, hne, not_false_eq_true, decide_true, if_true]
      exact ih hn.2
  unfold nextOf
  rw [this]

/-- C39: iterating visits every entry once, in insertion order, also if the loop removes
some of the entries it visits; the others remain. -/
theorem iterate_spec {hash : K → Nat} {m : Map K} (hm : Inv hash m) (hu : Unique (entries m)) (p : K → Bool)
    (n : Nat) (hn : (entries m).length < n) :
    ∃ m', iterLoop hash p m ⟨none, none⟩ n = some (m', (entries m).map Prod.snd, true) ∧
      entries m' = (entries m).filter (fun q => !p q.1) := by
  have key : ∀ (xs ds : List (Elem K)) (m : Map K) (id : Nat) (n : Nat), Inv hash m → Unique (entries m) →
      m.app = ds ++ xs → xs.length < n →
      ∃ m', iterLoop hash p m ⟨some id, xs.head?.map Elem.id⟩ n = some (m', xs.map Elem.id, true) ∧
        m'.app = ds ++ xs.filter (fun e => !p e.key) := by
    intro xs
    induction xs with
    | nil =>
      intro ds m id n _ _ happ hn
      cases n with
      | zero => simp at hn
      | succ n => exact ⟨m, by simp [iterLoop, iterate], by simpa using happ⟩
    | cons x xs ih =>
      intro ds m id n hm hu happ hn
      cases n with
      | zero => simp at hn
      | succ n =>
        have hnd := hm.nodup
        rw [happ] at hnd
        have hnx : nextOf m.app x.id = some (xs.head?.map Elem.id) := by rw [happ]; exact nextOf_spec hnd
        have hfx : m.app.find? (fun e => decide (e.id = x.id)) = some x := by
          cases hf : m.app.find? (fun e => decide (e.id = x.id)) with
          | none =>
            have := List.find?_eq_none.mp hf x (by rw [happ]; simp)
            simp at this
          | some y =>
            have h1 := List.mem_of_find?_eq_some hf
            have h2 := List.find?_some hf
            simp at h2
            rw [id_inj hm.nodup h1 (by rw [happ]; simp) h2]
        simp only [iterLoop, iterate, List.head?_cons, Option.map_some, Option.isNone_some,
          Bool.false_eq_true, and_self, if_false, hnx, hfx]
        by_cases hp : p x.key
        · rw [if_pos hp]
          obtain ⟨m1, e1, e2, e3⟩ := remove_spec hm hu x.key
          rw [e1]
          simp only
          have happ1 : m1.app = ds ++ xs := by
            rw [e3, happ]
            have hk : ∀ y ∈ ds ++ xs, y.key ≠ x.key := by
              intro y hy hc
              have hu' := hu
              unfold Unique entries at hu'
              rw [happ, List.map_map, List.map_append, List.map_cons, List.nodup_append] at hu'
              simp only [Function.comp_def, List.nodup_cons, List.mem_map, List.mem_cons] at hu'
              rcases List.mem_append.mp hy with h | h
              · exact hu'.2.2 y.key ⟨y, h, rfl⟩ x.key (.inl rfl) hc
              · exact hu'.2.1.1 ⟨y, h, hc⟩
            rw [List.filter_append, List.filter_cons]
            simp only [ne_eq, not_true_eq_false, decide_false, Bool.false_eq_true, if_false]
            rw [← List.filter_append, List.filter_eq_self]
            intro y hy
            simpa using hk y hy
          have hu1 : Unique (entries m1) := by
            have he : entries m1 = (entries m).filter (fun p => p.1 ≠ x.key) := by
              unfold entries
              rw [e3]
              exact entries_filter (fun y => decide (y ≠ x.key))
            rw [he]
            exact List.Nodup.sublist (List.Sublist.map _ List.filter_sublist) hu
          obtain ⟨m', f1, f2⟩ := ih ds m1 id n e2 hu1 happ1 (by simpa using hn)
          exact ⟨m', by rw [f1]; rfl, by rw [f2]; simp [hp]⟩
        · rw [if_neg hp]
          simp only
          obtain ⟨m', f1, f2⟩ := ih (ds ++ [x]) m id n hm hu (by simpa using happ) (by simpa using hn)
          exact ⟨m', by rw [f1]; rfl, by rw [f2]; simp [hp]⟩
  have fin : ∃ m', iterLoop hash p m ⟨none, none⟩ n = some (m', m.app.map Elem.id, true) ∧
      m'.app = m.app.filter (fun e => !p e.key) := by
    cases n with
    | zero => simp at hn
    | succ n =>
      cases happ : m.app with
      | nil => exact ⟨m, by simp [iterLoop, iterate, happ], by simpa using happ⟩
      | cons x xs =>
        -- the first round behaves like any other
        have hx : iterLoop hash p m ⟨none, none⟩ (n + 1) = iterLoop hash p m ⟨some x.id, some x.id⟩ (n + 1) := by
          simp only [iterLoop, iterate, happ, List.head?_cons, Option.isNone_none, Option.isNone_some,
            Bool.false_eq_true, and_self, if_true, if_false, Option.map_map, Function.comp_def]
        have h1 := key (x :: xs) [] m x.id (n + 1) hm hu happ (by simpa [entries, happ] using hn)
        rw [hx]
        exact h1
  obtain ⟨m', h1, h2⟩ := fin
  refine ⟨m', by rw [h1]; simp [entries, Function.comp_def], ?_⟩
  unfold entries
  rw [h2]
  exact entries_filter (fun k => !p k)

/-- Keys inserted without failing allocations. -/
def inserts (ks : List Nat) : List (Op Nat) := ks.map fun k => .insert k ⟨false, false, false⟩

/-- The full C39 is false of the code: if a key is inserted twice, the entry found is the
newer one, but growing the table reverses the chains and then it is the older one. -/
theorem duplicate_found_again_after_growth :
    (runAll (fun _ => 0) (init : Map Nat) (inserts [7, 7] ++ [.find 7] ++ inserts [0, 1, 2, 3, 4, 5, 8, 9] ++
      [.find 7])).map (fun r => (r.2[2]?, r.2.getLast?)) = some (some (some 1), some (some 0)) := by
  decide +kernel

/-- An insertion that reports failure because the table could not grow leaves the entry in
the map. -/
theorem failed_insert_leaves_entry :
    (runAll (fun _ => 0) (init : Map Nat) (inserts [0, 1, 2, 3, 4, 5, 6, 7, 8] ++
      [.insert 9 ⟨false, false, true⟩, .find 9])).map (fun r => r.2.drop 9) = some [none, some 9] := by
  decide +kernel

/-- A history with collisions, growth and removals, and its results. -/
example : allowed (fun k => k % 3) (init : Map Nat) (inserts (List.range 40) ++
    [.remove 17, .find 17, .find 18, .insert 17 ⟨false, false, false⟩, .find 17]) = true := by
  decide +kernel

example : (runAll (fun k => k % 3) (init : Map Nat) (inserts (List.range 40) ++
    [.remove 17, .find 17, .find 18, .insert 17 ⟨false, false, false⟩, .find 17])).map (fun r => r.2.drop 40) =
    some [none, none, some 18, some 40, some 40] := by
  decide +kernel

end Knfmt.KMap
