import Verif.Stream.BranchFinal
/-! # Removal of single directives from branches (C50) -/
namespace Knfmt.Branch

open Knfmt.Spec (Linked StartsBranch)

/-- The flags of all tokens but those given are right. -/
def FlagsOk (E : Nat → Prop) (σ : St) : Prop :=
  ∀ u, ¬ E u → (σ.flag u = true ↔ Hot σ.dir σ.prefixes u)

theorem FlagsOk.mono {E E' : Nat → Prop} {σ : St} (h : FlagsOk E σ) (he : ∀ u, E u → E' u) :
    FlagsOk E' σ := fun u hu => h u (fun hE => hu (he u hE))

/-- Updating the flags of a token. -/
theorem updateFlags_eq (σ : St) (t : Nat) :
    updateFlags σ (some t) = { σ with
      flag := fun u => if u = t then hotFlag σ.dir σ.prefixes u else σ.flag u } := by
  simp only [updateFlags, find_eq_hot]
  congr 1
  funext u
  by_cases hu : u = t
  · subst hu; rfl
  · simp [hu]

theorem updateFlags_ok {E E' : Nat → Prop} {σ : St} {t : Nat} (h : FlagsOk E σ)
    (he : ∀ u, E u → u ≠ t → E' u) : FlagsOk E' (updateFlags σ (some t)) := by
  rw [updateFlags_eq]
  intro u hu
  dsimp only
  by_cases hut : u = t
  · rw [if_pos hut, hotFlag_iff]
  · rw [if_neg hut]
    exact h u (fun hE => hu (he u hE hut))

/-- Changing directives in a way that matters to some tokens only. -/
theorem FlagsOk.dirs {E E' : Nat → Prop} {σ : St} {d : Nat → Dir} (h : FlagsOk E σ)
    (he : ∀ u, E u → E' u)
    (hd : ∀ u, ¬ E' u → ∀ x ∈ σ.prefixes u, HotDir σ.dir x ↔ HotDir d x) :
    FlagsOk E' { σ with dir := d } := by
  intro u hu
  show σ.flag u = true ↔ Hot d σ.prefixes u
  rw [h u (fun hE => hu (he u hE)), Hot.congr (hd u hu)]

/-- Taking a directive out of everything. -/
theorem exhaust_spec {E E' : Nat → Prop} {σ : St} {i t : Nat} (hp : (σ.dir i).parent = some t)
    (hown : ∀ u, i ∈ σ.prefixes u → u = t)
    (hno : ∀ x, x ≠ i → (σ.dir x).type = .cppElse → (σ.dir x).pv ≠ some i)
    (h : FlagsOk E σ) (he : ∀ u, E u → u ≠ t → E' u) :
    ∃ flag, exhaust σ i = { σ with dir := fun j => if j = i then {} else σ.dir j, flag := flag } ∧
      FlagsOk E' { σ with dir := fun j => if j = i then {} else σ.dir j, flag := flag } := by
  have e : exhaust σ i = { σ with
      dir := fun j => if j = i then {} else σ.dir j
      flag := fun u => if u = t then
          hotFlag (fun j => if j = i then ⟨.cpp, none, none, some t⟩ else σ.dir j) σ.prefixes u
        else σ.flag u } := by
    simp only [exhaust, St.set, if_true, hp, updateFlags_eq]
    congr 1
    funext j
    by_cases hj : j = i <;> simp [hj]
  refine ⟨_, e, ?_⟩
  have hot : ∀ x, x ≠ i → ∀ d : Dir, d.type = .cpp →
      (HotDir (fun j => if j = i then d else σ.dir j) x ↔ HotDir σ.dir x) := by
    intro x hx d _
    unfold HotDir
    simp only [hx, if_false]
    refine and_congr_right fun ht => exists_congr fun q => and_congr_right fun hq => ?_
    have : q ≠ i := fun e => hno x hx ht (e ▸ hq)
    simp only [this, if_false]
  intro u hu
  dsimp only
  by_cases hut : u = t
  · rw [if_pos hut, hotFlag_iff]
    refine Hot.congr (fun x _ => ?_)
    by_cases hx : x = i
    · subst hx; simp [HotDir]
    · rw [hot x hx _ rfl, hot x hx _ rfl]
  · rw [if_neg hut, h u (fun hE => hu (he u hE hut))]
    refine Hot.congr (fun x hx => ?_)
    have hxi : x ≠ i := by
      rintro rfl
      exact hut (hown u hx)
    exact (hot x hxi _ rfl).symm

/-! ## Linked directives -/

theorem append_cons_cases {a1 b1 a b : List Nat} {x : Nat} (h : a ++ b = a1 ++ x :: b1) :
    (∃ r, a = a1 ++ x :: r ∧ b1 = r ++ b) ∨ (∃ r, a1 = a ++ r ∧ b = r ++ x :: b1) := by
  rcases List.append_eq_append_iff.mp h with ⟨r, h1, h2⟩ | ⟨r, h1, h2⟩
  · exact Or.inr ⟨r, h1, h2⟩
  · cases r with
    | nil =>
      simp at h1 h2
      exact Or.inr ⟨[], by simp [h1], by simp [h2]⟩
    | cons y r =>
      simp at h2
      obtain ⟨rfl, rfl⟩ := h2
      exact Or.inl ⟨r, h1, rfl⟩

theorem Linked.at {dir : Nat → Dir} {owner : Nat → Nat} {a b : List Nat} {x : Nat}
    (h : Linked dir owner (a ++ x :: b)) :
    dir x = ⟨if a = [] then .cppIf else if b = [] then .cppEndif else .cppElse,
      a.getLast?, b.head?, some (owner x)⟩ := h.2.2 a x b rfl

theorem Linked.congr {dir dir' : Nat → Dir} {owner : Nat → Nat} {c : List Nat}
    (h : Linked dir owner c) (he : ∀ x ∈ c, dir' x = dir x) : Linked dir' owner c :=
  ⟨h.1, h.2.1, fun a x b hc => by rw [he x (by simp [hc])]; exact h.2.2 a x b hc⟩

theorem Linked.prev {dir : Nat → Dir} {owner : Nat → Nat} {c : List Nat}
    (h : Linked dir owner c) {x p : Nat} (hx : x ∈ c) (hp : (dir x).pv = some p) :
    p ∈ c ∧ (dir p).nx = some x := by
  obtain ⟨a, b, rfl⟩ := List.append_of_mem hx
  rw [Linked.at h] at hp
  obtain ⟨a', rfl⟩ := List.getLast?_eq_some_iff.mp hp
  refine ⟨by simp, ?_⟩
  rw [List.append_assoc] at h
  have := Linked.at h
  rw [this]; rfl

theorem Linked.next {dir : Nat → Dir} {owner : Nat → Nat} {c : List Nat}
    (h : Linked dir owner c) {x q : Nat} (hx : x ∈ c) (hq : (dir x).nx = some q) :
    q ∈ c ∧ x < q ∧ (dir q).pv = some x := by
  obtain ⟨a, b, rfl⟩ := List.append_of_mem hx
  rw [Linked.at h] at hq
  cases b with
  | nil => simp at hq
  | cons y b =>
    simp at hq; subst hq
    refine ⟨by simp, ?_, ?_⟩
    · have := (List.pairwise_append.mp h.2.1).2.1
      exact (List.pairwise_cons.mp this).1 y (by simp)
    · have e : a ++ x :: y :: b = (a ++ [x]) ++ y :: b := by simp
      rw [e] at h
      rw [Linked.at h]; simp

/-- Two branches that share a directive are the same. -/
theorem Linked.unique {dir : Nat → Dir} {owner : Nat → Nat} {c c' : List Nat}
    (h : Linked dir owner c) (h' : Linked dir owner c') {x : Nat} (hx : x ∈ c) (hx' : x ∈ c') :
    c = c' := by
  obtain ⟨a, b, rfl⟩ := List.append_of_mem hx
  obtain ⟨a', b', rfl⟩ := List.append_of_mem hx'
  have fwd : ∀ (b b' : List Nat) (x : Nat) (a a' : List Nat), Linked dir owner (a ++ x :: b) →
      Linked dir owner (a' ++ x :: b') → b = b' := by
    intro b
    induction b with
    | nil =>
      intro b' x a a' h h'
      have e1 := Linked.at h
      have e2 := Linked.at h'
      rw [e1] at e2
      cases b' with
      | nil => rfl
      | cons y b' => simp at e2
    | cons y b ih =>
      intro b' x a a' h h'
      have e1 := Linked.at h
      have e2 := Linked.at h'
      rw [e1] at e2
      cases b' with
      | nil => simp at e2
      | cons z b' =>
        simp at e2
        obtain ⟨_, _, rfl⟩ := e2
        rw [show a ++ x :: y :: b = (a ++ [x]) ++ y :: b by simp] at h
        rw [show a' ++ x :: y :: b' = (a' ++ [x]) ++ y :: b' by simp] at h'
        rw [ih b' y _ _ h h']
  have bwd : ∀ (n : Nat) (a a' : List Nat) (x : Nat) (b b' : List Nat), a.length = n →
      Linked dir owner (a ++ x :: b) → Linked dir owner (a' ++ x :: b') → a = a' := by
    intro n
    induction n with
    | zero =>
      intro a a' x b b' hn h h'
      have : a = [] := by simpa using hn
      subst this
      have e1 := Linked.at h
      have e2 := Linked.at h'
      rw [e1] at e2
      simp at e2
      have := e2.2.1
      simpa using this.symm
    | succ n ih =>
      intro a a' x b b' hn h h'
      rcases List.eq_nil_or_concat a with rfl | ⟨a1, y, rfl⟩
      · simp at hn
      · have e1 := Linked.at h
        have e2 := Linked.at h'
        rw [e1] at e2
        simp at e2
        obtain ⟨a2, rfl⟩ := List.getLast?_eq_some_iff.mp e2.2.1.symm
        simp only [List.concat_eq_append, List.append_assoc, List.cons_append, List.nil_append] at h h'
        rw [ih a1 a2 y _ _ (by simpa using hn) h h']
        simp
  rw [fwd b b' x a a' h h', bwd _ a a' x b b' rfl h h']

/-- What is left of a branch after a directive was taken out. -/
theorem Linked.erase {dir d : Nat → Dir} {owner : Nat → Nat} {a b : List Nat} {i : Nat}
    (h : Linked dir owner (a ++ i :: b)) (hlen : 2 ≤ (a ++ b).length)
    (hd : ∀ y, y ≠ i → a.getLast? ≠ some y → b.head? ≠ some y → d y = dir y)
    (hp : ∀ y, a.getLast? = some y → d y = ⟨if b = [] then .cppEndif else (dir y).type, (dir y).pv,
      b.head?, (dir y).parent⟩)
    (hq : ∀ y, b.head? = some y → d y = ⟨if a = [] then .cppIf else (dir y).type, a.getLast?,
      (dir y).nx, (dir y).parent⟩) :
    Linked d owner (a ++ b) := by
  have hs := h.2.1
  have hnd : (a ++ i :: b).Nodup := hs.imp (fun h => Nat.ne_of_lt h)
  refine ⟨hlen, ?_, ?_⟩
  · refine hs.sublist ?_
    simp
  · intro a1 x b1 he
    rcases append_cons_cases he with ⟨r, rfl, rfl⟩ | ⟨r, rfl, rfl⟩
    · have h' : Linked dir owner (a1 ++ x :: (r ++ i :: b)) := by simpa using h
      have hx := Linked.at h'
      cases r with
      | nil =>
        rw [hp x (by simp), hx]
        simp only [List.nil_append]
        congr 1
        by_cases hb : b = []
        · subst hb
          have : a1 ≠ [] := by rintro rfl; simp at hlen
          simp [this]
        · simp [hb]
      | cons y r =>
        rw [hd x, hx]
        · simp
        · rintro rfl; simp [List.nodup_append] at hnd
        · intro hl
          have : x ∈ y :: r := by
            have : (a1 ++ x :: y :: r).getLast? = (y :: r).getLast? := by
              simp [List.getLast?_append, List.getLast?_cons]
            rw [this] at hl
            exact List.mem_of_getLast? hl
          simp [List.nodup_append] at hnd
          have h2 := hnd.2.1.1
          simp at this
          rcases this with rfl | hm
          · simp at h2
          · exact h2.2.1 hm
        · intro hl
          have : x ∈ b := List.mem_of_head? hl
          simp [List.nodup_append] at hnd
          have h2 := hnd.2.1.1
          exact h2.2.2.2 this
    · have e : a ++ i :: (r ++ x :: b1) = (a ++ i :: r) ++ x :: b1 := by simp
      have h' := h
      rw [e] at h'
      have hx := Linked.at h'
      cases r with
      | nil =>
        rw [hq x (by simp), hx]
        simp only [List.append_nil]
        by_cases ha : a = []
        · subst ha
          simp
        · simp [ha]
      | cons y r =>
        rw [hd x, hx]
        · simp [List.getLast?_append, List.getLast?_cons]
        · rintro rfl; simp [List.nodup_append] at hnd
        · intro hl
          have : x ∈ a := List.mem_of_getLast? hl
          have := (List.pairwise_append.mp hs).2.2 x this x (by simp)
          omega
        · intro hl
          simp at hl; subst hl
          simp [List.nodup_append] at hnd

/-! ## `clang_token_branch_unlink` -/

/-- Every directive knows the one before it from both sides. -/
def Inverse (dir : Nat → Dir) : Prop := ∀ x p, (dir x).pv = some p → (dir p).nx = some x

/-- Taking a directive out of its branch: the state differs in directives and flags only, no
null pointer is dereferenced and the flags stay right. -/
structure Unlinked (σ σ' : St) (owner : Nat → Nat) (a : List Nat) (i : Nat) (b : List Nat) : Prop where
  same : ∃ d f, σ' = { σ with dir := d, flag := f }
  flags : FlagsOk (fun _ => False) σ'
  others : ∀ x, x ∉ a ++ i :: b → σ'.dir x = σ.dir x
  gone : σ'.dir i = {}
  rest : 2 ≤ (a ++ b).length → Linked σ'.dir owner (a ++ b)
  last : (a ++ b).length < 2 → ∀ x ∈ a ++ b, σ'.dir x = {}

theorem unlink_pair {σ : St} {owner : Nat → Nat} {i j : Nat} (hij : i ≠ j)
    (hp1 : (σ.dir i).parent = some (owner i)) (hp2 : (σ.dir j).parent = some (owner j))
    (hown : ∀ x u, x ∈ σ.prefixes u → u = owner x)
    (hno : ∀ x, (σ.dir x).type = .cppElse → (σ.dir x).pv ≠ some i ∧ (σ.dir x).pv ≠ some j)
    (h : FlagsOk (fun _ => False) σ) :
    ∃ f, exhaust (exhaust σ i) j = { σ with
        dir := fun x => if x = j then {} else if x = i then {} else σ.dir x, flag := f } ∧
      FlagsOk (fun _ => False) { σ with
        dir := fun x => if x = j then {} else if x = i then {} else σ.dir x, flag := f } := by
  obtain ⟨f1, e1, h1⟩ := exhaust_spec (E' := fun _ => False) hp1 (fun u hu => hown i u hu)
    (fun x _ ht => (hno x ht).1) h (fun u hu _ => hu)
  rw [e1]
  obtain ⟨f2, e2, h2⟩ := exhaust_spec (E' := fun _ => False)
    (σ := { σ with dir := fun j => if j = i then {} else σ.dir j, flag := f1 }) (i := j)
    (t := owner j) (by simp [Ne.symm hij, hp2]) (fun u hu => hown j u hu)
    (by
      intro x _ ht
      dsimp only at ht ⊢
      split at ht
      · cases ht
      · rename_i hx
        rw [if_neg hx]
        exact (hno x ht).2) h1 (fun u hu _ => hu)
  exact ⟨f2, e2, h2⟩

/-- An end of a branch takes the place of the directive next to it. -/
theorem unlink_end {σ : St} {owner : Nat → Nat} {i j : Nat} {dj : Dir} (hij : j ≠ i)
    (hpi : (σ.dir i).parent = some (owner i)) (hpj : (σ.dir j).parent = some (owner j))
    (hdj : dj.parent = some (owner j)) (htj : dj.type ≠ .cppElse)
    (hown : ∀ x u, x ∈ σ.prefixes u → u = owner x)
    (hno : ∀ x, x ≠ j → (σ.dir x).type = .cppElse → (σ.dir x).pv ≠ some i)
    (hti : (σ.dir i).type ≠ .cppElse)
    (h : FlagsOk (fun _ => False) σ) :
    ∃ f, exhaust (updateFlags (σ.set j dj) (some (owner j))) i = { σ with
        dir := fun x => if x = i then {} else if x = j then dj else σ.dir x, flag := f } ∧
      FlagsOk (fun _ => False) { σ with
        dir := fun x => if x = i then {} else if x = j then dj else σ.dir x, flag := f } := by
  have hset : FlagsOk (fun u => u = owner j) (σ.set j dj) := by
    refine h.dirs (fun _ hu => hu.elim) ?_
    intro u hu x hx
    have hxj : x ≠ j := by
      rintro rfl
      exact hu (hown x u hx)
    unfold HotDir
    simp only [hxj, if_false]
    refine and_congr_right fun ht => exists_congr fun q => and_congr_right fun hq => ?_
    by_cases hqj : q = j
    · subst hqj
      simp [hdj, hpj]
    · simp only [hqj, if_false]
  have hupd := updateFlags_ok (E' := fun _ => False) (t := owner j) hset (fun u h1 h2 => h2 h1)
  obtain ⟨f, e, hf⟩ := exhaust_spec (σ := updateFlags (σ.set j dj) (some (owner j)))
    (E' := fun _ => False) (i := i) (t := owner i)
    (by simp [updateFlags_eq, St.set, Ne.symm hij, hpi])
    (fun u hu => hown i u (by rw [updateFlags_eq] at hu; exact hu))
    (by
      rw [updateFlags_eq]
      intro x hx ht
      dsimp only [St.set] at ht ⊢
      by_cases hxj : x = j
      · subst hxj
        simp at ht
        exact absurd ht htj
      · simp only [hxj, if_false] at ht ⊢
        exact hno x hxj ht) hupd (fun u hu _ => hu)
  rw [updateFlags_eq] at e hf
  exact ⟨f, by rw [updateFlags_eq, e]; rfl, hf⟩

theorem unlink_spec {σ : St} {owner : Nat → Nat} {a b : List Nat} {i : Nat}
    (hl : Linked σ.dir owner (a ++ i :: b)) (hinv : Inverse σ.dir)
    (hown : ∀ x u, x ∈ σ.prefixes u → u = owner x) (h : FlagsOk (fun _ => False) σ) :
    Unlinked σ (unlink σ i) owner a i b := by
  have hi := Linked.at hl
  have hs := hl.2.1
  have hnd : (a ++ i :: b).Nodup := hs.imp (fun h => Nat.ne_of_lt h)
  have after : ∀ x p, (σ.dir x).pv = some p → ∀ q, (σ.dir p).nx = some q → x = q := by
    intro x p hx q hq
    have := hinv x p hx
    rw [hq] at this
    exact (Option.some.inj this).symm
  rcases List.eq_nil_or_concat a with rfl | ⟨a1, p, rfl⟩
  · cases b with
    | nil => have := hl.1; simp at this
    | cons j b =>
      have hl' : Linked σ.dir owner ([i] ++ j :: b) := hl
      have hj := Linked.at hl'
      have hji : j ≠ i := by rintro rfl; simp at hnd
      simp only [if_true, List.getLast?_nil, List.head?_cons] at hi
      cases b with
      | nil =>
        simp only [List.cons_ne_nil, if_false, if_true, List.getLast?_singleton, List.head?_nil] at hj
        have hu : unlink σ i = exhaust (exhaust σ j) i := by
          simp only [unlink, hi, hj]; simp
        obtain ⟨f, e, hf⟩ := unlink_pair (owner := owner) (i := j) (j := i) hji
          (by rw [hj]) (by rw [hi]) hown
          (by
            intro x hx
            refine ⟨fun hp => ?_, fun hp => ?_⟩
            · have := hinv x j hp
              rw [hj] at this; cases this
            · have := after x i hp j (by rw [hi])
              subst this
              rw [hj] at hx; cases hx) h
        rw [hu, e]
        constructor
        · exact ⟨_, _, rfl⟩
        · exact hf
        · intro x hx
          simp at hx
          simp [hx]
        · simp
        · intro hlen; simp at hlen
        · intro _ x hx
          simp at hx
          simp [hx]
      | cons k b =>
        simp only [List.cons_ne_nil, if_false, List.getLast?_singleton, List.head?_cons] at hj
        have hu : unlink σ i = exhaust (updateFlags (σ.set j ⟨.cppIf, none, some k, some (owner j)⟩)
            (some (owner j))) i := by
          simp only [unlink, hi, hj]; simp [St.set]
        obtain ⟨f, e, hf⟩ := unlink_end (owner := owner) (i := i) (j := j)
          (dj := ⟨.cppIf, none, some k, some (owner j)⟩) hji (by rw [hi]) (by rw [hj]) rfl (by simp) hown
          (by
            intro x hx _ hp
            exact hx (after x i hp j (by rw [hi])))
          (by rw [hi]; simp) h
        rw [hu, e]
        constructor
        · exact ⟨_, _, rfl⟩
        · exact hf
        · intro x hx
          simp at hx
          simp [hx]
        · simp
        · intro hlen
          refine Linked.erase hl hlen ?_ ?_ ?_
          · intro y h1 _ h3
            simp at h3
            simp [h1, Ne.symm h3]
          · simp
          · intro y hy
            simp at hy; subst hy
            simp [hji, hj]
        · intro hlen; simp at hlen; omega
  · simp only [List.concat_eq_append] at *
    have hl' : Linked σ.dir owner (a1 ++ p :: i :: b) := by simpa using hl
    have hp := Linked.at hl'
    have hpi : p ≠ i := by rintro rfl; simp [List.nodup_append] at hnd
    simp only [List.append_eq_nil_iff, List.cons_ne_nil, and_false, if_false, List.getLast?_append,
      List.getLast?_singleton, Option.some_or] at hi
    simp only [List.cons_ne_nil, if_false, List.head?_cons] at hp
    cases b with
    | nil =>
      simp only [if_true, List.head?_nil] at hi
      by_cases ha1 : a1 = []
      · subst ha1
        simp only [if_true, List.getLast?_nil] at hp
        have hu : unlink σ i = exhaust (exhaust σ p) i := by
          simp only [unlink, hi, hp]; simp
        obtain ⟨f, e, hf⟩ := unlink_pair (owner := owner) (i := p) (j := i) hpi
          (by rw [hp]) (by rw [hi]) hown
          (by
            intro x hx
            refine ⟨fun hp' => ?_, fun hp' => ?_⟩
            · have := after x p hp' i (by rw [hp])
              subst this
              rw [hi] at hx; cases hx
            · have := hinv x i hp'
              rw [hi] at this; cases this) h
        rw [hu, e]
        constructor
        · exact ⟨_, _, rfl⟩
        · exact hf
        · intro x hx
          simp at hx
          simp [hx]
        · simp
        · intro hlen; simp at hlen
        · intro _ x hx
          simp at hx
          simp [hx]
      · simp only [ha1, if_false] at hp
        have hu : unlink σ i = exhaust (updateFlags (σ.set p ⟨.cppEndif, a1.getLast?, none,
            some (owner p)⟩) (some (owner p))) i := by
          simp only [unlink, hi, hp]; simp [St.set]
        obtain ⟨f, e, hf⟩ := unlink_end (owner := owner) (i := i) (j := p)
          (dj := ⟨.cppEndif, a1.getLast?, none, some (owner p)⟩) hpi (by rw [hi]) (by rw [hp]) rfl
          (by simp) hown
          (by
            intro x hx _ hp'
            have := hinv x i hp'
            rw [hi] at this; cases this)
          (by rw [hi]; simp) h
        rw [hu, e]
        constructor
        · exact ⟨_, _, rfl⟩
        · exact hf
        · intro x hx
          simp at hx
          simp [hx]
        · simp
        · intro hlen
          refine Linked.erase hl hlen ?_ ?_ ?_
          · intro y h1 h2 _
            simp at h2
            simp [h1, Ne.symm h2]
          · intro y hy
            simp at hy; subst hy
            simp [hpi, hp]
          · simp
        · intro hlen
          have : 0 < a1.length := List.length_pos_iff.mpr ha1
          simp at hlen; omega
    | cons q b =>
      simp only [List.cons_ne_nil, if_false, List.head?_cons] at hi
      have hl2 : Linked σ.dir owner ((a1 ++ [p, i]) ++ q :: b) := by simpa using hl
      have hq := Linked.at hl2
      have hqi : q ≠ i := by rintro rfl; simp [List.nodup_append] at hnd
      have hqp : q ≠ p := by rintro rfl; simp [List.nodup_append] at hnd
      simp only [List.append_eq_nil_iff, List.cons_ne_nil, and_false, if_false, List.getLast?_append,
        List.getLast?_cons_cons, List.getLast?_singleton, Option.some_or] at hq
      have hu : unlink σ i = exhaust (updateFlags (updateFlags
          ((σ.set p { σ.dir p with nx := some q }).set q { σ.dir q with pv := some p })
          (some (owner p))) (some (owner q))) i := by
        simp only [unlink, hi, St.set, if_neg hqp, if_neg (Ne.symm hqp), if_true, updateFlags_eq, hp, hq]
      have hdq : ∀ x, x ≠ q → x ≠ i → (HotDir σ.dir x ↔ HotDir ((σ.set p { σ.dir p with nx := some q }).set q
          { σ.dir q with pv := some p }).dir x) := by
        intro x hxq hxi
        have e1 : ∀ y, (((σ.set p { σ.dir p with nx := some q }).set q
            { σ.dir q with pv := some p }).dir y).parent = (σ.dir y).parent := by
          intro y
          simp only [St.set]
          by_cases h1 : y = q
          · subst h1; simp
          · by_cases h2 : y = p
            · subst h2; simp [h1]
            · simp [h1, h2]
        have e2 : (((σ.set p { σ.dir p with nx := some q }).set q
            { σ.dir q with pv := some p }).dir x).pv = (σ.dir x).pv := by
          simp only [St.set, if_neg hxq]
          by_cases h2 : x = p
          · subst h2; simp
          · simp [h2]
        have e3 : (((σ.set p { σ.dir p with nx := some q }).set q
            { σ.dir q with pv := some p }).dir x).type = (σ.dir x).type := by
          simp only [St.set, if_neg hxq]
          by_cases h2 : x = p
          · subst h2; simp
          · simp [h2]
        unfold HotDir
        simp only [e1, e2, e3]
      have hset : FlagsOk (fun u => u = owner q ∨ u = owner i)
          ((σ.set p { σ.dir p with nx := some q }).set q { σ.dir q with pv := some p }) := by
        refine h.dirs (fun _ hu => hu.elim) ?_
        intro u hu x hx
        refine hdq x ?_ ?_
        · rintro rfl; exact hu (Or.inl (hown x u hx))
        · rintro rfl; exact hu (Or.inr (hown x u hx))
      have hupd := updateFlags_ok (E' := fun u => u = owner i) (t := owner q)
        (updateFlags_ok (E' := fun u => u = owner q ∨ u = owner i) (t := owner p) hset
          (fun u h1 _ => h1))
        (fun u h1 h2 => h1.resolve_left h2)
      rw [hu]
      obtain ⟨f, e, hf⟩ := exhaust_spec (σ := updateFlags (updateFlags
          ((σ.set p { σ.dir p with nx := some q }).set q { σ.dir q with pv := some p })
          (some (owner p))) (some (owner q))) (E' := fun _ => False) (i := i) (t := owner i)
        (by simp [updateFlags_eq, St.set, Ne.symm hqi, Ne.symm hpi, hi])
        (fun u hu => hown i u (by rw [updateFlags_eq, updateFlags_eq] at hu; exact hu))
        (by
          rw [updateFlags_eq, updateFlags_eq]
          intro x hx _
          dsimp only [St.set]
          by_cases hxq : x = q
          · subst hxq
            simp [hpi]
          · rw [if_neg hxq]
            intro hpv
            have hpv' : (σ.dir x).pv = some i := by
              by_cases hxp : x = p
              · subst hxp; simpa using hpv
              · simpa [hxp] using hpv
            exact hxq (after x i hpv' q (by rw [hi]))) hupd (fun u h1 h2 => h2 h1)
      rw [updateFlags_eq, updateFlags_eq] at e hf
      rw [updateFlags_eq, updateFlags_eq, e]
      constructor
      · exact ⟨_, _, rfl⟩
      · exact hf
      · intro x hx
        simp at hx
        simp [St.set, hx]
      · simp
      · intro hlen
        refine Linked.erase hl hlen ?_ ?_ ?_
        · intro y h1 h2 h3
          simp at h2 h3
          simp [St.set, h1, Ne.symm h2, Ne.symm h3]
        · intro y hy
          simp at hy; subst hy
          simp [St.set, hpi, Ne.symm hqp]
        · intro y hy
          simp at hy; subst hy
          simp [St.set, hqi]
      · intro hlen
        simp at hlen; omega

end Knfmt.Branch
