import Verif.Stream.Branch
/-! # Linking of branches while reading (C50) -/
namespace Knfmt.Branch

open Knfmt.Spec (level between Nested Chain Group)

/-! ## Levels of nesting -/

theorem level_append (a b : List K) (d : Nat) :
    level d (a ++ b) = (level d a).bind (fun e => level e b) := by
  induction a generalizing d with
  | nil => simp [level]
  | cons x a ih =>
    cases x <;> cases d <;> simp [level, ih]

theorem level_shift (a : List K) (d e k : Nat) (h : level d a = some e) :
    level (d + k) a = some (e + k) := by
  induction a generalizing d with
  | nil => simp [level] at h ⊢; omega
  | cons x a ih =>
    cases x with
    | cpp => simp only [level] at h ⊢; exact ih d h
    | cppIf =>
      simp only [level] at h ⊢
      have := ih (d + 1) h
      rwa [show d + k + 1 = d + 1 + k from by omega]
    | cppElse =>
      cases d with
      | zero => simp [level] at h
      | succ d =>
        simp only [level] at h
        have := ih (d + 1) h
        rw [show d + 1 + k = (d + k) + 1 from by omega] at this ⊢
        simpa only [level] using this
    | cppEndif =>
      cases d with
      | zero => simp [level] at h
      | succ d =>
        simp only [level] at h
        have := ih d h
        rw [show d + 1 + k = (d + k) + 1 from by omega]
        simpa only [level] using this

theorem between_succ (F : File) {i n : Nat} (h : i < n) :
    between F i (n + 1) = between F i n ++ [F.kind n] := by
  unfold between
  rw [show n + 1 - (i + 1) = (n - (i + 1)) + 1 from by omega, List.range'_concat]
  simp
  congr 1; omega

theorem between_split (F : File) {i j n : Nat} (h1 : i < j) (h2 : j < n) :
    between F i n = between F i j ++ F.kind j :: between F j n := by
  unfold between
  rw [show n - (i + 1) = (j - (i + 1)) + (n - j) from by omega, ← List.range'_append]
  rw [show n - j = (n - (j + 1)) + 1 from by omega]
  rw [List.range'_succ]
  simp
  constructor
  · congr 1; omega
  · congr 2; omega

/-- Nothing between two directives with balanced branches between them closes a branch that
was not opened. -/
theorem Nested.no_closer {F : File} {i j n : Nat} (h1 : Nested F i n) (h2 : Nested F i j)
    (hj : j < n) : F.kind j ≠ .cppElse ∧ F.kind j ≠ .cppEndif := by
  have h := h1.2
  rw [between_split F h2.1 hj, level_append, h2.2] at h
  constructor <;> intro hk <;> rw [hk] at h <;> simp [level] at h

theorem Nested.plain {F : File} {i n : Nat} (h : Nested F i n) (hk : F.kind n = .cpp) :
    Nested F i (n + 1) := by
  refine ⟨by have := h.1; omega, ?_⟩
  rw [between_succ F h.1, level_append, h.2]
  simp [level, hk]

theorem Nested.start (F : File) (n : Nat) : Nested F n (n + 1) :=
  ⟨by omega, by simp [between, level]⟩

/-- The directives that follow the given one have been read so far: forwards. -/
def OpenFrom (F : File) : List Nat → Prop
  | [] => False
  | [_] => True
  | x :: y :: r => Nested F x y ∧ F.kind y = .cppElse ∧ OpenFrom F (y :: r)

theorem OpenFrom.snoc {F : File} {c : List Nat} {t n : Nat} (h : OpenFrom F c)
    (ht : c.getLast? = some t) (hn : Nested F t n) (hk : F.kind n = .cppElse) :
    OpenFrom F (c ++ [n]) := by
  induction c with
  | nil => exact h.elim
  | cons x r ih =>
    cases r with
    | nil =>
      simp at ht; subst ht
      exact ⟨hn, hk, trivial⟩
    | cons y r =>
      exact ⟨h.1, h.2.1, ih h.2.2 (by simpa using ht)⟩

theorem OpenFrom.close {F : File} {c : List Nat} {s t n : Nat} (h : OpenFrom F (s :: c))
    (ht : (s :: c).getLast? = some t) (hn : Nested F t n) (hlt : n < F.n)
    (hk : F.kind n = .cppEndif) : Chain F s (c ++ [n]) := by
  induction c generalizing s with
  | nil => simp at ht; subst ht; exact .last hn hlt hk
  | cons y r ih => exact .more h.1 h.2.1 (ih h.2.2 (by simpa using ht))

/-- From the start of an open branch on, the level of nesting is one. -/
theorem OpenFrom.level {F : File} {c : List Nat} {s t n : Nat} (h : OpenFrom F (s :: c))
    (ht : (s :: c).getLast? = some t) (hn : Nested F t n) (d : Nat) :
    s < n ∧ level (d + 1) (between F s n) = some (d + 1) := by
  induction c generalizing s with
  | nil =>
    simp at ht; subst ht
    refine ⟨hn.1, ?_⟩
    have := level_shift _ _ _ (d + 1) hn.2
    simpa using this
  | cons y r ih =>
    obtain ⟨h1, h2⟩ := ih h.2.2 (by simpa using ht)
    have hlt := h.1.1
    refine ⟨by omega, ?_⟩
    rw [between_split F h.1.1 h1, level_append]
    have := level_shift _ _ _ (d + 1) h.1.2
    simp only [Nat.zero_add] at this
    rw [this, h.2.1]
    simpa [Spec.level] using h2

theorem OpenFrom.bounds {F : File} {c : List Nat} {s : Nat} (h : OpenFrom F (s :: c)) :
    ∀ x ∈ s :: c, s ≤ x := by
  induction c generalizing s with
  | nil => simp
  | cons y r ih =>
    intro x hx
    rcases List.mem_cons.mp hx with rfl | hx
    · exact Nat.le_refl _
    · have := ih h.2.2 x hx
      have := h.1.1
      omega

theorem OpenFrom.le_last {F : File} {c : List Nat} {s t : Nat} (h : OpenFrom F (s :: c))
    (ht : (s :: c).getLast? = some t) : ∀ x ∈ s :: c, x ≤ t := by
  induction c generalizing s with
  | nil => simp at ht; subst ht; simp
  | cons y r ih =>
    have h' := ih h.2.2 (by simpa using ht)
    intro x hx
    rcases List.mem_cons.mp hx with rfl | hx
    · have := h' y (by simp)
      have := h.1.1
      omega
    · exact h' x hx

theorem OpenFrom.sorted {F : File} {c : List Nat} (h : OpenFrom F c) :
    c.Pairwise (· < ·) := by
  induction c with
  | nil => exact .nil
  | cons x r ih =>
    cases r with
    | nil => simp
    | cons y r =>
      have h' := ih h.2.2
      refine List.pairwise_cons.mpr ⟨?_, h'⟩
      intro z hz
      have := OpenFrom.bounds h.2.2 z hz
      have := h.1.1
      omega

theorem OpenFrom.kinds {F : File} {c : List Nat} {s : Nat} (h : OpenFrom F (s :: c)) :
    ∀ x ∈ c, F.kind x = .cppElse := by
  induction c generalizing s with
  | nil => simp
  | cons y r ih =>
    intro x hx
    rcases List.mem_cons.mp hx with rfl | hx
    · exact h.2.1
    · exact ih h.2.2 x hx

/-- The branches that are open before the `n`-th directive, innermost first. -/
def Frames (F : File) : Nat → List (List Nat) → Prop
  | _, [] => True
  | _, [] :: _ => False
  | n, (s :: c) :: cs => F.kind s = .cppIf ∧ OpenFrom F (s :: c) ∧
      (∃ t, (s :: c).getLast? = some t ∧ Nested F t n) ∧ Frames F s cs

theorem Frames.bounds {F : File} {n : Nat} {cs : List (List Nat)} (h : Frames F n cs) :
    ∀ c ∈ cs, ∀ x ∈ c, x < n := by
  induction cs generalizing n with
  | nil => simp
  | cons c cs ih =>
    cases c with
    | nil => exact h.elim
    | cons s c =>
      obtain ⟨_, h2, ⟨t, h3, h4⟩, h5⟩ := h
      intro c' hc' x hx
      rcases List.mem_cons.mp hc' with rfl | hc'
      · have := h2.le_last h3 x hx
        have := h4.1
        omega
      · have := ih h5 c' hc' x hx
        have := (h2.level h3 h4 0).1
        omega

theorem Frames.kinds {F : File} {n : Nat} {cs : List (List Nat)} (h : Frames F n cs) :
    ∀ c ∈ cs, ∀ x ∈ c, F.kind x = .cppIf ∨ F.kind x = .cppElse := by
  induction cs generalizing n with
  | nil => simp
  | cons c cs ih =>
    cases c with
    | nil => exact h.elim
    | cons s c =>
      obtain ⟨h1, h2, _, h5⟩ := h
      intro c' hc' x hx
      rcases List.mem_cons.mp hc' with rfl | hc'
      · rcases List.mem_cons.mp hx with rfl | hx
        · exact Or.inl h1
        · exact Or.inr (h2.kinds x hx)
      · exact ih h5 c' hc' x hx

theorem Frames.disjoint {F : File} {n : Nat} {c : List Nat} {cs : List (List Nat)}
    (h : Frames F n (c :: cs)) : ∀ c' ∈ cs, ∀ x ∈ c, x ∉ c' := by
  cases c with
  | nil => exact h.elim
  | cons s c =>
    obtain ⟨_, h2, _, h5⟩ := h
    intro c' hc' x hx hx'
    have := h5.bounds c' hc' x hx'
    have := h2.bounds x hx
    omega

theorem Frames.tail {F : File} {n : Nat} {c : List Nat} {cs : List (List Nat)}
    (h : Frames F n (c :: cs)) : ∃ m, Frames F m cs := by
  cases c with
  | nil => exact h.elim
  | cons s c => exact ⟨s, h.2.2.2⟩

theorem Frames.sorted {F : File} {n : Nat} {cs : List (List Nat)} (h : Frames F n cs) :
    ∀ c ∈ cs, c ≠ [] ∧ c.Pairwise (· < ·) := by
  induction cs generalizing n with
  | nil => simp
  | cons c cs ih =>
    cases c with
    | nil => exact h.elim
    | cons s c =>
      intro c' hc'
      rcases List.mem_cons.mp hc' with rfl | hc'
      · exact ⟨by simp, h.2.1.sorted⟩
      · exact ih h.2.2.2 c' hc'

theorem Frames.plain {F : File} {n : Nat} {cs : List (List Nat)} (h : Frames F n cs)
    (hk : F.kind n = .cpp) : Frames F (n + 1) cs := by
  match cs, h with
  | [], _ => trivial
  | (s :: c) :: cs, ⟨h1, h2, ⟨t, h3, h4⟩, h5⟩ => exact ⟨h1, h2, ⟨t, h3, Nested.plain h4 hk⟩, h5⟩

theorem Frames.open {F : File} {n : Nat} {cs : List (List Nat)} (h : Frames F n cs)
    (hk : F.kind n = .cppIf) : Frames F (n + 1) ([n] :: cs) :=
  ⟨hk, trivial, ⟨n, by simp, Nested.start F n⟩, h⟩

theorem Frames.switch {F : File} {n : Nat} {c : List Nat} {cs : List (List Nat)}
    (h : Frames F n (c :: cs)) (hk : F.kind n = .cppElse) :
    Frames F (n + 1) ((c ++ [n]) :: cs) := by
  cases c with
  | nil => exact h.elim
  | cons s c =>
    obtain ⟨h1, h2, ⟨t, h3, h4⟩, h5⟩ := h
    exact ⟨h1, h2.snoc h3 h4 hk, ⟨n, by simp [List.getLast?_cons], Nested.start F n⟩, h5⟩

theorem Frames.shut {F : File} {n : Nat} {c : List Nat} {cs : List (List Nat)}
    (h : Frames F n (c :: cs)) (hk : F.kind n = .cppEndif) (hn : n < F.n) :
    Frames F (n + 1) cs ∧ Group F (c ++ [n]) := by
  cases c with
  | nil => exact h.elim
  | cons s c =>
    obtain ⟨h1, h2, ⟨t, h3, h4⟩, h5⟩ := h
    refine ⟨?_, h1, h2.close h3 h4 hn hk⟩
    have hl := h2.level h3 h4 0
    match cs, h5 with
    | [], _ => trivial
    | (s' :: c') :: cs, ⟨g1, g2, ⟨t', g3, g4⟩, g5⟩ =>
      refine ⟨g1, g2, ⟨t', g3, ?_⟩, g5⟩
      have hlt := g4.1
      refine ⟨by omega, ?_⟩
      rw [between_succ F (by omega : t' < n), level_append, between_split F g4.1 hl.1, level_append,
        g4.2, h1]
      simp only [Option.bind_some, level]
      rw [hl.2, hk]
      simp [level]

/-! ## Links -/

/-- The directives are linked in the order given; `prev` comes before the first and `next`
after the last. -/
def Links (F : File) (dir : Nat → Dir) (next : Option Nat) : Option Nat → List Nat → Prop
  | _, [] => True
  | prev, x :: r => dir x = ⟨F.kind x, prev, r.head?.or next, some (F.owner x)⟩ ∧
      Links F dir next (some x) r

theorem Links.congr {F : File} {dir dir' : Nat → Dir} {next prev : Option Nat} {c : List Nat}
    (h : Links F dir next prev c) (he : ∀ x ∈ c, dir' x = dir x) : Links F dir' next prev c := by
  induction c generalizing prev with
  | nil => trivial
  | cons x r ih =>
    exact ⟨by rw [he x (by simp)]; exact h.1, ih h.2 (fun y hy => he y (by simp [hy]))⟩

theorem Links.append {F : File} {dir : Nat → Dir} {next prev : Option Nat} {a b : List Nat} :
    Links F dir next prev (a ++ b) ↔
      Links F dir (b.head?.or next) prev a ∧ Links F dir next (a.getLast?.or prev) b := by
  induction a generalizing prev with
  | nil => simp [Links]
  | cons x r ih =>
    simp only [List.cons_append, Links, ih, and_assoc]
    have e1 : (r ++ b).head?.or next = r.head?.or (b.head?.or next) := by
      cases r <;> simp
    have e2 : r.getLast?.or (some x) = (x :: r).getLast?.or prev := by
      cases r with
      | nil => simp
      | cons y r => simp [List.getLast?_cons]
    rw [e1, e2]

/-- What is known about one of the linked directives. -/
theorem Links.mem {F : File} {dir : Nat → Dir} {next prev : Option Nat} {c : List Nat}
    (h : Links F dir next prev c) {x : Nat} (hx : x ∈ c) :
    (dir x).type = F.kind x ∧ (dir x).parent = some (F.owner x) ∧
    ((dir x).pv = prev ∧ c.head? = some x ∨ ∃ y ∈ c, (dir x).pv = some y) ∧
    ((dir x).nx = next ∧ c.getLast? = some x ∨ ∃ y ∈ c, (dir x).nx = some y) := by
  obtain ⟨a, b, rfl⟩ := List.append_of_mem hx
  have h2 := (Links.append.mp h).2
  have hd := h2.1
  refine ⟨by rw [hd], by rw [hd], ?_, ?_⟩
  · rw [hd]
    cases ha : a.getLast? with
    | none =>
      left
      have : a = [] := by simpa using ha
      subst this
      simp
    | some y =>
      right
      exact ⟨y, by simp [List.mem_of_getLast? ha], by simp⟩
  · rw [hd]
    cases b with
    | nil => left; simp
    | cons y b => right; exact ⟨y, by simp, by simp⟩

/-- The links of a sequence lead to its elements and are inverse to each other. -/
theorem Links.prev {F : File} {dir : Nat → Dir} {next : Option Nat} {c : List Nat}
    (h : Links F dir next none c) (hs : c.Pairwise (· < ·)) {x p : Nat} (hx : x ∈ c)
    (hp : (dir x).pv = some p) : p ∈ c ∧ p < x ∧ (dir p).nx = some x := by
  obtain ⟨a, b, rfl⟩ := List.append_of_mem hx
  obtain ⟨h1, h2⟩ := Links.append.mp h
  have hd := h2.1
  rw [hd] at hp
  simp at hp
  obtain ⟨a', rfl⟩ := List.getLast?_eq_some_iff.mp hp
  refine ⟨by simp, (List.pairwise_append.mp hs).2.2 p (by simp) x (by simp), ?_⟩
  have := (Links.append.mp h1).2.1
  rw [this]; simp

theorem Links.next {F : File} {dir : Nat → Dir} {prev : Option Nat} {c : List Nat}
    (h : Links F dir none prev c) (hs : c.Pairwise (· < ·)) {x q : Nat} (hx : x ∈ c)
    (hq : (dir x).nx = some q) : q ∈ c ∧ x < q ∧ (dir q).pv = some x := by
  obtain ⟨a, b, rfl⟩ := List.append_of_mem hx
  obtain ⟨h1, h2⟩ := Links.append.mp h
  have hd := h2.1
  rw [hd] at hq
  cases b with
  | nil => simp at hq
  | cons y b =>
    simp at hq; subst hq
    refine ⟨by simp, ?_, ?_⟩
    · have := (List.pairwise_append.mp hs).2.1
      exact (List.pairwise_cons.mp this).1 y (by simp)
    · have := h2.2.1
      rw [this]

/-! ## Flags -/

/-- A directive because of which its token starts a branch. -/
def HotDir (dir : Nat → Dir) (i : Nat) : Prop :=
  (dir i).type = .cppElse ∧ ∃ p, (dir i).pv = some p ∧ (dir i).parent ≠ (dir p).parent

/-- The token starts a branch. -/
def Hot (dir : Nat → Dir) (prefixes : Nat → List Nat) (t : Nat) : Prop :=
  ∃ i ∈ prefixes t, HotDir dir i

theorem find_isSome (σ : St) (t : Nat) : (find σ t).isSome = true ↔ Hot σ.dir σ.prefixes t := by
  unfold find Hot HotDir
  rw [List.findSome?_isSome_iff]
  apply exists_congr
  intro i
  constructor
  · rintro ⟨hm, h⟩
    refine ⟨hm, ?_⟩
    split at h
    · simp at h
    · rename_i ht
      refine ⟨by simpa using ht, ?_⟩
      split at h
      · simp at h
      · rename_i p hp
        refine ⟨p, hp, ?_⟩
        split at h
        · assumption
        · simp at h
  · rintro ⟨hm, ht, p, hp, hne⟩
    refine ⟨hm, ?_⟩
    simp [ht, hp, hne]

/-- Flags are those of the tokens that start a branch. -/
noncomputable def hotFlag (dir : Nat → Dir) (prefixes : Nat → List Nat) (t : Nat) : Bool :=
  open Classical in decide (Hot dir prefixes t)

theorem find_eq_hot (σ : St) (t : Nat) : (find σ t).isSome = hotFlag σ.dir σ.prefixes t := by
  rw [Bool.eq_iff_iff, find_isSome]
  simp [hotFlag]

theorem hotFlag_iff {dir : Nat → Dir} {prefixes : Nat → List Nat} {t : Nat} :
    hotFlag dir prefixes t = true ↔ Hot dir prefixes t := by
  simp [hotFlag]

/-- Being a branch depends only on some of the directives. -/
theorem Hot.congr {dir dir' : Nat → Dir} {prefixes : Nat → List Nat} {t : Nat}
    (h : ∀ i ∈ prefixes t, HotDir dir i ↔ HotDir dir' i) :
    Hot dir prefixes t ↔ Hot dir' prefixes t := by
  constructor
  · rintro ⟨i, hi, h'⟩; exact ⟨i, hi, (h i hi).mp h'⟩
  · rintro ⟨i, hi, h'⟩; exact ⟨i, hi, (h i hi).mpr h'⟩

/-- The loop that updates the flags of the tokens of a chain. -/
theorem walkFlags_spec (F : File) (next : Option Nat) :
    ∀ (c : List Nat) (σ : St) (i : Nat), c.getLast? = some i → c.Pairwise (· < ·) →
      Links F σ.dir next none c →
      walkFlags σ i = { σ with
        flag := fun u => if u ∈ c.map F.owner then hotFlag σ.dir σ.prefixes u else σ.flag u } := by
  intro c
  induction hm : c.length using Nat.strongRecOn generalizing c next with
  | ind m ih =>
    subst hm
    intro σ i hi hs hl
    obtain ⟨pre, rfl⟩ := List.getLast?_eq_some_iff.mp hi
    obtain ⟨h1, h2⟩ := Links.append.mp hl
    have hd := h2.1
    rw [walkFlags]
    have hpar : (σ.dir i).parent = some (F.owner i) := by rw [hd]
    have hpv : (σ.dir i).pv = pre.getLast? := by rw [hd]; simp
    simp only [hpar, hpv, updateFlags, find_eq_hot]
    cases hp : pre.getLast? with
    | none =>
      have : pre = [] := by simpa using hp
      subst this
      dsimp only
      congr 1
      funext u
      by_cases hu : u = F.owner i
      · subst hu; simp
      · simp [hu]
    | some p =>
      have hlt : p < i := by
        have := List.mem_of_getLast? hp
        have hs' := List.pairwise_append.mp hs
        exact hs'.2.2 p this i (by simp)
      simp only [dif_pos hlt]
      rw [ih pre.length (by simp) (([i] : List Nat).head?.or next) pre rfl
        { σ with
          flag := fun u => if u = F.owner i then hotFlag σ.dir σ.prefixes (F.owner i) else σ.flag u }
        p hp (List.pairwise_append.mp hs).1 h1]
      congr 1
      funext u
      by_cases hu : u ∈ pre.map F.owner
      · simp only [hu, if_true, List.map_append, List.mem_append, true_or]
      · by_cases hu2 : u = F.owner i
        · have hu' : F.owner i ∉ pre.map F.owner := hu2 ▸ hu
          rw [hu2]
          simp only [hu', if_false]
          simp
        · simp only [hu, hu2, if_false]
          simp only [List.map_append, List.mem_append, hu, List.map_cons, List.map_nil,
            List.mem_singleton, hu2, or_self, if_false]

/-! ## Reading -/

/-- What holds after `n` directives were read; `cs` are the branches that are open. -/
structure Inv (F : File) (n : Nat) (cs : List (List Nat)) (σ : St) : Prop where
  ok : σ.ok = true
  prefixes : σ.prefixes = F.init.prefixes
  toks : σ.toks = F.init.toks
  stack : σ.stack.map some = cs.map (·.getLast?)
  frames : Frames F n cs
  linked : ∀ c ∈ cs, Links F σ.dir none none c
  all : ∀ i, i < n → (∃ c ∈ cs, i ∈ c) ∨
    (∃ g, Group F g ∧ (∀ x ∈ g, x < n) ∧ i ∈ g ∧ Links F σ.dir none none g) ∨
    (F.kind i ≠ .cppIf ∧ σ.dir i = {})
  fresh : ∀ i, n ≤ i → σ.dir i = F.init.dir i
  flag : ∀ t, σ.flag t = true → Hot σ.dir σ.prefixes t
  flagged : ∀ i t, i ∈ σ.prefixes t → (∀ c ∈ cs, i ∉ c) → HotDir σ.dir i → σ.flag t = true
  pvlt : ∀ i p, (σ.dir i).pv = some p → p < i ∧ i < n

theorem mem_prefixes {F : File} {i t : Nat} : i ∈ F.init.prefixes t ↔ i < F.n ∧ F.owner i = t := by
  simp [File.init]

theorem Chain.last_kind {F : File} {s : Nat} {js : List Nat} (h : Chain F s js) :
    ∃ e, js.getLast? = some e ∧ F.kind e = .cppEndif := by
  induction h with
  | last _ _ hk => exact ⟨_, by simp, hk⟩
  | more _ _ h ih =>
    obtain ⟨e, h1, h2⟩ := ih
    refine ⟨e, ?_, h2⟩
    rw [List.getLast?_cons, h1]; simp

theorem Group.last_kind {F : File} {g : List Nat} (h : Group F g) :
    ∃ e, g.getLast? = some e ∧ F.kind e = .cppEndif := by
  cases g with
  | nil => exact h.elim
  | cons s js =>
    obtain ⟨e, h1, h2⟩ := Chain.last_kind h.2
    exact ⟨e, by rw [List.getLast?_cons, h1]; simp, h2⟩

/-- The last directive of an open branch is in no complete one. -/
theorem top_not_in_group {F : File} {dir : Nat → Dir} {c g : List Nat} {t : Nat}
    (hc : Links F dir none none c) (ht : c.getLast? = some t)
    (hk : F.kind t = .cppIf ∨ F.kind t = .cppElse) (hg : Group F g)
    (hl : Links F dir none none g) : t ∉ g := by
  intro hm
  obtain ⟨pre, rfl⟩ := List.getLast?_eq_some_iff.mp ht
  have hd := (Links.append.mp hc).2.1
  have hnx : (dir t).nx = none := by rw [hd]; rfl
  obtain ⟨_, _, _, h⟩ := hl.mem hm
  rcases h with ⟨_, h⟩ | ⟨y, _, h⟩
  · obtain ⟨e, he, hke⟩ := Group.last_kind hg
    rw [h] at he
    obtain rfl := Option.some.inj he
    rw [hke] at hk
    simp at hk
  · rw [hnx] at h; cases h

theorem Inv.init (F : File) : Inv F 0 [] F.init where
  ok := rfl
  prefixes := rfl
  toks := rfl
  stack := rfl
  frames := trivial
  linked := by simp
  all := by intro i hi; omega
  fresh := fun _ _ => rfl
  flag := by intro t h; cases h
  flagged := by
    rintro i t _ _ ⟨_, p, h, _⟩
    cases h
  pvlt := by intro i p h; cases h

/-- A directive that is no part of any branch, or a stray one, is passed by. -/
theorem Inv.skip {F : File} {n : Nat} {cs cs' : List (List Nat)} {σ : St} (h : Inv F n cs σ)
    (hsub : ∀ c, c ∈ cs' ↔ c ∈ cs) (hmap : cs'.map (·.getLast?) = cs.map (·.getLast?))
    (hfr : Frames F (n + 1) cs') (hk : F.kind n ≠ .cppIf) (dir : Nat → Dir)
    (hdir : ∀ i, i ≠ n → dir i = σ.dir i) (hn : dir n = {}) :
    Inv F (n + 1) cs' { σ with dir := dir } := by
  have hot : ∀ i, HotDir σ.dir i ↔ HotDir dir i := by
    intro i
    by_cases hi : i = n
    · subst hi
      constructor
      · rintro ⟨_, p, hp, _⟩
        have := (h.pvlt _ _ hp).2; omega
      · rintro ⟨_, p, hp, _⟩
        rw [hn] at hp; cases hp
    · have e := hdir i hi
      constructor
      · rintro ⟨a, p, hp, b⟩
        have hp' : p ≠ n := by have := h.pvlt _ _ hp; omega
        exact ⟨by rw [e]; exact a, p, by rw [e]; exact hp, by rw [e, hdir p hp']; exact b⟩
      · rintro ⟨a, p, hp, b⟩
        rw [e] at a hp b
        have hp' : p ≠ n := by have := h.pvlt _ _ hp; omega
        rw [hdir p hp'] at b
        exact ⟨a, p, hp, b⟩
  constructor
  · exact h.ok
  · exact h.prefixes
  · exact h.toks
  · rw [hmap]; exact h.stack
  · exact hfr
  · intro c hc
    have hc' := (hsub c).mp hc
    exact (h.linked c hc').congr (fun x hx => hdir x (by have := h.frames.bounds c hc' x hx; omega))
  · intro i hi
    rcases Nat.lt_or_ge i n with hlt | hge
    · rcases h.all i hlt with ⟨c, hc, hi⟩ | ⟨g, hg, hb, hi, hl⟩ | ⟨hk', hd⟩
      · exact Or.inl ⟨c, (hsub c).mpr hc, hi⟩
      · exact Or.inr (Or.inl ⟨g, hg, fun x hx => by have := hb x hx; omega, hi,
          hl.congr (fun x hx => hdir x (by have := hb x hx; omega))⟩)
      · exact Or.inr (Or.inr ⟨hk', by rw [← hd]; exact hdir i (by omega)⟩)
    · have : i = n := by omega
      subst this
      exact Or.inr (Or.inr ⟨hk, hn⟩)
  · intro i hi
    show dir i = _
    rw [hdir i (by omega)]
    exact h.fresh i (by omega)
  · intro t ht
    exact (Hot.congr (fun i _ => hot i)).mp (h.flag t ht)
  · intro i t hi hc hh
    exact h.flagged i t hi (fun c hc' => hc c ((hsub c).mpr hc')) ((hot i).mpr hh)
  · intro i p hp
    by_cases hi : i = n
    · subst hi
      change (dir i).pv = _ at hp
      rw [hn] at hp; cases hp
    · change (dir i).pv = _ at hp
      rw [hdir i hi] at hp
      have := h.pvlt i p hp
      omega

theorem init_dir {F : File} {n : Nat} (h : n < F.n) : F.init.dir n = { type := F.kind n } := by
  simp [File.init, h]

/-- The stack is empty exactly if no branch is open. -/
theorem Inv.stack_nil {F : File} {n : Nat} {cs : List (List Nat)} {σ : St} (h : Inv F n cs σ) :
    σ.stack = [] ↔ cs = [] := by
  have := h.stack
  constructor
  · intro he; rw [he] at this; simpa using this
  · intro he; rw [he] at this; simpa using this

theorem Inv.stray {F : File} {n : Nat} {σ : St} (h : Inv F n [] σ) (hn : n < F.n)
    (hk : F.kind n = .cppElse ∨ F.kind n = .cppEndif) : Inv F (n + 1) [] (revert σ n) := by
  have hd := h.fresh n (Nat.le_refl _)
  rw [init_dir hn] at hd
  have he : revert σ n = { σ with dir := fun j => if j = n then {} else σ.dir j } := by
    simp only [revert, St.set, hd, if_true]
    congr 1
    funext j
    by_cases hj : j = n <;> simp [hj]
  rw [he]
  exact h.skip (fun _ => Iff.rfl) rfl trivial (by rcases hk with hk | hk <;> rw [hk] <;> decide)
    _ (fun i hi => by simp [hi]) (by simp)

theorem Inv.plain {F : File} {n : Nat} {cs : List (List Nat)} {σ : St} (h : Inv F n cs σ)
    (hn : n < F.n) (hk : F.kind n = .cpp) : Inv F (n + 1) cs σ := by
  have hd := h.fresh n (Nat.le_refl _)
  rw [init_dir hn, hk] at hd
  exact h.skip (fun _ => Iff.rfl) rfl (h.frames.plain hk) (by rw [hk]; decide) σ.dir
    (fun _ _ => rfl) hd

theorem Inv.enter {F : File} {n : Nat} {cs : List (List Nat)} {σ : St} (h : Inv F n cs σ)
    (hn : n < F.n) (hk : F.kind n = .cppIf) :
    Inv F (n + 1) ([n] :: cs) (enter σ n (F.owner n)) := by
  have hd := h.fresh n (Nat.le_refl _)
  rw [init_dir hn] at hd
  have hdir : ∀ i, i ≠ n → (Branch.enter σ n (F.owner n)).dir i = σ.dir i := by
    intro i hi; simp [Branch.enter, St.set, hi]
  have hdn : (Branch.enter σ n (F.owner n)).dir n = ⟨F.kind n, none, none, some (F.owner n)⟩ := by
    simp [Branch.enter, St.set, hd]
  have hot : ∀ i, HotDir σ.dir i ↔ HotDir (Branch.enter σ n (F.owner n)).dir i := by
    intro i
    by_cases hi : i = n
    · subst hi
      constructor
      · rintro ⟨_, p, hp, _⟩
        have := (h.pvlt _ _ hp).2; omega
      · rintro ⟨_, p, hp, _⟩
        rw [hdn] at hp; cases hp
    · have e := hdir i hi
      constructor
      · rintro ⟨a, p, hp, b⟩
        have hp' : p ≠ n := by have := h.pvlt _ _ hp; omega
        exact ⟨by rw [e]; exact a, p, by rw [e]; exact hp, by rw [e, hdir p hp']; exact b⟩
      · rintro ⟨a, p, hp, b⟩
        rw [e] at a hp b
        have hp' : p ≠ n := by have := h.pvlt _ _ hp; omega
        rw [hdir p hp'] at b
        exact ⟨a, p, hp, b⟩
  constructor
  · exact h.ok
  · exact h.prefixes
  · exact h.toks
  · simp [Branch.enter, St.set, h.stack]
  · exact h.frames.open hk
  · intro c hc
    rcases List.mem_cons.mp hc with rfl | hc
    · exact ⟨by rw [hdn]; rfl, trivial⟩
    · exact (h.linked c hc).congr (fun x hx => hdir x (by have := h.frames.bounds c hc x hx; omega))
  · intro i hi
    rcases Nat.lt_or_ge i n with hlt | hge
    · rcases h.all i hlt with ⟨c, hc, hi⟩ | ⟨g, hg, hb, hi, hl⟩ | ⟨hk', hd⟩
      · exact Or.inl ⟨c, by simp [hc], hi⟩
      · exact Or.inr (Or.inl ⟨g, hg, fun x hx => by have := hb x hx; omega, hi,
          hl.congr (fun x hx => hdir x (by have := hb x hx; omega))⟩)
      · exact Or.inr (Or.inr ⟨hk', by rw [← hd]; exact hdir i (by omega)⟩)
    · have : i = n := by omega
      subst this
      exact Or.inl ⟨[i], by simp, by simp⟩
  · intro i hi
    rw [hdir i (by omega)]
    exact h.fresh i (by omega)
  · intro t ht
    exact (Hot.congr (fun i _ => hot i)).mp (h.flag t ht)
  · intro i t hi hc hh
    exact h.flagged i t hi (fun c hc' => hc c (by simp [hc'])) ((hot i).mpr hh)
  · intro i p hp
    by_cases hi : i = n
    · subst hi
      rw [hdn] at hp; cases hp
    · rw [hdir i hi] at hp
      have := h.pvlt i p hp
      omega

/-- What linking does to the directives if a branch is open. -/
theorem link_spec {F : File} {n : Nat} {c : List Nat} {cs : List (List Nat)} {σ : St}
    (h : Inv F n (c :: cs) σ) (hn : n < F.n) :
    ∃ br rest dir, σ.stack = br :: rest ∧ c.getLast? = some br ∧ rest.map some = cs.map (·.getLast?) ∧
      link σ n (F.owner n) = { σ with dir := dir, stack := n :: rest } ∧
      (∀ i, i ≠ n → i ≠ br → dir i = σ.dir i) ∧
      (∀ i, i ≠ n → (dir i).type = (σ.dir i).type ∧ (dir i).pv = (σ.dir i).pv ∧
        (dir i).parent = (σ.dir i).parent) ∧
      dir n = ⟨F.kind n, some br, none, some (F.owner n)⟩ ∧
      Links F dir none none (c ++ [n]) := by
  have hst := h.stack
  cases hs : σ.stack with
  | nil => rw [hs] at hst; simp at hst
  | cons br rest =>
    rw [hs] at hst
    simp only [List.map_cons, List.cons.injEq] at hst
    have hlast : c.getLast? = some br := hst.1.symm
    have hbr : br < n := h.frames.bounds c (by simp) br (List.mem_of_getLast? hlast)
    have hd := h.fresh n (Nat.le_refl _)
    rw [init_dir hn] at hd
    have hne : br ≠ n := by omega
    refine ⟨br, rest, fun j => if j = n then ⟨F.kind n, some br, none, some (F.owner n)⟩
      else if j = br then { σ.dir br with nx := some n } else σ.dir j, rfl, hlast, hst.2, ?_, ?_,
      ?_, by simp, ?_⟩
    · simp only [link, hs, St.set]
      congr 1
      funext j
      by_cases hj : j = n
      · subst hj; simp [hd, Ne.symm hne]
      · by_cases hj' : j = br
        · subst hj'; simp [hj]
        · simp [hj, hj']
    · intro i h1 h2; simp [h1, h2]
    · intro i h1
      by_cases h2 : i = br
      · subst h2; simp [h1]
      · simp [h1, h2]
    · obtain ⟨pre, rfl⟩ := List.getLast?_eq_some_iff.mp hlast
      have hl := h.linked _ (by simp : pre ++ [br] ∈ (pre ++ [br]) :: cs)
      obtain ⟨h1, h2⟩ := Links.append.mp hl
      have hsort := (h.frames.sorted _ (by simp : pre ++ [br] ∈ (pre ++ [br]) :: cs)).2
      have hpre : ∀ x ∈ pre, x < br := fun x hx =>
        (List.pairwise_append.mp hsort).2.2 x hx br (by simp)
      rw [List.append_assoc]
      refine Links.append.mpr ⟨?_, ?_⟩
      · refine Links.congr h1 (fun x hx => ?_)
        have := hpre x hx
        simp [show x ≠ n by omega, show x ≠ br by omega]
      · refine ⟨?_, ?_, trivial⟩
        · have := h2.1
          simp only [hne, if_false, if_true, this]
          simp
        · simp

theorem Inv.switch {F : File} {n : Nat} {c : List Nat} {cs : List (List Nat)} {σ : St}
    (h : Inv F n (c :: cs) σ) (hn : n < F.n) (hk : F.kind n = .cppElse) :
    Inv F (n + 1) ((c ++ [n]) :: cs) (link σ n (F.owner n)) := by
  obtain ⟨br, rest, dir, hs, hlast, hrest, he, hdir, hsame, hdn, hl⟩ := link_spec h hn
  rw [he]
  have hcm : c ∈ c :: cs := by simp
  have hbrm := List.mem_of_getLast? hlast
  have hbr : br < n := h.frames.bounds c hcm br hbrm
  have hbrk := h.frames.kinds c hcm br hbrm
  have hot : ∀ i, i ≠ n → (HotDir σ.dir i ↔ HotDir dir i) := by
    intro i hi
    obtain ⟨e1, e2, e3⟩ := hsame i hi
    unfold HotDir
    rw [e1, e2, e3]
    refine and_congr Iff.rfl (exists_congr fun p => and_congr_right fun hp => ?_)
    have hp' : p ≠ n := by have := h.pvlt _ _ hp; omega
    rw [(hsame p hp').2.2]
  constructor
  · exact h.ok
  · exact h.prefixes
  · exact h.toks
  · simp [hrest]
  · exact h.frames.switch hk
  · intro c' hc'
    rcases List.mem_cons.mp hc' with rfl | hc'
    · exact hl
    · refine (h.linked c' (by simp [hc'])).congr (fun x hx => hdir x ?_ ?_)
      · have := h.frames.bounds c' (by simp [hc']) x hx; omega
      · intro hxe
        exact h.frames.disjoint c' hc' br hbrm (hxe ▸ hx)
  · intro i hi
    rcases Nat.lt_or_ge i n with hlt | hge
    · rcases h.all i hlt with ⟨c', hc', hi⟩ | ⟨g, hg, hb, hi, hlg⟩ | ⟨hk', hd⟩
      · rcases List.mem_cons.mp hc' with rfl | hc'
        · exact Or.inl ⟨c' ++ [n], by simp, by simp [hi]⟩
        · exact Or.inl ⟨c', by simp [hc'], hi⟩
      · have hng := top_not_in_group (h.linked c hcm) hlast hbrk hg hlg
        exact Or.inr (Or.inl ⟨g, hg, fun x hx => by have := hb x hx; omega, hi,
          hlg.congr (fun x hx => hdir x (by have := hb x hx; omega) (fun e => hng (e ▸ hx)))⟩)
      · have : i ≠ br := by
          rintro rfl
          have := ((h.linked c hcm).mem hbrm).2.1
          rw [hd] at this; cases this
        exact Or.inr (Or.inr ⟨hk', by rw [← hd]; exact hdir i (by omega) this⟩)
    · have : i = n := by omega
      subst this
      exact Or.inl ⟨c ++ [i], by simp, by simp⟩
  · intro i hi
    show dir i = _
    rw [hdir i (by omega) (by omega)]
    exact h.fresh i (by omega)
  · intro t ht
    obtain ⟨i, hi, hh⟩ := h.flag t ht
    have : i ≠ n := by
      obtain ⟨_, p, hp, _⟩ := hh
      have := (h.pvlt _ _ hp).2; omega
    exact ⟨i, hi, (hot i this).mp hh⟩
  · intro i t hi hc hh
    have hin : i ≠ n := by
      rintro rfl
      exact hc (c ++ [i]) (by simp) (by simp)
    refine h.flagged i t hi (fun c' hc' hm => ?_) ((hot i hin).mpr hh)
    rcases List.mem_cons.mp hc' with rfl | hc'
    · exact hc (c' ++ [n]) (by simp) (by simp [hm])
    · exact hc c' (by simp [hc']) hm
  · intro i p hp
    change (dir i).pv = _ at hp
    by_cases hi : i = n
    · subst hi
      rw [hdn] at hp
      simp at hp; omega
    · rw [(hsame i hi).2.1] at hp
      have := h.pvlt i p hp
      omega

theorem Inv.leave {F : File} {n : Nat} {c : List Nat} {cs : List (List Nat)} {σ : St}
    (h : Inv F n (c :: cs) σ) (hn : n < F.n) (hk : F.kind n = .cppEndif) :
    Inv F (n + 1) cs (leave σ n (F.owner n)) := by
  obtain ⟨br, rest, dir, hs, hlast, hrest, he, hdir, hsame, hdn, hl⟩ := link_spec h hn
  have hcm : c ∈ c :: cs := by simp
  have hbrm := List.mem_of_getLast? hlast
  have hbr : br < n := h.frames.bounds c hcm br hbrm
  have hbrk := h.frames.kinds c hcm br hbrm
  have hsort : (c ++ [n]).Pairwise (· < ·) := by
    refine List.pairwise_append.mpr ⟨(h.frames.sorted c hcm).2, by simp, ?_⟩
    intro x hx y hy
    simp at hy; subst hy
    exact h.frames.bounds c hcm x hx
  have hwalk := walkFlags_spec F none (c ++ [n]) { σ with dir := dir, stack := n :: rest } n (by simp)
    hsort hl
  have hlv : Branch.leave σ n (F.owner n) = { σ with
      dir := dir, stack := rest
      flag := fun u => if u ∈ (c ++ [n]).map F.owner then hotFlag dir σ.prefixes u else σ.flag u } := by
    simp only [Branch.leave, he, hwalk, List.tail_cons]
  rw [hlv]
  have hot : ∀ i, i ≠ n → (HotDir σ.dir i ↔ HotDir dir i) := by
    intro i hi
    obtain ⟨e1, e2, e3⟩ := hsame i hi
    unfold HotDir
    rw [e1, e2, e3]
    refine and_congr Iff.rfl (exists_congr fun p => and_congr_right fun hp => ?_)
    have hp' : p ≠ n := by have := h.pvlt _ _ hp; omega
    rw [(hsame p hp').2.2]
  obtain ⟨hfr, hgrp⟩ := h.frames.shut hk hn
  constructor
  · exact h.ok
  · exact h.prefixes
  · exact h.toks
  · exact hrest
  · exact hfr
  · intro c' hc'
    refine (h.linked c' (by simp [hc'])).congr (fun x hx => hdir x ?_ ?_)
    · have := h.frames.bounds c' (by simp [hc']) x hx; omega
    · intro hxe
      exact h.frames.disjoint c' hc' br hbrm (hxe ▸ hx)
  · intro i hi
    have new : i ∈ c ++ [n] → (∃ g, Group F g ∧ (∀ x ∈ g, x < n + 1) ∧ i ∈ g ∧
        Links F dir none none g) := by
      intro hi
      refine ⟨c ++ [n], hgrp, ?_, hi, hl⟩
      intro x hx
      rcases List.mem_append.mp hx with hx | hx
      · have := h.frames.bounds c hcm x hx; omega
      · simp at hx; omega
    rcases Nat.lt_or_ge i n with hlt | hge
    · rcases h.all i hlt with ⟨c', hc', hi⟩ | ⟨g, hg, hb, hi, hlg⟩ | ⟨hk', hd⟩
      · rcases List.mem_cons.mp hc' with rfl | hc'
        · exact Or.inr (Or.inl (new (by simp [hi])))
        · exact Or.inl ⟨c', hc', hi⟩
      · have hng := top_not_in_group (h.linked c hcm) hlast hbrk hg hlg
        exact Or.inr (Or.inl ⟨g, hg, fun x hx => by have := hb x hx; omega, hi,
          hlg.congr (fun x hx => hdir x (by have := hb x hx; omega) (fun e => hng (e ▸ hx)))⟩)
      · have : i ≠ br := by
          rintro rfl
          have := ((h.linked c hcm).mem hbrm).2.1
          rw [hd] at this; cases this
        exact Or.inr (Or.inr ⟨hk', by rw [← hd]; exact hdir i (by omega) this⟩)
    · have : i = n := by omega
      subst this
      exact Or.inr (Or.inl (new (by simp)))
  · intro i hi
    show dir i = _
    rw [hdir i (by omega) (by omega)]
    exact h.fresh i (by omega)
  · intro t ht
    dsimp only at ht
    split at ht
    · exact hotFlag_iff.mp ht
    · obtain ⟨i, hi, hh⟩ := h.flag t ht
      have : i ≠ n := by
        obtain ⟨_, p, hp, _⟩ := hh
        have := (h.pvlt _ _ hp).2; omega
      exact ⟨i, hi, (hot i this).mp hh⟩
  · intro i t hi hc hh
    dsimp only
    split
    · exact hotFlag_iff.mpr ⟨i, hi, hh⟩
    · rename_i hnt
      have hi' : i < F.n ∧ F.owner i = t := mem_prefixes.mp (h.prefixes ▸ hi)
      have hic : i ∉ c ++ [n] := fun hm => hnt (List.mem_map.mpr ⟨i, hm, hi'.2⟩)
      have hin : i ≠ n := by
        rintro rfl
        exact hic (by simp)
      refine h.flagged i t hi (fun c' hc' hm => ?_) ((hot i hin).mpr hh)
      rcases List.mem_cons.mp hc' with rfl | hc'
      · exact hic (by simp [hm])
      · exact hc c' hc' hm
  · intro i p hp
    change (dir i).pv = _ at hp
    by_cases hi : i = n
    · subst hi
      rw [hdn] at hp
      simp at hp; omega
    · rw [(hsame i hi).2.1] at hp
      have := h.pvlt i p hp
      omega

/-- The invariant holds throughout reading. -/
theorem read_inv (F : File) (n : Nat) (hn : n ≤ F.n) : ∃ cs, Inv F n cs (F.read n) := by
  induction n with
  | zero => exact ⟨[], Inv.init F⟩
  | succ n ih =>
    obtain ⟨cs, h⟩ := ih (by omega)
    have hlt : n < F.n := by omega
    have hd := h.fresh n (Nat.le_refl _)
    rw [init_dir hlt] at hd
    show ∃ cs, Inv F (n + 1) cs (step (F.read n) n (F.owner n))
    unfold step
    rw [hd]
    cases hk : F.kind n with
    | cpp => exact ⟨cs, h.plain hlt hk⟩
    | cppIf => exact ⟨_, h.enter hlt hk⟩
    | cppElse =>
      cases cs with
      | nil =>
        refine ⟨[], ?_⟩
        have hs := h.stack_nil.mpr rfl
        simp only [link, hs]
        exact h.stray hlt (Or.inl hk)
      | cons c cs => exact ⟨_, h.switch hlt hk⟩
    | cppEndif =>
      cases cs with
      | nil =>
        refine ⟨[], ?_⟩
        have hs := h.stack_nil.mpr rfl
        have hst := h.stray hlt (Or.inr hk)
        have hs' := hst.stack_nil.mpr rfl
        simp only [leave, link, hs, hs', List.tail_nil]
        have e : ({ revert (F.read n) n with stack := [] } : St) = revert (F.read n) n := by
          rw [← hs']
        rw [e]
        exact hst
      | cons c cs => exact ⟨_, h.leave hlt hk⟩

/-! ## Removal of branches that are never closed -/

theorem revert_spec (σ : St) (i t : Nat) (hp : (σ.dir i).parent = some t)
    (hno : ∀ x, (σ.dir x).pv ≠ some i) :
    revert σ i = { σ with
      dir := fun j => if j = i then {} else σ.dir j
      flag := fun u => if u = t then
          hotFlag (fun j => if j = i then {} else σ.dir j) σ.prefixes u
        else σ.flag u } := by
  have hh : ∀ u, Hot (fun j => if j = i then { σ.dir i with type := K.cpp } else σ.dir j) σ.prefixes u ↔
      Hot (fun j => if j = i then {} else σ.dir j) σ.prefixes u := by
    intro u
    refine Hot.congr (fun x _ => ?_)
    unfold HotDir
    by_cases hx : x = i
    · subst hx; simp
    · simp only [hx, if_false]
      refine and_congr Iff.rfl (exists_congr fun p => and_congr_right fun hp => ?_)
      have : p ≠ i := fun e => hno x (e ▸ hp)
      simp [this]
  have hf : ∀ u, hotFlag (fun j => if j = i then { σ.dir i with type := K.cpp } else σ.dir j) σ.prefixes u
      = hotFlag (fun j => if j = i then {} else σ.dir j) σ.prefixes u := by
    intro u
    rw [Bool.eq_iff_iff, hotFlag_iff, hotFlag_iff]
    exact hh u
  simp only [revert, St.set, if_true, hp, updateFlags, find_eq_hot]
  congr 1
  · funext j
    by_cases hj : j = i <;> simp [hj]
  · funext u
    by_cases hu : u = t
    · subst hu
      have := hf u
      simp only [hp] at this
      simpa using this
    · simp [hu]

theorem revertChain_spec (F : File) :
    ∀ (c : List Nat) (next : Option Nat) (σ : St) (i : Nat), c.getLast? = some i →
      c.Pairwise (· < ·) → Links F σ.dir next none c →
      (∀ x p, (σ.dir x).pv = some p → p ∈ c → x ∈ c) → σ.prefixes = F.init.prefixes →
      revertChain σ i = { σ with
        dir := fun j => if j ∈ c then {} else σ.dir j
        flag := fun u => if u ∈ c.map F.owner then
            hotFlag (fun j => if j ∈ c then {} else σ.dir j) σ.prefixes u
          else σ.flag u } := by
  intro c
  induction hm : c.length using Nat.strongRecOn generalizing c with
  | ind m ih =>
    subst hm
    intro next σ i hi hs hl hcl hpf
    obtain ⟨pre, rfl⟩ := List.getLast?_eq_some_iff.mp hi
    obtain ⟨h1, h2⟩ := Links.append.mp hl
    have hd := h2.1
    have hpar : (σ.dir i).parent = some (F.owner i) := by rw [hd]
    have hpv : (σ.dir i).pv = pre.getLast? := by rw [hd]; simp
    have hlt : ∀ x ∈ pre, x < i := fun x hx => (List.pairwise_append.mp hs).2.2 x hx i (by simp)
    have hno : ∀ x, (σ.dir x).pv ≠ some i := by
      intro x hx
      have hxc := hcl x i hx (by simp)
      have := (hl.prev hs hxc hx).2.1
      rcases List.mem_append.mp hxc with h | h
      · have := hlt x h; omega
      · simp at h; omega
    rw [revertChain]
    simp only [hpv, revert_spec σ i _ hpar hno]
    cases hp : pre.getLast? with
    | none =>
      have : pre = [] := by simpa using hp
      subst this
      simp
    | some p =>
      simp only [dif_pos (hlt p (List.mem_of_getLast? hp))]
      have hni : i ∉ pre := fun h => by have := hlt i h; omega
      rw [ih pre.length (by simp) pre rfl (([i] : List Nat).head?.or next)
        { σ with
          dir := fun j => if j = i then {} else σ.dir j
          flag := fun u => if u = F.owner i then
              hotFlag (fun j => if j = i then {} else σ.dir j) σ.prefixes u
            else σ.flag u } p hp (List.pairwise_append.mp hs).1
        (h1.congr (fun x hx => by simp [show x ≠ i by have := hlt x hx; omega]))
        (by
          intro x q hx hq
          dsimp only at hx
          by_cases hxi : x = i
          · simp [hxi] at hx
          · rw [if_neg hxi] at hx
            have := hcl x q hx (by simp [hq])
            simpa [hxi] using this) hpf]
      have hdir : (fun j => if j ∈ pre then ({} : Dir) else if j = i then {} else σ.dir j) =
          fun j => if j ∈ pre ++ [i] then {} else σ.dir j := by
        funext j
        by_cases hj : j ∈ pre
        · simp [hj]
        · by_cases hj' : j = i <;> simp [hj, hj']
      simp only [hdir]
      congr 1
      funext u
      by_cases hu : u ∈ pre.map F.owner
      · rw [if_pos hu, if_pos (by rw [List.map_append]; exact List.mem_append_left _ hu)]
      · rw [if_neg hu]
        by_cases hu2 : u = F.owner i
        · rw [if_pos hu2, if_pos (by rw [hu2]; simp)]
          rw [Bool.eq_iff_iff, hotFlag_iff, hotFlag_iff]
          refine Hot.congr (fun x hx => ?_)
          rw [hpf] at hx
          have hxo := (mem_prefixes.mp hx).2
          have hxp : x ∉ pre := fun h => hu (List.mem_map.mpr ⟨x, h, hxo⟩)
          unfold HotDir
          by_cases hxi : x = i
          · subst hxi; simp
          · have e : x ∉ pre ++ [i] := by simp [hxp, hxi]
            simp only [e, hxi, if_false]
            refine and_congr Iff.rfl (exists_congr fun q => and_congr_right fun hq => ?_)
            have hqc : q ∉ pre ++ [i] := fun h => e (hcl x q hq h)
            have hqi : q ≠ i := fun h => hqc (by simp [h])
            simp only [hqc, hqi, if_false]
        · rw [if_neg hu2, if_neg (by simp only [List.map_append, List.mem_append, hu]; simp [hu2])]

/-- What is kept while branches that were never closed are removed. -/
structure Purging (F : File) (cs : List (List Nat)) (σ : St) : Prop where
  prefixes : σ.prefixes = F.init.prefixes
  linked : ∀ c ∈ cs, Links F σ.dir none none c
  sorted : ∀ c ∈ cs, c.Pairwise (· < ·)
  closed : ∀ c ∈ cs, ∀ x p, (σ.dir x).pv = some p → p ∈ c → x ∈ c
  flag : ∀ t, σ.flag t = true → Hot σ.dir σ.prefixes t
  flagged : ∀ i t, i ∈ σ.prefixes t → (∀ c ∈ cs, i ∉ c) → HotDir σ.dir i → σ.flag t = true

theorem purge_spec (F : File) : ∀ (cs : List (List Nat)) (n : Nat) (stack : List Nat) (σ : St),
    Frames F n cs → stack.map some = cs.map (·.getLast?) → Purging F cs σ →
    ∃ flag, stack.foldl revertChain σ = { σ with
        dir := fun j => if ∃ c ∈ cs, j ∈ c then {} else σ.dir j
        flag := flag } ∧
      Purging F [] { σ with
        dir := fun j => if ∃ c ∈ cs, j ∈ c then {} else σ.dir j
        flag := flag } := by
  intro cs
  induction cs with
  | nil =>
    intro n stack σ _ hst h
    have : stack = [] := by simpa using hst
    subst this
    exact ⟨σ.flag, by simp, by simpa using h⟩
  | cons c cs ih =>
    intro n stack σ hfr hst h
    cases stack with
    | nil => simp at hst
    | cons i stack =>
      simp only [List.map_cons, List.cons.injEq] at hst
      have hi : c.getLast? = some i := hst.1.symm
      have hcm : c ∈ c :: cs := by simp
      have hrev := revertChain_spec F c none σ i hi (h.sorted c hcm) (h.linked c hcm) (h.closed c hcm)
        h.prefixes
      rw [List.foldl_cons, hrev]
      obtain ⟨m, hfr'⟩ := hfr.tail
      have hdisj := hfr.disjoint
      have hot : ∀ x, x ∉ c → (HotDir (fun j => if j ∈ c then {} else σ.dir j) x ↔ HotDir σ.dir x) := by
        intro x hx
        unfold HotDir
        simp only [hx, if_false]
        refine and_congr Iff.rfl (exists_congr fun q => and_congr_right fun hq => ?_)
        have hqc : q ∉ c := fun hc => hx (h.closed c hcm x q hq hc)
        simp only [hqc, if_false]
      have hP : Purging F cs { σ with
          dir := fun j => if j ∈ c then {} else σ.dir j
          flag := fun u => if u ∈ c.map F.owner then
              hotFlag (fun j => if j ∈ c then {} else σ.dir j) σ.prefixes u
            else σ.flag u } := by
        constructor
        · exact h.prefixes
        · intro c' hc'
          refine (h.linked c' (by simp [hc'])).congr (fun x hx => ?_)
          have : x ∉ c := fun hxc => hdisj c' hc' x hxc hx
          simp [this]
        · intro c' hc'; exact h.sorted c' (by simp [hc'])
        · intro c' hc' x p hp hpc
          dsimp only at hp
          split at hp
          · cases hp
          · exact h.closed c' (by simp [hc']) x p hp hpc
        · intro t ht
          dsimp only at ht
          split at ht
          · exact hotFlag_iff.mp ht
          · rename_i hnt
            obtain ⟨x, hx, hh⟩ := h.flag t ht
            have hxo := (mem_prefixes.mp (h.prefixes ▸ hx)).2
            have hxc : x ∉ c := fun hc => hnt (List.mem_map.mpr ⟨x, hc, hxo⟩)
            exact ⟨x, hx, (hot x hxc).mpr hh⟩
        · intro x t hx hnc hh
          dsimp only
          split
          · exact hotFlag_iff.mpr ⟨x, hx, hh⟩
          · have hxc : x ∉ c := by
              intro hc
              obtain ⟨_, p, hp, _⟩ := hh
              simp [hc] at hp
            refine h.flagged x t hx (fun c' hc' => ?_) ((hot x hxc).mp hh)
            rcases List.mem_cons.mp hc' with rfl | hc'
            · exact hxc
            · exact hnc c' hc'
      obtain ⟨flag, hf, hP'⟩ := ih m stack _ hfr' hst.2 hP
      refine ⟨flag, ?_, ?_⟩
      · rw [hf]
        congr 1
        funext j
        by_cases hj : j ∈ c
        · simp [hj]
        · simp [hj]
      · have e : (fun j => if ∃ c' ∈ c :: cs, j ∈ c' then ({} : Dir) else σ.dir j) =
            fun j => if ∃ c' ∈ cs, j ∈ c' then {} else if j ∈ c then {} else σ.dir j := by
          funext j
          by_cases hj : j ∈ c
          · simp [hj]
          · simp [hj]
        rw [e]
        exact hP'

end Knfmt.Branch
