import Verif.Stream.BranchRead
/-! # Branches after reading (C50) -/
namespace Knfmt.Spec

open Knfmt.Branch (K Dir File)

/-- The directives of one branch, as seen from the directives themselves: the first is an
`#if`, the last an `#endif`, the others are alternatives, every one leads to the one before,
to the one after and to the token it belongs to. -/
def Linked (dir : Nat → Dir) (owner : Nat → Nat) (c : List Nat) : Prop :=
  2 ≤ c.length ∧ c.Pairwise (· < ·) ∧ ∀ a x b, c = a ++ x :: b →
    dir x = ⟨if a = [] then .cppIf else if b = [] then .cppEndif else .cppElse,
      a.getLast?, b.head?, some (owner x)⟩

/-- The token starts an alternative whose predecessor belongs to another token: one of its
directives is an alternative and the directive before belongs to a different token. -/
def StartsBranch (dir : Nat → Dir) (prefixes : Nat → List Nat) (t : Nat) : Prop :=
  ∃ i ∈ prefixes t, (dir i).type = .cppElse ∧
    ∃ p, (dir i).pv = some p ∧ (dir i).parent ≠ (dir p).parent

end Knfmt.Spec

namespace Knfmt.Branch

open Knfmt.Spec (level between Nested Chain Group Linked StartsBranch)

theorem Nested.unique {F : File} {t i j : Nat} (hi : Nested F t i) (hj : Nested F t j)
    (hik : F.kind i = .cppElse ∨ F.kind i = .cppEndif)
    (hjk : F.kind j = .cppElse ∨ F.kind j = .cppEndif) : i = j := by
  rcases Nat.lt_trichotomy i j with h | h | h
  · have := Nested.no_closer hj hi h
    rcases hik with h | h <;> simp [h] at this
  · exact h
  · have := Nested.no_closer hi hj h
    rcases hjk with h | h <;> simp [h] at this

theorem Chain.head {F : File} {s : Nat} {js : List Nat} (h : Chain F s js) :
    ∃ j r, js = j :: r ∧ Nested F s j ∧ (F.kind j = .cppElse ∨ F.kind j = .cppEndif) := by
  cases h with
  | last h1 h2 h3 => exact ⟨_, _, rfl, h1, Or.inr h3⟩
  | more h1 h2 h3 => exact ⟨_, _, rfl, h1, Or.inl h2⟩

theorem Chain.unique {F : File} {s : Nat} {a b : List Nat} (ha : Chain F s a) (hb : Chain F s b) :
    a = b := by
  induction ha generalizing b with
  | last h1 h2 h3 =>
    cases hb with
    | last g1 g2 g3 => rw [Nested.unique h1 g1 (Or.inr h3) (Or.inr g3)]
    | more g1 g2 g3 =>
      have := Nested.unique h1 g1 (Or.inr h3) (Or.inl g2)
      subst this
      rw [h3] at g2; cases g2
  | more h1 h2 h3 ih =>
    cases hb with
    | last g1 g2 g3 =>
      have := Nested.unique h1 g1 (Or.inl h2) (Or.inr g3)
      subst this
      rw [h2] at g3; cases g3
    | more g1 g2 g3 =>
      have := Nested.unique h1 g1 (Or.inl h2) (Or.inl g2)
      subst this
      rw [ih g3]

theorem Chain.kinds {F : File} {s : Nat} {js : List Nat} (h : Chain F s js) :
    ∀ x ∈ js, F.kind x = .cppElse ∨ F.kind x = .cppEndif := by
  induction h with
  | last _ _ h3 => simp [h3]
  | more _ h2 _ ih =>
    intro x hx
    rcases List.mem_cons.mp hx with rfl | hx
    · exact Or.inl h2
    · exact ih x hx

theorem Chain.sorted {F : File} {s : Nat} {js : List Nat} (h : Chain F s js) :
    (s :: js).Pairwise (· < ·) := by
  induction h with
  | last h1 => simp [h1.1]
  | @more i j js h1 h2 h3 ih =>
    refine List.pairwise_cons.mpr ⟨?_, ih⟩
    intro x hx
    rcases List.mem_cons.mp hx with rfl | hx
    · exact h1.1
    · have := (List.pairwise_cons.mp ih).1 x hx
      have := h1.1
      omega

theorem Chain.lt {F : File} {s : Nat} {js : List Nat} (h : Chain F s js) : ∀ x ∈ js, x < F.n := by
  induction h with
  | last h1 h2 => simp [h2]
  | @more i j js h1 h2 h3 ih =>
    intro x hx
    rcases List.mem_cons.mp hx with rfl | hx
    · obtain ⟨j', r, rfl, hn, _⟩ := Chain.head h3
      have := ih j' (by simp)
      have := hn.1
      omega
    · exact ih x hx

theorem Group.sorted {F : File} {g : List Nat} (h : Group F g) : g.Pairwise (· < ·) := by
  cases g with
  | nil => exact h.elim
  | cons s js => exact Chain.sorted h.2

theorem Group.lt {F : File} {g : List Nat} (h : Group F g) : ∀ x ∈ g, x < F.n := by
  cases g with
  | nil => exact h.elim
  | cons s js =>
    intro x hx
    rcases List.mem_cons.mp hx with rfl | hx
    · obtain ⟨j', r, rfl, hn, _⟩ := Chain.head h.2
      have := Chain.lt h.2 j' (by simp)
      have := hn.1
      omega
    · exact Chain.lt h.2 x hx

/-- A directive that opens a branch is the first of its branch. -/
theorem Group.head_of_if {F : File} {g : List Nat} (h : Group F g) {x : Nat} (hx : x ∈ g)
    (hk : F.kind x = .cppIf) : g.head? = some x := by
  cases g with
  | nil => exact h.elim
  | cons s js =>
    rcases List.mem_cons.mp hx with rfl | hx
    · rfl
    · rcases Chain.kinds h.2 x hx with h | h <;> rw [hk] at h <;> cases h

theorem Group.unique {F : File} {g g' : List Nat} (h : Group F g) (h' : Group F g') {s : Nat}
    (hs : g.head? = some s) (hs' : g'.head? = some s) : g = g' := by
  cases g with
  | nil => exact h.elim
  | cons a r =>
    cases g' with
    | nil => exact h'.elim
    | cons b r' =>
      simp at hs hs'
      subst hs; subst hs'
      rw [Chain.unique h.2 h'.2]

/-- What a complete branch and an open one with the same start have in common. -/
theorem OpenFrom.chain {F : File} {c : List Nat} {s t : Nat} {js : List Nat}
    (h : OpenFrom F (s :: c)) (ht : (s :: c).getLast? = some t) (hc : Chain F s js) :
    ∃ j ∈ js, Nested F t j ∧ (F.kind j = .cppElse ∨ F.kind j = .cppEndif) := by
  induction c generalizing s js with
  | nil =>
    simp at ht; subst ht
    obtain ⟨j, r, rfl, h1, h2⟩ := Chain.head hc
    exact ⟨j, by simp, h1, h2⟩
  | cons y c ih =>
    obtain ⟨j, r, hj, h1, h2⟩ := Chain.head hc
    have hy := Nested.unique h.1 h1 (Or.inl h.2.1) h2
    subst hy
    cases hc with
    | last g1 g2 g3 =>
      simp at hj
      rw [hj.1, h.2.1] at g3; cases g3
    | more g1 g2 g3 =>
      simp at hj
      obtain ⟨rfl, rfl⟩ := hj
      obtain ⟨j, hj, h3⟩ := ih h.2.2 (by simpa using ht) g3
      exact ⟨j, by simp [hj], h3⟩

/-- No complete branch starts where an open one starts. -/
theorem Frames.open_not_complete {F : File} {M : Nat} :
    ∀ {cs : List (List Nat)} {m : Nat}, Frames F m cs →
      (m = M ∨ (m < M ∧ F.kind m = .cppIf ∧ ∃ e, level 1 (between F m M) = some e)) →
      ∀ c ∈ cs, ∀ s, c.head? = some s → ∀ g, Group F g → (∀ x ∈ g, x < M) → g.head? ≠ some s := by
  intro cs
  induction cs with
  | nil => simp
  | cons c cs ih =>
    intro m h hm
    cases c with
    | nil => exact h.elim
    | cons s0 c =>
      obtain ⟨h1, h2, ⟨t, h3, h4⟩, h5⟩ := h
      intro c' hc' s hs g hg hb hgs
      rcases List.mem_cons.mp hc' with rfl | hc'
      · simp at hs; subst hs
        cases g with
        | nil => exact hg.elim
        | cons s js =>
          simp at hgs; subst hgs
          obtain ⟨j, hj, hn, hk⟩ := h2.chain h3 hg.2
          have hjM := hb j (by simp [hj])
          rcases Nat.lt_trichotomy j m with hlt | heq | hgt
          · have := Nested.no_closer h4 hn hlt
            rcases hk with h | h <;> simp [h] at this
          · subst heq
            rcases hm with rfl | ⟨_, hk', _⟩
            · omega
            · rcases hk with h | h <;> rw [hk'] at h <;> cases h
          · rcases hm with rfl | ⟨hmM, hk', e, he⟩
            · omega
            · have hl := hn.2
              rw [between_split F h4.1 hgt, level_append, h4.2, hk'] at hl
              simp only [Option.bind_some, level] at hl
              rw [between_split F hgt hjM, level_append, hl] at he
              simp only [Option.bind_some] at he
              rcases hk with h | h <;> rw [h] at he <;> simp [level] at he
      · have hl := h2.level h3 h4 0
        refine ih h5 (Or.inr ?_) c' hc' s hs g hg hb hgs
        rcases hm with rfl | ⟨hmM, hk', e, he⟩
        · exact ⟨hl.1, h1, 1, hl.2⟩
        · refine ⟨by have := hl.1; omega, h1, e + 1, ?_⟩
          rw [between_split F hl.1 hmM, level_append, hl.2, hk']
          simp only [Option.bind_some, level]
          exact level_shift _ _ _ 1 he

/-- Every branch that is complete is linked, at any time. -/
theorem Inv.complete {F : File} {n : Nat} {cs : List (List Nat)} {σ : St} (h : Inv F n cs σ)
    {g : List Nat} (hg : Group F g) (hb : ∀ x ∈ g, x < n) : Links F σ.dir none none g := by
  cases g with
  | nil => exact hg.elim
  | cons s js =>
    rcases h.all s (hb s (by simp)) with ⟨c, hc, hs⟩ | ⟨g', hg', _, hs, hl⟩ | ⟨hk, _⟩
    · exfalso
      have hhead : c.head? = some s := by
        have hsub := h.frames
        clear h
        induction cs generalizing n with
        | nil => simp at hc
        | cons c0 cs ih =>
          cases c0 with
          | nil => exact hsub.elim
          | cons s0 c0 =>
            rcases List.mem_cons.mp hc with rfl | hc
            · rcases List.mem_cons.mp hs with rfl | hs
              · rfl
              · have := hsub.2.1.kinds s hs
                rw [hg.1] at this; cases this
            · have hb' := hsub.2.2.2.bounds c hc s hs
              clear ih
              have hh : ∀ {cs : List (List Nat)} {m : Nat}, Frames F m cs → c ∈ cs → c.head? = some s := by
                intro cs
                induction cs with
                | nil => simp
                | cons c1 cs ih =>
                  intro m hf hc
                  cases c1 with
                  | nil => exact hf.elim
                  | cons s1 c1 =>
                    rcases List.mem_cons.mp hc with rfl | hc
                    · rcases List.mem_cons.mp hs with rfl | hs
                      · rfl
                      · have := hf.2.1.kinds s hs
                        rw [hg.1] at this; cases this
                    · exact ih hf.2.2.2 hc
              exact hh hsub.2.2.2 hc
      exact h.frames.open_not_complete (Or.inl rfl) c hc s hhead (s :: js) hg hb rfl
    · have := Group.unique hg hg' rfl (Group.head_of_if hg' hs hg.1)
      rw [this]; exact hl
    · exact absurd hg.1 hk

/-- No directive is in an open branch and in a complete one. -/
theorem Inv.disjoint {F : File} {n : Nat} {cs : List (List Nat)} {σ : St} (h : Inv F n cs σ)
    {c g : List Nat} (hc : c ∈ cs) (hg : Group F g) (hb : ∀ x ∈ g, x < n) :
    ∀ x ∈ c, x ∉ g := by
  have hl := h.complete hg hb
  have hlc := h.linked c hc
  have hk := h.frames.kinds c hc
  have hs := (h.frames.sorted c hc).2
  have : ∀ b a x, c = a ++ x :: b → x ∉ g := by
    intro b
    induction b with
    | nil =>
      intro a x he
      subst he
      exact top_not_in_group hlc (by simp) (hk x (by simp)) hg hl
    | cons y b ih =>
      intro a x he hx
      have hy := ih (a ++ [x]) y (by simp [he])
      apply hy
      have hnx : (σ.dir x).nx = some y := by
        rw [he] at hlc
        have := (Links.append.mp hlc).2.1
        rw [this]; rfl
      exact (hl.next (Group.sorted hg) hx hnx).1
  intro x hx
  obtain ⟨a, b, he⟩ := List.append_of_mem hx
  exact this b a x he

theorem Inv.purging {F : File} {n : Nat} {cs : List (List Nat)} {σ : St} (h : Inv F n cs σ) :
    Purging F cs σ where
  prefixes := h.prefixes
  linked := h.linked
  sorted := fun c hc => (h.frames.sorted c hc).2
  closed := by
    intro c hc x p hp hpc
    have hx := h.pvlt x p hp
    rcases h.all x hx.2 with ⟨c', hc', hx'⟩ | ⟨g, hg, hb, hxg, hl⟩ | ⟨_, hd⟩
    · have hpc' := ((h.linked c' hc').prev (h.frames.sorted c' hc').2 hx' hp).1
      have : c = c' := by
        have hf := h.frames
        clear h
        have hh : ∀ {cs : List (List Nat)} {m : Nat}, Frames F m cs → c ∈ cs → c' ∈ cs → c = c' := by
          intro cs
          induction cs with
          | nil => simp
          | cons c1 cs ih =>
            intro m hf hc hc'
            rcases List.mem_cons.mp hc with rfl | h1
            · rcases List.mem_cons.mp hc' with rfl | h2
              · rfl
              · exact absurd hpc' (hf.disjoint c' h2 p hpc)
            · rcases List.mem_cons.mp hc' with rfl | h2
              · exact absurd hpc (hf.disjoint c h1 p hpc')
              · obtain ⟨m', hf'⟩ := hf.tail
                exact ih hf' h1 h2
        exact hh hf hc hc'
      rw [this]; exact hx'
    · have := (hl.prev (Group.sorted hg) hxg hp).1
      exact absurd this (h.disjoint hc hg hb p hpc)
    · rw [hd] at hp; cases hp
  flag := h.flag
  flagged := h.flagged

theorem Group.middle {F : File} {g a b : List Nat} {x : Nat} (h : Group F g) (he : g = a ++ x :: b) :
    F.kind x = if a = [] then .cppIf else if b = [] then .cppEndif else .cppElse := by
  subst he
  cases a with
  | nil => simpa using h.1
  | cons s a =>
    simp only [List.cons_ne_nil, if_false]
    have h2 : Chain F s (a ++ x :: b) := h.2
    clear h
    induction a generalizing s with
    | nil =>
      simp only [List.nil_append] at h2
      cases h2 with
      | last _ _ hk => simpa using hk
      | more _ hk hc =>
        obtain ⟨j, r, rfl, _⟩ := Chain.head hc
        simpa using hk
    | cons y a ih =>
      simp only [List.cons_append] at h2
      generalize hr : a ++ x :: b = r at h2
      cases h2 with
      | last _ _ hk => simp at hr
      | more _ _ hc => subst hr; exact ih y hc

theorem Group.linked {F : File} {g : List Nat} {dir : Nat → Dir} (h : Group F g)
    (hl : Links F dir none none g) : Linked dir F.owner g := by
  refine ⟨?_, Group.sorted h, ?_⟩
  · cases g with
    | nil => exact h.elim
    | cons s js =>
      obtain ⟨j, r, rfl, _⟩ := Chain.head h.2
      simp
  · intro a x b he
    have hk := Group.middle h he
    subst he
    have := (Links.append.mp hl).2.1
    rw [this, hk]
    simp

/-- **C50, reading.** After a file is read, the directives of every `#if` that has its
`#endif` are linked in order, those that are in no such branch are ordinary directives, and
exactly those tokens are marked as the start of a branch that are one. No null pointer was
dereferenced on the way. -/
theorem read_spec (F : File) :
    F.final.ok = true ∧ F.final.stack = [] ∧
    F.final.prefixes = F.init.prefixes ∧ F.final.toks = F.init.toks ∧
    (∀ g, Group F g → Linked F.final.dir F.owner g) ∧
    (∀ i, (∀ g, Group F g → i ∉ g) → F.final.dir i = {}) ∧
    (∀ t, F.final.flag t = true ↔ StartsBranch F.final.dir F.final.prefixes t) := by
  obtain ⟨cs, h⟩ := read_inv F F.n (Nat.le_refl _)
  obtain ⟨flag, hf, hp⟩ := purge_spec F cs F.n (F.read F.n).stack (F.read F.n) h.frames h.stack
    h.purging
  unfold File.final purge
  rw [hf]
  refine ⟨h.ok, rfl, h.prefixes, h.toks, ?_, ?_, ?_⟩
  · intro g hg
    refine Group.linked hg ((h.complete hg (Group.lt hg)).congr ?_)
    intro x hx
    have : ¬ ∃ c ∈ cs, x ∈ c := by
      rintro ⟨c, hc, hxc⟩
      exact h.disjoint hc hg (Group.lt hg) x hxc hx
    simp only [this, if_false]
  · intro i hi
    dsimp only
    split
    · rfl
    · rename_i hnc
      rcases Nat.lt_or_ge i F.n with hlt | hge
      · rcases h.all i hlt with hc | ⟨g, hg, _, hig, _⟩ | ⟨_, hd⟩
        · exact absurd hc hnc
        · exact absurd hig (hi g hg)
        · exact hd
      · rw [h.fresh i hge]
        simp [File.init, Nat.not_lt.mpr hge]
  · intro t
    constructor
    · intro ht
      exact hp.flag t ht
    · rintro ⟨i, hi, hh⟩
      exact hp.flagged i t hi (by simp) hh

end Knfmt.Branch
