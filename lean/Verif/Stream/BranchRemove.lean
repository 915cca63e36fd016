import Verif.Stream.BranchUnlink
/-! # Removal of alternatives (C50) -/
namespace Knfmt.Branch

open Knfmt.Spec (Linked StartsBranch Group)

/-- The state of branches between any two steps of the parser. -/
structure WF (owner : Nat → Nat) (σ : St) : Prop where
  ok : σ.ok = true
  /-- directives are found at the token they belong to only -/
  own : ∀ x u, x ∈ σ.prefixes u → u = owner x
  /-- a directive is an ordinary one or part of a branch -/
  part : ∀ i, σ.dir i = {} ∨ ∃ c, i ∈ c ∧ Linked σ.dir owner c
  /-- what is part of a branch is still there -/
  here : ∀ i, σ.dir i ≠ {} → i ∈ σ.prefixes (owner i) ∧ owner i ∈ σ.toks
  flags : ∀ t, σ.flag t = true ↔ StartsBranch σ.dir σ.prefixes t

/-- Directives that are part of branches belong to tokens in the same order. -/
def Ordered (owner : Nat → Nat) (σ : St) : Prop :=
  ∀ i j, i ≤ j → σ.dir i ≠ {} → σ.dir j ≠ {} → owner i ≤ owner j

theorem WF.flagsOk {owner : Nat → Nat} {σ : St} (h : WF owner σ) : FlagsOk (fun _ => False) σ :=
  fun u _ => h.flags u

theorem WF.inverse {owner : Nat → Nat} {σ : St} (h : WF owner σ) : Inverse σ.dir := by
  intro x p hp
  rcases h.part x with hx | ⟨c, hx, hc⟩
  · rw [hx] at hp; cases hp
  · exact (Linked.prev hc hx hp).2

/-- What removing the directives `R` does to the branches: those that are ordinary stay so,
those removed become so, of every branch the others stay linked, unless only one is left.
`owner` and `owner'` tell which tokens directives belong to before and after. -/
structure Kept (owner owner' : Nat → Nat) (σ σ' : St) (R : Nat → Bool) : Prop where
  plain : ∀ x, σ.dir x = {} → σ'.dir x = {}
  gone : ∀ x, R x = true → σ'.dir x = {}
  rest : ∀ c, Linked σ.dir owner c → 2 ≤ (c.filter (fun x => !R x)).length →
    Linked σ'.dir owner' (c.filter (fun x => !R x))
  last : ∀ c, Linked σ.dir owner c → (c.filter (fun x => !R x)).length < 2 →
    ∀ x ∈ c, σ'.dir x = {}

theorem Kept.refl {owner : Nat → Nat} {σ : St} : Kept owner owner σ σ (fun _ => false) where
  plain := fun _ h => h
  gone := by simp
  rest := by
    intro c hc _
    have : c.filter (fun _ => !false) = c := List.filter_eq_self.mpr (by simp)
    rw [this]; exact hc
  last := by
    intro c hc hlen
    have : c.filter (fun _ => !false) = c := List.filter_eq_self.mpr (by simp)
    rw [this] at hlen
    have := hc.1
    omega

theorem Kept.trans {o o' o'' : Nat → Nat} {σ σ' σ'' : St} {R R' : Nat → Bool}
    (h : Kept o o' σ σ' R) (h' : Kept o' o'' σ' σ'' R') : Kept o o'' σ σ'' (fun x => R x || R' x) := by
  have hf : ∀ c : List Nat, c.filter (fun x => !(R x || R' x)) =
      (c.filter (fun x => !R x)).filter (fun x => !R' x) := by
    intro c
    rw [List.filter_filter]
    congr 1
    funext x
    cases R x <;> cases R' x <;> rfl
  constructor
  · intro x hx; exact h'.plain x (h.plain x hx)
  · intro x hx
    simp at hx
    rcases hx with hx | hx
    · exact h'.plain x (h.gone x hx)
    · exact h'.gone x hx
  · intro c hc hlen
    rw [hf] at hlen ⊢
    refine h'.rest _ (h.rest c hc ?_) hlen
    exact Nat.le_trans hlen (List.length_filter_le _ _)
  · intro c hc hlen x hx
    rw [hf] at hlen
    by_cases hlen1 : 2 ≤ (c.filter (fun x => !R x)).length
    · by_cases hR : R x = true
      · exact h'.plain x (h.gone x hR)
      · exact h'.last _ (h.rest c hc hlen1) hlen x (List.mem_filter.mpr ⟨hx, by simp [hR]⟩)
    · exact h'.plain x (h.last c hc (by omega) x hx)

theorem Kept.congr {o o' : Nat → Nat} {σ σ' τ : St} {R : Nat → Bool} (h : Kept o o' σ σ' R)
    (hd : τ.dir = σ'.dir) : Kept o o' σ τ R := by
  constructor
  · rw [hd]; exact h.plain
  · rw [hd]; exact h.gone
  · rw [hd]; exact h.rest
  · rw [hd]; exact h.last

theorem filter_ne_mid {a b : List Nat} {i : Nat} (h : (a ++ i :: b).Nodup) :
    (a ++ i :: b).filter (fun x => !decide (x = i)) = a ++ b := by
  have h1 : ∀ x ∈ a, x ≠ i := by
    intro x hx he
    subst he
    simp [List.nodup_append] at h
    exact (h.2.2 x hx).1 rfl
  have h2 : ∀ x ∈ b, x ≠ i := by
    intro x hx he
    subst he
    simp [List.nodup_append] at h
    exact h.2.1.1 hx
  rw [List.filter_append, List.filter_cons]
  simp only [decide_true, Bool.not_true, Bool.false_eq_true, if_false]
  congr 1
  · exact List.filter_eq_self.mpr (fun x hx => by simp [h1 x hx])
  · exact List.filter_eq_self.mpr (fun x hx => by simp [h2 x hx])

theorem filter_ne_of_notMem {c : List Nat} {i : Nat} (h : i ∉ c) :
    c.filter (fun x => !decide (x = i)) = c :=
  List.filter_eq_self.mpr (fun x hx => by
    have : x ≠ i := fun e => h (e ▸ hx)
    simp [this])

theorem Linked.ne_plain {dir : Nat → Dir} {owner : Nat → Nat} {c : List Nat}
    (h : Linked dir owner c) {x : Nat} (hx : x ∈ c) : dir x ≠ {} := by
  obtain ⟨a, b, rfl⟩ := List.append_of_mem hx
  rw [Linked.at h]
  intro he
  injection he with _ _ _ h4
  cases h4

/-- **C50, single directives.** -/
theorem unlink_keeps {owner : Nat → Nat} {σ : St} (h : WF owner σ) (i : Nat) :
    WF owner (unlink σ i) ∧ Kept owner owner σ (unlink σ i) (fun x => decide (x = i)) ∧
    (unlink σ i).toks = σ.toks ∧ (unlink σ i).prefixes = σ.prefixes := by
  rcases h.part i with hi | ⟨c, hic, hc⟩
  · have hu : unlink σ i = σ := by simp [unlink, hi]
    rw [hu]
    refine ⟨h, ?_, rfl, rfl⟩
    have hno : ∀ c, Linked σ.dir owner c → i ∉ c := fun c hc hm => Linked.ne_plain hc hm hi
    constructor
    · exact fun _ hx => hx
    · intro x hx
      simp at hx; subst hx; exact hi
    · intro c hc _
      rw [filter_ne_of_notMem (hno c hc)]; exact hc
    · intro c hc hlen
      rw [filter_ne_of_notMem (hno c hc)] at hlen
      have := hc.1
      omega
  · obtain ⟨a, b, rfl⟩ := List.append_of_mem hic
    have hU := unlink_spec hc h.inverse h.own h.flagsOk
    obtain ⟨d, f, he⟩ := hU.same
    have hnd : (a ++ i :: b).Nodup := hc.2.1.imp (fun h => Nat.ne_of_lt h)
    have hother : ∀ c', Linked σ.dir owner c' → i ∉ c' → Linked (unlink σ i).dir owner c' := by
      intro c' hc' hi'
      refine Linked.congr hc' (fun x hx => hU.others x (fun hxc => ?_))
      have := Linked.unique hc hc' hxc hx
      exact hi' (this ▸ hic)
    have hK : Kept owner owner σ (unlink σ i) (fun x => decide (x = i)) := by
      constructor
      · intro x hx
        rw [hU.others x (fun hm => Linked.ne_plain hc hm hx)]; exact hx
      · intro x hx
        simp at hx; subst hx; exact hU.gone
      · intro c' hc' hlen
        by_cases hi' : i ∈ c'
        · have := Linked.unique hc hc' hic hi'
          subst this
          rw [filter_ne_mid hnd] at hlen ⊢
          exact hU.rest hlen
        · rw [filter_ne_of_notMem hi']
          exact hother c' hc' hi'
      · intro c' hc' hlen x hx
        by_cases hi' : i ∈ c'
        · have := Linked.unique hc hc' hic hi'
          subst this
          rw [filter_ne_mid hnd] at hlen
          by_cases hxi : x = i
          · subst hxi; exact hU.gone
          · refine hU.last hlen x ?_
            simp at hx ⊢
            simpa [hxi] using hx
        · rw [filter_ne_of_notMem hi'] at hlen
          have := hc'.1
          omega
    refine ⟨?_, hK, by rw [he], by rw [he]⟩
    have hpf : (unlink σ i).prefixes = σ.prefixes := by rw [he]
    have htk : (unlink σ i).toks = σ.toks := by rw [he]
    constructor
    · rw [he]; exact h.ok
    · rw [hpf]; exact h.own
    · intro x
      rcases h.part x with hx | ⟨c', hxc, hc'⟩
      · exact Or.inl (hK.plain x hx)
      · by_cases hlen : 2 ≤ (c'.filter (fun x => !decide (x = i))).length
        · by_cases hxi : x = i
          · subst hxi; exact Or.inl hU.gone
          · exact Or.inr ⟨_, List.mem_filter.mpr ⟨hxc, by simp [hxi]⟩, hK.rest c' hc' hlen⟩
        · exact Or.inl (hK.last c' hc' (by omega) x hxc)
    · intro x hx
      rw [hpf, htk]
      exact h.here x (fun h0 => hx (hK.plain x h0))
    · intro t
      exact hU.flags t (fun h => h)

/-- Taking the prefixes off a token. -/
theorem unprefix_keeps {owner : Nat → Nat} (t : Nat) : ∀ (l : List Nat) (σ : St), WF owner σ →
    σ.prefixes t = l →
    let σ' := l.foldl (fun σ i =>
      let σ := unlink σ i
      { σ with prefixes := fun u => if u = t then (σ.prefixes u).tail else σ.prefixes u }) σ
    WF owner σ' ∧ Kept owner owner σ σ' (fun x => decide (x ∈ l)) ∧ σ'.toks = σ.toks ∧
    σ'.prefixes = fun u => if u = t then [] else σ.prefixes u := by
  intro l
  induction l with
  | nil =>
    intro σ h hl
    refine ⟨h, ?_, rfl, ?_⟩
    · simpa using Kept.refl
    · funext u
      by_cases hu : u = t
      · subst hu; simp [hl]
      · simp [hu]
  | cons i l ih =>
    intro σ h hl
    obtain ⟨h1, h2, h3, h4⟩ := unlink_keeps h i
    have hi : (unlink σ i).dir i = {} := h2.gone i (by simp)
    have hW : WF owner { unlink σ i with
        prefixes := fun u => if u = t then ((unlink σ i).prefixes u).tail else (unlink σ i).prefixes u } := by
      constructor
      · exact h1.ok
      · intro x u hx
        dsimp only at hx
        split at hx
        · exact h1.own x u (List.mem_of_mem_tail hx)
        · exact h1.own x u hx
      · exact h1.part
      · intro x hx
        have hx' := h1.here x hx
        refine ⟨?_, hx'.2⟩
        dsimp only
        split
        · rename_i hxt
          have := hx'.1
          rw [hxt, h4, hl] at this
          rw [hxt, h4, hl]
          rcases List.mem_cons.mp this with rfl | hm
          · exact absurd hi hx
          · exact hm
        · exact hx'.1
      · intro u
        rw [h1.flags u]
        dsimp only
        constructor
        · rintro ⟨x, hx, hh⟩
          refine ⟨x, ?_, hh⟩
          dsimp only
          split
          · rename_i hut
            subst hut
            rw [h4, hl] at hx ⊢
            rcases List.mem_cons.mp hx with rfl | hm
            · rw [hi] at hh; cases hh.1
            · exact hm
          · exact hx
        · rintro ⟨x, hx, hh⟩
          refine ⟨x, ?_, hh⟩
          dsimp only at hx
          split at hx
          · exact List.mem_of_mem_tail hx
          · exact hx
    obtain ⟨g1, g2, g3, g4⟩ := ih _ hW (by simp [h4, hl])
    simp only [List.foldl_cons]
    refine ⟨g1, ?_, by rw [g3]; exact h3, ?_⟩
    · have := (h2.congr (τ := { unlink σ i with
        prefixes := fun u => if u = t then ((unlink σ i).prefixes u).tail else (unlink σ i).prefixes u })
        rfl).trans g2
      have e : (fun x => decide (x = i) || decide (x ∈ l)) = fun x => decide (x ∈ i :: l) := by
        funext x; simp
      rw [e] at this
      exact this
    · rw [g4]
      funext u
      by_cases hu : u = t
      · simp [hu]
      · simp [hu, h4]

/-- **C50, single tokens.** Removing a token with all of its directives. -/
theorem removeToken_keeps {owner : Nat → Nat} {σ : St} (h : WF owner σ) (t : Nat) :
    WF owner (removeToken σ t) ∧
    Kept owner owner σ (removeToken σ t) (fun x => decide (x ∈ σ.prefixes t)) ∧
    (removeToken σ t).toks = σ.toks.erase t ∧
    (removeToken σ t).prefixes = fun u => if u = t then [] else σ.prefixes u := by
  obtain ⟨h1, h2, h3, h4⟩ := unprefix_keeps t _ σ h rfl
  unfold removeToken
  generalize hs : (σ.prefixes t).foldl (fun σ i =>
      let σ := unlink σ i
      { σ with prefixes := fun u => if u = t then (σ.prefixes u).tail else σ.prefixes u }) σ = σ' at *
  refine ⟨?_, h2.congr rfl, by simp [h3], h4⟩
  constructor
  · exact h1.ok
  · exact h1.own
  · exact h1.part
  · intro i hi
    have := h1.here i hi
    refine ⟨this.1, ?_⟩
    refine (List.mem_erase_of_ne ?_).mpr this.2
    intro he
    have := this.1
    rw [h4, he] at this
    simp at this
  · exact h1.flags

theorem nextTok_mid {pre r : List Nat} {t x : Nat} (h : t ∉ pre) :
    nextTok (pre ++ t :: x :: r) t = some x := by
  induction pre with
  | nil => simp [nextTok]
  | cons a pre ih =>
    simp only [List.mem_cons, not_or] at h
    cases pre with
    | nil =>
      simp only [List.nil_append, List.cons_append, nextTok] at ih ⊢
      simp [Ne.symm h.1]
    | cons b pre =>
      simp only [List.cons_append] at ih ⊢
      rw [nextTok, if_neg (Ne.symm h.1)]
      exact ih h.2

/-- The loop that removes the tokens from one up to another. -/
theorem removeUntil_keeps {owner : Nat → Nat} (dst : Nat) :
    ∀ (seg pre post : List Nat) (rm n : Nat) (σ : St), WF owner σ →
      σ.toks = pre ++ rm :: seg ++ dst :: post → σ.toks.Nodup → seg.length < n →
      WF owner (removeUntil σ rm dst n) ∧
      Kept owner owner σ (removeUntil σ rm dst n) (fun x => (rm :: seg).any (fun t => decide (x ∈ σ.prefixes t))) ∧
      (removeUntil σ rm dst n).toks = pre ++ dst :: post ∧
      (removeUntil σ rm dst n).prefixes = fun u => if u ∈ rm :: seg then [] else σ.prefixes u := by
  intro seg
  induction seg with
  | nil =>
    intro pre post rm n σ h ht hnd hn
    cases n with
    | zero => simp at hn
    | succ n =>
      have hrm : rm ∉ pre := by
        rw [ht] at hnd
        simp [List.nodup_append] at hnd
        intro hm
        exact (hnd.2.2 rm hm).1 rfl
      have hnx : nextTok σ.toks rm = some dst := by
        rw [ht]
        simpa using nextTok_mid (pre := pre) (r := post) (x := dst) hrm
      obtain ⟨h1, h2, h3, h4⟩ := removeToken_keeps h rm
      simp only [removeUntil, hnx, if_true]
      refine ⟨h1, ?_, ?_, ?_⟩
      · simpa using h2
      · rw [h3, ht, List.append_assoc, List.erase_append_right _ hrm]
        simp
      · rw [h4]; simp
  | cons x seg ih =>
    intro pre post rm n σ h ht hnd hn
    cases n with
    | zero => simp at hn
    | succ n =>
      have hrm : rm ∉ pre := by
        rw [ht] at hnd
        simp [List.nodup_append] at hnd
        intro hm
        exact (hnd.2.2 rm hm).1 rfl
      have hxd : x ≠ dst := by
        rw [ht] at hnd
        simp [List.nodup_append] at hnd
        rintro rfl
        simp at hnd
      have hnx : nextTok σ.toks rm = some x := by
        rw [ht]
        simpa using nextTok_mid (pre := pre) (r := seg ++ dst :: post) (x := x) hrm
      obtain ⟨h1, h2, h3, h4⟩ := removeToken_keeps h rm
      simp only [removeUntil, hnx, if_neg hxd]
      have ht' : (removeToken σ rm).toks = pre ++ x :: seg ++ dst :: post := by
        rw [h3, ht, List.append_assoc, List.erase_append_right _ hrm]
        simp
      obtain ⟨g1, g2, g3, g4⟩ := ih pre post x n (removeToken σ rm) h1 ht'
        (by rw [h3]; exact hnd.erase _) (by simpa using hn)
      refine ⟨g1, ?_, g3, ?_⟩
      · have := h2.trans g2
        have e : (fun y => decide (y ∈ σ.prefixes rm) ||
            (x :: seg).any (fun t => decide (y ∈ (removeToken σ rm).prefixes t))) =
            fun y => (rm :: x :: seg).any (fun t => decide (y ∈ σ.prefixes t)) := by
          funext y
          rw [Bool.eq_iff_iff, h4]
          simp only [Bool.or_eq_true, List.any_eq_true, decide_eq_true_eq, List.mem_cons]
          constructor
          · rintro (h | ⟨t, ht, hy⟩)
            · exact ⟨rm, Or.inl rfl, h⟩
            · refine ⟨t, Or.inr ht, ?_⟩
              by_cases h : t = rm
              · simp [h] at hy
              · simpa [h] using hy
          · rintro ⟨t, rfl | ht, hy⟩
            · exact Or.inl hy
            · by_cases h : t = rm
              · subst h; exact Or.inl hy
              · exact Or.inr ⟨t, ht, by simpa [h] using hy⟩
        rw [e] at this
        exact this
      · rw [g4]
        funext u
        rw [h4]
        by_cases hu : u = rm
        · simp [hu]
        · simp [hu]

/-- **C50, alternatives.** If the parser fails at a token that starts a branch, exactly the
tokens from the one the previous directive belongs to up to that token are removed. All
branches keep the directives that are not removed, in order, and remain well formed. -/
theorem branch_removes {owner : Nat → Nat} {σ : St} {back : Nat} (h : WF owner σ)
    (hmono : Ordered owner σ) (hsort : σ.toks.Pairwise (· < ·))
    (hback : σ.flag back = true) :
    ∃ src σ', find σ back = some src ∧ branch σ back = some (σ', back) ∧ owner src < back ∧
      owner src ∈ σ.toks ∧ back ∈ σ.toks ∧
      WF owner σ' ∧
      σ'.toks = σ.toks.filter (fun t => !(decide (owner src ≤ t) && decide (t < back))) ∧
      Kept owner owner σ σ' (fun x => decide (x = src) || σ.toks.any (fun t =>
        decide (owner src ≤ t) && decide (t < back) && decide (x ∈ σ.prefixes t))) ∧
      (∀ t ∈ σ'.toks, σ'.prefixes t = σ.prefixes t) ∧ ∀ t x, x ∈ σ'.prefixes t → x ∈ σ.prefixes t := by
  obtain ⟨i, hi, hty, p, hp, hne⟩ := (h.flags back).mp hback
  have hfs : (find σ back).isSome = true := (find_isSome σ back).mpr ⟨i, hi, hty, p, hp, hne⟩
  obtain ⟨src, hsrc⟩ := Option.isSome_iff_exists.mp hfs
  -- what was found
  have : ∃ j ∈ σ.prefixes back, (σ.dir j).type = .cppElse ∧ (σ.dir j).pv = some src ∧
      (σ.dir j).parent ≠ (σ.dir src).parent := by
    have hfind := hsrc
    unfold find at hfind
    obtain ⟨j, hj, hval⟩ := List.exists_of_findSome?_eq_some hfind
    refine ⟨j, hj, ?_⟩
    split at hval
    · cases hval
    · rename_i ht
      split at hval
      · cases hval
      · rename_i q hq
        split at hval
        · rename_i hpar
          obtain rfl := Option.some.inj hval
          exact ⟨by simpa using ht, hq, hpar⟩
        · cases hval
  obtain ⟨j, hj, hjt, hjp, hjne⟩ := this
  have hjo : back = owner j := h.own j back hj
  rcases h.part j with hj0 | ⟨c, hjc, hc⟩
  · rw [hj0] at hjp; cases hjp
  · obtain ⟨hsc, hsn⟩ := Linked.prev hc hjc hjp
    have hlt := (Linked.next hc hsc hsn).2.1
    have hps : (σ.dir src).parent = some (owner src) := by
      obtain ⟨a, b, rfl⟩ := List.append_of_mem hsc
      rw [Linked.at hc]
    have hpj : (σ.dir j).parent = some (owner j) := by
      obtain ⟨a, b, rfl⟩ := List.append_of_mem hjc
      rw [Linked.at hc]
    have hos : owner src < back := by
      have := hmono src j (Nat.le_of_lt hlt) (Linked.ne_plain hc hsc) (Linked.ne_plain hc hjc)
      rw [hjo]
      refine Nat.lt_of_le_of_ne this (fun e => hjne ?_)
      rw [hps, hpj, e]
    have hst := (h.here src (Linked.ne_plain hc hsc)).2
    have hbt : back ∈ σ.toks := hjo ▸ (h.here j (Linked.ne_plain hc hjc)).2
    -- the tokens between
    obtain ⟨pre, r, htk⟩ := List.append_of_mem hst
    have hbr : back ∈ r := by
      rw [htk] at hbt hsort
      rcases List.mem_append.mp hbt with hb | hb
      · have := (List.pairwise_append.mp hsort).2.2 back hb (owner src) (by simp)
        omega
      · rcases List.mem_cons.mp hb with hb | hb
        · omega
        · exact hb
    obtain ⟨seg, post, rfl⟩ := List.append_of_mem hbr
    obtain ⟨h1, h2, h3, h4⟩ := unlink_keeps h src
    have htk' : (unlink σ src).toks = pre ++ owner src :: seg ++ back :: post := by
      rw [h3, htk]; simp
    have hnd : σ.toks.Nodup := hsort.imp (fun h => Nat.ne_of_lt h)
    obtain ⟨g1, g2, g3, g4⟩ := removeUntil_keeps back seg pre post (owner src) σ.toks.length
      (unlink σ src) h1 htk' (by rw [h3]; exact hnd) (by rw [htk]; simp; omega)
    have hpre : ∀ t ∈ pre, t < owner src := by
      rw [htk] at hsort
      exact fun t ht => (List.pairwise_append.mp hsort).2.2 t ht (owner src) (by simp)
    have hrest : (owner src :: (seg ++ back :: post)).Pairwise (· < ·) := by
      rw [htk] at hsort
      exact (List.pairwise_append.mp hsort).2.1
    have hseg : ∀ t ∈ seg, owner src < t ∧ t < back := by
      intro t ht
      have := List.pairwise_cons.mp hrest
      exact ⟨this.1 t (by simp [ht]), (List.pairwise_append.mp this.2).2.2 t ht back (by simp)⟩
    have hpost : ∀ t ∈ post, back < t := by
      have := (List.pairwise_append.mp (List.pairwise_cons.mp hrest).2).2.1
      exact (List.pairwise_cons.mp this).1
    refine ⟨src, removeUntil (unlink σ src) (owner src) back σ.toks.length, hsrc, ?_, hos, hst, hbt, g1, ?_, ?_, ?_, ?_⟩
    · unfold branch
      rw [hsrc]
      simp only [hps, hsn, hpj, ← hjo]
    · rw [g3, htk]
      rw [List.filter_append, List.filter_cons, List.filter_append, List.filter_cons]
      have e1 : pre.filter (fun t => !(decide (owner src ≤ t) && decide (t < back))) = pre :=
        List.filter_eq_self.mpr (fun t ht => by
          have := hpre t ht
          simp; omega)
      have e2 : seg.filter (fun t => !(decide (owner src ≤ t) && decide (t < back))) = [] :=
        List.filter_eq_nil_iff.mpr (fun t ht => by
          have := hseg t ht
          simp; omega)
      have e3 : post.filter (fun t => !(decide (owner src ≤ t) && decide (t < back))) = post :=
        List.filter_eq_self.mpr (fun t ht => by
          have := hpost t ht
          simp; omega)
      rw [e1, e2, e3]
      simp [hos]
    · have := h2.trans g2
      have e : (fun x => decide (x = src) ||
          (owner src :: seg).any (fun t => decide (x ∈ (unlink σ src).prefixes t))) =
          fun x => decide (x = src) || σ.toks.any (fun t =>
            decide (owner src ≤ t) && decide (t < back) && decide (x ∈ σ.prefixes t)) := by
        funext x
        congr 1
        rw [Bool.eq_iff_iff, h4, htk]
        simp only [List.any_eq_true, Bool.and_eq_true, decide_eq_true_eq]
        constructor
        · rintro ⟨t, ht, hx⟩
          refine ⟨t, ?_, ?_, hx⟩
          · simp at ht ⊢
            rcases ht with h | h
            · exact Or.inr (Or.inl h)
            · exact Or.inr (Or.inr (Or.inl h))
          · rcases List.mem_cons.mp ht with rfl | ht
            · exact ⟨Nat.le_refl _, hos⟩
            · have := hseg t ht
              exact ⟨by omega, this.2⟩
        · rintro ⟨t, ht, ⟨hl, hr⟩, hx⟩
          refine ⟨t, ?_, hx⟩
          rcases List.mem_append.mp ht with ht | ht
          · have := hpre t ht; omega
          · rcases List.mem_cons.mp ht with rfl | ht
            · simp
            · rcases List.mem_append.mp ht with ht | ht
              · simp [ht]
              · rcases List.mem_cons.mp ht with rfl | ht
                · omega
                · have := hpost t ht; omega
      rw [e] at this
      exact this
    · intro t ht
      rw [g3] at ht
      rw [g4, h4]
      simp only [List.mem_cons]
      rw [if_neg]
      rintro (rfl | hm)
      · rcases List.mem_append.mp ht with hx | hx
        · have := hpre _ hx; omega
        · rcases List.mem_cons.mp hx with hx | hx
          · omega
          · have := hpost _ hx; omega
      · have := hseg t hm
        rcases List.mem_append.mp ht with hx | hx
        · have := hpre _ hx; omega
        · rcases List.mem_cons.mp hx with hx | hx
          · omega
          · have := hpost _ hx; omega
    · intro t x hx
      rw [g4, h4] at hx
      dsimp only at hx
      split at hx
      · cases hx
      · exact hx

/-- Where the last directive of a branch is. -/
theorem lastOf_spec {owner : Nat → Nat} {N : Nat} {σ : St} :
    ∀ (b a : List Nat) (x e : Nat), Linked σ.dir owner (a ++ x :: b) →
      (∀ y ∈ a ++ x :: b, y < N) → (x :: b).getLast? = some e → lastOf N σ x = some (owner e) := by
  intro b
  induction b with
  | nil =>
    intro a x e h _ he
    simp at he; subst he
    rw [lastOf]
    simp [Linked.at h]
  | cons y b ih =>
    intro a x e h hN he
    have hx := Linked.at h
    have hxy := (Linked.next h (by simp) (x := x) (q := y) (by rw [hx]; rfl)).2.1
    rw [lastOf]
    simp only [hx, List.head?_cons]
    rw [dif_pos ⟨hxy, hN y (by simp)⟩]
    have e' : a ++ x :: y :: b = (a ++ [x]) ++ y :: b := by simp
    rw [e'] at h hN
    exact ih _ y e h hN (by simpa using he)

/-- **C50, skipping a branch.** For a token that starts a branch, the end of the branch is
defined, it is the token the last directive of that branch belongs to, that token is still
there and it is not before. -/
theorem endOfBranch_forward {owner : Nat → Nat} {N : Nat} {σ : St} {t : Nat} (h : WF owner σ)
    (hmono : Ordered owner σ) (hN : ∀ i, σ.dir i ≠ {} → i < N)
    (ht : σ.flag t = true) :
    ∃ c e i, Linked σ.dir owner c ∧ i ∈ c ∧ i ∈ σ.prefixes t ∧ c.getLast? = some e ∧
      endOfBranch N σ t = some (owner e) ∧ owner e ∈ σ.toks ∧ t ≤ owner e := by
  obtain ⟨i, hi, hty, p, hp, hne⟩ := (h.flags t).mp ht
  have hfs : (find σ t).isSome = true := (find_isSome σ t).mpr ⟨i, hi, hty, p, hp, hne⟩
  obtain ⟨src, hsrc⟩ := Option.isSome_iff_exists.mp hfs
  have : ∃ j ∈ σ.prefixes t, (σ.dir j).pv = some src := by
    have hfind := hsrc
    unfold find at hfind
    obtain ⟨j, hj, hval⟩ := List.exists_of_findSome?_eq_some hfind
    refine ⟨j, hj, ?_⟩
    split at hval
    · cases hval
    · split at hval
      · cases hval
      · rename_i q hq
        split at hval
        · obtain rfl := Option.some.inj hval
          exact hq
        · cases hval
  obtain ⟨j, hj, hjp⟩ := this
  rcases h.part j with hj0 | ⟨c, hjc, hc⟩
  · rw [hj0] at hjp; cases hjp
  · obtain ⟨hsc, hsn⟩ := Linked.prev hc hjc hjp
    obtain ⟨a, b, rfl⟩ := List.append_of_mem hsc
    have hlen : (src :: b) ≠ [] := by simp
    obtain ⟨e, he⟩ : ∃ e, (src :: b).getLast? = some e := ⟨_, List.getLast?_eq_some_getLast hlen⟩
    have hec : (a ++ src :: b).getLast? = some e := by
      rw [List.getLast?_append, he]; rfl
    have hem : e ∈ a ++ src :: b := List.mem_of_getLast? hec
    refine ⟨a ++ src :: b, e, j, hc, hjc, hj, hec, ?_, ?_, ?_⟩
    · unfold endOfBranch
      rw [ht, hsrc]
      simp only [Bool.true_eq_false, if_false]
      exact lastOf_spec b a src e hc (fun y hy => hN y (Linked.ne_plain hc hy)) he
    · exact (h.here e (Linked.ne_plain hc hem)).2
    · have hjo : t = owner j := h.own j t hj
      rw [hjo]
      refine hmono j e ?_ (Linked.ne_plain hc hjc) (Linked.ne_plain hc hem)
      -- the last one is not before any other
      obtain ⟨c', hc'⟩ := List.getLast?_eq_some_iff.mp hec
      have hs := hc.2.1
      rw [hc'] at hs hjc
      rcases List.mem_append.mp hjc with hm | hm
      · have := (List.pairwise_append.mp hs).2.2 j hm e (by simp)
        omega
      · simp at hm; omega

/-- Reading establishes what removal keeps. -/
theorem read_wf (F : File) (hlt : ∀ i, i < F.n → F.owner i < F.ntoks)
    (hmono : ∀ i j, i ≤ j → j < F.n → F.owner i ≤ F.owner j) :
    WF F.owner F.final ∧ Ordered F.owner F.final ∧ (∀ i, F.final.dir i ≠ {} → i < F.n) ∧ F.final.toks.Pairwise (· < ·) := by
  obtain ⟨h1, _, h3, h4, h5, h6, h7⟩ := read_spec F
  have hpart : ∀ i, F.final.dir i = {} ∨ ∃ g, Group F g ∧ i ∈ g := by
    intro i
    by_cases h : ∃ g, Group F g ∧ i ∈ g
    · exact Or.inr h
    · exact Or.inl (h6 i (fun g hg hi => h ⟨g, hg, hi⟩))
  have hn : ∀ i, F.final.dir i ≠ {} → i < F.n := by
    intro i hi
    rcases hpart i with h | ⟨g, hg, hig⟩
    · exact absurd h hi
    · exact Group.lt hg i hig
  refine ⟨⟨h1, ?_, ?_, ?_, h7⟩, fun i j hij _ hj => hmono i j hij (hn j hj), hn, ?_⟩
  · intro x u hx
    rw [h3] at hx
    exact (mem_prefixes.mp hx).2.symm
  · intro i
    rcases hpart i with h | ⟨g, hg, hig⟩
    · exact Or.inl h
    · exact Or.inr ⟨g, hig, h5 g hg⟩
  · intro i hi
    rw [h3, h4]
    exact ⟨mem_prefixes.mpr ⟨hn i hi, rfl⟩, by simpa [File.init] using hlt i (hn i hi)⟩
  · rw [h4]
    exact List.pairwise_lt_range

/-! ## A concrete file -/

/-- ```
#if A      0
int a      tokens 0 1
#if B      1
int b      tokens 2 3
#else      2
int c      tokens 4 5
#endif     3
#else      4
int d      tokens 6 7
#endif     5
#else      6, stray
#if C      7, never closed
           token 8, the end of the file
``` -/
def sample : File where
  n := 8
  kind := fun i => [.cppIf, .cppIf, .cppElse, .cppEndif, .cppElse, .cppEndif, .cppElse, .cppIf].getD i .cpp
  owner := fun i => [0, 2, 4, 6, 6, 8, 8, 8].getD i 8
  ntoks := 9

example : Group sample [0, 4, 5] :=
  ⟨rfl, .more ⟨by decide, by decide⟩ rfl (.last ⟨by decide, by decide⟩ (by decide) rfl)⟩
example : Group sample [1, 2, 3] :=
  ⟨rfl, .more ⟨by decide, by decide⟩ rfl (.last ⟨by decide, by decide⟩ (by decide) rfl)⟩
example : ((List.range 9).filter sample.final.flag, sample.final.ok) = ([4, 6], true) := by
  decide +kernel
example : ((branch sample.final 4).map (fun r => (r.1.toks, (List.range 9).filter r.1.flag, r.1.ok, r.2)))
    = some ([0, 1, 4, 5, 6, 7, 8], [6], true, 4) := by
  decide +kernel
example : (endOfBranch 8 sample.final 4, endOfBranch 8 sample.final 6) = (some 6, some 8) := by
  decide +kernel

end Knfmt.Branch
