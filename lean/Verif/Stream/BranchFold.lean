import Verif.Stream.BranchRemove
/-! # Folding of branches (C50) -/
namespace Knfmt.Branch

open Knfmt.Spec (Linked StartsBranch Group)

/-- The prefixes of every token are in the order of the text. -/
def PrefixSorted (σ : St) : Prop :=
  ∀ t, (σ.prefixes t).Nodup ∧
    (σ.prefixes t).Pairwise (fun x y => σ.dir x ≠ {} → σ.dir y ≠ {} → x < y)

/-- What holds between any two steps of the parser. -/
structure Good (owner : Nat → Nat) (σ : St) : Prop where
  wf : WF owner σ
  ordered : Ordered owner σ
  prefixes : PrefixSorted σ
  toks : σ.toks.Pairwise (· < ·)

/-- Taking the first prefix off a token. -/
theorem drop_first {owner : Nat → Nat} {σ : St} (h : WF owner σ) {t i : Nat} {l : List Nat}
    (hl : σ.prefixes t = i :: l) :
    let σ' : St := { unlink σ i with
      prefixes := fun u => if u = t then ((unlink σ i).prefixes u).tail else (unlink σ i).prefixes u }
    WF owner σ' ∧ Kept owner owner σ σ' (fun x => decide (x = i)) ∧ σ'.toks = σ.toks ∧
    σ'.prefixes = fun u => if u = t then l else σ.prefixes u := by
  obtain ⟨h1, h2, h3, h4⟩ := unlink_keeps h i
  have hi : (unlink σ i).dir i = {} := h2.gone i (by simp)
  refine ⟨?_, h2.congr rfl, h3, ?_⟩
  · constructor
    · exact h1.ok
    · intro x u hx
      dsimp only at hx
      split at hx
      · exact h1.own x u (List.mem_of_mem_tail hx)
      · exact h1.own x u hx
    · exact h1.part
    · intro x hx
      have hx' := h1.here x hx
      refine ⟨?_, hx'.2⟩
      dsimp only
      split
      · rename_i hxt
        have := hx'.1
        rw [hxt, h4, hl] at this
        rw [hxt, h4, hl]
        rcases List.mem_cons.mp this with rfl | hm
        · exact absurd hi hx
        · exact hm
      · exact hx'.1
    · intro u
      rw [h1.flags u]
      dsimp only
      constructor
      · rintro ⟨x, hx, hh⟩
        refine ⟨x, ?_, hh⟩
        dsimp only
        split
        · rename_i hut
          subst hut
          rw [h4, hl] at hx ⊢
          rcases List.mem_cons.mp hx with rfl | hm
          · rw [hi] at hh; cases hh.1
          · exact hm
        · exact hx
      · rintro ⟨x, hx, hh⟩
        refine ⟨x, ?_, hh⟩
        dsimp only at hx
        split at hx
        · exact List.mem_of_mem_tail hx
        · exact hx
  · funext u
    by_cases hu : u = t
    · subst hu; simp [h4, hl]
    · simp [hu, h4]

/-- Taking prefixes off a token up to a given one. -/
theorem dropPrefixes_keeps {owner : Nat → Nat} (t last : Nat) :
    ∀ (l1 l2 : List Nat) (σ : St), WF owner σ → σ.prefixes t = l1 ++ last :: l2 → last ∉ l1 →
    let σ' := dropPrefixes σ t last (l1 ++ last :: l2)
    WF owner σ' ∧ Kept owner owner σ σ' (fun x => decide (x ∈ l1 ++ [last])) ∧ σ'.toks = σ.toks ∧
    σ'.prefixes = fun u => if u = t then l2 else σ.prefixes u := by
  intro l1
  induction l1 with
  | nil =>
    intro l2 σ h hl _
    simp only [List.nil_append] at hl ⊢
    obtain ⟨h1, h2, h3, h4⟩ := drop_first h hl
    simp only [dropPrefixes, if_true]
    refine ⟨h1, ?_, h3, h4⟩
    have e : (fun x => decide (x ∈ [last])) = fun x => decide (x = last) := by funext x; simp
    rw [e]; exact h2
  | cons i l1 ih =>
    intro l2 σ h hl hni
    simp only [List.mem_cons, not_or] at hni
    simp only [List.cons_append] at hl ⊢
    obtain ⟨h1, h2, h3, h4⟩ := drop_first h hl
    obtain ⟨g1, g2, g3, g4⟩ := ih l2 _ h1 (by rw [h4]; simp) hni.2
    simp only [dropPrefixes, if_neg (Ne.symm hni.1)]
    refine ⟨g1, ?_, g3.trans h3, ?_⟩
    · have := h2.trans g2
      have e : (fun x => decide (x = i) || decide (x ∈ l1 ++ [last])) =
          fun x => decide (x ∈ i :: (l1 ++ [last])) := by
        funext x; simp
      rw [e] at this
      exact this
    · rw [g4, h4]
      funext u
      by_cases hu : u = t <;> simp [hu]

/-- Which token an ordinary directive belongs to does not matter. -/
theorem Kept.reown {o o' o'' : Nat → Nat} {σ σ' : St} {R : Nat → Bool} (h : Kept o o' σ σ' R)
    (he : ∀ x, σ'.dir x ≠ {} → o'' x = o' x) : Kept o o'' σ σ' R where
  plain := h.plain
  gone := h.gone
  rest := by
    intro c hc hlen
    have hL := h.rest c hc hlen
    refine ⟨hL.1, hL.2.1, ?_⟩
    intro a x b hab
    rw [he x (Linked.ne_plain hL (by rw [hab]; simp))]
    exact hL.2.2 a x b hab
  last := h.last

theorem WF.reown {o o' : Nat → Nat} {σ : St} (h : WF o σ)
    (he : ∀ x, σ.dir x ≠ {} → o' x = o x)
    (hp : ∀ x u, x ∈ σ.prefixes u → o' x = o x) : WF o' σ where
  ok := h.ok
  own := fun x u hx => by rw [hp x u hx]; exact h.own x u hx
  part := by
    intro i
    rcases h.part i with hi | ⟨c, hic, hc⟩
    · exact Or.inl hi
    · refine Or.inr ⟨c, hic, hc.1, hc.2.1, ?_⟩
      intro a x b hab
      rw [he x (Linked.ne_plain hc (by rw [hab]; simp))]
      exact hc.2.2 a x b hab
  here := fun i hi => by rw [he i hi]; exact h.here i hi
  flags := h.flags

/-- Removal of the same directives, as far as they are part of branches. -/
theorem Kept.same {o o' : Nat → Nat} {σ σ' : St} {R R' : Nat → Bool} (h : Kept o o' σ σ' R)
    (he : ∀ x, σ.dir x ≠ {} → R' x = R x) : Kept o o' σ σ' R' := by
  have hf : ∀ c, Linked σ.dir o c → c.filter (fun x => !R' x) = c.filter (fun x => !R x) := by
    intro c hc
    apply List.filter_congr
    intro x hx
    rw [he x (Linked.ne_plain hc hx)]
  constructor
  · exact h.plain
  · intro x hx
    by_cases hd : σ.dir x = {}
    · exact h.plain x hd
    · exact h.gone x (by rw [← he x hd]; exact hx)
  · intro c hc hlen
    rw [hf c hc] at hlen ⊢
    exact h.rest c hc hlen
  · intro c hc hlen
    rw [hf c hc] at hlen
    exact h.last c hc hlen

/-- Moving a prefix to another token. -/
theorem movePrefix_keeps {o : Nat → Nat} {σ : St} {i src dst : Nat} (h : WF o σ)
    (hne : src ≠ dst) (hi : i ∈ σ.prefixes src) (hnd : (σ.prefixes src).Nodup) (hdst : dst ∈ σ.toks) :
    let σ' := movePrefix σ i src dst
    let o' := fun x => if x = i then dst else o x
    WF o' σ' ∧ Kept o o' σ σ' (fun _ => false) ∧ σ'.toks = σ.toks ∧
    σ'.prefixes = fun u => if u = dst then i :: σ.prefixes dst else
      if u = src then (σ.prefixes src).erase i else σ.prefixes u := by
  intro σ' o'
  have hoi : src = o i := h.own i src hi
  have hidst : i ∉ σ.prefixes dst := fun hm => hne (hoi.trans (h.own i dst hm).symm)
  -- the prefixes after the move
  let P : Nat → List Nat := fun u => if u = dst then i :: σ.prefixes dst else
      if u = src then (σ.prefixes src).erase i else σ.prefixes u
  have hP : ∀ x u, x ∈ P u ↔ if x = i then u = dst else x ∈ σ.prefixes u := by
    intro x u
    simp only [P]
    by_cases hx : x = i
    · subst hx
      rw [if_pos rfl]
      by_cases hu : u = dst
      · simp [hu]
      · by_cases hus : u = src
        · subst hus
          simp only [hu, if_false, if_true, iff_false]
          rw [hnd.mem_erase_iff]; simp
        · simp only [hu, if_false, if_neg hus, iff_false]
          intro hm
          exact hus ((h.own x u hm).trans hoi.symm)
    · rw [if_neg hx]
      by_cases hu : u = dst
      · subst hu; simp [hx]
      · by_cases hus : u = src
        · subst hus
          simp only [if_neg hu, if_true]
          rw [List.mem_erase_of_ne hx]
        · simp only [if_neg hu, if_neg hus]
  have hown : ∀ x u, x ∈ P u → u = o' x := by
    intro x u hx
    rw [hP] at hx
    simp only [o']
    split at hx
    · rename_i hxi; rw [if_pos hxi]; exact hx
    · rename_i hxi; rw [if_neg hxi]; exact h.own x u hx
  have hpref : σ'.prefixes = P := by
    have : σ'.prefixes = fun u => if u = dst then
        i :: (if u = src then (σ.prefixes u).erase i else σ.prefixes u)
        else (if u = src then (σ.prefixes u).erase i else σ.prefixes u) := by
      simp only [σ', movePrefix]
      split
      · rfl
      · rw [updateFlags_eq, updateFlags_eq]; rfl
    rw [this]
    funext u
    simp only [P]
    by_cases hu : u = dst
    · subst hu; simp [Ne.symm hne]
    · by_cases hus : u = src
      · subst hus; simp [hu]
      · simp [hu, hus]
  have htoks : σ'.toks = σ.toks := by
    simp only [σ', movePrefix]
    split
    · rfl
    · rw [updateFlags_eq, updateFlags_eq]; rfl
  have hok : σ'.ok = σ.ok := by
    simp only [σ', movePrefix]
    split
    · rfl
    · rw [updateFlags_eq, updateFlags_eq]; rfl
  -- the directives after the move
  have hdir : ∀ x, σ'.dir x = if x = i ∧ σ.dir i ≠ {} then { σ.dir i with parent := some dst } else σ.dir x := by
    intro x
    by_cases hplain : σ.dir i = {}
    · have : σ'.dir = σ.dir := by
        simp only [σ', movePrefix]
        rw [if_pos (by simp [hplain])]
      rw [this]; simp [hplain]
    · have hty : (σ.dir i).type ≠ .cpp := by
        rcases h.part i with h0 | ⟨c, hic, hc⟩
        · exact absurd h0 hplain
        · obtain ⟨a, b, rfl⟩ := List.append_of_mem hic
          rw [Linked.at hc]
          dsimp only
          split
          · decide
          · split <;> decide
      have : σ'.dir = fun j => if j = i then { σ.dir i with parent := some dst } else σ.dir j := by
        simp only [σ', movePrefix]
        rw [if_neg (by simpa using hty), updateFlags_eq, updateFlags_eq]
        rfl
      rw [this]
      simp only [hplain, ne_eq, not_false_eq_true, and_true]
  have hplain : ∀ x, σ'.dir x = {} ↔ σ.dir x = {} := by
    intro x
    rw [hdir]
    split
    · rename_i hx
      constructor
      · intro he
        injection he with _ _ _ h4
        cases h4
      · intro he
        rw [hx.1] at he
        exact absurd he hx.2
    · rfl
  have hlinked : ∀ c, Linked σ.dir o c → Linked σ'.dir o' c := by
    intro c hc
    refine ⟨hc.1, hc.2.1, ?_⟩
    intro a x b hab
    have hx := hc.2.2 a x b hab
    have hxn := Linked.ne_plain hc (x := x) (by rw [hab]; simp)
    rw [hdir]
    simp only [o']
    by_cases hxi : x = i
    · subst hxi
      rw [if_pos ⟨rfl, hxn⟩, if_pos rfl, hx]
    · rw [if_neg (fun h => hxi h.1), if_neg hxi, hx]
  -- whether a directive starts a branch
  have hflags : ∀ u, σ'.flag u = true ↔ StartsBranch σ'.dir σ'.prefixes u := by
    by_cases hpl : σ.dir i = {}
    · have hd : σ'.dir = σ.dir := by funext x; rw [hdir]; simp [hpl]
      have hf : σ'.flag = σ.flag := by
        simp only [σ', movePrefix]
        rw [if_pos (by simp [hpl])]
      intro u
      rw [hf, hd, hpref, h.flags u]
      constructor
      · rintro ⟨x, hx, hh⟩
        refine ⟨x, (hP x u).mpr ?_, hh⟩
        have : x ≠ i := by rintro rfl; rw [hpl] at hh; cases hh.1
        rw [if_neg this]; exact hx
      · rintro ⟨x, hx, hh⟩
        refine ⟨x, ?_, hh⟩
        have hx' := (hP x u).mp hx
        have : x ≠ i := by rintro rfl; rw [hpl] at hh; cases hh.1
        rw [if_neg this] at hx'; exact hx'
    · have hty : (σ.dir i).type ≠ .cpp := by
        rcases h.part i with h0 | ⟨c, hic, hc⟩
        · exact absurd h0 hpl
        · obtain ⟨a, b, rfl⟩ := List.append_of_mem hic
          rw [Linked.at hc]
          dsimp only
          split
          · decide
          · split <;> decide
      have hf : σ'.flag = fun u => if u = src then hotFlag σ'.dir σ'.prefixes u
          else if u = dst then hotFlag σ'.dir σ'.prefixes u else σ.flag u := by
        have hd2 : σ'.dir = fun j => if j = i then { σ.dir i with parent := some dst } else σ.dir j := by
          funext x
          rw [hdir]
          simp only [hpl, ne_eq, not_false_eq_true, and_true]
        rw [hd2, hpref]
        have hp2 : P = fun u => if u = dst then
            i :: (if u = src then (σ.prefixes u).erase i else σ.prefixes u)
            else (if u = src then (σ.prefixes u).erase i else σ.prefixes u) := by
          funext u
          simp only [P]
          by_cases hu : u = dst
          · subst hu; simp [Ne.symm hne]
          · by_cases hus : u = src
            · subst hus; simp [hu]
            · simp [hu, hus]
        rw [hp2]
        simp only [σ', movePrefix]
        rw [if_neg (by simpa using hty), updateFlags_eq, updateFlags_eq]
        rfl
      intro u
      rw [hf]
      dsimp only
      split
      · exact hotFlag_iff
      · rename_i hus
        split
        · exact hotFlag_iff
        · rename_i hud
          rw [h.flags u]
          have hpu : σ'.prefixes u = σ.prefixes u := by
            rw [hpref]; simp [P, hus, hud]
          unfold StartsBranch
          rw [hpu]
          refine exists_congr fun x => and_congr_right fun hx => ?_
          have hxo := h.own x u hx
          have hxi : x ≠ i := by
            rintro rfl
            exact hus (hxo.trans hoi.symm)
          have hdx : σ'.dir x = σ.dir x := by rw [hdir, if_neg (fun h => hxi h.1)]
          rw [hdx]
          refine and_congr_right fun ht => exists_congr fun p => and_congr_right fun hp => ?_
          have hxpar : (σ.dir x).parent = some u := by
            rcases h.part x with h0 | ⟨c, hxc, hc⟩
            · rw [h0] at ht; cases ht
            · obtain ⟨a, b, rfl⟩ := List.append_of_mem hxc
              rw [Linked.at hc, hxo]
          rw [hxpar, hdir]
          split
          · rename_i hpi
            rw [hpi.1]
            have : (σ.dir i).parent = some src := by
              rcases h.part i with h0 | ⟨c, hic, hc⟩
              · exact absurd h0 hpl
              · obtain ⟨a, b, rfl⟩ := List.append_of_mem hic
                rw [Linked.at hc, hoi]
            rw [this]
            simp [hus, hud]
          · rfl
  refine ⟨?_, ?_, htoks, hpref⟩
  · constructor
    · rw [hok]; exact h.ok
    · rw [hpref]; exact hown
    · intro x
      rcases h.part x with h0 | ⟨c, hxc, hc⟩
      · exact Or.inl ((hplain x).mpr h0)
      · exact Or.inr ⟨c, hxc, hlinked c hc⟩
    · intro x hx
      rw [hpref, htoks]
      have hx' := h.here x (fun h0 => hx ((hplain x).mpr h0))
      simp only [o']
      by_cases hxi : x = i
      · rw [if_pos hxi]
        exact ⟨(hP x dst).mpr (by rw [if_pos hxi]), hdst⟩
      · rw [if_neg hxi]
        exact ⟨(hP x _).mpr (by rw [if_neg hxi]; exact hx'.1), hx'.2⟩
    · exact hflags
  · have hself : ∀ c : List Nat, c.filter (fun _ => !false) = c := fun c =>
      List.filter_eq_self.mpr (by simp)
    constructor
    · exact fun x hx => (hplain x).mpr hx
    · simp
    · intro c hc _
      rw [hself]; exact hlinked c hc
    · intro c hc hlen
      rw [hself] at hlen
      have := hc.1
      omega

/-- Moving several prefixes to another token. -/
theorem movePrefixes_keeps {src dst : Nat} (hne : src ≠ dst) :
    ∀ (r : List Nat) (o : Nat → Nat) (σ : St), WF o σ → r.Nodup → (∀ i ∈ r, i ∈ σ.prefixes src) →
    (σ.prefixes src).Nodup → dst ∈ σ.toks →
    let σ' := r.foldl (fun σ i => movePrefix σ i src dst) σ
    let o' := fun x => if x ∈ r then dst else o x
    WF o' σ' ∧ Kept o o' σ σ' (fun _ => false) ∧ σ'.toks = σ.toks ∧
    σ'.prefixes = fun u => if u = dst then r.reverse ++ σ.prefixes dst else
      if u = src then (σ.prefixes src).filter (fun x => !decide (x ∈ r)) else σ.prefixes u := by
  intro r
  induction r with
  | nil =>
    intro o σ h _ _ _ _
    refine ⟨by simpa using h, by simpa using Kept.refl, rfl, ?_⟩
    funext u
    by_cases hu : u = dst
    · simp [hu]
    · by_cases hus : u = src
      · subst hus
        simp only [hu, if_false, if_true]
        exact (List.filter_eq_self.mpr (by simp)).symm
      · simp [hu, hus]
  | cons i r ih =>
    intro o σ h hr hsub hnd hdst
    obtain ⟨h1, h2, h3, h4⟩ := movePrefix_keeps h hne (hsub i (by simp)) hnd hdst
    have hr' := List.nodup_cons.mp hr
    have hpsrc : (movePrefix σ i src dst).prefixes src = (σ.prefixes src).erase i := by
      rw [h4]; simp [hne]
    obtain ⟨g1, g2, g3, g4⟩ := ih _ _ h1 hr'.2
      (by
        intro x hx
        rw [hpsrc]
        refine (List.mem_erase_of_ne ?_).mpr (hsub x (by simp [hx]))
        rintro rfl; exact hr'.1 hx)
      (by rw [hpsrc]; exact hnd.erase _) (by rw [h3]; exact hdst)
    have ho : (fun x => if x ∈ r then dst else if x = i then dst else o x) =
        fun x => if x ∈ i :: r then dst else o x := by
      funext x
      by_cases hx : x = i
      · simp [hx]
      · simp [hx]
    simp only [List.foldl_cons]
    rw [ho] at g1 g2
    refine ⟨g1, ?_, g3.trans h3, ?_⟩
    · simpa using h2.trans g2
    · rw [g4, h4]
      funext u
      by_cases hu : u = dst
      · simp [hu]
      · by_cases hus : u = src
        · subst hus
          simp only [if_neg hu, if_true]
          rw [hnd.erase_eq_filter, List.filter_filter]
          congr 1
          funext x
          by_cases hx : x = i <;> simp [hx]
        · simp [hu, hus]

theorem takeWhile_ne_split {l : List Nat} {x : Nat} (hx : x ∈ l) :
    ∃ r, l = l.takeWhile (· ≠ x) ++ x :: r ∧ x ∉ l.takeWhile (· ≠ x) := by
  induction l with
  | nil => cases hx
  | cons y l ih =>
    by_cases hy : y = x
    · subst hy
      exact ⟨l, by simp, by simp⟩
    · have hx' : x ∈ l := by
        rcases List.mem_cons.mp hx with h | h
        · exact absurd h.symm hy
        · exact h
      obtain ⟨r, h1, h2⟩ := ih hx'
      refine ⟨r, ?_, ?_⟩
      · rw [List.takeWhile_cons]
        simp only [ne_eq, hy, not_false_eq_true, decide_true, if_true, List.cons_append]
        congr 1
      · rw [List.takeWhile_cons]
        simp only [ne_eq, hy, not_false_eq_true, decide_true, if_true, List.mem_cons, not_or]
        exact ⟨fun h => hy h.symm, h2⟩

/-- **C50, folding.** Turning the alternative between two consecutive directives of a branch
into a single directive removes exactly the tokens from the one the first directive belongs to
up to the one the second belongs to, and takes exactly the directives from the first to the
second out of their branches. All branches keep their other directives, in order. -/
theorem fold_keeps {o : Nat → Nat} {σ : St} {cppSrc cppDst new : Nat} {c : List Nat} (h : Good o σ)
    (hc : Linked σ.dir o c) (hsc : cppSrc ∈ c) (hnx : (σ.dir cppSrc).nx = some cppDst)
    (hne : o cppSrc ≠ o cppDst) (hnew : σ.dir new = {} ∧ ∀ t, new ∉ σ.prefixes t) :
    ∃ o', Good o' (fold σ cppSrc new) ∧
      (fold σ cppSrc new).toks =
        σ.toks.filter (fun t => !(decide (o cppSrc ≤ t) && decide (t < o cppDst))) ∧
      Kept o o' σ (fold σ cppSrc new) (fun x => decide (cppSrc ≤ x) && decide (x ≤ cppDst)) ∧
      (∀ t, t ∉ σ.toks.filter (fun t => decide (o cppSrc ≤ t) && decide (t ≤ o cppDst)) →
        (fold σ cppSrc new).prefixes t = σ.prefixes t) ∧
      (fold σ cppSrc new).prefixes (o cppDst) =
        (σ.prefixes (o cppSrc)).takeWhile (· ≠ cppSrc) ++
          new :: ((σ.prefixes (o cppDst)).dropWhile (· ≠ cppDst)).tail := by
  obtain ⟨hwf, hord, hps, hsort⟩ := h
  obtain ⟨hdc, hlt, hdp⟩ := Linked.next hc hsc hnx
  have hsn := Linked.ne_plain hc hsc
  have hdn := Linked.ne_plain hc hdc
  have hps1 : (σ.dir cppSrc).parent = some (o cppSrc) := by
    obtain ⟨a, b, rfl⟩ := List.append_of_mem hsc
    rw [Linked.at hc]
  have hpd1 : (σ.dir cppDst).parent = some (o cppDst) := by
    obtain ⟨a, b, rfl⟩ := List.append_of_mem hdc
    rw [Linked.at hc]
  have hos : o cppSrc < o cppDst := by
    have := hord cppSrc cppDst (Nat.le_of_lt hlt) hsn hdn
    omega
  obtain ⟨hsp, hst⟩ := hwf.here cppSrc hsn
  obtain ⟨hdpf, hdt⟩ := hwf.here cppDst hdn
  generalize hS : o cppSrc = src at *
  generalize hD : o cppDst = dst at *
  have hsd : src ≠ dst := hne
  -- the prefixes of the two tokens
  obtain ⟨l2, hl, hl1⟩ := takeWhile_ne_split hdpf
  generalize hl1e : (σ.prefixes dst).takeWhile (· ≠ cppDst) = l1 at *
  have hdw : ((σ.prefixes dst).dropWhile (· ≠ cppDst)).tail = l2 := by
    have := List.takeWhile_append_dropWhile (p := (· ≠ cppDst)) (l := σ.prefixes dst)
    rw [hl1e] at this
    have h2 : l1 ++ (σ.prefixes dst).dropWhile (· ≠ cppDst) = l1 ++ cppDst :: l2 := by
      rw [← hl]; exact this
    rw [List.append_cancel_left h2]; rfl
  obtain ⟨k2, hk, hk1⟩ := takeWhile_ne_split hsp
  generalize hke : (σ.prefixes src).takeWhile (· ≠ cppSrc) = keep at *
  -- removal of the prefixes of the destination
  obtain ⟨a1, a2, a3, a4⟩ := dropPrefixes_keeps (owner := o) dst cppDst l1 l2 σ hwf hl hl1
  rw [← hl] at a1 a2 a3 a4
  generalize hσ1 : dropPrefixes σ dst cppDst (σ.prefixes dst) = σ1 at *
  have hnew1 : σ1.dir new = {} := a2.plain new hnew.1
  have hnewp : ∀ t, new ∉ σ1.prefixes t := by
    intro t hm
    rw [a4] at hm
    dsimp only at hm
    split at hm
    · rename_i ht
      refine hnew.2 dst ?_
      rw [hl]; simp [hm]
    · exact hnew.2 t hm
  -- the new prefix
  let o1 : Nat → Nat := fun x => if x = new then dst else o x
  have b0 : WF o1 σ1 := a1.reown
    (fun x hx => by
      have : x ≠ new := by rintro rfl; exact hx hnew1
      simp [o1, this])
    (fun x u hx => by
      have : x ≠ new := by rintro rfl; exact hnewp u hx
      simp [o1, this])
  let σ2 : St := { σ1 with prefixes := fun u => if u = dst then new :: σ1.prefixes u else σ1.prefixes u }
  have b1 : WF o1 σ2 := by
    constructor
    · exact b0.ok
    · intro x u hx
      simp only [σ2] at hx
      split at hx
      · rename_i hu
        rcases List.mem_cons.mp hx with rfl | hx
        · simp [o1, hu]
        · exact b0.own x u hx
      · exact b0.own x u hx
    · exact b0.part
    · intro x hx
      have := b0.here x hx
      refine ⟨?_, this.2⟩
      simp only [σ2]
      split
      · exact List.mem_cons_of_mem _ this.1
      · exact this.1
    · intro u
      show σ1.flag u = true ↔ _
      rw [b0.flags u]
      constructor
      · rintro ⟨x, hx, hh⟩
        refine ⟨x, ?_, hh⟩
        simp only [σ2]
        split
        · exact List.mem_cons_of_mem _ hx
        · exact hx
      · rintro ⟨x, hx, hh⟩
        refine ⟨x, ?_, hh⟩
        simp only [σ2] at hx
        split at hx
        · rcases List.mem_cons.mp hx with rfl | hx
          · have := hh.1
            rw [show σ2.dir x = σ1.dir x from rfl, hnew1] at this
            cases this
          · exact hx
        · exact hx
  have b2 : Kept o o1 σ σ2 (fun x => decide (x ∈ l1 ++ [cppDst])) :=
    (a2.congr (τ := σ2) rfl).reown (fun x hx => by
      have : x ≠ new := by rintro rfl; exact hx hnew1
      simp [o1, this])
  have hp2s : σ2.prefixes src = σ.prefixes src := by
    simp only [σ2, if_neg hsd, a4]
  have hp2d : σ2.prefixes dst = new :: l2 := by
    simp only [σ2, if_true, a4]
  have ht2 : σ2.toks = σ.toks := a3
  -- the prefixes that are kept
  have hknd : keep.Nodup := by
    have := (hps src).1
    rw [hk] at this
    exact (List.nodup_append.mp this).1
  obtain ⟨d1, d2, d3, d4⟩ := movePrefixes_keeps hsd keep.reverse o1 σ2 b1
    (List.pairwise_reverse.mpr (hknd.imp (fun h => Ne.symm h)))
    (by
      intro i hi
      rw [hp2s, hk]
      simp at hi
      simp [hi])
    (by rw [hp2s]; exact (hps src).1) (by rw [ht2]; exact hdt)
  simp only [List.reverse_reverse, List.mem_reverse] at d1 d2 d3 d4
  generalize hσ3 : keep.reverse.foldl (fun σ i => movePrefix σ i src dst) σ2 = σ3 at *
  -- the tokens
  obtain ⟨pre, r, htk⟩ := List.append_of_mem hst
  have hbr : dst ∈ r := by
    have hdt' := hdt
    have hsort' := hsort
    rw [htk] at hdt' hsort'
    rcases List.mem_append.mp hdt' with hb | hb
    · have := (List.pairwise_append.mp hsort').2.2 dst hb src (by simp)
      omega
    · rcases List.mem_cons.mp hb with hb | hb
      · omega
      · exact hb
  obtain ⟨seg, post, rfl⟩ := List.append_of_mem hbr
  have ht3 : σ3.toks = pre ++ src :: seg ++ dst :: post := by
    rw [d3, ht2, htk]; simp
  have hnd : σ.toks.Nodup := hsort.imp (fun h => Nat.ne_of_lt h)
  obtain ⟨g1, g2, g3, g4⟩ := removeUntil_keeps dst seg pre post src σ3.toks.length σ3 d1 ht3
    (by rw [d3, ht2]; exact hnd) (by rw [ht3]; simp; omega)
  have hpre : ∀ t ∈ pre, t < src := by
    have hsort' := hsort
    rw [htk] at hsort'
    exact fun t ht => (List.pairwise_append.mp hsort').2.2 t ht src (by simp)
  have hrest : (src :: (seg ++ dst :: post)).Pairwise (· < ·) := by
    have hsort' := hsort
    rw [htk] at hsort'
    exact (List.pairwise_append.mp hsort').2.1
  have hseg : ∀ t ∈ seg, src < t ∧ t < dst := by
    intro t ht
    have := List.pairwise_cons.mp hrest
    exact ⟨this.1 t (by simp [ht]), (List.pairwise_append.mp this.2).2.2 t ht dst (by simp)⟩
  have hpost : ∀ t ∈ post, dst < t := by
    have := (List.pairwise_append.mp (List.pairwise_cons.mp hrest).2).2.1
    exact (List.pairwise_cons.mp this).1
  have hmem : ∀ t, t ∈ src :: seg ↔ t ∈ σ.toks ∧ src ≤ t ∧ t < dst := by
    intro t
    constructor
    · intro ht
      refine ⟨?_, ?_⟩
      · rw [htk]
        simp at ht ⊢
        rcases ht with h | h
        · exact Or.inr (Or.inl h)
        · exact Or.inr (Or.inr (Or.inl h))
      · rcases List.mem_cons.mp ht with rfl | ht
        · exact ⟨Nat.le_refl _, hos⟩
        · have := hseg t ht
          exact ⟨by omega, this.2⟩
    · rintro ⟨ht, hl', hr⟩
      rw [htk] at ht
      rcases List.mem_append.mp ht with ht | ht
      · have := hpre t ht; omega
      · rcases List.mem_cons.mp ht with rfl | ht
        · simp
        · rcases List.mem_append.mp ht with ht | ht
          · simp [ht]
          · rcases List.mem_cons.mp ht with rfl | ht
            · omega
            · have := hpost t ht; omega
  have hfold : fold σ cppSrc new = removeUntil σ3 src dst σ3.toks.length := by
    unfold fold
    rw [hps1, hnx]
    simp only [hpd1, hσ1]
    have e1 : (if src = dst then new :: σ1.prefixes src else σ1.prefixes src) = σ.prefixes src := hp2s
    rw [e1, hke]
    rw [show (keep.reverse.foldl (fun σ i => movePrefix σ i src dst)
      { σ1 with prefixes := fun u => if u = dst then new :: σ1.prefixes u else σ1.prefixes u }) = σ3 from hσ3]
    rw [if_neg hsd]
  rw [hfold]
  generalize hσ4 : removeUntil σ3 src dst σ3.toks.length = σ4 at *
  have htoks4 : σ4.toks = σ.toks.filter (fun t => !(decide (src ≤ t) && decide (t < dst))) := by
    rw [g3, htk]
    rw [List.filter_append, List.filter_cons, List.filter_append, List.filter_cons]
    have e1 : pre.filter (fun t => !(decide (src ≤ t) && decide (t < dst))) = pre :=
      List.filter_eq_self.mpr (fun t ht => by
        have := hpre t ht
        simp; omega)
    have e2 : seg.filter (fun t => !(decide (src ≤ t) && decide (t < dst))) = [] :=
      List.filter_eq_nil_iff.mpr (fun t ht => by
        have := hseg t ht
        simp; omega)
    have e3 : post.filter (fun t => !(decide (src ≤ t) && decide (t < dst))) = post :=
      List.filter_eq_self.mpr (fun t ht => by
        have := hpost t ht
        simp; omega)
    rw [e1, e2, e3]
    simp [hos]
  -- what is taken out
  have hK : Kept o (fun x => if x ∈ keep then dst else o1 x) σ σ4
      (fun x => decide (cppSrc ≤ x) && decide (x ≤ cppDst)) := by
    refine ((b2.trans d2).trans g2).same ?_
    intro x hx
    obtain ⟨hxp, hxt⟩ := hwf.here x hx
    rw [Bool.eq_iff_iff]
    simp only [Bool.and_eq_true, decide_eq_true_eq, Bool.or_false, Bool.or_eq_true, List.any_eq_true]
    have hkeep : ∀ y ∈ keep, σ.dir y ≠ {} → y < cppSrc := by
      intro y hy hyn
      have := (hps src).2
      rw [hk] at this
      exact (List.pairwise_append.mp this).2.2 y hy cppSrc (by simp) hyn hsn
    have hk2 : ∀ y ∈ k2, σ.dir y ≠ {} → cppSrc < y := by
      intro y hy hyn
      have := (hps src).2
      rw [hk] at this
      exact (List.pairwise_cons.mp (List.pairwise_append.mp this).2.1).1 y hy hsn hyn
    have hl1' : ∀ y ∈ l1, σ.dir y ≠ {} → y < cppDst := by
      intro y hy hyn
      have := (hps dst).2
      rw [hl] at this
      exact (List.pairwise_append.mp this).2.2 y hy cppDst (by simp) hyn hdn
    have hl2' : ∀ y ∈ l2, σ.dir y ≠ {} → cppDst < y := by
      intro y hy hyn
      have := (hps dst).2
      rw [hl] at this
      exact (List.pairwise_cons.mp (List.pairwise_append.mp this).2.1).1 y hy hdn hyn
    have before : ∀ {y z}, σ.dir y ≠ {} → σ.dir z ≠ {} → o y < o z → y < z := by
      intro y z hy hz hyz
      rcases Nat.lt_or_ge y z with hlt | hge
      · exact hlt
      · have := hord z y hge hz hy
        omega
    constructor
    · rintro ⟨hx1, hx2⟩
      have hox1 : src ≤ o x := by
        rw [← hS]; exact hord cppSrc x hx1 hsn hx
      have hox2 : o x ≤ dst := by
        rw [← hD]; exact hord x cppDst hx2 hx hdn
      rcases Nat.lt_or_ge (o x) dst with hlt' | hge
      · right
        refine ⟨o x, (hmem _).mpr ⟨hxt, hox1, hlt'⟩, ?_⟩
        rw [d4]
        simp only [if_neg (show o x ≠ dst by omega)]
        split
        · rename_i hxs
          rw [hp2s, ← hxs]
          refine List.mem_filter.mpr ⟨hxp, ?_⟩
          simp only [Bool.not_eq_true', decide_eq_false_iff_not]
          intro hm
          have := hkeep x hm hx
          omega
        · rename_i hxs
          simp only [σ2, if_neg (show o x ≠ dst by omega), a4]
          exact hxp
      · left
        have hxd : o x = dst := by omega
        rw [hxd, hl] at hxp
        rcases List.mem_append.mp hxp with hm | hm
        · simp [hm]
        · rcases List.mem_cons.mp hm with rfl | hm
          · simp
          · have := hl2' x hm hx
            omega
    · rintro (hm | ⟨t, ht, hm⟩)
      · have hxp' : x ∈ σ.prefixes dst := by
          rw [hl]
          simp at hm ⊢
          rcases hm with h | h
          · exact Or.inl h
          · exact Or.inr (Or.inl h)
        have hxd := hwf.own x dst hxp'
        have := before hsn hx (by omega)
        refine ⟨by omega, ?_⟩
        simp at hm
        rcases hm with hm | rfl
        · have := hl1' x hm hx; omega
        · exact Nat.le_refl _
      · have ht' := (hmem t).mp ht
        rw [d4] at hm
        simp only [if_neg (show t ≠ dst by omega)] at hm
        have key : x ∈ σ.prefixes t ∧ (t = src → x ∉ keep) := by
          split at hm
          · rename_i hts
            rw [hp2s] at hm
            have := List.mem_filter.mp hm
            refine ⟨hts ▸ this.1, fun _ => by simpa using this.2⟩
          · rename_i hts
            simp only [σ2, if_neg (show t ≠ dst by omega), a4] at hm
            exact ⟨hm, fun h => absurd h hts⟩
        have hxo := hwf.own x t key.1
        have h2 := before hx hdn (by omega)
        refine ⟨?_, by omega⟩
        by_cases hts : t = src
        · have hxk := key.2 hts
          have hxs := key.1
          rw [hts, hk] at hxs
          rcases List.mem_append.mp hxs with hm | hm
          · exact absurd hm hxk
          · rcases List.mem_cons.mp hm with rfl | hm
            · exact Nat.le_refl _
            · have := hk2 x hm hx
              omega
        · have := before hsn hx (by omega)
          omega
  have hkeepsrc : ∀ x ∈ keep, o x = src := by
    intro x hx
    exact (hwf.own x src (by rw [hk]; simp [hx])).symm
  have hlive : ∀ x, σ4.dir x ≠ {} → σ.dir x ≠ {} := fun x hx h0 => hx (hK.plain x h0)
  have hnewlive : ∀ x, σ4.dir x ≠ {} → x ≠ new := by
    rintro x hx rfl
    exact hlive x hx hnew.1
  have hp4 : σ4.prefixes = fun u => if u ∈ src :: seg then [] else if u = dst then keep ++ new :: l2
      else σ.prefixes u := by
    rw [g4]
    funext u
    split
    · rfl
    · rename_i hu
      rw [d4]
      dsimp only
      split
      · rw [hp2d]
      · rename_i hud
        have hus : u ≠ src := by rintro rfl; simp at hu
        rw [if_neg hus]
        simp only [σ2, if_neg hud, a4]
  refine ⟨fun x => if x ∈ keep then dst else o1 x, ⟨g1, ?_, ?_, ?_⟩, htoks4, hK, ?_, ?_⟩
  · intro i j hij hi hj
    have hi' := hlive i hi
    have hj' := hlive j hj
    have hio := hord i j hij hi' hj'
    have hjt := (g1.here j hj).2
    rw [htoks4] at hjt
    have hjr := (List.mem_filter.mp hjt).2
    dsimp only at hjr ⊢
    simp only [o1, if_neg (hnewlive i hi), if_neg (hnewlive j hj)] at hjr ⊢
    by_cases hik : i ∈ keep
    · rw [if_pos hik]
      by_cases hjk : j ∈ keep
      · rw [if_pos hjk]; exact Nat.le_refl _
      · rw [if_neg hjk] at hjr ⊢
        have := hkeepsrc i hik
        simp at hjr
        omega
    · rw [if_neg hik]
      by_cases hjk : j ∈ keep
      · rw [if_pos hjk]
        have := hkeepsrc j hjk
        omega
      · rw [if_neg hjk]; exact hio
  · intro t
    rw [hp4]
    dsimp only
    split
    · exact ⟨.nil, .nil⟩
    · split
      · have hkp : keep.Pairwise (fun x y => σ.dir x ≠ {} → σ.dir y ≠ {} → x < y) := by
          have := (hps src).2
          rw [hk] at this
          exact (List.pairwise_append.mp this).1
        have hl2n : l2.Nodup := by
          have := (hps dst).1
          rw [hl] at this
          exact (List.nodup_cons.mp (List.nodup_append.mp this).2.1).2
        have hl2p : l2.Pairwise (fun x y => σ.dir x ≠ {} → σ.dir y ≠ {} → x < y) := by
          have := (hps dst).2
          rw [hl] at this
          exact (List.pairwise_cons.mp (List.pairwise_append.mp this).2.1).2
        have hl2d : ∀ x ∈ l2, o x = dst := by
          intro x hx
          exact (hwf.own x dst (by rw [hl]; simp [hx])).symm
        have hnk : new ∉ keep := by
          intro hm
          exact hnew.2 src (by rw [hk]; simp [hm])
        have hnl : new ∉ l2 := by
          intro hm
          exact hnew.2 dst (by rw [hl]; simp [hm])
        refine ⟨?_, ?_⟩
        · refine List.nodup_append.mpr ⟨hknd, List.nodup_cons.mpr ⟨hnl, hl2n⟩, ?_⟩
          intro x hx y hy he
          subst he
          rcases List.mem_cons.mp hy with rfl | hy
          · exact hnk hx
          · have := hkeepsrc x hx
            have := hl2d x hy
            omega
        · refine List.pairwise_append.mpr ⟨?_, List.pairwise_cons.mpr ⟨?_, ?_⟩, ?_⟩
          · exact hkp.imp (fun h hx hy => h (hlive _ hx) (hlive _ hy))
          · intro y _ hn
            exact absurd rfl (hnewlive new hn)
          · exact hl2p.imp (fun h hx hy => h (hlive _ hx) (hlive _ hy))
          · intro x hx y hy hxl hyl
            rcases List.mem_cons.mp hy with rfl | hy
            · exact absurd rfl (hnewlive y hyl)
            · have h1 := hkeepsrc x hx
              have h2 := hl2d y hy
              rcases Nat.lt_or_ge x y with hlt' | hge
              · exact hlt'
              · have := hord y x hge (hlive y hyl) (hlive x hxl)
                omega
      · exact ⟨(hps t).1, (hps t).2.imp (fun h hx hy => h (hlive _ hx) (hlive _ hy))⟩
  · rw [htoks4]
    exact hsort.sublist List.filter_sublist
  · intro t ht
    rw [hp4]
    dsimp only
    have h1 : t ∉ src :: seg := by
      intro hm
      have := (hmem t).mp hm
      exact ht (List.mem_filter.mpr ⟨this.1, by simp; omega⟩)
    have h2 : t ≠ dst := by
      rintro rfl
      exact ht (List.mem_filter.mpr ⟨hdt, by simp; omega⟩)
    rw [if_neg h1, if_neg h2]
  · rw [hp4]
    dsimp only
    have h1 : dst ∉ src :: seg := by
      intro hm
      have := (hmem dst).mp hm
      omega
    rw [if_neg h1, if_pos rfl, hdw]

/-- Reading establishes what the parser relies on. -/
theorem read_good (F : File) (hlt : ∀ i, i < F.n → F.owner i < F.ntoks)
    (hmono : ∀ i j, i ≤ j → j < F.n → F.owner i ≤ F.owner j) : Good F.owner F.final := by
  obtain ⟨h1, h2, _, h4⟩ := read_wf F hlt hmono
  refine ⟨h1, h2, ?_, h4⟩
  intro t
  rw [(read_spec F).2.2.1]
  have : (F.init.prefixes t).Pairwise (· < ·) := List.pairwise_lt_range.filter _
  exact ⟨this.imp (fun h => Nat.ne_of_lt h), this.imp (fun h _ _ => h)⟩

/-- Taking the next alternative keeps what the parser relies on. -/
theorem branch_good {o : Nat → Nat} {σ σ' : St} {back u : Nat} (h : Good o σ)
    (hb : branch σ back = some (σ', u)) : Good o σ' ∧ σ'.toks.length < σ.toks.length := by
  have hback : σ.flag back = true := by
    rw [h.wf.flags]
    refine (find_isSome σ back).mp ?_
    unfold branch at hb
    split at hb
    · cases hb
    · rename_i src hs
      rw [hs]; rfl
  obtain ⟨src, σ2, _, h2, hos, hst, hbt, g1, g2, g3, _⟩ :=
    branch_removes h.wf h.ordered h.toks hback
  rw [hb] at h2
  obtain ⟨rfl, rfl⟩ := Prod.mk.inj (Option.some.inj h2)
  have hlive : ∀ x, σ'.dir x ≠ {} → σ.dir x ≠ {} := fun x hx h0 => hx (g3.plain x h0)
  refine ⟨⟨g1, ?_, ?_, ?_⟩, ?_⟩
  · exact fun i j hij hi hj => h.ordered i j hij (hlive i hi) (hlive j hj)
  · intro t
    have key : ∀ n rm τ, WF o τ → (∀ t, τ.prefixes t = [] ∨ τ.prefixes t = σ.prefixes t) →
        ∀ t, (removeUntil τ rm u n).prefixes t = [] ∨ (removeUntil τ rm u n).prefixes t = σ.prefixes t := by
      intro n
      induction n with
      | zero => intro rm τ _ h t; exact h t
      | succ n ih =>
        intro rm τ hw h t
        simp only [removeUntil]
        split
        · exact h t
        · obtain ⟨w1, _, _, w4⟩ := removeToken_keeps hw rm
          have h' : ∀ t, (removeToken τ rm).prefixes t = [] ∨
              (removeToken τ rm).prefixes t = σ.prefixes t := by
            intro t
            rw [w4]
            dsimp only
            split
            · exact Or.inl rfl
            · exact h t
          split
          · exact h' t
          · exact ih _ _ w1 h' t
    have hp : σ'.prefixes t = [] ∨ σ'.prefixes t = σ.prefixes t := by
      unfold branch at hb
      split at hb
      · cases hb
      · rename_i src' hs'
        split at hb
        · rename_i s cppDst hps hnx
          split at hb
          · obtain ⟨h5, h6⟩ := Prod.mk.inj (Option.some.inj hb)
            subst h6
            rw [← h5]
            obtain ⟨w1, _, _, w4⟩ := unlink_keeps h.wf src'
            exact key _ _ _ w1 (fun t => Or.inr (by rw [w4])) t
          · obtain ⟨h5, _⟩ := Prod.mk.inj (Option.some.inj hb)
            rw [← h5]; exact Or.inr rfl
        · obtain ⟨h5, _⟩ := Prod.mk.inj (Option.some.inj hb)
          rw [← h5]; exact Or.inr rfl
    rcases hp with hp | hp
    · rw [hp]; exact ⟨.nil, .nil⟩
    · rw [hp]
      exact ⟨(h.prefixes t).1, (h.prefixes t).2.imp (fun h hx hy => h (hlive _ hx) (hlive _ hy))⟩
  · rw [g2]
    exact h.toks.sublist List.filter_sublist
  · rw [g2]
    refine Nat.lt_of_le_of_ne (List.length_filter_le _ _) (fun he => ?_)
    have := List.length_filter_eq_length_iff.mp he (o src) hst
    simp at this
    omega

/-! ## A concrete file -/

example : (∀ i, i < sample.n → sample.owner i < sample.ntoks) ∧
    ∀ i, i < 8 → ∀ j, j < 8 → i ≤ j → sample.owner i ≤ sample.owner j := by
  decide

example : (let σ := fold sample.final 0 8
    (σ.toks, σ.prefixes 6, σ.prefixes 8, (List.range 9).filter σ.flag, σ.ok)) =
    ([6, 7, 8], [8], [5, 6, 7], [], true) := by
  decide +kernel

example : (let σ := fold sample.final 1 8
    (σ.toks, σ.prefixes 4, σ.prefixes 6, (List.range 9).filter σ.flag, σ.ok)) =
    ([0, 1, 4, 5, 6, 7, 8], [8], [3, 4], [6], true) := by
  decide +kernel

end Knfmt.Branch
