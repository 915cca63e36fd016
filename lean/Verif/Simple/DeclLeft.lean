import Verif.Simple.DeclCollect
/-!
# Grouping declarations: what is left of a declaration

The tokens of a declaration that are not moved or removed are again a declaration, with commas between.
-/
namespace Knfmt.SimpleDecl

open Knfmt.Lexer (TT)
open Knfmt.Stream (Node Fix)
open Knfmt.Stmt (node pos next prev isMoveable removeId)

/-- Addresses of what is moved, and of the commas that are removed. -/
def movedOf (l : List Fate) : List Nat := (l.filter (·.moved)).flatMap fun f => f.comma.toList ++ f.toks.map (·.id)

/-- The declarators that stay. -/
def keptOf (l : List Fate) : List (List Node) := (l.filter fun f => !f.moved).map (·.toks)

/-- All of a list of declarators after the first. -/
abbrev flat (more : List (Node × List Node)) : List Node := more.flatMap fun m => m.1 :: m.2

theorem movedOf_cons (f : Fate) (l : List Fate) :
    movedOf (f :: l) = (if f.moved then f.comma.toList ++ f.toks.map (·.id) else []) ++ movedOf l := by
  unfold movedOf
  rw [List.filter_cons]
  split <;> simp

theorem keptOf_cons (f : Fate) (l : List Fate) : keptOf (f :: l) = (if f.moved then [] else [f.toks]) ++ keptOf l := by
  unfold keptOf
  rw [List.filter_cons]
  cases f.moved <;> simp

theorem stays_eq (l : List Fate) : stays l = (keptOf l).length := by
  unfold stays keptOf; rw [List.length_map]

theorem plain_fixed {v : List Node} {c : Node} (h : plain v c = true) : fixed c = [] ∧ (∀ t ∈ v, fixed t = []) ∧
    (∀ t ∈ v, t.type = .star ∨ t.type = .ident) ∧ v ≠ [] := by
  unfold plain at h
  simp only [Bool.and_eq_true, List.any_eq_true, List.all_eq_true, Bool.or_eq_true, decide_eq_true_eq] at h
  obtain ⟨⟨⟨x, hx, -⟩, h2⟩, h3⟩ := h
  exact ⟨h3, fun t ht => (h2 t ht).2, fun t ht => (h2 t ht).1, by rintro rfl; simp at hx⟩

theorem movedOf_sub : ∀ (more : List (Node × List Node)) (pend : Option Nat) (v : List Node) (semi : Node),
    ∀ n ∈ movedOf (fates pend v more semi), n ∈ pend.toList ++ (v ++ flat more).map (·.id) := by
  intro more
  induction more with
  | nil =>
    intro pend v semi n hn
    unfold fates at hn
    rw [movedOf_cons] at hn
    dsimp only at hn
    split at hn
    · simpa [movedOf] using hn
    · simp [movedOf] at hn
  | cons m ms ih =>
    obtain ⟨c, w⟩ := m
    intro pend v semi n hn
    unfold fates at hn
    rw [movedOf_cons, List.mem_append] at hn
    dsimp only at hn
    rcases hn with hn | hn
    · split at hn
      · rw [List.mem_append] at hn
        cases pend with
        | none => simp at hn ⊢; grind
        | some p => simp at hn ⊢; grind
      · simp at hn
    · have h1 := ih _ _ _ n hn
      rw [List.mem_append] at h1
      have h2 : n = c.id ∨ n ∈ (w ++ flat ms).map (·.id) := by
        rcases h1 with h1 | h1
        · left
          split at h1
          · simp at h1
          · split at h1
            · simpa using h1
            · simp at h1
        · exact Or.inr h1
      simp only [flat, List.flatMap_cons, List.mem_append, List.map_append, List.map_cons, List.cons_append, List.mem_cons] at h2 ⊢
      grind

theorem movedOf_nodup : ∀ (more : List (Node × List Node)) (pend : Option Nat) (v : List Node) (semi : Node),
    (pend.toList ++ (v ++ flat more).map (·.id)).Nodup → (movedOf (fates pend v more semi)).Nodup := by
  intro more
  induction more with
  | nil =>
    intro pend v semi hd
    unfold fates
    rw [movedOf_cons]
    dsimp only
    split
    · simpa [movedOf] using hd
    · simp [movedOf]
  | cons m ms ih =>
    obtain ⟨c, w⟩ := m
    intro pend v semi hd
    unfold fates
    rw [movedOf_cons]
    dsimp only
    have hd2 : ((some c.id).toList ++ (w ++ flat ms).map (·.id)).Nodup := by
      refine hd.sublist ?_
      simp [flat]
    have hd3 : ∀ n ∈ pend.toList ++ v.map (·.id), n ≠ c.id ∧ n ∉ (w ++ flat ms).map (·.id) := by
      have e : pend.toList ++ (v ++ flat ((c, w) :: ms)).map (·.id) =
        (pend.toList ++ v.map (·.id)) ++ (c.id :: (w ++ flat ms).map (·.id)) := by simp [flat]
      rw [e, List.nodup_append] at hd
      intro n hn
      exact ⟨fun e => hd.2.2 n hn c.id (by simp) e, fun hm => hd.2.2 n hn n (List.mem_cons_of_mem _ hm) rfl⟩
    have hd4 : (pend.toList ++ v.map (·.id)).Nodup := by
      refine hd.sublist ?_
      simp [flat]
    have hcn : c.id ∉ (w ++ flat ms).map (·.id) := by
      have := hd2
      simp only [Option.toList_some, List.cons_append, List.nil_append, List.nodup_cons] at this
      exact this.1
    by_cases hm : plain v c = true
    · rw [hm, if_pos rfl]
      cases pend with
      | none =>
        simp only [Option.isNone_none, Bool.and_self, if_true, Option.none_or, Option.toList_some]
        rw [List.nodup_append]
        refine ⟨?_, ih none w semi (by simpa using hd2.sublist (List.sublist_append_right _ _)), ?_⟩
        · rw [List.cons_append, List.nil_append, List.nodup_cons]
          refine ⟨fun hm => ?_, by simpa using hd4⟩
          exact (hd3 c.id (by simpa using hm)).1 rfl
        · intro a ha b hb e
          subst e
          have hb := movedOf_sub _ _ _ _ a hb
          simp only [Option.toList_none, List.nil_append] at hb
          simp only [List.cons_append, List.nil_append, List.mem_cons] at ha
          rcases ha with rfl | ha
          · exact hcn hb
          · exact (hd3 a (by simpa using ha)).2 hb
      | some p =>
        have hf := (plain_fixed hm).1
        simp only [Option.isNone_some, Bool.and_false, Bool.false_eq_true, if_false, hf, if_true, Option.some_or]
        rw [List.nodup_append]
        refine ⟨hd4, ih (some c.id) w semi hd2, ?_⟩
        intro a ha b hb e
        subst e
        have hb := movedOf_sub _ _ _ _ a hb
        obtain ⟨k1, k2⟩ := hd3 a ha
        rcases List.mem_append.mp hb with hb | hb
        · simp at hb; exact k1 hb
        · exact k2 hb
    · have hm : plain v c = false := by simpa using hm
      rw [hm]
      simp only [Bool.false_eq_true, if_false, Bool.false_and, List.nil_append]
      split
      · exact ih (some c.id) w semi hd2
      · exact ih none w semi (by simpa using hd2.sublist (List.sublist_append_right _ _))

theorem stays_other : ∀ (more : List (Node × List Node)) (pend : Option Nat) (v : List Node) (semi : Node),
    stays (fates pend v more semi) ≠ 0 ↔ someOther v more semi = true := by
  intro more
  induction more with
  | nil =>
    intro pend v semi
    rw [stays_eq]
    unfold fates
    rw [keptOf_cons]
    unfold someOther
    cases h : plain v semi <;> simp [keptOf, h]
  | cons m ms ih =>
    obtain ⟨c, w⟩ := m
    intro pend v semi
    rw [stays_eq]
    unfold fates
    rw [keptOf_cons, List.length_append, ← stays_eq]
    have h := ih (if plain v c && pend.isNone then none else if fixed c = [] then some c.id else none) w semi
    unfold someOther at h ⊢
    dsimp only
    rw [List.map_cons, List.map_cons, List.cons_append, List.zip_cons_cons, List.any_cons, Bool.or_eq_true, ← h]
    cases plain v c <;> simp

theorem moved_plain : ∀ (more : List (Node × List Node)) (pend : Option Nat) (v : List Node) (semi : Node),
    (∃ f ∈ fates pend v more semi, f.moved = true) ↔ somePlain v more semi = true := by
  intro more
  induction more with
  | nil =>
    intro pend v semi
    unfold fates somePlain
    simp
  | cons m ms ih =>
    obtain ⟨c, w⟩ := m
    intro pend v semi
    unfold fates
    have h := ih (if plain v c && pend.isNone then none else if fixed c = [] then some c.id else none) w semi
    unfold somePlain at h ⊢
    rw [List.map_cons, List.map_cons, List.cons_append, List.zip_cons_cons, List.any_cons, Bool.or_eq_true, ← h]
    simp

/-- Every comma with a comment has a declarator behind it that stays. -/
def Held (more : List (Node × List Node)) (semi : Node) : Prop :=
  ∀ A c w B, more = A ++ (c, w) :: B → fixed c ≠ [] → someOther w B semi = true

theorem held_tail {m : Node × List Node} {ms : List (Node × List Node)} {semi : Node} (h : Held (m :: ms) semi) : Held ms semi :=
  fun A c w B e => h (m :: A) c w B (by rw [e]; rfl)

/-- With a comma in front. -/
theorem left_comma : ∀ (more : List (Node × List Node)) (p : Node) (pend : Option Nat) (v : List Node) (semi : Node) (R : List Nat),
    ((p :: v ++ flat more).map (·.id)).Nodup →
    (∀ n ∈ (p :: v ++ flat more).map (·.id), n ∈ R ↔ n ∈ movedOf (fates pend v more semi)) →
    (pend = some p.id ∨ (pend = none ∧ stays (fates pend v more semi) ≠ 0)) → Held more semi →
    ∃ ks : List (Node × List Node), (∀ k ∈ ks, k.1 = p ∨ k.1 ∈ more.map (·.1)) ∧ ks.map (·.2) = keptOf (fates pend v more semi) ∧
      (p :: v ++ flat more).filter (fun t => decide (t.id ∉ R)) = flat ks := by
  intro more
  induction more with
  | nil =>
    intro p pend v semi R hd hR hp _
    by_cases hm : plain v semi = true
    · -- moved
      have hk : keptOf (fates pend v [] semi) = [] := by
        unfold fates; rw [keptOf_cons]; simp [hm, keptOf]
      rcases hp with hp | ⟨-, hp⟩
      · refine ⟨[], by simp, by rw [hk]; rfl, ?_⟩
        rw [show flat [] = ([] : List Node) from rfl, List.filter_eq_nil_iff, List.append_nil]
        intro t ht
        have : t.id ∈ R := by
          rw [hR t.id (List.mem_map_of_mem (by simpa [flat] using ht))]
          unfold fates
          rw [movedOf_cons]
          simp only [hm, if_true, hp]
          simp only [List.mem_cons] at ht
          rcases ht with rfl | ht
          · simp
          · simp; exact Or.inr (Or.inl ⟨t, ht, rfl⟩)
        simpa using this
      · rw [stays_eq, hk] at hp; simp at hp
    · have hm : plain v semi = false := by simpa using hm
      refine ⟨[(p, v)], by simp, ?_, ?_⟩
      · unfold fates; rw [keptOf_cons]; simp [hm, keptOf]
      · rw [List.filter_eq_self.mpr]
        · simp [flat]
        · intro t ht
          have := hR t.id (List.mem_map_of_mem ht)
          unfold fates at this
          rw [movedOf_cons] at this
          simp [hm, movedOf] at this
          simpa using this
  | cons m ms ih =>
    obtain ⟨c, w⟩ := m
    intro p pend v semi R hd hR hp hh
    have hd2 : ((c :: w ++ flat ms).map (·.id)).Nodup := by
      refine hd.sublist ?_
      simp only [flat, List.flatMap_cons, List.map_append, List.map_cons, List.cons_append]
      exact List.Sublist.cons _ (List.sublist_append_right _ _)
    have hsep : ∀ n ∈ (p :: v).map (·.id), n ∉ (c :: w ++ flat ms).map (·.id) := by
      have e : (p :: v ++ flat ((c, w) :: ms)).map (·.id) = (p :: v).map (·.id) ++ (c :: w ++ flat ms).map (·.id) := by simp [flat]
      rw [e, List.nodup_append] at hd
      intro n hn hn2
      exact hd.2.2 n hn n hn2 rfl
    have hR' : ∀ n ∈ (p :: v ++ (c :: w ++ flat ms)).map (·.id), n ∈ R ↔ n ∈ movedOf (fates pend v ((c, w) :: ms) semi) := by
      intro n hn
      apply hR
      simpa [flat] using hn
    have e0 : p :: v ++ flat ((c, w) :: ms) = (p :: v) ++ (c :: w ++ flat ms) := by simp [flat]
    rw [e0, List.filter_append]
    unfold fates
    rw [keptOf_cons]
    unfold fates at hR'
    rw [movedOf_cons] at hR'
    dsimp only at hR' ⊢
    by_cases hm : plain v c = true
    · have hf := (plain_fixed hm).1
      rw [hm] at hR' ⊢
      simp only [if_true, Bool.true_and, hf, List.nil_append] at hR' ⊢
      rcases hp with hp | ⟨hp, hst⟩
      · -- the comma in front goes, this one is next
        subst hp
        simp only [Option.isNone_some, Bool.false_eq_true, if_false, Option.some_or, Option.toList_some] at hR' ⊢
        obtain ⟨ks, k1, k2, k3⟩ := ih c (some c.id) w semi R hd2 (by
          intro n hn
          rw [hR' n (by rw [List.map_append]; exact List.mem_append_right _ hn), List.mem_append]
          refine ⟨fun h => h.resolve_left ?_, Or.inr⟩
          intro h
          exact hsep n (by simpa using h) hn) (Or.inl rfl) (held_tail hh)
        refine ⟨ks, ?_, k2, ?_⟩
        · intro k hk
          rcases k1 k hk with h | h
          · right; rw [h]; simp
          · right; simp at h ⊢; exact Or.inr h
        · rw [k3, List.filter_eq_nil_iff.mpr, List.nil_append]
          intro t ht
          have : t.id ∈ R := by
            rw [hR' t.id (by rw [List.map_append]; exact List.mem_append_left _ (List.mem_map_of_mem ht))]
            rw [List.mem_append]
            left
            simp only [List.mem_cons] at ht
            rcases ht with rfl | ht
            · simp
            · exact List.mem_append_right _ (List.mem_map_of_mem ht)
          simpa using this
      · -- the comma in front stays, this one goes
        subst hp
        have hst2 : stays (fates none w ms semi) ≠ 0 := by
          rw [stays_other] at hst ⊢
          unfold someOther at hst
          rw [List.map_cons, List.map_cons, List.cons_append, List.zip_cons_cons, List.any_cons] at hst
          simpa [hm, someOther] using hst
        simp only [Option.isNone_none, if_true, Option.none_or, Option.toList_some] at hR' ⊢
        have hd3 : ((p :: w ++ flat ms).map (·.id)).Nodup := by
          refine hd.sublist ?_
          simp only [flat, List.flatMap_cons, List.map_append, List.map_cons, List.cons_append]
          exact List.Sublist.cons_cons _ ((List.sublist_cons_self _ _).trans (List.sublist_append_right _ _))
        have hpn : p.id ≠ c.id := fun e => hsep p.id (by simp) (by simp [e])
        have hpv : p.id ∉ v.map (·.id) := by
          rw [List.cons_append, List.map_cons, List.nodup_cons] at hd
          intro h
          exact hd.1 (by rw [List.map_append]; exact List.mem_append_left _ h)
        have hcw : c.id ∉ (w ++ flat ms).map (·.id) := by
          rw [List.cons_append, List.map_cons, List.nodup_cons] at hd2
          exact hd2.1
        obtain ⟨ks, k1, k2, k3⟩ := ih p none w semi R hd3 (by
          intro n hn
          have hn' : n = p.id ∨ n ∈ (w ++ flat ms).map (·.id) := by simpa using hn
          rw [hR' n (by
            rcases hn' with rfl | hn'
            · simp
            · rw [List.map_append, List.cons_append, List.map_cons]
              exact List.mem_append_right _ (List.mem_cons_of_mem _ hn')), List.mem_append]
          refine ⟨fun h => h.resolve_left ?_, Or.inr⟩
          intro h
          rcases List.mem_append.mp h with h | h
          · simp only [List.mem_cons, List.not_mem_nil, or_false] at h
            rcases hn' with rfl | hn'
            · exact hpn h
            · exact hcw (h ▸ hn')
          · rcases hn' with rfl | hn'
            · exact hpv h
            · exact hsep n (by rw [List.map_cons]; exact List.mem_cons_of_mem _ h)
                (by rw [List.cons_append, List.map_cons]; exact List.mem_cons_of_mem _ hn')) (Or.inr ⟨rfl, hst2⟩) (held_tail hh)
        refine ⟨ks, ?_, k2, ?_⟩
        · intro k hk
          rcases k1 k hk with h | h
          · exact Or.inl h
          · right; simp at h ⊢; exact Or.inr h
        · rw [← k3]
          have hvR : v.filter (fun t => decide (t.id ∉ R)) = [] := by
            rw [List.filter_eq_nil_iff]
            intro t ht
            have : t.id ∈ R := by
              rw [hR' t.id (by rw [List.map_append]; exact List.mem_append_left _ (List.mem_map_of_mem (List.mem_cons_of_mem _ ht)))]
              rw [List.mem_append]
              left
              exact List.mem_append_right _ (List.mem_map_of_mem ht)
            simpa using this
          have hcR : c.id ∈ R := by
            rw [hR' c.id (by simp)]
            simp
          rw [List.cons_append, List.cons_append, List.filter_cons, List.filter_cons, List.filter_cons, hvR]
          rw [if_neg (show ¬ decide (c.id ∉ R) = true by simpa using hcR)]
          split <;> simp
    · have hm : plain v c = false := by simpa using hm
      rw [hm] at hR' ⊢
      simp only [Bool.false_eq_true, if_false, Bool.false_and, List.nil_append] at hR' ⊢
      generalize hpe : (if fixed c = [] then some c.id else none) = pend' at hR' ⊢
      obtain ⟨ks, k1, k2, k3⟩ := ih c pend' w semi R hd2 (by
          intro n hn
          exact hR' n (by rw [List.map_append]; exact List.mem_append_right _ hn)) (by
          rw [← hpe]
          by_cases hf : fixed c = []
          · left; rw [if_pos hf]
          · right
            rw [if_neg hf]
            exact ⟨rfl, (stays_other _ _ _ _).mpr (hh [] c w ms rfl hf)⟩) (held_tail hh)
      refine ⟨(p, v) :: ks, ?_, by rw [List.map_cons, k2]; rfl, ?_⟩
      · intro k hk
        rcases List.mem_cons.mp hk with rfl | hk
        · exact Or.inl rfl
        · right
          rcases k1 k hk with h | h
          · rw [h]; simp
          · simp at h ⊢; exact Or.inr h
      · rw [k3, List.filter_eq_self.mpr]
        · simp [flat]
        · intro t ht
          have h1 := hR' t.id (by rw [List.map_append]; exact List.mem_append_left _ (List.mem_map_of_mem ht))
          have h2 : t.id ∉ R := by
            rw [h1]
            intro h
            have h3 := movedOf_sub _ _ _ _ _ h
            apply hsep t.id (List.mem_map_of_mem ht)
            rw [List.cons_append, List.map_cons, List.mem_cons]
            rcases List.mem_append.mp h3 with h3 | h3
            · left
              rw [← hpe] at h3
              split at h3
              · simpa using h3
              · simp at h3
            · exact Or.inr h3
          simpa using h2

/-- Without a comma in front. -/
theorem left_first : ∀ (more : List (Node × List Node)) (v : List Node) (semi : Node) (R : List Nat),
    ((v ++ flat more).map (·.id)).Nodup →
    (∀ n ∈ (v ++ flat more).map (·.id), n ∈ R ↔ n ∈ movedOf (fates none v more semi)) → Held more semi →
    (keptOf (fates none v more semi) = [] ∧ (v ++ flat more).filter (fun t => decide (t.id ∉ R)) = []) ∨
    ∃ (k : List Node) (ks : List (Node × List Node)), (∀ k ∈ ks, k.1 ∈ more.map (·.1)) ∧ k :: ks.map (·.2) = keptOf (fates none v more semi) ∧
      (v ++ flat more).filter (fun t => decide (t.id ∉ R)) = k ++ flat ks := by
  intro more
  induction more with
  | nil =>
    intro v semi R hd hR _
    unfold fates at hR ⊢
    rw [movedOf_cons] at hR
    rw [keptOf_cons]
    by_cases hm : plain v semi = true
    · left
      refine ⟨by simp [hm, keptOf], ?_⟩
      rw [List.filter_eq_nil_iff]
      intro t ht
      have : t.id ∈ R := by
        rw [hR t.id (List.mem_map_of_mem ht)]
        simp only [hm, if_true]
        simp at ht
        simp
        exact Or.inl ⟨t, ht, rfl⟩
      simpa using this
    · right
      have hm : plain v semi = false := by simpa using hm
      refine ⟨v, [], by simp, by simp [hm, keptOf], ?_⟩
      rw [show flat [] = ([] : List Node) from rfl, List.append_nil, List.filter_eq_self]
      intro t ht
      have := hR t.id (List.mem_map_of_mem (by simpa [flat] using ht))
      simp [hm, movedOf] at this
      simpa using this
  | cons m ms ih =>
    obtain ⟨c, w⟩ := m
    intro v semi R hd hR hh
    have e0 : v ++ flat ((c, w) :: ms) = v ++ (c :: w ++ flat ms) := by simp [flat]
    rw [e0] at hd hR ⊢
    have hd2 : ((c :: w ++ flat ms).map (·.id)).Nodup := by
      refine hd.sublist (List.Sublist.map _ ?_)
      exact List.sublist_append_right _ _
    have hsep : ∀ n ∈ v.map (·.id), n ∉ (c :: w ++ flat ms).map (·.id) := by
      rw [List.map_append, List.nodup_append] at hd
      intro n hn hn2
      exact hd.2.2 n hn n hn2 rfl
    have hcw : c.id ∉ (w ++ flat ms).map (·.id) := by
      rw [List.cons_append, List.map_cons, List.nodup_cons] at hd2
      exact hd2.1
    unfold fates at hR ⊢
    rw [movedOf_cons] at hR
    rw [keptOf_cons]
    dsimp only at hR ⊢
    rw [List.filter_append]
    by_cases hm : plain v c = true
    · rw [hm] at hR ⊢
      simp only [if_true, Option.isNone_none, Bool.and_self, List.nil_append, Option.none_or, Option.toList_some] at hR ⊢
      have hvR : v.filter (fun t => decide (t.id ∉ R)) = [] := by
        rw [List.filter_eq_nil_iff]
        intro t ht
        have : t.id ∈ R := by
          rw [hR t.id (by rw [List.map_append]; exact List.mem_append_left _ (List.mem_map_of_mem ht))]
          rw [List.mem_append]
          left
          exact List.mem_append_right _ (List.mem_map_of_mem ht)
        simpa using this
      have hcR : c.id ∈ R := by
        rw [hR c.id (by simp)]
        simp
      rw [hvR, List.nil_append, List.cons_append, List.filter_cons, if_neg (show ¬ decide (c.id ∉ R) = true by simpa using hcR)]
      rcases ih w semi R (by rw [List.cons_append, List.map_cons, List.nodup_cons] at hd2; exact hd2.2) (by
        intro n hn
        rw [hR n (by rw [List.map_append, List.cons_append, List.map_cons]; exact List.mem_append_right _ (List.mem_cons_of_mem _ hn)),
          List.mem_append]
        refine ⟨fun h => h.resolve_left ?_, Or.inr⟩
        intro h
        rcases List.mem_append.mp h with h | h
        · simp only [List.mem_cons, List.not_mem_nil, or_false] at h
          exact hcw (h ▸ hn)
        · exact hsep n h (by rw [List.cons_append, List.map_cons]; exact List.mem_cons_of_mem _ hn)) (held_tail hh) with
        h | ⟨k, ks, k1, k2, k3⟩
      · exact Or.inl h
      · right
        refine ⟨k, ks, ?_, k2, k3⟩
        intro k hk
        have := k1 k hk
        simp at this ⊢; exact Or.inr this
    · right
      have hm : plain v c = false := by simpa using hm
      rw [hm] at hR ⊢
      simp only [Bool.false_eq_true, if_false, Bool.false_and, List.nil_append] at hR ⊢
      generalize hpe : (if fixed c = [] then some c.id else none) = pend' at hR ⊢
      obtain ⟨ks, k1, k2, k3⟩ := left_comma ms c pend' w semi R hd2 (by
          intro n hn
          exact hR n (by rw [List.map_append]; exact List.mem_append_right _ hn)) (by
          rw [← hpe]
          by_cases hf : fixed c = []
          · left; rw [if_pos hf]
          · right
            rw [if_neg hf]
            exact ⟨rfl, (stays_other _ _ _ _).mpr (hh [] c w ms rfl hf)⟩) (held_tail hh)
      refine ⟨v, ks, ?_, by rw [k2]; rfl, ?_⟩
      · intro k hk
        rcases k1 k hk with h | h
        · rw [h]; simp
        · simp at h ⊢; exact Or.inr h
      · rw [k3, List.filter_eq_self.mpr]
        intro t ht
        have h1 := hR t.id (by rw [List.map_append]; exact List.mem_append_left _ (List.mem_map_of_mem ht))
        have h2 : t.id ∉ R := by
          rw [h1]
          intro h
          have h3 := movedOf_sub _ _ _ _ _ h
          apply hsep t.id (List.mem_map_of_mem ht)
          rw [List.cons_append, List.map_cons, List.mem_cons]
          rcases List.mem_append.mp h3 with h3 | h3
          · left
            rw [← hpe] at h3
            split at h3
            · simpa using h3
            · simp at h3
          · exact Or.inr h3
        simpa using h2

end Knfmt.SimpleDecl
