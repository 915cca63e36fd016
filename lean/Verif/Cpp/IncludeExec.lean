import Verif.Cpp.IncludeLemmas
/-!
# What executing a block of includes does to the list of prefixes
-/
namespace Knfmt.Include

/-- The identity of the last token of a list. -/
def lastId (l : List Tok) : Option Nat := l.getLast?.map (·.id)

theorem lastId_concat (l : List Tok) (t : Tok) : lastId (l ++ [t]) = some t.id := by
  simp [lastId]

theorem trim_id (t : Tok) : (trim t).id = t.id := by
  unfold trim; split <;> rfl

theorem insertAfter_append (a b : List Tok) (x tk : Tok) (h : ∀ y ∈ a, y.id ≠ x.id) :
    insertAfter x.id tk (a ++ x :: b) = a ++ x :: tk :: b := by
  induction a with
  | nil => simp [insertAfter]
  | cons y a ih =>
    rw [List.cons_append, insertAfter, if_neg (h y (by simp)), ih (fun z hz => h z (by simp [hz]))]
    rfl

theorem insertAfter_last {pre : List Tok} {id : Nat} (h : lastId pre = some id)
    (nd : (pre.map (·.id)).Nodup) (tk : Tok) (l : List Tok) :
    insertAfter id tk (pre ++ l) = pre ++ [tk] ++ l := by
  rcases List.eq_nil_or_concat pre with rfl | ⟨a, x, rfl⟩
  · simp [lastId] at h
  · simp only [List.concat_eq_append] at h nd ⊢
    rw [lastId_concat] at h
    injection h with h
    subst h
    rw [List.append_assoc, List.singleton_append, insertAfter_append]
    · simp
    · intro y hy e
      rw [List.map_append, List.nodup_append] at nd
      exact nd.2.2 y.id (List.mem_map_of_mem hy) x.id (by simp) e

/-- What is left of the includes once the ones in `g` are moved. -/
def rest (rem : List Tok) (g : List (Tok × Prio)) : List Tok :=
  rem.filter fun t => g.all fun x => decide (t.id ≠ x.1.id)

/-- The prefixes in front, the includes not moved yet and the prefixes after them have
different identities. -/
structure Apart (pre rem post : List Tok) : Prop where
  pre_rem : ∀ x ∈ pre, ∀ y ∈ rem, x.id ≠ y.id
  rem_post : ∀ x ∈ rem, ∀ y ∈ post, x.id ≠ y.id
  pre_nodup : (pre.map (·.id)).Nodup

theorem place_spec {pre rem post : List Tok} {tk : Tok} (h : Apart pre rem post) (hm : tk ∈ rem) :
    place (pre ++ rem ++ post, lastId pre) tk =
      (pre ++ [trim tk] ++ rem.filter (·.id ≠ tk.id) ++ post, lastId (pre ++ [trim tk])) := by
  have hf : (pre ++ rem ++ post).filter (·.id ≠ tk.id) = pre ++ (rem.filter (·.id ≠ tk.id) ++ post) := by
    rw [List.filter_append, List.filter_append, List.append_assoc]
    congr 1
    · rw [List.filter_eq_self]
      intro x hx; simpa using h.pre_rem x hx tk hm
    · congr 1
      rw [List.filter_eq_self]
      intro x hx; simpa using fun e => h.rem_post tk hm x hx e.symm
  unfold place
  dsimp only
  rw [hf, lastId_concat, trim_id]
  congr 1
  cases e : lastId pre with
  | none =>
    have : pre = [] := by
      cases pre with
      | nil => rfl
      | cons a l => simp [lastId] at e
    subst this
    simp
  | some id =>
    dsimp only
    rw [insertAfter_last e h.pre_nodup]
    simp

theorem Apart.place {pre rem post : List Tok} {tk : Tok} (h : Apart pre rem post) (hm : tk ∈ rem) :
    Apart (pre ++ [trim tk]) (rem.filter (·.id ≠ tk.id)) post where
  pre_rem := by
    intro x hx y hy
    rw [List.mem_filter] at hy
    rcases List.mem_append.mp hx with hx | hx
    · exact h.pre_rem x hx y hy.1
    · simp at hx; subst hx
      rw [trim_id]
      have := hy.2
      simp at this
      exact fun e => this e.symm
  rem_post := by
    intro x hx y hy
    exact h.rem_post x ((List.mem_filter.mp hx).1) y hy
  pre_nodup := by
    rw [List.map_append, List.nodup_append]
    refine ⟨h.pre_nodup, by simp, ?_⟩
    intro a ha b hb
    simp at hb
    subst hb
    obtain ⟨x, hx, rfl⟩ := List.mem_map.mp ha
    rw [trim_id]
    exact h.pre_rem x hx tk hm

theorem place_fold (g : List (Tok × Prio)) : ∀ {pre rem post : List Tok}, Apart pre rem post →
    (∀ x ∈ g, x.1 ∈ rem) → (g.map (·.1.id)).Nodup →
    g.foldl (fun pl x => place pl x.1) (pre ++ rem ++ post, lastId pre) =
      (pre ++ g.map (fun x => trim x.1) ++ rest rem g ++ post, lastId (pre ++ g.map (fun x => trim x.1)))
    ∧ Apart (pre ++ g.map (fun x => trim x.1)) (rest rem g) post := by
  induction g with
  | nil =>
    intro pre rem post h _ _
    have : rest rem [] = rem := by unfold rest; rw [List.filter_eq_self]; simp
    rw [this]
    simp only [List.foldl_nil, List.map_nil, List.append_nil]
    exact ⟨trivial, h⟩
  | cons x g ih =>
    intro pre rem post h hm nd
    rw [List.map_cons, List.nodup_cons] at nd
    have hx := hm x (by simp)
    have key := ih (h.place hx) (by
      intro y hy
      rw [List.mem_filter]
      refine ⟨hm y (by simp [hy]), ?_⟩
      simp only [ne_eq, decide_not, Bool.not_eq_eq_eq_not, Bool.not_true, decide_eq_false_iff_not]
      intro e
      exact nd.1 (List.mem_map.mpr ⟨y, hy, e⟩)) nd.2
    have er : rest (rem.filter (·.id ≠ x.1.id)) g = rest rem (x :: g) := by
      unfold rest
      rw [List.filter_filter]
      congr 1
      funext t
      rw [List.all_cons, Bool.and_comm]
    rw [er] at key
    rw [List.foldl_cons, place_spec h hx, List.map_cons]
    simp only [List.append_assoc, List.nil_append, List.cons_append] at key ⊢
    exact key

/-- The blank line made by `add_line`. -/
def blank (id : Nat) : Tok := { id, kind := .space, str := ['\n'] }

/-- The includes in the order of the groups, with the blank lines, and the next identity. -/
def arrange (regroup : Bool) (srt : List (Tok × Prio) → List (Tok × Prio)) :
    Nat → List (List (Tok × Prio)) → List Tok × Nat
  | f, [] => ([], f)
  | f, g :: gs =>
    match g.getLast? with
    | none => arrange regroup srt f gs
    | some last =>
      let o := (srt g).map fun x => trim x.1
      if regroup || hasLine last.1 then
        let r := arrange regroup srt (f + 1) gs
        (o ++ blank f :: r.1, r.2)
      else
        let r := arrange regroup srt f gs
        (o ++ r.1, r.2)

theorem arrange_le (regroup : Bool) (srt : List (Tok × Prio) → List (Tok × Prio))
    (gs : List (List (Tok × Prio))) : ∀ f, f ≤ (arrange regroup srt f gs).2 := by
  induction gs with
  | nil => intro f; exact Nat.le_refl _
  | cons g gs ih =>
    intro f
    rw [arrange]
    split
    · exact ih f
    · dsimp only
      split
      · have := ih (f + 1); dsimp only; omega
      · exact ih f

theorem arrange_ids {srt : List (Tok × Prio) → List (Tok × Prio)} (hs : IsSort srt) (regroup : Bool)
    (gs : List (List (Tok × Prio))) : ∀ f, ∀ x ∈ (arrange regroup srt f gs).1,
      (∃ g ∈ gs, ∃ y ∈ g, x.id = y.1.id) ∨ (f ≤ x.id ∧ x.id < (arrange regroup srt f gs).2) := by
  induction gs with
  | nil => intro f x hx; simp [arrange] at hx
  | cons g gs ih =>
    intro f x hx
    rw [arrange] at hx ⊢
    have lift : (∃ g ∈ gs, ∃ y ∈ g, x.id = y.1.id) → ∃ g' ∈ g :: gs, ∃ y ∈ g', x.id = y.1.id :=
      fun ⟨g', hg, h⟩ => ⟨g', by simp [hg], h⟩
    cases e : g.getLast? with
    | none =>
      rw [e] at hx
      dsimp only at hx ⊢
      exact (ih f x hx).imp_left lift
    | some last =>
      rw [e] at hx
      dsimp only at hx ⊢
      have mem : x ∈ (srt g).map (fun x => trim x.1) → ∃ g' ∈ g :: gs, ∃ y ∈ g', x.id = y.1.id := by
        intro hm
        obtain ⟨y, hy, rfl⟩ := List.mem_map.mp hm
        exact ⟨g, by simp, y, (hs g).1.mem_iff.mp hy, trim_id _⟩
      split at hx
      · next hd =>
        rw [if_pos hd]
        dsimp only at hx ⊢
        rcases List.mem_append.mp hx with hx | hx
        · exact Or.inl (mem hx)
        · rcases List.mem_cons.mp hx with rfl | hx
          · right
            have := arrange_le regroup srt gs (f + 1)
            simp only [blank]; omega
          · rcases ih (f + 1) x hx with h | h
            · exact Or.inl (lift h)
            · right; omega
      · next hd =>
        rw [if_neg hd]
        dsimp only at hx ⊢
        rcases List.mem_append.mp hx with hx | hx
        · exact Or.inl (mem hx)
        · exact (ih f x hx).imp_left lift

theorem rest_rest (rem : List Tok) (g h : List (Tok × Prio)) : rest (rest rem g) h = rest rem (g ++ h) := by
  unfold rest
  rw [List.filter_filter]
  congr 1
  funext t
  rw [List.all_append, Bool.and_comm]

theorem rest_perm {g h : List (Tok × Prio)} (p : g.Perm h) (rem : List Tok) : rest rem g = rest rem h := by
  unfold rest
  congr 1
  funext t
  rw [Bool.eq_iff_iff]
  simp only [List.all_eq_true]
  exact ⟨fun H x hx => H x (p.mem_iff.mpr hx), fun H x hx => H x (p.mem_iff.mp hx)⟩

theorem execGroups_spec {srt : List (Tok × Prio) → List (Tok × Prio)} (hs : IsSort srt) (regroup : Bool)
    (gs : List (List (Tok × Prio))) : ∀ {pre rem post : List Tok} {f : Nat}, Apart pre rem post →
    (∀ x ∈ pre, x.id < f) → (∀ x ∈ rem, x.id < f) →
    (∀ x ∈ gs.flatten, x.1 ∈ rem) → (gs.flatten.map (·.1.id)).Nodup →
    ∃ af, gs.foldl (execGroup regroup srt) ((pre ++ rem ++ post, lastId pre), f) =
      ((pre ++ (arrange regroup srt f gs).1 ++ rest rem gs.flatten ++ post, af),
        (arrange regroup srt f gs).2) ∧
      ((pre ++ (arrange regroup srt f gs).1).map (·.id)).Nodup := by
  induction gs with
  | nil =>
    intro pre rem post f h _ _ _ _
    refine ⟨lastId pre, ?_, ?_⟩
    · have : rest rem [] = rem := by unfold rest; rw [List.filter_eq_self]; simp
      simp [arrange, this]
    · simpa [arrange] using h.pre_nodup
  | cons g gs ih =>
    intro pre rem post f h hpre hrem hm nd
    rw [List.flatten_cons, List.map_append, List.nodup_append] at nd
    obtain ⟨nd1, nd2, nd3⟩ := nd
    rw [List.flatten_cons] at hm
    have pg := (hs g).1
    rw [List.foldl_cons, arrange, List.flatten_cons]
    cases e : g.getLast? with
    | none =>
      have : g = [] := by simpa using e
      subst this
      have e1 : execGroup regroup srt ((pre ++ rem ++ post, lastId pre), f) [] =
        ((pre ++ rem ++ post, lastId pre), f) := rfl
      rw [e1]
      dsimp only
      simp only [List.nil_append]
      exact ih h hpre hrem (fun x hx => hm x (by simpa using hx)) nd2
    | some last =>
      obtain ⟨pf, hA⟩ := place_fold (srt g) h
        (fun x hx => hm x (List.mem_append_left _ (pg.mem_iff.mp hx)))
        ((pg.map (·.1.id)).nodup_iff.mpr nd1)
      have inRest : ∀ x ∈ gs.flatten, x.1 ∈ rest rem (srt g) := by
        intro x hx
        unfold rest
        rw [List.mem_filter]
        refine ⟨hm x (List.mem_append_right _ hx), ?_⟩
        rw [List.all_eq_true]
        intro y hy
        rw [decide_eq_true_eq]
        intro e
        exact nd3 y.1.id (List.mem_map.mpr ⟨y, pg.mem_iff.mp hy, rfl⟩) x.1.id
          (List.mem_map.mpr ⟨x, hx, rfl⟩) e.symm
      have remLt : ∀ x ∈ rest rem (srt g), x.id < f := fun x hx => hrem x ((List.mem_filter.mp hx).1)
      have preLt : ∀ x ∈ pre ++ (srt g).map (fun x => trim x.1), x.id < f := by
        intro x hx
        rcases List.mem_append.mp hx with hx | hx
        · exact hpre x hx
        · obtain ⟨y, hy, rfl⟩ := List.mem_map.mp hx
          rw [trim_id]
          exact hrem _ (hm y (List.mem_append_left _ (pg.mem_iff.mp hy)))
      have sne : srt g ≠ [] := by
        intro e0
        rw [e0] at pg
        have := pg.length_eq
        cases g with
        | nil => simp at e
        | cons _ _ => simp at this
      dsimp only
      by_cases hd : (regroup || hasLine last.1) = true
      · rw [if_pos hd]
        have e1 : execGroup regroup srt ((pre ++ rem ++ post, lastId pre), f) g =
            ((pre ++ (srt g).map (fun x => trim x.1) ++ [blank f] ++ rest rem (srt g) ++ post,
              lastId (pre ++ (srt g).map (fun x => trim x.1) ++ [blank f])), f + 1) := by
          unfold execGroup
          rw [e]
          dsimp only
          rw [if_pos hd, pf]
          congr 1
          unfold addLine
          dsimp only
          cases el : lastId (pre ++ (srt g).map (fun x => trim x.1)) with
          | none =>
            exfalso
            cases es : srt g with
            | nil => exact sne es
            | cons a l => rw [es] at el; simp [lastId] at el
          | some id =>
            dsimp only
            rw [List.append_assoc _ (rest rem (srt g)) post, insertAfter_last el hA.pre_nodup, lastId_concat]
            rw [List.append_assoc _ (rest rem (srt g)) post]
            rfl
        rw [e1]
        have hA' : Apart (pre ++ (srt g).map (fun x => trim x.1) ++ [blank f]) (rest rem (srt g)) post := {
          pre_rem := by
            intro x hx y hy
            rcases List.mem_append.mp hx with hx | hx
            · exact hA.pre_rem x hx y hy
            · simp at hx; subst hx
              have := remLt y hy
              simp only [blank]; omega
          rem_post := hA.rem_post
          pre_nodup := by
            rw [List.map_append, List.nodup_append]
            refine ⟨hA.pre_nodup, by simp, ?_⟩
            intro a ha b hb
            simp only [List.map_cons, List.map_nil, List.mem_singleton] at hb
            subst hb
            obtain ⟨x, hx, rfl⟩ := List.mem_map.mp ha
            have := preLt x hx
            omega }
        obtain ⟨af, h1, h2⟩ := ih hA' (f := f + 1)
          (by
            intro x hx
            rcases List.mem_append.mp hx with hx | hx
            · have := preLt x hx; omega
            · simp at hx; subst hx; simp [blank])
          (fun x hx => Nat.lt_succ_of_lt (remLt x hx)) inRest nd2
        refine ⟨af, ?_, ?_⟩
        · rw [h1, rest_rest, rest_perm (pg.append_right _)]
          simp only [List.append_assoc, List.nil_append, List.cons_append]
        · simpa only [List.append_assoc, List.nil_append, List.cons_append] using h2
      · rw [if_neg hd]
        have e1 : execGroup regroup srt ((pre ++ rem ++ post, lastId pre), f) g =
            ((pre ++ (srt g).map (fun x => trim x.1) ++ rest rem (srt g) ++ post,
              lastId (pre ++ (srt g).map (fun x => trim x.1))), f) := by
          unfold execGroup
          rw [e]
          dsimp only
          rw [if_neg hd, pf]
        rw [e1]
        obtain ⟨af, h1, h2⟩ := ih hA preLt remLt inRest nd2
        refine ⟨af, ?_, ?_⟩
        · rw [h1, rest_rest, rest_perm (pg.append_right _)]
          simp only [List.append_assoc]
        · simpa only [List.append_assoc] using h2

/-! ## The first loop -/

/-- Whether an include that starts with `<` is mixed with one in quotes or with a slash. -/
def Mixed (nb nq ns : Nat) (tks : List Tok) : Prop :=
  (nb > 0 ∨ ∃ t ∈ tks, ∃ p, findpath t = some p ∧ p.head? = some '<') ∧
  (nq > 0 ∨ ns > 0 ∨ ∃ t ∈ tks, ∃ p, findpath t = some p ∧ (p.head? = some '"' ∨ '/' ∈ p))

theorem assign_none {cfg : Cfg} (hr : cfg.regroup = false) (tks : List Tok) :
    ∀ (first : Bool) (nb nq ns : Nat), ¬ (nb > 0 ∧ (nq > 0 ∨ ns > 0)) →
    (assign cfg first nb nq ns tks = none ↔
      (∃ t ∈ tks, findpath t = none) ∨ Mixed nb nq ns tks) := by
  induction tks with
  | nil =>
    intro first nb nq ns h
    simp [assign, Mixed]
    intro h1
    simp at h
    have := h h1
    omega
  | cons t tks ih =>
    intro first nb nq ns h
    rw [assign]
    cases e : findpath t with
    | none => simp [e]
    | some p =>
      dsimp only
      rw [if_neg (show ¬ cfg.regroup = true by simp [hr])]
      have key : Mixed nb nq ns (t :: tks) ↔
          Mixed (if p.head? = some '<' then nb + 1 else nb) (if p.head? = some '"' then nq + 1 else nq)
            (if '/' ∈ p then ns + 1 else ns) tks := by
        unfold Mixed
        simp only [List.mem_cons, exists_eq_or_imp, e, Option.some.injEq, exists_eq_left']
        by_cases h1 : p.head? = some '<' <;> by_cases h2 : p.head? = some '"' <;>
          by_cases h3 : '/' ∈ p <;> simp [h1, h2, h3]
      have none_iff : (∃ t' ∈ t :: tks, findpath t' = none) ↔ ∃ t' ∈ tks, findpath t' = none := by
        simp [e]
      rw [key, none_iff]
      generalize (if p.head? = some '<' then nb + 1 else nb) = nb'
      generalize (if p.head? = some '"' then nq + 1 else nq) = nq'
      generalize (if '/' ∈ p then ns + 1 else ns) = ns'
      by_cases hb : (decide (nb' > 0) && decide (nq' > 0) || decide (nb' > 0) && decide (ns' > 0)) = true
      · rw [if_pos hb]
        simp only [true_iff]
        right
        simp at hb
        unfold Mixed
        rcases hb with ⟨a, b⟩ | ⟨a, b⟩
        · exact ⟨Or.inl a, Or.inl b⟩
        · exact ⟨Or.inl a, Or.inr (Or.inl b)⟩
      · rw [if_neg hb, Option.map_eq_none_iff, ih]
        simp at hb
        rintro ⟨a, b | b⟩
        · have := hb.1 a; omega
        · have := hb.2 a; omega

theorem assign_none_regroup {cfg : Cfg} (hr : cfg.regroup = true) (tks : List Tok) :
    ∀ (first : Bool) (nb nq ns : Nat),
    (assign cfg first nb nq ns tks = none ↔ ∃ t ∈ tks, findpath t = none) := by
  induction tks with
  | nil => intro first nb nq ns; simp [assign]
  | cons t tks ih =>
    intro first nb nq ns
    rw [assign]
    cases e : findpath t with
    | none => simp [e]
    | some p =>
      dsimp only
      rw [if_pos hr, Option.map_eq_none_iff, ih]
      simp [e]

theorem assign_some {cfg : Cfg} (tks : List Tok) :
    ∀ (first : Bool) (nb nq ns : Nat) (ps : List (Tok × Prio)), assign cfg first nb nq ns tks = some ps →
    ps.map (·.1) = tks ∧ ∀ i x, ps[i]? = some x → ∃ p, findpath x.1 = some p ∧ x.2 =
      if cfg.regroup then (if isMain p cfg.path then {} else stylePriority cfg.categories p)
      else if (first && decide (i = 0)) && isMain p cfg.path then { sort := -1 } else {} := by
  induction tks with
  | nil =>
    intro first nb nq ns ps h
    simp [assign] at h; subst h; simp
  | cons t tks ih =>
    intro first nb nq ns ps h
    rw [assign] at h
    cases e : findpath t with
    | none => simp [e] at h
    | some p =>
      rw [e] at h
      dsimp only at h
      by_cases hr : cfg.regroup = true
      · rw [if_pos hr] at h
        obtain ⟨qs, hq, rfl⟩ := Option.map_eq_some_iff.mp h
        obtain ⟨h1, h2⟩ := ih _ _ _ _ _ hq
        refine ⟨by simp [h1], ?_⟩
        intro i x hx
        cases i with
        | zero => simp at hx; subst hx; exact ⟨p, e, by simp [hr]⟩
        | succ i =>
          rw [List.getElem?_cons_succ] at hx
          obtain ⟨p', hp, hx'⟩ := h2 i x hx
          refine ⟨p', hp, ?_⟩
          rw [hx', if_pos hr, if_pos hr]
      · rw [if_neg hr] at h
        generalize hb : (_ || _ : Bool) = bad at h
        cases bad
        · rw [if_neg (by decide)] at h
          obtain ⟨qs, hq, rfl⟩ := Option.map_eq_some_iff.mp h
          obtain ⟨h1, h2⟩ := ih _ _ _ _ _ hq
          refine ⟨by simp [h1], ?_⟩
          intro i x hx
          cases i with
          | zero => simp at hx; subst hx; exact ⟨p, e, by simp [hr]⟩
          | succ i =>
            rw [List.getElem?_cons_succ] at hx
            obtain ⟨p', hp, hx'⟩ := h2 i x hx
            refine ⟨p', hp, ?_⟩
            rw [hx', if_neg hr, if_neg hr]
            simp
        · simp at h

theorem assign_groups {cfg : Cfg} {tks : List Tok} {first : Bool} {nb nq ns : Nat}
    {ps : List (Tok × Prio)} (h : assign cfg first nb nq ns tks = some ps) :
    ∀ x ∈ ps, x.2.group ∈ groups cfg.categories := by
  intro x hx
  obtain ⟨i, hi⟩ := List.getElem?_of_mem hx
  obtain ⟨p, _, e⟩ := (assign_some tks _ _ _ _ _ h).2 i x hi
  have z : (0 : Int) ∈ groups cfg.categories := (mem_groups _ _).mpr (Or.inl rfl)
  rw [e]
  split
  · split
    · exact z
    · exact stylePriority_mem _ _
  · split <;> exact z

/-! ## The groups cover the block -/

theorem groups_perm (ps : List (Tok × Prio)) (G : List Int) (nd : G.Nodup) :
    (G.map fun g => ps.filter (·.2.group = g)).flatten.Perm (ps.filter fun x => decide (x.2.group ∈ G)) := by
  induction G with
  | nil => simp
  | cons g G ih =>
    rw [List.nodup_cons] at nd
    rw [List.map_cons, List.flatten_cons]
    refine ((ih nd.2).append_left _).trans ?_
    have e1 : ps.filter (·.2.group = g) =
        (ps.filter fun x => decide (x.2.group ∈ g :: G)).filter (·.2.group = g) := by
      rw [List.filter_filter]
      congr 1; funext x
      by_cases h : x.2.group = g <;> simp [h]
    have e2 : ps.filter (fun x => decide (x.2.group ∈ G)) =
        (ps.filter fun x => decide (x.2.group ∈ g :: G)).filter (fun x => !decide (x.2.group = g)) := by
      rw [List.filter_filter]
      congr 1; funext x
      by_cases h : x.2.group = g
      · have : g ∉ G := nd.1
        simp [h, this]
      · simp [h]
    rw [e1, e2]
    exact List.filter_append_perm _ _

theorem groups_perm_all {cfg : Cfg} {tks : List Tok} {first : Bool} {nb nq ns : Nat}
    {ps : List (Tok × Prio)} (h : assign cfg first nb nq ns tks = some ps) :
    ((groups cfg.categories).map fun g => ps.filter (·.2.group = g)).flatten.Perm ps := by
  have nd : (groups cfg.categories).Nodup :=
    (groups_sorted cfg.categories).imp (by intro a b hab; omega)
  have := groups_perm ps (groups cfg.categories) nd
  rwa [List.filter_eq_self.mpr] at this
  intro x hx
  simpa using assign_groups h x hx

/-- The lists of includes of the groups. -/
def groupLists (cfg : Cfg) (ps : List (Tok × Prio)) : List (List (Tok × Prio)) :=
  (groups cfg.categories).map fun g => ps.filter (·.2.group = g)

/-- Executing a block rearranges it and nothing else; it never uses a null pointer. -/
theorem exec_spec {cfg : Cfg} {srt : List (Tok × Prio) → List (Tok × Prio)} (hs : IsSort srt) {st : St}
    {pre incs post : List Tok} (hp : st.prefixes = pre ++ incs ++ post) (hi : st.includes = incs)
    (ha : incs = [] ∨ st.after = lastId pre) (hA : Apart pre incs post)
    (nd : (incs.map (·.id)).Nodup) (hlt : ∀ x ∈ pre ++ incs, x.id < st.fresh) :
    exec cfg srt st = some (
      if st.ignore = true ∨ incs.length < 2 then st
      else match assign cfg true 0 0 0 incs with
        | none => st
        | some ps => { st with
            prefixes := pre ++ (arrange cfg.regroup srt st.fresh (groupLists cfg ps)).1 ++ post
            fresh := (arrange cfg.regroup srt st.fresh (groupLists cfg ps)).2 }) ∧
    ∀ ps, assign cfg true 0 0 0 incs = some ps →
      ((pre ++ (arrange cfg.regroup srt st.fresh (groupLists cfg ps)).1).map (·.id)).Nodup := by
  have second : ∀ ps, assign cfg true 0 0 0 incs = some ps →
      ∃ af, (groupLists cfg ps).foldl (execGroup cfg.regroup srt) ((pre ++ incs ++ post, lastId pre), st.fresh) =
      ((pre ++ (arrange cfg.regroup srt st.fresh (groupLists cfg ps)).1 ++
        rest incs (groupLists cfg ps).flatten ++ post, af),
        (arrange cfg.regroup srt st.fresh (groupLists cfg ps)).2) ∧
      ((pre ++ (arrange cfg.regroup srt st.fresh (groupLists cfg ps)).1).map (·.id)).Nodup := by
    intro ps hps
    have hperm : (groupLists cfg ps).flatten.Perm ps := groups_perm_all hps
    have hmap := (assign_some incs _ _ _ _ _ hps).1
    apply execGroups_spec hs cfg.regroup (groupLists cfg ps) hA
    · exact fun x hx => hlt x (by simp [hx])
    · exact fun x hx => hlt x (by simp [hx])
    · intro x hx
      rw [← hmap]
      exact List.mem_map_of_mem (hperm.mem_iff.mp hx)
    · rw [(hperm.map (·.1.id)).nodup_iff]
      rw [← hmap, List.map_map] at nd
      exact nd
  refine ⟨?_, fun ps hps => (second ps hps).choose_spec.2⟩
  unfold exec
  rw [hi]
  by_cases h1 : st.ignore = true
  · rw [if_pos h1, if_pos (Or.inl h1)]
  · rw [if_neg h1]
    by_cases h2 : incs.length < 2
    · rw [if_pos h2, if_pos (Or.inr h2)]
    · rw [if_neg h2, if_neg (by simp [h1, h2])]
      cases e : assign cfg true 0 0 0 incs with
      | none => rfl
      | some ps =>
        dsimp only
        obtain ⟨af, hf, _⟩ := second ps e
        have hall : (ps.all fun p => decide (p.2.group ∈ groups cfg.categories)) = true := by
          rw [List.all_eq_true]
          intro x hx
          simpa using assign_groups e x hx
        rw [if_pos hall]
        have hne : incs ≠ [] := by intro h; rw [h] at h2; simp at h2
        have haft : st.after = lastId pre := ha.resolve_left hne
        have hrest : rest incs (groupLists cfg ps).flatten = [] := by
          rw [show (groupLists cfg ps).flatten = _ from rfl, rest_perm (show (groupLists cfg ps).flatten.Perm ps from groups_perm_all e)]
          unfold rest
          rw [List.filter_eq_nil_iff]
          intro t ht hall
          rw [List.all_eq_true] at hall
          rw [← (assign_some incs _ _ _ _ _ e).1] at ht
          obtain ⟨x, hx, rfl⟩ := List.mem_map.mp ht
          have := hall x hx
          simp at this
        rw [hrest] at hf
        rw [hp, haft]
        show some _ = _
        unfold groupLists at hf
        rw [hf]
        simp [groupLists]

end Knfmt.Include
