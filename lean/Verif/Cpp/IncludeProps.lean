import Verif.Cpp.IncludeExec
/-!
# Sorting includes does what it is supposed to do
-/
namespace Knfmt.Include

/-! ## The first loop and its specification -/

theorem hasPrio_of_assign {cfg : Cfg} {b : List Tok} {ps : List (Tok × Prio)}
    (hpl : ∀ t ∈ b, Plain t) (nd : (b.map (·.id)).Nodup) (h : assign cfg true 0 0 0 b = some ps) :
    ∀ x ∈ ps, Spec.HasPrio cfg b x.1 x.2 := by
  intro x hx
  obtain ⟨i, hi⟩ := List.getElem?_of_mem hx
  obtain ⟨hmap, hall⟩ := assign_some b _ _ _ _ _ h
  obtain ⟨p, hp, hr⟩ := hall i x hi
  have hbi : b[i]? = some x.1 := by rw [← hmap, List.getElem?_map, hi]; rfl
  have hmem : x.1 ∈ b := List.mem_of_getElem? hbi
  refine ⟨p, (findpath_spec (hpl _ hmem) p).mp hp, ?_⟩
  by_cases hg : cfg.regroup = true
  · rw [if_pos hg] at hr ⊢
    by_cases hm : isMain p cfg.path = true
    · rw [if_pos hm] at hr
      exact Or.inl ⟨(isMain_spec cfg p).mp hm, hr⟩
    · rw [if_neg hm] at hr
      exact Or.inr ⟨fun h' => hm ((isMain_spec cfg p).mpr h'), (stylePriority_spec _ _ _).mp hr.symm⟩
  · rw [if_neg hg] at hr ⊢
    have hhead : b.head? = some x.1 ↔ i = 0 := by
      rw [List.head?_eq_getElem?]
      constructor
      · intro h0
        have l0 : 0 < b.length := (List.getElem?_eq_some_iff.mp h0).1
        have li : i < b.length := (List.getElem?_eq_some_iff.mp hbi).1
        have e0 := (List.getElem?_eq_some_iff.mp h0).2
        have ei := (List.getElem?_eq_some_iff.mp hbi).2
        have hpw := List.pairwise_iff_getElem.mp nd
        rcases Nat.eq_zero_or_pos i with h | h
        · exact h
        · exfalso
          refine hpw 0 i (by simpa using l0) (by simpa using li) h ?_
          simp only [List.getElem_map]
          rw [ei, e0]
      · rintro rfl; exact hbi
    by_cases hc : i = 0 ∧ isMain p cfg.path = true
    · rw [if_pos (by simp [hc.1, hc.2])] at hr
      exact Or.inl ⟨hhead.mpr hc.1, (isMain_spec cfg p).mp hc.2, hr⟩
    · rw [if_neg (by simpa using fun h => fun h' => hc ⟨h, h'⟩)] at hr
      refine Or.inr ⟨?_, hr⟩
      rintro ⟨h1, h2⟩
      exact hc ⟨hhead.mp h1, (isMain_spec cfg p).mpr h2⟩

/-- The first loop goes on to the end if and only if the block is to be sorted. -/
theorem sortable_iff {cfg : Cfg} {b : List Tok} (hpl : ∀ t ∈ b, Plain t) :
    Spec.Sortable cfg b ↔
      ¬ ((cfg.diff && b.any (fun t => !t.diff)) = true ∨ b.length < 2) ∧
        ∃ ps, assign cfg true 0 0 0 b = some ps := by
  have hpath : (∀ t ∈ b, ∃ p, Spec.IsPath t.str p) ↔ ¬ ∃ t ∈ b, findpath t = none := by
    constructor
    · rintro h ⟨t, ht, e⟩
      obtain ⟨p, hp⟩ := h t ht
      rw [(findpath_spec (hpl t ht) p).mpr hp] at e
      simp at e
    · intro h t ht
      cases e : findpath t with
      | none => exact absurd ⟨t, ht, e⟩ h
      | some p => exact ⟨p, (findpath_spec (hpl t ht) p).mp e⟩
  have hdiff : (cfg.diff = true → ∀ t ∈ b, t.diff = true) ↔
      ¬ (cfg.diff && b.any (fun t => !t.diff)) = true := by
    simp
  have hmixed : Mixed 0 0 0 b ↔ ((∃ t ∈ b, ∃ p, Spec.IsPath t.str p ∧ p.head? = some '<') ∧
       (∃ t ∈ b, ∃ p, Spec.IsPath t.str p ∧ (p.head? = some '"' ∨ '/' ∈ p))) := by
    unfold Mixed
    simp only [Nat.lt_irrefl, gt_iff_lt, false_or]
    constructor
    · rintro ⟨⟨t, ht, p, hp, h⟩, ⟨t', ht', p', hp', h'⟩⟩
      exact ⟨⟨t, ht, p, (findpath_spec (hpl t ht) p).mp hp, h⟩,
        ⟨t', ht', p', (findpath_spec (hpl t' ht') p').mp hp', h'⟩⟩
    · rintro ⟨⟨t, ht, p, hp, h⟩, ⟨t', ht', p', hp', h'⟩⟩
      exact ⟨⟨t, ht, p, (findpath_spec (hpl t ht) p).mpr hp, h⟩,
        ⟨t', ht', p', (findpath_spec (hpl t' ht') p').mpr hp', h'⟩⟩
  have hsome : (∃ ps, assign cfg true 0 0 0 b = some ps) ↔ ¬ assign cfg true 0 0 0 b = none := by
    cases assign cfg true 0 0 0 b <;> simp
  unfold Spec.Sortable
  rw [hpath, hdiff, hsome, ← hmixed]
  cases hr : cfg.regroup with
  | true =>
    rw [assign_none_regroup hr]
    simp only [true_or, and_true]
    constructor
    · rintro ⟨h1, h2, h3⟩; exact ⟨fun h => h.elim h2 (by omega), h3⟩
    · rintro ⟨h1, h3⟩; exact ⟨by omega, fun h => h1 (Or.inl h), h3⟩
  | false =>
    rw [assign_none hr b true 0 0 0 (by simp)]
    simp only [Bool.false_eq_true, false_or]
    constructor
    · rintro ⟨h1, h2, h3, h4⟩
      exact ⟨fun h => h.elim h2 (by omega), fun h => h.elim h3 h4⟩
    · rintro ⟨h1, h3⟩
      exact ⟨by omega, fun h => h1 (Or.inl h), fun h => h3 (Or.inl h), fun h => h3 (Or.inr h)⟩

/-! ## The arrangement and its specification -/

/-- The groups of `arrange`. -/
def mkGroups (regroup : Bool) (srt : List (Tok × Prio) → List (Tok × Prio)) (ps : List (Tok × Prio)) :
    Nat → List Int → List Spec.Group
  | _, [] => []
  | f, k :: ks =>
    match (ps.filter (·.2.group = k)).getLast? with
    | none => mkGroups regroup srt ps f ks
    | some last =>
      { key := k, members := (srt (ps.filter (·.2.group = k))).map (·.1)
        sep := if regroup || hasLine last.1 then [blank f] else [] } ::
      mkGroups regroup srt ps (if regroup || hasLine last.1 then f + 1 else f) ks

theorem mkGroups_out (regroup : Bool) (srt : List (Tok × Prio) → List (Tok × Prio))
    (ps : List (Tok × Prio)) (ks : List Int) : ∀ f,
    (arrange regroup srt f (ks.map fun k => ps.filter (·.2.group = k))).1 =
      (mkGroups regroup srt ps f ks).flatMap (fun g => g.members.map Spec.unblank ++ g.sep) := by
  induction ks with
  | nil => intro f; rfl
  | cons k ks ih =>
    intro f
    rw [List.map_cons, arrange, mkGroups]
    cases e : (ps.filter (·.2.group = k)).getLast? with
    | none => dsimp only; exact ih f
    | some last =>
      dsimp only
      have et : (srt (ps.filter (·.2.group = k))).map (fun x => trim x.1) =
          ((srt (ps.filter (·.2.group = k))).map (·.1)).map Spec.unblank := by
        rw [List.map_map]
        apply List.map_congr_left
        intro x _
        exact trim_spec _
      by_cases hd : (regroup || hasLine last.1) = true
      · simp only [hd, if_true, List.flatMap_cons, ih, et, List.append_assoc, List.singleton_append]
      · simp only [hd, Bool.false_eq_true, if_false, List.flatMap_cons, ih, et, List.append_assoc,
          List.nil_append]

theorem mkGroups_perm {srt : List (Tok × Prio) → List (Tok × Prio)} (hs : IsSort srt) (regroup : Bool)
    (ps : List (Tok × Prio)) (ks : List Int) : ∀ f,
    ((mkGroups regroup srt ps f ks).flatMap (·.members)).Perm
      ((ks.map fun k => ps.filter (·.2.group = k)).flatten.map (·.1)) := by
  induction ks with
  | nil => intro f; exact List.Perm.refl _
  | cons k ks ih =>
    intro f
    rw [mkGroups, List.map_cons, List.flatten_cons, List.map_append]
    cases e : (ps.filter (·.2.group = k)).getLast? with
    | none =>
      have : ps.filter (·.2.group = k) = [] := by simpa using e
      rw [this]
      dsimp only
      exact ih f
    | some last =>
      dsimp only
      rw [List.flatMap_cons]
      exact ((hs _).1.map _).append (ih _)

theorem mkGroups_key {srt : List (Tok × Prio) → List (Tok × Prio)} (hs : IsSort srt) (regroup : Bool)
    (ps : List (Tok × Prio)) (ks : List Int) : ∀ f, ∀ g ∈ mkGroups regroup srt ps f ks,
    g.key ∈ ks ∧ g.members ≠ [] ∧ (∃ l : List (Tok × Prio), g.members = l.map (·.1) ∧
      (∀ x ∈ l, x ∈ ps ∧ x.2.group = g.key) ∧ l.Pairwise (fun a b => cmp a b ≠ .gt)) ∧
    ∃ last ∈ (ps.filter (·.2.group = g.key)).getLast?, ∃ f',
      g.sep = if regroup || hasLine last.1 then [blank f'] else [] := by
  induction ks with
  | nil => intro f g hg; simp [mkGroups] at hg
  | cons k ks ih =>
    intro f g hg
    rw [mkGroups] at hg
    cases e : (ps.filter (·.2.group = k)).getLast? with
    | none =>
      rw [e] at hg
      obtain ⟨h1, h2⟩ := ih f g hg
      exact ⟨by simp [h1], h2⟩
    | some last =>
      rw [e] at hg
      dsimp only at hg
      rcases List.mem_cons.mp hg with rfl | hg
      · refine ⟨by simp, ?_, ⟨_, rfl, ?_, (hs _).2⟩, ⟨last, by simp [e], f, rfl⟩⟩
        · intro h0
          have h1 := (hs (ps.filter (·.2.group = k))).1.length_eq
          have h2 : (srt (ps.filter (·.2.group = k))).length = 0 := by
            have := congrArg List.length h0
            simpa using this
          rw [h2] at h1
          have : ps.filter (·.2.group = k) = [] := List.eq_nil_of_length_eq_zero h1.symm
          rw [this] at e
          simp at e
        · intro x hx
          have := (hs _).1.mem_iff.mp hx
          rw [List.mem_filter] at this
          exact ⟨this.1, by simpa using this.2⟩
      · obtain ⟨h1, h2⟩ := ih _ g hg
        exact ⟨by simp [h1], h2⟩

theorem mkGroups_sorted {srt : List (Tok × Prio) → List (Tok × Prio)} (hs : IsSort srt) (regroup : Bool)
    (ps : List (Tok × Prio)) (ks : List Int) (hk : ks.Pairwise (· < ·)) : ∀ f,
    (mkGroups regroup srt ps f ks).Pairwise (fun g h => g.key < h.key) := by
  induction ks with
  | nil => intro f; simp [mkGroups]
  | cons k ks ih =>
    intro f
    obtain ⟨h1, h2⟩ := List.pairwise_cons.mp hk
    rw [mkGroups]
    split
    · exact ih h2 f
    · rw [List.pairwise_cons]
      refine ⟨?_, ih h2 _⟩
      intro g hg
      exact h1 _ (mkGroups_key hs regroup ps ks _ g hg).1

theorem arranged_of_assign {cfg : Cfg} {srt : List (Tok × Prio) → List (Tok × Prio)} (hs : IsSort srt)
    {b : List Tok} {ps : List (Tok × Prio)} (hpl : ∀ t ∈ b, Plain t) (nd : (b.map (·.id)).Nodup)
    (h : assign cfg true 0 0 0 b = some ps) (f : Nat) :
    Spec.Arranged cfg b (arrange cfg.regroup srt f (groupLists cfg ps)).1 := by
  have hprio := hasPrio_of_assign hpl nd h
  obtain ⟨hmap, hall⟩ := assign_some b _ _ _ _ _ h
  refine ⟨mkGroups cfg.regroup srt ps f (groups cfg.categories), mkGroups_out _ _ _ _ _, ?_,
    mkGroups_sorted hs _ _ _ (groups_sorted _) _, ?_⟩
  · refine (mkGroups_perm hs cfg.regroup ps (groups cfg.categories) f).trans ?_
    rw [← hmap]
    exact (groups_perm_all h).map _
  · intro g hg
    obtain ⟨_, hne, ⟨l, hl, hlm, hlp⟩, last, hlast, f', hsep⟩ := mkGroups_key hs cfg.regroup ps _ f g hg
    refine ⟨hne, ?_, ?_, ?_, ?_⟩
    · intro t ht
      rw [hl] at ht
      obtain ⟨x, hx, rfl⟩ := List.mem_map.mp ht
      exact ⟨x.2, hprio x (hlm x hx).1, (hlm x hx).2⟩
    · rw [hl, List.pairwise_map]
      apply List.Pairwise.imp_of_mem _ hlp
      intro x y hx hy hc
      have mem : ∀ z ∈ l, z.1 ∈ b := by
        intro z hz
        rw [← hmap]
        exact List.mem_map_of_mem (hlm z hz).1
      refine ⟨x.2, y.2, hprio x (hlm x hx).1, hprio y (hlm y hy).1, ?_⟩
      rw [cmp_ne_gt, texts_ne_gt (hpl _ (mem x hx)).2.2] at hc
      exact hc
    · intro hd
      by_cases hr : cfg.regroup = true
      · rw [hr] at hsep
        exact ⟨blank f', hsep, rfl, rfl⟩
      · -- all includes are in the only group
        obtain ⟨t, ht, hbl⟩ := hd.resolve_left hr
        have : last.1 = t := by
          have hzero : ∀ x ∈ ps, x.2.group = 0 := by
            intro x hx
            obtain ⟨i, hi⟩ := List.getElem?_of_mem hx
            obtain ⟨p, _, e⟩ := hall i x hi
            rw [if_neg hr] at e
            rw [e]; split <;> rfl
          have hk : g.key = 0 := by
            cases l with
            | nil => simp at hl; exact absurd hl hne
            | cons x l => rw [← (hlm x (by simp)).2]; exact hzero x (hlm x (by simp)).1
          rw [hk, List.filter_eq_self.mpr (by intro x hx; simpa using hzero x hx)] at hlast
          rw [← hmap, List.getLast?_map] at ht
          rw [Option.mem_def] at hlast ht
          rw [hlast] at ht
          simpa using ht
        rw [this, (hasLine_spec t).mpr hbl, Bool.or_true] at hsep
        exact ⟨blank f', hsep, rfl, rfl⟩
    · rintro ⟨hr, hnb⟩
      have hr' : ¬ cfg.regroup = true := by simp [hr]
      have hzero : ∀ x ∈ ps, x.2.group = 0 := by
        intro x hx
        obtain ⟨i, hi⟩ := List.getElem?_of_mem hx
        obtain ⟨p, _, e⟩ := hall i x hi
        rw [if_neg hr'] at e
        rw [e]; split <;> rfl
      have hk : g.key = 0 := by
        cases l with
        | nil => simp at hl; exact absurd hl hne
        | cons x l => rw [← (hlm x (by simp)).2]; exact hzero x (hlm x (by simp)).1
      rw [hk, List.filter_eq_self.mpr (by intro x hx; simpa using hzero x hx)] at hlast
      have hlb : last.1 ∈ b.getLast? := by
        rw [← hmap, List.getLast?_map]
        rw [Option.mem_def] at hlast ⊢
        rw [hlast]; rfl
      have : hasLine last.1 = false := by
        cases e : hasLine last.1 with
        | false => rfl
        | true => exact absurd ((hasLine_spec _).mp e) (hnb _ hlb)
      rw [hr, this] at hsep
      simpa using hsep

/-! ## The whole pass -/

/-- One block: what `cpp_include_exec` and `cpp_include_reset` do to it. -/
theorem block_spec {cfg : Cfg} {srt : List (Tok × Prio) → List (Tok × Prio)} (hs : IsSort srt) {st : St}
    {pre incs post : List Tok} (hp : st.prefixes = pre ++ incs ++ post) (hi : st.includes = incs)
    (ha : incs = [] ∨ st.after = lastId pre) (hA : Apart pre incs post)
    (nd : (incs.map (·.id)).Nodup) (hlt : ∀ x ∈ pre ++ incs, x.id < st.fresh)
    (hig : st.ignore = (cfg.diff && incs.any (fun t => !t.diff))) (hpl : ∀ t ∈ incs, Plain t) :
    ∃ o f, (exec cfg srt st).map reset = some
        { prefixes := pre ++ o ++ post, includes := [], after := none, ignore := false, fresh := f } ∧
      st.fresh ≤ f ∧ ((pre ++ o).map (·.id)).Nodup ∧
      (∀ x ∈ o, (∃ y ∈ incs, x.id = y.id) ∨ (st.fresh ≤ x.id ∧ x.id < f)) ∧
      ((¬ Spec.Sortable cfg incs ∧ o = incs) ∨ (Spec.Sortable cfg incs ∧ Spec.Arranged cfg incs o)) := by
  obtain ⟨he, hn⟩ := exec_spec hs (cfg := cfg) hp hi ha hA nd hlt
  have unchanged : ¬ Spec.Sortable cfg incs → exec cfg srt st = some st →
      ∃ o f, (exec cfg srt st).map reset = some
        { prefixes := pre ++ o ++ post, includes := [], after := none, ignore := false, fresh := f } ∧
      st.fresh ≤ f ∧ ((pre ++ o).map (·.id)).Nodup ∧
      (∀ x ∈ o, (∃ y ∈ incs, x.id = y.id) ∨ (st.fresh ≤ x.id ∧ x.id < f)) ∧
      ((¬ Spec.Sortable cfg incs ∧ o = incs) ∨ (Spec.Sortable cfg incs ∧ Spec.Arranged cfg incs o)) := by
    intro hns e
    refine ⟨incs, st.fresh, ?_, Nat.le_refl _, ?_, ?_, Or.inl ⟨hns, rfl⟩⟩
    · rw [e, ← hp]; rfl
    · rw [List.map_append, List.nodup_append]
      refine ⟨hA.pre_nodup, nd, ?_⟩
      intro a ha' b hb
      obtain ⟨x, hx, rfl⟩ := List.mem_map.mp ha'
      obtain ⟨y, hy, rfl⟩ := List.mem_map.mp hb
      exact hA.pre_rem x hx y hy
    · exact fun x hx => Or.inl ⟨x, hx, rfl⟩
  by_cases h1 : st.ignore = true ∨ incs.length < 2
  · rw [if_pos h1] at he
    refine unchanged ?_ he
    rw [sortable_iff hpl, ← hig]
    exact fun h => h.1 h1
  · rw [if_neg h1] at he
    cases ea : assign cfg true 0 0 0 incs with
    | none =>
      rw [ea] at he
      refine unchanged ?_ he
      rw [sortable_iff hpl, ea]
      simp
    | some ps =>
      rw [ea] at he
      dsimp only at he
      refine ⟨(arrange cfg.regroup srt st.fresh (groupLists cfg ps)).1,
        (arrange cfg.regroup srt st.fresh (groupLists cfg ps)).2, ?_, arrange_le _ _ _ _, hn ps ea, ?_, ?_⟩
      · rw [he]; rfl
      · intro x hx
        refine (arrange_ids hs cfg.regroup _ _ x hx).imp_left ?_
        rintro ⟨g, hg, y, hy, e⟩
        refine ⟨y.1, ?_, e⟩
        rw [← (assign_some incs _ _ _ _ _ ea).1]
        apply List.mem_map_of_mem
        apply (groups_perm_all ea).mem_iff.mp
        exact List.mem_flatten.mpr ⟨g, hg, hy⟩
      · right
        refine ⟨?_, arranged_of_assign hs hpl nd ea _⟩
        rw [sortable_iff hpl, ← hig]
        exact ⟨h1, ps, ea⟩

theorem output_block {cfg : Cfg} {b rest o out : List Tok} (hb : Spec.IsBlock cfg b rest)
    (h : (¬ Spec.Sortable cfg b ∧ o = b) ∨ (Spec.Sortable cfg b ∧ Spec.Arranged cfg b o))
    (hr : Spec.Output cfg rest out) : Spec.Output cfg (b ++ rest) (o ++ out) := by
  rcases h with ⟨h1, rfl⟩ | ⟨h1, h2⟩
  · exact .same hb h1 hr
  · exact .sorted hb h1 h2 hr

theorem run_spec {cfg : Cfg} {srt : List (Tok × Prio) → List (Tok × Prio)} (hs : IsSort srt)
    (he : cfg.enabled = true) (tks : List Tok) : ∀ {st : St} {out cur : List Tok},
    st.prefixes = out ++ cur → st.includes = cur → (cur = [] ∨ st.after = lastId out) →
    (∀ t ∈ cur, t.kind = .include) → (∀ t ∈ cur, cfg.regroup = true ∨ ¬ Spec.Blank t) →
    st.ignore = (cfg.diff && cur.any (fun t => !t.diff)) →
    (out.map (·.id)).Nodup → (∀ x ∈ out, ∀ y ∈ cur ++ tks, x.id ≠ y.id) →
    ((cur ++ tks).map (·.id)).Nodup → (∀ x ∈ out ++ (cur ++ tks), x.id < st.fresh) →
    (∀ t ∈ cur ++ tks, Plain t) →
    ∃ st' o, (tks.foldlM (add cfg srt) st).bind (leave cfg srt) = some st' ∧
      st'.prefixes = out ++ o ∧ Spec.Output cfg (cur ++ tks) o := by
  induction tks with
  | nil =>
    intro st out cur hp hi ha hk hb hig nd1 hd nd2 hlt hpl
    simp only [List.append_nil] at *
    have hA : Apart out cur [] := ⟨hd, by simp, nd1⟩
    obtain ⟨o, f, h1, h2, h3, h4, h5⟩ := block_spec hs (cfg := cfg) (post := []) (by simpa using hp) hi ha hA nd2 hlt hig hpl
    refine ⟨{ prefixes := out ++ o ++ [], includes := [], after := none, ignore := false, fresh := f }, o, ?_, ?_, ?_⟩
    · simp only [List.foldlM_nil]
      show leave cfg srt st = _
      unfold leave
      rw [if_pos he]
      exact h1
    · simp
    · cases cur with
      | nil =>
        have : ¬ Spec.Sortable cfg [] := fun h => by have := h.1; simp at this
        rcases h5 with ⟨_, rfl⟩ | ⟨h, _⟩
        · exact .nil
        · exact absurd h this
      | cons t cur =>
        have := output_block (cfg := cfg) (rest := []) (b := t :: cur) (out := [])
          ⟨by simp, hk, fun x hx => hb x (List.dropLast_subset _ hx), Or.inl (by simp)⟩ h5 .nil
        simpa using this
  | cons tk tks ih =>
    intro st out cur hp hi ha hk hb hig nd1 hd nd2 hlt hpl
    rw [List.foldlM_cons]
    have hadd : add cfg srt st tk =
        if tk.kind = .include then
          (if cfg.regroup || !hasLine tk then some { st with
              prefixes := st.prefixes ++ [tk]
              ignore := st.ignore || (cfg.diff && !tk.diff)
              after := if st.includes = [] then lastId st.prefixes else st.after
              includes := st.includes ++ [tk] }
          else (exec cfg srt { st with
              prefixes := st.prefixes ++ [tk]
              ignore := st.ignore || (cfg.diff && !tk.diff)
              after := if st.includes = [] then lastId st.prefixes else st.after
              includes := st.includes ++ [tk] }).map reset)
        else (exec cfg srt { st with prefixes := st.prefixes ++ [tk] }).map reset := by
      unfold add
      dsimp only
      rw [if_neg (by simp [he])]
      rfl
    rw [hadd]
    have eass : cur ++ tk :: tks = (cur ++ [tk]) ++ tks := by simp
    by_cases hinc : tk.kind = .include
    · rw [if_pos hinc]
      -- the state with the new include
      have hp' : st.prefixes ++ [tk] = out ++ (cur ++ [tk]) := by rw [hp]; simp
      have ha' : (if st.includes = [] then lastId st.prefixes else st.after) = lastId out := by
        rw [hi]
        by_cases hc : cur = []
        · rw [if_pos hc, hp, hc]; simp
        · rw [if_neg hc]; exact ha.resolve_left hc
      have hk' : ∀ t ∈ cur ++ [tk], t.kind = .include := by
        intro t ht
        rcases List.mem_append.mp ht with h | h
        · exact hk t h
        · simp at h; subst h; exact hinc
      have hig' : (st.ignore || (cfg.diff && !tk.diff)) =
          (cfg.diff && (cur ++ [tk]).any (fun t => !t.diff)) := by
        rw [hig, List.any_append]
        cases cfg.diff <;> simp
      by_cases hl : (cfg.regroup || !hasLine tk) = true
      · rw [if_pos hl]
        have hbl : ∀ t ∈ cur ++ [tk], cfg.regroup = true ∨ ¬ Spec.Blank t := by
          intro t ht
          rcases List.mem_append.mp ht with h | h
          · exact hb t h
          · simp at h; subst h
            rw [← hasLine_spec]
            simpa using hl
        rw [eass] at hd nd2 hlt hpl ⊢
        exact ih hp' (by rw [hi]) (Or.inr ha') hk' hbl hig' nd1 hd nd2 hlt hpl
      · rw [if_neg hl]
        simp at hl
        obtain ⟨hreg, hline⟩ := hl
        rw [eass] at hd nd2 hlt hpl ⊢
        have nd2' := nd2
        rw [List.map_append, List.nodup_append] at nd2'
        obtain ⟨n1, n2, n3⟩ := nd2'
        have hA : Apart out (cur ++ [tk]) [] :=
          ⟨fun x hx y hy => hd x hx y (List.mem_append_left _ hy), by simp, nd1⟩
        have hlt0 : ∀ x ∈ out ++ (cur ++ [tk]), x.id < st.fresh := by
          intro x hx
          apply hlt
          rw [← List.append_assoc]
          exact List.mem_append_left _ hx
        obtain ⟨o, f, h1, h2, h3, h4, h5⟩ := block_spec hs (cfg := cfg) (pre := out)
          (incs := cur ++ [tk]) (post := []) (st := { st with
              prefixes := st.prefixes ++ [tk]
              ignore := st.ignore || (cfg.diff && !tk.diff)
              after := if st.includes = [] then lastId st.prefixes else st.after
              includes := st.includes ++ [tk] })
          (by simpa using hp') (by rw [hi]) (Or.inr ha') hA n1 hlt0 hig'
          (fun t ht => hpl t (List.mem_append_left _ ht))
        rw [h1]
        have hnext := ih (st := { prefixes := out ++ o ++ [], includes := [], after := none, ignore := false, fresh := f })
          (out := out ++ o) (cur := []) (by simp) rfl (Or.inl rfl) (by simp) (by simp) (by simp) h3
          (by
            intro x hx y hy
            rw [List.nil_append] at hy
            rcases List.mem_append.mp hx with hx | hx
            · exact hd x hx y (List.mem_append_right _ hy)
            · rcases h4 x hx with ⟨z, hz, e⟩ | ⟨e, _⟩
              · rw [e]
                exact n3 z.id (List.mem_map_of_mem hz) y.id (List.mem_map_of_mem hy)
              · have := hlt y (List.mem_append_right _ (List.mem_append_right _ hy))
                dsimp only at e
                omega)
          (by simpa using n2)
          (by
            intro x hx
            dsimp only at h2 h4 ⊢
            rw [List.nil_append] at hx
            rcases List.mem_append.mp hx with hx | hx
            · rcases List.mem_append.mp hx with hx | hx
              · have := hlt x (List.mem_append_left _ hx); omega
              · rcases h4 x hx with ⟨z, hz, e⟩ | ⟨_, e⟩
                · have := hlt z (List.mem_append_right _ (List.mem_append_left _ hz)); omega
                · exact e
            · have := hlt x (List.mem_append_right _ (List.mem_append_right _ hx)); omega)
          (fun t ht => hpl t (List.mem_append_right _ (by simpa using ht)))
        obtain ⟨st', o', e1, e2, e3⟩ := hnext
        refine ⟨st', o ++ o', e1, by rw [e2]; simp, ?_⟩
        refine output_block ⟨by simp, hk', ?_, Or.inr ⟨hreg, tk, by simp, (hasLine_spec tk).mp hline⟩⟩ h5
          (by simpa using e3)
        intro t ht
        rw [List.dropLast_concat] at ht
        exact hb t ht
    · rw [if_neg hinc]
      have nd2' := nd2
      rw [List.map_append, List.map_cons, List.nodup_append, List.nodup_cons] at nd2'
      obtain ⟨n1, ⟨n2a, n2⟩, n3⟩ := nd2'
      have hA : Apart out cur [tk] := by
        refine ⟨fun x hx y hy => hd x hx y (List.mem_append_left _ hy), ?_, nd1⟩
        intro x hx y hy
        simp at hy; subst hy
        exact n3 x.id (List.mem_map_of_mem hx) y.id (by simp)
      obtain ⟨o, f, h1, h2, h3, h4, h5⟩ := block_spec hs (cfg := cfg) (pre := out)
        (incs := cur) (post := [tk]) (st := { st with prefixes := st.prefixes ++ [tk] })
        (by rw [hp]) hi ha hA n1
        (by
          intro x hx
          apply hlt
          rw [← List.append_assoc]
          exact List.mem_append_left _ hx) hig
        (fun t ht => hpl t (List.mem_append_left _ ht))
      rw [h1]
      have hnext := ih (st := { prefixes := out ++ o ++ [tk], includes := [], after := none, ignore := false, fresh := f })
        (out := out ++ o ++ [tk]) (cur := []) (by simp) rfl (Or.inl rfl) (by simp) (by simp) (by simp)
        (by
          rw [List.map_append, List.nodup_append]
          refine ⟨h3, by simp, ?_⟩
          intro a ha' b hb'
          simp at hb'
          subst hb'
          obtain ⟨x, hx, rfl⟩ := List.mem_map.mp ha'
          rcases List.mem_append.mp hx with hx | hx
          · exact hd x hx tk (by simp)
          · rcases h4 x hx with ⟨z, hz, e⟩ | ⟨e, _⟩
            · rw [e]
              exact n3 z.id (List.mem_map_of_mem hz) tk.id (by simp)
            · have := hlt tk (by simp)
              dsimp only at e
              omega)
        (by
          intro x hx y hy
          rw [List.nil_append] at hy
          rcases List.mem_append.mp hx with hx | hx
          · rcases List.mem_append.mp hx with hx | hx
            · exact hd x hx y (by simp [hy])
            · rcases h4 x hx with ⟨z, hz, e⟩ | ⟨e, _⟩
              · rw [e]
                exact n3 z.id (List.mem_map_of_mem hz) y.id (by simp only [List.mem_cons]; right; exact List.mem_map_of_mem hy)
              · have := hlt y (by simp [hy])
                dsimp only at e
                omega
          · simp at hx; subst hx
            intro e
            apply n2a
            rw [e]
            exact List.mem_map_of_mem hy)
        (by simpa using n2)
        (by
          intro x hx
          dsimp only at h2 h4 ⊢
          rw [List.nil_append] at hx
          rcases List.mem_append.mp hx with hx | hx
          · rcases List.mem_append.mp hx with hx | hx
            · rcases List.mem_append.mp hx with hx | hx
              · have := hlt x (List.mem_append_left _ hx); omega
              · rcases h4 x hx with ⟨z, hz, e⟩ | ⟨_, e⟩
                · have := hlt z (List.mem_append_right _ (List.mem_append_left _ hz)); omega
                · exact e
            · simp at hx; subst hx
              have := hlt x (by simp); omega
          · have := hlt x (by simp [hx]); omega)
        (fun t ht => hpl t (by simp at ht ⊢; right; right; exact ht))
      obtain ⟨st', o', e1, e2, e3⟩ := hnext
      refine ⟨st', o ++ tk :: o', e1, by rw [e2]; simp, ?_⟩
      have hrest : Spec.Output cfg (tk :: tks) (tk :: o') := .other hinc (by simpa using e3)
      cases cur with
      | nil =>
        have : ¬ Spec.Sortable cfg [] := fun h => by have := h.1; simp at this
        rcases h5 with ⟨_, rfl⟩ | ⟨h, _⟩
        · exact hrest
        · exact absurd h this
      | cons t cur =>
        refine output_block ⟨by simp, hk, fun x hx => hb x (List.dropLast_subset _ hx), Or.inl ?_⟩ h5 hrest
        intro x hx
        simp at hx; subst hx; exact hinc

/-- Sorting includes never fails, and its output is the one specified: every prefix that is
not an include and every block that must not be sorted stays as it is, and every other block
is permuted, group by group in ascending order and in order within a group. Missing: a
directive that contains NUL or is directly followed by a closing delimiter. -/
theorem sort_includes_partial (cfg : Cfg) (he : cfg.enabled = true)
    (srt : List (Tok × Prio) → List (Tok × Prio)) (hs : IsSort srt) (tks : List Tok) (fresh : Nat)
    (nd : (tks.map (·.id)).Nodup) (hlt : ∀ t ∈ tks, t.id < fresh) (hpl : ∀ t ∈ tks, Plain t) :
    ∃ st, run cfg srt tks fresh = some st ∧ Spec.Output cfg tks st.prefixes := by
  obtain ⟨st, o, h1, h2, h3⟩ := run_spec hs he tks (st := { fresh }) (out := []) (cur := []) rfl rfl
    (Or.inl rfl) (by simp) (by simp) (by simp) (by simp) (by simp) (by simpa using nd) (by simpa using hlt)
    (by simpa using hpl)
  refine ⟨st, h1, ?_⟩
  rw [h2]
  simpa using h3

/-- Nothing changes if the pass is not enabled. -/
theorem sort_includes_disabled (cfg : Cfg) (he : cfg.enabled = false)
    (srt : List (Tok × Prio) → List (Tok × Prio)) (tks : List Tok) (fresh : Nat) :
    ∃ st, run cfg srt tks fresh = some st ∧ st.prefixes = tks := by
  have key : ∀ (tks : List Tok) (st : St), ∃ st', (tks.foldlM (add cfg srt) st).bind (leave cfg srt) = some st' ∧
      st'.prefixes = st.prefixes ++ tks := by
    intro tks
    induction tks with
    | nil => intro st; exact ⟨st, by simp [leave, he], by simp⟩
    | cons t tks ih =>
      intro st
      obtain ⟨st', h1, h2⟩ := ih { st with prefixes := st.prefixes ++ [t] }
      refine ⟨st', ?_, by rw [h2]; simp⟩
      rw [List.foldlM_cons]
      have : add cfg srt st t = some { st with prefixes := st.prefixes ++ [t] } := by
        unfold add; simp [he]
      rw [this]
      exact h1
  obtain ⟨st, h1, h2⟩ := key tks { fresh }
  exact ⟨st, h1, by simpa using h2⟩

/-! ## Consequences -/

theorem isPath_unique {s p q : List Char} (h0 : '\x00' ∉ s) (hp : Spec.IsPath s p) (hq : Spec.IsPath s q) :
    p = q := by
  have h1 := (findpath_spec (t := { id := 0, kind := .include, str := s }) ⟨by simp, by simp, h0⟩ p).mpr hp
  have h2 := (findpath_spec (t := { id := 0, kind := .include, str := s }) ⟨by simp, by simp, h0⟩ q).mpr hq
  rw [h1] at h2
  simpa using h2

/-- Unless blocks are regrouped, the main include stays first if it was first. -/
theorem main_include_first {cfg : Cfg} {b o : List Tok} {t : Tok} {p : List Char}
    (hr : cfg.regroup = false) (h0 : '\x00' ∉ t.str) (ht : b.head? = some t) (hp : Spec.IsPath t.str p)
    (hm : Spec.Main cfg p) (ha : Spec.Arranged cfg b o) : o.head? = some (Spec.unblank t) := by
  obtain ⟨gs, rfl, hperm, hsort, hall⟩ := ha
  have hzero : ∀ u r, Spec.HasPrio cfg b u r → r.group = 0 := by
    rintro u r ⟨q, _, h⟩
    rw [if_neg (by simp [hr])] at h
    rcases h with ⟨_, _, rfl⟩ | ⟨_, rfl⟩ <;> rfl
  have hkey : ∀ g ∈ gs, g.key = 0 := by
    intro g hg
    obtain ⟨hne, hk, _⟩ := hall g hg
    obtain ⟨u, hu⟩ := List.exists_mem_of_ne_nil _ hne
    obtain ⟨r, h1, h2⟩ := hk u hu
    rw [← h2]; exact hzero u r h1
  have htb : t ∈ b := by
    cases b with
    | nil => simp at ht
    | cons x b => simp at ht; simp [ht]
  match gs, hsort, hkey, hperm, hall with
  | [], _, _, hperm, _ => simp at hperm; subst hperm; simp at htb
  | g :: h :: gs, hsort, hkey, _, _ =>
    have h1 := (List.pairwise_cons.mp hsort).1 h (by simp)
    rw [hkey g (by simp), hkey h (by simp)] at h1
    omega
  | [g], _, _, hperm, hall =>
    obtain ⟨hne, _, hpw, _⟩ := hall g (by simp)
    have hmem : t ∈ g.members := by
      have := hperm.mem_iff.mpr htb
      simpa using this
    cases e : g.members with
    | nil => exact absurd e hne
    | cons m l =>
      rw [e] at hpw hmem
      have hmt : m = t := by
        rcases List.mem_cons.mp hmem with h | h
        · exact h.symm
        · obtain ⟨r, s, ⟨q, hq, hR⟩, ⟨q', hq', hS⟩, hcmp⟩ := (List.pairwise_cons.mp hpw).1 t h
          rw [if_neg (by simp [hr])] at hR hS
          have := isPath_unique h0 hp hq'
          subst this
          have hs1 : s.sort = -1 := by
            rcases hS with ⟨_, _, rfl⟩ | ⟨hn, _⟩
            · rfl
            · exact absurd ⟨ht, hm⟩ hn
          rcases hR with ⟨hm', _, _⟩ | ⟨_, rfl⟩
          · rw [ht] at hm'; injection hm' with h; exact h.symm
          · exfalso
            rcases hcmp with h | ⟨h, _⟩
            · dsimp only at h; omega
            · dsimp only at h; omega
      subst hmt
      simp [e]

/-! ## Examples -/

private def inc (id : Nat) (s : String) : Tok := { id, kind := .include, str := s.toList }

/-- A block is sorted, and one that mixes system includes with others is not. -/
example : (run {} qsort [inc 0 "#include <b.h>\n", inc 1 "#include <a.h>\n\n",
    inc 2 "#include <d.h>\n", inc 3 "#include \"c.h\"\n"] 9).map
      (fun st => st.prefixes.map (fun t => String.ofList t.str)) =
    some ["#include <a.h>\n", "#include <b.h>\n", "\n", "#include <d.h>\n", "#include \"c.h\"\n"] := by
  decide +kernel

/-- Its hypotheses hold. -/
example : ∀ t ∈ [inc 0 "#include <b.h>\n", inc 1 "#include <a.h>\n\n"], Plain t := by
  intro t ht
  simp only [List.mem_cons, List.not_mem_nil, or_false] at ht
  rcases ht with rfl | rfl <;> exact ⟨by decide, by decide, by decide⟩

/-- Blocks are regrouped by category. -/
example : (run { regroup := true, path := "b.c".toList, categories := [
      { isMatch := fun p => p.head? == some '<', priority := ⟨1, 1⟩ },
      { isMatch := fun _ => true, priority := ⟨2, 2⟩ }] } qsort
    [inc 0 "#include <b.h>\n\n", inc 1 "#include \"z.h\"\n", inc 2 "#include <a.h>\n",
      inc 3 "#include \"b.h\"\n"] 9).map (fun st => st.prefixes.map (fun t => String.ofList t.str)) =
    some ["#include \"b.h\"\n", "\n", "#include <a.h>\n", "#include <b.h>\n", "\n",
      "#include \"z.h\"\n", "\n"] := by
  decide +kernel

/-- The search for the closing delimiter of a path reads the byte after the directive, so
that a block in which an include has no path is sorted. -/
theorem sort_includes_fails : ∃ (cfg : Cfg) (tks : List Tok) (st : St),
    (tks.map (·.id)).Nodup ∧ (∀ t ∈ tks, t.kind = .include ∧ t.id < 9 ∧ '\x00' ∉ t.str) ∧
    IsSort qsort ∧ run cfg qsort tks 9 = some st ∧ ¬ Spec.Sortable cfg tks ∧ st.prefixes ≠ tks := by
  refine ⟨{}, [inc 0 "#include \"z.h\"\n", { inc 1 "#include \"\n" with next := some '"' }],
    { prefixes := [{ inc 1 "#include \"\n" with next := some '"' }, inc 0 "#include \"z.h\"\n"], fresh := 9 },
    by decide, by decide, isSort_qsort, by decide +kernel, ?_, by decide +kernel⟩
  intro h
  obtain ⟨p, hp⟩ := h.2.2.1 { inc 1 "#include \"\n" with next := some '"' } (by simp)
  have hp' := (findpath_spec (t := inc 1 "#include \"\n") ⟨by decide, by decide, by decide⟩ p).mpr hp
  have : findpath (inc 1 "#include \"\n") = none := by decide +kernel
  rw [this] at hp'
  simp at hp'

end Knfmt.Include
