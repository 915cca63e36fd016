import Verif.Cpp.IncludeProps
/-!
# Sorting includes a second time changes nothing (C80)

The output of the first run is read again by the second one. A blank line after an include is then part of its
text.
-/
namespace Knfmt.Include

open Knfmt.Include.Spec (IsPath Main CategoryPrio HasPrio Blank unblank IsBlock Sortable Before Group Arranged Output)

namespace Spec

/-- The text that is printed for prefixes. -/
def text (ts : List Tok) : List Char := ts.flatMap (·.str)

/-- What is known of a prefix in the next run. -/
abbrev Look := Kind × List Char × Bool

def look (t : Tok) : Look := (t.kind, t.str, t.diff)

/-- The prefixes as they are read again: up to two line feeds after a directive are part of it,
clang.c:1215-1219. -/
def again : List Tok → List Look
  | [] => []
  | [t] => [look t]
  | t :: s :: ts =>
    if t.kind = .include ∧ s.kind = .space then (t.kind, t.str ++ s.str, t.diff) :: again ts
    else look t :: again (s :: ts)

/-- A directive on a line of its own, maybe with a blank line after it. -/
def OneLine (t : Tok) : Prop := ∃ u, '\n' ∉ u ∧ (t.str = u ++ ['\n'] ∨ t.str = u ++ ['\n', '\n'])

/-- What is read by the lexer, with every directive on a line of its own. -/
def Read (ts : List Tok) : Prop :=
  (ts.map (·.id)).Nodup ∧ ∀ t ∈ ts, t.kind ≠ .space ∧ '\x00' ∉ t.str ∧ (t.kind = .include → OneLine t)

end Spec

open Spec (text Look look again OneLine Read)

/-! ## Texts -/

/-- The order of texts. -/
def le (a b : List Char) : Prop := a < b ∨ a = b

theorem le_antisymm {a b : List Char} (h1 : le a b) (h2 : le b a) : a = b := by
  rcases h1 with h1 | h1
  · rcases h2 with h2 | h2
    · exact absurd (List.lt_trans h1 h2) (List.lt_irrefl _)
    · exact h2.symm
  · exact h1

theorem le_cons {a b : Char} {s t : List Char} : le (a :: s) (b :: t) ↔ a < b ∨ (a = b ∧ le s t) := by
  unfold le
  rw [List.cons_lt_cons_iff, List.cons.injEq]
  constructor
  · rintro ((h | ⟨rfl, h⟩) | ⟨rfl, h⟩)
    · exact Or.inl h
    · exact Or.inr ⟨rfl, Or.inl h⟩
    · exact Or.inr ⟨rfl, Or.inr h⟩
  · rintro (h | ⟨rfl, h | h⟩)
    · exact Or.inl (Or.inl h)
    · exact Or.inl (Or.inr ⟨rfl, h⟩)
    · exact Or.inr ⟨rfl, h⟩

theorem le_line {u v e1 e2 : List Char} (hu : '\n' ∉ u) (hv : '\n' ∉ v) (h : le (u ++ '\n' :: e1) (v ++ '\n' :: e2)) :
    le (u ++ ['\n']) (v ++ ['\n']) := by
  induction u generalizing v with
  | nil =>
    cases v with
    | nil => exact Or.inr rfl
    | cons c v =>
      simp only [List.nil_append, List.cons_append] at h ⊢
      rw [le_cons] at h ⊢
      rcases h with h | ⟨h, -⟩
      · exact Or.inl h
      · exact absurd (by rw [h]; simp) hv
  | cons a u ih =>
    cases v with
    | nil =>
      simp only [List.nil_append, List.cons_append] at h ⊢
      rw [le_cons] at h ⊢
      rcases h with h | ⟨h, -⟩
      · exact Or.inl h
      · exact absurd (by simp [h]) hu
    | cons c v =>
      simp only [List.cons_append] at h ⊢
      rw [le_cons] at h ⊢
      rcases h with h | ⟨h, h'⟩
      · exact Or.inl h
      · exact Or.inr ⟨h, ih (fun hm => hu (List.mem_cons_of_mem _ hm)) (fun hm => hv (List.mem_cons_of_mem _ hm)) h'⟩

/-- The text without a blank line. -/
def core (t : Tok) : List Char := (unblank t).str

theorem blank_iff {u : List Char} (hu : '\n' ∉ u) : ¬ ['\n', '\n'] <:+ u ++ ['\n'] := by
  rintro ⟨p, e⟩
  have e' : (p ++ ['\n']) ++ ['\n'] = u ++ ['\n'] := by rw [← e]; simp
  have := List.append_cancel_right e'
  exact hu (by rw [← this]; simp)

theorem core_line {t : Tok} (h : OneLine t) :
    ∃ u, '\n' ∉ u ∧ core t = u ++ ['\n'] ∧ ((¬ Blank t ∧ t.str = core t) ∨ (Blank t ∧ t.str = core t ++ ['\n'])) := by
  obtain ⟨u, hu, h | h⟩ := h
  · have hb : ¬ Blank t := by unfold Blank; rw [h]; exact blank_iff hu
    have hc : core t = t.str := by unfold core unblank; rw [if_neg hb]
    exact ⟨u, hu, by rw [hc, h], Or.inl ⟨hb, hc.symm⟩⟩
  · have hb : Blank t := by unfold Blank; rw [h]; exact ⟨u, rfl⟩
    have hc : core t = u ++ ['\n'] := by
      unfold core unblank; rw [if_pos hb]; dsimp only; rw [h]
      rw [show u ++ ['\n', '\n'] = (u ++ ['\n']) ++ ['\n'] by simp, List.dropLast_concat]
    exact ⟨u, hu, hc, Or.inr ⟨hb, by rw [hc, h]; simp⟩⟩

theorem core_mono {t s : Tok} (ht : OneLine t) (hs : OneLine s) (h : le t.str s.str) : le (core t) (core s) := by
  obtain ⟨u, hu, h1, h2⟩ := core_line ht
  obtain ⟨v, hv, k1, k2⟩ := core_line hs
  rw [h1, k1]
  have e1 : ∃ e, t.str = u ++ '\n' :: e := by
    rcases h2 with ⟨-, h⟩ | ⟨-, h⟩
    · exact ⟨[], by rw [h, h1]⟩
    · exact ⟨['\n'], by rw [h, h1]; simp⟩
  have e2 : ∃ e, s.str = v ++ '\n' :: e := by
    rcases k2 with ⟨-, h⟩ | ⟨-, h⟩
    · exact ⟨[], by rw [h, k1]⟩
    · exact ⟨['\n'], by rw [h, k1]; simp⟩
  obtain ⟨e1, e1'⟩ := e1
  obtain ⟨e2, e2'⟩ := e2
  rw [e1', e2'] at h
  exact le_line hu hv h

theorem isPath_snoc {s p : List Char} : IsPath (s ++ ['\n']) p ↔ IsPath s p := by
  have hb : ∀ (a : List Char) {c : Char} (x b : List Char), c ≠ '\n' → s ++ ['\n'] = a ++ (x ++ [c]) ++ b →
      ∃ b', b = b' ++ ['\n'] ∧ s = a ++ (x ++ [c]) ++ b' := by
    intro a c x b hc e
    rcases List.eq_nil_or_concat b with rfl | ⟨b', d, rfl⟩
    · rw [List.append_nil, ← List.append_assoc] at e
      have := List.append_inj' e rfl
      simp only [List.cons.injEq, and_true] at this
      exact absurd this.2.symm hc
    · rw [List.concat_eq_append] at e ⊢
      rw [← List.append_assoc] at e
      have := List.append_inj' e rfl
      simp only [List.cons.injEq, and_true] at this
      exact ⟨b', by rw [this.2], this.1⟩
  unfold IsPath
  constructor
  · rintro (⟨a, x, b, h1, h2, h3, h4⟩ | ⟨h0, a, x, b, h1, h2, h3, h4⟩)
    · rw [h4] at h3
      obtain ⟨b', -, e⟩ := hb a ('"' :: x) b (by decide) h3
      exact Or.inl ⟨a, x, b', h1, h2, by rw [h4]; exact e, h4⟩
    · rw [h4] at h3
      obtain ⟨b', -, e⟩ := hb a ('<' :: x) b (by decide) h3
      exact Or.inr ⟨fun hm => h0 (by simp [hm]), a, x, b', h1, h2, by rw [h4]; exact e, h4⟩
  · rintro (⟨a, x, b, h1, h2, h3, h4⟩ | ⟨h0, a, x, b, h1, h2, h3, h4⟩)
    · exact Or.inl ⟨a, x, b ++ ['\n'], h1, h2, by rw [h3]; simp, h4⟩
    · exact Or.inr ⟨by simpa using h0, a, x, b ++ ['\n'], h1, h2, by rw [h3]; simp, h4⟩

theorem isPath_core {t : Tok} {p : List Char} (h : OneLine t) : IsPath t.str p ↔ IsPath (core t) p := by
  obtain ⟨u, -, -, ⟨-, e⟩ | ⟨-, e⟩⟩ := core_line h
  · rw [e]
  · rw [e, isPath_snoc]

theorem core_nul {t : Tok} (h : '\x00' ∉ t.str) : '\x00' ∉ core t := by
  unfold core unblank
  split
  · exact fun hm => h (List.dropLast_subset _ hm)
  · exact h

/-! ## Groups are unique -/

theorem chunks_unique {α : Type} (G : α → Int) : ∀ {L M : List (Int × List α)},
    (∀ p ∈ L, p.2 ≠ [] ∧ ∀ x ∈ p.2, G x = p.1) → (∀ p ∈ M, p.2 ≠ [] ∧ ∀ x ∈ p.2, G x = p.1) →
    L.Pairwise (fun p q => p.1 < q.1) → M.Pairwise (fun p q => p.1 < q.1) →
    L.flatMap (·.2) = M.flatMap (·.2) → L = M := by
  have hfil : ∀ {p : Int × List α} {L : List (Int × List α)}, (∀ q ∈ p :: L, q.2 ≠ [] ∧ ∀ x ∈ q.2, G x = q.1) →
      (p :: L).Pairwise (fun p q => p.1 < q.1) →
      ((p :: L).flatMap (·.2)).filter (fun x => decide (G x = p.1)) = p.2 := by
    intro p L h1 h2
    rw [List.flatMap_cons, List.filter_append, List.filter_eq_self.mpr, List.filter_eq_nil_iff.mpr, List.append_nil]
    · intro x hx
      obtain ⟨q, hq, hx⟩ := List.mem_flatMap.mp hx
      have := (h1 q (by simp [hq])).2 x hx
      have hlt := (List.pairwise_cons.mp h2).1 q hq
      simp; omega
    · intro x hx
      simpa using (h1 p (by simp)).2 x hx
  intro L
  induction L with
  | nil =>
    intro M _ hM _ _ e
    cases M with
    | nil => rfl
    | cons q M =>
      exfalso
      rw [List.flatMap_nil, List.flatMap_cons] at e
      exact (hM q (by simp)).1 (List.append_eq_nil_iff.mp e.symm).1
  | cons p L ih =>
    intro M hL hM sL sM e
    cases M with
    | nil =>
      exfalso
      rw [List.flatMap_nil, List.flatMap_cons] at e
      exact (hL p (by simp)).1 (List.append_eq_nil_iff.mp e).1
    | cons q M =>
      have hk : p.1 = q.1 := by
        have hp := hL p (by simp)
        have hq := hM q (by simp)
        obtain ⟨x, l, ex⟩ := List.exists_cons_of_ne_nil hp.1
        obtain ⟨y, m, ey⟩ := List.exists_cons_of_ne_nil hq.1
        rw [List.flatMap_cons, List.flatMap_cons, ex, ey] at e
        simp only [List.cons_append, List.cons.injEq] at e
        rw [← hp.2 x (by simp [ex]), ← hq.2 y (by simp [ey]), e.1]
      have h2 : p.2 = q.2 := by
        rw [← hfil hL sL, ← hfil hM sM, e, hk]
      have hpq : p = q := Prod.ext hk h2
      subst hpq
      rw [List.flatMap_cons, List.flatMap_cons] at e
      rw [ih (fun r hr => hL r (by simp [hr])) (fun r hr => hM r (by simp [hr]))
        (List.pairwise_cons.mp sL).2 (List.pairwise_cons.mp sM).2 (List.append_cancel_left e)]

/-! ## Priorities depend on the text only -/

/-- The priority of a text when blocks are regrouped. -/
def Ranked (cfg : Cfg) (c : List Char) (r : Prio) : Prop :=
  ∃ p, IsPath c p ∧ ((Main cfg p ∧ r = ⟨0, 0⟩) ∨ (¬ Main cfg p ∧ CategoryPrio cfg.categories p r))

theorem ranked_unique {cfg : Cfg} {c : List Char} {r s : Prio} (h0 : '\x00' ∉ c) (h1 : Ranked cfg c r)
    (h2 : Ranked cfg c s) : r = s := by
  obtain ⟨p, hp, h1⟩ := h1
  obtain ⟨q, hq, h2⟩ := h2
  have := isPath_unique h0 hp hq
  subst this
  rcases h1 with ⟨h, rfl⟩ | ⟨h, h1⟩
  · rcases h2 with ⟨-, rfl⟩ | ⟨h', -⟩
    · rfl
    · exact absurd h h'
  · rcases h2 with ⟨h', -⟩ | ⟨-, h2⟩
    · exact absurd h' h
    · rw [← (stylePriority_spec _ _ _).mpr h1, ← (stylePriority_spec _ _ _).mpr h2]

open Classical in
/-- The priority. -/
noncomputable def rank (cfg : Cfg) (c : List Char) : Prio := if h : ∃ r, Ranked cfg c r then h.choose else {}

theorem rank_eq {cfg : Cfg} {c : List Char} {r : Prio} (h0 : '\x00' ∉ c) (h : Ranked cfg c r) : rank cfg c = r := by
  unfold rank
  rw [dif_pos ⟨r, h⟩]
  exact ranked_unique h0 (Exists.choose_spec (⟨r, h⟩ : ∃ r, Ranked cfg c r)) h

theorem hasPrio_rank {cfg : Cfg} (hr : cfg.regroup = true) {b : List Tok} {t : Tok} {r : Prio} (ht : OneLine t)
    (h0 : '\x00' ∉ t.str) (h : HasPrio cfg b t r) : rank cfg (core t) = r := by
  obtain ⟨p, hp, h⟩ := h
  rw [if_pos hr] at h
  exact rank_eq (core_nul h0) ⟨p, (isPath_core ht).mp hp, h⟩

/-! ## A block that is regrouped -/

/-- What is known of the members of a block. -/
def Good (t : Tok) : Prop := t.kind = .include ∧ '\x00' ∉ t.str ∧ OneLine t

/-- The order of a block that is regrouped. -/
def InOrder (cfg : Cfg) (c d : List Char) : Prop :=
  (rank cfg c).group < (rank cfg d).group ∨ ((rank cfg c).group = (rank cfg d).group ∧
    ((rank cfg c).sort < (rank cfg d).sort ∨ ((rank cfg c).sort = (rank cfg d).sort ∧ le c d)))

theorem inOrder_antisymm {cfg : Cfg} {c d : List Char} (h1 : InOrder cfg c d) (h2 : InOrder cfg d c) : c = d := by
  unfold InOrder at h1 h2
  rcases h1 with h1 | ⟨e1, h1 | ⟨e1', h1⟩⟩ <;> rcases h2 with h2 | ⟨e2, h2 | ⟨e2', h2⟩⟩ <;>
    first | (exfalso; omega; done) | exact le_antisymm h1 h2

/-- The groups, with texts only. -/
def strip (gs : List Group) : List (Int × List (List Char)) := gs.map fun g => (g.key, g.members.map core)

theorem strip_flat (gs : List Group) : (strip gs).flatMap (·.2) = (gs.flatMap (·.members)).map core := by
  unfold strip
  induction gs with
  | nil => rfl
  | cons g gs ih => simp [List.flatMap_cons, ih]

theorem regrouped {cfg : Cfg} (hr : cfg.regroup = true) {b o : List Tok} (hb : ∀ t ∈ b, Good t)
    {gs : List Group} (ho : o = gs.flatMap (fun g => g.members.map unblank ++ g.sep))
    (hp : (gs.flatMap (·.members)).Perm b) (hs : gs.Pairwise (fun g h => g.key < h.key))
    (hg : ∀ g ∈ gs, g.members ≠ [] ∧ (∀ t ∈ g.members, ∃ r, HasPrio cfg b t r ∧ r.group = g.key) ∧
      g.members.Pairwise (Before cfg b) ∧
      (cfg.regroup = true ∨ (∃ t ∈ b.getLast?, Blank t) → ∃ s, g.sep = [s] ∧ s.kind = .space ∧ s.str = ['\n']) ∧
      (cfg.regroup = false ∧ (∀ t ∈ b.getLast?, ¬ Blank t) → g.sep = [])) :
    text o = (strip gs).flatMap (fun p => p.2.flatten ++ ['\n']) ∧
    (∀ p ∈ strip gs, p.2 ≠ [] ∧ ∀ x ∈ p.2, (rank cfg x).group = p.1) ∧
    (strip gs).Pairwise (fun p q => p.1 < q.1) ∧ ((strip gs).flatMap (·.2)).Pairwise (InOrder cfg) := by
  have hmem : ∀ g ∈ gs, ∀ t ∈ g.members, Good t := by
    intro g hg' t ht
    exact hb t (hp.mem_iff.mp (List.mem_flatMap.mpr ⟨g, hg', ht⟩))
  have hkey : ∀ g ∈ gs, ∀ t ∈ g.members, (rank cfg (core t)).group = g.key := by
    intro g hg' t ht
    obtain ⟨r, h1, h2⟩ := (hg g hg').2.1 t ht
    obtain ⟨-, h0, h1'⟩ := hmem g hg' t ht
    rw [hasPrio_rank hr h1' h0 h1, h2]
  refine ⟨?_, ?_, ?_, ?_⟩
  · subst ho
    clear hs hp
    induction gs with
    | nil => rfl
    | cons g gs ih =>
      have ih := ih (fun g h => hg g (by simp [h])) (fun g h => hmem g (by simp [h])) (fun g h => hkey g (by simp [h]))
      obtain ⟨s, hs, -, hs'⟩ := (hg g (by simp)).2.2.2.1 (Or.inl hr)
      unfold text at ih ⊢
      rw [show strip (g :: gs) = (g.key, g.members.map core) :: strip gs from rfl, List.flatMap_cons, List.flatMap_append,
        ih, List.flatMap_cons]
      congr 1
      rw [List.flatMap_append, hs]
      simp only [List.flatMap_cons, List.flatMap_nil, List.append_nil, hs']
      congr 1
      rw [List.flatMap_map, List.flatMap_def]
      rfl
  · intro p hp'
    obtain ⟨g, hg', rfl⟩ := List.mem_map.mp hp'
    refine ⟨?_, ?_⟩
    · intro e
      exact (hg g hg').1 (List.map_eq_nil_iff.mp e)
    · intro x hx
      obtain ⟨t, ht, rfl⟩ := List.mem_map.mp hx
      exact hkey g hg' t ht
  · unfold strip
    rw [List.pairwise_map]
    exact hs
  · unfold strip
    rw [List.flatMap_map, List.pairwise_flatMap]
    refine ⟨?_, ?_⟩
    · intro g hg'
      dsimp only
      rw [List.pairwise_map]
      refine (hg g hg').2.2.1.imp_of_mem ?_
      rintro t u ht hu ⟨r, s, h1, h2, h3⟩
      obtain ⟨-, a0, a1⟩ := hmem g hg' t ht
      obtain ⟨-, b0, b1⟩ := hmem g hg' u hu
      have e1 := hasPrio_rank hr a1 a0 h1
      have e2 := hasPrio_rank hr b1 b0 h2
      refine Or.inr ⟨by rw [hkey g hg' t ht, hkey g hg' u hu], ?_⟩
      rw [e1, e2]
      rcases h3 with h3 | ⟨h3, h4⟩
      · exact Or.inl h3
      · exact Or.inr ⟨h3, core_mono a1 b1 h4⟩
    · refine hs.imp_of_mem ?_
      intro g h hg' hh hlt x hx y hy
      obtain ⟨t, ht, rfl⟩ := List.mem_map.mp hx
      obtain ⟨u, hu, rfl⟩ := List.mem_map.mp hy
      left
      rw [hkey g hg' t ht, hkey h hh u hu]
      exact hlt

theorem arranged_twice_regroup {cfg : Cfg} (hr : cfg.regroup = true) {b o b2 o2 : List Tok} (hb : ∀ t ∈ b, Good t)
    (hb2 : ∀ t ∈ b2, Good t) {gs : List Group} (ho : o = gs.flatMap (fun g => g.members.map unblank ++ g.sep))
    (hp : (gs.flatMap (·.members)).Perm b) (hs : gs.Pairwise (fun g h => g.key < h.key))
    (hg : ∀ g ∈ gs, g.members ≠ [] ∧ (∀ t ∈ g.members, ∃ r, HasPrio cfg b t r ∧ r.group = g.key) ∧
      g.members.Pairwise (Before cfg b) ∧
      (cfg.regroup = true ∨ (∃ t ∈ b.getLast?, Blank t) → ∃ s, g.sep = [s] ∧ s.kind = .space ∧ s.str = ['\n']) ∧
      (cfg.regroup = false ∧ (∀ t ∈ b.getLast?, ¬ Blank t) → g.sep = []))
    (hc : b2.map core = (gs.flatMap (·.members)).map core) (h2 : Arranged cfg b2 o2) : text o2 = text o := by
  obtain ⟨gs2, ho2, hp2, hs2, hg2⟩ := h2
  obtain ⟨a1, a2, a3, a4⟩ := regrouped hr hb ho hp hs hg
  obtain ⟨c1, c2, c3, c4⟩ := regrouped hr hb2 ho2 hp2 hs2 hg2
  have hperm : ((strip gs2).flatMap (·.2)).Perm ((strip gs).flatMap (·.2)) := by
    rw [strip_flat, strip_flat, ← hc]
    exact hp2.map core
  have heq := List.Perm.eq_of_pairwise (le := InOrder cfg) (fun a b _ _ h1 h2 => inOrder_antisymm h1 h2) c4 a4 hperm
  have := chunks_unique (fun c => (rank cfg c).group) c2 a2 c3 a3 heq
  rw [a1, c1, this]

/-! ## A block that is not regrouped -/

theorem hasPrio_zero {cfg : Cfg} (hr : cfg.regroup = false) {b : List Tok} {t : Tok} {r : Prio} (h : HasPrio cfg b t r) :
    r.group = 0 := by
  obtain ⟨p, -, h⟩ := h
  rw [if_neg (by simp [hr])] at h
  rcases h with ⟨-, -, rfl⟩ | ⟨-, rfl⟩ <;> rfl

/-- There is one group. -/
theorem arranged_one {cfg : Cfg} (hr : cfg.regroup = false) {b o : List Tok} (hb : b ≠ []) (h : Arranged cfg b o) :
    ∃ (M sep : List Tok), o = M.map unblank ++ sep ∧ M.Perm b ∧ M.Pairwise (Before cfg b) ∧
      ((∃ t ∈ b.getLast?, Blank t) → ∃ s, sep = [s] ∧ s.kind = .space ∧ s.str = ['\n']) ∧
      ((∀ t ∈ b.getLast?, ¬ Blank t) → sep = []) := by
  obtain ⟨gs, ho, hp, hs, hg⟩ := h
  have hkey : ∀ g ∈ gs, g.key = 0 := by
    intro g hg'
    obtain ⟨hne, hk, -⟩ := hg g hg'
    obtain ⟨u, hu⟩ := List.exists_mem_of_ne_nil _ hne
    obtain ⟨r, h1, h2⟩ := hk u hu
    rw [← h2]; exact hasPrio_zero hr h1
  match gs, hs, hkey, hp, hg, ho with
  | [], _, _, hp, _, _ =>
    simp only [List.flatMap_nil] at hp
    exact absurd hp.nil_eq.symm hb
  | g :: h :: gs, hs, hkey, _, _, _ =>
    have h1 := (List.pairwise_cons.mp hs).1 h (by simp)
    rw [hkey g (by simp), hkey h (by simp)] at h1
    omega
  | [g], _, _, hp, hg, ho =>
    obtain ⟨-, -, h3, h4, h5⟩ := hg g (by simp)
    exact ⟨g.members, g.sep, by simpa using ho, by simpa using hp, h3, fun h => h4 (Or.inr h), fun h => h5 ⟨hr, h⟩⟩

/-- The first one of the block is the main include. -/
def HeadMain (cfg : Cfg) (b : List Tok) : Prop := ∃ t p, b.head? = some t ∧ IsPath t.str p ∧ Main cfg p

theorem before_le {cfg : Cfg} (hr : cfg.regroup = false) {b : List Tok} {t u : Tok} (ht : Good t) (hu : Good u)
    (hn : ¬ (b.head? = some t ∧ HeadMain cfg b)) (h : Before cfg b t u) : le (core t) (core u) := by
  obtain ⟨r, s, ⟨p, hp, h1⟩, ⟨q, hq, h2⟩, h3⟩ := h
  rw [if_neg (by simp [hr])] at h1 h2
  have e1 : r = ⟨0, 0⟩ := by
    rcases h1 with ⟨h, hm, -⟩ | ⟨-, e⟩
    · exact absurd ⟨h, t, p, h, hp, hm⟩ hn
    · exact e
  subst e1
  rcases h3 with h3 | ⟨-, h3⟩
  · exfalso
    rcases h2 with ⟨-, -, rfl⟩ | ⟨-, rfl⟩ <;> simp at h3
  · exact core_mono ht.2.2 hu.2.2 h3

/-- The first one is the smallest one, or stays in front. -/
theorem sorted_block {cfg : Cfg} (hr : cfg.regroup = false) {b M : List Tok} (hb : ∀ t ∈ b, Good t) (hd : b.Nodup)
    (hp : M.Perm b) (hs : M.Pairwise (Before cfg b)) :
    (¬ HeadMain cfg b → (M.map core).Pairwise le) ∧
    (HeadMain cfg b → ∃ t R, b.head? = some t ∧ M = t :: R ∧ R.Perm b.tail ∧ (R.map core).Pairwise le) := by
  have hM : ∀ t ∈ M, Good t := fun t ht => hb t (hp.mem_iff.mp ht)
  constructor
  · intro hn
    rw [List.pairwise_map]
    exact hs.imp_of_mem fun ht hu h => before_le hr (hM _ ht) (hM _ hu) (fun h => hn h.2) h
  · rintro ⟨t, p, h1, h2, h3⟩
    obtain ⟨b', rfl⟩ : ∃ b', b = t :: b' := by
      cases b with
      | nil => simp at h1
      | cons x b' => simp at h1; exact ⟨b', by rw [h1]⟩
    have hmem : t ∈ M := hp.mem_iff.mpr (by simp)
    have h0 : '\x00' ∉ t.str := (hb t (by simp)).2.1
    cases M with
    | nil => simp at hmem
    | cons m R =>
      have hmt : m = t := by
        rcases List.mem_cons.mp hmem with h | h
        · exact h.symm
        · obtain ⟨r, s, ⟨q, hq, hR⟩, ⟨q', hq', hS⟩, hcmp⟩ := (List.pairwise_cons.mp hs).1 t h
          rw [if_neg (by simp [hr])] at hR hS
          have := isPath_unique h0 h2 hq'
          subst this
          have hs1 : s.sort = -1 := by
            rcases hS with ⟨-, -, rfl⟩ | ⟨hn, -⟩
            · rfl
            · exact absurd ⟨rfl, h3⟩ hn
          rcases hR with ⟨hm', -, -⟩ | ⟨-, rfl⟩
          · simp only [List.head?_cons, Option.some.injEq] at hm'; exact hm'.symm
          · exfalso
            rcases hcmp with h | ⟨h, -⟩
            · dsimp only at h; omega
            · dsimp only at h; omega
      subst hmt
      have hperm : R.Perm b' := List.Perm.cons_inv hp
      refine ⟨m, R, rfl, rfl, hperm, ?_⟩
      rw [List.pairwise_map]
      refine (List.pairwise_cons.mp hs).2.imp_of_mem fun {x y} hx hy h =>
        before_le hr (hM _ (by simp [hx])) (hM _ (by simp [hy])) (fun hh => ?_) h
      have : m = x := by simpa using hh.1
      subst this
      exact (List.nodup_cons.mp hd).1 (hperm.mem_iff.mp hx)

theorem headMain_core {cfg : Cfg} {b : List Tok} (hb : ∀ t ∈ b, Good t) :
    HeadMain cfg b ↔ ∃ c p, (b.map core).head? = some c ∧ IsPath c p ∧ Main cfg p := by
  unfold HeadMain
  cases b with
  | nil => simp
  | cons t b =>
    have ht := (hb t (by simp)).2.2
    constructor
    · rintro ⟨u, p, h1, h2, h3⟩
      simp only [List.head?_cons, Option.some.injEq] at h1
      subst h1
      exact ⟨core t, p, rfl, (isPath_core ht).mp h2, h3⟩
    · rintro ⟨c, p, h1, h2, h3⟩
      simp only [List.map_cons, List.head?_cons, Option.some.injEq] at h1
      subst h1
      exact ⟨t, p, rfl, (isPath_core ht).mpr h2, h3⟩

theorem pairwise_tail {α : Type} {R : α → α → Prop} {l : List α} (h : l.Pairwise R) : l.tail.Pairwise R := by
  cases l with
  | nil => exact h
  | cons a l => exact (List.pairwise_cons.mp h).2

theorem arranged_twice_same {cfg : Cfg} (hr : cfg.regroup = false) {b M b2 M2 : List Tok} (hb : ∀ t ∈ b, Good t)
    (hb2 : ∀ t ∈ b2, Good t) (hd : b.Nodup) (hd2 : b2.Nodup) (hp : M.Perm b) (hs : M.Pairwise (Before cfg b))
    (hc : b2.map core = M.map core) (hp2 : M2.Perm b2) (hs2 : M2.Pairwise (Before cfg b2)) :
    M2.map core = M.map core := by
  obtain ⟨a1, a2⟩ := sorted_block hr hb hd hp hs
  obtain ⟨c1, c2⟩ := sorted_block hr hb2 hd2 hp2 hs2
  have hM : ∀ t ∈ M, Good t := fun t ht => hb t (hp.mem_iff.mp ht)
  have hperm : (M2.map core).Perm (M.map core) := by rw [← hc]; exact hp2.map core
  have hanti : ∀ (x y : List Char), le x y → le y x → x = y := fun x y => le_antisymm
  by_cases h2 : HeadMain cfg b2
  · obtain ⟨t2, R2, k1, rfl, k3, k4⟩ := c2 h2
    have htail : (M.map core).tail.Pairwise le := by
      by_cases h1 : HeadMain cfg b
      · obtain ⟨t, R, -, rfl, -, j4⟩ := a2 h1
        exact j4
      · exact pairwise_tail (a1 h1)
    rw [List.map_cons]
    have hhead : (M.map core).head? = some (core t2) := by
      rw [← hc, List.head?_map, k1]; rfl
    have hR : R2.map core = (M.map core).tail := by
      refine List.Perm.eq_of_pairwise (le := le) (fun x y _ _ => hanti x y) k4 htail ?_
      have := k3.map core
      rwa [List.map_tail, hc] at this
    rw [hR]
    cases hM' : M.map core with
    | nil => rw [hM'] at hhead; cases hhead
    | cons c l =>
      rw [hM'] at hhead
      simp only [List.head?_cons, Option.some.injEq] at hhead
      rw [hhead]; rfl
  · have h1 : ¬ HeadMain cfg b := by
      intro h1
      obtain ⟨t, R, j1, rfl, -, -⟩ := a2 h1
      apply h2
      rw [headMain_core hb2, hc]
      have := (headMain_core hb).mp h1
      obtain ⟨c, p, e1, e2, e3⟩ := this
      rw [List.head?_map, j1] at e1
      exact ⟨c, p, e1, e2, e3⟩
    exact List.Perm.eq_of_pairwise (le := le) (fun x y _ _ => hanti x y) (c1 h2) (a1 h1) hperm

/-! ## Reading again -/

/-- What does not depend on blank lines. -/
def desc (t : Tok) : List Char × Bool := (core t, t.diff)

theorem read_plain {t t2 : Tok} (h : Good t) (hk : t2.kind = .include) (e : t2.str = core t) (hd : t2.diff = t.diff) :
    Good t2 ∧ ¬ Blank t2 ∧ desc t2 = desc t := by
  obtain ⟨u, hu, h1, -⟩ := core_line h.2.2
  have hb : ¬ Blank t2 := by unfold Blank; rw [e, h1]; exact blank_iff hu
  have hc : core t2 = core t := by unfold core unblank at e ⊢; rw [if_neg hb]; exact e
  refine ⟨⟨hk, by rw [e]; exact core_nul h.2.1, u, hu, Or.inl (by rw [e, h1])⟩, hb, ?_⟩
  unfold desc
  rw [hc, hd]

theorem read_blank {t t2 : Tok} (h : Good t) (hk : t2.kind = .include) (e : t2.str = core t ++ ['\n'])
    (hd : t2.diff = t.diff) : Good t2 ∧ Blank t2 ∧ desc t2 = desc t := by
  obtain ⟨u, hu, h1, -⟩ := core_line h.2.2
  have hb : Blank t2 := by unfold Blank; rw [e, h1]; exact ⟨u, by simp⟩
  have hc : core t2 = core t := by
    unfold core at e ⊢
    rw [show unblank t2 = { t2 with str := t2.str.dropLast } from if_pos hb]
    dsimp only
    rw [e, List.dropLast_concat]
  refine ⟨⟨hk, ?_, u, hu, Or.inr (by rw [e, h1]; simp)⟩, hb, ?_⟩
  · rw [e]
    have := core_nul h.2.1
    simpa using this
  · unfold desc
    rw [hc, hd]

theorem again_cons {t : Tok} {rest : List Tok} (h : t.kind ≠ .include ∨ ∀ s ∈ rest.head?, s.kind ≠ .space) :
    again (t :: rest) = look t :: again rest := by
  cases rest with
  | nil => rfl
  | cons s rest =>
    rw [again, if_neg]
    rintro ⟨h1, h2⟩
    rcases h with h | h
    · exact h h1
    · exact h s rfl h2

theorem again_append {a rest : List Tok} (ha : ∀ t ∈ a, t.kind ≠ .space) (h : ∀ s ∈ rest.head?, s.kind ≠ .space) :
    again (a ++ rest) = a.map look ++ again rest := by
  induction a with
  | nil => rfl
  | cons t a ih =>
    rw [List.cons_append, again_cons, ih (fun t ht => ha t (by simp [ht]))]
    · rfl
    · right
      cases a with
      | nil => exact h
      | cons x a => intro s hs; simp at hs; subst hs; exact ha x (by simp)

theorem again_head (l : List Tok) : (again l).head?.map (·.1) = l.head?.map (·.kind) := by
  cases l with
  | nil => rfl
  | cons t l =>
    cases l with
    | nil => rfl
    | cons s l =>
      unfold again
      split <;> rfl

theorem unblank_kind (t : Tok) : (unblank t).kind = t.kind := by unfold unblank; split <;> rfl
theorem unblank_diff (t : Tok) : (unblank t).diff = t.diff := by unfold unblank; split <;> rfl

theorem look_cons {B : List Tok} {l : Look} {X : List Look} (h : B.map look = l :: X) :
    ∃ t B', B = t :: B' ∧ look t = l ∧ B'.map look = X := by
  cases B with
  | nil => cases h
  | cons t B =>
    simp only [List.map_cons, List.cons.injEq] at h
    exact ⟨t, B, rfl, h.1, h.2⟩

/-- What the members of a group are read as. -/
theorem again_group {ms sep rest : List Tok} (hm : ms ≠ []) (hg : ∀ t ∈ ms, Good t)
    (hsep : (sep = [] ∧ ∀ s ∈ rest.head?, s.kind ≠ .space) ∨ ∃ s, sep = [s] ∧ s.kind = .space ∧ s.str = ['\n']) :
    ∃ X, again (ms.map unblank ++ sep ++ rest) = X ++ again rest ∧ ∀ B : List Tok, B.map look = X →
      B ≠ [] ∧ (∀ t ∈ B, Good t) ∧ B.map desc = ms.map desc ∧ (∀ t ∈ B.dropLast, ¬ Blank t) ∧
      ((∃ t ∈ B.getLast?, Blank t) ↔ sep ≠ []) := by
  induction ms with
  | nil => exact absurd rfl hm
  | cons t ms ih =>
    cases ms with
    | nil =>
      have ht := hg t (by simp)
      have hk : (unblank t).kind = .include := (unblank_kind t).trans ht.1
      rcases hsep with ⟨rfl, hs⟩ | ⟨s, rfl, hs1, hs2⟩
      · refine ⟨[look (unblank t)], ?_, ?_⟩
        · simp only [List.map_cons, List.map_nil, List.append_nil, List.cons_append, List.nil_append]
          exact again_cons (Or.inr hs)
        · intro B hB
          obtain ⟨t2, B', rfl, h1, h2⟩ := look_cons hB
          have : B' = [] := List.map_eq_nil_iff.mp h2
          subst this
          simp only [look, Prod.mk.injEq] at h1
          obtain ⟨g1, g2, g3⟩ := read_plain ht (h1.1.trans hk) h1.2.1 (h1.2.2.trans (unblank_diff t))
          refine ⟨by simp, by simpa using g1, by simp [g3], by simp, ?_⟩
          simp [g2]
      · refine ⟨[((unblank t).kind, (unblank t).str ++ s.str, (unblank t).diff)], ?_, ?_⟩
        · simp only [List.map_cons, List.map_nil, List.cons_append, List.nil_append]
          rw [again, if_pos ⟨hk, hs1⟩]
        · intro B hB
          obtain ⟨t2, B', rfl, h1, h2⟩ := look_cons hB
          have : B' = [] := List.map_eq_nil_iff.mp h2
          subst this
          simp only [look, Prod.mk.injEq, hs2] at h1
          obtain ⟨g1, g2, g3⟩ := read_blank ht (h1.1.trans hk) h1.2.1 (h1.2.2.trans (unblank_diff t))
          refine ⟨by simp, by simpa using g1, by simp [g3], by simp, ?_⟩
          simp [g2]
    | cons u ms =>
      obtain ⟨X, hX, hB⟩ := ih (by simp) (fun t ht => hg t (by simp [ht]))
      have ht := hg t (by simp)
      refine ⟨look (unblank t) :: X, ?_, ?_⟩
      · rw [List.map_cons, List.cons_append, List.cons_append, again_cons, hX, List.cons_append]
        right
        intro s hs
        simp only [List.map_cons, List.cons_append, List.head?_cons, Option.mem_def, Option.some.injEq] at hs
        subst hs
        rw [unblank_kind, (hg u (by simp)).1]
        simp
      · intro B hB'
        obtain ⟨t2, B', rfl, h1, h2⟩ := look_cons hB'
        obtain ⟨k1, k2, k3, k4, k5⟩ := hB B' h2
        simp only [look, Prod.mk.injEq] at h1
        obtain ⟨g1, g2, g3⟩ := read_plain ht (h1.1.trans ((unblank_kind t).trans ht.1)) h1.2.1
          (h1.2.2.trans (unblank_diff t))
        obtain ⟨x, B'', rfl⟩ := List.exists_cons_of_ne_nil k1
        refine ⟨by simp, ?_, by rw [List.map_cons, k3, g3]; rfl, ?_, ?_⟩
        · intro y hy
          rcases List.mem_cons.mp hy with rfl | hy
          · exact g1
          · exact k2 y hy
        · intro y hy
          rw [List.dropLast_cons_cons] at hy
          rcases List.mem_cons.mp hy with rfl | hy
          · exact g2
          · exact k4 y hy
        · rw [List.getLast?_cons_cons]
          exact k5

/-- What many groups with blank lines are read as. -/
theorem again_groups {gs : List Group} {rest : List Tok} (hg : ∀ g ∈ gs, g.members ≠ [] ∧ (∀ t ∈ g.members, Good t) ∧
      ∃ s, g.sep = [s] ∧ s.kind = .space ∧ s.str = ['\n']) :
    ∃ X, again (gs.flatMap (fun g => g.members.map unblank ++ g.sep) ++ rest) = X ++ again rest ∧
      ∀ B : List Tok, B.map look = X → (∀ t ∈ B, Good t) ∧ B.map desc = (gs.flatMap (·.members)).map desc := by
  induction gs with
  | nil =>
    refine ⟨[], rfl, ?_⟩
    intro B hB
    have : B = [] := List.map_eq_nil_iff.mp hB
    subst this
    simp
  | cons g gs ih =>
    obtain ⟨X, hX, hB⟩ := ih (fun g h => hg g (by simp [h]))
    obtain ⟨h1, h2, h3⟩ := hg g (by simp)
    obtain ⟨Y, hY, hC⟩ := again_group (rest := gs.flatMap (fun g => g.members.map unblank ++ g.sep) ++ rest) h1 h2
      (Or.inr h3)
    refine ⟨Y ++ X, ?_, ?_⟩
    · rw [List.flatMap_cons, List.append_assoc, hY, hX, List.append_assoc]
    · intro B hB'
      obtain ⟨B1, B2, rfl, e1, e2⟩ := List.map_eq_append_iff.mp hB'
      obtain ⟨-, j1, j2, -, -⟩ := hC B1 e1
      obtain ⟨k1, k2⟩ := hB B2 e2
      refine ⟨?_, ?_⟩
      · intro t ht
        rcases List.mem_append.mp ht with ht | ht
        · exact j1 t ht
        · exact k1 t ht
      · rw [List.map_append, List.flatMap_cons, List.map_append, j2, k2]

/-! ## Blocks -/

theorem block_unique {cfg : Cfg} {b r b' r' : List Tok} (h : IsBlock cfg b r) (h' : IsBlock cfg b' r')
    (e : b ++ r = b' ++ r') : b = b' ∧ r = r' := by
  have key : ∀ {b r b' r' a : List Tok}, IsBlock cfg b r → IsBlock cfg b' r' → b' = b ++ a → r = a ++ r' → a = [] := by
    intro b r b' r' a h h' e1 e2
    cases a with
    | nil => rfl
    | cons x a =>
      exfalso
      have hx : x.kind = .include := h'.2.1 x (by rw [e1]; simp)
      rcases h.2.2.2 with h1 | ⟨h1, t, ht, hb⟩
      · exact h1 x (by rw [e2]; rfl) hx
      · have : t ∈ b'.dropLast := by
          rw [e1, List.dropLast_append_of_ne_nil (by simp)]
          exact List.mem_append_left _ (List.mem_of_getLast? ht)
        rcases h'.2.2.1 t this with h2 | h2
        · rw [h1] at h2; cases h2
        · exact h2 hb
  rcases List.append_eq_append_iff.mp e with ⟨a, e1, e2⟩ | ⟨a, e1, e2⟩
  · have := key h h' e1 e2
    subst this
    exact ⟨by simpa using e1.symm, by simpa using e2⟩
  · have := key h' h e1 e2
    subst this
    exact ⟨by simpa using e1, by simpa using e2.symm⟩

theorem output_block_inv {cfg : Cfg} {b rest tks out : List Tok} (h : Output cfg tks out) (e : tks = b ++ rest)
    (hb : IsBlock cfg b rest) : ∃ out', Output cfg rest out' ∧
      ((¬ Sortable cfg b ∧ out = b ++ out') ∨ (Sortable cfg b ∧ ∃ o, Arranged cfg b o ∧ out = o ++ out')) := by
  cases h with
  | nil => exact absurd (List.append_eq_nil_iff.mp e.symm).1 hb.1
  | @other t r o h1 h2 =>
    obtain ⟨x, b', rfl⟩ := List.exists_cons_of_ne_nil hb.1
    simp only [List.cons_append, List.cons.injEq] at e
    exact absurd (hb.2.1 x (by simp)) (e.1 ▸ h1)
  | same h1 h2 h3 =>
    obtain ⟨rfl, rfl⟩ := block_unique h1 hb e
    exact ⟨_, h3, Or.inl ⟨h2, rfl⟩⟩
  | sorted h1 h2 h3 h4 =>
    obtain ⟨rfl, rfl⟩ := block_unique h1 hb e
    exact ⟨_, h4, Or.inr ⟨h2, _, h3, rfl⟩⟩

theorem sortable_desc {cfg : Cfg} {b b2 : List Tok} (hb : ∀ t ∈ b, Good t) (hb2 : ∀ t ∈ b2, Good t)
    (hp : (b2.map desc).Perm (b.map desc)) (h : Sortable cfg b) : Sortable cfg b2 := by
  have hfind : ∀ t ∈ b2, ∃ u ∈ b, desc u = desc t := by
    intro t ht
    obtain ⟨u, hu, e⟩ := List.mem_map.mp (hp.mem_iff.mp (List.mem_map_of_mem ht))
    exact ⟨u, hu, e⟩
  have hpath : ∀ t ∈ b2, ∃ u ∈ b, u.diff = t.diff ∧ ∀ p, IsPath u.str p ↔ IsPath t.str p := by
    intro t ht
    obtain ⟨u, hu, e⟩ := hfind t ht
    simp only [desc, Prod.mk.injEq] at e
    refine ⟨u, hu, e.2, fun p => ?_⟩
    rw [isPath_core (hb u hu).2.2, isPath_core (hb2 t ht).2.2, e.1]
  obtain ⟨h1, h2, h3, h4⟩ := h
  refine ⟨?_, ?_, ?_, ?_⟩
  · have := hp.length_eq
    simp only [List.length_map] at this
    omega
  · intro hd t ht
    obtain ⟨u, hu, e, -⟩ := hpath t ht
    rw [← e]
    exact h2 hd u hu
  · intro t ht
    obtain ⟨u, hu, -, e⟩ := hpath t ht
    obtain ⟨p, hp⟩ := h3 u hu
    exact ⟨p, (e p).mp hp⟩
  · rcases h4 with h4 | h4
    · exact Or.inl h4
    · right
      rintro ⟨⟨t, ht, p, k1, k2⟩, ⟨t', ht', p', k1', k2'⟩⟩
      obtain ⟨u, hu, -, e⟩ := hpath t ht
      obtain ⟨u', hu', -, e'⟩ := hpath t' ht'
      exact h4 ⟨⟨u, hu, p, (e p).mpr k1, k2⟩, ⟨u', hu', p', (e' p').mpr k1', k2'⟩⟩

theorem arranged_head {cfg : Cfg} {b o : List Tok} (hb : ∀ t ∈ b, t.kind = .include) (hne : b ≠ [])
    (h : Arranged cfg b o) (rest : List Tok) : (o ++ rest).head?.map (·.kind) = some .include := by
  obtain ⟨gs, rfl, hp, -, hg⟩ := h
  cases gs with
  | nil => exact absurd hp.nil_eq.symm hne
  | cons g gs =>
    obtain ⟨m, ms, e⟩ := List.exists_cons_of_ne_nil (hg g (by simp)).1
    have hm : m ∈ b := hp.mem_iff.mp (by simp [e])
    simp [e, unblank_kind, hb m hm]

/-- The first prefix of the output is of the same kind as the first one read. -/
theorem output_head {cfg : Cfg} {tks out : List Tok} (h : Output cfg tks out) :
    out.head?.map (·.kind) = tks.head?.map (·.kind) := by
  cases h with
  | nil => rfl
  | other h1 h2 => rfl
  | @same b rest o h1 h2 h3 =>
    obtain ⟨x, b', rfl⟩ := List.exists_cons_of_ne_nil h1.1
    rfl
  | @sorted b rest o o' h1 h2 h3 h4 =>
    obtain ⟨x, b', rfl⟩ := List.exists_cons_of_ne_nil h1.1
    rw [arranged_head h1.2.1 (by simp) h3]
    simp [h1.2.1 x (by simp)]

theorem read_tail {t : Tok} {ts : List Tok} (h : Read (t :: ts)) : Read ts :=
  ⟨(List.nodup_cons.mp h.1).2, fun x hx => h.2 x (by simp [hx])⟩

theorem read_right {a b : List Tok} (h : Read (a ++ b)) : Read b := by
  refine ⟨?_, fun x hx => h.2 x (by simp [hx])⟩
  have := h.1
  rw [List.map_append] at this
  exact (List.nodup_append.mp this).2.1

theorem nodup_left {a b : List Tok} (h : ((a ++ b).map (·.id)).Nodup) : a.Nodup := by
  rw [List.map_append] at h
  have h := (List.nodup_append.mp h).1
  exact List.Pairwise.imp (fun h e => h (congrArg _ e)) (List.pairwise_map.mp h)

theorem nodup_right {a b : List Tok} (h : ((a ++ b).map (·.id)).Nodup) : (b.map (·.id)).Nodup := by
  rw [List.map_append] at h
  exact (List.nodup_append.mp h).2.1

theorem read_head {ts : List Tok} (h : Read ts) : ts.head?.map (·.kind) ≠ some .space := by
  cases ts with
  | nil => simp
  | cons t ts => simpa using (h.2 t (by simp)).1

theorem text_append (a b : List Tok) : text (a ++ b) = text a ++ text b := by simp [text]

theorem text_look {a b : List Tok} (h : a.map look = b.map look) : text a = text b := by
  have : a.map (·.str) = b.map (·.str) := by
    have := congrArg (List.map fun l : Look => l.2.1) h
    rwa [List.map_map, List.map_map] at this
  unfold text
  rw [List.flatMap_def, List.flatMap_def, this]

/-- **C80**, in terms of what sorting is supposed to do: prefixes sorted once, read again and sorted again are
printed the same. -/
theorem output_twice {cfg : Cfg} {tks out : List Tok} (h : Output cfg tks out) (hr : Read tks) :
    ∀ {tks2 out2 : List Tok}, tks2.map look = again out → (tks2.map (·.id)).Nodup → Output cfg tks2 out2 →
      text out2 = text out := by
  induction h with
  | nil =>
    intro tks2 out2 h1 _ h3
    have : tks2 = [] := List.map_eq_nil_iff.mp h1
    subst this
    generalize hx : ([] : List Tok) = x at h3
    cases h3 with
    | nil => rfl
    | other h4 h5 => cases hx
    | same h4 h5 h6 => exact absurd (List.append_eq_nil_iff.mp hx.symm).1 h4.1
    | sorted h4 h5 h6 h7 => exact absurd (List.append_eq_nil_iff.mp hx.symm).1 h4.1
  | @other t rest out hk ho ih =>
    intro tks2 out2 h1 hd h3
    rw [again_cons (Or.inl hk)] at h1
    obtain ⟨t2, tks2', rfl, e1, e2⟩ := look_cons h1
    have hk2 : t2.kind ≠ .include := by
      have : t2.kind = t.kind := congrArg Prod.fst e1
      rwa [this]
    have e1' : t2.str = t.str := congrArg (fun l : Look => l.2.1) e1
    rw [List.map_cons, List.nodup_cons] at hd
    generalize hx : t2 :: tks2' = x at h3
    cases h3 with
    | nil => cases hx
    | other h4 h5 =>
      injection hx with hx1 hx2
      subst hx1 hx2
      have := ih (read_tail hr) e2 hd.2 h5
      unfold text at this ⊢
      rw [List.flatMap_cons, List.flatMap_cons, this, e1']
    | same h4 h5 h6 =>
      obtain ⟨y, b', rfl⟩ := List.exists_cons_of_ne_nil h4.1
      injection hx with hx1 hx2
      exact absurd (h4.2.1 y (by simp)) (hx1 ▸ hk2)
    | sorted h4 h5 h6 h7 =>
      obtain ⟨y, b', rfl⟩ := List.exists_cons_of_ne_nil h4.1
      injection hx with hx1 hx2
      exact absurd (h4.2.1 y (by simp)) (hx1 ▸ hk2)
  | @same b rest out hb hn ho ih =>
    intro tks2 out2 h1 hd h3
    have hG : ∀ t ∈ b, Good t := fun t ht =>
      ⟨hb.2.1 t ht, (hr.2 t (by simp [ht])).2.1, (hr.2 t (by simp [ht])).2.2 (hb.2.1 t ht)⟩
    have hhead := output_head ho
    have hns := (read_head (read_right hr))
    rw [again_append (fun t ht => by rw [hb.2.1 t ht]; simp) (by
      intro s hs he
      rw [Option.mem_def] at hs
      rw [hs] at hhead
      apply hns
      rw [← hhead, Option.map_some, he])] at h1
    obtain ⟨b2, rest2, rfl, e1, e2⟩ := List.map_eq_append_iff.mp h1
    have hstr : b2.map (·.str) = b.map (·.str) := by
      have := congrArg (List.map fun l : Look => l.2.1) e1
      rwa [List.map_map, List.map_map] at this
    have hlook : ∀ t2 ∈ b2, ∃ t ∈ b, look t = look t2 := by
      intro t2 ht2
      have : look t2 ∈ b2.map look := List.mem_map_of_mem ht2
      rw [e1] at this
      exact List.mem_map.mp this
    have hG2 : ∀ t ∈ b2, Good t := by
      intro t2 ht2
      obtain ⟨t, ht, e⟩ := hlook t2 ht2
      simp only [look, Prod.mk.injEq] at e
      obtain ⟨g1, g2, u, g3, g4⟩ := hG t ht
      exact ⟨e.1 ▸ g1, e.2.1 ▸ g2, u, g3, e.2.1 ▸ g4⟩
    have hblk : IsBlock cfg b2 rest2 := by
      refine ⟨?_, fun t ht => (hG2 t ht).1, ?_, ?_⟩
      · rintro rfl
        exact hb.1 (List.map_eq_nil_iff.mp e1.symm)
      · intro t2 ht2
        have : t2.str ∈ (b.map (·.str)).dropLast := by
          rw [← hstr, ← List.map_dropLast]
          exact List.mem_map_of_mem ht2
        rw [← List.map_dropLast] at this
        obtain ⟨t, ht, e⟩ := List.mem_map.mp this
        rcases hb.2.2.1 t ht with h | h
        · exact Or.inl h
        · right; unfold Blank at h ⊢; rw [← e]; exact h
      · rcases hb.2.2.2 with h | ⟨h, t, ht, hB⟩
        · left
          intro s hs he
          have k1 := again_head out
          rw [← e2, List.head?_map, hs, hhead] at k1
          simp only [Option.map_some, look] at k1
          rw [he] at k1
          cases hh : rest.head? with
          | none => rw [hh] at k1; cases k1
          | some x =>
            rw [hh] at k1
            simp only [Option.map_some, Option.some.injEq] at k1
            exact h x (by rw [hh]; rfl) k1.symm
        · right
          refine ⟨h, ?_⟩
          have k1 := congrArg List.getLast? hstr
          rw [List.getLast?_map, List.getLast?_map, ht] at k1
          cases hh : b2.getLast? with
          | none => rw [hh] at k1; cases k1
          | some x =>
            rw [hh] at k1
            simp only [Option.map_some, Option.some.injEq] at k1
            exact ⟨x, rfl, by unfold Blank at hB ⊢; rw [k1]; exact hB⟩
    have hdesc : b2.map desc = b.map desc := by
      have hc : ∀ t : Tok, desc t = ((if ['\n', '\n'] <:+ (look t).2.1 then (look t).2.1.dropLast else (look t).2.1), (look t).2.2) := by
        intro t
        unfold desc core unblank Blank look
        by_cases h : ['\n', '\n'] <:+ t.str
        · simp [h]
        · simp [h]
      rw [List.map_congr_left (fun t _ => hc t), List.map_congr_left (fun t _ => hc t)]
      have := congrArg (List.map fun l : Look => ((if ['\n', '\n'] <:+ l.2.1 then l.2.1.dropLast else l.2.1), l.2.2)) e1
      rwa [List.map_map, List.map_map] at this
    obtain ⟨out2', k1, k2⟩ := output_block_inv h3 rfl hblk
    have hrest := ih (read_right hr) e2 (nodup_right hd) k1
    rcases k2 with ⟨-, rfl⟩ | ⟨hs, -⟩
    · rw [text_append, text_append, hrest, text_look e1]
    · exact absurd (sortable_desc hG2 hG (by rw [hdesc]) hs) hn
  | @sorted b rest o out hb hs ha ho ih =>
    intro tks2 out2 h1 hd h3
    have hG : ∀ t ∈ b, Good t := fun t ht =>
      ⟨hb.2.1 t ht, (hr.2 t (by simp [ht])).2.1, (hr.2 t (by simp [ht])).2.2 (hb.2.1 t ht)⟩
    have hhead := output_head ho
    have hns := (read_head (read_right hr))
    have hnosp : ∀ s ∈ out.head?, s.kind ≠ .space := by
      intro s hs he
      rw [Option.mem_def] at hs
      rw [hs] at hhead
      apply hns
      rw [← hhead, Option.map_some, he]
    have hrestk : (∀ t ∈ rest.head?, t.kind ≠ .include) → ∀ {rest2 : List Tok}, rest2.map look = again out →
        ∀ t ∈ rest2.head?, t.kind ≠ .include := by
      intro h rest2 e2 s hs he
      have k1 := again_head out
      rw [← e2, List.head?_map, hs, hhead] at k1
      simp only [Option.map_some, look] at k1
      rw [he] at k1
      cases hh : rest.head? with
      | none => rw [hh] at k1; cases k1
      | some x =>
        rw [hh] at k1
        simp only [Option.map_some, Option.some.injEq] at k1
        exact h x (by rw [hh]; rfl) k1.symm
    cases hreg : cfg.regroup with
    | true =>
      obtain ⟨gs, ho', hp, hsrt, hg⟩ := ha
      obtain ⟨X, hX, hB⟩ := again_groups (rest := out) (gs := gs) (fun g h =>
        ⟨(hg g h).1, fun t ht => hG t (hp.mem_iff.mp (List.mem_flatMap.mpr ⟨g, h, ht⟩)), (hg g h).2.2.2.1 (Or.inl hreg)⟩)
      rw [ho', hX] at h1
      obtain ⟨b2, rest2, rfl, e1, e2⟩ := List.map_eq_append_iff.mp h1
      obtain ⟨hG2, hdesc⟩ := hB b2 e1
      have hperm : (b2.map desc).Perm (b.map desc) := by rw [hdesc]; exact hp.map desc
      have hblk : IsBlock cfg b2 rest2 := by
        refine ⟨?_, fun t ht => (hG2 t ht).1, fun t _ => Or.inl hreg, Or.inl ?_⟩
        · rintro rfl
          exact hb.1 (List.map_eq_nil_iff.mp hperm.nil_eq.symm)
        · refine hrestk ?_ e2
          rcases hb.2.2.2 with h | ⟨h, -⟩
          · exact h
          · rw [hreg] at h; cases h
      obtain ⟨out2', k1, k2⟩ := output_block_inv h3 rfl hblk
      have hrest := ih (read_right hr) e2 (nodup_right hd) k1
      rcases k2 with ⟨hs2, -⟩ | ⟨-, o2, ha2, rfl⟩
      · exact absurd (sortable_desc hG hG2 hperm hs) hs2
      · rw [text_append, text_append, hrest]
        congr 1
        refine arranged_twice_regroup hreg hG hG2 ho' hp hsrt hg ?_ ha2
        have := congrArg (List.map Prod.fst) hdesc
        rwa [List.map_map, List.map_map] at this
    | false =>
      obtain ⟨M, sep, ho', hp, hpw, hsp1, hsp2⟩ := arranged_one hreg hb.1 ha
      have hMne : M ≠ [] := by
        rintro rfl
        exact hb.1 hp.nil_eq.symm
      have hsep : (sep = [] ∧ ∀ s ∈ out.head?, s.kind ≠ .space) ∨ ∃ s, sep = [s] ∧ s.kind = .space ∧ s.str = ['\n'] := by
        by_cases h : ∃ t ∈ b.getLast?, Blank t
        · exact Or.inr (hsp1 h)
        · exact Or.inl ⟨hsp2 (fun t ht hB => h ⟨t, ht, hB⟩), hnosp⟩
      obtain ⟨X, hX, hB⟩ := again_group (rest := out) hMne (fun t ht => hG t (hp.mem_iff.mp ht)) hsep
      rw [ho', hX] at h1
      obtain ⟨b2, rest2, rfl, e1, e2⟩ := List.map_eq_append_iff.mp h1
      obtain ⟨hne2, hG2, hdesc, hnb, hlast⟩ := hB b2 e1
      have hperm : (b2.map desc).Perm (b.map desc) := by rw [hdesc]; exact hp.map desc
      have hcore : b2.map core = M.map core := by
        have := congrArg (List.map Prod.fst) hdesc
        rwa [List.map_map, List.map_map] at this
      have hsepb : sep ≠ [] ↔ ∃ t ∈ b.getLast?, Blank t := by
        constructor
        · intro h
          by_cases h' : ∃ t ∈ b.getLast?, Blank t
          · exact h'
          · exact absurd (hsp2 (fun t ht hB => h' ⟨t, ht, hB⟩)) h
        · intro h
          obtain ⟨s, e, -⟩ := hsp1 h
          rw [e]; simp
      have hblk : IsBlock cfg b2 rest2 := by
        refine ⟨hne2, fun t ht => (hG2 t ht).1, fun t ht => Or.inr (hnb t ht), ?_⟩
        rcases hb.2.2.2 with h | ⟨h, hB⟩
        · exact Or.inl (hrestk h e2)
        · exact Or.inr ⟨h, hlast.mpr (hsepb.mpr hB)⟩
      obtain ⟨out2', k1, k2⟩ := output_block_inv h3 rfl hblk
      have hrest := ih (read_right hr) e2 (nodup_right hd) k1
      rcases k2 with ⟨hs2, -⟩ | ⟨-, o2, ha2, rfl⟩
      · exact absurd (sortable_desc hG hG2 hperm hs) hs2
      · rw [text_append, text_append, hrest]
        congr 1
        obtain ⟨M2, sep2, ho2, hp2, hpw2, hsq1, hsq2⟩ := arranged_one hreg hne2 ha2
        have hM := arranged_twice_same hreg hG hG2 (nodup_left hr.1) (nodup_left hd) hp hpw hcore hp2 hpw2
        have htext : ∀ (N : List Tok), text (N.map unblank) = (N.map core).flatten := by
          intro N
          unfold text
          rw [List.flatMap_map, List.flatMap_def]
          rfl
        have hseps : text sep2 = text sep := by
          by_cases h : ∃ t ∈ b.getLast?, Blank t
          · obtain ⟨s, e, -, es⟩ := hsp1 h
            obtain ⟨s2, e2, -, es2⟩ := hsq1 (hlast.mpr (hsepb.mpr h))
            rw [e, e2]
            simp [text, es, es2]
          · have e := hsp2 (fun t ht hB => h ⟨t, ht, hB⟩)
            have e2 := hsq2 (fun t ht hB => h (hsepb.mp (hlast.mp ⟨t, ht, hB⟩)))
            rw [e, e2]
        rw [ho', ho2, text_append, text_append, htext, htext, hM, hseps]

/-- **C80.** Sorting the includes a second time, with the same configuration, prints the same. Missing: directives
with line feeds in them, and the directives excluded in C28. -/
theorem sort_includes_twice_partial (cfg : Cfg) (he : cfg.enabled = true)
    (srt srt2 : List (Tok × Prio) → List (Tok × Prio)) (hs : IsSort srt) (hs2 : IsSort srt2)
    (tks : List Tok) (fresh : Nat) (hr : Read tks) (hlt : ∀ t ∈ tks, t.id < fresh) (hpl : ∀ t ∈ tks, Plain t) :
    ∃ st, run cfg srt tks fresh = some st ∧ ∀ (tks2 : List Tok) (fresh2 : Nat), tks2.map look = again st.prefixes →
      (tks2.map (·.id)).Nodup → (∀ t ∈ tks2, t.id < fresh2) → (∀ t ∈ tks2, Plain t) →
      ∃ st2, run cfg srt2 tks2 fresh2 = some st2 ∧ text st2.prefixes = text st.prefixes := by
  obtain ⟨st, h1, h2⟩ := sort_includes_partial cfg he srt hs tks fresh hr.1 hlt hpl
  refine ⟨st, h1, ?_⟩
  intro tks2 fresh2 hl hd hlt2 hpl2
  obtain ⟨st2, k1, k2⟩ := sort_includes_partial cfg he srt2 hs2 tks2 fresh2 hd hlt2 hpl2
  exact ⟨st2, k1, output_twice h2 hr hl hd k2⟩

/-! ## A case -/

private def inc (id : Nat) (s : String) : Tok := { id, kind := .include, str := s.toList }

private def fst : List Tok := [inc 0 "#include <b.h>\n", inc 1 "#include <a.h>\n\n", inc 2 "#include \"c.h\"\n"]
private def snd : List Tok := [inc 0 "#include <a.h>\n", inc 1 "#include <b.h>\n\n", inc 2 "#include \"c.h\"\n"]

/-- The second list is read from what is printed after sorting the first one. -/
example : (run {} qsort fst 9).map (fun st => again st.prefixes) = some (snd.map look) := by decide +kernel

/-- Its hypotheses hold. -/
example : Read fst ∧ ∀ t ∈ fst ++ snd, Plain t := by
  refine ⟨⟨by decide, ?_⟩, ?_⟩
  · intro t ht
    simp only [fst, List.mem_cons, List.not_mem_nil, or_false] at ht
    rcases ht with rfl | rfl | rfl
    · exact ⟨by decide, by decide, fun _ => ⟨"#include <b.h>".toList, by decide, Or.inl rfl⟩⟩
    · exact ⟨by decide, by decide, fun _ => ⟨"#include <a.h>".toList, by decide, Or.inr rfl⟩⟩
    · exact ⟨by decide, by decide, fun _ => ⟨"#include \"c.h\"".toList, by decide, Or.inl rfl⟩⟩
  · intro t ht
    simp only [fst, snd, List.mem_cons, List.mem_append, List.not_mem_nil, or_false] at ht
    rcases ht with (rfl | rfl | rfl) | (rfl | rfl | rfl) <;> exact ⟨by decide, by decide, by decide⟩

end Knfmt.Include
