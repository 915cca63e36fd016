import Verif.Ruler.Decide
/-! # Aligning a column without tabs again -/
namespace Knfmt.Ruler
open Knfmt.Doc (Align)

/-- What the ruler gives for a column if no text is followed by a tab. -/
theorem column_plain {rl : Ruler} (hf : rl.flags = { sense := true }) {rc rc' : Column} {l : Option Length}
    (hp : ∀ d ∈ rc.datums, d.Plain) (ht : rc.ntabs = 0) (h : columnLength rl rc = some (rc', l)) :
    rc' = rc ∧ (l = none ∨ ∃ m, l = some ⟨m, false⟩ ∧ rc.len < m ∧ columnAlignment rc = some (rc, m)) := by
  have hn : senseSpaces rc = some rc.nspaces := by
    unfold senseSpaces
    simp [ht]
  simp only [columnLength, hf, Bool.false_eq_true, if_false, if_true] at h
  split at h
  · cases h
  · next rc₁ e =>
    obtain rfl : rc₁ = rc := by
      rcases columnAlignment_spec hp e with ⟨h, _⟩ | ⟨_, d, _, _, c, _, h4, _, _⟩
      · exact h
      · omega
    rw [if_neg (by simp [ht])] at h
    simp only [Option.some.injEq, Prod.mk.injEq] at h
    exact ⟨h.1.symm, .inl h.2.symm⟩
  · next rc₁ m e =>
    obtain rfl : rc₁ = rc := by
      unfold columnAlignment at e
      rw [hn] at e
      dsimp only at e
      split at e
      · simp at e
      · cases e
      · simp only [Option.some.injEq, Prod.mk.injEq] at e
        exact e.1.symm
    simp only [Option.some.injEq, Prod.mk.injEq] at h
    refine ⟨h.1.symm, .inr ⟨m + 1, ?_, ?_, e⟩⟩
    · rw [← h.2, ht]
      rfl
    · rcases columnAlignment_spec hp e with ⟨_, h⟩ | ⟨_, d, hd, h2, c, h3, h4, h5, h6⟩
      · omega
      · omega

theorem entry_plain {rl : Ruler} (hf : rl.flags = { sense := true })
    {out : List (List Align)} {is : List Int} (he : exec rl = some (out, is)) {k : Nat} {rc : Column}
    (hp : ∀ d ∈ rc.datums, d.Plain) (hk : rl.columns[k]? = some rc) (ht : rc.ntabs = 0)
    {i : Nat} {d : Datum} {a : Align} (h : Entry rl out k i d a) :
    (columnLength rl rc = some (rc, none) ∧ a = dflt) ∨
      ∃ m, columnLength rl rc = some (rc, some ⟨m, false⟩) ∧ rc.len < m ∧ columnAlignment rc = some (rc, m) ∧
        a = { indent := m - d.len, spaces := rc.nspaces - d.nspaces, tabalign := false } := by
  obtain ⟨rc₁, as, h1, h2, h3, h4⟩ := h
  obtain rfl : rc = rc₁ := by rw [hk] at h1; simpa using h1
  obtain ⟨rc', hx⟩ := entry_column he h1 h3
  rcases execColumn_entry hx h2 h4 with ⟨h5, h6⟩ | ⟨L, h5, h6⟩
  · obtain ⟨rfl, _⟩ := column_plain hf hp ht h5
    exact .inl ⟨h5, h6⟩
  · obtain ⟨rfl, h7⟩ := column_plain hf hp ht h5
    right
    rcases h7 with h7 | ⟨m, h7, h8, h9⟩
    · cases h7
    · cases h7
      refine ⟨m, h5, h8, h9, ?_⟩
      unfold execDatum at h6
      rw [if_neg (by rw [hf]; simp)] at h6
      split at h6
      · split at h6
        · rename_i h10
          rw [hf] at h10
          cases h10
        · cases h6
      · simp only [Option.some.injEq] at h6
        exact h6.symm

theorem startsAt_plain {s : Nat} {d : Datum} {a : Align} (h : a.tabalign = false) : startsAt s d a = s + d.len + (a.indent + a.spaces) + d.nspaces := by
  unfold startsAt
  rw [Knfmt.Doc.execAlign_column]
  dsimp only
  unfold Knfmt.Doc.Spec.alignText
  rw [h]
  simp [Knfmt.Doc.column_spaces]

/-- The second column has the texts of the first one where they were printed, the first of them at column `b` of each
line; columns count from one. -/
structure Printed (b : Nat) (ds : List Datum) (as : List Align) (ds' : List Datum) : Prop where
  base : 1 ≤ b
  length : ds'.length = ds.length
  each : ∀ (i : Nat) (d d' : Datum) (a : Align), ds[i]? = some d → ds'[i]? = some d' → as[i]? = some a →
    d'.len = d.len ∧ d'.nspaces = d.nspaces ∧ hasTabs d'.tk = false ∧ (∀ s ∈ d'.tk.suffixes, s.comment = false) ∧
      d'.tk.cno + d'.tk.str.length = b + d.len ∧ d'.tk.next = some (d'.tk.lno, b + d.len + (a.indent + a.spaces))

/-- A column without tabs, read again where it was printed, is printed in the same way. -/
theorem sense_again {rl rl' : Ruler} (hb : Built rl) (hb' : Built rl') (hf : rl.flags = { sense := true }) (hf' : rl'.flags = { sense := true })
    {out out' : List (List Align)} {is is' : List Int} (he : exec rl = some (out, is)) (he' : exec rl' = some (out', is'))
    {k : Nat} {rc rc' : Column} (hp : ∀ d ∈ rc.datums, d.Plain) (hp' : ∀ d ∈ rc'.datums, d.Plain)
    (hk : rl.columns[k]? = some rc) (hk' : rl'.columns[k]? = some rc') (ht : ∀ d ∈ rc.datums, hasTabs d.tk = false)
    {as : List Align} (ho : out[k]? = some as) (hl : as.length = rc.datums.length) {b : Nat} (hP : Printed b rc.datums as rc'.datums)
    {i : Nat} {d d' : Datum} {a a' : Align} (hE : Entry rl out k i d a) (hE' : Entry rl' out' k i d' a') :
    a.tabalign = false ∧ a'.tabalign = false ∧ a'.indent + a'.spaces = a.indent + a.spaces := by
  have hok := hb.ok rc (List.mem_of_getElem? hk)
  have hok' := hb'.ok rc' (List.mem_of_getElem? hk')
  have hEn : ∀ {i : Nat} {d : Datum} {a : Align}, rc.datums[i]? = some d → as[i]? = some a → Entry rl out k i d a :=
    fun h1 h2 => ⟨rc, as, hk, h1, ho, h2⟩
  -- every text of one column has its place in the other one
  have hto : ∀ x' ∈ rc'.datums, ∃ (j : Nat) (x : Datum) (e : Align), rc'.datums[j]? = some x' ∧ rc.datums[j]? = some x ∧ as[j]? = some e := by
    intro x' hx'
    obtain ⟨j, hj, rfl⟩ := List.getElem_of_mem hx'
    have h1 : j < rc.datums.length := by rw [← hP.length]; exact hj
    have h2 : j < as.length := by rw [hl]; exact h1
    exact ⟨j, _, _, List.getElem?_eq_getElem hj, List.getElem?_eq_getElem h1, List.getElem?_eq_getElem h2⟩
  have hfrom : ∀ x ∈ rc.datums, ∃ (j : Nat) (x' : Datum) (e : Align), rc'.datums[j]? = some x' ∧ rc.datums[j]? = some x ∧ as[j]? = some e := by
    intro x hx
    obtain ⟨j, hj, rfl⟩ := List.getElem_of_mem hx
    have h1 : j < rc'.datums.length := by rw [hP.length]; exact hj
    have h2 : j < as.length := by rw [hl]; exact hj
    exact ⟨j, _, _, List.getElem?_eq_getElem h1, List.getElem?_eq_getElem hj, List.getElem?_eq_getElem h2⟩
  have ht0 : rc.ntabs = 0 := by
    rw [hok.tabs, List.countP_eq_zero]
    intro x hx
    simp [ht x hx]
  have ht0' : rc'.ntabs = 0 := by
    rw [hok'.tabs, List.countP_eq_zero]
    intro x' hx'
    obtain ⟨j, x, e, h1, h2, h3⟩ := hto x' hx'
    simp [(hP.each j x x' e h2 h1 h3).2.2.1]
  obtain ⟨rc₀, as₀, g1, g2, g3, g4⟩ := id hE
  obtain rfl : rc = rc₀ := by rw [hk] at g1; simpa using g1
  obtain rfl : as = as₀ := by rw [ho] at g3; simpa using g3
  obtain ⟨rc₁, as', g1', g2', g3', g4'⟩ := id hE'
  obtain rfl : rc' = rc₁ := by rw [hk'] at g1'; simpa using g1'
  obtain ⟨q1, q2, q3, q4, q5, q6⟩ := hP.each i d d' a g2 g2' g4
  have hlen : rc'.len = rc.len := by
    have hne : rc.datums ≠ [] := fun h => by rw [h] at g2; simp at g2
    have hne' : rc'.datums ≠ [] := fun h => by rw [h] at g2'; simp at g2'
    obtain ⟨x, hx, ex⟩ := hok.longest hne
    obtain ⟨x', hx', ex'⟩ := hok'.longest hne'
    obtain ⟨j, y', e, h1, h2, h3⟩ := hfrom x hx
    have k1 := (hP.each j x y' e h2 h1 h3).1
    have k2 := (hok'.le y' (List.mem_of_getElem? h1)).1
    obtain ⟨j', y, e', h1', h2', h3'⟩ := hto x' hx'
    have k3 := (hP.each j' y x' e' h2' h1' h3').1
    have k4 := (hok.le y (List.mem_of_getElem? h2')).1
    omega
  rcases entry_plain hf he hp hk ht0 hE with ⟨h1, h2⟩ | ⟨m, h1, h2, h3, h4⟩
  · -- one space after every text
    have hone : ∀ x' ∈ rc'.datums, x'.tk.cno + x'.tk.str.length = b + x'.len ∧ x'.tk.next = some (x'.tk.lno, b + x'.len + 1) := by
      intro x' hx'
      obtain ⟨j, x, e, k1, k2, k3⟩ := hto x' hx'
      obtain ⟨w1, w2, w3, w4, w5, w6⟩ := hP.each j x x' e k2 k1 k3
      have : e = dflt := by
        rcases entry_plain hf he hp hk ht0 (hEn k2 k3) with ⟨_, h⟩ | ⟨m, h, _⟩
        · exact h
        · rw [h1] at h; cases h
      subst this
      rw [w1]
      exact ⟨w5, w6⟩
    subst h2
    refine ⟨rfl, ?_⟩
    rcases entry_plain hf' he' hp' hk' ht0' hE' with ⟨_, h⟩ | ⟨m, k1, k2, k3, k4⟩
    · rw [h]
      exact ⟨rfl, rfl⟩
    · rw [k4]
      refine ⟨rfl, ?_⟩
      dsimp only
      have hn : senseSpaces rc' = some rc'.nspaces := by
        unfold senseSpaces
        simp [ht0']
      have hs : ∃ st, rc'.datums.foldlM (senseStep rc' rc'.nspaces) (0, none) = some st := by
        unfold columnAlignment at k3
        rw [hn] at k3
        dsimp only at k3
        cases hx : rc'.datums.foldlM (senseStep rc' rc'.nspaces) (0, none) with
        | none => rw [hx] at k3; simp at k3; omega
        | some st => exact ⟨st, rfl⟩
      obtain ⟨st, hs⟩ := hs
      obtain ⟨hs, _⟩ := senseLoop _ _ _ hs
      have hw : ∀ x' ∈ rc'.datums, rc'.nspaces - x'.nspaces = 0 ∧ st.1 = b + x'.len + 1 := by
        intro x' hx'
        obtain ⟨c, w1, w2, w3, w4⟩ := hs x' hx'
        obtain ⟨w5, w6⟩ := hone x' hx'
        rw [w6] at w1
        cases w1
        rw [colwidth_flat (hp' x' hx'), w5] at w4
        omega
      have hd' := List.mem_of_getElem? g2'
      obtain ⟨u1, u2⟩ := hw d' hd'
      rcases columnAlignment_spec hp' k3 with ⟨_, h⟩ | ⟨_, y, hy, v2, c, v3, v4, v5, v6⟩
      · omega
      · obtain ⟨u3, u4⟩ := hw y hy
        obtain ⟨w5, w6⟩ := hone y hy
        rw [w6] at v3
        cases v3
        show m - d'.len + (rc'.nspaces - d'.nspaces) = 1 + 0
        omega
  · -- lined up
    have hcol : ∀ x' ∈ rc'.datums, x'.len ≤ rc.len ∧ x'.nspaces ≤ rc.nspaces ∧ (∀ s ∈ x'.tk.suffixes, s.comment = false) ∧
        x'.tk.cno + x'.tk.str.length = b + x'.len ∧ x'.tk.next = some (x'.tk.lno, b + m + (rc.nspaces - x'.nspaces)) ∧ hasTabs x'.tk = false := by
      intro x' hx'
      obtain ⟨j, x, e, k1, k2, k3⟩ := hto x' hx'
      obtain ⟨w1, w2, w3, w4, w5, w6⟩ := hP.each j x x' e k2 k1 k3
      have hle := hok.le x (List.mem_of_getElem? k2)
      have : e = { indent := m - x.len, spaces := rc.nspaces - x.nspaces, tabalign := false } := by
        rcases entry_plain hf he hp hk ht0 (hEn k2 k3) with ⟨h, _⟩ | ⟨m', h, _, _, h'⟩
        · rw [h1] at h; cases h
        · rw [h1] at h
          cases h
          exact h'
      subst this
      refine ⟨by omega, by omega, w4, by omega, ?_, w3⟩
      rw [w6, w2]
      dsimp only
      have : b + x.len + (m - x.len + (rc.nspaces - x.nspaces)) = b + m + (rc.nspaces - x.nspaces) := by omega
      rw [this]
    have hst := sense_stable hb' hf' hk' hp' (b := b) (x := b + m + rc.nspaces)
      ⟨hP.base, fun x hx => (hcol x hx).2.2.1, fun x hx => (hcol x hx).2.2.2.1, fun x hx => ⟨_, (hcol x hx).2.2.2.2.1, by have := (hcol x hx).2.1; omega⟩,
        fun x hx y hy => by have := (hcol x hx).1; have := (hcol y hy).2.1; omega⟩
      (.inl fun x hx => (hcol x hx).2.2.2.2.2) he' i d' a' hE'
    have hta : a'.tabalign = false := by
      rcases entry_plain hf' he' hp' hk' ht0' hE' with ⟨_, h⟩ | ⟨m, _, _, _, h⟩ <;> rw [h] <;> rfl
    have hle := hok.le d (List.mem_of_getElem? g2)
    have hba := hP.base
    rw [startsAt_plain hta, q1, q2] at hst
    rw [h4]
    refine ⟨rfl, hta, ?_⟩
    dsimp only
    omega

end Knfmt.Ruler
