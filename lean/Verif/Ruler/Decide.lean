import Verif.Ruler.Stable
/-! # When a column is aligned with `RULER_ALIGN_SENSE` -/
namespace Knfmt.Ruler
open Knfmt.Doc (Align)

/-- With a length all entries of a column start at the same place. -/
theorem sense_aligned_some {rl : Ruler} (hb : Built rl) (hf : rl.flags = { sense := true })
    (hp : ∀ rc ∈ rl.columns, ∀ d ∈ rc.datums, d.Plain)
    {out : List (List Align)} {is : List Int} (he : exec rl = some (out, is)) {k : Nat} {rc rc' : Column} {L : Length}
    (hk : rl.columns[k]? = some rc) (hL : columnLength rl rc = some (rc', some L)) {s : Nat} (h8 : s % 8 = 0) :
    ∃ x, ∀ i d a, Entry rl out k i d a → startsAt s d a = x ∧ s + d.len ≤ x := by
  have hmem := List.mem_of_getElem? hk
  have hok := hb.ok rc hmem
  obtain ⟨hn, hmax⟩ := sense_length hf (hp rc hmem) hL
  refine ⟨(if L.tabalign then up8 (s + L.max) else s + L.max) + rc'.nspaces,
    fun i d a hi => ?_⟩
  obtain ⟨rc₁, as, h1, h2, h3, h4⟩ := id hi
  obtain rfl : rc = rc₁ := by rw [hk] at h1; simpa using h1
  have hle := hok.le d (List.mem_of_getElem? h2)
  have hdl : d.len ≤ L.max := by
    rcases hmax with ⟨e, _⟩ | hmax
    · rw [e]; exact tabsLength_le hle.1
    · omega
  refine ⟨column_aligned hb he (by simp [hf]) hk hL hn hi hdl (fun _ => ?_), ?_⟩
  · rcases hmax with ⟨e, _⟩ | hmax
    · rw [e]
      exact tabs_guard hle.1 (Or.inl h8)
    · left; omega
  · unfold up8; split <;> omega

/-- A column is aligned if at least one and at least a quarter of its texts are followed by a tab in the source. -/
theorem sense_tabs {rl : Ruler} (hb : Built rl) (hf : rl.flags = { sense := true })
    (hp : ∀ rc ∈ rl.columns, ∀ d ∈ rc.datums, d.Plain)
    {out : List (List Align)} {is : List Int} (he : exec rl = some (out, is)) {k : Nat} {rc : Column}
    (hk : rl.columns[k]? = some rc) (h0 : 0 < rc.datums.countP (fun d => hasTabs d.tk))
    (h4 : rc.datums.length / 4 ≤ rc.datums.countP (fun d => hasTabs d.tk)) {s : Nat} (h8 : s % 8 = 0) :
    ∃ x, ∀ i d a, Entry rl out k i d a → startsAt s d a = x ∧ s + d.len ≤ x := by
  have hmem := List.mem_of_getElem? hk
  have hok := hb.ok rc hmem
  rw [← hok.tabs] at h0 h4
  have hL : ∃ rc' L, columnLength rl rc = some (rc', some L) := by
    have hne : rc.datums ≠ [] := by
      intro e
      have := hok.tabs
      rw [e] at this
      simp at this
      omega
    obtain ⟨rc', l, hL⟩ := columnLength_total (rl := rl) hok hne
    cases l with
    | some L => exact ⟨rc', L, hL⟩
    | none =>
      exfalso
      simp only [columnLength, hf, Bool.false_eq_true, if_false, if_true] at hL
      split at hL
      · cases hL
      · next rc₁ e =>
        obtain rfl : rc₁ = rc := by
          rcases columnAlignment_spec (hp rc hmem) e with ⟨h, _⟩ | ⟨_, d, _, _, c, _, h4, _, _⟩
          · exact h
          · omega
        rw [if_pos (by simp; omega)] at hL
        cases hL
      · cases hL
  obtain ⟨rc', L, hL⟩ := hL
  exact sense_aligned_some hb hf hp he hk hL h8

/-- A column is left alone if no text, or less than a quarter of them, is followed by a tab and what follows two of them,
not counting stars, is not in the same column of the source, or on another line than the text. -/
theorem sense_spaces {rl : Ruler} (hb : Built rl) (hf : rl.flags = { sense := true })
    {out : List (List Align)} {is : List Int} (he : exec rl = some (out, is)) {k : Nat} {rc : Column}
    (hk : rl.columns[k]? = some rc) 
    (h0 : rc.datums.countP (fun d => hasTabs d.tk) = 0 ∨ rc.datums.countP (fun d => hasTabs d.tk) < rc.datums.length / 4)
    (h : (∃ d ∈ rc.datums, ∀ c, d.tk.next ≠ some (d.tk.lno, c)) ∨
      ∃ d ∈ rc.datums, ∃ d' ∈ rc.datums, ∃ l l' c c', d.tk.next = some (l, c) ∧ d'.tk.next = some (l', c') ∧ c + d.nspaces ≠ c' + d'.nspaces) :
    ∀ i d a, Entry rl out k i d a → a = dflt := by
  have hmem := List.mem_of_getElem? hk
  have hok := hb.ok rc hmem
  rw [← hok.tabs] at h0
  have hc : columnAlignment rc = some (rc, 0) := by
    unfold columnAlignment
    cases hn : senseSpaces rc with
    | none => rfl
    | some n =>
    have hge := senseSpaces_ge hn
    dsimp only
    cases hx : rc.datums.foldlM (senseStep rc n) (0, none) with
    | none => rfl
    | some st =>
      exfalso
      obtain ⟨h1, _⟩ := senseLoop _ _ _ hx
      rcases h with ⟨d, hd, h⟩ | ⟨d, hd, d', hd', l, l', c, c', e, e', h⟩
      · obtain ⟨c, e, _⟩ := h1 d hd
        exact h c e
      · obtain ⟨x, e1, e2, e3, e4⟩ := h1 d hd
        obtain ⟨x', e1', e2', e3', e4'⟩ := h1 d' hd'
        rw [e] at e1
        rw [e'] at e1'
        cases e1
        cases e1'
        have := hok.le d hd
        have := hok.le d' hd'
        omega
  have hL : columnLength rl rc = some (rc, none) := by
    simp only [columnLength, hf, Bool.false_eq_true, if_false, if_true, hc]
    rw [if_neg (by simp; omega)]
  rintro i d a ⟨rc₁, as, h1, h2, h3, h4⟩
  obtain ⟨rc'', hx⟩ := entry_column he h1 h3
  obtain rfl : rc = rc₁ := by rw [hk] at h1; simpa using h1
  rcases execColumn_entry hx h2 h4 with ⟨_, h⟩ | ⟨L, h, _⟩
  · exact h
  · rw [hL] at h; simp at h

end Knfmt.Ruler
