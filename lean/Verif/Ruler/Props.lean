import Verif.Ruler.Model
/-!
# Entries of an aligned column start at the same display column
-/
namespace Knfmt.Ruler

open Knfmt.Doc (Align St execAlign alignTabs printIndent1)

/-! ## Specification -/

/-- The rulers that can be made with the interface of ruler.h. -/
inductive Built : Ruler → Prop
  | init (n : Nat) (f : Flags) : Built (init n f)
  | insert {rl rl' : Ruler} (d : Datum) (col : Nat) : Built rl → insert rl d col = some rl' → Built rl'
  | indent {rl rl' : Ruler} (pos : Bool) : Built rl → indent rl pos = some rl' → Built rl'
  | remove {rl : Ruler} : Built rl → Built (indentRemove rl)

/-- Entry `i` of column `k` is `d` and its alignment is `a`. -/
def Entry (rl : Ruler) (out : List (List Align)) (k i : Nat) (d : Datum) (a : Align) : Prop :=
  ∃ rc as, rl.columns[k]? = some rc ∧ rc.datums[i]? = some d ∧ out[k]? = some as ∧ as[i]? = some a

/-- Where an entry starts on a line: the text before it, which starts at column
`s` and is `d.len` wide, then what the printer puts for its alignment, then its
`d.nspaces` leading stars. -/
def startsAt (s : Nat) (d : Datum) (a : Align) : Nat :=
  (execAlign a { col := s + d.len : St }).col + d.nspaces

/-! ## The printer's columns -/

/-- The least multiple of eight not less than `n`. -/
def up8 (n : Nat) : Nat := (n + 7) / 8 * 8

theorem alignTabs_col (n : Nat) : ∀ σ : St,
    (alignTabs σ n).col = if n = 0 then σ.col else up8 (σ.col + n) := by
  induction n using Nat.strongRecOn with
  | ind n ih =>
    intro σ
    rw [Knfmt.Doc.alignTabs_eq]
    split
    · rfl
    · rw [ih _ (by omega)]
      dsimp only
      unfold up8
      split <;> omega

theorem printIndent1_col (σ : St) (n : Nat) : (printIndent1 σ n false).col = σ.col + n := by
  simp [printIndent1, Knfmt.Util.strindent, Knfmt.Util.strindentSpaces_eq]

theorem execAlign_col (a : Align) (σ : St) : (execAlign a σ).col =
    (if a.tabalign then (if a.indent = 0 then σ.col else up8 (σ.col + a.indent)) else σ.col + a.indent)
      + a.spaces := by
  unfold execAlign
  split
  · rw [printIndent1_col, alignTabs_col]
  · rw [printIndent1_col]; omega

/-! ## The columns of a ruler -/

/-- What holds of every column. -/
structure Column.Ok (rc : Column) : Prop where
  le : ∀ d ∈ rc.datums, d.len ≤ rc.len ∧ d.nspaces ≤ rc.nspaces
  none : rc.datums = [] → rc.len = 0 ∧ rc.nspaces = 0
  longest : rc.datums ≠ [] → ∃ d ∈ rc.datums, d.len = rc.len
  stars : rc.nspaces = 0 ∨ ∃ d ∈ rc.datums, d.nspaces = rc.nspaces
  tabs : rc.ntabs = rc.datums.countP (fun d => hasTabs d.tk)

theorem Column.ok_empty : Column.Ok {} := ⟨by simp, by simp, by simp, by simp, by simp⟩

theorem Column.Ok.add {rc : Column} (h : rc.Ok) (d : Datum) : (rc.add d).Ok := by
  refine ⟨?_, ?_, ?_, ?_, ?_⟩
  · intro x hx
    simp only [Column.add, List.mem_append, List.mem_singleton] at hx ⊢
    rcases hx with hx | rfl
    · have := h.le x hx
      constructor <;> split <;> omega
    · constructor <;> split <;> omega
  · intro e; simp [Column.add] at e
  · intro _
    by_cases hc : d.len > rc.len
    · exact ⟨d, by simp [Column.add], by simp [Column.add, hc]⟩
    · by_cases hne : rc.datums = []
      · refine ⟨d, by simp [Column.add], ?_⟩
        have := h.none hne
        simp only [Column.add, if_neg hc]
        omega
      · obtain ⟨x, hx, e⟩ := h.longest hne
        exact ⟨x, by simp [Column.add, hx], by simp [Column.add, hc, e]⟩
  · by_cases hc : d.nspaces > rc.nspaces
    · right; exact ⟨d, by simp [Column.add], by simp [Column.add, hc]⟩
    · rcases h.stars with h0 | ⟨x, hx, e⟩
      · left; simp only [Column.add]; rw [if_neg hc]; exact h0
      · right; exact ⟨x, by simp [Column.add, hx], by simp [Column.add, hc, e]⟩
  · simp only [Column.add, List.countP_append, List.countP_singleton, h.tabs]
    split <;> simp

theorem ok_modify (d : Datum) : ∀ (l : List Column) (i : Nat), (∀ rc ∈ l, rc.Ok) →
    ∀ rc ∈ l.modify i (·.add d), rc.Ok
  | [], _, h => by simp
  | x :: l, 0, h => by
    intro rc hrc
    simp only [List.modify_zero_cons, List.mem_cons] at hrc
    rcases hrc with rfl | hrc
    · exact (h x (List.mem_cons_self ..)).add d
    · exact h rc (List.mem_cons_of_mem _ hrc)
  | x :: l, i + 1, h => by
    intro rc hrc
    simp only [List.modify_succ_cons, List.mem_cons] at hrc
    rcases hrc with rfl | hrc
    · exact h _ (List.mem_cons_self ..)
    · exact ok_modify d l i (fun y hy => h y (List.mem_cons_of_mem _ hy)) rc hrc

theorem Built.ok {rl : Ruler} (h : Built rl) : ∀ rc ∈ rl.columns, rc.Ok := by
  induction h with
  | init n f => simp [Ruler.init]
  | @insert rl rl' d col _ hi ih =>
    unfold Ruler.insert at hi
    split at hi
    · simp at hi
    · simp only [Option.some.injEq] at hi
      subst hi
      refine ok_modify d _ _ ?_
      intro rc hrc
      rcases List.mem_append.mp hrc with hrc | hrc
      · exact ih rc hrc
      · rw [List.eq_of_mem_replicate hrc]; exact Column.ok_empty
  | @indent rl rl' pos _ hi ih =>
    unfold Ruler.indent at hi
    split at hi
    · simp at hi
    · split at hi
      · simp at hi
      · simp only [Option.some.injEq] at hi
        subst hi
        exact ih
  | remove _ ih => exact ih

/-! ## From `exec` to the entries -/

theorem mapM_get {α β : Type} (f : α → Option β) : ∀ (l : List α) (r : List β), l.mapM f = some r →
    ∀ i : Nat, r[i]? = (l[i]?).bind f
  | [], r, h, i => by simp at h; subst h; simp
  | x :: l, r, h, i => by
    rw [List.mapM_cons] at h
    cases hx : f x with
    | none => simp [hx] at h
    | some y =>
      cases hl : l.mapM f with
      | none => simp [hx, hl] at h
      | some r' =>
        simp [hx, hl] at h
        subst h
        cases i with
        | zero => simp [hx]
        | succ i => simpa using mapM_get f l r' hl i

theorem mapM_length {α β : Type} (f : α → Option β) : ∀ (l : List α) (r : List β), l.mapM f = some r →
    r.length = l.length
  | [], r, h => by simp at h; subst h; rfl
  | x :: l, r, h => by
    rw [List.mapM_cons] at h
    cases hx : f x with
    | none => simp [hx] at h
    | some y =>
      cases hl : l.mapM f with
      | none => simp [hx, hl] at h
      | some r' =>
        simp [hx, hl] at h
        subst h
        simp [mapM_length f l r' hl]

theorem mapM_some {α β : Type} (f : α → Option β) : ∀ (l : List α), (∀ x ∈ l, (f x).isSome) →
    (l.mapM f).isSome
  | [], _ => by simp
  | x :: l, h => by
    rw [List.mapM_cons]
    obtain ⟨y, hy⟩ := Option.isSome_iff_exists.mp (h x (List.mem_cons_self ..))
    obtain ⟨r, hr⟩ := Option.isSome_iff_exists.mp
      (mapM_some f l (fun z hz => h z (List.mem_cons_of_mem _ hz)))
    simp [hy, hr]

theorem exec_columns {rl : Ruler} {out : List (List Align)} {is : List Int}
    (h : exec rl = some (out, is)) :
    ∃ cols, rl.columns.mapM (execColumn rl) = some cols ∧ out = cols.map (·.2) := by
  unfold exec at h
  split at h
  · simp at h
  · next cols hc =>
    refine ⟨cols, hc, ?_⟩
    split at h
    · simp only [Option.some.injEq, Prod.mk.injEq] at h
      exact h.1.symm
    · split at h
      · rw [Option.map_eq_some_iff] at h
        obtain ⟨is', _, e⟩ := h
        simp only [Prod.mk.injEq] at e
        simp [← e.1]
      · simp at h

/-- The column a datum is in is executed, and its alignment comes from there. -/
theorem entry_column {rl : Ruler} {out : List (List Align)} {is : List Int} {k : Nat}
    (h : exec rl = some (out, is)) {rc : Column} (hk : rl.columns[k]? = some rc) {as : List Align}
    (ho : out[k]? = some as) : ∃ rc', execColumn rl rc = some (rc', as) := by
  obtain ⟨cols, hc, e⟩ := exec_columns h
  have := mapM_get _ _ _ hc k
  rw [hk] at this
  subst e
  simp only [List.getElem?_map, Option.map_eq_some_iff] at ho
  obtain ⟨⟨rc', as'⟩, h1, h2⟩ := ho
  rw [this] at h1
  dsimp only at h2
  subst h2
  exact ⟨rc', by simpa using h1⟩

/-- `columnLength` changes at most the number of spaces. -/
theorem columnLength_frame {rl : Ruler} {rc rc' : Column} {l : Option Length}
    (h : columnLength rl rc = some (rc', l)) : rc'.datums = rc.datums ∧ rc'.len = rc.len ∧
      rc'.ntabs = rc.ntabs := by
  have ha : ∀ rc₁ m, columnAlignment rc = some (rc₁, m) →
      rc₁.datums = rc.datums ∧ rc₁.len = rc.len ∧ rc₁.ntabs = rc.ntabs := by
    intro rc₁ m h
    unfold columnAlignment at h
    split at h
    · simp only [Option.some.injEq, Prod.mk.injEq] at h; rw [← h.1]; exact ⟨rfl, rfl, rfl⟩
    · split at h
      · simp only [Option.some.injEq, Prod.mk.injEq] at h; rw [← h.1]; exact ⟨rfl, rfl, rfl⟩
      · simp at h
      · simp only [Option.some.injEq, Prod.mk.injEq] at h; rw [← h.1]; exact ⟨rfl, rfl, rfl⟩
  unfold columnLength at h
  split at h
  · simp only [Option.some.injEq, Prod.mk.injEq] at h; rw [← h.1]; exact ⟨rfl, rfl, rfl⟩
  split at h
  · simp only [Option.some.injEq, Prod.mk.injEq] at h; rw [← h.1]; exact ⟨rfl, rfl, rfl⟩
  split at h
  · simp only [Option.some.injEq, Prod.mk.injEq] at h; rw [← h.1]; exact ⟨rfl, rfl, rfl⟩
  split at h
  · split at h
    · simp at h
    · next rc₁ e =>
      split at h <;>
      · simp only [Option.some.injEq, Prod.mk.injEq] at h
        obtain ⟨h, _⟩ := h
        subst h
        exact ha _ _ e
    · next rc₁ m e =>
      simp only [Option.some.injEq, Prod.mk.injEq] at h
      obtain ⟨h, _⟩ := h
      subst h
      exact ha _ _ e
  split at h
  · simp only [Option.some.injEq, Prod.mk.injEq] at h; rw [← h.1]; exact ⟨rfl, rfl, rfl⟩
  · simp only [Option.some.injEq, Prod.mk.injEq] at h; rw [← h.1]; exact ⟨rfl, rfl, rfl⟩

/-- What `execColumn` gives for an entry. -/
theorem execColumn_entry {rl : Ruler} {rc rc' : Column} {as : List Align}
    (h : execColumn rl rc = some (rc', as)) {i : Nat} {d : Datum} {a : Align}
    (hd : rc.datums[i]? = some d) (ha : as[i]? = some a) :
    (columnLength rl rc = some (rc', none) ∧ a = dflt) ∨
      ∃ L, columnLength rl rc = some (rc', some L) ∧ execDatum rl rc' L d = some a := by
  unfold execColumn at h
  split at h
  · simp at h
  · next rc₁ e =>
    simp only [Option.some.injEq, Prod.mk.injEq] at h
    obtain ⟨rfl, rfl⟩ := h
    left
    refine ⟨e, ?_⟩
    rw [List.getElem?_map, (columnLength_frame e).1, hd] at ha
    simpa using ha.symm
  · next rc₁ L e =>
    right
    rw [Option.map_eq_some_iff] at h
    obtain ⟨l, hl, h⟩ := h
    simp only [Prod.mk.injEq] at h
    obtain ⟨rfl, rfl⟩ := h
    have := mapM_get _ _ _ hl i
    rw [(columnLength_frame e).1, hd, ha] at this
    exact ⟨L, e, by simpa using this.symm⟩

/-- Where an aligned entry starts. -/
theorem startsAt_aligned {rl : Ruler} {rc : Column} {L : Length} {d : Datum} {a : Align} {s : Nat}
    (hf : rl.flags.fixed = false) (hn : d.nspaces ≤ rc.nspaces) (hl : d.len ≤ L.max)
    (ha : execDatum rl rc L d = some a)
    (hg : L.tabalign = true → d.len < L.max ∨ (s + L.max) % 8 = 0) :
    startsAt s d a = (if L.tabalign then up8 (s + L.max) else s + L.max) + rc.nspaces := by
  unfold execDatum at ha
  rw [hf, if_neg (by simp), if_neg (by omega)] at ha
  simp only [Option.some.injEq] at ha
  subst ha
  unfold startsAt
  rw [execAlign_col]
  dsimp only
  by_cases ht : L.tabalign = true
  · rw [if_pos ht, if_pos ht]
    unfold up8
    have := hg ht
    split <;> omega
  · rw [if_neg ht, if_neg ht]
    omega

/-- All entries of one aligned column start at the same place. -/
theorem column_aligned {rl : Ruler} (hb : Built rl) {out : List (List Align)} {is : List Int}
    (he : exec rl = some (out, is)) (hf : rl.flags.fixed = false) {k : Nat} {rc rc' : Column}
    {L : Length} (hk : rl.columns[k]? = some rc) (hL : columnLength rl rc = some (rc', some L))
    (hn : rc.nspaces ≤ rc'.nspaces) {i : Nat} {d : Datum} {a : Align} (hi : Entry rl out k i d a)
    (hl : d.len ≤ L.max) {s : Nat} (hg : L.tabalign = true → d.len < L.max ∨ (s + L.max) % 8 = 0) :
    startsAt s d a = (if L.tabalign then up8 (s + L.max) else s + L.max) + rc'.nspaces := by
  obtain ⟨rc₁, as, h1, h2, h3, h4⟩ := hi
  rw [hk] at h1
  obtain rfl : rc = rc₁ := by simpa using h1
  obtain ⟨rc₂, hx⟩ := entry_column he hk h3
  have hle := hb.ok rc (List.mem_of_getElem? hk) |>.le d (List.mem_of_getElem? h2)
  rcases execColumn_entry hx h2 h4 with ⟨hl', _⟩ | ⟨L', hL', hd⟩
  · rw [hL] at hl'; simp at hl'
  · rw [hL] at hL'
    simp only [Option.some.injEq, Prod.mk.injEq] at hL'
    obtain ⟨rfl, rfl⟩ := hL'
    exact startsAt_aligned hf (by omega) hl hd hg

/-! ## The modes of alignment -/

/-- With `RULER_ALIGN_MIN` every entry of a column starts one column after the
longest text, plus the room for the largest number of stars. -/
theorem min_aligned {rl : Ruler} (hb : Built rl) (hf : rl.flags = { min := true })
    {out : List (List Align)} {is : List Int} (he : exec rl = some (out, is)) {k : Nat} (s : Nat) :
    ∃ x, ∀ i d a, Entry rl out k i d a → startsAt s d a = x ∧ s + d.len < x := by
  cases hk : rl.columns[k]? with
  | none => exact ⟨0, fun i d a ⟨_, _, h, _⟩ => by simp [hk] at h⟩
  | some rc =>
    have hL : columnLength rl rc = some (rc, some ⟨rc.len + 1, false⟩) := by
      simp [columnLength, hf]
    refine ⟨s + (rc.len + 1) + rc.nspaces, fun i d a hi => ?_⟩
    obtain ⟨rc₁, as, h1, h2, h3, h4⟩ := id hi
    rw [hk] at h1
    obtain rfl : rc = rc₁ := by simpa using h1
    have hle := hb.ok rc (List.mem_of_getElem? hk) |>.le d (List.mem_of_getElem? h2)
    refine ⟨?_, by omega⟩
    simpa using column_aligned hb he (by simp [hf]) hk hL (Nat.le_refl _) hi (by dsimp only; omega)
      (s := s) (by simp)

/-- With `RULER_ALIGN_MAX` every entry whose text fits in the given width starts
at that width. -/
theorem max_aligned {rl : Ruler} (hb : Built rl) (hf : rl.flags = { max := true })
    {out : List (List Align)} {is : List Int} (he : exec rl = some (out, is)) {k : Nat} (s : Nat) :
    ∃ x, ∀ i d a, Entry rl out k i d a → d.len ≤ rl.align → startsAt s d a = x ∧ s + rl.align ≤ x := by
  cases hk : rl.columns[k]? with
  | none => exact ⟨0, fun i d a ⟨_, _, h, _⟩ => by simp [hk] at h⟩
  | some rc =>
    have hL : columnLength rl rc = some (rc, some ⟨rl.align, false⟩) := by
      simp [columnLength, hf]
    refine ⟨s + rl.align + rc.nspaces, fun i d a hi hl => ⟨?_, by omega⟩⟩
    simpa using column_aligned hb he (by simp [hf]) hk hL (Nat.le_refl _) hi hl (s := s) (by simp)

/-- The same with tabs, if the width is a tab stop. -/
theorem max_tabs_aligned_partial {rl : Ruler} (hb : Built rl)
    (hf : rl.flags = { max := true, tabs := true }) {out : List (List Align)} {is : List Int}
    (he : exec rl = some (out, is)) {k : Nat} (s : Nat) (h8 : (s + rl.align) % 8 = 0) :
    ∃ x, ∀ i d a, Entry rl out k i d a → d.len ≤ rl.align → startsAt s d a = x ∧ s + rl.align ≤ x := by
  cases hk : rl.columns[k]? with
  | none => exact ⟨0, fun i d a ⟨_, _, h, _⟩ => by simp [hk] at h⟩
  | some rc =>
    have hL : columnLength rl rc = some (rc, some ⟨rl.align, true⟩) := by
      simp [columnLength, hf]
    refine ⟨up8 (s + rl.align) + rc.nspaces, fun i d a hi hl => ⟨?_, by unfold up8; omega⟩⟩
    simpa using column_aligned hb he (by simp [hf]) hk hL (Nat.le_refl _) hi hl (s := s)
      (fun _ => Or.inr h8)

/-- The text of an entry that does not fit is followed by nothing. -/
theorem max_overlong {rl : Ruler} (hf : rl.flags.max = true) (hm : rl.flags.min = false)
    (hx : rl.flags.fixed = false) {out : List (List Align)} {is : List Int}
    (he : exec rl = some (out, is)) {k i : Nat} {d : Datum} {a : Align} (hi : Entry rl out k i d a)
    (hl : rl.align < d.len) (σ : St) : (execAlign a σ).buf = σ.buf := by
  obtain ⟨rc, as, h1, h2, h3, h4⟩ := hi
  obtain ⟨rc₂, hc⟩ := entry_column he h1 h3
  have hL : columnLength rl rc = some (rc, some ⟨rl.align, rl.flags.tabs⟩) := by
    simp [columnLength, hf, hm]
  rcases execColumn_entry hc h2 h4 with ⟨h, _⟩ | ⟨L, h, hd⟩
  · rw [hL] at h; simp at h
  · rw [hL] at h
    simp only [Option.some.injEq, Prod.mk.injEq] at h
    obtain ⟨rfl, rfl⟩ := h
    simp only [execDatum, hx, hf, Bool.false_eq_true, if_false, if_true, gt_iff_lt, hl] at hd
    simp only [Option.some.injEq] at hd
    subst hd
    simp [execAlign, dflt, printIndent1, Knfmt.Util.strindent, Knfmt.Util.strindentSpaces_eq]

/-- With `RULER_ALIGN_FIXED` the text of every entry is followed by as many
spaces as given. -/
theorem fixed_spaces {rl : Ruler} (hf : rl.flags = { fixed := true })
    {out : List (List Align)} {is : List Int}
    (he : exec rl = some (out, is)) {k i : Nat} {d : Datum} {a : Align} (hi : Entry rl out k i d a)
    (σ : St) : (execAlign a σ).buf = List.replicate rl.align ' ' ++ σ.buf := by
  obtain ⟨rc, as, h1, h2, h3, h4⟩ := hi
  obtain ⟨rc₂, hc⟩ := entry_column he h1 h3
  have hL : columnLength rl rc = some (rc, some ⟨rl.align, false⟩) := by
    simp [columnLength, hf]
  rcases execColumn_entry hc h2 h4 with ⟨h, _⟩ | ⟨L, h, hd⟩
  · rw [hL] at h; simp at h
  · rw [hL] at h
    simp only [Option.some.injEq, Prod.mk.injEq] at h
    obtain ⟨rfl, rfl⟩ := h
    simp only [execDatum, hf, if_true, Option.some.injEq] at hd
    subst hd
    simp [execAlign, dflt, printIndent1, Knfmt.Util.strindent, Knfmt.Util.strindentSpaces_eq]

theorem minimize_len {rc : Column} (h : minimize rc = true) : rc.len % 8 = 0 ∧ rc.nspaces ≠ 0 := by
  unfold minimize at h
  split at h
  · simp at h
  · next hc =>
    simp only [Bool.or_eq_true, decide_eq_true_eq, not_or] at hc
    omega

/-- The guard of `column_aligned` for the code under the label `tabs`. -/
theorem tabs_guard {rc : Column} {d : Datum} (hd : d.len ≤ rc.len) {s : Nat}
    (h8 : s % 8 = 0 ∨ rc.nspaces = 0) :
    d.len < (tabsLength rc).max ∨ (s + (tabsLength rc).max) % 8 = 0 := by
  unfold tabsLength
  by_cases hm : minimize rc = true
  · have := minimize_len hm
    simp only [hm, if_true]
    omega
  · left
    simp only [hm, Bool.false_eq_true, if_false]
    omega

theorem tabsLength_le {rc : Column} {d : Datum} (hd : d.len ≤ rc.len) :
    d.len ≤ (tabsLength rc).max := by
  unfold tabsLength
  dsimp only
  split <;> omega

theorem execColumn_length {rl : Ruler} {rc rc' : Column} {as : List Align}
    (h : execColumn rl rc = some (rc', as)) : as.length = rc.datums.length := by
  unfold execColumn at h
  split at h
  · simp at h
  · next e =>
    simp only [Option.some.injEq, Prod.mk.injEq] at h
    rw [← h.2, List.length_map, (columnLength_frame e).1]
  · next e =>
    rw [Option.map_eq_some_iff] at h
    obtain ⟨l, hl, h⟩ := h
    simp only [Prod.mk.injEq] at h
    rw [← h.2, ← (columnLength_frame e).1]
    exact mapM_length _ _ _ hl

/-- No stars in a column in terms of its entries. -/
theorem no_stars {rl : Ruler} (hb : Built rl) {out : List (List Align)} {is : List Int}
    (he : exec rl = some (out, is)) {k : Nat} {rc : Column} (hk : rl.columns[k]? = some rc)
    {as : List Align} (ho : out[k]? = some as)
    (h : ∀ i d a, Entry rl out k i d a → d.nspaces = 0) : rc.nspaces = 0 := by
  obtain ⟨rc', hc⟩ := entry_column he hk ho
  have hlen := execColumn_length hc
  rcases (hb.ok rc (List.mem_of_getElem? hk)).stars with h0 | ⟨d, hd, e⟩
  · exact h0
  · obtain ⟨i, hi, hx⟩ := List.getElem_of_mem hd
    rw [← e]
    exact h i d as[i] ⟨rc, as, hk, by rw [List.getElem?_eq_getElem hi, hx], ho,
      List.getElem?_eq_getElem (by omega)⟩

/-- With `RULER_ALIGN_TABS` every entry of a column starts at the same place, if
lines start at a tab stop or no entry has stars. -/
theorem tabs_aligned_partial {rl : Ruler} (hb : Built rl) (hf : rl.flags = { tabs := true })
    {out : List (List Align)} {is : List Int} (he : exec rl = some (out, is)) {k : Nat} (s : Nat)
    (h8 : s % 8 = 0 ∨ ∀ i d a, Entry rl out k i d a → d.nspaces = 0) :
    ∃ x, ∀ i d a, Entry rl out k i d a → startsAt s d a = x ∧ s + d.len ≤ x := by
  cases hk : rl.columns[k]? with
  | none => exact ⟨0, fun i d a ⟨_, _, h, _⟩ => by simp [hk] at h⟩
  | some rc =>
    have hL : columnLength rl rc = some (rc, some (tabsLength rc)) := by
      simp [columnLength, hf]
    refine ⟨up8 (s + (tabsLength rc).max) + rc.nspaces, fun i d a hi => ?_⟩
    obtain ⟨rc₁, as, h1, h2, h3, h4⟩ := id hi
    rw [hk] at h1
    obtain rfl : rc = rc₁ := by simpa using h1
    have hok := hb.ok rc (List.mem_of_getElem? hk)
    have hle := hok.le d (List.mem_of_getElem? h2)
    have hmax := tabsLength_le hle.1
    refine ⟨?_, by unfold up8; omega⟩
    have := column_aligned hb he (by simp [hf]) hk hL (Nat.le_refl _) hi hmax
      (s := s) (fun _ => tabs_guard hle.1 ?_)
    · rw [this, if_pos (by rfl)]
    · rcases h8 with h8 | h8
      · exact Or.inl h8
      · right
        exact no_stars hb he hk h3 h8

/-! ## Sensed alignment -/

/-- What the lexer guarantees of the token an entry is aligned after, together
with texts and lines shorter than 4 GB: it has no tab and no newline. -/
structure Datum.Plain (d : Datum) : Prop where
  flat : ∀ c ∈ d.tk.str, c ≠ '\t' ∧ c ≠ '\n'
  cno : 1 ≤ d.tk.cno
  small : ∀ l c, d.tk.next = some (l, c) → d.len + c < 2 ^ 32

theorem column_flat : ∀ (s : List Char) (n : Nat), (∀ c ∈ s, c ≠ '\t' ∧ c ≠ '\n') →
    Knfmt.Spec.column n s = n + s.length
  | [], n, _ => rfl
  | c :: s, n, h => by
    have hc := h c (List.mem_cons_self ..)
    have := column_flat s (n + 1) (fun x hx => h x (List.mem_cons_of_mem _ hx))
    simp only [Knfmt.Spec.column, List.foldl_cons] at this ⊢
    rw [show Knfmt.Spec.advance n c = n + 1 by simp [Knfmt.Spec.advance, hc.1, hc.2], this,
      List.length_cons]
    omega

theorem strwidth_flat {d : Datum} (h : d.Plain) :
    Knfmt.Util.strwidth d.tk.str d.tk.cno = d.tk.cno + d.tk.str.length := by
  rw [(Knfmt.Util.strwidth_spec _ _).2, column_flat _ _ h.flat]

theorem colwidth_flat {d : Datum} (h : d.Plain) :
    colwidth d.tk.str d.tk.cno = d.tk.cno + d.tk.str.length := by
  have := h.cno
  rw [colwidth, Knfmt.Util.colwidth_spec _ _ h.cno, column_flat _ _ h.flat, Option.getD_some]
  omega

/-- The loop of `ruler_column_alignment` that compares columns. -/
theorem senseLoop {rc : Column} {n : Nat} : ∀ (l : List Datum) (st st' : Nat × Option Tok),
    l.foldlM (senseStep rc n) st = some st' →
    (∀ d ∈ l, ∃ c, d.tk.next = some (d.tk.lno, c) ∧ n - d.nspaces ≤ c ∧
      st'.1 = c - (n - d.nspaces) ∧ colwidth d.tk.str d.tk.cno < st'.1) ∧
    (st.1 ≠ 0 → st'.1 = st.1) ∧
    (st'.2 = st.2 ∨ ∃ d ∈ l, d.len = rc.len ∧ st'.2 = some d.tk) ∧
    ((∃ d ∈ l, d.len = rc.len) → ∃ d ∈ l, d.len = rc.len ∧ st'.2 = some d.tk)
  | [], st, st', h => by
    simp at h; subst h; simp
  | d :: l, st, st', h => by
    rw [List.foldlM_cons] at h
    cases h1 : senseStep rc n st d with
    | none => simp [h1] at h
    | some st₁ =>
      simp only [h1, Option.bind_eq_bind, Option.bind_some] at h
      obtain ⟨i1, i2, i3, i4⟩ := senseLoop l st₁ st' h
      unfold senseStep at h1
      split at h1
      · simp at h1
      split at h1
      · simp at h1
      next lno c hn =>
      split at h1
      · simp at h1
      next hl =>
      dsimp only at h1
      by_cases hs : n - d.nspaces > c
      · rw [if_pos hs] at h1; simp at h1
      rw [if_neg hs] at h1
      by_cases hw : colwidth d.tk.str d.tk.cno ≥ c - (n - d.nspaces)
      · rw [if_pos hw] at h1; simp at h1
      rw [if_neg hw] at h1
      by_cases hq : (st.1 ≠ 0 && st.1 ≠ c - (n - d.nspaces)) = true
      · rw [if_pos hq] at h1; simp at h1
      rw [if_neg hq] at h1
      simp only [Option.some.injEq] at h1
      have e1 : st₁.1 = c - (n - d.nspaces) := by rw [← h1]
      have e2 : st₁.2 = if d.len = rc.len then some d.tk else st.2 := by rw [← h1]
      have hne : st₁.1 ≠ 0 := by omega
      have e3 := i2 hne
      have hl' : lno = d.tk.lno := by simpa [eq_comm] using hl
      subst hl'
      refine ⟨?_, ?_, ?_, ?_⟩
      · intro x hx
        rcases List.mem_cons.mp hx with rfl | hx
        · exact ⟨c, hn, by omega, by omega, by omega⟩
        · exact i1 x hx
      · intro h0
        have : st.1 = c - (n - d.nspaces) := by simpa [h0] using hq
        omega
      · rcases i3 with i3 | ⟨x, hx, e⟩
        · rw [i3, e2]
          by_cases hlen : d.len = rc.len
          · right; exact ⟨d, List.mem_cons_self .., hlen, by simp [hlen]⟩
          · left; simp [hlen]
        · right; exact ⟨x, List.mem_cons_of_mem _ hx, e⟩
      · intro hex
        rcases i3 with i3 | ⟨x, hx, e⟩
        · by_cases hlen : d.len = rc.len
          · exact ⟨d, List.mem_cons_self .., hlen, by rw [i3, e2, if_pos hlen]⟩
          · obtain ⟨x, hx, e⟩ := hex
            rcases List.mem_cons.mp hx with rfl | hx
            · exact absurd e hlen
            · obtain ⟨y, hy, e⟩ := i4 ⟨x, hx, e⟩
              exact ⟨y, List.mem_cons_of_mem _ hy, e⟩
        · exact ⟨x, List.mem_cons_of_mem _ hx, e⟩

theorem senseSpaces_ge {rc : Column} {n : Nat} (h : senseSpaces rc = some n) : rc.nspaces ≤ n := by
  unfold senseSpaces at h
  split at h
  · next hc => simp only [Bool.and_eq_true, decide_eq_true_eq] at hc; omega
  · simp only [Option.some.injEq] at h; omega

/-- What `ruler_column_alignment` returns: no alignment, or one that is wider than
any text and that keeps the distance after a longest text. -/
theorem columnAlignment_spec {rc rc' : Column} {m : Nat}
    (hp : ∀ d ∈ rc.datums, d.Plain) (h : columnAlignment rc = some (rc', m)) :
    (rc' = rc ∧ m = 0) ∨
    (rc.nspaces ≤ rc'.nspaces ∧ ∃ d ∈ rc.datums, d.len = rc.len ∧ ∃ c,
      d.tk.next = some (d.tk.lno, c) ∧
      m = d.len + (c - (rc'.nspaces - d.nspaces) - (d.tk.cno + d.tk.str.length)) ∧
      rc'.nspaces - d.nspaces ≤ c ∧
      d.tk.cno + d.tk.str.length < c - (rc'.nspaces - d.nspaces)) := by
  unfold columnAlignment at h
  split at h
  · simp only [Option.some.injEq, Prod.mk.injEq] at h; left; exact ⟨h.1.symm, h.2.symm⟩
  next n hn =>
  split at h
  · simp only [Option.some.injEq, Prod.mk.injEq] at h; left; exact ⟨h.1.symm, h.2.symm⟩
  · simp at h
  next cno tk hfold =>
  simp only [Option.some.injEq, Prod.mk.injEq] at h
  obtain ⟨h1, h2, h3, h4⟩ := senseLoop _ _ _ hfold
  obtain ⟨d, hd, hlen, htk⟩ : ∃ d ∈ rc.datums, d.len = rc.len ∧ some tk = some d.tk := by
    rcases h3 with h3 | h3
    · simp at h3
    · exact h3
  obtain ⟨c, hc1, hc2, hc3, hc4⟩ := h1 d hd
  simp only [Option.some.injEq] at htk
  subst htk
  dsimp only at hc3 hc4
  have hP := hp d hd
  rw [colwidth_flat hP] at hc4
  rw [strwidth_flat hP] at h
  obtain ⟨e1, e2⟩ := h
  subst e1
  have hs := hP.small _ _ hc1
  right
  refine ⟨senseSpaces_ge hn, d, hd, hlen, c, hc1, ?_, hc2, by dsimp only; omega⟩
  dsimp only
  rw [← e2]
  have : ((rc.len : Int) + cno - ((d.tk.cno + d.tk.str.length : Nat) : Int)) % 2 ^ 32 =
      (rc.len : Int) + cno - ((d.tk.cno + d.tk.str.length : Nat) : Int) := by
    apply Int.emod_eq_of_lt <;> omega
  rw [this]
  omega

/-- The lengths `ruler_column_length` gives with `RULER_ALIGN_SENSE`. -/
theorem sense_length {rl : Ruler} (hf : rl.flags = { sense := true }) {rc rc' : Column} {L : Length}
    (hp : ∀ d ∈ rc.datums, d.Plain) (h : columnLength rl rc = some (rc', some L)) :
    rc.nspaces ≤ rc'.nspaces ∧ (L = tabsLength rc ∧ rc' = rc ∨ rc.len < L.max) := by
  simp only [columnLength, hf, Bool.false_eq_true, if_false, if_true] at h
  split at h
  · simp at h
  · next rc₁ e =>
    split at h
    · simp only [Option.some.injEq, Prod.mk.injEq] at h
      obtain ⟨rfl, rfl⟩ := h
      rcases columnAlignment_spec hp e with ⟨rfl, _⟩ | ⟨h1, d, hd, h2, c, h3, h4, h5, h6⟩
      · exact ⟨Nat.le_refl _, Or.inl ⟨rfl, rfl⟩⟩
      · omega
    · simp at h
  · next rc₁ m e =>
    simp only [Option.some.injEq, Prod.mk.injEq] at h
    obtain ⟨rfl, rfl⟩ := h
    rcases columnAlignment_spec hp e with ⟨_, h⟩ | ⟨h1, d, hd, h2, c, h3, h4, h5, h6⟩
    · omega
    · exact ⟨h1, Or.inr (by dsimp only; omega)⟩

/-- With `RULER_ALIGN_SENSE` a column is either left alone, in which case every
text is followed by one space, or all its entries start at the same place, if
lines start at a tab stop or no entry has stars. -/
theorem sense_aligned_partial {rl : Ruler} (hb : Built rl) (hf : rl.flags = { sense := true })
    (hp : ∀ rc ∈ rl.columns, ∀ d ∈ rc.datums, d.Plain)
    {out : List (List Align)} {is : List Int} (he : exec rl = some (out, is)) (k : Nat) :
    (∀ i d a, Entry rl out k i d a → a = dflt) ∨
    ∀ s, (s % 8 = 0 ∨ ∀ i d a, Entry rl out k i d a → d.nspaces = 0) →
      ∃ x, ∀ i d a, Entry rl out k i d a → startsAt s d a = x ∧ s + d.len ≤ x := by
  cases hk : rl.columns[k]? with
  | none => exact Or.inl fun i d a ⟨_, _, h, _⟩ => by simp [hk] at h
  | some rc =>
    have hmem := List.mem_of_getElem? hk
    have hok := hb.ok rc hmem
    cases hL : columnLength rl rc with
    | none =>
      left
      rintro i d a ⟨rc₁, as, h1, h2, h3, h4⟩
      obtain ⟨rc', hc⟩ := entry_column he h1 h3
      obtain rfl : rc = rc₁ := by rw [hk] at h1; simpa using h1
      simp [execColumn, hL] at hc
    | some p =>
      obtain ⟨rc', l⟩ := p
      cases l with
      | none =>
        left
        rintro i d a ⟨rc₁, as, h1, h2, h3, h4⟩
        obtain ⟨rc'', hc⟩ := entry_column he h1 h3
        obtain rfl : rc = rc₁ := by rw [hk] at h1; simpa using h1
        rcases execColumn_entry hc h2 h4 with ⟨_, h⟩ | ⟨L, h, _⟩
        · exact h
        · rw [hL] at h; simp at h
      | some L =>
        right
        intro s h8
        obtain ⟨hn, hmax⟩ := sense_length hf (hp rc hmem) hL
        refine ⟨(if L.tabalign then up8 (s + L.max) else s + L.max) + rc'.nspaces,
          fun i d a hi => ?_⟩
        obtain ⟨rc₁, as, h1, h2, h3, h4⟩ := id hi
        obtain rfl : rc = rc₁ := by rw [hk] at h1; simpa using h1
        have hle := hok.le d (List.mem_of_getElem? h2)
        have hdl : d.len ≤ L.max := by
          rcases hmax with ⟨e, _⟩ | hmax
          · rw [e]; exact tabsLength_le hle.1
          · omega
        refine ⟨column_aligned hb he (by simp [hf]) hk hL hn hi hdl (fun _ => ?_), ?_⟩
        · rcases hmax with ⟨e, _⟩ | hmax
          · rw [e]
            refine tabs_guard hle.1 ?_
            rcases h8 with h8 | h8
            · exact Or.inl h8
            · exact Or.inr (no_stars hb he hk h3 h8)
          · left; omega
        · unfold up8; split <;> omega

end Knfmt.Ruler
