import Verif.Cpp.AlignProps
/-!
# Aligning backslashes twice
-/
namespace Knfmt.CppAlign

open Knfmt.Comment (isSpace)
open Knfmt.Doc (Align Doc Env)

/-! ## Specification -/

/-- The first three lines fit in the limit, with their backslashes. -/
def Fit (limit : Nat) (ls : List (List Char × List Char × List Char)) : Prop :=
  ∀ l ∈ ls.take 3, Knfmt.Spec.column 0 (l.1 ++ l.2.2) + 2 ≤ limit

/-- All backslashes are in the same column, but possibly for the first one if it follows a
single space, and one of the first three follows something else than a single space. -/
def Flush (ls : List (List Char × List Char × List Char)) : Prop :=
  (∃ l ∈ ls.take 3, l.2.2 ≠ [] ∧ l.2.2 ≠ [' ']) ∧
  ∃ x, (∀ l ∈ ls.tail, Knfmt.Spec.column 0 (l.1 ++ l.2.2) = x) ∧
    ∀ l, ls.head? = some l → l.2.2 = [' '] ∨ Knfmt.Spec.column 0 (l.1 ++ l.2.2) = x

/-! ## Splitting the result -/

theorem takeWhile_line {a b : List Char} (h : '\n' ∉ a) :
    (a ++ '\n' :: b).takeWhile (· ≠ '\n') = a ∧ (a ++ '\n' :: b).dropWhile (· ≠ '\n') = '\n' :: b := by
  have hp : ∀ c ∈ a, (decide (c ≠ '\n')) = true := by
    intro c hc
    simp only [decide_eq_true_eq]
    rintro rfl
    exact h hc
  rw [List.takeWhile_append_of_pos hp, List.dropWhile_append_of_pos hp]
  simp

theorem nextline_render {l : Line} {r : List Char} (h1 : '\n' ∉ l.text ++ l.ws)
    (h2 : ∀ c ∈ l.ws, isSpace c = true) (h3 : ∀ c, l.text.getLast? = some c → isSpace c = false) :
    nextline (l.text ++ l.ws ++ ['\\', '\n'] ++ r) = some (l, r) := by
  have e : l.text ++ l.ws ++ ['\\', '\n'] ++ r = (l.text ++ l.ws ++ ['\\']) ++ '\n' :: r := by simp
  obtain ⟨k1, k2⟩ := takeWhile_line (a := l.text ++ l.ws ++ ['\\']) (b := r) (by
    intro h
    rcases List.mem_append.mp h with h | h
    · exact h1 h
    · simp at h)
  unfold nextline
  rw [e, k1, k2]
  simp only [List.getLast?_concat, if_true, List.dropLast_concat]
  have e2 : ((l.text ++ l.ws).reverse.dropWhile isSpace).reverse = l.text := by
    rw [List.reverse_append, List.dropWhile_append_of_pos (fun c hc => h2 c (List.mem_reverse.mp hc))]
    cases ht : l.text.reverse with
    | nil => simp at ht; simp [ht]
    | cons c t =>
      have hc : isSpace c = false := h3 c (by rw [← List.head?_reverse, ht]; rfl)
      rw [List.dropWhile_cons_of_neg (by simp [hc]), ← ht, List.reverse_reverse]
  rw [e2, List.drop_left]

theorem split_render : ∀ (ls : List Line) (rest : List Char),
    (∀ l ∈ ls, '\n' ∉ l.text ++ l.ws ∧ (∀ c ∈ l.ws, isSpace c = true) ∧
      ∀ c, l.text.getLast? = some c → isSpace c = false) → nextline rest = none →
    split (render (ls.map fun l => (l.text, l.ws)) rest) = (ls, rest)
  | [], rest, _, h => by rw [split_eq]; simp [render, h]
  | l :: ls, rest, hl, h => by
    obtain ⟨h1, h2, h3⟩ := hl l (List.mem_cons_self ..)
    have ih := split_render ls rest (fun x hx => hl x (List.mem_cons_of_mem _ hx)) h
    have e : render ((l :: ls).map fun l => (l.text, l.ws)) rest =
        l.text ++ l.ws ++ ['\\', '\n'] ++ render (ls.map fun l => (l.text, l.ws)) rest := by
      simp [render]
    rw [split_eq, e, nextline_render h1 h2 h3]
    simp [ih]

/-! ## The white space written -/

/-- Tabs only or spaces only. -/
def Run (t : Bool) (p : List Char) : Prop := ∃ k, p = List.replicate k (if t then '\t' else ' ')

theorem run_align {t : Bool} {a : Align} {c : Nat} (h0 : a.spaces = 0)
    (h : a.tabalign = t ∨ a.indent = 0) : Run t (Knfmt.Doc.Spec.alignText a c) := by
  unfold Knfmt.Doc.Spec.alignText
  rw [h0]
  rcases h with h | h
  · rw [h]
    cases t
    · exact ⟨_, rfl⟩
    · simp only [if_true, List.replicate_zero, List.append_nil]
      exact ⟨_, rfl⟩
  · rw [h]
    exact ⟨0, by simp⟩

theorem run_pad {env : Env} {al : Alignment} (ha : al.mode ≠ .dontAlign)
    (ho : al.mode ≠ .other) {m : Nat} {l : Line} :
    Run al.tabs (pad l (some (lineAlign al m (textWidth env l)))) := by
  unfold pad
  dsimp only
  cases hm : al.mode with
  | dontAlign => exact absurd hm ha
  | other => exact absurd hm ho
  | left => exact run_align (by simp [lineAlign, hm]) (Or.inl (by simp [lineAlign, hm]))
  | right =>
    by_cases hw : textWidth env l > al.width
    · exact run_align (by simp [lineAlign, hm, hw]) (Or.inr (by simp [lineAlign, hm, hw]))
    · exact run_align (by simp [lineAlign, hm, hw]) (Or.inl (by simp [lineAlign, hm, hw]))

theorem column_tabs_lt : ∀ (k n : Nat), n + k ≤ Knfmt.Spec.column n (List.replicate k '\t')
  | 0, n => by simp [Knfmt.Spec.column]
  | k + 1, n => by
    rw [List.replicate_succ, Knfmt.Util.column_cons]
    have := column_tabs_lt k (Knfmt.Spec.advance n '\t')
    have h : n + 1 ≤ Knfmt.Spec.advance n '\t' := by
      simp [Knfmt.Spec.advance, Knfmt.Spec.nextTabStop]; omega
    omega

theorem run_unique {t : Bool} {p q : List Char} {n : Nat} (hp : Run t p) (hq : Run t q)
    (h : Knfmt.Spec.column n p = Knfmt.Spec.column n q) : p = q := by
  obtain ⟨j, rfl⟩ := hp
  obtain ⟨k, rfl⟩ := hq
  cases t with
  | false =>
    simp only [Bool.false_eq_true, if_false, Knfmt.Doc.column_spaces] at h
    have : j = k := by omega
    rw [this]
  | true =>
    simp only [if_true] at h ⊢
    have key : ∀ (j d n : Nat), Knfmt.Spec.column n (List.replicate j '\t') =
        Knfmt.Spec.column n (List.replicate (j + d) '\t') → d = 0 := by
      intro j d n h
      rw [← List.replicate_append_replicate, Knfmt.Util.column_append] at h
      have := column_tabs_lt d (Knfmt.Spec.column n (List.replicate j '\t'))
      omega
    rcases Nat.le_total j k with hjk | hjk
    · have := key j (k - j) n (by rw [show j + (k - j) = k by omega]; exact h)
      rw [show j = k by omega]
    · have := key k (j - k) n (by rw [show k + (j - k) = j by omega]; exact h.symm)
      rw [show j = k by omega]

theorem run_classify {t : Bool} {l : Line} (h : Run t l.ws) :
    classify l = if l.ws = [] then .none else if t then .tabs else .spaces := by
  obtain ⟨k, hk⟩ := h
  unfold classify
  cases k with
  | zero => simp at hk; simp [hk]
  | succ k => rw [List.replicate_succ] at hk; cases t <;> simp [hk]

theorem run_isNotAligned {t : Bool} {l : Line} (h : Run t l.ws) :
    isNotAligned l = decide (l.ws = [' ']) := by
  obtain ⟨k, hk⟩ := h
  unfold isNotAligned
  match k with
  | 0 => simp at hk; simp [hk]
  | 1 => cases t <;> simp [hk]
  | k + 2 => cases t <;> simp [hk, List.replicate_succ]

/-- The lines after the alignment. -/
def redo (env : Env) (al : Alignment) (m : Nat) (ls : List Line) : List Line :=
  let f := fun l : Line => (⟨l.text, pad l (some (lineAlign al m (textWidth env l)))⟩ : Line)
  if al.skip then
    match ls with
    | [] => []
    | l :: ls => ⟨l.text, [' ']⟩ :: ls.map f
  else ls.map f

theorem zip_map_self {α β γ : Type} (f : α → β) (g : α × β → γ) : ∀ ls : List α,
    (ls.zip (ls.map f)).map g = ls.map fun l => g (l, f l)
  | [] => rfl
  | l :: ls => by simp [zip_map_self f g ls]

theorem triples_redo (env : Env) (al : Alignment) (m : Nat) (ls : List Line) :
    (triples env al m ls).map (fun t => (t.1, t.2.2)) =
      (redo env al m ls).map fun l => (l.text, l.ws) := by
  unfold triples pads redo
  dsimp only
  split
  · cases ls with
    | nil => rfl
    | cons l ls =>
      simp only [List.tail_cons, List.zip_cons_cons, List.map_cons, zip_map_self, List.map_map]
      rfl
  · rw [zip_map_self, List.map_map, List.map_map]
    rfl

theorem redo_text (env : Env) (al : Alignment) (m : Nat) (ls : List Line) :
    (redo env al m ls).map Line.text = ls.map Line.text := by
  unfold redo
  dsimp only
  split
  · cases ls with
    | nil => rfl
    | cons l ls => simp
  · simp

theorem textWidth_text {env : Env} {l l' : Line} (h : l.text = l'.text) :
    textWidth env l = textWidth env l' := by
  unfold textWidth textDoc
  rw [h]

theorem lineColumn_text {env : Env} : ∀ (es es' : List Line) (rc : Knfmt.Ruler.Column),
    es.map Line.text = es'.map Line.text →
    es.foldl (fun rc l => rc.add (datum env l)) rc = es'.foldl (fun rc l => rc.add (datum env l)) rc
  | [], [], _, _ => rfl
  | [], _ :: _, _, h => by simp at h
  | _ :: _, [], _, h => by simp at h
  | l :: es, l' :: es', rc, h => by
    simp only [List.map_cons, List.cons.injEq] at h
    have e : datum env l = datum env l' := by unfold datum; rw [textWidth_text h.1]
    rw [List.foldl_cons, List.foldl_cons, e, lineColumn_text es es' _ h.2]

theorem widest_text {env : Env} {al : Alignment} {ls ls' : List Line}
    (h : ls.map Line.text = ls'.map Line.text) : widest env al ls = widest env al ls' := by
  unfold widest lineColumn
  split
  · rw [lineColumn_text ls.tail ls'.tail {} (by rw [List.map_tail, List.map_tail, h])]
  · rw [lineColumn_text ls ls' {} h]

theorem redo_redo (env : Env) (al : Alignment) (m : Nat) (ls : List Line) :
    redo env al m (redo env al m ls) = redo env al m ls := by
  have key : ∀ l : Line, (⟨(⟨l.text, pad l (some (lineAlign al m (textWidth env l)))⟩ : Line).text,
      pad ⟨l.text, pad l (some (lineAlign al m (textWidth env l)))⟩
        (some (lineAlign al m (textWidth env
          ⟨l.text, pad l (some (lineAlign al m (textWidth env l)))⟩)))⟩ : Line) =
      ⟨l.text, pad l (some (lineAlign al m (textWidth env l)))⟩ := by
    intro l
    rw [textWidth_text (l' := l) rfl]
    rfl
  unfold redo
  dsimp only
  cases al.skip with
  | true =>
    cases ls with
    | nil => rfl
    | cons l ls =>
      simp only [if_true, List.map_map]
      congr 1
  | false =>
    simp only [Bool.false_eq_true, if_false, List.map_map]
    apply List.map_congr_left
    intro l _
    exact key l

/-! ## What is sensed in the result -/

theorem sense_flush {st : Style} {a b c : Line} {ls : List Line} {t : Bool} {x : Nat}
    (hfit : ∀ l ∈ [a, b, c], col l ≤ st.limit)
    (hq : ∃ l ∈ [a, b, c], l.ws ≠ [] ∧ l.ws ≠ [' '])
    (hr : ∀ l ∈ [a, b, c], Run t l.ws) (hb : width b = x) (hc : width c = x) :
    sense st (a :: b :: c :: ls) =
      some { mode := .right, width := x, tabs := t, skip := decide (a.ws = [' ']) } := by
  unfold sense
  dsimp only
  rw [show (a :: b :: c :: ls).take 3 = [a, b, c] from rfl]
  rw [if_neg (by
    rw [List.any_eq_true]
    rintro ⟨l, hl, h⟩
    simp only [decide_eq_true_eq] at h
    have := hfit l hl
    omega)]
  rw [if_neg (by
    rw [List.all_eq_true]
    intro h
    obtain ⟨l, hl, _, h2⟩ := hq
    have := h l hl
    rw [run_isNotAligned (hr l hl)] at this
    exact h2 (by simpa using this))]
  have hrb := run_classify (hr b (by simp))
  have hrc := run_classify (hr c (by simp))
  rw [if_pos (by
    simp only [List.length_cons, List.length_nil, List.tail_cons, allIdentical, hb, hc, hrb, hrc]
    by_cases h1 : b.ws = [] <;> by_cases h2 : c.ws = [] <;> simp [h1, h2])]
  have ht : allTabs [a, b, c] = t := by
    unfold allTabs
    cases t with
    | true =>
      rw [List.all_eq_true]
      intro l hl
      rw [run_classify (hr l hl)]
      by_cases h1 : l.ws = [] <;> simp [h1]
    | false =>
      rw [List.all_eq_false]
      obtain ⟨l, hl, h1, _⟩ := hq
      refine ⟨l, hl, ?_⟩
      rw [run_classify (hr l hl)]
      simp [h1]
  simp [ht, hc, run_isNotAligned (hr a (by simp))]

/-- A macro whose backslashes are aligned with the sensed alignment does not change. -/
theorem redo_flush {env : Env} (he : env.diff = none) {al : Alignment} {m : Nat} {ls : List Line}
    (hm : al.mode = .right) (h8 : al.tabs = true → al.width % 8 = 0)
    (hn : ∀ l ∈ ls, '\n' ∉ l.text ++ l.ws ∧ '\x00' ∉ l.text)
    (hw : ∀ l ∈ (if al.skip then ls.tail else ls), textWidth env l ≤ m)
    (hr : ∀ l ∈ ls, Run al.tabs l.ws)
    (hc : ∀ l ∈ (if al.skip then ls.tail else ls), width l = al.width)
    (hs : al.skip = true → ∀ l, ls.head? = some l → l.ws = [' ']) : redo env al m ls = ls := by
  have key : ∀ l ∈ ls, l ∈ (if al.skip then ls.tail else ls) →
      (⟨l.text, pad l (some (lineAlign al m (textWidth env l)))⟩ : Line) = l := by
    intro l hl hl'
    have ht : '\n' ∉ l.text := fun h => (hn l hl).1 (List.mem_append_left _ h)
    have h1 := column_line he ht (hn l hl).2 (hw l hl') (fun _ => h8)
    rw [hm] at h1
    dsimp only at h1
    have h2 := hc l hl'
    rw [width_eq l (hn l hl).1] at h2
    have h3 : Knfmt.Spec.column 0 l.text ≤ al.width := by
      rw [← h2, Knfmt.Util.column_append]
      obtain ⟨k, hk⟩ := hr l hl
      rw [hk]
      cases al.tabs
      · simp only [Bool.false_eq_true, if_false, Knfmt.Doc.column_spaces]; omega
      · have := column_tabs_lt k (Knfmt.Spec.column 0 l.text)
        simp only [if_true]; omega
    rcases h1 with h1 | ⟨_, h1⟩
    · have : pad l (some (lineAlign al m (textWidth env l))) = l.ws := by
        refine run_unique (n := Knfmt.Spec.column 0 l.text)
          (run_pad (by rw [hm]; decide) (by rw [hm]; decide)) (hr l hl) ?_
        rw [← Knfmt.Util.column_append, ← Knfmt.Util.column_append, h1, h2]
      rw [this]
    · omega
  unfold redo
  dsimp only
  cases hsk : al.skip with
  | true =>
    rw [if_pos rfl]
    cases ls with
    | nil => rfl
    | cons l ls =>
      rw [hsk] at key
      simp only [if_true, List.tail_cons] at key
      have := hs hsk l rfl
      dsimp only
      rw [List.cons.injEq]
      constructor
      · rw [← this]
      · exact (List.map_congr_left (fun x hx => key x (List.mem_cons_of_mem _ hx) hx)).trans (List.map_id' ls)
  | false =>
    rw [if_neg (by simp)]
    rw [hsk] at key
    exact (List.map_congr_left (fun x hx => key x hx (by simpa using hx))).trans (List.map_id' ls)

/-! ## Aligning twice -/

theorem cppAlign_aligned {st : Style} {s : List Char} (h1 : 2 ≤ (split s).1.length)
    (h2 : (alignment st (split s).1).mode ≠ .other) : ∃ out, cppAlign st s = .aligned out := by
  cases h : cppAlign st s with
  | aligned out => exact ⟨out, rfl⟩
  | failed => exact absurd h (cppAlign_total st s)
  | unchanged =>
    exfalso
    unfold cppAlign at h
    dsimp only at h
    rw [if_neg (by intro e; simp [e] at h1)] at h
    cases hr : rulerInit (alignment st (split s).1) with
    | none =>
      unfold rulerInit at hr
      split at hr <;> simp_all
    | some rl =>
      simp only [hr] at h
      rw [if_neg (by omega)] at h
      split at h <;> simp at h

/-- If the lines do not change the text does not change. -/
theorem cppAlign_same {st : Style} {s : List Char} (h0 : '\x00' ∉ s) (h1 : 2 ≤ (split s).1.length)
    (h2 : (alignment st (split s).1).mode ≠ .other)
    (h3 : redo { limit := st.limit, useTabs := st.useTabs } (alignment st (split s).1)
      (widest { limit := st.limit, useTabs := st.useTabs } (alignment st (split s).1) (split s).1)
      (split s).1 = (split s).1) : cppAlign st s = .aligned s := by
  obtain ⟨out, h⟩ := cppAlign_aligned h1 h2
  obtain ⟨_, _, _, ⟨rest, q1, q2, _⟩, h5⟩ := cppAlign_triples h0 h
  rw [h, q2, triples_redo, h3]
  conv => rhs; rw [q1]
  congr 2
  unfold triples
  rw [List.map_map]
  have : ((fun l : List Char × List Char × List Char => (l.1, l.2.1)) ∘
      fun p : Line × Option Align => (p.1.text, p.1.ws, pad p.1 p.2)) =
      (fun l : Line => (l.text, l.ws)) ∘ Prod.fst := rfl
  rw [this, ← List.map_map, List.map_fst_zip (Nat.le_of_eq h5.symm)]

theorem sense_short {st : Style} {ls : List Line} (h : ls.length < 3) :
    sense st ls = none ∨ sense st ls = some { mode := .dontAlign } ∧ ∀ l ∈ ls, isNotAligned l = true := by
  unfold sense
  dsimp only
  rw [List.take_of_length_le (by omega)]
  by_cases h1 : (ls.any fun l => decide (col l > st.limit)) = true
  · rw [if_pos h1]; exact Or.inl rfl
  rw [if_neg h1]
  by_cases h2 : ls.all isNotAligned = true
  · rw [if_pos h2]; exact Or.inr ⟨rfl, by simpa [List.all_eq_true] using h2⟩
  rw [if_neg h2, if_neg (by simp; omega)]
  exact Or.inl rfl

theorem skip_tabs {st : Style} {ls : List Line} (h : (alignment st ls).skip = true) :
    (alignment st ls).tabs = false := by
  obtain ⟨h1, h2, h3⟩ := skip_length h
  unfold alignment at h h2 ⊢
  cases e : sense st ls with
  | none => simp [e] at h
  | some al =>
    rw [e] at h h2
    simp only [Option.getD_some] at h h2 ⊢
    unfold sense at e
    dsimp only at e
    by_cases k1 : ((ls.take 3).any fun l => decide (col l > st.limit)) = true
    · rw [if_pos k1] at e; simp at e
    rw [if_neg k1] at e
    by_cases k2 : (ls.take 3).all isNotAligned = true
    · rw [if_pos k2] at e; simp only [Option.some.injEq] at e; subst e; simp at h
    rw [if_neg k2] at e
    by_cases k3 : (decide ((ls.take 3).length ≥ 3) && allIdentical (ls.take 3).tail) = true
    · rw [if_pos k3] at e
      simp only [Option.some.injEq] at e
      subst e
      dsimp only
      cases ls with
      | nil => simp at h1
      | cons l ls =>
        simp only [List.head?_cons, Option.map_some, Option.getD_some] at h3
        have : classify l = .spaces := by
          unfold isNotAligned at h3
          unfold classify
          cases hw : l.ws with
          | nil => simp [hw] at h3
          | cons c w => simp [hw] at h3; simp [h3.1]
        unfold allTabs
        rw [List.all_eq_false]
        exact ⟨l, by simp, by simp [this]⟩
    · rw [if_neg k3] at e; simp at e

theorem col_eq (l : Line) : col l = Knfmt.Spec.column 0 (l.text ++ l.ws) + 2 := by
  unfold col Knfmt.Ruler.colwidth
  rw [Knfmt.Util.colwidth_spec _ _ (Nat.le_refl 1), Option.getD_some, Knfmt.Util.column_append]
  simp [Knfmt.Spec.column, Knfmt.Spec.advance]

theorem redo_dontAlign {env : Env} {al : Alignment} {m : Nat} (hm : al.mode = .dontAlign)
    (hs : al.skip = false) {ls : List Line} (hl : ∀ l ∈ ls, l.ws = [' ']) : redo env al m ls = ls := by
  unfold redo
  dsimp only
  rw [hs, if_neg (by simp)]
  refine (List.map_congr_left fun l h => ?_).trans (List.map_id' ls)
  have : pad l (some (lineAlign al m (textWidth env l))) = l.ws := by
    rw [hl l h]
    simp [pad, lineAlign, hm, Knfmt.Doc.Spec.alignText]
  rw [this]

/-- Aligning the backslashes a second time changes nothing, if the first time each was put
after a single space or all in the same column, and the first lines fit. -/
theorem align_twice_partial {st : Style} {s out : List Char} (h0 : '\x00' ∉ s)
    (h : cppAlign st s = .aligned out) :
    ∃ ls, Realigned s out ls ∧
      ((∀ l ∈ ls, l.2.2 = [' ']) ∧ (st.mode = .dontAlign ∨ Fit st.limit ls) ∨
        Fit st.limit ls ∧ Flush ls → cppAlign st out = .aligned out) := by
  obtain ⟨h1, h2, h3, h4, h5⟩ := cppAlign_triples h0 h
  refine ⟨_, h4, fun hyp => ?_⟩
  obtain ⟨rest, q1, q2, q3, q4⟩ := h4
  generalize henv : ({ limit := st.limit, useTabs := st.useTabs } : Env) = env at *
  have hd : env.diff = none := by rw [← henv]
  generalize hal : alignment st (split s).1 = al at *
  generalize hmm : widest env al (split s).1 = m at *
  have hfld := triples_redo env al m (split s).1
  generalize hl2 : redo env al m (split s).1 = ls2 at hfld
  have htext : ls2.map Line.text = (split s).1.map Line.text := by rw [← hl2]; exact redo_text ..
  have hlen : ls2.length = (split s).1.length := by simpa using congrArg List.length htext
  -- facts on the lines of the result
  have hmem : ∀ l ∈ ls2, ∃ p ∈ triples env al m (split s).1, p.1 = l.text ∧ p.2.2 = l.ws := by
    intro l hl
    have : (l.text, l.ws) ∈ ls2.map fun l => (l.text, l.ws) := List.mem_map_of_mem (f := fun l : Line => (l.text, l.ws)) hl
    rw [← hfld, List.mem_map] at this
    obtain ⟨p, hp, e⟩ := this
    simp only [Prod.mk.injEq] at e
    exact ⟨p, hp, e⟩
  have hline : ∀ l ∈ ls2, '\n' ∉ l.text ++ l.ws ∧ (∀ c ∈ l.ws, isSpace c = true) ∧
      ∀ c, l.text.getLast? = some c → isSpace c = false := by
    intro l hl
    obtain ⟨p, hp, e1, e2⟩ := hmem l hl
    obtain ⟨r1, r2, r3, r4⟩ := q3 p hp
    rw [e1] at r1 r2
    rw [e2] at r4
    refine ⟨?_, ?_, r2⟩
    · intro hc
      rcases List.mem_append.mp hc with hc | hc
      · exact r1 hc
      · rcases r4 _ hc with h | h <;> simp at h
    · intro c hc
      rcases r4 c hc with rfl | rfl <;> decide
  have hrest : nextline rest = none := by
    cases hn : nextline rest with
    | none => rfl
    | some p =>
      obtain ⟨l, r⟩ := p
      obtain ⟨e, _, e2, _⟩ := nextline_spec hn
      exact absurd ⟨l.text ++ l.ws, r, e, e2⟩ q4
  have hout : out = render (ls2.map fun l => (l.text, l.ws)) rest := by rw [q2, hfld]
  have hsp : split out = (ls2, rest) := by rw [hout]; exact split_render ls2 rest hline hrest
  have hnul : ∀ l ∈ ls2, '\x00' ∉ l.text := by
    intro l hl hc
    obtain ⟨p, hp, e1, e2⟩ := hmem l hl
    apply h0
    rw [q1, render, List.mem_append, List.mem_flatten]
    left
    exact ⟨_, List.mem_map_of_mem (List.mem_map_of_mem hp), by simp [e1, hc]⟩
  have h0' : '\x00' ∉ out := by
    intro hc
    rw [hout, render, List.mem_append, List.mem_flatten] at hc
    rcases hc with ⟨x, hx, hc⟩ | hc
    · rw [List.map_map, List.mem_map] at hx
      obtain ⟨l, hl, rfl⟩ := hx
      simp only [Function.comp, List.mem_append] at hc
      rcases hc with (hc | hc) | hc
      · exact hnul l hl hc
      · have := (hline l hl).2.1 _ hc
        exact absurd this (by decide)
      · exact absurd hc (by decide)
    · apply h0
      rw [q1, render, List.mem_append]
      exact Or.inr hc
  have hfit : Fit st.limit (triples env al m (split s).1) → ∀ l ∈ ls2.take 3, col l ≤ st.limit := by
    intro hf l hl
    have : (l.text, l.ws) ∈ (ls2.take 3).map fun l => (l.text, l.ws) :=
      List.mem_map_of_mem (f := fun l : Line => (l.text, l.ws)) hl
    rw [List.map_take, ← hfld, ← List.map_take, List.mem_map] at this
    obtain ⟨p, hp, e⟩ := this
    simp only [Prod.mk.injEq] at e
    have := hf p hp
    rw [e.1, e.2] at this
    rw [col_eq]
    exact this
  have hm2 : ∀ al', widest env al' ls2 = widest env al' (split s).1 := fun al' => widest_text htext
  suffices hg : (alignment st ls2).mode ≠ .other ∧
      redo env (alignment st ls2) (widest env (alignment st ls2) ls2) ls2 = ls2 by
    refine cppAlign_same h0' (by rw [hsp]; dsimp only; omega) (by rw [hsp]; exact hg.1) ?_
    rw [henv, hsp]
    exact hg.2
  rcases hyp with ⟨ha, hf⟩ | ⟨hf, ⟨q, hq, hq1, hq2⟩, x, hx1, hx2⟩
  · have hws : ∀ l ∈ ls2, l.ws = [' '] := by
      intro l hl
      obtain ⟨p, hp, e1, e2⟩ := hmem l hl
      rw [← e2]
      exact ha p hp
    have hal2 : (alignment st ls2).mode = .dontAlign ∧ (alignment st ls2).skip = false := by
      unfold alignment sense
      dsimp only
      by_cases k1 : ((ls2.take 3).any fun l => decide (col l > st.limit)) = true
      · rw [if_pos k1]
        rcases hf with hf | hf
        · exact ⟨hf, rfl⟩
        · rw [List.any_eq_true] at k1
          obtain ⟨l, hl, hc⟩ := k1
          have := hfit hf l hl
          simp only [decide_eq_true_eq] at hc
          omega
      · rw [if_neg k1, if_pos (by
          rw [List.all_eq_true]
          intro l hl
          simp [isNotAligned, hws l (List.mem_of_mem_take hl)])]
        exact ⟨rfl, rfl⟩
    exact ⟨by rw [hal2.1]; decide, redo_dontAlign hal2.1 hal2.2 hws⟩
  · have hq' : ∃ l ∈ ls2.take 3, l.ws ≠ [] ∧ l.ws ≠ [' '] := by
      have : (q.1, q.2.2) ∈ ((triples env al m (split s).1).take 3).map fun t => (t.1, t.2.2) :=
        List.mem_map_of_mem (f := fun t : List Char × List Char × List Char => (t.1, t.2.2)) hq
      rw [List.map_take, hfld, ← List.map_take, List.mem_map] at this
      obtain ⟨l, hl, e⟩ := this
      simp only [Prod.mk.injEq] at e
      exact ⟨l, hl, by rw [e.2]; exact hq1, by rw [e.2]; exact hq2⟩
    have hnd : al.mode ≠ .dontAlign := by
      intro hmode
      obtain ⟨l, hl, _, hc⟩ := hq'
      have hl := List.mem_of_mem_take hl
      have hsk : al.skip = false := by
        by_cases hsk : al.skip = true
        · obtain ⟨_, h, _⟩ := skip_length (st := st) (ls := (split s).1) (by rw [hal]; exact hsk)
          rw [hal, hmode] at h
          exact absurd h (by decide)
        · simpa using hsk
      rw [← hl2, redo.eq_def, hsk, if_neg (by simp), List.mem_map] at hl
      obtain ⟨l', _, rfl⟩ := hl
      apply hc
      simp [pad, lineAlign, hmode, Knfmt.Doc.Spec.alignText]
    have hrun : ∀ l ∈ ls2, Run al.tabs l.ws := by
      intro l hl
      rw [← hl2, redo.eq_def] at hl
      dsimp only at hl
      by_cases hsk : al.skip = true
      · have ht := skip_tabs (st := st) (ls := (split s).1) (by rw [hal]; exact hsk)
        rw [hal] at ht
        rw [if_pos hsk] at hl
        cases hls : (split s).1 with
        | nil => simp [hls] at hl
        | cons b bs =>
          rw [hls] at hl
          rcases List.mem_cons.mp hl with rfl | hl
          · rw [ht]; exact ⟨1, rfl⟩
          · rw [List.mem_map] at hl
            obtain ⟨l', _, rfl⟩ := hl
            exact run_pad hnd h1
      · rw [if_neg hsk, List.mem_map] at hl
        obtain ⟨l', _, rfl⟩ := hl
        exact run_pad hnd h1
    have htail : ∀ l ∈ ls2.tail, width l = x := by
      intro l hl
      have : (l.text, l.ws) ∈ (ls2.tail).map fun l => (l.text, l.ws) :=
        List.mem_map_of_mem (f := fun l : Line => (l.text, l.ws)) hl
      rw [List.map_tail, ← hfld, ← List.map_tail, List.mem_map] at this
      obtain ⟨p, hp, e⟩ := this
      simp only [Prod.mk.injEq] at e
      have := hx1 p hp
      rw [e.1, e.2] at this
      rw [width_eq l (hline l (List.mem_of_mem_tail hl)).1]
      exact this
    have hhead : ∀ l, ls2.head? = some l → l.ws = [' '] ∨ width l = x := by
      intro l hl
      have : (ls2.map fun l => (l.text, l.ws)).head? = some (l.text, l.ws) := by
        rw [List.head?_map, hl]; rfl
      rw [← hfld, List.head?_map, Option.map_eq_some_iff] at this
      obtain ⟨p, hp, e⟩ := this
      simp only [Prod.mk.injEq] at e
      have := hx2 p hp
      rw [e.1, e.2] at this
      rw [width_eq l (hline l (List.mem_of_head? hl)).1]
      exact this
    by_cases hshort : ls2.length < 3
    · have e1 : sense st (split s).1 = none := by
        rcases sense_short (st := st) (ls := (split s).1) (by omega) with e | ⟨e, _⟩
        · exact e
        · exfalso
          apply hnd
          rw [← hal, alignment, e]
          rfl
      have e2 : sense st ls2 = none := by
        rcases sense_short (st := st) hshort with e | ⟨_, e⟩
        · exact e
        · exfalso
          obtain ⟨l, hl, _, hc⟩ := hq'
          have hl := List.mem_of_mem_take hl
          have := e l hl
          rw [run_isNotAligned (hrun l hl)] at this
          exact hc (by simpa using this)
      have e3 : alignment st ls2 = al := by rw [← hal, alignment, alignment, e1, e2]
      rw [e3, hm2, hmm]
      exact ⟨h1, by rw [← hl2]; exact redo_redo ..⟩
    · obtain ⟨a, b, c, ls', rfl⟩ : ∃ a b c ls', ls2 = a :: b :: c :: ls' := by
        match ls2, hshort with
        | [], h => simp at h
        | [_], h => simp at h
        | [_, _], h => simp at h
        | a :: b :: c :: ls', _ => exact ⟨a, b, c, ls', rfl⟩
      have hsub : ∀ l ∈ [a, b, c], l ∈ a :: b :: c :: ls' := by
        intro l hl
        simp only [List.mem_cons, List.not_mem_nil, or_false] at hl ⊢
        rcases hl with h | h | h
        · exact Or.inl h
        · exact Or.inr (Or.inl h)
        · exact Or.inr (Or.inr (Or.inl h))
      have e := sense_flush (ls := ls') (hfit hf) hq' (fun l hl => hrun l (hsub l hl))
        (htail b (by simp)) (htail c (by simp))
      have e2 : alignment st (a :: b :: c :: ls') =
          { mode := .right, width := x, tabs := al.tabs, skip := decide (a.ws = [' ']) } := by
        rw [alignment, e]
        rfl
      rw [e2]
      refine ⟨by simp, ?_⟩
      have hcol : ∀ l ∈ (if decide (a.ws = [' ']) = true then (a :: b :: c :: ls').tail
          else a :: b :: c :: ls'), width l = x := by
        intro l hl
        by_cases hk : a.ws = [' ']
        · rw [if_pos (by simpa using hk)] at hl
          exact htail l hl
        · rw [if_neg (by simpa using hk)] at hl
          rcases List.mem_cons.mp hl with rfl | hl
          · rcases hhead l rfl with h | h
            · exact absurd h hk
            · exact h
          · exact htail l hl
      refine redo_flush hd rfl ?_ (fun l hl => ⟨(hline l hl).1, hnul l hl⟩) ?_ hrun hcol ?_
      · intro ht
        obtain ⟨l, hl, hc1, hc2⟩ := hq'
        have hlm := List.mem_of_mem_take hl
        have hw : width l = x := by
          rcases List.mem_cons.mp hlm with rfl | hlm
          · rcases hhead l rfl with h | h
            · exact absurd h hc2
            · exact h
          · exact htail l hlm
        obtain ⟨k, hk⟩ := hrun l hlm
        dsimp only at ht ⊢
        rw [← hw, width_eq l (hline l hlm).1, Knfmt.Util.column_append]
        refine column_tabs _ _ hc1 ?_
        rw [hk, ht]
        intro c hc
        exact (List.mem_replicate.mp hc).2
      · intro l hl
        have := (lineColumn_spec (env := env) (if decide (a.ws = [' ']) = true then
          (a :: b :: c :: ls').tail else a :: b :: c :: ls') {} rfl Knfmt.Ruler.Column.ok_empty)
        obtain ⟨g1, _, g3⟩ := this
        exact (g3.le (datum env l) (by rw [g1]; exact List.mem_map_of_mem hl)).1
      · intro hs l hl
        simp only [List.head?_cons, Option.some.injEq] at hl
        subst hl
        simpa using hs

/-- A macro that meets the conditions of `align_twice_partial`. -/
example : ∃ s out ls, cppAlign {} s = .aligned out ∧ Realigned s out ls ∧ Fit 80 ls ∧ Flush ls := by
  refine ⟨"#define x \\\na  \\\n\tb\n".toList,
    "#define x\t\t\t\t\t\t\t\t\\\na\t\t\t\t\t\t\t\t\t\\\n\tb\n".toList,
    [("#define x".toList, " ".toList, "\t\t\t\t\t\t\t\t".toList),
      ("a".toList, "  ".toList, "\t\t\t\t\t\t\t\t\t".toList)], by decide +kernel,
    ⟨"\tb\n".toList, by decide +kernel, by decide +kernel, ?_, ?_⟩, by unfold Fit; decide +kernel,
    by decide +kernel, 72, by decide +kernel, ?_⟩
  · intro l hl
    simp only [List.mem_cons, List.not_mem_nil, or_false] at hl
    rcases hl with rfl | rfl
    · refine ⟨by decide, ?_, by decide, by decide⟩
      intro c hc
      have e : c = 'x' := by simpa using hc.symm
      subst e
      decide
    · refine ⟨by decide, ?_, by decide, by decide⟩
      intro c hc
      have e : c = 'a' := by simpa using hc.symm
      subst e
      decide
  · exact nextline_none (by decide +kernel)
  · intro l hl
    simp only [List.head?_cons, Option.some.injEq] at hl
    subst hl
    exact Or.inr (by decide +kernel)

/-- Lines that follow a single space once aligned lose the alignment the next time. -/
theorem align_twice_fails : ∃ s out out', cppAlign {} s = .aligned out ∧
    cppAlign {} out = .aligned out' ∧ out ≠ out' :=
  ⟨"#define x \\\n1234567\t\\\n1234567\t\\\na\t\\\n\tb\n".toList,
    "#define x \\\n1234567 \\\n1234567 \\\na       \\\n\tb\n".toList,
    "#define x \\\n1234567 \\\n1234567 \\\na \\\n\tb\n".toList,
    by decide +kernel, by decide +kernel, by decide⟩

/-- An alignment is only taken over from the text if the second and third lines agree on it:
their backslashes are in the same column, which is within the limit, and they do not use tabs
in one line and spaces in the other. -/
theorem sense_right {st : Style} {ls : List Line} {al : Alignment} (h : sense st ls = some al)
    (hm : al.mode = .right) : ∃ a b c rest, ls = a :: b :: c :: rest ∧
      (∀ l ∈ [b, c], Knfmt.Spec.column 0 (l.text ++ l.ws) = al.width ∧
        Knfmt.Spec.column 0 (l.text ++ l.ws) + 2 ≤ st.limit) ∧
      ¬ (b.ws.head? = some '\t' ∧ c.ws.head? = some ' ') ∧
      ¬ (b.ws.head? = some ' ' ∧ c.ws.head? = some '\t') := by
  unfold sense at h
  dsimp only at h
  split at h
  · simp at h
  · next hlim =>
    split at h
    · simp at h; rw [← h] at hm; simp at hm
    · split at h
      · next hc =>
        match ls, h, hc, hlim with
        | a :: b :: c :: rest, h, hc, hlim =>
          simp only [List.take_succ_cons, List.take_zero, List.tail_cons, allIdentical, Bool.and_true,
            Bool.and_eq_true, decide_eq_true_eq, Bool.or_eq_true] at hc
          simp only [List.take_succ_cons, List.take_zero, List.any_cons, List.any_nil, Bool.or_false,
            Bool.or_eq_true, decide_eq_true_eq, not_or] at hlim
          obtain ⟨_, hw, hk⟩ := hc
          simp only [List.take_succ_cons, List.take_zero, List.getLast?_cons_cons, List.getLast?_singleton,
            Option.map_some, Option.getD_some, Option.some.injEq] at h
          refine ⟨a, b, c, rest, rfl, ?_, ?_, ?_⟩
          · have hb : width b = al.width := by rw [← h]; exact hw
            have hc' : width c = al.width := by rw [← h]
            have e1 := col_eq b
            have e2 := col_eq c
            unfold width at hb hc'
            intro l hl
            simp only [List.mem_cons, List.not_mem_nil, or_false] at hl
            rcases hl with rfl | rfl <;> omega
          · rintro ⟨h1, h2⟩
            have e1 : classify b = .tabs := by
              cases e : b.ws with
              | nil => simp [e] at h1
              | cons x r => simp [e] at h1; subst h1; simp [classify, e]
            have e2 : classify c = .spaces := by
              cases e : c.ws with
              | nil => simp [e] at h2
              | cons x r => simp [e] at h2; subst h2; simp [classify, e]
            rw [e1, e2] at hk; simp at hk
          · rintro ⟨h1, h2⟩
            have e1 : classify b = .spaces := by
              cases e : b.ws with
              | nil => simp [e] at h1
              | cons x r => simp [e] at h1; subst h1; simp [classify, e]
            have e2 : classify c = .tabs := by
              cases e : c.ws with
              | nil => simp [e] at h2
              | cons x r => simp [e] at h2; subst h2; simp [classify, e]
            rw [e1, e2] at hk; simp at hk
        | [], _, hc, _ => simp at hc
        | [_], _, hc, _ => simp at hc
        | [_, _], _, hc, _ => simp at hc
      · simp at h

example : (sense {} [⟨"#define a".toList, "\t".toList⟩, ⟨"b".toList, "\t\t".toList⟩,
    ⟨"c".toList, "\t\t".toList⟩]).map (·.mode) = some .right := by decide +kernel

end Knfmt.CppAlign
