import Verif.Doc.Laid
/-!
# Documents of statements (C90)

`run` follows the printer through a document made of groups that fit on the rest of their line and of forced line
breaks between them. It says exactly what is printed; `run_sound` proves that the printer does the same.
-/
namespace Knfmt.Doc
open Knfmt.Util

/-- What comes after the text printed last: nothing, a new line the printer still has to print, or an empty line. -/
inductive Edge where
  | plain
  | pend
  | empty
deriving DecidableEq, Repr

/-- What was printed, last byte first, the column, the number of new lines printed last and what comes next. -/
structure Spot where
  txt : List Char
  col : Nat
  nl : Nat := 0
  edge : Edge := .plain
deriving DecidableEq, Repr

/-- A new line and the indentation, without spaces before it. -/
def Spot.feed (tabs : Bool) (cur : Nat) (f : Spot) : Spot where
  txt := (strindent cur tabs 0).1.reverse ++ '\n' :: (if f.edge = .empty then '\n' :: f.txt else f.txt.dropWhile blank)
  col := cur
  nl := f.nl + 1
  edge := .plain

/-- The spaces printed last are removed. -/
def Spot.trim (f : Spot) : Spot := { f with txt := f.txt.dropWhile blank, col := (trimLoop f.txt f.col).2 }

/-- The document is printed: `brk` outside of groups, `opt` where line breaks of the source are kept, `mx` is the
number of new lines allowed, `cur` is the indentation. It is `none` if the document is not of the kind described above. -/
def run (lim : Nat) (tabs : Bool) : Bool → Bool → Nat → Nat → Doc → Spot → Option Spot
  | _, _, _, _, .nil, f => some f
  | brk, opt, mx, cur, .seq a b, f => (run lim tabs brk opt mx cur a f).bind (run lim tabs brk opt mx cur b)
  | _, opt, mx, cur, .group d, f =>
    if f.edge = .plain ∧ f.col ≤ lim then run lim tabs false opt mx cur d f else none
  | brk, opt, mx, cur, .scope d, f => run lim tabs brk opt mx cur d f
  | brk, opt, _, cur, .maxlines n d, f => if n = 0 then none else run lim tabs brk opt n cur d f
  | false, _, mx, cur, .optional d, f => run lim tabs false true mx cur d f
  | false, opt, mx, cur, .indent v d, f =>
    if hasBit v 29 && !hasBit v 30 then none else run lim tabs false opt mx cur d f
  | false, opt, mx, cur, .minimize _ ms d, f =>
    if ms.length = 2 ∧ ∀ m ∈ ms, m.indent < 2 ^ 28 then run lim tabs false opt mx cur d f else none
  | true, opt, mx, cur, .indent v d, f =>
    if 0 ≤ v ∧ v < 2 ^ 27 then run lim tabs true opt mx (cur + v.toNat) d f else none
  | brk, _, _, _, .literal s _, f =>
    if f.edge = .plain ∧ '\n' ∉ s ∧ (brk = true ∨ strwidth s f.col ≤ lim) then
      some ⟨s.reverse ++ f.txt, strwidth s f.col, 0, .plain⟩
    else none
  | false, _, _, _, .line, f =>
    if f.edge = .plain ∧ f.col + 1 ≤ lim then some ⟨' ' :: f.txt, f.col + 1, 0, .plain⟩ else none
  | false, _, _, _, .softline _, f => some f
  | true, opt, mx, _, .noindent d, f => if f.edge = .plain then run lim tabs true opt mx 0 d f.trim else none
  | true, false, mx, cur, .hardline, f =>
    if f.nl < mx then some (f.feed tabs cur) else if f.edge = .plain then some f else none
  | false, _, _, _, .align a, f =>
    if f.edge = .plain ∧ f.nl = 0 ∧ strwidth (Spec.alignText a f.col) f.col ≤ lim then
      some ⟨(Spec.alignText a f.col).reverse ++ f.txt, strwidth (Spec.alignText a f.col) f.col, 0, .plain⟩
    else none
  | _, opt, _, _, .optline, f =>
    if f.edge = .plain then some { f with edge := if opt then .pend else .plain } else none
  | _, _, _, _, .verbatim s _, f =>
    if s = ['\n'] ∧ f.edge = .plain ∧ f.nl = 0 then some ⟨f.txt.dropWhile blank, 0, 1, .empty⟩ else none
  | _, _, _, _, _, _ => none

/-- The state of the printer at a spot. -/
structure AtSpot (σ : St) (f : Spot) : Prop where
  mute : σ.mute = 0
  newline : σ.newline = decide (f.edge = .pend)
  nl : σ.nlines = f.nl
  maxlines : 0 < σ.maxlines
  idx : ∀ i, σ.idx = some i → i < 2
  buf : f.edge ≠ .empty → σ.buf = f.txt
  col : f.edge ≠ .empty → σ.col = f.col
  empty : f.edge = .empty → σ.buf.dropWhile blank = '\n' :: f.txt

/-- What does not change. -/
structure Held (σ τ : St) : Prop where
  mode : τ.mode = σ.mode
  cur : τ.cur = σ.cur
  maxlines : τ.maxlines = σ.maxlines
  parens : τ.parens = σ.parens
  ub : τ.ub = σ.ub

theorem Held.refl (σ : St) : Held σ σ := ⟨rfl, rfl, rfl, rfl, rfl⟩

theorem Held.trans {σ τ υ : St} (h : Held σ τ) (g : Held τ υ) : Held σ υ :=
  ⟨g.mode.trans h.mode, g.cur.trans h.cur, g.maxlines.trans h.maxlines, g.parens.trans h.parens, g.ub.trans h.ub⟩

theorem trim_drop (b : List Char) (c : Nat) : (trimLoop b c).1 = b.dropWhile blank := by
  induction b generalizing c with
  | nil => rfl
  | cons x b ih =>
    rw [trimLoop, List.dropWhile_cons]
    split
    · exact ih _
    · rfl

/-! ### Whether a group fits -/

/-- The state of the walk of `doc_fits` at a spot. -/
def Fine (env : Env) (opt : Bool) (φ : FitSt) (f : Spot) : Prop :=
  φ.fits = true ∧ (φ.stop = false → φ.col ≤ env.limit ∧ f.edge ≠ .pend ∧ (f.edge = .plain → φ.col = f.col) ∧
    (opt = true → φ.optline ≠ 0))

/-- The column after an alignment, as `doc_fits` counts it. -/
theorem fit_align (a : Align) (c : Nat) :
    (if a.tabalign then fitTabs c a.indent + a.spaces else c + a.indent + a.spaces) = Knfmt.Spec.column c (Spec.alignText a c) := by
  unfold Spec.alignText
  split
  · rw [Knfmt.Util.column_append, column_spaces, fitTabs_column]
    rfl
  · rw [column_spaces]
    omega

theorem fine_walk {env : Env} {tabs opt : Bool} {mx cur : Nat} {d : Doc} {f f' : Spot} {φ : FitSt}
    (h : run env.limit tabs false opt mx cur d f = some f') (hf : Fine env opt φ f) : Fine env opt (fitsWalk env d φ) f' := by
  induction d generalizing opt mx f f' φ with
  | nil =>
    simp only [run, Option.some.injEq] at h
    subst h
    have : fitsWalk env .nil φ = φ := by unfold fitsWalk; simp
    rw [this]; exact hf
  | seq a b iha ihb =>
    cases hs : φ.stop with
    | true => rw [fitsWalk_stop env _ _ hs]; exact ⟨hf.1, fun h => by simp [hs] at h⟩
    | false =>
      simp only [run, Option.bind_eq_some_iff] at h
      obtain ⟨g, h1, h2⟩ := h
      rw [fitsWalk]; simp only [hs, Bool.false_eq_true, if_false]
      exact ihb h2 (iha h1 hf)
  | group d ih =>
    cases hs : φ.stop with
    | true => rw [fitsWalk_stop env _ _ hs]; exact ⟨hf.1, fun h => by simp [hs] at h⟩
    | false =>
      simp only [run] at h
      split at h
      · rw [fitsWalk]; simp only [hs, Bool.false_eq_true, if_false]
        rw [fitCheck_ok (hf.2 hs).1]; exact ih h hf
      · cases h
  | scope d ih =>
    cases hs : φ.stop with
    | true => rw [fitsWalk_stop env _ _ hs]; exact ⟨hf.1, fun h => by simp [hs] at h⟩
    | false =>
      simp only [run] at h
      rw [fitsWalk]; simp only [hs, Bool.false_eq_true, if_false]
      rw [fitCheck_ok (hf.2 hs).1]; exact ih h hf
  | maxlines n d ih =>
    cases hs : φ.stop with
    | true => rw [fitsWalk_stop env _ _ hs]; exact ⟨hf.1, fun h => by simp [hs] at h⟩
    | false =>
      simp only [run] at h
      split at h
      · cases h
      · rw [fitsWalk]; simp only [hs, Bool.false_eq_true, if_false]
        rw [fitCheck_ok (hf.2 hs).1]; exact ih h hf
  | optional d ih =>
    cases hs : φ.stop with
    | true => rw [fitsWalk_stop env _ _ hs]; exact ⟨hf.1, fun h => by simp [hs] at h⟩
    | false =>
      simp only [run] at h
      rw [fitsWalk]; simp only [hs, Bool.false_eq_true, if_false]
      obtain ⟨h1, h2, h3, h4⟩ := hf.2 hs
      rw [fitCheck_ok]
      · have := ih (φ := { col := φ.col, optline := φ.optline + 1, fits := φ.fits }) h
          ⟨hf.1, fun _ => ⟨h1, h2, h3, fun _ => by show φ.optline + 1 ≠ 0; omega⟩⟩
        exact ⟨this.1, fun hs => by
          obtain ⟨a, b, c, e⟩ := this.2 hs
          exact ⟨a, b, c, fun _ => e rfl⟩⟩
      · exact h1
  | indent v d ih =>
    cases hs : φ.stop with
    | true => rw [fitsWalk_stop env _ _ hs]; exact ⟨hf.1, fun h => by simp [hs] at h⟩
    | false =>
      simp only [run] at h
      split at h
      · cases h
      · rw [fitsWalk]; simp only [hs, Bool.false_eq_true, if_false]
        rw [fitCheck_ok (hf.2 hs).1]; exact ih h hf
  | literal s t =>
    cases hs : φ.stop with
    | true => rw [fitsWalk_stop env _ _ hs]; exact ⟨hf.1, fun h => by simp [hs] at h⟩
    | false =>
      simp only [run] at h
      split at h
      · next hc =>
        simp only [Option.some.injEq] at h
        obtain ⟨h1, h2, h3, h4⟩ := hf.2 hs
        have e := h3 hc.1
        rw [fitsWalk]; simp only [hs, Bool.false_eq_true, if_false]
        rw [fitCheck_ok (by show strwidth s φ.col ≤ _; rw [e]; exact hc.2.2.resolve_left (by simp))]
        subst h
        exact ⟨hf.1, fun _ => ⟨by show strwidth s φ.col ≤ _; rw [e]; exact hc.2.2.resolve_left (by simp), by simp,
          fun _ => by show strwidth s φ.col = _; rw [e], h4⟩⟩
      · cases h
  | line =>
    cases hs : φ.stop with
    | true => rw [fitsWalk_stop env _ _ hs]; exact ⟨hf.1, fun h => by simp [hs] at h⟩
    | false =>
      simp only [run] at h
      split at h
      · next hc =>
        simp only [Option.some.injEq] at h
        obtain ⟨h1, h2, h3, h4⟩ := hf.2 hs
        have e := h3 hc.1
        rw [fitsWalk]; simp only [hs, Bool.false_eq_true, if_false]
        rw [fitCheck_ok (by show φ.col + 1 ≤ _; rw [e]; exact hc.2)]
        subst h
        exact ⟨hf.1, fun _ => ⟨by show φ.col + 1 ≤ _; rw [e]; exact hc.2, by simp,
          fun _ => by show φ.col + 1 = _; rw [e], h4⟩⟩
      · cases h
  | softline n =>
    cases hs : φ.stop with
    | true => rw [fitsWalk_stop env _ _ hs]; exact ⟨hf.1, fun h => by simp [hs] at h⟩
    | false =>
      simp only [run, Option.some.injEq] at h
      subst h
      rw [fitsWalk]; simp only [hs, Bool.false_eq_true, if_false]
      rw [fitCheck_ok (hf.2 hs).1]; exact hf
  | optline =>
    cases hs : φ.stop with
    | true => rw [fitsWalk_stop env _ _ hs]; exact ⟨hf.1, fun h => by simp [hs] at h⟩
    | false =>
      simp only [run] at h
      split at h
      · next hc =>
        simp only [Option.some.injEq] at h
        obtain ⟨h1, h2, h3, h4⟩ := hf.2 hs
        rw [fitsWalk]; simp only [hs, Bool.false_eq_true, if_false]
        split
        · exact ⟨hf.1, fun h => by simp at h⟩
        · next ho =>
          have : opt = false := by
            cases opt with
            | false => rfl
            | true => exact absurd (h4 rfl) ho
          subst this
          subst h
          rw [fitCheck_ok h1]
          exact ⟨hf.1, fun _ => ⟨h1, by simp, fun _ => h3 hc, fun h => by simp at h⟩⟩
      · cases h
  | verbatim s t =>
    cases hs : φ.stop with
    | true => rw [fitsWalk_stop env _ _ hs]; exact ⟨hf.1, fun h => by simp [hs] at h⟩
    | false =>
      simp only [run] at h
      split at h
      · next hc =>
        simp only [Option.some.injEq] at h
        obtain ⟨h1, h2, h3, h4⟩ := hf.2 hs
        subst h
        rw [fitsWalk]; simp only [hs, Bool.false_eq_true, if_false]
        rw [if_pos (by rw [hc.1]; rfl), fitCheck_ok h1]
        exact ⟨hf.1, fun _ => ⟨h1, by simp, fun h => by simp at h, h4⟩⟩
      · cases h
  | hardline => simp [run] at h
  | align a =>
    cases hs : φ.stop with
    | true => rw [fitsWalk_stop env _ _ hs]; exact ⟨hf.1, fun h => by simp [hs] at h⟩
    | false =>
      simp only [run] at h
      split at h
      · next hc =>
        simp only [Option.some.injEq] at h
        obtain ⟨h1, h2, h3, h4⟩ := hf.2 hs
        have e := h3 hc.1
        have ec : (if a.tabalign then fitTabs φ.col a.indent + a.spaces else φ.col + a.indent + a.spaces) = strwidth (Spec.alignText a f.col) f.col := by
          rw [width_column, e]
          exact fit_align a f.col
        rw [fitsWalk]; simp only [hs, Bool.false_eq_true, if_false]
        rw [ec, fitCheck_ok hc.2.2]
        subst h
        exact ⟨hf.1, fun _ => ⟨hc.2.2, by simp, fun _ => rfl, h4⟩⟩
      · cases h
  | mute n => simp [run] at h
  | unmute n => simp [run] at h
  | noindent d => simp [run] at h
  | minimize i ms d ih =>
    cases hs : φ.stop with
    | true => rw [fitsWalk_stop env _ _ hs]; exact ⟨hf.1, fun h => by simp [hs] at h⟩
    | false =>
      simp only [run] at h
      split at h
      · rw [fitsWalk]; simp only [hs, Bool.false_eq_true, if_false]
        rw [fitCheck_ok (hf.2 hs).1]; exact ih h hf
      · cases h

theorem fits_run {env : Env} {tabs opt : Bool} {mx cur : Nat} {d : Doc} {f f' : Spot} {σ : St}
    (h : run env.limit tabs false opt mx cur (.group d) f = some f') (hs : AtSpot σ f)
    (ho : opt = true → σ.optline ≠ 0) : fits env σ (.group d) = true := by
  have ⟨hp, hl⟩ : f.edge = .plain ∧ f.col ≤ env.limit := by
    simp only [run] at h
    split at h
    · assumption
    · cases h
  have hc := hs.col (by simp [hp])
  have hn := hs.newline
  rw [hp] at hn
  unfold fits
  rw [hn]
  simp only [reduceCtorEq, decide_false, Bool.false_eq_true, if_false]
  exact (fine_walk (φ := { col := σ.col, optline := σ.optline }) h
    ⟨rfl, fun _ => ⟨by show σ.col ≤ _; omega, by simp [hp], fun _ => hc, ho⟩⟩).1

/-! ### Printing -/

theorem run_edge {lim : Nat} {tabs opt : Bool} {mx cur : Nat} {d : Doc} {f f' : Spot} (h : run lim tabs false opt mx cur d f = some f')
    (he : f.edge ≠ .plain) : f'.edge = f.edge := by
  induction d generalizing opt mx f f' with
  | nil => simp only [run, Option.some.injEq] at h; rw [← h]
  | seq a b iha ihb =>
    simp only [run, Option.bind_eq_some_iff] at h
    obtain ⟨g, h1, h2⟩ := h
    have h3 := iha h1 he
    rw [← h3] at he ⊢
    exact ihb h2 he
  | softline n => simp only [run, Option.some.injEq] at h; rw [← h]
  | group d ih => simp [run, he] at h
  | scope d ih => simp only [run] at h; exact ih h he
  | optional d ih => simp only [run] at h; exact ih h he
  | maxlines n d ih =>
    simp only [run] at h
    split at h
    · cases h
    · exact ih h he
  | indent v d ih =>
    simp only [run] at h
    split at h
    · cases h
    · exact ih h he
  | minimize i ms d ih =>
    simp only [run] at h
    split at h
    · exact ih h he
    · cases h
  | _ => simp [run, he] at h

theorem same_newline {σ : St} (h : σ.newline = false) : ({ σ with newline := false } : St) = σ := by
  cases σ
  simp only at h
  rw [h]

theorem print_text {env : Env} (hd : env.diff = none) {σ : St} {f : Spot} (hs : AtSpot σ f) (hp : f.edge = .plain) (s : List Char)
    (hn : s ≠ ['\n']) (p : PF) : (print env σ s p).1 = emitText env false s σ ∧ (print env σ s p).2 = true := by
  have hnl : σ.newline = false := by simpa [hp] using hs.newline
  have hm : isMute env σ = false := mute_false hd hs.mute
  unfold print
  simp only [hm, Bool.false_and, Bool.and_false, Bool.or_false, hnl, Bool.false_eq_true, if_false, hn, decide_false, and_true]
  rw [same_newline hnl]

theorem at_text {env : Env} (hd : env.diff = none) {σ : St} {f : Spot} (hs : AtSpot σ f) (hp : f.edge = .plain) (s : List Char)
    (hn : s ≠ ['\n']) (p : PF) : AtSpot (print env σ s p).1 ⟨s.reverse ++ f.txt, strwidth s f.col, 0, .plain⟩ ∧
      Held σ (print env σ s p).1 ∧ (print env σ s p).1.optline = σ.optline := by
  rw [(print_text hd hs hp s hn p).1]
  have hnl : σ.newline = false := by simpa [hp] using hs.newline
  refine ⟨⟨hs.mute, hnl, rfl, hs.maxlines, hs.idx, fun _ => ?_, fun _ => ?_, fun h => by simp at h⟩,
    ⟨rfl, rfl, rfl, rfl, rfl⟩, rfl⟩
  · show s.reverse ++ σ.buf = _
    rw [hs.buf (by simp [hp])]
  · show strwidth s σ.col = _
    rw [hs.col (by simp [hp])]

theorem idx_newLine {env : Env} {p : PF} {b : Bool} {σ : St} (h : ∀ i, σ.idx = some i → i < 2) :
    ∀ i, (newLine env p b σ).idx = some i → i < 2 := by
  intro i hi
  have : (newLine env p b σ).idx = if σ.force ≠ none then none else σ.idx := rfl
  rw [this] at hi
  split at hi
  · cases hi
  · exact h i hi

/-- The new line made for a line break outside of groups. -/
theorem at_feed {env : Env} (hd : env.diff = none) {σ : St} {f : Spot} (hs : AtSpot σ f) (hn : f.nl < σ.maxlines)
    (hpar : σ.parens = 0) (ho : σ.optline = 0) :
    AtSpot (print env σ ['\n'] { indent := true }).1 (f.feed env.useTabs σ.cur) ∧
      Held σ (print env σ ['\n'] { indent := true }).1 ∧ (print env σ ['\n'] { indent := true }).1.optline = 0 := by
  have hm : isMute env σ = false := mute_false hd hs.mute
  have hlt : ¬ σ.nlines ≥ σ.maxlines := by have := hs.nl; omega
  have hb : σ.buf.dropWhile blank = if f.edge = .empty then '\n' :: f.txt else f.txt.dropWhile blank := by
    split
    · next he => exact hs.empty he
    · next he => rw [hs.buf he]
  -- the state after the new line
  have key : ∀ τ υ : St, τ.buf = σ.buf → τ.col = σ.col → τ.newline = false → τ.mute = 0 → τ.nlines = σ.nlines →
      τ.maxlines = σ.maxlines → τ.idx = σ.idx → τ.cur = σ.cur → τ.mode = σ.mode → τ.parens = σ.parens → τ.ub = σ.ub →
      τ.optline = 0 → ∀ p : PF, p.indent = true → υ = emitLine env p false τ →
      AtSpot υ (f.feed env.useTabs σ.cur) ∧ Held σ υ ∧ υ.optline = 0 := by
    rintro τ _ h1 h2 h3 h4 h5 h6 h7 h8 h9 h10 h11 h12 p hp rfl
    have hlt' : ¬ τ.nlines ≥ τ.maxlines := by omega
    unfold emitLine
    rw [if_neg hlt', if_pos hp]
    unfold printIndent
    have hpar' : ¬ (newLine env p false τ).parens > 0 := by
      show ¬ τ.parens > 0
      omega
    rw [if_neg hpar']
    have hcol : (newLine env p false τ).col = 0 := rfl
    have hcur : (newLine env p false τ).cur = σ.cur := h8
    refine ⟨⟨h4, h3, ?_, ?_, idx_newLine (env := env) (b := false) (by rw [h7]; exact hs.idx), fun _ => ?_, fun _ => ?_, fun h => by simp [Spot.feed] at h⟩,
      ⟨h9, h8, h6, h10, h11⟩, ?_⟩
    · show τ.nlines + 1 = f.nl + 1
      rw [h5, hs.nl]
    · show 0 < τ.maxlines
      omega
    · show (strindent τ.cur env.useTabs 0).1.reverse ++ '\n' :: (trimLoop τ.buf τ.col).1 = _
      rw [trim_drop, h1, hb, h8]
      rfl
    · show (strindent τ.cur env.useTabs 0).2 = σ.cur
      rw [strindent_zero, h8]
    · show (if p.newline then τ.optline else 0) = 0
      split
      · exact h12
      · rfl
  unfold print
  simp only [hm, Bool.false_and, Bool.and_false, Bool.or_false, decide_true]
  by_cases hp : σ.newline = true
  · simp only [hp, if_true, show ¬ (['\n'] : List Char) = [' '] by decide, if_false]
    exact key { σ with refit := true, newline := false, muteline := σ.muteline || false } _ rfl rfl rfl hs.mute rfl rfl rfl
      rfl rfl rfl rfl ho { indent := true, newline := true } rfl (by unfold emitPending; simp)
  · have hp : σ.newline = false := by simpa using hp
    simp only [hp, Bool.false_eq_true, if_false, if_true]
    rw [same_newline hp]
    exact key σ _ rfl rfl hp hs.mute rfl rfl rfl rfl rfl rfl rfl ho { indent := true } rfl rfl

theorem dropWhile_blanks {a b : List Char} (h : ∀ c ∈ a, blank c = true) (hb : b.head? = some '\n') :
    (a ++ b).dropWhile blank = b := by
  rw [List.dropWhile_append_of_pos h]
  cases b with
  | nil => rfl
  | cons x b =>
    simp only [List.head?_cons, Option.some.injEq] at hb
    subst hb
    rfl

/-- The empty line of the source. -/
theorem at_verbatim {env : Env} (hd : env.diff = none) {σ : St} {f : Spot} (hs : AtSpot σ f) (hp : f.edge = .plain) (hn : f.nl = 0)
    (tk : Tok) : AtSpot (execVerbatim env ['\n'] tk σ) ⟨f.txt.dropWhile blank, 0, 1, .empty⟩ ∧
      Held σ (execVerbatim env ['\n'] tk σ) ∧ (execVerbatim env ['\n'] tk σ).optline = 0 := by
  have hm : isMute env σ = false := mute_false hd hs.mute
  have hnl : σ.newline = false := by simpa [hp] using hs.newline
  have hmt : isMute env (trimSpaces σ) = false := mute_false hd hs.mute
  have hlt : ¬ (trimSpaces σ).nlines ≥ (trimSpaces σ).maxlines := by
    have h1 := hs.nl
    have h2 := hs.maxlines
    show ¬ σ.nlines ≥ σ.maxlines
    omega
  have e1 : (print env { trimSpaces σ with newline := (trimSpaces σ).newline || (false && decide ((trimSpaces σ).col > 0)) } ['\n'] {}).1 =
      newLine env {} false (trimSpaces σ) := by
    have e0 : ({ trimSpaces σ with newline := (trimSpaces σ).newline || (false && decide ((trimSpaces σ).col > 0)) } : St) = trimSpaces σ := by
      simp
    rw [e0]
    unfold print
    have : (trimSpaces σ).newline = false := hnl
    simp only [hmt, Bool.false_and, Bool.and_false, Bool.or_false, decide_true, this, Bool.false_eq_true, if_false, if_true]
    rw [same_newline this]
    unfold emitLine
    rw [if_neg hlt]
    simp
  have e2 : ∃ n, execVerbatim env ['\n'] tk σ = printIndent env (newLine env {} false (trimSpaces σ)) n := by
    unfold execVerbatim
    simp only [hm, Bool.false_and, Bool.false_eq_true, if_false, diffVerbatim, hd, Option.isSome_none, false_and, diffLeave]
    simp only [List.length_singleton, Nat.lt_irrefl, decide_false, Bool.false_and, decide_true, Bool.or_true, if_true, gt_iff_lt] 
    simp only [gt_iff_lt, Bool.false_and] at e1
    rw [e1]
    exact ⟨_, rfl⟩
  obtain ⟨n, e2⟩ := e2
  rw [e2]
  have hbuf : (newLine env {} false (trimSpaces σ)).buf = '\n' :: f.txt.dropWhile blank := by
    show '\n' :: (trimLoop (trimLoop σ.buf σ.col).1 _).1 = _
    rw [trim_drop, trim_drop, hs.buf (by simp [hp])]
    congr 1
    cases h : f.txt.dropWhile blank with
    | nil => rfl
    | cons x l =>
      have := List.head?_dropWhile_not blank f.txt
      rw [h] at this
      rw [List.dropWhile_cons_of_neg (by simpa using this)]
  generalize hτ : newLine env {} false (trimSpaces σ) = τ at *
  have hx : ∀ k : Nat, ∀ υ : St, υ.buf = τ.buf → υ.col = τ.col →
      (printIndent1 υ k env.useTabs).buf.dropWhile blank = '\n' :: f.txt.dropWhile blank := by
    intro k υ h1 h2
    show ((strindent k env.useTabs υ.col).1.reverse ++ υ.buf).dropWhile blank = _
    rw [h1, hbuf]
    refine dropWhile_blanks (fun c hc => ?_) rfl
    exact strindent_blanks k env.useTabs υ.col c (by simpa using hc)
  unfold printIndent
  subst hτ
  split
  · refine ⟨⟨hs.mute, hnl, ?_, hs.maxlines, idx_newLine (env := env) (p := {}) (b := false) (σ := trimSpaces σ) hs.idx, fun h => by simp at h, fun h => by simp at h, fun _ => hx _ _ rfl rfl⟩,
      ⟨rfl, rfl, rfl, rfl, rfl⟩, rfl⟩
    show σ.nlines + 1 = 1
    rw [hs.nl, hn]
  · refine ⟨⟨hs.mute, hnl, ?_, hs.maxlines, idx_newLine (env := env) (p := {}) (b := false) (σ := trimSpaces σ) hs.idx, fun h => by simp at h, fun h => by simp at h, fun _ => hx _ _ rfl rfl⟩,
      ⟨rfl, rfl, rfl, rfl, rfl⟩, rfl⟩
    show σ.nlines + 1 = 1
    rw [hs.nl, hn]

/-- Inside of a group `f` prints what is between two spots. -/
def Does (f : St → St) (opt : Bool) (s s' : Spot) : Prop :=
  ∀ σ, AtSpot σ s → σ.mode = .munge → (s.edge = .plain → (σ.optline ≠ 0 ↔ opt = true)) →
    AtSpot (f σ) s' ∧ Held σ (f σ) ∧ (s'.edge ≠ .empty → (f σ).optline = σ.optline) ∧
      ((f σ).optline = σ.optline ∨ (f σ).optline = 0)

theorem does_indent {env : Env} {v : Int} {f : St → St} {opt : Bool} {s s' : Spot}
    (hv : ¬ (hasBit v 29 && !hasBit v 30) = true) (hf : Does f opt s s') : Does (execIndent env v f) opt s s' := by
  intro σ hs hm ho
  have hin : ∃ c q, indentEnter env v σ = { σ with cur := c, parens := q } := by
    unfold indentEnter
    by_cases h30 : hasBit v 30 = true
    · rw [if_pos h30]
      exact ⟨σ.cur, _, rfl⟩
    · have h29 : hasBit v 29 = false := by
        by_cases hh : hasBit v 29 = true
        · simp [hh, h30] at hv
        · simpa using hh
      rw [if_neg h30, if_neg (by simp [h29])]
      split
      · exact ⟨_, σ.parens, rfl⟩
      · split
        · exact ⟨_, σ.parens, rfl⟩
        · exact ⟨_, σ.parens, rfl⟩
  have hpk : hasBit v 30 = false → (indentEnter env v σ).parens = σ.parens := by
    intro h30
    have h29 : hasBit v 29 = false := by
        by_cases hh : hasBit v 29 = true
        · simp [hh, h30] at hv
        · simpa using hh
    unfold indentEnter
    simp only [h30, h29, Bool.false_eq_true, if_false]
    split
    · rfl
    · split <;> rfl
  have hck : hasBit v 30 = true → (indentEnter env v σ).cur = σ.cur := by
    intro h30
    unfold indentEnter
    rw [if_pos h30]
  obtain ⟨c, q, hin⟩ := hin
  rw [hin] at hpk hck
  obtain ⟨a1, a2, a4, a5⟩ := hf { σ with cur := c, parens := q }
    ⟨hs.mute, hs.newline, hs.nl, hs.maxlines, hs.idx, hs.buf, hs.col, hs.empty⟩ hm ho
  rw [execIndent]
  simp only [hin]
  by_cases h30 : hasBit v 30 = true
  · simp only [h30, if_true]
    exact ⟨⟨a1.mute, a1.newline, a1.nl, a1.maxlines, a1.idx, a1.buf, a1.col, a1.empty⟩,
      ⟨a2.mode, a2.cur.trans (hck h30), a2.maxlines, rfl, a2.ub⟩, a4, a5⟩
  · have h29 : hasBit v 29 = false := by
        by_cases hh : hasBit v 29 = true
        · simp [hh, h30] at hv
        · simpa using hh
    simp only [h30, h29, Bool.false_eq_true, if_false]
    exact ⟨⟨a1.mute, a1.newline, a1.nl, a1.maxlines, a1.idx, a1.buf, a1.col, a1.empty⟩,
      ⟨a2.mode, rfl, a2.maxlines, a2.parens.trans (hpk (by simpa using h30)), a2.ub⟩, a4, a5⟩

theorem small_bit {n k : Nat} (h : n < 2 ^ 28) (hk : 28 ≤ k) : hasBit (n : Int) k = false := by
  unfold hasBit
  rw [Nat.testBit_lt_two_pow]
  · simp
  · have : 2 ^ 28 ≤ 2 ^ k := Nat.pow_le_pow_right (by omega) hk
    omega

theorem does_minimize1 {env : Env} (id : Nat) {ms : List Minimizer} {f : St → St} {opt : Bool} {s s' : Spot}
    (hl : ms.length = 2) (hms : ∀ m ∈ ms, m.indent < 2 ^ 28) (hf : Does f opt s s') {i : Nat} (hi : i < 2) :
    Does (fun σ => minimize1 env id ms f σ i) opt s s' := by
  intro σ hs hm ho
  have hx : ms[i]? = some (ms[i]'(by omega)) := List.getElem?_eq_getElem _
  have hmem : ms[i]'(by omega) ∈ ms := List.getElem_mem _
  generalize ms[i]'(by omega) = m at hx hmem
  simp only [minimize1, hx]
  have := does_indent (env := env) (v := (m.indent : Int)) (by simp [small_bit (hms m hmem) (k := 29) (by omega)]) hf
    { σ with force := if m.force ∨ (id, i) ∈ σ.forced then some i else σ.force }
    ⟨hs.mute, hs.newline, hs.nl, hs.maxlines, hs.idx, hs.buf, hs.col, hs.empty⟩ hm ho
  exact ⟨this.1, ⟨this.2.1.mode, this.2.1.cur, this.2.1.maxlines, this.2.1.parens, this.2.1.ub⟩, this.2.2⟩

theorem trials_held {env : Env} {id : Nat} {ms : List Minimizer} {f : St → St} {opt : Bool} {s s' : Spot} {sn : St}
    (hl : ms.length = 2) (hms : ∀ m ∈ ms, m.indent < 2 ^ 28) (hf : Does f opt s s') (hs : AtSpot sn s) (hm : sn.mode = .munge)
    (ho : s.edge = .plain → (sn.optline ≠ 0 ↔ opt = true)) (is : List Nat) : ∀ (F : List (Nat × Nat)), (∀ i ∈ is, i < 2) →
      ∃ F', (trials env id ms f sn { sn with forced := F } is).1 = { sn with forced := F' } := by
  induction is with
  | nil => exact fun F _ => ⟨F, rfl⟩
  | cons i is ih =>
    intro F hi
    have h1 := does_minimize1 (env := env) id hl hms hf (hi i (List.mem_cons_self ..))
      { sn with forced := F, statLines := 0, statExceeds := 0, force := none, idx := some i }
      ⟨hs.mute, hs.newline, hs.nl, hs.maxlines, fun j e => by
        have := hi i (List.mem_cons_self ..)
        simp at e; omega, hs.buf, hs.col, hs.empty⟩ hm ho
    have hu : (minimize1 env id ms f { sn with forced := F, statLines := 0, statExceeds := 0, force := none, idx := some i } i).ub = sn.ub :=
      h1.2.1.ub
    have e : ∃ F', (trial env id ms f sn { sn with forced := F } i).1 = { sn with forced := F' } := by
      simp only [trial, hu]
      exact ⟨_, rfl⟩
    obtain ⟨F', e⟩ := e
    obtain ⟨F'', g⟩ := ih F' (fun j hj => hi j (List.mem_cons_of_mem _ hj))
    exact ⟨F'', by rw [trials]; simp only [e, g]⟩

theorem does_minimize {env : Env} (id : Nat) {ms : List Minimizer} {f : St → St} {opt : Bool} {s s' : Spot}
    (hl : ms.length = 2) (hms : ∀ m ∈ ms, m.indent < 2 ^ 28) (hf : Does f opt s s') : Does (execMinimize env id ms f) opt s s' := by
  intro σ hs hm ho
  cases hi : σ.idx with
  | some i =>
    simp only [execMinimize, hi]
    exact does_minimize1 id hl hms hf (hs.idx i hi) σ hs hm ho
  | none =>
    obtain ⟨F, hF⟩ := trials_held (env := env) (id := id) hl hms hf hs hm ho (List.range ms.length) σ.forced (fun i h => by
      have := List.mem_range.mp h; omega)
    have h1 : (choose env id ms f σ).1 = { σ with forced := F } := hF
    have hlen := (trials_measure env id ms f σ (List.range ms.length) σ ⟨σ.forced, σ.ub, rfl⟩).1
    have h2 : ∃ b, (choose env id ms f σ).2 = some b ∧ b < 2 := by
      have hb := bestLoop_chosen
        ((trials env id ms f σ σ (List.range ms.length)).2.map
          (penalty (maximum ((trials env id ms f σ σ (List.range ms.length)).2.map (·.1)))
            (maximum ((trials env id ms f σ σ (List.range ms.length)).2.map (·.2)))))
        ((List.range ms.length).map (isForced id ms (trials env id ms f σ σ (List.range ms.length)).1))
        (by simp [hlen])
      rw [List.length_range] at hlen
      cases hc : (choose env id ms f σ).2 with
      | none =>
        unfold choose at hc
        dsimp only at hc
        rw [hc] at hb
        have hb := List.map_eq_nil_iff.mp hb
        rw [hb] at hlen
        simp at hlen; omega
      | some b =>
        unfold choose at hc
        dsimp only at hc
        rw [hc] at hb
        have := hb.1
        rw [List.length_map, hlen] at this
        exact ⟨b, rfl, by omega⟩
    obtain ⟨b, h2, hb⟩ := h2
    have h3 : choose env id ms f σ = ({ σ with forced := F }, some b) := Prod.ext h1 h2
    simp only [execMinimize, hi, h3]
    have := does_minimize1 (env := env) id hl hms hf hb { σ with forced := F, idx := some b }
      ⟨hs.mute, hs.newline, hs.nl, hs.maxlines, fun j e => by simp at e; omega, hs.buf, hs.col, hs.empty⟩ hm ho
    obtain ⟨a1, a2, a4, a5⟩ := this
    exact ⟨⟨a1.mute, a1.newline, a1.nl, a1.maxlines, fun j e => by simp at e, a1.buf, a1.col, a1.empty⟩,
      ⟨a2.mode, a2.cur, a2.maxlines, a2.parens, a2.ub⟩, a4, a5⟩

/-- The printer prints what `run` says. -/
theorem run_sound {env : Env} (hd : env.diff = none) {brk opt : Bool} {mx cur : Nat} {d : Doc} {f f' : Spot} {σ : St}
    (h : run env.limit env.useTabs brk opt mx cur d f = some f') (hs : AtSpot σ f)
    (hm : σ.mode = if brk then .brk else .munge) (ho : f.edge = .plain → (σ.optline ≠ 0 ↔ opt = true))
    (hb : brk = true → σ.cur = cur ∧ σ.parens = 0 ∧ σ.maxlines = mx ∧ σ.optline = 0 ∧ opt = false) :
    AtSpot (exec env d σ) f' ∧ Held σ (exec env d σ) ∧
      (f'.edge ≠ .empty → (exec env d σ).optline = σ.optline) ∧
      ((exec env d σ).optline = σ.optline ∨ (exec env d σ).optline = 0) := by
  induction d generalizing brk opt mx cur f f' σ with
  | nil =>
    simp only [run, Option.some.injEq] at h
    subst h
    exact ⟨hs, .refl _, fun _ => rfl, .inl rfl⟩
  | seq a b iha ihb =>
    simp only [run, Option.bind_eq_some_iff] at h
    obtain ⟨g, h1, h2⟩ := h
    obtain ⟨a1, a2, a4, a5⟩ := iha h1 hs hm ho hb
    have hm' : (exec env a σ).mode = if brk then .brk else .munge := a2.mode.trans hm
    have key : brk = true → (exec env a σ).optline = 0 := by
      intro hb'
      have := (hb hb').2.2.2.1
      omega
    have stay : brk = false → g.edge = .plain → f.edge = .plain := by
      rintro rfl hg
      by_cases hp : f.edge = .plain
      · exact hp
      · rw [run_edge h1 hp] at hg
        exact hg
    obtain ⟨b1, b2, b4, b5⟩ := ihb (σ := exec env a σ) h2 a1 hm' (by
        intro hg
        cases hbk : brk with
        | true =>
          have := hb hbk
          rw [key hbk, this.2.2.2.2]
          simp
        | false => rw [a4 (by simp [hg])]; exact ho (stay hbk hg)) (by
        intro hbk
        obtain ⟨e1, e2, e3, e4, e5⟩ := hb hbk
        exact ⟨a2.cur.trans e1, a2.parens.trans e2, a2.maxlines.trans e3, key hbk, e5⟩)
    refine ⟨b1, a2.trans b2, fun he => ?_, ?_⟩
    · show (exec env b (exec env a σ)).optline = _
      cases hbk : brk with
      | true =>
        have := key hbk
        have := (hb hbk).2.2.2.1
        omega
      | false =>
        subst hbk
        rw [b4 he]
        exact a4 (fun hg => he ((run_edge h2 (by simp [hg])).trans hg))
    · show (exec env b (exec env a σ)).optline = _ ∨ (exec env b (exec env a σ)).optline = _
      omega
  | group d ih =>
    have hp : f.edge = .plain := by
      simp only [run] at h
      split at h
      · next hc => exact hc.1
      · cases h
    have hr : run env.limit env.useTabs false opt mx cur d f = some f' := by
      simp only [run] at h
      split at h
      · exact h
      · cases h
    have he : exec env (.group d) σ = (if σ.mode = .munge ∧ σ.refit = false then exec env d σ
      else { exec env d { σ with refit := false, mode := .munge } with mode := σ.mode }) := by
      have hf : fits env { σ with refit := false } (.group d) = true :=
        fits_run (f := f) h
          ⟨hs.mute, hs.newline, hs.nl, hs.maxlines, hs.idx, hs.buf, hs.col, hs.empty⟩ (fun hh => (ho hp).2 hh)
      rw [exec]
      simp only [groupEnter, hd, groupLeave, Bool.false_and, Bool.false_eq_true, if_false, hf, if_true]
    rw [he]
    split
    · next hc => exact ih hr hs (by simpa using hc.1) ho (by simp)
    · obtain ⟨a1, a2, a4, a5⟩ := ih (σ := { σ with refit := false, mode := .munge }) hr
        ⟨hs.mute, hs.newline, hs.nl, hs.maxlines, hs.idx, hs.buf, hs.col, hs.empty⟩ rfl ho (by simp)
      exact ⟨⟨a1.mute, a1.newline, a1.nl, a1.maxlines, a1.idx, a1.buf, a1.col, a1.empty⟩,
        ⟨rfl, a2.cur, a2.maxlines, a2.parens, a2.ub⟩, a4, a5⟩
  | scope d ih =>
    have h : run env.limit env.useTabs brk opt mx cur d f = some f' := by
      cases brk <;> simpa only [run] using h
    · obtain ⟨a1, a2, a4, a5⟩ := ih (σ := { σ with statLines := 0 }) h
        ⟨hs.mute, hs.newline, hs.nl, hs.maxlines, hs.idx, hs.buf, hs.col, hs.empty⟩ hm ho hb
      exact ⟨a1, ⟨a2.mode, a2.cur, a2.maxlines, a2.parens, a2.ub⟩, a4, a5⟩
  | maxlines n d ih =>
    have h : (if n = 0 then none else run env.limit env.useTabs brk opt n cur d f) = some f' := by
      cases brk <;> simpa only [run] using h
    · split at h
      · cases h
      · next hn =>
        obtain ⟨a1, a2, a4, a5⟩ := ih (σ := { σ with maxlines := n }) h
          ⟨hs.mute, hs.newline, hs.nl, by show 0 < n; omega, hs.idx, hs.buf, hs.col, hs.empty⟩ hm ho
          (fun hk => ⟨(hb hk).1, (hb hk).2.1, rfl, (hb hk).2.2.2⟩)
        exact ⟨⟨a1.mute, a1.newline, a1.nl, hs.maxlines, a1.idx, a1.buf, a1.col, a1.empty⟩,
          ⟨a2.mode, a2.cur, rfl, a2.parens, a2.ub⟩, a4, a5⟩
  | optional d ih =>
    cases brk with
    | true => simp [run] at h
    | false =>
      simp only [run] at h
      obtain ⟨a1, a2, a4, a5⟩ := ih (σ := { σ with optline := σ.optline + 1 }) h
        ⟨hs.mute, hs.newline, hs.nl, hs.maxlines, hs.idx, hs.buf, hs.col, hs.empty⟩ hm (by simp) (by simp)
      have hx : (exec env (.optional d) σ).optline = if σ.optline ≤ (exec env d { σ with optline := σ.optline + 1 }).optline
        then σ.optline else (exec env d { σ with optline := σ.optline + 1 }).optline := rfl
      refine ⟨⟨a1.mute, a1.newline, a1.nl, a1.maxlines, a1.idx, a1.buf, a1.col, a1.empty⟩,
          ⟨a2.mode, a2.cur, a2.maxlines, a2.parens, a2.ub⟩, fun he => ?_, ?_⟩
      · have := a4 he
        simp only at this
        rw [hx, this, if_pos (by omega)]
      · rw [hx]
        simp only at a5
        split <;> omega
  | indent v d ih =>
    cases brk with
    | true =>
      simp only [run] at h
      split at h
      · next hv =>
        have hbit : ∀ k, 27 ≤ k → hasBit v k = false := by
          intro k hk
          unfold hasBit
          rw [Nat.testBit_lt_two_pow]
          · simp
          · have : 2 ^ 27 ≤ 2 ^ k := Nat.pow_le_pow_right (by omega) hk
            omega
        obtain ⟨e1, e2, e3, e4, e5⟩ := hb rfl
        have hi : indentEnter env v σ = { σ with cur := σ.cur + v.toNat } := by
          unfold indentEnter
          simp only [hbit 30 (by omega), hbit 29 (by omega), hbit 28 (by omega), hbit 27 (by omega), Bool.false_eq_true, if_false]
          congr 1
          split <;> omega
        have hx : exec env (.indent v d) σ = { exec env d { σ with cur := σ.cur + v.toNat } with cur := σ.cur } := by
          rw [exec, execIndent]
          simp only [hi, hbit 30 (by omega), hbit 29 (by omega), Bool.false_eq_true, if_false]
        obtain ⟨a1, a2, a4, a5⟩ := ih (σ := { σ with cur := σ.cur + v.toNat }) h
          ⟨hs.mute, hs.newline, hs.nl, hs.maxlines, hs.idx, hs.buf, hs.col, hs.empty⟩ hm ho
          (fun _ => ⟨by rw [← e1], e2, e3, e4, e5⟩)
        rw [hx]
        exact ⟨⟨a1.mute, a1.newline, a1.nl, a1.maxlines, a1.idx, a1.buf, a1.col, a1.empty⟩,
          ⟨a2.mode, rfl, a2.maxlines, a2.parens, a2.ub⟩, a4, a5⟩
      · cases h
    | false =>
      simp only [run] at h
      split at h
      · cases h
      · next hv =>
        rw [exec]
        exact does_indent hv (fun τ b1 b2 b3 => ih h b1 (by simpa using b2) b3 (by simp)) σ hs (by simpa using hm) ho
  | literal s tk =>
    have h : (if f.edge = .plain ∧ '\n' ∉ s ∧ (brk = true ∨ strwidth s f.col ≤ env.limit) then
      some (⟨s.reverse ++ f.txt, strwidth s f.col, 0, .plain⟩ : Spot) else none) = some f' := by
      cases brk <;> simpa only [run] using h
    split at h
    · next hc =>
      obtain ⟨hp, hn, hw⟩ := hc
      cases h
      have hdl : diffLiteral env σ tk = σ := by unfold diffLiteral; simp [hd]
      rw [exec, hdl]
      obtain ⟨a1, a2, a3⟩ := at_text hd hs hp s (by rintro rfl; simp at hn) { indent := true }
      exact ⟨a1, a2, fun _ => a3, .inl a3⟩
    · cases h
  | line =>
    cases brk with
    | true => simp [run] at h
    | false =>
      simp only [run] at h
      split at h
      · next hc =>
        cases h
        have hm' : σ.mode = .munge := by simpa using hm
        rw [exec]
        simp only [hm']
        obtain ⟨a1, a2, a3⟩ := at_text hd hs hc.1 [' '] (by decide) { indent := true }
        have hw : strwidth [' '] f.col = f.col + 1 := by
          rfl
        rw [hw] at a1
        exact ⟨⟨a1.mute, a1.newline, a1.nl, a1.maxlines, a1.idx, a1.buf, a1.col, a1.empty⟩,
            ⟨a2.mode, a2.cur, a2.maxlines, a2.parens, a2.ub⟩, fun _ => a3, .inl a3⟩
      · cases h
  | softline n =>
    cases brk with
    | true => simp [run] at h
    | false =>
      simp only [run, Option.some.injEq] at h
      subst h
      have hm' : σ.mode = .munge := by simpa using hm
      have hx : exec env (.softline n) σ = σ := by
        rw [exec]
        simp only [hm']
      rw [hx]
      exact ⟨hs, .refl _, fun _ => rfl, .inl rfl⟩
  | hardline =>
    cases brk with
    | false => simp [run] at h
    | true =>
      cases opt with
      | true => simp [run] at h
      | false =>
        simp only [run] at h
        split at h
        · next hc =>
          cases h
          obtain ⟨e1, e2, e3, e4, e5⟩ := hb rfl
          obtain ⟨a1, a2, a3⟩ := at_feed hd hs (by rw [e3]; exact hc) e2 e4
          rw [e1] at a1
          rw [exec]
          exact ⟨a1, a2, fun _ => a3.trans e4.symm, .inr a3⟩
        · next hc =>
          split at h
          · next hp =>
            cases h
            obtain ⟨e1, e2, e3, e4, e5⟩ := hb rfl
            have hnl : σ.newline = false := by simpa [hp] using hs.newline
            have hmu : isMute env σ = false := mute_false hd hs.mute
            have hx : exec env .hardline σ = σ := by
              rw [exec]
              unfold print emitLine
              simp only [hmu, Bool.false_and, Bool.and_false, Bool.or_false, hnl, Bool.false_eq_true, if_false, decide_true, if_true]
              rw [if_pos (by show σ.nlines ≥ σ.maxlines; rw [hs.nl, e3]; omega), same_newline hnl]
            rw [hx]
            exact ⟨hs, .refl _, fun _ => rfl, .inl rfl⟩
          · cases h
  | align a =>
    cases brk with
    | true => simp [run] at h
    | false =>
      simp only [run] at h
      split at h
      · next hc =>
        cases h
        obtain ⟨hp, hn, hl⟩ := hc
        have hnl : σ.newline = false := by simpa [hp] using hs.newline
        have hcol := hs.col (by simp [hp])
        rw [exec, execAlign_column, hcol, ← width_column]
        exact ⟨⟨hs.mute, hnl, hs.nl.trans hn, hs.maxlines, hs.idx, fun _ => by rw [hs.buf (by simp [hp])],
          fun _ => rfl, fun he => by cases he⟩, ⟨rfl, rfl, rfl, rfl, rfl⟩, fun _ => rfl, .inl rfl⟩
      · cases h
  | optline =>
    have h : (if f.edge = .plain then some { f with edge := if opt then .pend else .plain } else none) = some f' := by
      cases brk <;> simpa only [run] using h
    split at h
    · next hp =>
      cases h
      have hn : σ.newline = false := by simpa [hp] using hs.newline
      rw [exec]
      refine ⟨⟨hs.mute, ?_, hs.nl, hs.maxlines, hs.idx, fun _ => hs.buf (by simp [hp]), fun _ => hs.col (by simp [hp]),
        fun he => ?_⟩, ⟨rfl, rfl, rfl, rfl, rfl⟩, fun _ => rfl, .inl rfl⟩
      · show (σ.newline || decide (σ.optline ≠ 0)) = _
        rw [hn]
        have := ho hp
        cases opt <;> simp_all
      · cases opt <;> simp at he
    · cases h
  | verbatim s tk =>
    have h : (if s = ['\n'] ∧ f.edge = .plain ∧ f.nl = 0 then some (⟨f.txt.dropWhile blank, 0, 1, .empty⟩ : Spot) else none) = some f' := by
      cases brk <;> simpa only [run] using h
    split at h
    · next hc =>
      cases h
      obtain ⟨rfl, hp, hn⟩ := hc
      obtain ⟨a1, a2, a3⟩ := at_verbatim hd hs hp hn tk
      rw [exec]
      exact ⟨a1, a2, fun he => by simp at he, .inr a3⟩
    · cases h
  | noindent d ih =>
    cases brk with
    | false => simp [run] at h
    | true =>
      simp only [run] at h
      split at h
      · next hp =>
        obtain ⟨e1, e2, e3, e4, e5⟩ := hb rfl
        obtain ⟨a1, a2, a4, a5⟩ := ih (σ := { trimSpaces σ with cur := 0, pre := 0 }) h
          ⟨hs.mute, hs.newline, hs.nl, hs.maxlines, hs.idx, fun _ => by
            show (trimLoop σ.buf σ.col).1 = _
            rw [trim_drop, hs.buf (by simp [hp])]; rfl, fun _ => by
            show (trimLoop σ.buf σ.col).2 = _
            rw [hs.buf (by simp [hp]), hs.col (by simp [hp])]; rfl, fun he => by
            have : f.trim.edge = f.edge := rfl
            rw [this, hp] at he
            cases he⟩ hm ho
          (fun _ => ⟨rfl, e2, e3, e4, e5⟩)
        exact ⟨⟨a1.mute, a1.newline, a1.nl, a1.maxlines, a1.idx, a1.buf, a1.col, a1.empty⟩,
          ⟨a2.mode, rfl, a2.maxlines, a2.parens, a2.ub⟩, a4, a5⟩
      · cases h
  | minimize id ms d ih =>
    cases brk with
    | true => simp [run] at h
    | false =>
      simp only [run] at h
      split at h
      · next hc =>
        rw [exec]
        exact does_minimize id hc.1 hc.2 (fun τ b1 b2 b3 => ih h b1 (by simpa using b2) b3 (by simp)) σ hs (by simpa using hm) ho
      · cases h
  | _ => cases brk <;> cases opt <;> simp [run] at h

end Knfmt.Doc
