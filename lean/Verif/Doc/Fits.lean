import Verif.Doc.Minimize
/-! C23: groups that fit are printed on one line. -/
namespace Knfmt.Doc.Spec
open Knfmt.Spec

/-- The white space that aligns text starting at column `c`: tabs up to the first tab stop
not before the indentation, or spaces, and then further spaces. -/
def alignText (a : Align) (c : Nat) : List Char :=
  if a.tabalign then
    List.replicate (if a.indent = 0 then 0 else (c % 8 + a.indent + 7) / 8) '\t' ++
      List.replicate a.spaces ' '
  else List.replicate (a.indent + a.spaces) ' '

/-- The text of a document on one line, starting at column `c`. -/
def flat : Doc → Nat → List Char
  | .seq d ds, c => flat d c ++ flat ds (Knfmt.Spec.column c (flat d c))
  | .group d, c | .indent _ d, c | .optional d, c | .minimize _ _ d, c | .scope d, c
  | .maxlines _ d, c => flat d c
  | .literal s _, _ => s
  | .line, _ => [' ']
  | .align a, c => alignText a c
  | _, _ => []

/-- The flag that makes the printer write the indentation at once, doc.h:95. -/
def forcesIndent (v : Int) : Prop := v > 0 ∧ v.toNat.testBit 29 = true

/-- A document without forced and optional line breaks, forced indentation, verbatim and
muted parts, and with `n` candidates for each choice. -/
def Plain (n : Nat) : Doc → Prop
  | .nil | .line | .softline _ | .align _ => True
  | .literal s _ => '\n' ∉ s
  | .seq d ds => Plain n d ∧ Plain n ds
  | .group d | .optional d | .scope d | .maxlines _ d => Plain n d
  | .indent v d => ¬ forcesIndent v ∧ Plain n d
  | .minimize _ ms d => ms.length = n ∧ (∀ m ∈ ms, ¬ forcesIndent m.indent) ∧ Plain n d
  | .noindent _ | .verbatim _ _ | .hardline | .optline | .mute _ | .unmute _ => False

end Knfmt.Doc.Spec

namespace Knfmt.Doc
open Knfmt.Util Knfmt.Doc.Spec

theorem width_column (s : List Char) (c : Nat) : strwidth s c = Knfmt.Spec.column c s :=
  (strwidth_spec s c).2

theorem column_ge (s : List Char) (c : Nat) (h : '\n' ∉ s) : c ≤ Knfmt.Spec.column c s := by
  induction s generalizing c with
  | nil => exact Nat.le_refl _
  | cons x s ih =>
    simp only [List.mem_cons, not_or] at h
    rw [Knfmt.Util.column_cons]
    refine Nat.le_trans ?_ (ih _ h.2)
    have : x ≠ '\n' := fun e => h.1 e.symm
    unfold Knfmt.Spec.advance
    rw [if_neg this]
    split
    · exact Nat.le_of_lt (Knfmt.Spec.nextTabStop_least c).1
    · omega

theorem column_spaces (n c : Nat) : Knfmt.Spec.column c (List.replicate n ' ') = c + n := by
  induction n generalizing c with
  | zero => rfl
  | succ n ih =>
    rw [List.replicate_succ, Knfmt.Util.column_cons, ih]
    simp [Knfmt.Spec.advance]
    omega

theorem column_tab (c : Nat) (s : List Char) :
    Knfmt.Spec.column c ('\t' :: s) = Knfmt.Spec.column (c + (8 - c % 8)) s := by
  rw [Knfmt.Util.column_cons]
  congr 1
  simp only [Knfmt.Spec.advance, Knfmt.Spec.nextTabStop, Char.reduceEq, if_true, if_false]
  omega

/-- The number of tabs for an alignment. -/
def tabs (c n : Nat) : Nat := if n = 0 then 0 else (c % 8 + n + 7) / 8

theorem tabs_step (c n : Nat) (h : n ≠ 0) : tabs c n = tabs (c + (8 - c % 8)) (n - (8 - c % 8)) + 1 := by
  unfold tabs
  rw [if_neg h]
  split <;> omega

theorem fitTabs_column (n : Nat) : ∀ c, fitTabs c n =
    Knfmt.Spec.column c (List.replicate (tabs c n) '\t') := by
  induction n using Nat.strongRecOn with
  | ind n ih =>
    intro c
    cases n with
    | zero => rw [fitTabs]; rfl
    | succ n =>
      rw [fitTabs, width_column, column_tab, tabs_step c (n + 1) (by omega), List.replicate_succ,
        column_tab, ih _ (by omega)]
      rfl

theorem alignTabs_column (n : Nat) : ∀ σ : St, alignTabs σ n =
    { σ with
      buf := List.replicate (tabs σ.col n) '\t' ++ σ.buf
      col := Knfmt.Spec.column σ.col (List.replicate (tabs σ.col n) '\t') } := by
  induction n using Nat.strongRecOn with
  | ind n ih =>
    intro σ
    rw [alignTabs_eq]
    split
    · next h => subst h; rfl
    · next h =>
      rw [ih _ (by omega), tabs_step σ.col n h]
      dsimp only
      have e : List.replicate (tabs (σ.col + (8 - σ.col % 8)) (n - (8 - σ.col % 8)) + 1) '\t' ++ σ.buf =
          List.replicate (tabs (σ.col + (8 - σ.col % 8)) (n - (8 - σ.col % 8))) '\t' ++ '\t' :: σ.buf := by
        rw [List.replicate_succ', List.append_assoc]; rfl
      rw [e, List.replicate_succ, column_tab]

theorem execAlign_column (a : Align) (σ : St) : execAlign a σ =
    { σ with
      buf := (alignText a σ.col).reverse ++ σ.buf
      col := Knfmt.Spec.column σ.col (alignText a σ.col) } := by
  unfold execAlign alignText
  split
  · rw [alignTabs_column]
    simp only [printIndent1, strindent, Bool.false_eq_true, if_false, strindentSpaces_eq,
      List.nil_append, Knfmt.Util.column_append, column_spaces, tabs, List.reverse_append,
      List.reverse_replicate, List.append_assoc, Nat.sub_zero]
  · simp only [printIndent1, strindent, Bool.false_eq_true, if_false, strindentSpaces_eq,
      List.nil_append, column_spaces, List.reverse_replicate, Nat.sub_zero]

theorem alignText_line (a : Align) (c : Nat) : '\n' ∉ alignText a c := by
  unfold alignText
  split <;> simp [List.mem_replicate]

/-- The text on one line has no new line. -/
theorem flat_line {n : Nat} (d : Doc) (h : Plain n d) (c : Nat) : '\n' ∉ flat d c := by
  induction d generalizing c with
  | seq d ds ih1 ih2 =>
    simp only [flat, List.mem_append, not_or]
    exact ⟨ih1 h.1 c, ih2 h.2 _⟩
  | group d ih | optional d ih | scope d ih | maxlines _ d ih => exact ih h c
  | indent v d ih => exact ih h.2 c
  | minimize _ _ d ih => exact ih h.2.2 c
  | literal s tk => exact h
  | align a => exact alignText_line a c
  | line => simp [flat]
  | _ => simp [flat]

theorem fitsWalk_stop (env : Env) (d : Doc) (φ : FitSt) (h : φ.stop = true) :
    fitsWalk env d φ = φ := by
  unfold fitsWalk
  rw [if_pos h]

/-- The look-ahead computes the column after the text on one line. -/
theorem fitsWalk_flat {env : Env} {n : Nat} (d : Doc) (h : Plain n d) : ∀ φ : FitSt,
    φ.stop = false → φ.fits = true → φ.col ≤ env.limit →
    (Knfmt.Spec.column φ.col (flat d φ.col) ≤ env.limit →
      (fitsWalk env d φ).stop = false ∧ (fitsWalk env d φ).fits = true ∧
      (fitsWalk env d φ).col = Knfmt.Spec.column φ.col (flat d φ.col)) ∧
    (env.limit < Knfmt.Spec.column φ.col (flat d φ.col) →
      (fitsWalk env d φ).stop = true ∧ (fitsWalk env d φ).fits = false) := by
  have check : ∀ φ : FitSt, φ.col ≤ env.limit → fitCheck env φ = φ := by
    intro φ hc
    unfold fitCheck
    rw [if_neg (by omega)]
  have leaf : ∀ (φ : FitSt) (c : Nat), φ.stop = false → φ.fits = true →
      (c ≤ env.limit → (fitCheck env { φ with col := c }).stop = false ∧
        (fitCheck env { φ with col := c }).fits = true ∧ (fitCheck env { φ with col := c }).col = c) ∧
      (env.limit < c → (fitCheck env { φ with col := c }).stop = true ∧
        (fitCheck env { φ with col := c }).fits = false) := by
    intro φ c h1 h2
    unfold fitCheck
    constructor
    · intro hc
      rw [if_neg (by dsimp only; omega)]
      exact ⟨h1, h2, rfl⟩
    · intro hc
      rw [if_pos (by dsimp only; omega)]
      exact ⟨rfl, rfl⟩
  induction d with
  | nil =>
    intro φ h1 h2 hc
    have e : fitsWalk env .nil φ = φ := by simp [fitsWalk]
    rw [e]
    exact ⟨fun _ => ⟨h1, h2, rfl⟩, fun hl => by simp only [flat, Knfmt.Spec.column, List.foldl_nil] at hl; omega⟩
  | seq d ds ih1 ih2 =>
    intro φ h1 h2 hc
    have e : fitsWalk env (.seq d ds) φ = fitsWalk env ds (fitsWalk env d φ) := by
      conv => lhs; unfold fitsWalk
      rw [if_neg (by simp [h1])]
    rw [e]
    simp only [flat, Knfmt.Util.column_append]
    have hge := column_ge (flat ds (Knfmt.Spec.column φ.col (flat d φ.col)))
      (Knfmt.Spec.column φ.col (flat d φ.col)) (flat_line ds h.2 _)
    obtain ⟨a1, a2⟩ := ih1 h.1 φ h1 h2 hc
    by_cases hd : Knfmt.Spec.column φ.col (flat d φ.col) ≤ env.limit
    · obtain ⟨b1, b2, b3⟩ := a1 hd
      have := ih2 h.2 (fitsWalk env d φ) b1 b2 (by omega)
      rw [b3] at this
      exact this
    · obtain ⟨b1, b2⟩ := a2 (by omega)
      rw [fitsWalk_stop env ds _ b1]
      exact ⟨fun _ => by omega, fun _ => ⟨b1, b2⟩⟩
  | group d ih | scope d ih | maxlines _ d ih =>
    intro φ h1 h2 hc
    have := ih h φ h1 h2 hc
    unfold fitsWalk
    rw [if_neg (by simp [h1])]
    dsimp only
    rw [check φ hc]
    exact this
  | indent v d ih =>
    intro φ h1 h2 hc
    have := ih h.2 φ h1 h2 hc
    unfold fitsWalk
    rw [if_neg (by simp [h1])]
    dsimp only
    rw [check φ hc]
    exact this
  | minimize id ms d ih =>
    intro φ h1 h2 hc
    have := ih h.2.2 φ h1 h2 hc
    unfold fitsWalk
    rw [if_neg (by simp [h1])]
    dsimp only
    rw [check φ hc]
    exact this
  | optional d ih =>
    intro φ h1 h2 hc
    have := ih h { φ with optline := φ.optline + 1 } h1 h2 hc
    unfold fitsWalk
    rw [if_neg (by simp [h1])]
    dsimp only
    rw [check { φ with optline := φ.optline + 1 } hc]
    exact this
  | literal s tk =>
    intro φ h1 h2 hc
    have := leaf φ (Knfmt.Spec.column φ.col s) h1 h2
    unfold fitsWalk
    rw [if_neg (by simp [h1])]
    dsimp only
    rw [width_column]
    exact this
  | line =>
    intro φ h1 h2 hc
    have := leaf φ (φ.col + 1) h1 h2
    unfold fitsWalk
    rw [if_neg (by simp [h1])]
    exact this
  | softline k =>
    intro φ h1 h2 hc
    have := leaf φ φ.col h1 h2
    unfold fitsWalk
    rw [if_neg (by simp [h1])]
    exact this
  | align a =>
    intro φ h1 h2 hc
    have e : Knfmt.Spec.column φ.col (alignText a φ.col) =
        if a.tabalign then fitTabs φ.col a.indent + a.spaces else φ.col + a.indent + a.spaces := by
      unfold alignText
      split
      · rw [Knfmt.Util.column_append, column_spaces, fitTabs_column]; rfl
      · rw [column_spaces]; omega
    have := leaf φ (Knfmt.Spec.column φ.col (alignText a φ.col)) h1 h2
    unfold fitsWalk
    rw [if_neg (by simp [h1])]
    dsimp only
    rw [← e]
    exact this
  | noindent d => exact h.elim
  | verbatim s tk => exact h.elim
  | hardline => exact h.elim
  | optline => exact h.elim
  | mute _ => exact h.elim
  | unmute _ => exact h.elim

/-- The decision: without a pending line break, a group is put on one line if and only if
its text on one line ends within the limit. -/
theorem fits_iff (env : Env) (n : Nat) (d : Doc) (h : Plain n d) (σ : St) (hn : σ.newline = false) :
    fits env σ (.group d) = true ↔ Knfmt.Spec.column σ.col (flat d σ.col) ≤ env.limit := by
  unfold fits
  rw [if_neg (by simp [hn])]
  by_cases hc : σ.col ≤ env.limit
  · have := fitsWalk_flat (env := env) (.group d) (n := n) h { col := σ.col, optline := σ.optline }
      rfl rfl hc
    constructor
    · intro hf
      apply Classical.byContradiction
      intro hl
      have := (this.2 (Nat.lt_of_not_le hl)).2
      rw [hf] at this
      simp at this
    · intro hl
      exact (this.1 hl).2.1
  · have hge := column_ge (flat d σ.col) σ.col (flat_line d h _)
    constructor
    · intro hf
      exfalso
      have e : fitsWalk env (.group d) { col := σ.col, optline := σ.optline } =
          { col := σ.col, optline := σ.optline, fits := false, stop := true } := by
        conv => lhs; unfold fitsWalk
        rw [if_neg (by simp)]
        dsimp only
        have : fitCheck env { col := σ.col, optline := σ.optline } =
            { col := σ.col, optline := σ.optline, fits := false, stop := true } := by
          unfold fitCheck
          rw [if_pos (by dsimp only; omega)]
        rw [this, fitsWalk_stop]
        rfl
      rw [e] at hf
      simp at hf
    · intro hl; omega

/-- What a flat layout does: the text is appended and no line break is pending. -/
structure Flatly (n : Nat) (σ τ : St) (s : List Char) : Prop where
  buf : τ.buf = s.reverse ++ σ.buf
  col : τ.col = Knfmt.Spec.column σ.col s
  newline : τ.newline = false
  mute : τ.mute = 0
  mode : τ.mode = .munge
  ok : Ok n τ

theorem flatly_text {n : Nat} {env : Env} (hd : env.diff = none) {σ : St} (hm : σ.mode = .munge)
    (hn : σ.newline = false) (h0 : σ.mute = 0) (hok : Ok n σ) (s : List Char) (hs : '\n' ∉ s) (f : PF) :
    Flatly n σ (print env σ s f).1 s := by
  have hmu : (isMute env σ && !f.force) = false := by rw [isMute_none hd]; simp [h0]
  have hne : s ≠ ['\n'] := by rintro rfl; simp at hs
  have hf := print_frame env σ s f
  have e : (print env σ s f).1 = emitText env false s { σ with muteline := σ.muteline } := by
    unfold print
    rw [hmu]
    dsimp only
    rw [if_neg (by simp [hn]), if_neg (by simp [hne])]
    simp
  refine ⟨?_, ?_, ?_, by rw [hf.mute]; exact h0, by rw [hf.mode]; exact hm, print_ok env hok s f⟩
  · rw [e]; rfl
  · rw [e, ← width_column]; rfl
  · rw [e]; exact hn

theorem Flatly.same {n : Nat} {σ σ' τ τ' : St} {s : List Char} (h : Flatly n σ τ s)
    (hb : σ'.buf = σ.buf) (hc : σ'.col = σ.col) (tb : τ'.buf = τ.buf) (tc : τ'.col = τ.col)
    (tn : τ'.newline = τ.newline) (tm : τ'.mute = τ.mute) (td : τ'.mode = τ.mode)
    (hok : Ok n τ') : Flatly n σ' τ' s :=
  ⟨by rw [tb, hb]; exact h.buf, by rw [tc, hc]; exact h.col, by rw [tn]; exact h.newline,
    by rw [tm]; exact h.mute, by rw [td]; exact h.mode, hok⟩

/-- The statement proved by induction for each document. -/
def FlatExec (n : Nat) (env : Env) (d : Doc) (f : St → St) : Prop :=
  ∀ σ : St, σ.mode = .munge → σ.newline = false → σ.mute = 0 → Ok n σ →
    Knfmt.Spec.column σ.col (flat d σ.col) ≤ env.limit → Flatly n σ (f σ) (flat d σ.col)

theorem indentEnter_flat (env : Env) (v : Int) (hv : ¬ forcesIndent v) (σ : St) :
    (indentEnter env v σ).buf = σ.buf ∧ (indentEnter env v σ).col = σ.col ∧
    (indentEnter env v σ).newline = σ.newline ∧ (indentEnter env v σ).mute = σ.mute ∧
    (indentEnter env v σ).mode = σ.mode := by
  have h29 : hasBit v 29 = false := by
    unfold hasBit
    cases h : decide (v > 0) with
    | false => rfl
    | true =>
      cases h2 : v.toNat.testBit 29 with
      | false => rfl
      | true => exact absurd ⟨of_decide_eq_true h, h2⟩ hv
  unfold indentEnter
  rw [h29]
  split
  · exact ⟨rfl, rfl, rfl, rfl, rfl⟩
  · rw [if_neg (by simp)]
    split
    · exact ⟨rfl, rfl, rfl, rfl, rfl⟩
    · split <;> exact ⟨rfl, rfl, rfl, rfl, rfl⟩

theorem execIndent_flat {n : Nat} {env : Env} {d : Doc} {f : St → St} (hf : FlatExec n env d f)
    (v : Int) (hv : ¬ forcesIndent v) : FlatExec n env d (execIndent env v f) := by
  intro σ hm hn h0 hok hl
  obtain ⟨e1, e2, e3, e4, e5⟩ := indentEnter_flat env v hv σ
  have := hf (indentEnter env v σ) (by rw [e5]; exact hm) (by rw [e3]; exact hn)
    (by rw [e4]; exact h0) (indentEnter_ok env hok v) (by rw [e2]; exact hl)
  rw [e2] at this
  unfold execIndent
  split
  · exact this.same e1.symm e2.symm rfl rfl rfl rfl rfl this.ok
  · split
    · exact this.same e1.symm e2.symm rfl rfl rfl rfl rfl this.ok
    · exact this.same e1.symm e2.symm rfl rfl rfl rfl rfl this.ok

theorem minimize1_flat {n : Nat} {env : Env} {d : Doc} {f : St → St} (hf : FlatExec n env d f)
    (id : Nat) {ms : List Minimizer} (hl : ms.length = n) (hms : ∀ m ∈ ms, ¬ forcesIndent m.indent)
    {i : Nat} (hi : i < n) : FlatExec n env d fun σ => minimize1 env id ms f σ i := by
  intro σ hm hn h0 hok hw
  dsimp only
  unfold minimize1
  split
  · next e => rw [List.getElem?_eq_none_iff] at e; omega
  · next m e =>
    have a := execIndent_flat hf m.indent (hms m (List.mem_of_getElem? e))
      { σ with force := if m.force ∨ (id, i) ∈ σ.forced then some i else σ.force } hm hn h0 hok hw
    exact ⟨a.buf, a.col, a.newline, a.mute, a.mode, a.ok⟩

/-- The choice is one of the candidates and does not change the state. -/
theorem choose_ok {n : Nat} (env : Env) (id : Nat) {ms : List Minimizer} (hms : ms.length = n)
    (hn : 0 < n) {f : St → St} (hf : ∀ σ, Ok n σ → Ok n (f σ)) (σ : St) (h : Ok n σ) :
    ∃ F best, best < n ∧ choose env id ms f σ = ({ σ with forced := F }, some best) := by
  obtain ⟨F, u, hc⟩ := choose_restore env id ms f σ
  have hok : Ok n (choose env id ms f σ).1 :=
    trials_ok env id hms hf h (List.range ms.length) σ h
      (fun i hi => by rw [← hms]; exact List.mem_range.mp hi)
  have hlen := (trials_measure env id ms f σ (List.range ms.length) σ ⟨σ.forced, σ.ub, rfl⟩).1
  have hb := bestLoop_chosen
    ((trials env id ms f σ σ (List.range ms.length)).2.map
      (penalty (maximum ((trials env id ms f σ σ (List.range ms.length)).2.map (·.1)))
        (maximum ((trials env id ms f σ σ (List.range ms.length)).2.map (·.2)))))
    ((List.range ms.length).map (isForced id ms (trials env id ms f σ σ (List.range ms.length)).1))
    (by simp [hlen])
  have hub : u = σ.ub := by
    have := hok.1
    rw [hc] at this
    exact this.trans h.1.symm
  subst hub
  have hc1 : (choose env id ms f σ).1 = { σ with forced := F } := hc
  cases e2 : (choose env id ms f σ).2 with
  | none =>
    exfalso
    unfold choose at e2
    dsimp only at e2
    rw [e2] at hb
    have hb := List.map_eq_nil_iff.mp hb
    rw [hb, List.length_range] at hlen
    simp at hlen
    omega
  | some best =>
    refine ⟨F, best, ?_, by rw [← e2, ← hc1]⟩
    unfold choose at e2
    dsimp only at e2
    rw [e2] at hb
    have := hb.1
    rw [List.length_map, hlen, List.length_range] at this
    omega

theorem plain_uniform {n : Nat} (d : Doc) (h : Plain n d) : Uniform n d := by
  induction d with
  | seq d ds ih1 ih2 => exact ⟨ih1 h.1, ih2 h.2⟩
  | group d ih | optional d ih | scope d ih | maxlines _ d ih => exact ih h
  | indent v d ih => exact ih h.2
  | minimize _ _ d ih => exact ⟨h.1, ih h.2.2⟩
  | noindent d => exact h.elim
  | _ => trivial

/-- A document whose text fits on the line is laid out on the line. -/
theorem exec_flat {env : Env} (hd : env.diff = none) {n : Nat} (hn : 0 < n) (d : Doc)
    (h : Plain n d) : FlatExec n env d (exec env d) := by
  induction d with
  | nil => exact fun σ hm hnl h0 hok _ => ⟨rfl, rfl, hnl, h0, hm, hok⟩
  | seq d ds ih1 ih2 =>
    intro σ hm hnl h0 hok hl
    simp only [flat, Knfmt.Util.column_append] at hl ⊢
    have hge := column_ge (flat ds (Knfmt.Spec.column σ.col (flat d σ.col)))
      (Knfmt.Spec.column σ.col (flat d σ.col)) (flat_line ds h.2 _)
    have a := ih1 h.1 σ hm hnl h0 hok (by omega)
    have b := ih2 h.2 (exec env d σ) a.mode a.newline a.mute a.ok (by rw [a.col]; exact hl)
    rw [a.col] at b
    refine ⟨?_, ?_, b.newline, b.mute, b.mode, b.ok⟩
    · rw [exec, b.buf, a.buf]; simp
    · rw [exec, b.col, a.col, Knfmt.Util.column_append]
  | group d ih =>
    intro σ hm hnl h0 hok hl
    rw [exec_group_none hd]
    split
    · exact ih h σ hm hnl h0 hok hl
    · next hc =>
      have hfit : fits env σ (.group d) = true :=
        (fits_iff env n d h σ hnl).mpr hl
      have hg : groupSt env σ d = { σ with refit := false, mode := .munge } := by
        rw [groupSt, if_neg hc, hfit]; rfl
      rw [hg]
      have a := ih h { σ with refit := false, mode := .munge } rfl hnl h0 hok hl
      exact ⟨a.buf, a.col, a.newline, a.mute, hm, a.ok⟩
  | indent v d ih => exact execIndent_flat (ih h.2) v h.1
  | noindent d => exact h.elim
  | align a =>
    intro σ hm hnl h0 hok _
    rw [exec, execAlign_column]
    exact ⟨rfl, rfl, hnl, h0, hm, hok⟩
  | literal s tk =>
    intro σ hm hnl h0 hok _
    rw [exec_literal_none hd]
    exact flatly_text hd hm hnl h0 hok s h _
  | verbatim s tk => exact h.elim
  | line =>
    intro σ hm hnl h0 hok _
    have a := flatly_text hd hm hnl h0 hok [' '] (by decide) { indent := true }
    rw [exec, hm]
    exact ⟨a.buf, a.col, a.newline, a.mute, a.mode, a.ok⟩
  | softline k =>
    intro σ hm hnl h0 hok _
    rw [exec, hm]
    exact ⟨rfl, rfl, hnl, h0, hm, hok⟩
  | hardline => exact h.elim
  | optline => exact h.elim
  | mute k => exact h.elim
  | unmute k => exact h.elim
  | optional d ih =>
    intro σ hm hnl h0 hok hl
    have a := ih h { σ with optline := σ.optline + 1 } hm hnl h0 hok hl
    exact ⟨a.buf, a.col, a.newline, a.mute, a.mode, a.ok⟩
  | minimize id ms d ih =>
    intro σ hm hnl h0 hok hl
    cases hi : σ.idx with
    | some i =>
      simp only [exec, execMinimize, hi]
      exact minimize1_flat (ih h.2.2) id h.1 h.2.1 (hok.2 i hi) σ hm hnl h0 hok hl
    | none =>
      obtain ⟨F, best, hb, e⟩ := choose_ok env id h.1 hn
        (exec_ok hd hn d (plain_uniform d h.2.2)) σ hok
      simp only [exec, execMinimize, hi, e]
      have a := minimize1_flat (ih h.2.2) id h.1 h.2.1 hb { σ with forced := F, idx := some best }
        hm hnl h0 ⟨hok.1, fun j e => by simp at e; omega⟩ hl
      exact ⟨a.buf, a.col, a.newline, a.mute, a.mode, ⟨a.ok.1, fun j e => by simp at e⟩⟩
  | scope d ih =>
    intro σ hm hnl h0 hok hl
    have a := ih h { σ with statLines := 0 } hm hnl h0 hok hl
    exact ⟨a.buf, a.col, a.newline, a.mute, a.mode, a.ok⟩
  | maxlines k d ih =>
    intro σ hm hnl h0 hok hl
    have a := ih h { σ with maxlines := k } hm hnl h0 hok hl
    exact ⟨a.buf, a.col, a.newline, a.mute, a.mode, a.ok⟩

/-- C23: if the text of a group on one line ends within the limit, printing the group
appends that text, which has no line break, and the column is within the limit
afterwards. -/
theorem group_flat (env : Env) (hd : env.diff = none) (n : Nat) (hn : 0 < n) (d : Doc) (h : Plain n d)
    (σ : St) (hnl : σ.newline = false) (h0 : σ.mute = 0) (hok : Ok n σ)
    (hl : Knfmt.Spec.column σ.col (flat d σ.col) ≤ env.limit) :
    (exec env (.group d) σ).buf = (flat d σ.col).reverse ++ σ.buf ∧ '\n' ∉ flat d σ.col ∧
      (exec env (.group d) σ).col = Knfmt.Spec.column σ.col (flat d σ.col) ∧
      (exec env (.group d) σ).col ≤ env.limit := by
  have key : Flatly n σ { exec env (.group d) σ with mode := .munge } (flat d σ.col) := by
    rw [exec_group_none hd]
    split
    · next hc =>
      have a := exec_flat hd hn d h σ hc.1 hnl h0 hok hl
      exact ⟨a.buf, a.col, a.newline, a.mute, rfl, a.ok⟩
    · next hc =>
      have hfit : fits env σ (.group d) = true :=
        (fits_iff env n d h σ hnl).mpr hl
      have hg : groupSt env σ d = { σ with refit := false, mode := .munge } := by
        rw [groupSt, if_neg hc, hfit]; rfl
      rw [hg]
      have a := exec_flat hd hn d h { σ with refit := false, mode := .munge } rfl hnl h0 hok hl
      exact ⟨a.buf, a.col, a.newline, a.mute, rfl, a.ok⟩
  exact ⟨key.buf, flat_line d h _, key.col, by rw [show (exec env (.group d) σ).col = _ from key.col]; exact hl⟩

/-- The other half of the decision: a group whose text on one line goes past the limit is
laid out with its own line breaks taken. -/
theorem group_broken (env : Env) (hd : env.diff = none) (n : Nat) (d : Doc) (h : Plain n d)
    (σ : St) (hnl : σ.newline = false) (hm : σ.mode = .brk ∨ σ.refit = true)
    (hl : env.limit < Knfmt.Spec.column σ.col (flat d σ.col)) :
    exec env (.group d) σ = { exec env d { σ with refit := false, mode := .brk } with mode := σ.mode } := by
  have hc : ¬ (σ.mode = .munge ∧ σ.refit = false) := by
    rintro ⟨h1, h2⟩
    rcases hm with hm | hm
    · rw [hm] at h1; simp at h1
    · rw [hm] at h2; simp at h2
  have hfit : fits env σ (.group d) = false := by
    rw [← Bool.not_eq_true, fits_iff env n d h σ hnl]
    exact Nat.not_le_of_lt hl
  rw [exec_group_none hd, if_neg hc, groupSt, if_neg hc, hfit]
  rfl

/-- `doc_width` is the width of the text on one line if that is within the limit. -/
theorem doc_width_flat (env : Env) (hd : env.diff = none) (n : Nat) (hn : 0 < n) (d : Doc)
    (h : Plain n d) (hl : Knfmt.Spec.column 0 (flat d 0) ≤ env.limit) :
    docWidth env d = Knfmt.Spec.column 0 (flat d 0) :=
  (exec_flat hd hn d h { mode := .munge } rfl rfl rfl ⟨rfl, by simp⟩ hl).col

/-- A function call with a choice and nested groups. -/
def fitsExample : Doc :=
  concat [.literal "f(".toList none, .minimize 0 [⟨8, false⟩, ⟨4, false⟩]
    (.group (concat [.softline 1, .literal "abc,".toList none, .line,
      .group (.literal "de".toList none)])), .align ⟨0, 1, false⟩, .literal ");".toList none]

/-- It is plain, 13 columns wide, printed as such if the limit is 13 and broken if it is
less. -/
example : Plain 2 fitsExample ∧ flat fitsExample 0 = "f(abc, de );".toList ∧
    (docExec { limit := 12 } false [] (.group fitsExample)).buf.reverse = "f(abc, de );".toList ∧
    (docExec { limit := 8 } false [] (.group fitsExample)).buf.reverse =
      "f(\n    abc,\n    de );".toList := by
  refine ⟨?_, by decide +kernel, by decide +kernel, by decide +kernel⟩
  simp only [fitsExample, concat, List.foldr, Plain, and_true, true_and, forcesIndent, List.length_cons,
    List.length_nil, List.forall_mem_cons]
  refine ⟨by decide, ⟨⟨by decide, by decide, by simp⟩, by decide, by decide⟩, by decide⟩

/-- What follows a group is not taken into account: the group is put on one line although
the text attached to its end goes past the limit. -/
theorem fits_ignores_rest :
    (docExec { limit := 8 } false [] (concat [.group (concat [.literal "f(a,".toList none, .line,
      .literal "bcd".toList none]), .literal ");".toList none])).buf.reverse =
      "f(a, bcd);".toList := by
  decide +kernel

/-- With a pending line break the width of the group is not taken into account: the group
is put on one line past the limit. -/
theorem fits_ignores_width :
    (docExec { limit := 8 } false [] (.optional (concat [.literal "x".toList none, .optline,
      .group (concat [.literal "f(a,".toList none, .line, .literal "bcdefg".toList none])]))).buf.reverse =
      "x\nf(a, bcdefg".toList := by
  decide +kernel

end Knfmt.Doc
