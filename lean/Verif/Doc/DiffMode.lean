import Verif.Doc.Tiles
import Verif.Doc.DiffSane
/-! C48: the printer in diff mode. -/
namespace Knfmt.Doc
open Knfmt.Util Knfmt.Doc.Spec Knfmt.Spec Knfmt.Lexer

variable {inp : List Char} {chunks : List Diff.Chunk} {root : Doc} {env : Env} {de : DiffEnv}

/-! ## The walk looking for selected tokens -/

/-- What is known once a selected token was found. -/
def Found (ts : List Tok) (dd : DD) : Prop :=
  ∃ s ∈ ts, s.diff = true ∧ dd.chunk = s.lno ∧ dd.threshold ≤ s.lno ∧ 1 ≤ dd.first ∧
    dd.first ≤ s.lno ∧ ∀ v, dd.verbatim = some v → 1 ≤ last v ∧ last v ≤ s.lno

/-- During the walk; `rest` are the tokens to come. -/
structure Walk (ts rest : List Tok) (dd : DD) : Prop where
  on : dd.stop = false → dd.covers = .notCovered
  first : dd.stop = false → dd.first = 0 ∨ (1 ≤ dd.first ∧ ∀ t ∈ rest, dd.first ≤ t.lno)
  verb : dd.stop = false → ∀ v, dd.verbatim = some v → 1 ≤ last v ∧ ∀ t ∈ rest, last v ≤ t.lno
  found : dd.covers = .covered → Found ts dd

theorem coversTok_walk {ts rest : List Tok} {dd : DD} {tk : Tok}
    (h : Walk ts (tk :: rest) dd) (hs : dd.stop = false) (hm : tk ∈ ts) (h1 : 1 ≤ tk.lno)
    (ho : ∀ t ∈ rest, last tk ≤ t.lno) : Walk ts rest (coversTok dd tk) := by
  have hl : ∀ t ∈ rest, tk.lno ≤ t.lno := fun t ht => Nat.le_trans (Nat.le_add_right _ _) (ho t ht)
  have on := h.on hs
  unfold coversTok
  split
  · next hlt =>
    refine ⟨fun _ => on, fun _ => ?_, fun _ => ?_, fun hc => ?_⟩
    · rcases h.first hs with h2 | h2
      · exact .inl h2
      · exact .inr ⟨h2.1, fun t ht => h2.2 t (List.mem_cons_of_mem _ ht)⟩
    · intro v hv
      have := h.verb hs v hv
      exact ⟨this.1, fun t ht => this.2 t (List.mem_cons_of_mem _ ht)⟩
    · rw [on] at hc; exact absurd hc (by decide)
  · next hge =>
    have hf : 1 ≤ (if dd.first = 0 then tk.lno else dd.first) ∧
        (if dd.first = 0 then tk.lno else dd.first) ≤ tk.lno := by
      split
      · exact ⟨h1, Nat.le_refl _⟩
      · rcases h.first hs with h2 | h2
        · omega
        · exact ⟨h2.1, h2.2 tk (List.mem_cons_self ..)⟩
    dsimp only
    split
    · next hd =>
      refine ⟨by simp, by simp, by simp, fun _ => ?_⟩
      refine ⟨tk, hm, hd, rfl, Nat.le_of_not_lt hge, hf.1, hf.2, ?_⟩
      intro v hv
      have := h.verb hs v hv
      exact ⟨this.1, this.2 tk (List.mem_cons_self ..)⟩
    · next hd =>
      refine ⟨fun _ => on, fun _ => .inr ⟨hf.1, fun t ht => Nat.le_trans hf.2 (hl t ht)⟩, fun _ => ?_,
        fun hc => ?_⟩
      · intro v hv
        have := h.verb hs v hv
        exact ⟨this.1, fun t ht => this.2 t (List.mem_cons_of_mem _ ht)⟩
      · rw [on] at hc; exact absurd hc (by decide)

theorem Walk.stopped {ts rest rest' : List Tok} {dd : DD} (h : Walk ts rest dd) (hs : dd.stop = true) :
    Walk ts rest' dd :=
  ⟨by simp [hs], by simp [hs], by simp [hs], h.found⟩

theorem coversWalk_walk (ts : List Tok) (d : Doc) : ∀ (rest : List Tok) (dd : DD),
    Walk ts (toks d ++ rest) dd → (∀ t ∈ toks d, t ∈ ts ∧ 1 ≤ t.lno) →
    (toks d ++ rest).Pairwise (fun a b => last a ≤ b.lno) →
    Walk ts rest (coversWalk d dd) := by
  induction d with
  | seq d ds ih1 ih2 =>
    intro rest dd h hm hp
    simp only [toks] at h hm hp
    rw [List.append_assoc] at h hp
    rw [coversWalk]
    exact ih2 rest _ (ih1 _ dd h (fun t ht => hm t (List.mem_append_left _ ht)) hp)
      (fun t ht => hm t (List.mem_append_right _ ht)) (List.pairwise_append.mp hp).2.1
  | group d ih | indent _ d ih | noindent d ih | optional d ih | minimize _ _ d ih | scope d ih
  | maxlines _ d ih => intro rest dd h hm hp; exact ih rest dd h hm hp
  | literal s tk =>
    intro rest dd h hm hp
    cases tk with
    | none => exact h
    | some tk =>
      rw [coversWalk]
      split
      · next hs => exact h.stopped hs
      · next hs =>
        have := hm tk (by simp [toks])
        exact coversTok_walk h (by simpa using hs) this.1 this.2 (List.pairwise_cons.mp hp).1
  | verbatim s tk =>
    intro rest dd h hm hp
    rw [coversWalk]
    split
    · next hs => exact h.stopped hs
    · next hs =>
      have := hm tk (by simp [toks])
      have ho := (List.pairwise_cons.mp hp).1
      have hs' : dd.stop = false := by simpa using hs
      by_cases hd : tk.diff = true
      · rw [if_pos hd]
        exact coversTok_walk h hs' this.1 this.2 ho
      · rw [if_neg hd]
        have h1 : 1 ≤ last tk := Nat.le_trans this.2 (Nat.le_add_right _ _)
        -- the token itself is not selected: the walk goes on after it
        have on := h.on hs'
        unfold coversTok
        dsimp only
        split
        · refine ⟨fun _ => on, fun _ => ?_, fun _ => ?_, fun hc => ?_⟩
          · rcases h.first hs' with h2 | h2
            · exact .inl h2
            · exact .inr ⟨h2.1, fun t ht => h2.2 t (List.mem_cons_of_mem _ ht)⟩
          · intro v hv
            cases hv
            exact ⟨h1, ho⟩
          · rw [on] at hc; exact absurd hc (by decide)
        · refine ⟨fun _ => on, fun _ => .inr ?_, fun _ => ?_, fun hc => ?_⟩
          · dsimp only
            split
            · exact ⟨this.2, fun t ht => Nat.le_trans (Nat.le_add_right _ _) (ho t ht)⟩
            · rcases h.first hs' with h2 | h2
              · omega
              · exact ⟨h2.1, fun t ht => h2.2 t (List.mem_cons_of_mem _ ht)⟩
          · intro v hv
            cases hv
            exact ⟨h1, ho⟩
          · rw [on] at hc; exact absurd hc (by decide)
  | hardline =>
    intro rest dd h hm hp
    rw [coversWalk]
    split
    · exact h
    · exact ⟨by simp, by simp, by simp, by simp⟩
  | nil | align | line | softline | optline | mute | unmute => intro rest dd h hm hp; exact h

/-- The tokens of a group are in order. -/
def GroupIn (inp : List Char) (root g : Doc) : Prop :=
  g ∈ groups root ∧ InOrder inp g

theorem covers_found {g : Doc} (hg : InOrder inp g) (threshold : Nat) (goOn : Bool)
    (h : (coversWalk g { threshold := threshold, goOn := goOn }).covers = .covered) :
    Found (toks g) (coversWalk g { threshold := threshold, goOn := goOn }) := by
  have := coversWalk_walk (toks g) g [] { threshold := threshold, goOn := goOn }
    ⟨fun _ => rfl, fun _ => .inl rfl, fun _ => by simp, by simp⟩
    (fun t ht => ⟨ht, (hg.bound t ht).1⟩) (by simpa using hg.order)
  exact this.found h

theorem coversTok_threshold (dd : DD) (tk : Tok) : (coversTok dd tk).threshold = dd.threshold := by
  unfold coversTok
  split
  · rfl
  · dsimp only; split <;> rfl

theorem coversWalk_threshold (d : Doc) : ∀ dd : DD, (coversWalk d dd).threshold = dd.threshold := by
  induction d with
  | seq d ds ih1 ih2 => intro dd; rw [coversWalk, ih2, ih1]
  | group d ih | indent _ d ih | noindent d ih | optional d ih | minimize _ _ d ih | scope d ih
  | maxlines _ d ih => exact ih
  | literal s tk =>
    intro dd
    cases tk with
    | none => rfl
    | some tk =>
      rw [coversWalk]; split
      · rfl
      · exact coversTok_threshold _ _
  | verbatim s tk =>
    intro dd
    rw [coversWalk]; split
    · rfl
    · exact coversTok_threshold _ _
  | hardline => intro dd; rw [coversWalk]; split <;> rfl
  | nil | align | line | softline | optline | mute | unmute => intro dd; rfl

/-! ## The invariant -/

/-- No line was selected so far: nothing but blanks was printed. -/
def Fresh (buf : List Char) (df : DiffSt) : Prop :=
  df.stop = 0 ∧ df.beg = 1 ∧ df.muteline = false ∧ ∀ c ∈ buf, blank c = true

/-- Lines were selected, and may still be. -/
def Busy (inp : List Char) (chunks : List Diff.Chunk) (root : Doc) (buf : List Char) (df : DiffSt) :
    Prop :=
  (df.stop > 0 ∧ Open inp chunks root (df.stop + 1) buf ∧ Stop chunks root (df.stop + 1)) ∨
  (df.stop = 0 ∧ Open inp chunks root df.beg buf ∧ End chunks root df.beg)

/-- What holds of the printer in diff mode. -/
def Pok (inp : List Char) (chunks : List Diff.Chunk) (root : Doc) (buf : List Char) (df : DiffSt)
    (maxlines : Nat) : Prop :=
  1 ≤ maxlines ∧
  (∀ g, df.group = some g → GroupIn inp root g ∧ (df.stop > 0 → ∃ s ∈ toks g, s.diff = true)) ∧
  (Fresh buf df ∨ Busy inp chunks root buf df)

theorem Fresh.ext {b b' : List Char} {df : DiffSt} (h : Fresh b df) (e : Ext true b b') : Fresh b' df := by
  refine ⟨h.1, h.2.1, h.2.2.1, ?_⟩
  refine e (fun b => ∀ c ∈ b, blank c = true) ?_ ?_ h.2.2.2
  · intro c b hb hc x hx
    rcases List.mem_cons.mp hx with rfl | hx
    · exact hc rfl
    · exact hb x hx
  · intro c b _ hb x hx
    exact hb x (List.mem_cons_of_mem _ hx)

theorem Open.ext {m : Bool} {e : Nat} {b b' : List Char} (h : Open inp chunks root e b) (x : Ext m b b') :
    Open inp chunks root e b' :=
  x (Open inp chunks root e) (fun _ _ hb _ => hb.push _) (fun _ _ hc hb => hb.drop hc) h

theorem Busy.ext {m : Bool} {b b' : List Char} {df : DiffSt} (h : Busy inp chunks root b df)
    (x : Ext m b b') : Busy inp chunks root b' df := by
  rcases h with ⟨h1, h2, h3⟩ | ⟨h1, h2, h3⟩
  · exact .inl ⟨h1, h2.ext x, h3⟩
  · exact .inr ⟨h1, h2.ext x, h3⟩

theorem Pok.ext {m : Bool} {b b' : List Char} {df : DiffSt} {n : Nat} (h : Pok inp chunks root b df n)
    (x : Ext m b b') (hm : df.stop = 0 → m = true) : Pok inp chunks root b' df n := by
  refine ⟨h.1, h.2.1, ?_⟩
  rcases h.2.2 with h1 | h1
  · rw [hm h1.1] at x
    exact .inl (h1.ext x)
  · exact .inr (h1.ext x)

/-- Changes of `st_diff` that do not matter. -/
theorem Pok.df {b : List Char} {df df' : DiffSt} {n : Nat} (h : Pok inp chunks root b df n)
    (h1 : df'.group = df.group) (h2 : df'.stop = df.stop) (h3 : df'.beg = df.beg)
    (h4 : df.stop = 0 → df.muteline = false → df'.muteline = false) : Pok inp chunks root b df' n := by
  refine ⟨h.1, ?_, ?_⟩
  · rw [h1, h2]; exact h.2.1
  · rcases h.2.2 with ⟨a1, a2, a3, a4⟩ | h5
    · exact .inl ⟨by rw [h2]; exact a1, by rw [h3]; exact a2, h4 a1 a3, a4⟩
    · right
      unfold Busy
      rw [h2, h3]
      exact h5

/-- The invariant of a state. -/
def DiffOk (inp : List Char) (chunks : List Diff.Chunk) (root : Doc) (σ : St) : Prop :=
  Pok inp chunks root σ.buf σ.df σ.maxlines

/-- A failure is not forgotten, and without one the invariant is kept. -/
def Step (inp : List Char) (chunks : List Diff.Chunk) (root : Doc) (σ τ : St) : Prop :=
  (σ.ub = true → τ.ub = true) ∧
  (DiffOk inp chunks root σ → τ.ub = true ∨ (DiffOk inp chunks root τ ∧ τ.df.group = σ.df.group))

theorem Step.refl (σ : St) : Step inp chunks root σ σ := ⟨id, fun h => .inr ⟨h, rfl⟩⟩

theorem Step.trans {σ τ ρ : St} (h : Step inp chunks root σ τ) (k : Step inp chunks root τ ρ) :
    Step inp chunks root σ ρ := by
  refine ⟨fun hu => k.1 (h.1 hu), fun ho => ?_⟩
  rcases h.2 ho with h1 | ⟨h1, h2⟩
  · exact .inl (k.1 h1)
  · rcases k.2 h1 with k1 | ⟨k1, k2⟩
    · exact .inl k1
    · exact .inr ⟨k1, k2.trans h2⟩

/-- Printing, unless forced. -/
theorem step_print (hd : env.diff = some de) (σ : St) (s : List Char) (f : PF) (hf : f.force = false) :
    Step inp chunks root σ (print env σ s f).1 := by
  have hx := ext_print env σ s f
  have fr := print_frame env σ s f
  refine ⟨fun h => by rw [fr.ub]; exact h, fun h => .inr ⟨?_, by rw [fr.df]⟩⟩
  unfold DiffOk at h ⊢
  rw [fr.df, fr.maxlines]
  refine h.ext hx ?_
  intro h0
  simp [isMute, diffIsMute, hd, h0, hf]

/-- Changes that add blanks or drop them. -/
theorem step_blank {σ τ : St} (h1 : τ.ub = σ.ub) (h2 : τ.df = σ.df) (h3 : τ.maxlines = σ.maxlines)
    (h4 : Ext true σ.buf τ.buf) : Step inp chunks root σ τ := by
  refine ⟨fun h => by rw [h1]; exact h, fun h => .inr ⟨?_, by rw [h2]⟩⟩
  unfold DiffOk at h ⊢
  rw [h2, h3]
  exact h.ext h4 fun _ => rfl

theorem step_trim (σ : St) : Step inp chunks root σ (trimSpaces σ) :=
  step_blank rfl rfl rfl (ext_trim _ σ)

theorem step_indent (env : Env) (σ : St) (n : Nat) : Step inp chunks root σ (printIndent env σ n) :=
  step_blank (printIndent_frame env σ n).ub (printIndent_frame env σ n).df
    (printIndent_frame env σ n).maxlines (ext_indent _ env σ n)

/-! ## Copying lines -/

theorem forced_not_mute (σ : St) (s : List Char) (f : PF) (hf : f.force = true) :
    Ext false σ.buf (print env σ s f).1.buf := by
  have := ext_print env σ s f
  rw [hf] at this
  simpa using this

/-- Text printed by force, with no line break pending. -/
theorem print_forced (σ : St) (s : List Char) (hn : σ.newline = false) (hl : σ.nlines = 0)
    (hm : 1 ≤ σ.maxlines) :
    ∃ w, σ.buf = w ++ (trimSpaces σ).buf ∧ (print env (trimSpaces σ) s { force := true }).1.buf =
      s.reverse ++ (trimSpaces σ).buf := by
  obtain ⟨w, e, hw, hh⟩ := trimLoop_spec σ.buf σ.col
  refine ⟨w, e, ?_⟩
  have htt : (trimSpaces (trimSpaces σ)).buf = (trimSpaces σ).buf := by
    show (trimLoop (trimSpaces σ).buf (trimSpaces σ).col).1 = _
    cases hb : (trimSpaces σ).buf with
    | nil => rfl
    | cons c b =>
      have : blank c = false := hh c (by show (trimSpaces σ).buf.head? = _; rw [hb]; rfl)
      rw [trimLoop, if_neg (by simp [this])]
  unfold print
  have hnl : (trimSpaces σ).newline = false := hn
  simp only [hnl, Bool.false_eq_true, if_false, Bool.not_true, Bool.and_false]
  by_cases h : s = ['\n']
  · subst h
    simp only [decide_true, if_true]
    unfold emitLine
    rw [if_neg (by show ¬ σ.nlines ≥ σ.maxlines; omega)]
    simp only [Bool.false_eq_true, if_false]
    show '\n' :: (trimSpaces (trimSpaces σ)).buf = _
    rw [htt]
    rfl
  · rw [if_neg (by simpa using h)]
    rfl

/-- The text up to the line where lines are copied from. -/
theorem ready {σ : St} (h : Fresh σ.buf σ.df ∨ (σ.df.stop = 0 ∧ Open inp chunks root σ.df.beg σ.buf ∧
    End chunks root σ.df.beg)) : Tiles inp chunks root σ.df.beg (trimSpaces σ).buf.reverse := by
  rcases h with h | ⟨_, h, he⟩
  · have := (h.ext (ext_trim true σ)).2.2.2
    obtain ⟨w, e, hw, hh⟩ := trimLoop_spec σ.buf σ.col
    have hnil : (trimSpaces σ).buf = [] := by
      cases hb : (trimSpaces σ).buf with
      | nil => rfl
      | cons c b =>
        have h1 : blank c = false := hh c (by show (trimSpaces σ).buf.head? = _; rw [hb]; rfl)
        rw [this c (by rw [hb]; simp)] at h1
        simp at h1
    rw [hnil, h.2.1]
    exact .start
  · exact (h.ext (ext_trim true σ)).tiles he

/-- `doc_diff_emit` for lines before a group. -/
theorem diffEmit_copy (hg : GetsLines inp de) (σ : St) (b x : Nat) (hb : 1 ≤ b) (hx : 1 ≤ x)
    (hbn : b ≤ (splitLines inp).length) (hxn : x ≤ (splitLines inp).length) (hm : 1 ≤ σ.maxlines)
    (ht : Tiles inp chunks root b (trimSpaces σ).buf.reverse) :
    (diffEmit env de σ b x).ub = true ∨
    ((diffEmit env de σ b x).ub = σ.ub ∧ (diffEmit env de σ b x).df = σ.df ∧
      (diffEmit env de σ b x).maxlines = σ.maxlines ∧
      ∃ t f, (diffEmit env de σ b x).buf.reverse = t ++ f ∧ Tiles inp chunks root x t) := by
  unfold diffEmit
  by_cases h : x < b
  · rw [hg.undef b x hx h hbn]
    exact .inl rfl
  · rw [hg.copy b x hb (by omega) hxn]
    right
    have hp := print_forced (env := env) (resetLines σ) (lineRange inp b x) rfl rfl hm
    obtain ⟨_, _, hp⟩ := hp
    have fr := print_frame env (trimSpaces (resetLines σ)) (lineRange inp b x) { force := true }
    dsimp only
    generalize (print env (trimSpaces (resetLines σ)) (lineRange inp b x) { force := true }).1 = τ at *
    have fi := printIndent_frame env τ τ.cur
    refine ⟨by rw [fi.ub, fr.ub]; rfl, by rw [fi.df, fr.df]; rfl, by rw [fi.maxlines, fr.maxlines]; rfl, ?_⟩
    obtain ⟨w, c, p, e, hw⟩ := printIndent_spec env τ τ.cur
    rw [e]
    refine ⟨(trimSpaces σ).buf.reverse ++ lineRange inp b x, w.reverse, ?_, ht.copy (by omega) hxn⟩
    show (w ++ τ.buf).reverse = _
    rw [hp]
    simp [trimSpaces, resetLines]

/-! ## Entering and leaving selected lines -/

/-- Entering a group that has a selected token. -/
theorem enterCovered_ok (hg : GetsLines inp de) (hc : de.chunks = chunks) {g : Doc} {σ : St} {dd : DD}
    (hi : GroupIn inp root g) (hsub : ∀ t ∈ toks g, t ∈ toks root)
    (hf : Found (toks g) dd) (hth : σ.df.stop = 0 → σ.df.beg ≤ dd.chunk) :
    (σ.ub = true → (enterCovered env de σ g dd).ub = true) ∧
    (Pok inp chunks root σ.buf { σ.df with group := none } σ.maxlines →
      (enterCovered env de σ g dd).ub = true ∨
      (DiffOk inp chunks root (enterCovered env de σ g dd) ∧
        (enterCovered env de σ g dd).df.group = some g)) := by
  obtain ⟨s, hs, hsd, hch, hts, h1, h2, h3⟩ := hf
  have emit_ub : ∀ (τ : St) b x, τ.ub = true → (diffEmit env de τ b x).ub = true := by
    intro τ b x h
    unfold diffEmit
    split
    · exact h
    · rfl
    · dsimp only
      rw [(printIndent_frame _ _ _).ub, (print_frame _ _ _ _).ub]; exact h
  unfold enterCovered
  dsimp only
  split
  · next hst =>
    refine ⟨id, fun h => .inr ⟨⟨h.1, ?_, ?_⟩, rfl⟩⟩
    · intro g' hg'
      cases hg'
      exact ⟨hi, fun _ => ⟨s, hs, hsd⟩⟩
    · rcases h.2.2 with ⟨a1, _⟩ | h5
      · exact absurd a1 (by dsimp only; omega)
      · exact .inr h5
  · next hst =>
    have hst0 : σ.df.stop = 0 := by omega
    cases hgc : Diff.getChunk de.chunks dd.chunk with
    | none =>
      refine ⟨id, fun h => .inr ⟨⟨h.1, ?_, ?_⟩, rfl⟩⟩
      · intro g' hg'
        cases hg'
        exact ⟨hi, fun _ => ⟨s, hs, hsd⟩⟩
      · rcases h.2.2 with h5 | h5
        · exact .inl h5
        · exact .inr h5
    | some du =>
      dsimp only
      have hdu : du ∈ chunks ∧ du.beg ≤ dd.chunk ∧ dd.chunk ≤ du.end_ := by
        have : ∀ l : List Diff.Chunk, Diff.getChunk l dd.chunk = some du →
            du ∈ l ∧ du.beg ≤ dd.chunk ∧ dd.chunk ≤ du.end_ := by
          intro l
          induction l with
          | nil => simp [Diff.getChunk]
          | cons c l ih =>
            rw [Diff.getChunk]
            split
            · next h => intro e; cases e; exact ⟨List.mem_cons_self .., h.1, h.2⟩
            · intro e; have := ih e; exact ⟨List.mem_cons_of_mem _ this.1, this.2⟩
        rw [← hc]
        exact this _ hgc
      have hsb := hi.2.bound s hs
      have hsl : s.lno ≤ (splitLines inp).length := Nat.le_trans (Nat.le_add_right _ _) hsb.2
      have key : ∀ (τ : St) (x : Nat), τ.buf = σ.buf → τ.ub = σ.ub → τ.maxlines = σ.maxlines →
          τ.df.group = some g → τ.df.stop = du.end_ → τ.col = σ.col → 1 ≤ x → x ≤ s.lno →
          (σ.ub = true → (diffEmit env de τ σ.df.beg x).ub = true) ∧
          (Pok inp chunks root σ.buf { σ.df with group := none } σ.maxlines →
            (diffEmit env de τ σ.df.beg x).ub = true ∨
            (DiffOk inp chunks root (diffEmit env de τ σ.df.beg x) ∧
              (diffEmit env de τ σ.df.beg x).df.group = some g)) := by
        intro τ x e1 e2 e3 e4 e5 e6 hx1 hx2
        refine ⟨fun h => emit_ub _ _ _ (e2.trans h), fun h => ?_⟩
        have hready : Tiles inp chunks root σ.df.beg (trimSpaces σ).buf.reverse := by
          refine ready (σ := σ) ?_
          rcases h.2.2 with h5 | h5 | h5
          · exact .inl h5
          · exact absurd h5.1 (by dsimp only; omega)
          · exact .inr h5
        have hbeg : 1 ≤ σ.df.beg := Spec.Tiles.pos hready
        have hth := hth hst0
        have etr : (trimSpaces τ).buf = (trimSpaces σ).buf := by
          show (trimLoop τ.buf τ.col).1 = _
          rw [e1, e6]; rfl
        have hcopy := diffEmit_copy (env := env) hg τ σ.df.beg x hbeg hx1 (by omega) (by omega)
          (by rw [e3]; exact h.1) (by rw [etr]; exact hready)
        rcases hcopy with hu | ⟨_, hdf, hml, t, f, e, ht⟩
        · exact .inl hu
        · right
          refine ⟨⟨by rw [hml, e3]; exact h.1, ?_, ?_⟩, by rw [hdf]; exact e4⟩
          · rw [hdf, e4]
            intro g' hg'
            cases hg'
            exact ⟨hi, fun _ => ⟨s, hs, hsd⟩⟩
          · right
            left
            rw [hdf, e5]
            refine ⟨by omega, ⟨x, t, f, e, ht, s, hsub s hs, hsd, hx2, by omega⟩, .inl ⟨du, hdu.1, rfl⟩⟩
      cases hvb : dd.verbatim with
      | none => exact key _ _ rfl rfl rfl rfl rfl rfl h1 h2
      | some v => exact key _ _ rfl rfl rfl rfl rfl rfl (h3 v hvb).1 (h3 v hvb).2

theorem Sane.up {σ τ : St} (h : Sane σ τ) (hu : σ.ub = true) : τ.ub = true := by
  cases ht : τ.ub with
  | true => rfl
  | false => rw [h.ub ht] at hu; exact hu

theorem groupEnterNested_step (hg : GetsLines inp de) (hc : de.chunks = chunks) {g : Doc} {σ : St}
    (hsub : ∀ g ∈ groups root, ∀ t ∈ toks g, t ∈ toks root)
    (hgr : σ.df.group = some g) :
    Step inp chunks root σ (groupEnterNested env de σ g) := by
  unfold groupEnterNested
  dsimp only
  split
  · exact .refl _
  · have : ({ σ with df := { σ.df with group := some g } } : St) = σ := by rw [← hgr]
    rw [this]
    exact .refl _
  · next hcov =>
    by_cases hin : GroupIn inp root g
    · have hf := covers_found hin.2 σ.df.beg true hcov
      have hth : σ.df.stop = 0 → σ.df.beg ≤
          (coversWalk g { threshold := σ.df.beg, goOn := true }).chunk := by
        intro _
        obtain ⟨s, _, _, e, ht, _⟩ := hf
        rw [coversWalk_threshold] at ht
        rw [e]
        exact ht
      have := enterCovered_ok (env := env) hg hc hin (hsub g hin.1) hf hth
      refine ⟨this.1, fun h => ?_⟩
      have hp : Pok inp chunks root σ.buf { σ.df with group := none } σ.maxlines :=
        ⟨h.1, by simp, h.2.2⟩
      rw [hgr]
      exact this.2 hp
    · exact ⟨(enterCovered_sane _ _ _).up, fun h => absurd (h.2.1 g hgr).1 hin⟩

theorem left2_facts (σ : St) (n : Nat) :
    (left2 env σ n).ub = (left σ n).ub ∧ (left2 env σ n).df = (left σ n).df ∧
    (left2 env σ n).maxlines = σ.maxlines ∧ Ext false σ.buf (left2 env σ n).buf := by
  unfold left2
  split
  · have fr := print_frame env (left σ n) ['\n'] { force := true }
    exact ⟨fr.ub, fr.df, fr.maxlines, forced_not_mute (left σ n) _ _ rfl⟩
  · exact ⟨rfl, rfl, rfl, .refl _ _⟩

/-- The first part of `doc_diff_leave`. -/
theorem left2_step {σ : St} {n : Nat}
    (hend : σ.df.stop > 0 → Stop chunks root (σ.df.stop + 1) → End chunks root (σ.df.stop + n))
    (hn : 1 ≤ n) : Step inp chunks root σ (left2 env σ n) := by
  obtain ⟨f1, f2, f3, f4⟩ := left2_facts (env := env) σ n
  refine ⟨fun h => by rw [f1]; simp [left, h], fun h => ?_⟩
  by_cases hs : σ.df.stop = 0
  · left; rw [f1]; simp [left, hs]
  · right
    refine ⟨⟨by rw [f3]; exact h.1, ?_, ?_⟩, by rw [f2]; rfl⟩
    · rw [f2]
      intro g hg
      exact ⟨(h.2.1 g hg).1, fun h' => absurd h' (by simp [left])⟩
    · right
      right
      rw [f2]
      rcases h.2.2 with h5 | h5 | h5
      · exact absurd h5.1 hs
      · refine ⟨rfl, ?_, hend h5.1 h5.2.2⟩
        exact (h5.2.1.mono (show σ.df.stop + 1 ≤ σ.df.stop + n by omega)).ext f4
      · exact absurd h5.1 hs

theorem leave_step (hg : GetsLines inp de) (hc : de.chunks = chunks) {σ : St} {n : Nat}
    (hsub : ∀ g ∈ groups root, ∀ t ∈ toks g, t ∈ toks root)
    (hend : n ≠ 0 → σ.df.stop > 0 → Stop chunks root (σ.df.stop + 1) →
      End chunks root (σ.df.stop + n)) :
    Step inp chunks root σ (leave env de σ n) := by
  by_cases hn : n = 0
  · subst hn; exact .refl _
  · have h2 := left2_step (inp := inp) (env := env) (hend hn) (by omega)
    rw [leave_eq σ n hn]
    split
    · next hm =>
      cases hgr : (left2 env σ n).df.group with
      | none =>
        dsimp only
        exact ⟨fun _ => rfl, fun _ => .inl rfl⟩
      | some g =>
        exact h2.trans (groupEnterNested_step hg hc hsub hgr)
    · exact h2

theorem leave_none {σ : St} (hgr : σ.df.group = none) :
    (leave env de σ 1).ub = true ∨
    ((leave env de σ 1).df.stop = 0 ∧ (leave env de σ 1).df.beg = σ.df.stop + 1) := by
  rw [leave_eq σ 1 (by decide)]
  obtain ⟨f1, f2, f3, f4⟩ := left2_facts (env := env) σ 1
  split
  · rw [show (left2 env σ 1).df.group = none by rw [f2]; exact hgr]
    exact .inl rfl
  · right; rw [f2]; exact ⟨rfl, rfl⟩

/-- Entering a group, doc.c:1300-1442. -/
theorem groupEnter_ok (hg : GetsLines inp de) (hd : env.diff = some de) (hc : de.chunks = chunks)
    (hsub : ∀ g ∈ groups root, ∀ t ∈ toks g, t ∈ toks root) {g : Doc} (hin : GroupIn inp root g) (σ : St) :
    (σ.ub = true → (groupEnter env σ g).1.ub = true) ∧
    (DiffOk inp chunks root σ → (groupEnter env σ g).1.ub = true ∨
      (DiffOk inp chunks root (groupEnter env σ g).1 ∧
        ((groupEnter env σ g).2 = true → σ.df.group = none ∧ (groupEnter env σ g).1.df.group = some g) ∧
        ((groupEnter env σ g).2 = false → (groupEnter env σ g).1.df.group = σ.df.group))) := by
  unfold groupEnter
  rw [hd]
  dsimp only
  have hl := leave_step (inp := inp) (env := env) (σ := σ) (n := 1) hg hc hsub (fun _ _ h => .inl h)
  by_cases hgr : σ.df.group.isSome = true
  · rw [if_pos hgr]
    exact ⟨id, fun h => .inr ⟨h, by simp⟩⟩
  · rw [if_neg hgr]
    have hgn : σ.df.group = none := by simpa using hgr
    split
    · exact ⟨id, fun h => .inr ⟨h, by simp⟩⟩
    · -- not covered
      by_cases hst : σ.df.stop > 0
      · rw [if_pos hst]
        dsimp only
        refine ⟨fun h => hl.1 h, fun h => ?_⟩
        rcases hl.2 h with hu | ⟨ho, he⟩
        · exact .inl hu
        · rcases leave_none (env := env) (de := de) hgn with hu | ⟨h0, _⟩
          · exact .inl hu
          · right
            refine ⟨⟨ho.1, ?_, ho.2.2⟩, by simp [hgn]⟩
            intro g' hg'
            cases hg'
            exact ⟨hin, fun h' => absurd h' (by dsimp only; omega)⟩
      · rw [if_neg hst]
        dsimp only
        refine ⟨id, fun h => .inr ⟨⟨h.1, ?_, h.2.2⟩, by simp [hgn]⟩⟩
        intro g' hg'
        cases hg'
        exact ⟨hin, fun h' => absurd h' hst⟩
    · next hcov =>
      have hf := covers_found hin.2 σ.df.beg false hcov
      generalize hdd : coversWalk g { threshold := σ.df.beg, goOn := false } = dd at *
      have hch : σ.df.beg ≤ dd.chunk ∧ dd.first ≤ dd.chunk := by
        obtain ⟨s, _, _, e, ht, _, h2, _⟩ := hf
        rw [← hdd, coversWalk_threshold] at ht
        rw [hdd] at *
        rw [e]
        exact ⟨ht, h2⟩
      by_cases hst : σ.df.stop > 0 ∧ dd.first > σ.df.stop
      · rw [if_pos hst]
        dsimp only
        refine ⟨fun h => (enterCovered_sane _ _ _).up (hl.1 h), fun h => ?_⟩
        rcases hl.2 h with hu | ⟨ho, he⟩
        · exact .inl ((enterCovered_sane _ _ _).up hu)
        · rcases leave_none (env := env) (de := de) hgn with hu | ⟨h0, hb⟩
          · exact .inl ((enterCovered_sane _ _ _).up hu)
          · have := enterCovered_ok (env := env) (σ := leave env de σ 1) hg hc hin (hsub g hin.1) hf
              (fun _ => by omega)
            rcases this.2 ⟨ho.1, by simp, ho.2.2⟩ with hu | ⟨h1, h2⟩
            · exact .inl hu
            · exact .inr ⟨h1, by simp [hgn, h2]⟩
      · rw [if_neg hst]
        dsimp only
        have := enterCovered_ok (env := env) (σ := σ) hg hc hin (hsub g hin.1) hf (fun _ => hch.1)
        refine ⟨fun h => (enterCovered_sane _ _ _).up h, fun h => ?_⟩
        rcases this.2 ⟨h.1, by simp, h.2.2⟩ with hu | ⟨h1, h2⟩
        · exact .inl hu
        · exact .inr ⟨h1, by simp [hgn, h2]⟩

/-! ## Executing -/

/-- States that differ only in what the invariant does not mention. -/
structure Same (σ τ : St) : Prop where
  ub : τ.ub = σ.ub
  df : τ.df = σ.df
  maxlines : τ.maxlines = σ.maxlines
  buf : τ.buf = σ.buf

theorem Same.step {σ τ : St} (h : Same σ τ) : Step inp chunks root σ τ :=
  step_blank h.ub h.df h.maxlines (by rw [h.buf]; exact .refl _ _)

theorem Step.after {σ τ ρ : St} (k : Step inp chunks root τ ρ) (h : Same σ τ) : Step inp chunks root σ ρ :=
  h.step.trans k

theorem Step.before {σ τ ρ : St} (k : Step inp chunks root σ τ) (h : Same τ ρ) : Step inp chunks root σ ρ :=
  k.trans h.step

/-- The tokens of a document are those of the group it is in. -/
def Within (σ : St) (d : Doc) : Prop := ∀ g, σ.df.group = some g → ∀ t ∈ toks d, t ∈ toks g

theorem diffLiteral_step (hg : GetsLines inp de) (hd : env.diff = some de) (hc : de.chunks = chunks)
    (hsub : ∀ g ∈ groups root, ∀ t ∈ toks g, t ∈ toks root) {s : List Char} {tk : Option Tok} {σ : St}
    (hw : Within σ (.literal s tk)) : Step inp chunks root σ (diffLiteral env σ tk) := by
  refine ⟨(diffLiteral_sane σ tk).up, fun h => ?_⟩
  unfold diffLiteral
  rw [hd]
  cases tk with
  | none => exact .inr ⟨h, rfl⟩
  | some tk =>
    dsimp only
    by_cases h0 : σ.df.stop = 0
    · rw [if_pos h0]; exact .inr ⟨h, rfl⟩
    · rw [if_neg h0]
      by_cases hgs : σ.df.group.isSome = true
      · rw [if_pos hgs]
        obtain ⟨g, hgr⟩ := Option.isSome_iff_exists.mp hgs
        right
        refine ⟨⟨h.1, ?_, ?_⟩, rfl⟩
        · intro g' hg'
          have := h.2.1 g' hg'
          exact ⟨this.1, fun _ => this.2 (by omega)⟩
        · rcases h.2.2 with h5 | h5 | h5
          · exact absurd h5.1 h0
          · right
            left
            dsimp only
            split
            · next hlt =>
              have h6 := h.2.1 g hgr
              exact ⟨by omega, h5.2.1.mono (by omega), .inr ⟨g, h6.1.1, h6.2 (by omega), tk,
                hw g hgr tk (by simp [toks]), rfl⟩⟩
            · exact h5
          · exact absurd h5.1 h0
      · rw [if_neg hgs]
        split
        · exact (leave_step (env := env) hg hc hsub (fun _ _ h => .inl h)).2 h
        · exact .inr ⟨h, rfl⟩

theorem verbatim1_step (hd : env.diff = some de) (s : List Char) (σ : St) :
    Step inp chunks root σ (verbatim1 env s σ) :=
  (step_trim σ).trans ((step_print (env := env) hd _ s {} rfl).after ⟨rfl, rfl, rfl, rfl⟩)

theorem verbatim2_step (tk : Tok) (σ : St) : Step inp chunks root σ (verbatim2 env tk σ) := by
  unfold verbatim2
  split
  · refine ⟨id, fun h => .inr ⟨?_, rfl⟩⟩
    exact Pok.df (df := σ.df) h rfl rfl rfl (fun _ h => h)
  · exact .refl _

theorem verbatim3_step (s : List Char) (c : Nat) (σ : St) : Step inp chunks root σ (verbatim3 env s c σ) := by
  unfold verbatim3
  split
  · exact step_indent _ _ _
  · exact .refl _

theorem verbatim_stop (s : List Char) (c : Nat) (tk : Tok) (σ : St) :
    (verbatim3 env s c (verbatim2 env tk (verbatim1 env s σ))).df.stop = σ.df.stop := by
  have h1 : (verbatim1 env s σ).df = σ.df := (print_frame _ _ _ _).df
  have h2 : (verbatim2 env tk (verbatim1 env s σ)).df.stop = (verbatim1 env s σ).df.stop := by
    unfold verbatim2
    split <;> rfl
  have h3 : ∀ τ, (verbatim3 env s c τ).df = τ.df := by
    intro τ
    unfold verbatim3
    split
    · exact (printIndent_frame _ _ _).df
    · rfl
  rw [h3, h2, h1]

theorem execVerbatim_step (hg : GetsLines inp de) (hd : env.diff = some de) (hc : de.chunks = chunks)
    (hsub : ∀ g ∈ groups root, ∀ t ∈ toks g, t ∈ toks root) {tk : Tok} (ht : tk ∈ toks root) (σ : St) :
    Step inp chunks root σ (execVerbatim env tk.str tk σ) := by
  rw [execVerbatim_eq]
  split
  · exact .refl _
  · have h1 : Step inp chunks root σ (diffVerbatim env σ tk.str tk).1 := by
      unfold diffVerbatim
      rw [hd]
      dsimp only
      split
      · exact .refl _
      · split
        · exact leave_step (env := env) hg hc hsub (fun _ _ h => .inl h)
        · split <;> exact .refl _
    have hn : (diffVerbatim env σ tk.str tk).2 = 0 ∨ ((diffVerbatim env σ tk.str tk).1 = σ ∧
        tk.lno ≤ σ.df.stop ∧ σ.df.stop < last tk ∧
        σ.df.stop + (diffVerbatim env σ tk.str tk).2 = last tk) := by
      unfold diffVerbatim
      rw [hd]
      dsimp only
      split
      · exact .inl rfl
      · split
        · exact .inl rfl
        · next h3 =>
          split
          · next h4 => exact .inr ⟨rfl, by omega, h4.2, by simp only [last]; omega⟩
          · exact .inl rfl
    refine ((((h1.trans (verbatim1_step (env := env) hd tk.str _)).trans (verbatim2_step (env := env) tk _)).trans
      (verbatim3_step (env := env) tk.str (trimSpaces (diffVerbatim env σ tk.str tk).1).col _))).trans ?_
    unfold diffLeave
    rw [hd]
    dsimp only
    refine leave_step (env := env) hg hc hsub ?_
    intro h0 hs hst
    rcases hn with hn | ⟨e, h4, h5, h6⟩
    · exact absurd hn h0
    · rw [verbatim_stop, e] at hst ⊢
      exact .inr ⟨_, hst, by omega, tk, ht, by omega, by rw [h6]⟩

theorem execMute_step (hd : env.diff = some de) (n : Int) (b : Bool) (σ : St) :
    Step inp chunks root σ (execMute env n b σ) := by
  rw [execMute_eq]
  have h1 : Step inp chunks root σ (mute1 env n σ) := by
    unfold mute1
    split
    · unfold diffMuteEnter
      split
      · exact .refl _
      · next hm =>
        refine ⟨id, fun h => .inr ⟨?_, rfl⟩⟩
        exact Pok.df (df := σ.df) h rfl rfl rfl
          (fun h0 _ => absurd (by simp [diffIsMute, hd, h0]) hm)
    · exact .refl _
  have h2 : Step inp chunks root σ (mute2 n (mute1 env n σ)) := h1.before ⟨rfl, rfl, rfl, rfl⟩
  split
  · refine h2.trans ?_
    generalize mute2 n (mute1 env n σ) = τ
    refine Step.before (τ := diffMuteLeave env τ) ?_ ⟨rfl, rfl, rfl, rfl⟩
    refine ⟨(diffMuteLeave_sane τ).up, fun h => .inr ?_⟩
    unfold diffMuteLeave
    rw [hd]
    dsimp only
    by_cases hm : (τ.df.muteline && τ.muteline) = true
    · rw [if_pos hm]
      have fr := print_frame env (resetLines τ) ['\n'] { force := true }
      have hx := forced_not_mute (env := env) (resetLines τ) ['\n'] { force := true } rfl
      generalize (print env (resetLines τ) ['\n'] { force := true }).1 = ρ at *
      have hp : Pok inp chunks root ρ.buf ρ.df ρ.maxlines := by
        rw [fr.df, fr.maxlines]
        refine ⟨h.1, h.2.1, ?_⟩
        rcases h.2.2 with h5 | h5
        · rw [h5.2.2.1] at hm; simp at hm
        · exact .inr (h5.ext hx)
      refine ⟨hp.df rfl rfl rfl (fun _ _ => rfl), ?_⟩
      show ρ.df.group = _
      rw [fr.df]; rfl
    · rw [if_neg hm]
      exact ⟨Pok.df (df := τ.df) h rfl rfl rfl (fun _ _ => rfl), rfl⟩
  · exact h2

theorem indentEnter_step (n : Int) (σ : St) : Step inp chunks root σ (indentEnter env n σ) := by
  unfold indentEnter
  split
  · exact Same.step ⟨rfl, rfl, rfl, rfl⟩
  · split
    · exact step_indent _ _ _
    · split
      · exact Same.step ⟨rfl, rfl, rfl, rfl⟩
      · split
        · exact Same.step ⟨rfl, rfl, rfl, rfl⟩
        · exact Same.step ⟨rfl, rfl, rfl, rfl⟩

theorem indentEnter_df (n : Int) (σ : St) : (indentEnter env n σ).df = σ.df := by
  unfold indentEnter
  split
  · rfl
  · split
    · exact (printIndent_frame _ _ _).df
    · split
      · rfl
      · split <;> rfl

theorem execIndent_step {f : St → St} {d : Doc} (hf : ∀ σ, Within σ d → Step inp chunks root σ (f σ))
    (n : Int) (σ : St) (hw : Within σ d) : Step inp chunks root σ (execIndent env n f σ) := by
  have h := (indentEnter_step (inp := inp) (chunks := chunks) (root := root) (env := env) n σ).trans
    (hf (indentEnter env n σ) (by unfold Within; rw [indentEnter_df]; exact hw))
  unfold execIndent
  dsimp only
  split
  · exact h.before ⟨rfl, rfl, rfl, rfl⟩
  · split
    · exact h
    · exact h.before ⟨rfl, rfl, rfl, rfl⟩

theorem minimize1_step {f : St → St} {d : Doc} (hf : ∀ σ, Within σ d → Step inp chunks root σ (f σ))
    (id : Nat) (ms : List Minimizer) (σ : St) (i : Nat) (hw : Within σ d) :
    Step inp chunks root σ (minimize1 env id ms f σ i) := by
  unfold minimize1
  split
  · exact ⟨fun _ => rfl, fun _ => .inl rfl⟩
  · next m _ =>
    exact (execIndent_step (env := env) hf m.indent
      { σ with force := if m.force ∨ (id, i) ∈ σ.forced then some i else σ.force } hw).after
      ⟨rfl, rfl, rfl, rfl⟩

theorem execMinimize_step {f : St → St} {d : Doc} (hf : ∀ σ, Within σ d → Step inp chunks root σ (f σ))
    (hs : ∀ σ, Sane σ (f σ)) (id : Nat) (ms : List Minimizer) (σ : St) (hw : Within σ d) :
    Step inp chunks root σ (execMinimize env id ms f σ) := by
  refine ⟨(execMinimize_sane hs id ms σ).up, ?_⟩
  unfold execMinimize
  split
  · exact (minimize1_step hf id ms σ _ hw).2
  · obtain ⟨F, u, hc⟩ := choose_restore env id ms f σ
    generalize hch : choose env id ms f σ = r at *
    obtain ⟨τ, b⟩ := r
    dsimp only at hc
    subst hc
    cases b with
    | none => exact fun _ => .inl rfl
    | some best =>
      dsimp only
      have := minimize1_step (env := env) hf id ms
          { σ with forced := F, ub := u, idx := some best } best hw
      exact this.2

theorem exec_step (hg : GetsLines inp de) (hd : env.diff = some de) (hc : de.chunks = chunks)
    (hsub : ∀ g ∈ groups root, ∀ t ∈ toks g, t ∈ toks root) (d : Doc) :
    (∀ t ∈ toks d, t ∈ toks root) → (∀ g ∈ groups d, GroupIn inp root g) → WellMade d →
    ∀ σ, Within σ d → Step inp chunks root σ (exec env d σ) := by
  induction d with
  | nil => exact fun _ _ _ σ _ => .refl _
  | seq d ds ih1 ih2 =>
    intro ht hgs hm σ hw
    simp only [toks, groups, List.mem_append] at ht hgs
    have h1 := ih1 (fun t h => ht t (.inl h)) (fun g h => hgs g (.inl h)) hm.1 σ
      (fun g h t h' => hw g h t (by simp [toks, h']))
    rw [exec]
    refine ⟨fun h => (exec_sane ds _).up (h1.1 h), fun ho => ?_⟩
    rcases h1.2 ho with hu | ⟨ho', he⟩
    · exact .inl ((exec_sane ds _).up hu)
    · have h2 := ih2 (fun t h => ht t (.inr h)) (fun g h => hgs g (.inr h)) hm.2 (exec env d σ)
        (by rw [Within, he]; exact fun g h t h' => hw g h t (by simp [toks, h']))
      rw [← he]
      exact h2.2 ho'
  | group d ih =>
    intro ht hgs hm σ hw
    simp only [groups, List.mem_cons] at hgs
    rw [exec_group_eq]
    refine ⟨fun h => ?_, fun ho => ?_⟩
    · have := exec_sane (env := env) (.group d) σ
      rw [exec_group_eq] at this
      exact this.up h
    · have he := (groupEnter_ok hg hd hc hsub (hgs _ (.inl rfl)) σ).2 ho
      generalize groupEnter env σ (.group d) = r at *
      obtain ⟨τ, e⟩ := r
      dsimp only at he ⊢
      have hbs : Sane τ (groupBody env d τ) := by
        unfold groupBody
        split
        · exact exec_sane d τ
        · exact ⟨(exec_sane d _).ub, (exec_sane d _).cur, (exec_sane d _).parens⟩
      rcases he with hu | ⟨ho', ht1, ht2⟩
      · exact .inl ((groupLeave_sane _ _).up (hbs.up hu))
      · have hw' : Within τ d := by
          cases e with
          | true =>
            rw [Within, (ht1 rfl).2]
            intro g hg t h
            cases hg
            exact h
          | false =>
            rw [Within, ht2 rfl]
            exact hw
        have hb : Step inp chunks root τ (groupBody env d τ) := by
          have ih' := ih ht (fun g h => hgs g (.inr h)) hm
          unfold groupBody
          split
          · exact ih' τ hw'
          · exact ((ih' { ({ τ with refit := false } : St) with
              mode := if fits env { τ with refit := false } (.group d) then .munge else .brk } hw').after
              ⟨rfl, rfl, rfl, rfl⟩).before ⟨rfl, rfl, rfl, rfl⟩
        rcases hb.2 ho' with hu | ⟨h1, h2⟩
        · exact .inl ((groupLeave_sane _ _).up hu)
        · cases e with
          | false => rw [groupLeave_false]; exact .inr ⟨h1, h2.trans (ht2 rfl)⟩
          | true =>
            right
            unfold groupLeave
            rw [hd]
            refine ⟨⟨h1.1, by simp, h1.2.2⟩, ?_⟩
            rw [(ht1 rfl).1]; rfl
  | indent n d ih => exact fun ht hgs hm σ hw => execIndent_step (ih ht hgs hm) n σ hw
  | noindent d ih =>
    intro ht hgs hm σ hw
    rw [exec]
    exact (step_trim σ).trans
      (((ih ht hgs hm { trimSpaces σ with cur := 0, pre := 0 } hw).after ⟨rfl, rfl, rfl, rfl⟩).before
        ⟨rfl, rfl, rfl, rfl⟩)
  | align a =>
    intro _ _ _ σ _
    obtain ⟨w, c, e, hw⟩ := execAlign_spec a σ
    rw [exec, e]
    exact step_blank rfl rfl rfl (.blanks w σ.buf hw)
  | literal s tk =>
    intro _ _ _ σ hw
    exact (diffLiteral_step hg hd hc hsub hw).trans (step_print (env := env) hd _ s _ rfl)
  | verbatim s tk =>
    intro ht _ hm σ _
    rw [exec, show s = tk.str from hm]
    exact execVerbatim_step hg hd hc hsub (ht tk (by simp [toks])) σ
  | line =>
    intro _ _ _ σ _
    rw [exec]
    split
    · exact step_print (env := env) hd _ _ _ rfl
    · exact (step_print (env := env) hd σ [' '] { indent := true } rfl).before ⟨rfl, rfl, rfl, rfl⟩
  | softline n =>
    intro _ _ _ σ _
    rw [exec]
    split
    · exact step_print (env := env) hd _ _ _ rfl
    · exact .refl _
  | hardline => exact fun _ _ _ σ _ => step_print (env := env) hd _ _ _ rfl
  | optline => exact fun _ _ _ σ _ => Same.step ⟨rfl, rfl, rfl, rfl⟩
  | mute n => exact fun _ _ _ σ _ => execMute_step hd _ _ σ
  | unmute n => exact fun _ _ _ σ _ => execMute_step hd _ _ σ
  | optional d ih =>
    intro ht hgs hm σ hw
    exact ((ih ht hgs hm { σ with optline := σ.optline + 1 } hw).after ⟨rfl, rfl, rfl, rfl⟩).before
      ⟨rfl, rfl, rfl, rfl⟩
  | minimize id ms d ih =>
    exact fun ht hgs hm σ hw => execMinimize_step (ih ht hgs hm) (exec_sane d) id ms σ hw
  | scope d ih =>
    intro ht hgs hm σ hw
    exact (ih ht hgs hm { σ with statLines := 0 } hw).after ⟨rfl, rfl, rfl, rfl⟩
  | maxlines n d ih =>
    intro ht hgs hm σ hw
    have := ih ht hgs hm.2 { σ with maxlines := n } hw
    refine ⟨this.1, fun ho => ?_⟩
    rcases this.2 ⟨hm.1, ho.2⟩ with hu | ⟨h1, h2⟩
    · exact .inl hu
    · exact .inr ⟨⟨ho.1, h1.2⟩, h2⟩

/-! ## Formatting the selected lines -/

theorem groups_in (d : Doc) : ∀ g ∈ groups d, (toks g).Sublist (toks d) ∧ (WellMade d → WellMade g) := by
  induction d with
  | seq d ds ih1 ih2 =>
    intro g hg
    simp only [groups, List.mem_append] at hg
    rcases hg with hg | hg
    · exact ⟨(ih1 g hg).1.trans (List.sublist_append_left _ _), fun h => (ih1 g hg).2 h.1⟩
    · exact ⟨(ih2 g hg).1.trans (List.sublist_append_right _ _), fun h => (ih2 g hg).2 h.2⟩
  | group d ih =>
    intro g hg
    simp only [groups, List.mem_cons] at hg
    rcases hg with rfl | hg
    · exact ⟨.refl _, id⟩
    · exact ih g hg
  | maxlines n d ih => exact fun g hg => ⟨(ih g hg).1, fun h => (ih g hg).2 h.2⟩
  | indent _ d ih | noindent d ih | optional d ih | minimize _ _ d ih | scope d ih =>
    exact fun g hg => ih g hg
  | literal s tk => intro g hg; cases tk <;> simp [groups] at hg
  | nil | align | verbatim | line | softline | hardline | optline | mute | unmute =>
    intro g hg; simp [groups] at hg

theorem printIndent_none (σ : St) (hc : σ.cur = 0) (hp : σ.parens = 0) :
    (printIndent env σ σ.cur).buf = σ.buf := by
  unfold printIndent
  rw [if_neg (by omega), hc]
  have e : strindent 0 env.useTabs σ.col = ([], σ.col) := by
    unfold strindent
    cases env.useTabs <;> simp [strindentTabs, strindentSpaces]
  simp [printIndent1, e]

/-- C48: whatever the document, as long as its tokens are in the order of the input, and
whatever the lines selected: unless the printer fails, its output consists of lines of the
input copied byte for byte, and of spans formatted anew of which each has a selected token.
A span ends with a range of selected lines or with a line of a group that has a selected
token. What is missing is that the printer does not fail, see `diff_mode_fails`. -/
theorem diff_mode_partial (hd : env.diff = some de) (hg : GetsLines inp de) (hin : InOrder inp root)
    (hu : (docExec env false [] root).ub = false) :
    ∃ b t, Tiles inp de.chunks root b t ∧
      (docExec env false [] root).buf.reverse = t ++ linesFrom inp b := by
  have hsub : ∀ g ∈ groups root, ∀ t ∈ toks g, t ∈ toks root := fun g h t ht =>
    (groups_in root g h).1.subset ht
  have hgs : ∀ g ∈ groups root, GroupIn inp root g := fun g h =>
    ⟨h, hin.order.sublist (groups_in root g h).1, fun t ht => hin.bound t (hsub g h t ht),
      (groups_in root g h).2 hin.made⟩
  have hs := exec_step (chunks := de.chunks) hg hd rfl hsub root (fun _ h => h) hgs hin.made { buf := [] }
    (by intro g h; simp at h)
  have hsane := exec_sane (env := env) root { buf := [] }
  have h0 : DiffOk inp de.chunks root { buf := [] } :=
    ⟨by decide, by simp, .inl ⟨rfl, rfl, rfl, by simp⟩⟩
  have hx := hs.2 h0
  unfold docExec at hu ⊢
  simp only [List.reverse_nil, Bool.false_eq_true, if_false] at hu ⊢
  generalize exec env root { buf := [] } = σ at *
  unfold diffExit at hu ⊢
  rw [hd] at hu ⊢
  dsimp only at hu ⊢
  -- after the last range was left
  have hy : ∃ τ : St, τ = (if σ.df.stop > 0 then leave env de σ 1 else σ) ∧
      (τ.ub = true ∨ (DiffOk inp de.chunks root τ ∧ τ.df.stop = 0)) ∧ τ.cur = 0 ∧ τ.parens = 0 := by
    refine ⟨_, rfl, ?_⟩
    split
    · refine ⟨?_, (leave_sane σ 1).cur.trans hsane.cur, (leave_sane σ 1).parens.trans hsane.parens⟩
      have hl := leave_step (inp := inp) (env := env) (σ := σ) (n := 1) hg (Eq.refl de.chunks) hsub
        (fun _ _ h => .inl h)
      rcases hx with hx | ⟨ho, he⟩
      · exact .inl (hl.1 hx)
      · rcases hl.2 ho with hx | ⟨ho', _⟩
        · exact .inl hx
        · rcases leave_none (env := env) (de := de) he with hx | ⟨h1, _⟩
          · exact .inl hx
          · exact .inr ⟨ho', h1⟩
    · next hst =>
      refine ⟨?_, hsane.cur, hsane.parens⟩
      rcases hx with hx | ⟨ho, he⟩
      · exact .inl hx
      · exact .inr ⟨ho, by omega⟩
  obtain ⟨τ, hτ, hok, hc, hp⟩ := hy
  have hb : (if σ.df.stop > 0 then leave env de σ 1 else σ) = τ := hτ.symm
  have hu' : (diffEmit env de τ τ.df.beg 0).ub = false := by rw [← hb]; exact hu
  have goal : ∃ b t, Tiles inp de.chunks root b t ∧
      (diffEmit env de τ τ.df.beg 0).buf.reverse = t ++ linesFrom inp b := by
    rcases hok with hx | ⟨ho, hst⟩
    · rw [(diffEmit_sane _ _ _).up hx] at hu'; simp at hu'
    · have hready : Tiles inp de.chunks root τ.df.beg (trimSpaces τ).buf.reverse := by
        refine ready (σ := τ) ?_
        rcases ho.2.2 with h5 | h5 | h5
        · exact .inl h5
        · exact absurd h5.1 (by omega)
        · exact .inr h5
      by_cases hlen : τ.df.beg ≤ (splitLines inp).length
      · refine ⟨_, _, hready, ?_⟩
        unfold diffEmit
        rw [hg.rest _ (Spec.Tiles.pos hready) hlen]
        dsimp only
        obtain ⟨_, _, hpr⟩ := print_forced (env := env) (resetLines τ) (linesFrom inp τ.df.beg) rfl rfl ho.1
        have fr := print_frame env (trimSpaces (resetLines τ)) (linesFrom inp τ.df.beg) { force := true }
        generalize (print env (trimSpaces (resetLines τ)) (linesFrom inp τ.df.beg) { force := true }).1 = ρ at *
        rw [printIndent_none ρ (fr.cur.trans hc) (fr.parens.trans hp), hpr]
        simp [trimSpaces, resetLines]
      · refine ⟨τ.df.beg, τ.buf.reverse, ?_, ?_⟩
        · rcases ho.2.2 with h5 | h5 | h5
          · have : 1 ≤ (splitLines inp).length := List.length_pos_iff.mpr (splitLines_ne inp)
            have := h5.2.1
            omega
          · exact absurd h5.1 (by omega)
          · exact h5.2.1.tiles h5.2.2
        · unfold diffEmit
          rw [hg.beyond _ (by omega)]
          dsimp only
          rw [linesFrom, List.drop_eq_nil_of_le (by omega)]
          simp
  rw [← hb] at goal
  exact goal

theorem linesFrom_one (inp : List Char) : linesFrom inp 1 = inp := by
  simp [linesFrom, splitLines_flatten]

/-- Without a selected token all lines are copied. -/
theorem Spec.Tiles.all {b : Nat} {t : List Char} (h : Tiles inp chunks root b t)
    (hn : ∀ s ∈ toks root, s.diff = false) : t ++ linesFrom inp b = inp := by
  induction h with
  | start => exact linesFrom_one inp
  | @copy b x t h1 h2 h3 ih =>
    rw [List.append_assoc]
    refine Eq.trans ?_ ih
    congr 1
    unfold lineRange linesFrom
    have : x - 1 = (b - 1) + (x - b) := by have := h1.pos; omega
    rw [this, ← List.drop_drop, ← List.flatten_append, List.take_append_drop]
  | format _ h1 _ ih =>
    obtain ⟨s, h2, h3, _⟩ := h1
    rw [hn s h2] at h3
    simp at h3

/-- C48: without a selected token the output is the input, byte for byte. -/
theorem diff_mode_nothing (hd : env.diff = some de) (hg : GetsLines inp de) (hin : InOrder inp root)
    (hu : (docExec env false [] root).ub = false) (hn : ∀ s ∈ toks root, s.diff = false) :
    (docExec env false [] root).buf.reverse = inp := by
  obtain ⟨b, t, h, e⟩ := diff_mode_partial hd hg hin hu
  rw [e]
  exact h.all hn

/-! ## Examples -/

/-- Documents in a row. -/
def rowOf : List Doc → Doc
  | [] => .nil
  | d :: ds => .seq d (rowOf ds)

/-- The diff mode for an input, as `main` sets it up. -/
def diffEnvOf (inp : List Char) (chunks : List Diff.Chunk) : DiffEnv :=
  ⟨chunks, Lexer.getLines inp
    (Lexer.tokenizeLoop inp ⟨true, fun _ => none, fun n => chunks.any fun c => c.beg ≤ n ∧ n ≤ c.end_⟩
      Lexer.init).1⟩

def diffInput : List Char := "int  x;\nint  a,\n  b;\nint  y;\n".toList

def litOf (id lno : Nat) (s : List Char) (diff : Bool) : Doc :=
  .literal s (some { id := id, lno := lno, str := s, diff := diff })

/-- Three declarations of which the second one is touched by the diff. -/
def diffExample : Doc := rowOf
  [ .group (rowOf [litOf 0 1 "int".toList false, .line, litOf 1 1 "x".toList false,
      litOf 2 1 ";".toList false]), .hardline,
    .group (rowOf [litOf 3 2 "int".toList true, .line, litOf 4 2 "a".toList true,
      litOf 5 2 ",".toList true, .line, litOf 6 3 "b".toList false, litOf 7 3 ";".toList false]), .hardline,
    .group (rowOf [litOf 8 4 "int".toList false, .line, litOf 9 4 "y".toList false,
      litOf 10 4 ";".toList false]), .hardline ]

/-- The hypotheses of `diff_mode_partial` are met, and only the second declaration is
formatted. -/
example : GetsLines diffInput (diffEnvOf diffInput [⟨2, 2⟩]) ∧ InOrder diffInput diffExample ∧
    (docExec { diff := some (diffEnvOf diffInput [⟨2, 2⟩]) } false [] diffExample).ub = false ∧
    (docExec { diff := some (diffEnvOf diffInput [⟨2, 2⟩]) } false [] diffExample).buf.reverse =
      "int  x;\nint a, b;\nint  y;\n".toList := by
  refine ⟨getsLines _ _ _, ⟨by decide +kernel, by decide +kernel, ?_⟩, by decide +kernel, by decide +kernel⟩
  simp [diffExample, rowOf, litOf, WellMade]

/-- The hypotheses of `diff_mode_nothing` are met. -/
example : InOrder diffInput (.group (litOf 0 1 "int".toList false)) ∧
    (docExec { diff := some (diffEnvOf diffInput []) } false [] (.group (litOf 0 1 "int".toList false))).ub =
      false ∧
    ∀ s ∈ toks (.group (litOf 0 1 "int".toList false)), s.diff = false :=
  ⟨⟨by decide +kernel, by decide +kernel, trivial⟩, by decide +kernel, by decide +kernel⟩

def diffBugInput : List Char := "/* a */\n\nb\n\n/* c */\nd\n".toList

/-- A group with a comment that is not touched by the diff, followed by two ranges of
selected lines. -/
def diffBug : Doc :=
  .group (rowOf [
    .verbatim "/* a */\n".toList { id := 0, lno := 1, str := "/* a */\n".toList },
    litOf 1 3 "b".toList true, .line,
    .verbatim "/* c */\n".toList { id := 2, lno := 5, str := "/* c */\n".toList, diff := true },
    litOf 3 6 "d".toList true ])

/-- C48, the failure: after the first range the comment before it is found once again, as
doc.c:1612-1613 remembers it whether or not it was passed already. The lines from the end of
the first range up to the end of the comment are asked for, which is a negative number of
bytes. -/
theorem diff_mode_fails :
    InOrder diffBugInput diffBug ∧ GetsLines diffBugInput (diffEnvOf diffBugInput [⟨3, 3⟩, ⟨5, 6⟩]) ∧
    (docExec { diff := some (diffEnvOf diffBugInput [⟨3, 3⟩, ⟨5, 6⟩]) } false [] diffBug).ub = true ∧
    (diffEnvOf diffBugInput [⟨3, 3⟩, ⟨5, 6⟩]).getLines 4 2 = .undefined := by
  refine ⟨⟨by decide +kernel, by decide +kernel, ?_⟩, getsLines _ _ _, by decide +kernel, by decide +kernel⟩
  simp [diffBug, rowOf, litOf, WellMade]

end Knfmt.Doc
