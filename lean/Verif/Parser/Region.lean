import Verif.Parser.Token
/-! C49: regions between `clang-format off` and `clang-format on` comments. -/
namespace Knfmt.Parser

open Knfmt.Doc Knfmt.Doc.Spec Knfmt.Util Knfmt.Lexer Knfmt.Spec

namespace Spec

/-- What is read, from left to right: comments and directives ahead of a token, or anything
else. -/
inductive Item where
  | comment (t : Lexer.Tok)
  | other (d : Doc)

/-- What the parser adds to the document, from left to right. -/
def items (inp : List Char) : List Act → List Item
  | [] => []
  | .token t :: l =>
    t.prefixes.map .comment ++ .other (.literal (text inp t.tok) (some (docTok inp t.tok))) ::
      (docSuffixes inp t.suffixes).map .other ++ items inp l
  | .other d :: l => .other d :: items inp l

/-- Is formatting disabled after what was read? -/
def disabled : Bool → List Item → Bool
  | b, [] => b
  | b, .comment t :: l => disabled (t.flags.cfOff || (b && !t.flags.cfOn)) l
  | b, .other _ :: l => disabled b l

/-- Formatting is not disabled where it already is. -/
def Once : Bool → List Item → Prop
  | _, [] => True
  | b, .comment t :: l =>
    (t.flags.cfOff = true → b = true → t.flags.cfOn = true) ∧
      Once (t.flags.cfOff || (b && !t.flags.cfOn)) l
  | b, .other _ :: l => Once b l

/-- Neither disables nor enables formatting. -/
def Neutral (l : List Item) : Prop :=
  ∀ t, Item.comment t ∈ l → t.flags.cfOn = false ∧ t.flags.cfOff = false

/-- What the parser adds apart from tokens has nothing to do with muting. -/
def NoMute (l : List Item) : Prop :=
  ∀ d, Item.other d ∈ l → ∀ e ∈ events d, ∃ s, e = .text s

/-- The first line after the comment. -/
def after (inp : List Char) (t : Lexer.Tok) : Nat := t.lno + countlines (text inp t)

/-- The lines of the input from `a` and up to `b`, not including it. Lines are counted from
one and include their line feed. -/
def lines (inp : List Char) (a b : Nat) : List Char :=
  (((splitLines inp).drop (a - 1)).take (b - a)).flatten

end Spec

open Knfmt.Parser.Spec

/-- A run of the parser on items. -/
def run (inp : List Char) (lx : Lx) : List Item → St → List Doc × St
  | [], σ => ([], σ)
  | .comment t :: l, σ =>
    let a := docPrefix inp lx false t σ
    let b := run inp lx l a.2
    (a.1 ++ b.1, b.2)
  | .other d :: l, σ =>
    let b := run inp lx l σ
    (d :: b.1, b.2)

theorem run_append (inp : List Char) (lx : Lx) (a b : List Item) (σ : St) :
    run inp lx (a ++ b) σ =
      ((run inp lx a σ).1 ++ (run inp lx b (run inp lx a σ).2).1, (run inp lx b (run inp lx a σ).2).2) := by
  induction a generalizing σ with
  | nil => simp [run]
  | cons i a ih => cases i <;> simp [run, ih]

theorem run_others (inp : List Char) (lx : Lx) (ds : List Doc) (σ : St) :
    run inp lx (ds.map .other) σ = (ds, σ) := by
  induction ds with
  | nil => rfl
  | cons d ds ih => simp [run, ih]

theorem run_comments (inp : List Char) (lx : Lx) (ts : List Lexer.Tok) (σ : St) :
    run inp lx (ts.map .comment) σ = docPrefixes inp lx false ts σ := by
  induction ts generalizing σ with
  | nil => rfl
  | cons d ds ih => simp [run, docPrefixes, ih]

theorem docPrefix_unmute (inp : List Char) (lx : Lx) (t : Lexer.Tok) (σ : St)
    (h : σ.unmute = none) : (docPrefix inp lx false t σ).2.unmute = none := by
  simp only [docPrefix, formatOn, formatOff, formatVerbatim, h]
  grind

theorem run_unmute (inp : List Char) (lx : Lx) (l : List Item) (σ : St) (h : σ.unmute = none) :
    (run inp lx l σ).2.unmute = none := by
  induction l generalizing σ with
  | nil => exact h
  | cons i l ih =>
    cases i with
    | comment t => exact ih _ (docPrefix_unmute inp lx t σ h)
    | other d => exact ih _ h

theorem acts_run (inp : List Char) (lx : Lx) (l : List Act) (σ : St) (h : σ.unmute = none) :
    acts inp lx l σ = run inp lx (items inp l) σ := by
  induction l generalizing σ with
  | nil => rfl
  | cons a l ih =>
    cases a with
    | other d => simp [acts, items, run, ih _ h]
    | token t =>
      have hu := run_unmute inp lx (t.prefixes.map .comment) σ h
      have e : docToken inp lx false false t σ =
          ((run inp lx (t.prefixes.map .comment) σ).1 ++
            .literal (text inp t.tok) (some (docTok inp t.tok)) :: docSuffixes inp t.suffixes,
            (run inp lx (t.prefixes.map .comment) σ).2) := by
        simp [docToken, h, run_comments]
      rw [acts, e]
      dsimp only
      rw [ih _ hu, items, run_append, run_append]
      simp [run, run_others]

theorem disabled_append (b : Bool) (x y : List Item) :
    disabled b (x ++ y) = disabled (disabled b x) y := by
  induction x generalizing b with
  | nil => rfl
  | cons i x ih => cases i <;> exact ih _

theorem once_append (b : Bool) (x y : List Item) :
    Once b (x ++ y) ↔ Once b x ∧ Once (disabled b x) y := by
  induction x generalizing b with
  | nil => simp [Once, disabled]
  | cons i x ih => cases i <;> simp [Once, disabled, ih, and_assoc]

/-- The mute level of a text without changes of it. -/
theorem level_texts (l : List Event) (h : ∀ e ∈ l, ∃ s, e = .text s) (m : Int) : level l m = m := by
  induction l with
  | nil => rfl
  | cons e l ih =>
    obtain ⟨s, rfl⟩ := h e (List.mem_cons_self ..)
    exact ih fun e he => h e (List.mem_cons_of_mem _ he)

theorem visible_muted (l : List Event) (h : ∀ e ∈ l, ∃ s, e = .text s) (m : Int) (hm : m ≠ 0) :
    visible l m = [] := by
  induction l with
  | nil => rfl
  | cons e l ih =>
    obtain ⟨s, rfl⟩ := h e (List.mem_cons_self ..)
    rw [visible, if_neg (fun x => hm x.1)]
    exact ih fun e he => h e (List.mem_cons_of_mem _ he)

/-- The level belonging to formatting being disabled. -/
def lvl (b : Bool) : Int := if b then 1 else 0

theorem lvl_true : lvl true = 1 := rfl

theorem lvl_false : lvl false = 0 := rfl

theorem formatVerbatim_level (inp : List Char) (lx : Lx) (stop : Nat) (σ : St) :
    level ((formatVerbatim inp lx stop σ).1.flatMap events) (lvl σ.off.isSome) = 0 ∧
    (formatVerbatim inp lx stop σ).2.off = none ∧
    (formatVerbatim inp lx stop σ).2.unmute = σ.unmute := by
  unfold formatVerbatim
  cases h : σ.off with
  | none => exact ⟨rfl, h, rfl⟩
  | some t =>
    dsimp only
    split
    · exact ⟨rfl, rfl, rfl⟩
    · exact ⟨rfl, rfl, rfl⟩
    · exact ⟨rfl, rfl, rfl⟩

theorem docPrefix_level (inp : List Char) (lx : Lx) (t : Lexer.Tok) (σ : St) (h : σ.unmute = none)
    (ho : t.flags.cfOff = true → σ.off.isSome = true → t.flags.cfOn = true) :
    level ((docPrefix inp lx false t σ).1.flatMap events) (lvl σ.off.isSome) =
      lvl (t.flags.cfOff || (σ.off.isSome && !t.flags.cfOn)) ∧
    (docPrefix inp lx false t σ).2.off.isSome =
      (t.flags.cfOff || (σ.off.isSome && !t.flags.cfOn)) := by
  have hv := formatVerbatim_level inp lx t.lno σ
  unfold docPrefix
  cases hon : t.flags.cfOn with
  | true =>
    have e : formatOn inp lx false t σ = formatVerbatim inp lx t.lno σ := by
      simp [formatOn, h]
    simp only [if_true, e]
    cases hoff : t.flags.cfOff with
    | true =>
      simp only [if_true, formatOff, hv.2.2, h]
      simp [level_append, hv.1, level, events, nextLevel, lvl_true]
    | false => simp [level_append, hv.1, level, events, lvl_false, hv.2.1]
  | false =>
    cases hoff : t.flags.cfOff with
    | true =>
      have : σ.off.isSome = false := by
        cases hs : σ.off.isSome with
        | false => rfl
        | true => simpa [hon] using ho hoff hs
      simp [formatOff, h, this, level, events, nextLevel, lvl]
    | false => simp [level, events]

/-- Formatting is disabled, the level is one and the comment is remembered, all at once. -/
theorem run_level (inp : List Char) (lx : Lx) (l : List Item) (σ : St) (h : σ.unmute = none)
    (ho : Once σ.off.isSome l) (hn : NoMute l) :
    level ((run inp lx l σ).1.flatMap events) (lvl σ.off.isSome) = lvl (disabled σ.off.isSome l) ∧
    (run inp lx l σ).2.off.isSome = disabled σ.off.isSome l := by
  induction l generalizing σ with
  | nil => exact ⟨rfl, rfl⟩
  | cons i l ih =>
    cases i with
    | comment t =>
      have h1 := docPrefix_level inp lx t σ h ho.1
      have h2 := ih (docPrefix inp lx false t σ).2 (docPrefix_unmute inp lx t σ h)
        (by rw [h1.2]; exact ho.2) (fun d hd => hn d (List.mem_cons_of_mem _ hd))
      simp only [run, List.flatMap_append, level_append, h1.1, disabled]
      rw [h1.2] at h2
      exact h2
    | other d =>
      have h2 := ih σ h ho (fun d hd => hn d (List.mem_cons_of_mem _ hd))
      simp only [run, List.flatMap_cons, level_append, disabled,
        level_texts _ (hn d (List.mem_cons_self ..))]
      exact h2

theorem run_neutral (inp : List Char) (lx : Lx) (l : List Item) (σ : St)
    (hq : Neutral l) (hn : NoMute l) :
    (run inp lx l σ).2 = σ ∧ ∀ e ∈ (run inp lx l σ).1.flatMap events, ∃ s, e = .text s := by
  induction l with
  | nil => exact ⟨rfl, by simp [run]⟩
  | cons i l ih =>
    have := ih (fun t ht => hq t (List.mem_cons_of_mem _ ht))
      (fun d hd => hn d (List.mem_cons_of_mem _ hd))
    cases i with
    | comment t =>
      have hf := hq t (List.mem_cons_self ..)
      have e : docPrefix inp lx false t σ = ([.verbatim (text inp t) (docTok inp t)], σ) := by
        simp [docPrefix, hf.1, hf.2]
      simp only [run, e]
      refine ⟨this.1, ?_⟩
      intro e he
      simp only [List.cons_append, List.nil_append, List.flatMap_cons, events, List.mem_cons] at he
      rcases he with rfl | he
      · exact ⟨_, rfl⟩
      · exact this.2 e he
    | other d =>
      simp only [run]
      refine ⟨this.1, ?_⟩
      intro e he
      rw [List.flatMap_cons, List.mem_append] at he
      rcases he with he | he
      · exact hn d (List.mem_cons_self ..) e he
      · exact this.2 e he

theorem rtrim_line (s : List Char) : rtrim (s ++ ['\n']) = s ++ ['\n'] := by
  simp [rtrim]

theorem splitLines_ends (s : List Char) :
    ∀ l ∈ (splitLines s).dropLast, ∃ x, l = x ++ ['\n'] := by
  induction s with
  | nil => simp [splitLines]
  | cons c s ih =>
    rw [splitLines]
    split
    · next h =>
      intro l hl
      rw [List.dropLast_cons_of_ne_nil (splitLines_ne s)] at hl
      rcases List.mem_cons.mp hl with rfl | hl
      · exact ⟨[], rfl⟩
      · exact ih l hl
    · next h =>
      cases hs : splitLines s with
      | nil => exact absurd hs (splitLines_ne s)
      | cons x ls =>
        rw [hs] at ih
        dsimp only
        intro l hl
        cases ls with
        | nil => simp at hl
        | cons y ls =>
          rw [List.dropLast_cons_of_ne_nil (by simp)] at hl ih
          rcases List.mem_cons.mp hl with rfl | hl
          · obtain ⟨z, hz⟩ := ih x (List.mem_cons_self ..)
            exact ⟨c :: z, by rw [hz]; rfl⟩
          · exact ih l (List.mem_cons_of_mem _ hl)

/-- Lines before the last one end with a line feed. -/
theorem lines_end (inp : List Char) (a b : Nat) (hb : b ≤ (splitLines inp).length) (ha : 1 ≤ a) :
    lines inp a b = [] ∨ ∃ x, lines inp a b = x ++ ['\n'] := by
  unfold lines
  generalize hL : (((splitLines inp).drop (a - 1)).take (b - a)) = L
  have hsub : ∀ l ∈ L, l ∈ (splitLines inp).dropLast := by
    intro l hl
    rw [← hL] at hl
    obtain ⟨i, hi, e⟩ := List.getElem_of_mem hl
    rw [List.getElem_take, List.getElem_drop] at e
    rw [List.length_take, List.length_drop] at hi
    rw [← e]
    have : a - 1 + i < (splitLines inp).dropLast.length := by
      rw [List.length_dropLast]; omega
    rw [show (splitLines inp)[a - 1 + i]'(by omega) = (splitLines inp).dropLast[a - 1 + i] from
      (List.getElem_dropLast this).symm]
    exact List.getElem_mem this
  rcases List.eq_nil_or_concat L with rfl | ⟨L', l, rfl⟩
  · left; rfl
  · right
    obtain ⟨x, hx⟩ := splitLines_ends inp l (hsub l (by simp))
    exact ⟨L'.flatten ++ x, by rw [hx]; simp⟩

theorem visible_one (s : List Char) (hs : ∃ c ∈ s, space c = false) (l : List Event) :
    visible (.text s :: l) 0 = rtrim s :: visible l 0 := by
  rw [visible, if_pos ⟨rfl, hs⟩]

/-- C49, what is shown: the lines of the input between the comments, as one text. -/
theorem region_shown (inp : List Char) (cx : Ctx) (l : List Act) (A Q B : List Item)
    (off on : Lexer.Tok) (d : Doc)
    (hl : items inp l = A ++ .comment off :: Q ++ .comment on :: B)
    (hm : NoMute (items inp l)) (ho : Once false A) (hA : disabled false A = false)
    (hoff : off.flags.cfOff = true) (hQ : Neutral Q) (hon : on.flags.cfOn = true)
    (h1 : 1 ≤ off.lno) (h2 : after inp off ≤ on.lno) (h3 : on.lno ≤ (splitLines inp).length)
    (ht1 : ∃ c ∈ text inp off, space c = false) (ht2 : ∃ c ∈ text inp on, space c = false)
    (hT : ∃ c ∈ lines inp (after inp off) on.lno, space c = false)
    (hd : Builds d (parserExec inp (tokenizeLoop inp cx init).1 l).1) :
    ∃ xs ys, visible (events d) 0 =
      xs ++ [rtrim (text inp off), lines inp (after inp off) on.lno, rtrim (text inp on)] ++ ys := by
  generalize hlx : (tokenizeLoop inp cx init).1 = lx at hd
  have hr : acts inp lx l {} = run inp lx (items inp l) {} := acts_run inp lx l {} rfl
  have hmA : NoMute A := fun d hd => hm d (by rw [hl]; simp [hd])
  have hmQ : NoMute Q := fun d hd => hm d (by rw [hl]; simp [hd])
  have hlA := run_level inp lx A {} rfl ho hmA
  have huA := run_unmute inp lx A {} rfl
  have hoA : (run inp lx A {}).2.off = none := by
    have := hlA.2
    simp only [Option.isSome_none, hA] at this
    simpa using this
  have hlA1 : level ((run inp lx A {}).1.flatMap events) 0 = 0 := by
    have := hlA.1
    simp only [Option.isSome_none, hA, lvl] at this
    exact this
  generalize hRA : run inp lx A {} = RA at *
  obtain ⟨dA, σA⟩ := RA
  dsimp only at hoA huA hlA1
  have e1 : docPrefix inp lx false off σA =
      ([.verbatim (text inp off) (docTok inp off), .mute 1], { σA with off := some off }) := by
    simp [docPrefix, hoff, formatOn, formatOff, formatVerbatim, hoA, huA]
  have hq := run_neutral inp lx Q { σA with off := some off } hQ hmQ
  generalize hRQ : run inp lx Q { σA with off := some off } = RQ at *
  obtain ⟨dQ, σQ⟩ := RQ
  dsimp only at hq
  have e2 : ∃ ds σ, docPrefix inp lx false on σQ =
      (.unmute (-1) :: .verbatim (lines inp (after inp off) on.lno)
        { id := inp.length + 1, str := lines inp (after inp off) on.lno } ::
        .verbatim (text inp on) (docTok inp on) :: ds, σ) := by
    have hg := get_lines_exact inp cx (after inp off) on.lno (by simp [after]; omega) (Or.inl h2)
    rw [if_neg (by omega), if_neg (by simp [after] at h2; omega), hlx] at hg
    simp only [docPrefix, hon, if_true, formatOn, hq.1, huA]
    simp only [ne_eq, not_true_eq_false, or_false, formatVerbatim, Bool.false_eq_true, if_false]
    rw [after] at hg
    rw [hg]
    exact ⟨_, _, rfl⟩
  obtain ⟨ds, σ, e2⟩ := e2
  have hev : ∃ rest, events d = dA.flatMap events ++ [.text (text inp off), .mute 1] ++
      dQ.flatMap events ++
      [.mute (-1), .text (lines inp (after inp off) on.lno), .text (text inp on)] ++ rest := by
    have e3 : (run inp lx (items inp l) {}).1 =
        dA ++ ([.verbatim (text inp off) (docTok inp off), .mute 1] ++ dQ) ++
        (.unmute (-1) :: .verbatim (lines inp (after inp off) on.lno)
          { id := inp.length + 1, str := lines inp (after inp off) on.lno } ::
          .verbatim (text inp on) (docTok inp on) :: ds ++ (run inp lx B σ).1) := by
      rw [hl, run_append, run_append, hRA]
      simp only [run, e1, hRQ, e2]
    rw [hd, parserExec, hr, e3]
    refine ⟨ds.flatMap events ++ ((run inp lx B σ).1.flatMap events ++
      (formatVerbatim inp lx 0 (run inp lx (items inp l) {}).2).1.flatMap events), ?_⟩
    simp only [List.flatMap_append, List.flatMap_cons, events, List.append_assoc, List.cons_append,
      List.nil_append, List.flatMap_nil]
  obtain ⟨rest, hev⟩ := hev
  refine ⟨visible (dA.flatMap events) 0, visible rest (level (.mute (-1) :: [.text (lines inp (after inp off) on.lno), .text (text inp on)]) 1), ?_⟩
  rw [hev]
  simp only [visible_append, level_append, hlA1]
  simp only [visible, level, ht1, ht2, hT, and_self, if_true, nextLevel]
  simp only [level_texts _ hq.2]
  rcases lines_end inp (after inp off) on.lno h3 (by simp [after]; omega) with h | ⟨x, h⟩
  · rw [h] at hT; simp at hT
  · rw [h, rtrim_line]
    simpa using visible_muted _ hq.2 1 (by decide)

/-- Three texts next to each other. -/
theorem renders_three (xs ys : List (List Char)) (a t b : List Char) (out : List Char)
    (h : Renders (xs ++ [a, t, b] ++ ys) out) :
    ∃ x w w' y, out = x ++ a ++ w ++ t ++ (w' ++ b ++ y) ∧ ∀ c ∈ w, space c = true := by
  induction xs generalizing out with
  | nil =>
    obtain ⟨w1, r1, e1, h1, w2, r2, e2, h2, w3, r3, e3, h3, _⟩ := h
    exact ⟨w1, w2, w3, r3, by rw [e1, e2, e3]; simp, h2⟩
  | cons x xs ih =>
    obtain ⟨w1, r1, e1, h1, h2⟩ := h
    obtain ⟨x', w, w', y, e, hw⟩ := ih r1 h2
    exact ⟨w1 ++ x ++ x', w, w', y, by rw [e1, e]; simp, hw⟩

theorem renders_two (xs : List (List Char)) (a t : List Char) (out : List Char)
    (h : Renders (xs ++ [a, t]) out) :
    ∃ x w y, out = x ++ a ++ w ++ t ++ y ∧ (∀ c ∈ w, space c = true) ∧ ∀ c ∈ y, space c = true := by
  induction xs generalizing out with
  | nil =>
    obtain ⟨w1, r1, e1, h1, w2, r2, e2, h2, h3⟩ := h
    exact ⟨w1, w2, r2, by rw [e1, e2]; simp, h2, h3⟩
  | cons x xs ih =>
    obtain ⟨w1, r1, e1, h1, h2⟩ := h
    obtain ⟨x', w, y, e, hw⟩ := ih r1 h2
    exact ⟨w1 ++ x ++ x', w, y, by rw [e1, e]; simp, hw⟩

theorem rtrim_space (s : List Char) (h : ∃ c ∈ s, space c = false) :
    ∃ c ∈ rtrim s, space c = false := by
  obtain ⟨c, hc, h1⟩ := h
  obtain ⟨w, e, hw, _⟩ := rtrim_spec s
  have : c ∈ w ++ (rtrim s).reverse := by rw [← e]; simpa using hc
  rcases List.mem_append.mp this with h2 | h2
  · have := blanks_space hw c h2
    rw [h1] at this
    simp at this
  · exact ⟨c, by simpa using h2, h1⟩

/-- C49: the lines between a comment that disables formatting and the one that enables it
again are found in the output byte for byte, after the first comment. White space may be
found between the two. -/
theorem region_verbatim_partial (inp : List Char) (cx : Ctx) (l : List Act) (A Q B : List Item)
    (off on : Lexer.Tok) (d : Doc)
    (hl : items inp l = A ++ .comment off :: Q ++ .comment on :: B)
    (hm : NoMute (items inp l)) (ho : Once false A) (hA : disabled false A = false)
    (hoff : off.flags.cfOff = true) (hQ : Neutral Q) (hon : on.flags.cfOn = true)
    (h1 : 1 ≤ off.lno) (h2 : after inp off ≤ on.lno) (h3 : on.lno ≤ (splitLines inp).length)
    (ht1 : ∃ c ∈ text inp off, space c = false) (ht2 : ∃ c ∈ text inp on, space c = false)
    (hT : ∃ c ∈ lines inp (after inp off) on.lno, space c = false)
    (hd : Builds d (parserExec inp (tokenizeLoop inp cx init).1 l).1)
    (env : Env) (hn : env.diff = none) (trim : Bool) (hu : (docExec env trim [] d).ub = false) :
    ∃ x w y, (docExec env trim [] d).buf.reverse =
        x ++ rtrim (text inp off) ++ w ++ lines inp (after inp off) on.lno ++ y ∧
      ∀ c ∈ w, space c = true := by
  obtain ⟨xs, ys, hv⟩ := region_shown inp cx l A Q B off on d hl hm ho hA hoff hQ hon h1 h2 h3 ht1
    ht2 hT hd
  obtain ⟨out, hr, h⟩ := doc_exec_renders env hn trim d hu
  rw [hv] at hr
  obtain ⟨x, w, w', y, e, hw⟩ := renders_three _ _ _ _ _ _ hr
  rcases h with h | ⟨_, k, h, _⟩
  · exact ⟨x, w, w' ++ rtrim (text inp on) ++ y, by rw [h, e], hw⟩
  · rw [e] at h
    rcases List.append_eq_append_iff.mp h with ⟨z, e1, _⟩ | ⟨z, _, e2⟩
    · exact ⟨x, w, z, by rw [e1], hw⟩
    · exfalso
      obtain ⟨c, hc, hs⟩ := rtrim_space _ ht2
      have : c ∈ List.replicate k '\n' := by rw [e2]; simp [hc]
      have := List.eq_of_mem_replicate this
      rw [this] at hs
      simp [space] at hs

/-- C49: if formatting is not enabled again the lines up to the end of the input are found
at the end of the output, save for blanks and line feeds at its end. -/
theorem region_end_partial (inp : List Char) (cx : Ctx) (l : List Act) (A Q : List Item)
    (off : Lexer.Tok) (d : Doc)
    (hl : items inp l = A ++ .comment off :: Q)
    (hm : NoMute (items inp l)) (ho : Once false A) (hA : disabled false A = false)
    (hoff : off.flags.cfOff = true) (hQ : Neutral Q)
    (h1 : 1 ≤ off.lno) (h2 : after inp off ≤ (splitLines inp).length)
    (ht1 : ∃ c ∈ text inp off, space c = false)
    (hT : ∃ c ∈ ((splitLines inp).drop (after inp off - 1)).flatten, space c = false)
    (hd : Builds d (parserExec inp (tokenizeLoop inp cx init).1 l).1)
    (env : Env) (hn : env.diff = none) (trim : Bool) (hu : (docExec env trim [] d).ub = false) :
    ∃ x w y k, (docExec env trim [] d).buf.reverse ++ List.replicate k '\n' =
        x ++ rtrim (text inp off) ++ w ++
          rtrim ((splitLines inp).drop (after inp off - 1)).flatten ++ y ∧
      (∀ c ∈ w, space c = true) ∧ ∀ c ∈ y, space c = true := by
  generalize hlx : (tokenizeLoop inp cx init).1 = lx at hd
  have hr : acts inp lx l {} = run inp lx (items inp l) {} := acts_run inp lx l {} rfl
  have hmA : NoMute A := fun d hd => hm d (by rw [hl]; simp [hd])
  have hmQ : NoMute Q := fun d hd => hm d (by rw [hl]; simp [hd])
  have hlA := run_level inp lx A {} rfl ho hmA
  have huA := run_unmute inp lx A {} rfl
  have hoA : (run inp lx A {}).2.off = none := by
    have := hlA.2
    simp only [Option.isSome_none, hA] at this
    simpa using this
  have hlA1 : level ((run inp lx A {}).1.flatMap events) 0 = 0 := by
    have := hlA.1
    simp only [Option.isSome_none, hA, lvl] at this
    exact this
  generalize hRA : run inp lx A {} = RA at *
  obtain ⟨dA, σA⟩ := RA
  dsimp only at hoA huA hlA1
  have e1 : docPrefix inp lx false off σA =
      ([.verbatim (text inp off) (docTok inp off), .mute 1], { σA with off := some off }) := by
    simp [docPrefix, hoff, formatOn, formatOff, formatVerbatim, hoA, huA]
  have hq := run_neutral inp lx Q { σA with off := some off } hQ hmQ
  generalize hRQ : run inp lx Q { σA with off := some off } = RQ at *
  obtain ⟨dQ, σQ⟩ := RQ
  dsimp only at hq
  have e3 : run inp lx (items inp l) {} =
      (dA ++ ([.verbatim (text inp off) (docTok inp off), .mute 1] ++ dQ), σQ) := by
    rw [hl, run_append, hRA]
    simp only [run, e1, hRQ]
  have hg := get_lines_exact inp cx (after inp off) 0 (by simp [after]; omega) (Or.inr rfl)
  rw [if_neg (by omega), if_pos rfl, hlx] at hg
  have e2 : (formatVerbatim inp lx 0 σQ).1 =
      [.unmute (-1), .verbatim ((splitLines inp).drop (after inp off - 1)).flatten
        { id := inp.length + 1, str := ((splitLines inp).drop (after inp off - 1)).flatten }] := by
    simp only [formatVerbatim, hq.1]
    rw [after] at hg
    rw [hg]
    rfl
  have hev : events d = dA.flatMap events ++ [.text (text inp off), .mute 1] ++
      dQ.flatMap events ++
      [.mute (-1), .text ((splitLines inp).drop (after inp off - 1)).flatten] := by
    rw [hd, parserExec, hr, e3]
    simp only [e2, List.flatMap_append, List.flatMap_cons, events, List.append_assoc,
      List.cons_append, List.nil_append, List.flatMap_nil]
  have hv : visible (events d) 0 = visible (dA.flatMap events) 0 ++
      [rtrim (text inp off), rtrim ((splitLines inp).drop (after inp off - 1)).flatten] := by
    rw [hev]
    simp only [visible_append, level_append, hlA1]
    simp only [visible, level, ht1, hT, and_self, if_true, nextLevel]
    simp only [level_texts _ hq.2]
    simpa using visible_muted _ hq.2 1 (by decide)
  obtain ⟨out, hr, h⟩ := doc_exec_renders env hn trim d hu
  rw [hv] at hr
  obtain ⟨x, w, y, e, hw, hy⟩ := renders_two _ _ _ _ hr
  rcases h with h | ⟨_, k, h, _⟩
  · exact ⟨x, w, y, 0, by rw [h, e]; simp, hw, hy⟩
  · exact ⟨x, w, y, k, by rw [← h, e], hw, hy⟩

/-! ## Examples and counterexamples -/

/-- The reader with default settings and no diff. -/
def plainCtx : Ctx := ⟨true, fun _ => none, fun _ => false⟩

/-- A parser that does nothing but add a line break after every `;`. -/
def lineActs (ts : List Lexer.Token) : List Act :=
  ts.flatMap fun t => if t.tok.type = .eof then [.token t]
    else if t.tok.type = .semi then [.token t, .other .hardline]
    else [.token t, .other (.literal " ".toList none)]

/-- Read, parse and print. -/
def format (inp : List Char) : List Char :=
  let r := tokenizeLoop inp plainCtx init
  (docExec { limit := 80 } true [] (concat (parserExec inp r.1 (lineActs r.2)).1)).buf.reverse

/-- A region followed by formatted text. -/
def regionExample : List Char :=
  "a ;\n/* clang-format off */\nint   x ;\n\n\n  y;  \n/* clang-format on */\nz  ;\n".toList

example : format regionExample =
    "a ;\n/* clang-format off */\nint   x ;\n\n\n  y;  \n/* clang-format on */\nz ;\n".toList := by
  decide +kernel

/-- Another one, along with its tokens. -/
def smallExample : List Char :=
  "/* clang-format off */\nx   ;\n/* clang-format on */\ny\n".toList

/-- The comments of `smallExample`. -/
def smallOff : Lexer.Tok :=
  { type := .comment, flags := { cfOff := true }, str := .src 0 23, off := 0, stop := 23, lno := 1,
    cno := some 1 }

def smallOn : Lexer.Tok :=
  { type := .comment, flags := { cfOn := true }, str := .src 29 22, off := 29, stop := 51, lno := 3,
    cno := some 1 }

def smallTok (off len lno : Nat) : Lexer.Tok :=
  { type := .ident, flags := {}, str := .src off len, off := off, stop := off + len, lno := lno,
    cno := some 1 }

def smallActs : List Act :=
  [.token ⟨smallTok 23 1 2, [smallOff], []⟩, .token ⟨smallTok 27 1 2, [], []⟩,
    .other .hardline, .token ⟨smallTok 51 1 4, [smallOn], []⟩]

/-- The hypotheses of `region_verbatim_partial` are met. -/
example : ∃ Q B, items smallExample smallActs = [] ++ (.comment smallOff :: Q) ++ .comment smallOn :: B ∧
    NoMute (items smallExample smallActs) ∧ Once false [] ∧ Neutral Q ∧
    after smallExample smallOff = 2 ∧ lines smallExample 2 3 = "x   ;\n".toList ∧
    (docExec { limit := 80 } true []
      (concat (parserExec smallExample (tokenizeLoop smallExample plainCtx init).1 smallActs).1)).ub = false ∧
    (docExec { limit := 80 } true []
      (concat (parserExec smallExample (tokenizeLoop smallExample plainCtx init).1 smallActs).1)).buf.reverse =
      "/* clang-format off */\nx   ;\n/* clang-format on */\ny".toList := by
  refine ⟨[_, _, _], [_], rfl, ?_, trivial, ?_, by decide +kernel, by decide +kernel, by decide +kernel,
    by decide +kernel⟩
  · intro d hd e he
    simp only [items, smallActs, docSuffixes, List.flatMap_nil, List.map_nil, List.map_cons,
      List.cons_append, List.nil_append, List.mem_cons, reduceCtorEq, Item.other.injEq, false_or,
      List.not_mem_nil, or_false] at hd
    rcases hd with rfl | rfl | rfl | rfl <;> simp [events] at he <;> exact ⟨_, he⟩
  · intro t ht
    simp at ht

/-- C49 is false if formatting is disabled twice: everything after the first comment that
disables formatting is lost, even what follows the comment that enables it again. -/
theorem region_twice :
    format "a;\n/* clang-format off */\nb;\n/* clang-format off */\nc;\n/* clang-format on */\nd;\n".toList =
      "a ;\n/* clang-format off */\n".toList := by
  decide +kernel

/-- C49 is false if the comment is followed by a token on the same line: the comment is
printed twice. -/
theorem region_same_line :
    format "a;\n/* clang-format off */ b  ;\n/* clang-format on */\nd;\n".toList =
      "a ;\n/* clang-format off *//* clang-format off */ b  ;\n/* clang-format on */\nd ;\n".toList := by
  decide +kernel

/-- C49 is false at the end of the input: empty lines are removed there, although
formatting is disabled. -/
theorem region_end_trimmed :
    format "a;\n/* clang-format off */\nb  ;\n\n\n".toList =
      "a ;\n/* clang-format off */\nb  ;\n".toList := by
  decide +kernel

/-- The comment does not disable formatting if it follows a token on its line. -/
theorem region_after_token :
    format "a; /* clang-format off */\nb  ;\n/* clang-format on */\nd;\n".toList =
      "a ; /* clang-format off */\nb ;\n/* clang-format on */\nd ;\n".toList := by
  decide +kernel

/-- White space is added ahead of a region if the column is not zero where it ends. -/
theorem region_line_added :
    format "/* clang-format off */\na\n/* clang-format on */\nd;\n".toList =
      "/* clang-format off */\n\na\n/* clang-format on */\nd ;\n".toList := by
  decide +kernel

end Knfmt.Parser
