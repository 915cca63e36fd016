import Verif.Cpp.Align
/-!
# Aligning backslashes changes only the white space before them
-/
namespace Knfmt.CppAlign

open Knfmt.Comment (isSpace)
open Knfmt.Doc (Align Doc Env St docExec docWidth exec print emitLine emitText newLine printIndent
  printIndent1 trimSpaces trimLoop blank column isMute diffIsMute execAlign)
open Knfmt.Ruler (Ruler Datum Column)

/-! ## Specification -/

/-- The text of a macro: lines consisting of a text, white space, a backslash and a
new line, and what follows. -/
def render (ls : List (List Char × List Char)) (rest : List Char) : List Char :=
  (ls.map fun l => l.1 ++ l.2 ++ ['\\', '\n']).flatten ++ rest

/-- The backslashes are in the same column, except after texts that reach beyond
that column, which the backslash follows at once. -/
def InColumn (ls : List (List Char × List Char)) : Prop :=
  ∃ x, ∀ l ∈ ls, Knfmt.Spec.column 0 (l.1 ++ l.2) = x ∨ l.2 = [] ∧ x < Knfmt.Spec.column 0 l.1

/-- Either a single space is before each backslash, or the backslashes are in the same
column, but possibly for the first one which may keep its single space. -/
def Aligned (ls : List (List Char × List Char)) : Prop :=
  (∀ l ∈ ls, l.2 = [' ']) ∨ InColumn ls ∨ ∃ l ls', ls = l :: ls' ∧ l.2 = [' '] ∧ InColumn ls'

/-- `ls` are the texts of the lines of a macro, with the white space before the
backslash before and after aligning. -/
def Realigned (s out : List Char) (ls : List (List Char × List Char × List Char)) : Prop :=
  ∃ rest, s = render (ls.map fun l => (l.1, l.2.1)) rest ∧
    out = render (ls.map fun l => (l.1, l.2.2)) rest ∧
    (∀ l ∈ ls, '\n' ∉ l.1 ∧ (∀ c, l.1.getLast? = some c → isSpace c = false) ∧
      (∀ c ∈ l.2.1, isSpace c = true ∧ c ≠ '\n') ∧ (∀ c ∈ l.2.2, c = ' ' ∨ c = '\t')) ∧
    ¬ ∃ a b, rest = a ++ ['\\', '\n'] ++ b ∧ '\n' ∉ a

/-- White space that consists of tabs only or of spaces only. -/
def Tidy (ws : List Char) : Prop := ws ≠ [] ∧ ((∀ c ∈ ws, c = ' ') ∨ ∀ c ∈ ws, c = '\t')

/-! ## Splitting -/

theorem dropWhile_append_drop {s : List Char} {p : Char → Bool} :
    let t := (s.reverse.dropWhile p).reverse
    t ++ s.drop t.length = s ∧ (∀ c ∈ s.drop t.length, p c = true) := by
  have e : s = (s.reverse.dropWhile p).reverse ++ (s.reverse.takeWhile p).reverse := by
    rw [← List.reverse_append, List.takeWhile_append_dropWhile, List.reverse_reverse]
  have e2 : s.drop (s.reverse.dropWhile p).reverse.length = (s.reverse.takeWhile p).reverse := by
    conv => lhs; arg 2; rw [e]
    rw [List.drop_left]
  dsimp only
  rw [e2]
  refine ⟨e.symm, ?_⟩
  intro c hc
  exact Knfmt.mem_takeWhile_imp (List.mem_reverse.mp hc)

theorem nextline_spec {s : List Char} {l : Line} {rest : List Char} (h : nextline s = some (l, rest)) :
    s = l.text ++ l.ws ++ ['\\', '\n'] ++ rest ∧ (∀ c ∈ l.ws, isSpace c = true) ∧
      '\n' ∉ l.text ++ l.ws ∧ (∀ c, l.text.getLast? = some c → isSpace c = false) := by
  unfold nextline at h
  split at h
  · simp at h
  next c r e =>
  dsimp only at h
  split at h
  · next hl =>
    simp only [Option.some.injEq, Prod.mk.injEq] at h
    obtain ⟨rfl, rfl⟩ := h
    dsimp only
    have hc : c = '\n' := by
      have := List.head?_dropWhile_not (p := fun x => decide (x ≠ '\n')) (l := s)
      rw [e] at this
      simpa using this
    subst hc
    have hs : s = s.takeWhile (· ≠ '\n') ++ '\n' :: r := by
      rw [← e, List.takeWhile_append_dropWhile]
    obtain ⟨h1, h2⟩ := dropWhile_append_drop (s := (s.takeWhile (· ≠ '\n')).dropLast) (p := isSpace)
    have h3 : s.takeWhile (· ≠ '\n') = (s.takeWhile (· ≠ '\n')).dropLast ++ ['\\'] := by
      rw [List.getLast?_eq_some_iff] at hl
      obtain ⟨ys, hys⟩ := hl
      rw [hys, List.dropLast_concat]
    refine ⟨?_, h2, ?_, ?_⟩
    · rw [h1]
      conv => lhs; rw [hs, h3]
      simp
    · rw [h1]
      intro hm
      have := Knfmt.mem_takeWhile_imp (List.dropLast_subset _ hm)
      simp at this
    · intro c hc
      rw [List.getLast?_reverse] at hc
      have := List.head?_dropWhile_not (p := isSpace) (l := (s.takeWhile (· ≠ '\n')).dropLast.reverse)
      rw [hc] at this
      simpa using this
  · simp at h

theorem split_eq (s : List Char) : split s =
    match nextline s with
    | none => ([], s)
    | some (l, rest) => (l :: (split rest).1, (split rest).2) := by
  rw [split]
  split <;> simp_all

/-- The lines of a macro and what follows make up the macro. -/
theorem split_spec (s : List Char) :
    s = render ((split s).1.map fun l => (l.text, l.ws)) (split s).2 ∧
    (∀ l ∈ (split s).1, (∀ c ∈ l.ws, isSpace c = true) ∧ '\n' ∉ l.text ++ l.ws ∧
      (∀ c, l.text.getLast? = some c → isSpace c = false)) ∧
    nextline (split s).2 = none := by
  induction h : s.length using Nat.strongRecOn generalizing s with
  | ind n ih =>
    rw [split_eq]
    split
    · next e => exact ⟨by simp [render], by simp, e⟩
    · next l rest e =>
      obtain ⟨h1, h2, h3, h4⟩ := nextline_spec e
      obtain ⟨i1, i2, i3⟩ := ih rest.length (by have := nextline_length e; omega) rest rfl
      refine ⟨?_, ?_, i3⟩
      · conv => lhs; rw [h1, i1]
        simp [render]
      · intro x hx
        rcases List.mem_cons.mp hx with rfl | hx
        · exact ⟨h2, h3, h4⟩
        · exact i2 x hx

/-! ## Printing -/

/-- The state of the printer at the start of a line of a macro. -/
structure Fresh (σ : St) : Prop where
  newline : σ.newline = false
  mute : σ.mute = 0
  nlines : σ.nlines ≤ 1
  maxlines : σ.maxlines = 2
  cur : σ.cur = 0
  parens : σ.parens = 0

theorem not_mute {env : Env} (he : env.diff = none) {σ : St} (h : σ.mute = 0) :
    isMute env σ = false := by
  simp [isMute, diffIsMute, he, h]

/-- Printing text. -/
theorem exec_literal {env : Env} (he : env.diff = none) {σ : St} (h : Fresh σ) {s : List Char}
    (hs : s ≠ ['\n']) : Fresh (exec env (.literal s none) σ) ∧
      (exec env (.literal s none) σ).buf = s.reverse ++ σ.buf ∧
      (exec env (.literal s none) σ).col = Knfmt.Spec.column σ.col s ∧
      (exec env (.literal s none) σ).nlines = 0 := by
  have e : exec env (.literal s none) σ = emitText env false s
      { σ with muteline := σ.muteline || false } := by
    simp only [exec, Knfmt.Doc.diffLiteral, he, print, not_mute he h.mute, h.newline]
    simp [hs]
  rw [e]
  refine ⟨⟨h.newline, h.mute, Nat.zero_le _, h.maxlines, h.cur, h.parens⟩, ?_, ?_⟩
  · simp [emitText, column]
  refine ⟨?_, rfl⟩
  · simp [emitText, column, (Knfmt.Util.strwidth_spec _ _).2]

theorem emitLine_spec {env : Env} {σ : St} (h : Fresh σ)
    (hb : ∀ c, σ.buf.head? = some c → blank c = false) :
    let τ := emitLine env { indent := true } false { σ with muteline := σ.muteline || false }
    τ.buf = '\n' :: σ.buf ∧ τ.col = 0 ∧ (σ.nlines = 0 → Fresh τ) := by
  have hn := h.nlines
  have ht : ∀ n, trimLoop σ.buf n = (σ.buf, n) := by
    intro n
    cases hbf : σ.buf with
    | nil => rfl
    | cons c b => simp [trimLoop, hb c (by simp [hbf])]
  rw [emitLine, if_neg (by have := h.maxlines; dsimp only; omega), if_pos rfl]
  have hp : ∀ τ : St, τ.parens = 0 → printIndent env τ 0 = { τ with pre := 0 } := by
    intro τ h1
    unfold printIndent
    rw [h1, if_neg (by simp)]
    simp only [printIndent1]
    have : Knfmt.Util.strindent 0 env.useTabs τ.col = ([], τ.col) := by
      unfold Knfmt.Util.strindent
      cases env.useTabs <;> simp [Knfmt.Util.strindentTabs, Knfmt.Util.strindentSpaces]
    rw [this]
    simp
  have hnl : ∀ τ : St, τ = newLine env { indent := true } false
      { σ with muteline := σ.muteline || false } →
      τ.buf = '\n' :: σ.buf ∧ τ.col = 0 ∧ τ.cur = 0 ∧ τ.parens = 0 ∧ τ.newline = false ∧ τ.mute = 0 ∧
      τ.nlines = σ.nlines + 1 ∧ τ.maxlines = 2 := by
    intro τ hτ
    subst hτ
    refine ⟨?_, ?_, h.cur, h.parens, h.newline, h.mute, rfl, h.maxlines⟩
    · simp [newLine, column, trimSpaces, ht]
    · simp [newLine, column, trimSpaces, ht, (Knfmt.Util.strwidth_spec _ _).2, Knfmt.Spec.column,
        Knfmt.Spec.advance]
  obtain ⟨h1, h2, h3, h4, h5, h6, h7, h8⟩ := hnl _ rfl
  rw [h3, hp _ h4]
  exact ⟨h1, h2, fun hz => ⟨h5, h6, by dsimp only; omega, h8, h3, h4⟩⟩

/-- A line break after something that is not blank. -/
theorem exec_hardline {env : Env} (he : env.diff = none) {σ : St} (h : Fresh σ)
    (hb : ∀ c, σ.buf.head? = some c → blank c = false) (hn : σ.nlines = 0) :
    Fresh (exec env .hardline σ) ∧
      (exec env .hardline σ).buf = '\n' :: σ.buf ∧ (exec env .hardline σ).col = 0 := by
  have e : exec env .hardline σ = emitLine env { indent := true } false
      { σ with muteline := σ.muteline || false } := by
    simp only [exec, print, not_mute he h.mute, h.newline]
    simp
  obtain ⟨h1, h2, h3⟩ := emitLine_spec (env := env) h hb
  rw [e]
  exact ⟨h3 hn, h1, h2⟩

/-- The white space put before a backslash. -/
def pad (l : Line) : Option Align → List Char
  | none => [' ']
  | some a => Knfmt.Doc.Spec.alignText a (Knfmt.Spec.column 0 l.text)

theorem cstr_eq {s : List Char} (h : '\x00' ∉ s) : cstr s = s := by
  unfold cstr
  induction s with
  | nil => rfl
  | cons c s ih =>
    simp only [List.mem_cons, not_or] at h
    rw [List.takeWhile_cons_of_pos (by simp [Ne.symm h.1]), ih h.2]

theorem exec_textDoc {env : Env} (he : env.diff = none) {σ : St} (h : Fresh σ) {l : Line}
    (hl : '\n' ∉ l.text) (h0 : '\x00' ∉ l.text) : Fresh (exec env (textDoc l) σ) ∧
      (exec env (textDoc l) σ).buf = l.text.reverse ++ σ.buf ∧
      (exec env (textDoc l) σ).col = Knfmt.Spec.column σ.col l.text := by
  unfold textDoc
  split
  · next e => simp only [exec, e]; exact ⟨h, rfl, rfl⟩
  · simp only [exec.eq_2, exec.eq_1, cstr_eq h0]
    obtain ⟨h1, h2, h3, _⟩ := exec_literal he h (s := l.text) (by intro e; simp [e] at hl)
    exact ⟨h1, h2, h3⟩

theorem textWidth_eq (env : Env) (he : env.diff = none) {l : Line}
    (hl : '\n' ∉ l.text) (h0 : '\x00' ∉ l.text) : textWidth env l = Knfmt.Spec.column 0 l.text :=
  (exec_textDoc he (σ := { mode := .munge }) ⟨rfl, rfl, Nat.zero_le _, rfl, rfl, rfl⟩ hl h0).2.2

theorem exec_lineDoc {env : Env} (he : env.diff = none) {σ : St} (h : Fresh σ) (hc : σ.col = 0)
    {l : Line} (hl : '\n' ∉ l.text) (h0 : '\x00' ∉ l.text) (a : Option Align) :
    Fresh (exec env (lineDoc l a) σ) ∧ (exec env (lineDoc l a) σ).col = 0 ∧
      (exec env (lineDoc l a) σ).buf = (l.text ++ pad l a ++ ['\\', '\n']).reverse ++ σ.buf := by
  obtain ⟨h1, h2, h3⟩ := exec_textDoc he h hl h0
  rw [hc] at h3
  have key : ∀ τ : St, Fresh τ → τ.buf = (pad l a).reverse ++ (l.text.reverse ++ σ.buf) →
      let υ := exec env (.seq (.literal ['\\'] none) (.seq .hardline .nil)) τ
      Fresh υ ∧ υ.col = 0 ∧ υ.buf = (l.text ++ pad l a ++ ['\\', '\n']).reverse ++ σ.buf := by
    intro τ hτ hb
    obtain ⟨k1, k2, k3, k4⟩ := exec_literal he hτ (s := ['\\']) (by decide)
    obtain ⟨j1, j2, j3⟩ := exec_hardline he k1 (by
      intro c hc; rw [k2] at hc; simp at hc; subst hc; decide) k4
    refine ⟨j1, j3, ?_⟩
    simp only [exec.eq_2, exec.eq_1]
    rw [j2, k2, hb]
    simp
  unfold lineDoc
  rw [exec.eq_2, exec.eq_2]
  generalize exec env (textDoc l) σ = τ at h1 h2 h3
  cases a with
  | none =>
    obtain ⟨k1, k2, k3, k4⟩ := exec_literal he h1 (s := [' ']) (by decide)
    exact key _ k1 (by rw [k2, h2]; rfl)
  | some a =>
    have e : exec env (.align a) τ = execAlign a τ := by simp [exec]
    dsimp only
    rw [e, Knfmt.Doc.execAlign_column]
    exact key _ ⟨h1.newline, h1.mute, h1.nlines, h1.maxlines, h1.cur, h1.parens⟩
      (by dsimp only; rw [h2, h3]; rfl)

theorem exec_macroDoc {env : Env} (he : env.diff = none) (rest : List Char) (hr : '\x00' ∉ rest) :
    ∀ (ls : List (Line × Option Align)) (σ : St), Fresh σ → σ.col = 0 →
    (∀ c, σ.buf.head? = some c → blank c = false) →
    (∀ l ∈ ls, '\n' ∉ l.1.text ∧ '\x00' ∉ l.1.text) →
    (exec env (macroDoc ls rest) σ).buf =
      (render (ls.map fun l => (l.1.text, pad l.1 l.2)) rest).reverse ++ σ.buf
  | [], σ, h, hc, hb, _ => by
    unfold macroDoc
    split
    · next e => simp [exec, render, e]
    · simp only [exec.eq_2, exec.eq_1, cstr_eq hr]
      by_cases hn : rest = ['\n']
      · have e : exec env (.literal rest none) σ = emitLine env { indent := true } false
            { σ with muteline := σ.muteline || false } := by
          simp only [exec, Knfmt.Doc.diffLiteral, he, print, not_mute he h.mute, h.newline, hn]
          simp
        rw [e, (emitLine_spec (env := env) h hb).1, hn]
        simp [render]
      · rw [(exec_literal he h hn).2.1]
        simp [render]
  | (l, a) :: ls, σ, h, hc, hb, hl => by
    unfold macroDoc
    have hl1 := hl (l, a) (List.mem_cons_self ..)
    obtain ⟨h1, h2, h3⟩ := exec_lineDoc he h hc hl1.1 hl1.2 a
    rw [exec.eq_2, exec_macroDoc he rest hr ls _ h1 h2 (by
      intro c hc; rw [h3] at hc; simp at hc; subst hc; decide)
      (fun x hx => hl x (List.mem_cons_of_mem _ hx)), h3]
    simp [render]

/-! ## The ruler -/

/-- The entry of a line. -/
def datum (env : Env) (l : Line) : Datum := { tk := { str := [] }, len := textWidth env l }

/-- The column of the ruler. -/
def lineColumn (env : Env) (es : List Line) : Column :=
  es.foldl (fun rc l => rc.add (datum env l)) {}

theorem insert_one {rl : Ruler} {rc : Column} (d : Datum) (h : rl.columns = [rc]) :
    (Knfmt.Ruler.insert rl d 1).getD rl = { rl with columns := [rc.add d] } := by
  simp [Knfmt.Ruler.insert, h]

theorem insert_fold {env : Env} : ∀ (es : List Line) (rl : Ruler) (rc : Column), rl.columns = [rc] →
    es.foldl (fun rl l => (Knfmt.Ruler.insert rl (datum env l) 1).getD rl) rl =
      { rl with columns := [es.foldl (fun rc l => rc.add (datum env l)) rc] }
  | [], rl, rc, h => by simp [← h]
  | l :: es, rl, rc, h => by
    rw [List.foldl_cons, insert_one _ h, insert_fold es _ (rc.add (datum env l)) rfl]
    rfl

theorem insert_all {env : Env} {n : Nat} {f : Knfmt.Ruler.Flags} {es : List Line} (h : es ≠ []) :
    es.foldl (fun rl l => (Knfmt.Ruler.insert rl (datum env l) 1).getD rl) (Knfmt.Ruler.init n f) =
      { Knfmt.Ruler.init n f with columns := [lineColumn env es] } := by
  cases es with
  | nil => exact absurd rfl h
  | cons l es =>
    rw [List.foldl_cons]
    have : (Knfmt.Ruler.insert (Knfmt.Ruler.init n f) (datum env l) 1).getD (Knfmt.Ruler.init n f) =
        { Knfmt.Ruler.init n f with columns := [Column.add {} (datum env l)] } := by
      simp [Knfmt.Ruler.insert, Knfmt.Ruler.init]
    rw [this, insert_fold es _ (Column.add {} (datum env l)) rfl]
    rfl

theorem lineColumn_spec {env : Env} : ∀ (es : List Line) (rc : Column), rc.nspaces = 0 → rc.Ok →
    let r := es.foldl (fun rc l => rc.add (datum env l)) rc
    r.datums = rc.datums ++ es.map (datum env) ∧ r.nspaces = 0 ∧ r.Ok
  | [], rc, h, hok => by simp [h, hok]
  | l :: es, rc, h, hok => by
    obtain ⟨h1, h2, h3⟩ := lineColumn_spec es (rc.add (datum env l))
      (by simp [Column.add, datum, h]) (hok.add _)
    refine ⟨?_, h2, h3⟩
    rw [List.foldl_cons, h1]
    simp [Column.add]

/-- The alignment of a line that is `w` wide when the widest one is `m` wide. -/
def lineAlign (al : Alignment) (m w : Nat) : Align :=
  match al.mode with
  | .left => { indent := m + 1 - w, spaces := 0, tabalign := al.tabs }
  | .right => if w > al.width then { indent := 0, spaces := 0, tabalign := false }
    else { indent := al.width - w, spaces := 0, tabalign := al.tabs }
  | _ => { indent := 1, spaces := 0, tabalign := false }

theorem mapM_map {α β : Type} {f : α → Option β} {g : α → β} : ∀ (l : List α),
    (∀ x ∈ l, f x = some (g x)) → l.mapM f = some (l.map g)
  | [], _ => by simp
  | x :: l, h => by
    rw [List.mapM_cons, h x (List.mem_cons_self ..),
      mapM_map l (fun y hy => h y (List.mem_cons_of_mem _ hy))]
    simp

/-- What the ruler computes. -/
theorem ruler_exec {env : Env} {al : Alignment} {rl : Ruler} (hr : rulerInit al = some rl)
    {es : List Line} (he : es ≠ []) :
    let m := (lineColumn env es).len
    (∀ l ∈ es, textWidth env l ≤ m) ∧
      Knfmt.Ruler.exec (es.foldl (fun rl l => (Knfmt.Ruler.insert rl (datum env l) 1).getD rl) rl) =
        some ([es.map fun l => lineAlign al m (textWidth env l)], []) := by
  obtain ⟨h1, h2, h3⟩ := lineColumn_spec (env := env) es {} rfl Column.ok_empty
  change (lineColumn env es).datums = _ at h1
  change (lineColumn env es).nspaces = _ at h2
  change (lineColumn env es).Ok at h3
  rw [List.nil_append] at h1
  have hm : ∀ l ∈ es, textWidth env l ≤ (lineColumn env es).len := fun l hl =>
    (h3.le (datum env l) (by rw [h1]; exact List.mem_map_of_mem hl)).1
  have hmin : Knfmt.Ruler.minimize (lineColumn env es) = false := by
    simp [Knfmt.Ruler.minimize, h2]
  refine ⟨hm, ?_⟩
  have key : ∀ (n : Nat) (f : Knfmt.Ruler.Flags) (L : Knfmt.Ruler.Length),
      rl = Knfmt.Ruler.init n f →
      Knfmt.Ruler.columnLength { Knfmt.Ruler.init n f with columns := [lineColumn env es] }
        (lineColumn env es) = some (lineColumn env es, some L) →
      (∀ l ∈ es, Knfmt.Ruler.execDatum { Knfmt.Ruler.init n f with columns := [lineColumn env es] }
        (lineColumn env es) L (datum env l) =
          some (lineAlign al (lineColumn env es).len (textWidth env l))) →
      Knfmt.Ruler.exec (es.foldl (fun rl l => (Knfmt.Ruler.insert rl (datum env l) 1).getD rl) rl) =
        some ([es.map fun l => lineAlign al (lineColumn env es).len (textWidth env l)], []) := by
    intro n f L e hL hd
    rw [e, insert_all he]
    have hc : Knfmt.Ruler.execColumn { Knfmt.Ruler.init n f with columns := [lineColumn env es] }
        (lineColumn env es) = some (lineColumn env es,
          es.map fun l => lineAlign al (lineColumn env es).len (textWidth env l)) := by
      unfold Knfmt.Ruler.execColumn
      rw [hL]
      dsimp only
      rw [h1, List.mapM_map]
      exact congrArg (Option.map _) (mapM_map es hd)
    unfold Knfmt.Ruler.exec
    simp only [List.mapM_cons, List.mapM_nil, hc]
    rfl
  unfold rulerInit at hr
  split at hr
  · next hmode =>
    refine key _ _ ⟨1, false⟩ (Option.some.inj hr).symm rfl ?_
    intro l hl
    simp [Knfmt.Ruler.execDatum, Knfmt.Ruler.init, lineAlign, hmode, Knfmt.Ruler.dflt]
  · next hmode =>
    have e := (Option.some.inj hr).symm
    refine key _ _ ⟨(lineColumn env es).len + 1, al.tabs⟩ e ?_ ?_
    · cases al.tabs <;>
        simp [Knfmt.Ruler.columnLength, Knfmt.Ruler.init, Knfmt.Ruler.tabsLength, hmin]
    · intro l hl
      have := hm l hl
      unfold Knfmt.Ruler.execDatum
      have hf : (if al.tabs = true then ({ tabs := true } : Knfmt.Ruler.Flags) else { min := true }).fixed
          = false := by cases al.tabs <;> rfl
      simp only [Knfmt.Ruler.init, hf, Bool.false_eq_true, if_false]
      rw [if_neg (by simp only [datum]; omega)]
      simp [lineAlign, hmode, datum, h2]
  · next hmode =>
    refine key _ _ ⟨al.width, al.tabs⟩ (Option.some.inj hr).symm ?_ ?_
    · simp [Knfmt.Ruler.columnLength, Knfmt.Ruler.init]
    · intro l hl
      unfold Knfmt.Ruler.execDatum
      simp only [Knfmt.Ruler.init, Bool.false_eq_true, if_false, if_true, lineAlign, hmode, datum, h2,
        Knfmt.Ruler.dflt, Nat.zero_sub]
      by_cases hw : textWidth env l > al.width <;> simp [hw]
  · simp at hr

/-! ## The result -/

theorem skip_length {st : Style} {ls : List Line} (h : (alignment st ls).skip = true) :
    3 ≤ ls.length ∧ (alignment st ls).mode = .right ∧
      (ls.head?.map isNotAligned).getD false = true := by
  unfold alignment at h ⊢
  cases e : sense st ls with
  | none => simp [e] at h
  | some al =>
    rw [e] at h
    simp only [Option.getD_some] at h ⊢
    unfold sense at e
    dsimp only at e
    by_cases h1 : ((ls.take 3).any fun l => decide (col l > st.limit)) = true
    · rw [if_pos h1] at e; simp at e
    rw [if_neg h1] at e
    by_cases h2 : (ls.take 3).all isNotAligned = true
    · rw [if_pos h2] at e; simp only [Option.some.injEq] at e; subst e; simp at h
    rw [if_neg h2] at e
    by_cases h3 : (decide ((ls.take 3).length ≥ 3) && allIdentical (ls.take 3).tail) = true
    · rw [if_pos h3] at e
      simp only [Option.some.injEq] at e
      subst e
      simp only [Bool.and_eq_true, decide_eq_true_eq, List.length_take] at h3
      refine ⟨by omega, rfl, ?_⟩
      cases ls with
      | nil => simp at h
      | cons l ls => simpa using h
    · rw [if_neg h3] at e; simp at e

/-- The width of the widest line that is aligned. -/
def widest (env : Env) (al : Alignment) (ls : List Line) : Nat :=
  (lineColumn env (if al.skip then ls.tail else ls)).len

/-- The white space of the lines after the alignment. -/
def pads (env : Env) (al : Alignment) (m : Nat) (ls : List Line) : List (Option Align) :=
  let f := fun l => some (lineAlign al m (textWidth env l))
  if al.skip then none :: ls.tail.map f else ls.map f

/-- The text made by `cpp_align`. -/
theorem cppAlign_eq {st : Style} {s out : List Char} (h : cppAlign st s = .aligned out) :
    let env : Env := { limit := st.limit, useTabs := st.useTabs }
    let al := alignment st (split s).1
    let m := widest env al (split s).1
    2 ≤ (split s).1.length ∧ al.mode ≠ .other ∧
    (∀ l ∈ (if al.skip then (split s).1.tail else (split s).1), textWidth env l ≤ m) ∧
      (pads env al m (split s).1).length = (split s).1.length ∧
      out = (docExec env false []
        (macroDoc ((split s).1.zip (pads env al m (split s).1)) (split s).2)).buf.reverse := by
  intro env al m
  unfold cppAlign at h
  dsimp only at h
  by_cases h0 : (split s).1 = []
  · rw [if_pos h0] at h; simp at h
  rw [if_neg h0] at h
  cases hr : rulerInit (alignment st (split s).1) with
  | none => simp [hr] at h
  | some rl =>
    simp only [hr] at h
    by_cases h1 : (split s).1.length ≤ 1
    · rw [if_pos h1] at h; simp at h
    rw [if_neg h1] at h
    have hes : (if al.skip then (split s).1.tail else (split s).1) ≠ [] := by
      intro e
      split at e
      · have := congrArg List.length e
        rw [List.length_tail, List.length_nil] at this
        omega
      · exact h0 e
    obtain ⟨hm, hx⟩ := ruler_exec (env := env) hr hes
    have em : (lineColumn env (if al.skip then (split s).1.tail else (split s).1)).len = m := rfl
    rw [em] at hm hx
    clear_value m
    have hx' : Knfmt.Ruler.exec ((if (alignment st (split s).1).skip = true then (split s).1.tail
        else (split s).1).foldl (fun rl l => (Knfmt.Ruler.insert rl
          { tk := { str := [] }, len := textWidth { limit := st.limit, useTabs := st.useTabs } l } 1).getD
          rl) rl) = _ := hx
    rw [hx'] at h
    simp only [Result.aligned.injEq, List.headD_cons] at h
    refine ⟨by omega, ?_, hm, ?_, ?_⟩
    · intro e
      have : al = alignment st (split s).1 := rfl
      rw [← this] at hr
      simp [rulerInit, e] at hr
    · unfold pads
      dsimp only
      split
      · simp; omega
      · simp
    · rw [← h]
      congr 4
      unfold pads
      dsimp only [al]
      split <;> simp only [List.map_map, List.nil_append, List.singleton_append] <;> rfl

theorem cppAlign_total (st : Style) (s : List Char) : cppAlign st s ≠ .failed := by
  intro h
  unfold cppAlign at h
  dsimp only at h
  by_cases h0 : (split s).1 = []
  · rw [if_pos h0] at h; simp at h
  rw [if_neg h0] at h
  cases hr : rulerInit (alignment st (split s).1) with
  | none => simp [hr] at h
  | some rl =>
    simp only [hr] at h
    by_cases h1 : (split s).1.length ≤ 1
    · rw [if_pos h1] at h; simp at h
    rw [if_neg h1] at h
    have hes : (if (alignment st (split s).1).skip then (split s).1.tail else (split s).1) ≠ [] := by
      intro e
      split at e
      · have := congrArg List.length e
        rw [List.length_tail, List.length_nil] at this
        omega
      · exact h0 e
    obtain ⟨hm, hx⟩ := ruler_exec (env := { limit := st.limit, useTabs := st.useTabs }) hr hes
    have hx' : Knfmt.Ruler.exec ((if (alignment st (split s).1).skip = true then (split s).1.tail
        else (split s).1).foldl (fun rl l => (Knfmt.Ruler.insert rl
          { tk := { str := [] }, len := textWidth { limit := st.limit, useTabs := st.useTabs } l } 1).getD
          rl) rl) = _ := hx
    rw [hx'] at h
    simp at h

theorem column_pad (a : Align) (c : Nat) : Knfmt.Spec.column c (Knfmt.Doc.Spec.alignText a c) =
    (if a.tabalign then (if a.indent = 0 then c else Knfmt.Ruler.up8 (c + a.indent)) else c + a.indent)
      + a.spaces := by
  have h := Knfmt.Ruler.execAlign_col a { mode := .munge, col := c }
  rw [Knfmt.Doc.execAlign_column] at h
  exact h

theorem pad_blank (l : Line) (a : Option Align) : ∀ c ∈ pad l a, c = ' ' ∨ c = '\t' := by
  intro c hc
  cases a with
  | none => simp only [pad, List.mem_singleton] at hc; exact Or.inl hc
  | some a =>
    simp only [pad, Knfmt.Doc.Spec.alignText] at hc
    split at hc
    · simp only [List.mem_append, List.mem_replicate] at hc
      rcases hc with h | h
      · exact Or.inr h.2
      · exact Or.inl h.2
    · simp only [List.mem_replicate] at hc
      exact Or.inl hc.2

theorem nextline_none {s : List Char} (h : nextline s = none) :
    ¬ ∃ a b, s = a ++ ['\\', '\n'] ++ b ∧ '\n' ∉ a := by
  rintro ⟨a, b, rfl, ha⟩
  have hp : ∀ c ∈ a ++ ['\\'], (decide (c ≠ '\n')) = true := by
    intro c hc
    simp only [decide_eq_true_eq]
    rintro rfl
    rcases List.mem_append.mp hc with h | h
    · exact ha h
    · simp at h
  have e : a ++ ['\\', '\n'] ++ b = (a ++ ['\\']) ++ '\n' :: b := by simp
  rw [e] at h
  unfold nextline at h
  rw [List.dropWhile_append_of_pos hp, List.takeWhile_append_of_pos hp] at h
  simp at h

/-- The lines before and after. -/
def triples (env : Env) (al : Alignment) (m : Nat) (ls : List Line) :
    List (List Char × List Char × List Char) :=
  (ls.zip (pads env al m ls)).map fun p => (p.1.text, p.1.ws, pad p.1 p.2)

theorem cppAlign_triples {st : Style} {s out : List Char} (h0 : '\x00' ∉ s)
    (h : cppAlign st s = .aligned out) :
    let env : Env := { limit := st.limit, useTabs := st.useTabs }
    let al := alignment st (split s).1
    let m := widest env al (split s).1
    al.mode ≠ .other ∧ 2 ≤ (split s).1.length ∧
    (∀ l ∈ (if al.skip then (split s).1.tail else (split s).1), textWidth env l ≤ m) ∧
      Realigned s out (triples env al m (split s).1) ∧
      (pads env al m (split s).1).length = (split s).1.length := by
  intro env al m
  obtain ⟨h1, h2, h3, h4, h5⟩ := cppAlign_eq h
  obtain ⟨k1, k2, k3⟩ := split_spec s
  have hn : ∀ l ∈ (split s).1, '\x00' ∉ l.text := by
    intro l hl hc
    apply h0
    rw [k1, render, List.mem_append, List.mem_flatten]
    left
    exact ⟨_, List.mem_map_of_mem (List.mem_map_of_mem hl), by simp [hc]⟩
  have hr : '\x00' ∉ (split s).2 := by
    intro hc
    apply h0
    rw [k1, render, List.mem_append]
    exact Or.inr hc
  refine ⟨h2, h1, h3, ⟨(split s).2, ?_, ?_, ?_, nextline_none k3⟩, h4⟩
  · conv => lhs; rw [k1]
    congr 1
    unfold triples
    rw [List.map_map]
    have : ((fun l : List Char × List Char × List Char => (l.1, l.2.1)) ∘
        fun p : Line × Option Align => (p.1.text, p.1.ws, pad p.1 p.2)) =
        (fun l : Line => (l.text, l.ws)) ∘ Prod.fst := rfl
    rw [this, ← List.map_map, List.map_fst_zip (Nat.le_of_eq h4.symm)]
  · rw [h5]
    have := exec_macroDoc (env := env) rfl (split s).2 hr ((split s).1.zip (pads env al m (split s).1))
      { mode := .brk } ⟨rfl, rfl, Nat.zero_le _, rfl, rfl, rfl⟩ rfl (by simp)
      (by
        rintro ⟨l, a⟩ hla
        have hl := (List.of_mem_zip hla).1
        exact ⟨fun hc => (k2 l hl).2.1 (List.mem_append_left _ hc), hn l hl⟩)
    have e : ∀ d, (docExec env false [] d).buf = (exec env d {}).buf := fun d => rfl
    rw [e]
    refine (congrArg List.reverse this).trans ?_
    rw [List.append_nil, List.reverse_reverse]
    unfold triples
    rw [List.map_map]
    rfl
  · intro l hl
    unfold triples at hl
    rw [List.mem_map] at hl
    obtain ⟨⟨x, a⟩, hx, rfl⟩ := hl
    have hx := (List.of_mem_zip hx).1
    obtain ⟨q1, q2, q3⟩ := k2 x hx
    exact ⟨fun hc => q2 (List.mem_append_left _ hc), q3,
      fun c hc => ⟨q1 c hc, by rintro rfl; exact q2 (List.mem_append_right _ hc)⟩, pad_blank x a⟩

/-- Aligning backslashes changes only the white space before them. -/
theorem align_text_partial {st : Style} {s out : List Char} (h0 : '\x00' ∉ s)
    (h : cppAlign st s = .aligned out) : ∃ ls, Realigned s out ls := by
  obtain ⟨_, _, _, h2, _⟩ := cppAlign_triples h0 h
  exact ⟨_, h2⟩

theorem width_eq (l : Line) (_ : '\n' ∉ l.text ++ l.ws) :
    width l = Knfmt.Spec.column 0 (l.text ++ l.ws) := by
  unfold width col Knfmt.Ruler.colwidth
  rw [Knfmt.Util.colwidth_spec _ _ (Nat.le_refl 1), Option.getD_some, Knfmt.Util.column_append]
  simp [Knfmt.Spec.column, Knfmt.Spec.advance]

theorem column_line {env : Env} (he : env.diff = none) {al : Alignment} {m : Nat} {l : Line}
    (hl : '\n' ∉ l.text) (h0 : '\x00' ∉ l.text) (hm : textWidth env l ≤ m)
    (hg : al.mode = .right → al.tabs = true → al.width % 8 = 0) :
    let p := pad l (some (lineAlign al m (textWidth env l)))
    match al.mode with
    | .left => Knfmt.Spec.column 0 (l.text ++ p) = if al.tabs then Knfmt.Ruler.up8 (m + 1) else m + 1
    | .right => Knfmt.Spec.column 0 (l.text ++ p) = al.width ∨
        p = [] ∧ al.width < Knfmt.Spec.column 0 l.text
    | _ => p = [' '] := by
  rw [textWidth_eq env he hl h0] at hm ⊢
  dsimp only
  cases e : al.mode with
  | dontAlign => simp [pad, lineAlign, e, Knfmt.Doc.Spec.alignText]
  | other => simp [pad, lineAlign, e, Knfmt.Doc.Spec.alignText]
  | left =>
    simp only [pad, lineAlign, e, Knfmt.Util.column_append, column_pad]
    have h1 : m + 1 - Knfmt.Spec.column 0 l.text ≠ 0 := by omega
    rw [show Knfmt.Spec.column 0 l.text + (m + 1 - Knfmt.Spec.column 0 l.text) = m + 1 by omega]
    simp [h1]
  | right =>
    simp only [pad, lineAlign, e, Knfmt.Util.column_append]
    by_cases hw : Knfmt.Spec.column 0 l.text > al.width
    · right
      rw [if_pos hw]
      exact ⟨by simp [Knfmt.Doc.Spec.alignText], hw⟩
    · left
      rw [if_neg hw, column_pad]
      dsimp only
      have h8 := hg e
      cases ht : al.tabs with
      | false => simp; omega
      | true =>
        have := h8 ht
        simp only [if_true, Nat.add_zero]
        unfold Knfmt.Ruler.up8
        split <;> omega

theorem mem_triples {env : Env} {al : Alignment} {m : Nat} {f : Line → Option Align} :
    ∀ (ls : List Line) (q : List Char × List Char),
    q ∈ (ls.zip (ls.map f)).map (fun p => (p.1.text, pad p.1 p.2)) →
    ∃ l ∈ ls, q = (l.text, pad l (f l))
  | [], q, h => by simp at h
  | l :: ls, q, h => by
    simp only [List.map_cons, List.zip_cons_cons, List.mem_cons] at h
    rcases h with h | h
    · exact ⟨l, List.mem_cons_self .., h⟩
    · obtain ⟨x, hx, e⟩ := mem_triples (env := env) (al := al) (m := m) ls q h
      exact ⟨x, List.mem_cons_of_mem _ hx, e⟩

theorem inColumn_lines {env : Env} (he : env.diff = none) {al : Alignment} {m : Nat} {ls : List Line}
    (hl : ∀ l ∈ ls, '\n' ∉ l.text ∧ '\x00' ∉ l.text ∧ textWidth env l ≤ m)
    (hg : al.mode = .right → al.tabs = true → al.width % 8 = 0)
    (hm : al.mode = .left ∨ al.mode = .right) :
    InColumn ((ls.zip (ls.map fun l => some (lineAlign al m (textWidth env l)))).map
      fun p => (p.1.text, pad p.1 p.2)) := by
  rcases hm with hm | hm
  · refine ⟨if al.tabs then Knfmt.Ruler.up8 (m + 1) else m + 1, fun q hq => ?_⟩
    obtain ⟨l, hl', rfl⟩ := mem_triples (env := env) (al := al) (m := m) ls q hq
    obtain ⟨h1, h2, h3⟩ := hl l hl'
    have := column_line he h1 h2 h3 hg
    rw [hm] at this
    exact Or.inl this
  · refine ⟨al.width, fun q hq => ?_⟩
    obtain ⟨l, hl', rfl⟩ := mem_triples (env := env) (al := al) (m := m) ls q hq
    obtain ⟨h1, h2, h3⟩ := hl l hl'
    have := column_line he h1 h2 h3 hg
    rw [hm] at this
    exact this

/-- The backslashes are aligned, if the width used is a tab stop whenever tabs are used. -/
theorem align_columns_width {st : Style} {s out : List Char} (h0 : '\x00' ∉ s)
    (h : cppAlign st s = .aligned out)
    (hg : (alignment st (split s).1).mode = .right → (alignment st (split s).1).tabs = true →
      (alignment st (split s).1).width % 8 = 0) :
    ∃ ls, Realigned s out ls ∧ Aligned (ls.map fun l => (l.1, l.2.2)) := by
  obtain ⟨h1, h2, h3, h4, h5⟩ := cppAlign_triples h0 h
  generalize widest _ _ _ = m at h3 h4 h5
  refine ⟨_, h4, ?_⟩
  obtain ⟨k1, k2, k3⟩ := split_spec s
  have hn : ∀ l ∈ (split s).1, '\n' ∉ l.text ∧ '\x00' ∉ l.text := by
    intro l hl
    refine ⟨fun hc => (k2 l hl).2.1 (List.mem_append_left _ hc), fun hc => h0 ?_⟩
    rw [k1, render, List.mem_append, List.mem_flatten]
    left
    exact ⟨_, List.mem_map_of_mem (List.mem_map_of_mem hl), by simp [hc]⟩
  generalize hal : alignment st (split s).1 = al at *
  unfold triples
  rw [List.map_map]
  change Aligned (((split s).1.zip (pads _ al m (split s).1)).map fun p => (p.1.text, pad p.1 p.2))
  unfold pads
  dsimp only
  cases hs : al.skip with
  | true =>
    obtain ⟨g1, g2, g3⟩ := skip_length (st := st) (ls := (split s).1) (by rw [hal]; exact hs)
    rw [hal] at g2
    rw [if_pos rfl]
    rw [if_pos hs] at h3
    cases hls : (split s).1 with
    | nil => simp [hls] at g1
    | cons l ls =>
      rw [hls] at h3 hn
      right; right
      refine ⟨_, _, rfl, rfl, ?_⟩
      exact inColumn_lines rfl (fun x hx => ⟨(hn x (List.mem_cons_of_mem _ hx)).1,
        (hn x (List.mem_cons_of_mem _ hx)).2, h3 x hx⟩) hg (Or.inr g2)
  | false =>
    rw [if_neg (by simp)]
    rw [if_neg (by simp [hs])] at h3
    cases hm : al.mode with
    | other => exact absurd hm h1
    | dontAlign =>
      left
      intro q hq
      obtain ⟨l, hl', rfl⟩ := mem_triples (env := { limit := st.limit, useTabs := st.useTabs })
        (al := al) (m := m) _ q hq
      have := column_line (env := { limit := st.limit, useTabs := st.useTabs }) rfl
        (hn l hl').1 (hn l hl').2 (h3 l hl') hg
      rw [hm] at this
      exact this
    | left =>
      right; left
      exact inColumn_lines rfl (fun x hx => ⟨(hn x hx).1, (hn x hx).2, h3 x hx⟩) hg (Or.inl hm)
    | right =>
      right; left
      exact inColumn_lines rfl (fun x hx => ⟨(hn x hx).1, (hn x hx).2, h3 x hx⟩) hg (Or.inr hm)

theorem column_tabs : ∀ (ws : List Char) (n : Nat), ws ≠ [] → (∀ c ∈ ws, c = '\t') →
    Knfmt.Spec.column n ws % 8 = 0
  | [], _, h, _ => absurd rfl h
  | [c], n, _, h => by
    rw [h c (List.mem_cons_self ..)]
    simp [Knfmt.Spec.column, Knfmt.Spec.advance, Knfmt.Spec.nextTabStop]
  | c :: d :: ws, n, _, h => by
    rw [Knfmt.Util.column_cons]
    exact column_tabs (d :: ws) _ (by simp) (fun x hx => h x (List.mem_cons_of_mem _ hx))

/-- The width used is a tab stop whenever tabs are used. -/
theorem width_tabs {st : Style} {ls : List Line} (hn : ∀ l ∈ ls, '\n' ∉ l.text ++ l.ws)
    (ht : ∀ l ∈ ls, Tidy l.ws)
    (hst : st.mode = .right → st.useTabs = true → st.indentWidth ≤ st.limit ∧ st.limit < 2 ^ 32 ∧
      (st.limit - st.indentWidth) % 8 = 0)
    (hm : (alignment st ls).mode = .right) (hb : (alignment st ls).tabs = true) :
    (alignment st ls).width % 8 = 0 := by
  unfold alignment at hm hb ⊢
  cases e : sense st ls with
  | none =>
    rw [e] at hm hb
    simp only [Option.getD_none] at hm hb ⊢
    obtain ⟨h1, h2, h3⟩ := hst hm hb
    rw [← Int.ofNat_sub h1, Int.emod_eq_of_lt (Int.natCast_nonneg _)
      (Int.lt_of_le_of_lt (Int.ofNat_le.mpr (Nat.sub_le _ _)) (by exact_mod_cast h2)), Int.toNat_natCast]
    exact h3
  | some al =>
    rw [e] at hm hb
    simp only [Option.getD_some] at hm hb ⊢
    unfold sense at e
    dsimp only at e
    by_cases h1 : ((ls.take 3).any fun l => decide (col l > st.limit)) = true
    · rw [if_pos h1] at e; simp at e
    rw [if_neg h1] at e
    by_cases h2 : (ls.take 3).all isNotAligned = true
    · rw [if_pos h2] at e; simp only [Option.some.injEq] at e; subst e; simp at hm
    rw [if_neg h2] at e
    by_cases h3 : (decide ((ls.take 3).length ≥ 3) && allIdentical (ls.take 3).tail) = true
    · rw [if_pos h3] at e
      simp only [Option.some.injEq] at e
      subst e
      dsimp only at hb ⊢
      cases hl : (ls.take 3).getLast? with
      | none => simp
      | some l =>
        have hmem := List.mem_of_getLast? hl
        have hmem' := List.mem_of_mem_take hmem
        simp only [Option.map_some, Option.getD_some]
        rw [width_eq l (hn l hmem'), Knfmt.Util.column_append]
        obtain ⟨q1, q2⟩ := ht l hmem'
        refine column_tabs _ _ q1 ?_
        rcases q2 with q2 | q2
        · exfalso
          unfold allTabs at hb
          rw [List.all_eq_true] at hb
          have := hb l hmem
          unfold classify at this
          cases hw : l.ws with
          | nil => exact q1 hw
          | cons c w =>
            have hc := q2 c (by rw [hw]; exact List.mem_cons_self ..)
            subst hc
            simp [hw] at this
        · exact q2
    · rw [if_neg h3] at e; simp at e

/-- Aligning backslashes changes only the white space before them, and if that consisted
of tabs only or of spaces only on every line the backslashes end up aligned. -/
theorem align_columns_partial {st : Style} {s out : List Char} (h0 : '\x00' ∉ s)
    (h : cppAlign st s = .aligned out)
    (hst : st.mode = .right → st.useTabs = true → st.indentWidth ≤ st.limit ∧ st.limit < 2 ^ 32 ∧
      (st.limit - st.indentWidth) % 8 = 0) :
    ∃ ls, Realigned s out ls ∧
      ((∀ l ∈ ls, Tidy l.2.1) → Aligned (ls.map fun l => (l.1, l.2.2))) := by
  obtain ⟨_, _, _, h4, h5⟩ := cppAlign_triples h0 h
  generalize widest _ _ _ = m at h4 h5
  by_cases ht : ∀ l ∈ (split s).1, Tidy l.ws
  · obtain ⟨k1, k2, k3⟩ := split_spec s
    obtain ⟨ls, h1, h2⟩ := align_columns_width h0 h (width_tabs (fun l hl => (k2 l hl).2.1) ht hst)
    exact ⟨ls, h1, fun _ => h2⟩
  · refine ⟨_, h4, fun hx => absurd ?_ ht⟩
    intro l hl
    have e : ((split s).1.zip (pads { limit := st.limit, useTabs := st.useTabs }
        (alignment st (split s).1) m (split s).1)).map Prod.fst = (split s).1 :=
      List.map_fst_zip (Nat.le_of_eq h5.symm)
    rw [← e, List.mem_map] at hl
    obtain ⟨p, hp, rfl⟩ := hl
    exact hx (p.1.text, p.1.ws, pad p.1 p.2) (List.mem_map_of_mem hp)

/-! ## Examples and failures -/

/-- Three lines are aligned at the column the style asks for. -/
example : cppAlign {} "#define x a \\\n\tbb\t\\\n\tc\n".toList =
    .aligned "#define x a\t\t\t\t\t\t\t\t\\\n\tbb\t\t\t\t\t\t\t\t\\\n\tc\n".toList := by
  decide +kernel

/-- Existing alignment is kept, the first line being left alone. -/
example : cppAlign {} "#define x \\\na       \\\nbb \t\\\nccc     \\\n\td\n".toList =
    .aligned "#define x \\\na       \\\nbb      \\\nccc     \\\n\td\n".toList := by
  decide +kernel

example : cppAlign { mode := .left } "#define x a \\\n\tbb\t\\\n\tc\n".toList =
    .aligned "#define x a\t\\\n\tbb\t\\\n\tc\n".toList := by
  decide +kernel

example : cppAlign { mode := .dontAlign } "#define x a\t\\\n\tbb\t\\\n\tc\n".toList =
    .aligned "#define x a \\\n\tbb \\\n\tc\n".toList := by
  decide +kernel

/-- A NUL ends a line: what follows it on the line is lost. -/
theorem align_text_fails : ∃ s out, cppAlign {} s = .aligned out ∧
    (s.filter fun c => !isSpace c) ≠ out.filter fun c => !isSpace c :=
  ⟨"#define x a\x00b \\\n\tc \t\\\n\td\n".toList,
    "#define x a\t\t\t\t\t\t\t\t\\\n\tc\t\t\t\t\t\t\t\t\\\n\td\n".toList, by decide +kernel, by decide +kernel⟩

/-- Existing alignment between tab stops is kept neither for a text as wide as the column
nor for the others. -/
theorem align_columns_fails : ∃ s out, cppAlign {} s = .aligned out ∧
    ∃ ls rest, out = render ls rest ∧ (∀ l ∈ ls, '\n' ∉ l.1 ++ l.2) ∧ ¬ Aligned ls :=
  ⟨"#define\t \\\na\t \\\nb\t \\\n123456789\\\nc\n".toList,
    "#define\t\t\\\na\t\t\\\nb\t\t\\\n123456789\\\nc\n".toList, by decide +kernel,
    [("#define".toList, "\t\t".toList), ("a".toList, "\t\t".toList), ("b".toList, "\t\t".toList),
      ("123456789".toList, [])], "c\n".toList, by decide +kernel, by decide +kernel, by
    rintro (h | ⟨x, h⟩ | ⟨l, ls', h1, h2, -⟩)
    · exact absurd (h ("a".toList, "\t\t".toList) (by decide)) (by decide)
    · have h1 := h ("a".toList, "\t\t".toList) (by decide)
      have h2 := h ("123456789".toList, []) (by decide)
      have e1 : Knfmt.Spec.column 0 ("a".toList ++ "\t\t".toList) = 16 := by decide +kernel
      have e2 : Knfmt.Spec.column 0 ("123456789".toList ++ []) = 9 := by decide +kernel
      have e3 : Knfmt.Spec.column 0 ("123456789".toList) = 9 := by decide +kernel
      rcases h1 with h1 | ⟨h1, -⟩
      · dsimp only at h1 h2
        rcases h2 with h2 | ⟨-, h2⟩
        · rw [e1] at h1; rw [e2] at h2; omega
        · rw [e1] at h1; rw [e3] at h2; omega
      · simp at h1
    · obtain ⟨rfl, -⟩ := List.cons.inj h1
      simp at h2⟩

end Knfmt.CppAlign
