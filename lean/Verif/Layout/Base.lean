import Verif.Layout.Spec
import Verif.Layout.Say
import Verif.Ruler.Stable
/-! # The layout of statements (C90): settings, words and heads of statements -/
namespace Knfmt.Layout
open Knfmt.Expr (Tok Ex)
open Knfmt.Doc (Doc Spot run hasBit blank)
open Knfmt.ExprDoc (Conf)
open Knfmt.Util Knfmt.Spec
open Knfmt.Layout.Spec

/-! ## Lines within the limit -/

theorem within_append {lim c : Nat} {a b : List Char} (h : Within lim c (a ++ b)) :
    Within lim c a ∧ Within lim (strwidth a c) b := by
  rw [(strwidth_spec _ _).2]
  induction a generalizing c with
  | nil =>
    refine ⟨?_, h⟩
    cases b with
    | nil => exact h
    | cons x b => exact h.1
  | cons x a ih =>
    obtain ⟨h1, h2⟩ := h
    exact ⟨⟨h1, (ih h2).1⟩, (ih h2).2⟩

theorem within_last {lim c : Nat} {s : List Char} (h : Within lim c s) : strwidth s c ≤ lim := by
  rw [(strwidth_spec _ _).2]
  induction s generalizing c with
  | nil => exact h
  | cons x s ih => exact ih h.2

theorem within_col {lim c : Nat} {s : List Char} (h : Within lim c s) : c ≤ lim := by
  cases s with
  | nil => exact h
  | cons x s => exact h.1

theorem room {lim : Nat} {s t : List Char} {f : Spot} (h : Within lim f.col (s ++ t)) (hs : '\n' ∉ s) (hp : f.edge = .plain) :
    Room lim s f := ⟨hp, hs, within_last (within_append h).1⟩

theorem strwidth_nil (c : Nat) : strwidth [] c = c := by
  rw [(strwidth_spec _ _).2]
  rfl

/-! ## Hypotheses -/

/-- A token: a word that does not end in a blank. -/
def Firm (s : List Char) : Prop := '\n' ∉ s ∧ ∃ t c, s = t ++ [c] ∧ blank c = false

/-- The type is not empty and consists of tokens. -/
def Typ.Ok (t : Typ) : Prop := t.words ≠ [] ∧ ∀ w ∈ t.words, Firm w

/-- The tokens of an argument. -/
def Param.Ok (p : Param) : Prop :=
  p.typ.Ok ∧ ∀ n ds, p.name = some (n, ds) → Word n ∧ ∀ d ∈ ds, ∀ x ∈ d, Word x

theorem Firm.word {s : List Char} (h : Firm s) : Word s := by
  obtain ⟨h1, t, c, rfl, _⟩ := h
  exact ⟨by simp, h1⟩

/-- The tokens of a variable. -/
structure Var.Ok (typ : List Tok → List Char) (x : Var) : Prop where
  name : Word x.name
  dims : ∀ d ∈ x.dims, ∀ e ∈ d, Words typ e
  init : ∀ e ∈ x.init, Words typ e

/-- The tokens after a type. -/
def Tail.Ok (typ : List Tok → List Char) : Tail → Prop
  | .vars x ys => ∀ y ∈ x :: ys, y.Ok typ
  | .args n ps => Word n ∧ ∀ p ∈ ps, p.Ok
  | .bare => True

/-- The tokens of a declaration. -/
structure Decl.Ok (typ : List Tok → List Char) (d : Decl) : Prop where
  some : d.words ≠ []
  words : ∀ w ∈ d.words, Word w
  tail : d.tail.Ok typ
  src : d.tail ≠ .bare → d.datum.Plain
  bare : d.tail = .bare → d.stars = 0

/-- The tokens of a block of declarations; the indentations of the ruler are small numbers. -/
structure Block.Ok (typ : List Tok → List Char) (b : List Decl) : Prop where
  some : b ≠ []
  decls : ∀ d ∈ b, d.Ok typ
  close : ∀ d ∈ b.dropLast, d.aft ≠ .blank
  small : ∀ v ∈ (rulerOf b).2, v < 2 ^ 27

/-! ## Settings -/

/-- The settings for which the layout is as described. -/
structure Fair (S : Style) (typ : List Tok → List Char) : Prop where
  mild : Mild S.conf typ
  cont : S.cont < 2 ^ 27
  width : S.width < 2 ^ 27
  place : ∀ e, S.place e < 2 ^ 27

/-- The white space of the ruler for a declaration that begins in column `c`. -/
def gapAt (c : Nat) (a : Option Knfmt.Doc.Align) (d : Decl) : List Char :=
  match a with
  | some a => Knfmt.Doc.Spec.alignText a (strwidth (joined [' '] d.words) c)
  | none => []

/-- The white space of the ruler for declarations that begin in column `c`. -/
def gapsAt (c : Nat) : List Knfmt.Doc.Align → List Decl → List (List Char)
  | _, [] => []
  | as, d :: ds => gapAt c (d.entry as) d :: gapsAt c (d.rest as) ds

/-- The way the text is written with these settings. -/
def hand (S : Style) (tabs : Bool) (typ : List Tok → List Char) : Hand :=
  ⟨S.width, tabs, say typ (spacing S.conf) S.conf.nextComma, fun c b => gapsAt c (rulerOf b).1 b⟩

theorem Mild.set {C : Conf} {typ : List Tok → List Char} (h : Mild C typ) {n w : Nat} (hn : n < 2 ^ 27) (hw : w < 2 ^ 27)
    (b : Bool) : Mild { C with indent := n, align := w, line := b } typ :=
  ⟨h.columns, h.simpleParens, h.simpleSizeof, h.hardline, h.softline, h.suffix, h.recDoc, hn, hw⟩

theorem Fair.head {S : Style} {typ : List Tok → List Char} (h : Fair S typ) (e : Ex) : Mild (S.head e) typ :=
  h.mild.set h.cont (h.place e) false

theorem Fair.clause {S : Style} {typ : List Tok → List Char} (h : Fair S typ) (b : Bool) (e : Ex) : Mild (S.clause b e) typ := by
  refine h.mild.set ?_ (by omega) b
  have := h.cont
  have := h.place e
  unfold Style.step
  split <;> omega

mutual
/-- All tokens are words, and no empty line comes between a right brace and `while`, if `tight`. -/
def Told (tight : Bool) (typ : List Tok → List Char) : Stmt → Prop
  | .expr e _ => Words typ e
  | .ret e _ => ∀ x ∈ e, Words typ x
  | .jump kw _ => Word kw
  | .goto l _ => Word l
  | .semi _ => True
  | .label _ l _ => Word l
  | .block b _ => Tolds tight typ b
  | .loop kw _ e s => Word kw ∧ (∀ x ∈ e, Words typ x) ∧ Told tight typ s
  | .loop3 x y z s => (∀ e ∈ x, Words typ e) ∧ (∀ e ∈ y, Words typ e) ∧ (∀ e ∈ z, Words typ e) ∧ Told tight typ s
  | .cond e t r => Words typ e ∧ Told tight typ t ∧ ToldElse tight typ r
  | .doWhile s e _ => Told tight typ s ∧ Words typ e ∧ (tight = true → isBlock s = true → (ending s).2 ≠ .blank)
  | .switch e b _ => Words typ e ∧ Tolds tight typ b
  | .case e b => (∀ x ∈ e, Words typ x) ∧ Tolds tight typ b
  | .decls b => Block.Ok typ b
def ToldElse (tight : Bool) (typ : List Tok → List Char) : Else → Prop
  | .none => True
  | .elif e t r => Words typ e ∧ Told tight typ t ∧ ToldElse tight typ r
  | .els s => Told tight typ s
def Tolds (tight : Bool) (typ : List Tok → List Char) : Stmts → Prop
  | .nil => True
  | .cons s r => Told tight typ s ∧ Tolds tight typ r
end

/-- All tokens are words, and no empty line comes between a right brace and `while`. -/
abbrev Good (typ : List Tok → List Char) : Stmt → Prop := Told true typ
@[inherit_doc Good] abbrev GoodElse (typ : List Tok → List Char) : Else → Prop := ToldElse true typ
@[inherit_doc Good] abbrev Goods (typ : List Tok → List Char) : Stmts → Prop := Tolds true typ

theorem words_line {typ : List Tok → List Char} (sp cc : Tok → Bool) {e : Ex} (h : Words typ e) : '\n' ∉ say typ sp cc e := by
  have hg : ∀ b, '\n' ∉ gap b := by intro b; cases b <;> simp [gap]
  have ho : ∀ t : Option Tok, (∀ x ∈ t, Word x.str) → '\n' ∉ opt t := by
    intro t ht
    cases t with
    | none => simp [opt]
    | some t => exact (ht t rfl).2
  induction e with
  | null => simp [say]
  | lit t => exact h.2
  | un op e ih => simp only [say, List.mem_append, not_or]; exact ⟨h.1.2, ih h.2⟩
  | pre op e ih => simp only [say, List.mem_append, not_or]; exact ⟨h.1.2, ih h.2⟩
  | post e op ih => simp only [say, List.mem_append, not_or]; exact ⟨ih h.2, h.1.2⟩
  | bin l op r ihl ihr =>
    rw [say]
    split
    · simp only [List.mem_append, not_or]; exact ⟨ihl h.1, h.2.1.2, hg _, ihr h.2.2⟩
    · simp only [List.mem_append, not_or]; exact ⟨ihl h.1, hg _, h.2.1.2, hg _, ihr h.2.2⟩
  | tern c q m co t ihc ihm iht =>
    have hsp : '\n' ∉ ([' '] : List Char) := by decide
    rw [say]
    split
    · simp only [List.mem_append, not_or]
      exact ⟨ihc h.1, hsp, h.2.1.2, by simp, ho _ h.2.2.2.1, hsp, iht h.2.2.2.2⟩
    · simp only [List.mem_append, not_or]
      exact ⟨ihc h.1, hsp, h.2.1.2, ⟨hsp, ihm h.2.2.1, hsp⟩, ho _ h.2.2.2.1, hsp, iht h.2.2.2.2⟩
  | parens l e r ih => simp only [say, List.mem_append, not_or]; exact ⟨h.1.2, ih h.2.1, ho _ h.2.2⟩
  | call f l a r ihf iha => simp only [say, List.mem_append, not_or]; exact ⟨ihf h.1, h.2.1.2, iha h.2.2.1, ho _ h.2.2.2⟩
  | squares f l a r ihf iha => simp only [say, List.mem_append, not_or]; exact ⟨ihf h.1, h.2.1.2, iha h.2.2.1, ho _ h.2.2.2⟩
  | field l op r ihl ihr => simp only [say, List.mem_append, not_or]; exact ⟨ihl h.1, h.2.1.2, ihr h.2.2⟩
  | cast l ts r e ih =>
    simp only [say, List.mem_append, not_or]; exact ⟨h.1.2, h.2.1.2, ho _ h.2.2.2.1, ih h.2.2.2.2⟩
  | sizeofE tk e ih => simp only [say, List.mem_append, not_or]; exact ⟨h.1.2, by simp, ih h.2⟩
  | sizeofP tk l e r ih => simp only [say, List.mem_append, not_or]; exact ⟨h.1.2, h.2.1.2, ih h.2.2.1, ho _ h.2.2.2⟩
  | concat e t ih => simp only [say, List.mem_append, not_or]; exact ⟨ih h.1, by simp, h.2.2⟩
  | recov ts => exact h.1.2

/-! ## Pieces of statements -/

section
variable {lim : Nat} {tabs : Bool} {S : Style} {typ : List Tok → List Char}

theorem run_maxlines (brk o : Bool) (mx cur : Nat) (d : Doc) (f : Spot) :
    run lim tabs brk o mx cur (.maxlines 1 d) f = run lim tabs brk o 1 cur d f := by
  cases brk <;> simp only [run] <;> rw [if_neg (by omega)]

theorem run_scope (brk o : Bool) (mx cur : Nat) (d : Doc) (f : Spot) :
    run lim tabs brk o mx cur (.scope d) f = run lim tabs brk o mx cur d f := by
  cases brk <;> simp only [run]

theorem run_optional (o : Bool) (mx cur : Nat) (d : Doc) (f : Spot) :
    run lim tabs false o mx cur (.optional d) f = run lim tabs false true mx cur d f := by
  simp only [run]

/-- An expression and what is appended to it. -/
theorem run_exprK {C : Conf} (hC : Mild C typ) {e : Ex} (hw : Words typ e) {f : Spot}
    (h : Room lim (gap C.line ++ say typ (spacing C) C.nextComma e) f) (brk o : Bool) (mx cur : Nat) (k : Doc) :
    run lim tabs brk o mx cur (exprK C e k) f =
      run lim tabs false true 1 cur k (f.put (gap C.line ++ say typ (spacing C) C.nextComma e)) := by
  have hin : ∀ (d : Doc), run lim tabs false true 1 cur
      (if C.align > 0 then .indent C.align d else if C.indent > 0 then .indent C.indent d else d) f =
      run lim tabs false true 1 cur d f := by
    intro d
    split
    · exact run_indent (small_bit (by have := hC.align; omega)) d f
    · split
      · exact run_indent (small_bit (by have := hC.indent; omega)) d f
      · rfl
  have hmain : run lim tabs false true 1 cur (if C.line then .seq .line (Knfmt.ExprDoc.edoc C e { root := true } k)
      else Knfmt.ExprDoc.edoc C e { root := true } k) f =
      run lim tabs false true 1 cur k (f.put (gap C.line ++ say typ (spacing C) C.nextComma e)) := by
    cases hl : C.line with
    | false =>
      rw [hl] at h
      simp only [gap, Bool.false_eq_true, if_false, List.nil_append] at h ⊢
      rw [run_edoc hC e hw _ _ h]
      rfl
    | true =>
      rw [hl] at h
      simp only [gap, if_true] at h ⊢
      rw [run_seq, run_line h.left, Option.bind_some, run_edoc hC e hw _ _ h.right, put_put]
      rfl
  have hgr : ∀ d : Doc, run lim tabs brk o mx cur (.maxlines 1 (.scope (.group (.optional d)))) f =
      run lim tabs false true 1 cur d f := by
    intro d
    rw [run_maxlines, run_scope, run_group h, run_optional]
  unfold exprK
  simp only [hC.hardline, hC.softline, Bool.false_eq_true, if_false]
  rw [hgr, hin, hmain]

/-- Where the printer is after a statement: the text so far, the column and what is left of the white space in the
source. -/
structure Ends (g : Spot) (txt : List Char) (col : Nat) (a : After) : Prop where
  text : g.txt = txt
  solid : txt.dropWhile blank = txt
  flat : a = .none → g.edge = .plain
  col : a ≠ .blank → g.edge ≠ .empty ∧ g.col = col ∧ g.nl = 0
  shut : a = .blank → g.edge = .empty ∧ g.nl = 1

theorem solid_cons {c : Char} (h : blank c = false) (t : List Char) : (c :: t).dropWhile blank = c :: t := by
  rw [List.dropWhile_cons_of_neg (by simp [h])]

/-- The white space of the source after a token. -/
theorem run_after {f : Spot} (hp : f.edge = .plain) (hn : f.nl = 0) (hs : f.txt.dropWhile blank = f.txt) (brk o : Bool)
    (mx cur : Nat) (a : After) :
    ∃ g, run lim tabs brk o mx cur (afterDoc a) f = some g ∧ Ends g f.txt f.col a ∧ (o = false → a ≠ .blank → g.edge = .plain) := by
  cases a with
  | none => exact ⟨f, run_nil brk f, ⟨rfl, hs, fun _ => hp, fun _ => ⟨by simp [hp], rfl, hn⟩, fun h => by simp at h⟩, fun _ _ => hp⟩
  | line =>
    refine ⟨{ f with edge := if o then .pend else .plain }, ?_, ⟨rfl, hs, fun h => by simp at h,
      fun _ => ⟨?_, rfl, hn⟩, fun h => by simp at h⟩, fun ho _ => ?_⟩
    · cases brk <;> rw [afterDoc, run, if_pos hp]
    · cases o <;> simp
    · rw [ho]; rfl
  | blank =>
    refine ⟨⟨f.txt.dropWhile blank, 0, 1, .empty⟩, ?_, ⟨hs, hs, fun h => by simp at h, fun h => by simp at h,
      fun _ => ⟨rfl, rfl⟩⟩, fun _ h => by simp at h⟩
    cases brk <;> rw [afterDoc, run, if_pos ⟨rfl, hp, hn⟩]

/-- A semicolon. -/
theorem run_semi {f : Spot} (h : Room lim [';'] f) (brk o : Bool) (mx cur : Nat) (a : After) :
    ∃ g, run lim tabs brk o mx cur (semiDoc a) f = some g ∧ Ends g ([';'].reverse ++ f.txt) (strwidth [';'] f.col) a := by
  have hq : (f.put [';']).nl = 0 := rfl
  obtain ⟨g, h1, h2, _⟩ := run_after (lim := lim) (tabs := tabs) (f := f.put [';']) h.edge hq (solid_cons (by decide) _) brk o mx cur a
  refine ⟨g, ?_, h2⟩
  rw [semiDoc, run_seq, lit, run_lit h (by simp), Option.bind_some, h1]

theorem indent_eq (d : Nat) : (hand S tabs typ).indent d = (strindent (d * S.width) tabs 0).1 := by
  rw [strindent_bytes]
  rfl

theorem nl_col (d c : Nat) : strwidth ((hand S tabs typ).nl d) c = d * S.width := by
  rw [(strwidth_spec _ _).2, Hand.nl, column_cons]
  have : advance c '\n' = 0 := rfl
  rw [this, indent_eq, strindent_width _ _ _ (Or.inl rfl)]
  omega

/-- A new line after a statement. -/
theorem run_feed {g : Spot} {txt : List Char} {col : Nat} {a : After} (h : Ends g txt col a) (d : Nat) :
    ∃ f, run lim tabs true false 2 (d * S.width) .hardline g = some f ∧ f.edge = .plain ∧
      f.txt = (emptyLine a ++ (hand S tabs typ).nl d).reverse ++ txt ∧
      f.col = strwidth (emptyLine a ++ (hand S tabs typ).nl d) col := by
  have hn : g.nl < 2 := by
    by_cases ha : a = .blank
    · have := (h.shut ha).2; omega
    · have := (h.col ha).2.2; omega
  refine ⟨g.feed tabs (d * S.width), by rw [run, if_pos hn], rfl, ?_, ?_⟩
  · show (strindent (d * S.width) tabs 0).1.reverse ++ '\n' :: (if g.edge = .empty then '\n' :: g.txt else g.txt.dropWhile blank) = _
    rw [Hand.nl, indent_eq]
    by_cases ha : a = .blank
    · rw [if_pos (h.shut ha).1, h.text, ha]
      simp [emptyLine]
    · rw [if_neg (h.col ha).1, h.text, h.solid]
      have : emptyLine a = [] := by cases a <;> simp_all [emptyLine]
      rw [this]
      simp
  · show d * S.width = _
    rw [strwidth_add, nl_col]

/-- Where a statement begins: the indentation in front of a label is removed. -/
def lead (s : Stmt) (f : Spot) : Spot := if isLabel s then f.trim else f

theorem lead_edge (s : Stmt) (f : Spot) : (lead s f).edge = f.edge := by
  unfold lead
  split <;> rfl

theorem lead_block {s : Stmt} (h : isBlock s = true) (f : Spot) : lead s f = f := by
  cases s <;> simp [isBlock] at h
  rfl

theorem trim_spaces (n c : Nat) (b : List Char) :
    Knfmt.Doc.trimLoop (List.replicate n ' ' ++ b) (c + n) = Knfmt.Doc.trimLoop b c := by
  induction n with
  | zero => rfl
  | succ n ih =>
    rw [List.replicate_succ, List.cons_append, Knfmt.Doc.trimLoop, if_pos (by rfl), if_neg (by decide), ← ih]
    rfl

theorem trim_tabs (n : Nat) (b : List Char) :
    Knfmt.Doc.trimLoop (List.replicate n '\t' ++ b) (8 * n) = Knfmt.Doc.trimLoop b 0 := by
  induction n with
  | zero => rfl
  | succ n ih =>
    rw [List.replicate_succ, List.cons_append, Knfmt.Doc.trimLoop, if_pos (by rfl), if_pos rfl, ← ih]
    congr 1
    omega

theorem trim_indent (n : Nat) (tabs : Bool) (b : List Char) :
    Knfmt.Doc.trimLoop ((strindent n tabs 0).1.reverse ++ '\n' :: b) n = ('\n' :: b, 0) := by
  rw [strindent_bytes]
  have h0 : Knfmt.Doc.trimLoop ('\n' :: b) 0 = ('\n' :: b, 0) := by
    rw [Knfmt.Doc.trimLoop, if_neg (by decide)]
  cases tabs with
  | false =>
    have := trim_spaces n 0 ('\n' :: b)
    rw [Nat.zero_add, h0] at this
    simpa using this
  | true =>
    have h1 := trim_spaces (n % 8) (8 * (n / 8)) (List.replicate (n / 8) '\t' ++ '\n' :: b)
    rw [trim_tabs, h0] at h1
    have h2 : 8 * (n / 8) + n % 8 = n := by omega
    rw [h2] at h1
    simpa using h1

/-- A new line before a statement. -/
theorem run_start {g : Spot} {txt : List Char} {col : Nat} {a : After} (h : Ends g txt col a) (d : Nat) (s : Stmt) :
    ∃ f, run lim tabs true false 2 (d * S.width) .hardline g = some f ∧ f.edge = .plain ∧
      (lead s f).txt = (emptyLine a ++ (hand S tabs typ).top d s).reverse ++ txt ∧
      (lead s f).col = strwidth (emptyLine a ++ (hand S tabs typ).top d s) col := by
  obtain ⟨f, e, hp, ht, hc⟩ := run_feed (lim := lim) (tabs := tabs) (S := S) (typ := typ) h d
  refine ⟨f, e, hp, ?_, ?_⟩
  · unfold lead Hand.top
    split
    · show f.txt.dropWhile blank = _
      rw [ht, Hand.nl, indent_eq]
      have := congrArg Prod.fst (trim_indent (d * S.width) tabs ((emptyLine a).reverse ++ txt))
      rw [Knfmt.Doc.trim_drop] at this
      simpa using this
    · exact ht
  · unfold lead Hand.top
    split
    · show (Knfmt.Doc.trimLoop f.txt f.col).2 = _
      rw [ht, hc, strwidth_add, nl_col, Hand.nl, indent_eq]
      have := congrArg Prod.snd (trim_indent (d * S.width) tabs ((emptyLine a).reverse ++ txt))
      rw [strwidth_add]
      have h0 : strwidth ['\n'] (strwidth (emptyLine a) col) = 0 := by
        rw [(strwidth_spec _ _).2]; rfl
      rw [h0]
      simpa using this
    · exact hc

theorem run_indent_brk (hS : Fair S typ) (d : Nat) (x : Doc) (f : Spot) :
    run lim tabs true false 2 (d * S.width) (.indent S.width x) f = run lim tabs true false 2 ((d + 1) * S.width) x f := by
  have := hS.width
  rw [run, if_pos ⟨by omega, by omega⟩]
  congr 1
  simp [Nat.add_mul]

/-- A literal where lines can be broken. -/
theorem run_brk {s : List Char} {f : Spot} (hp : f.edge = .plain) (h1 : '\n' ∉ s) (hs : s ≠ []) (o : Bool) (mx cur : Nat) :
    run lim tabs true o mx cur (lit s) f = some (f.put s) := by
  have : (⟨s.reverse ++ f.txt, strwidth s f.col, 0, .plain⟩ : Spot) = f.put s := by
    unfold Spot.put
    rw [if_neg hs, hp]
  rw [lit, run, if_pos ⟨hp, h1, .inl rfl⟩, this]

/-- An expression that may be missing. -/
theorem run_optK (b : Bool) {C : Ex → Conf} (hC : ∀ e, Mild (C e) typ)
    (hl : ∀ e, gap (C e).line ++ say typ (spacing (C e)) (C e).nextComma e = gap b ++ (hand S tabs typ).expr e)
    {e : Option Ex} (he : ∀ x ∈ e, Words typ x) {f : Spot}
    (h : Room lim (if b then (hand S tabs typ).pad e else (hand S tabs typ).opt e) f) {o : Bool} {mx cur : Nat} {k : Doc} {P : Spot → Prop}
    (hk : ∀ o mx, ∃ g, run lim tabs false o mx cur k (f.put (if b then (hand S tabs typ).pad e else (hand S tabs typ).opt e)) = some g ∧ P g) :
    ∃ g, run lim tabs false o mx cur (optK C e k) f = some g ∧ P g := by
  cases e with
  | none =>
    cases b <;> exact hk o mx
  | some e =>
    have hw := he e rfl
    have hx : (if b then (hand S tabs typ).pad (some e) else (hand S tabs typ).opt (some e)) = gap b ++ (hand S tabs typ).expr e := by
      cases b <;> rfl
    rw [hx] at h hk
    rw [optK, run_exprK (hC e) hw (by rw [hl]; exact h), hl]
    exact hk true 1

theorem opt_line {e : Option Ex} (he : ∀ x ∈ e, Words typ x) : '\n' ∉ (hand S tabs typ).opt e := by
  cases e with
  | none => simp [Hand.opt]
  | some e => exact words_line _ _ (he e rfl)

theorem pad_line {e : Option Ex} (he : ∀ x ∈ e, Words typ x) : '\n' ∉ (hand S tabs typ).pad e := by
  cases e with
  | none => simp [Hand.pad]
  | some e =>
    simp only [Hand.pad, List.mem_cons, not_or]
    exact ⟨by decide, words_line _ _ (he e rfl)⟩

/-- The text of `headDoc`. -/
def headText (H : Hand) (elif : Bool) (kw : List Char) (sp : Bool) (e : Option Ex) : List Char :=
  (if elif then ['e', 'l', 's', 'e'] ++ [' '] else []) ++ (kw ++ ((if sp then [' '] else []) ++ (['('] ++ (H.opt e ++ [')']))))

theorem head_line {elif sp : Bool} {kw : List Char} {e : Option Ex} (hk : Word kw) (he : ∀ x ∈ e, Words typ x) :
    '\n' ∉ headText (hand S tabs typ) elif kw sp e := by
  have := opt_line (S := S) (tabs := tabs) he
  have := hk.2
  cases elif <;> cases sp <;> simp_all [headText]

/-- The first half of a statement with a condition. -/
theorem run_head (hS : Fair S typ) {elif sp : Bool} {kw : List Char} {e : Option Ex} (hkw : Word kw) (he : ∀ x ∈ e, Words typ x) {f : Spot}
    (h : Room lim (headText (hand S tabs typ) elif kw sp e) f) {brk o : Bool} {mx cur : Nat} {k : Doc} {P : Spot → Prop}
    (hk : ∀ o mx, ∃ g, run lim tabs false o mx cur k (f.put (headText (hand S tabs typ) elif kw sp e)) = some g ∧ P g) :
    ∃ g, run lim tabs brk o mx cur (headDoc S elif kw sp e k) f = some g ∧ P g := by
  have h1 : run lim tabs false o mx cur (if elif then .seq (lit ['e', 'l', 's', 'e']) (lit [' ']) else .nil) f =
      some (f.put (if elif then ['e', 'l', 's', 'e'] ++ [' '] else [])) := by
    cases elif with
    | false => exact run_nil _ _
    | true =>
      have h := h.left
      simp only [if_true] at h ⊢
      rw [run_seq, lit, run_lit h.left (by simp), Option.bind_some, lit, run_lit h.right (by simp), put_put]
  have h2 := h.right
  have h3 := h2.right
  have h5 := h3.right
  have h4 : run lim tabs false o mx cur (if sp then lit [' '] else .nil) ((f.put (if elif then ['e', 'l', 's', 'e'] ++ [' '] else [])).put kw) =
      some (((f.put (if elif then ['e', 'l', 's', 'e'] ++ [' '] else [])).put kw).put (if sp then [' '] else [])) := by
    cases sp with
    | false => exact run_nil _ _
    | true => exact run_lit h3.left (by simp) _ _
  have h6 := h5.right
  rw [headDoc, run_group h, run_seq, h1, Option.bind_some, run_seq, lit, run_lit h2.left hkw.1, Option.bind_some, run_seq, h4,
    Option.bind_some, run_seq, lit, run_lit h5.left (by simp), Option.bind_some]
  refine run_optK (S := S) (b := false) hS.head (fun _ => rfl) he h6.left (fun o mx => ?_)
  obtain ⟨g, hg, hP⟩ := hk o mx
  refine ⟨g, ?_, hP⟩
  simp only [Bool.false_eq_true, if_false]
  rw [run_seq, lit, run_lit h6.right (by simp), Option.bind_some, put_put, put_put, put_put, put_put, put_put]
  simpa only [headText, List.append_assoc] using hg

/-- The text of `forDoc`. -/
def forText (H : Hand) (x y z : Option Ex) : List Char :=
  ['f', 'o', 'r'] ++ ([' '] ++ (['('] ++ (H.opt x ++ ([';'] ++ (H.pad y ++ ([';'] ++ (H.pad z ++ [')'])))))))

theorem for_line {x y z : Option Ex} (hx : ∀ e ∈ x, Words typ e) (hy : ∀ e ∈ y, Words typ e) (hz : ∀ e ∈ z, Words typ e) :
    '\n' ∉ forText (hand S tabs typ) x y z := by
  have := opt_line (S := S) (tabs := tabs) hx
  have := pad_line (S := S) (tabs := tabs) hy
  have := pad_line (S := S) (tabs := tabs) hz
  simp_all [forText]

/-- The first half of `for`. -/
theorem run_for (hS : Fair S typ) {x y z : Option Ex} (hx : ∀ e ∈ x, Words typ e) (hy : ∀ e ∈ y, Words typ e) (hz : ∀ e ∈ z, Words typ e) {f : Spot}
    (h : Room lim (forText (hand S tabs typ) x y z) f) {brk o : Bool} {mx cur : Nat} {k : Doc} {P : Spot → Prop}
    (hk : ∀ o mx, ∃ g, run lim tabs false o mx cur k (f.put (forText (hand S tabs typ) x y z)) = some g ∧ P g) :
    ∃ g, run lim tabs brk o mx cur (forDoc S x y z k) f = some g ∧ P g := by
  have h2 := h.right
  have h3 := h2.right
  have h4 := h3.right
  have h5 := h4.right
  have h6 := h5.right
  have h7 := h6.right
  have h8 := h7.right
  rw [forDoc, run_group h, run_seq, lit, run_lit h.left (by simp), Option.bind_some, run_seq, lit, run_lit h2.left (by simp), Option.bind_some,
    run_seq, lit, run_lit h3.left (by simp), Option.bind_some, run_seq]
  obtain ⟨g1, e1, rfl⟩ := run_optK (S := S) (tabs := tabs) (o := o) (mx := mx) (cur := cur) (b := false) (hS.clause false) (fun _ => rfl) hx h4.left (k := lit [';'])
    (P := fun g => g = ((((f.put _).put _).put _).put _).put [';'])
    (fun o mx => ⟨_, run_lit h5.left (by simp) _ _, rfl⟩)
  rw [e1, Option.bind_some, run_seq]
  obtain ⟨g1, e1, rfl⟩ := run_optK (S := S) (tabs := tabs) (o := o) (mx := mx) (cur := cur) (b := true) (hS.clause true) (fun _ => rfl) hy h6.left (k := lit [';'])
    (P := fun g => g = ((((((f.put _).put _).put _).put _).put _).put _).put [';'])
    (fun o mx => ⟨_, run_lit h7.left (by simp) _ _, rfl⟩)
  rw [e1, Option.bind_some]
  refine run_optK (S := S) (b := true) (hS.clause true) (fun _ => rfl) hz h8.left (fun o mx => ?_)
  obtain ⟨g, hg, hP⟩ := hk o mx
  refine ⟨g, ?_, hP⟩
  simp only [if_true]
  rw [run_seq, lit, run_lit h8.right (by simp), Option.bind_some, put_put, put_put, put_put, put_put, put_put, put_put, put_put, put_put]
  simpa only [forText, List.append_assoc] using hg

/-- The text of `caseHead`. -/
def caseText (H : Hand) : Option Ex → List Char
  | none => ['d', 'e', 'f', 'a', 'u', 'l', 't'] ++ [':']
  | some e => ['c', 'a', 's', 'e'] ++ ([' '] ++ (H.expr e ++ [':']))

theorem case_line {e : Option Ex} (he : ∀ x ∈ e, Words typ x) : '\n' ∉ caseText (hand S tabs typ) e := by
  cases e with
  | none => simp [caseText]
  | some e =>
    have : '\n' ∉ (hand S tabs typ).expr e := words_line _ _ (he e rfl)
    simp_all [caseText]

/-- `case` up to the colon. -/
theorem run_case (hS : Fair S typ) {e : Option Ex} (he : ∀ x ∈ e, Words typ x) {f : Spot}
    (h : Room lim (caseText (hand S tabs typ) e) f) {brk o : Bool} {mx cur : Nat} (k : Doc) :
    run lim tabs brk o mx cur (caseHead S e k) f = run lim tabs false o mx cur k (f.put (caseText (hand S tabs typ) e)) := by
  cases e with
  | none =>
    rw [caseHead, run_group h, run_seq, lit, run_lit h.left (by simp), Option.bind_some, run_seq, lit, run_lit h.right (by simp),
      Option.bind_some, put_put]
    rfl
  | some e =>
    have h2 := h.right
    have h3 := h2.right
    have hx : gap S.label.line ++ say typ (spacing S.label) S.label.nextComma e = (hand S tabs typ).expr e := rfl
    rw [caseHead, run_group h, run_seq, lit, run_lit h.left (by simp), Option.bind_some, run_seq, run_line h2.left, Option.bind_some, run_seq,
      run_exprK (C := S.label) (hS.mild.set (by omega) (by omega) false) (he e rfl) h3.left, hx, run_nil, Option.bind_some, run_seq, lit,
      run_lit h3.right (by simp), Option.bind_some, put_put, put_put, put_put]
    rfl

/-! ## Statements -/

/-- What is left of the white space after a statement. -/
def left (n : Next) (x : Bool × After) : After := if x.1 then trimBrace n x.2 else trimSemi n x.2

theorem left_other (x : Bool × After) : left .other x = x.2 := by
  unfold left trimBrace trimSemi
  split <;> rfl

theorem left_rbrace (x : Bool × After) : left .rbrace x = .none := by
  unfold left trimBrace trimSemi
  split <;> rfl

theorem left_els (x : Bool × After) : emptyLine (left .els x) = if x.1 then [] else emptyLine x.2 := by
  unfold left trimBrace trimSemi
  split <;> rfl

theorem Ends.of {g : Spot} {t t' : List Char} {c c' : Nat} {a a' : After} (h : Ends g t c a) (ht : t = t') (hc : c = c') (ha : a = a') :
    Ends g t' c' a' := by subst ht hc ha; exact h

/-- A spot on a line, after something that is not white space. -/
theorem ends_plain {f : Spot} (hp : f.edge = .plain) (hn : f.nl = 0) (hs : f.txt.dropWhile blank = f.txt) : Ends f f.txt f.col .none :=
  ⟨rfl, hs, fun _ => hp, fun _ => ⟨by simp [hp], rfl, hn⟩, fun h => by simp at h⟩

theorem ends_put {f : Spot} (hp : f.edge = .plain) (s : List Char) {c : Char} (hc : blank c = false) :
    Ends (f.put (s ++ [c])) ((s ++ [c]).reverse ++ f.txt) (strwidth (s ++ [c]) f.col) .none := by
  refine ends_plain (f := f.put (s ++ [c])) hp (by simp [Spot.put]) ?_
  have : (f.put (s ++ [c])).txt = c :: (s.reverse ++ f.txt) := by
    show (s ++ [c]).reverse ++ f.txt = _
    simp
  rw [this]
  exact solid_cons hc _

end

end Knfmt.Layout
