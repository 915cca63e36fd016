import Verif.Expr.Doc
import Verif.Doc.Straight
import Verif.Util.Props
/-!
# Expressions on one line (C90)

`say` is the text of an expression written on one line. `run_edoc` proves that this is what its document prints, as
long as it fits.
-/
namespace Knfmt.Doc

/-- A text is printed on the same line. -/
def Spot.put (s : List Char) (f : Spot) : Spot where
  txt := s.reverse ++ f.txt
  col := Knfmt.Util.strwidth s f.col
  nl := if s = [] then f.nl else 0
  edge := f.edge

end Knfmt.Doc

namespace Knfmt.Layout
open Knfmt.Lexer (TT)
open Knfmt.Expr (Tok Ex)
open Knfmt.Doc (Doc Spot run hasBit)
open Knfmt.ExprDoc (Conf)
open Knfmt.Util Knfmt.Spec

/-! ## The text -/

/-- A token that may be missing. -/
def opt : Option Tok → List Char
  | some t => t.str
  | none => []

/-- A space or nothing. -/
def gap (b : Bool) : List Char := if b then [' '] else []

/-- An expression on one line. `typ` is the text of the name of a type, `sp` says whether there is space around an
operator, `cc` that a comma is followed by a comma. -/
def say (typ : List Tok → List Char) (sp cc : Tok → Bool) : Ex → List Char
  | .null => []
  | .lit t => t.str
  | .un op e => op.str ++ say typ sp cc e
  | .pre op e => op.str ++ say typ sp cc e
  | .post e op => say typ sp cc e ++ op.str
  | .bin l op r =>
    if op.ty = .comma then say typ sp cc l ++ (op.str ++ (gap (!cc op) ++ say typ sp cc r))
    else say typ sp cc l ++ (gap (sp op) ++ (op.str ++ (gap (sp op) ++ say typ sp cc r)))
  | .tern c q m co t =>
    say typ sp cc c ++ ([' '] ++ (q.str ++ ((if m = .null then [] else [' '] ++ (say typ sp cc m ++ [' '])) ++
      (opt co ++ ([' '] ++ say typ sp cc t)))))
  | .parens l e r => l.str ++ (say typ sp cc e ++ opt r)
  | .call f l a r => say typ sp cc f ++ (l.str ++ (say typ sp cc a ++ opt r))
  | .squares f l i r => say typ sp cc f ++ (l.str ++ (say typ sp cc i ++ opt r))
  | .field l op r => say typ sp cc l ++ (op.str ++ say typ sp cc r)
  | .cast l ts r e => l.str ++ (typ ts ++ (opt r ++ say typ sp cc e))
  | .sizeofE tk e => tk.str ++ ([' '] ++ say typ sp cc e)
  | .sizeofP tk l e r => tk.str ++ (l.str ++ (say typ sp cc e ++ opt r))
  | .concat e t => say typ sp cc e ++ ([' '] ++ t.str)
  | .recov ts => typ ts

/-- A text that can be a token: it is not empty and has no new line. -/
def Word (s : List Char) : Prop := s ≠ [] ∧ '\n' ∉ s

/-- All tokens are words, and types are. -/
def Words (typ : List Tok → List Char) : Ex → Prop
  | .null => True
  | .lit t => Word t.str
  | .un op e => Word op.str ∧ Words typ e
  | .pre op e => Word op.str ∧ Words typ e
  | .post e op => Word op.str ∧ Words typ e
  | .bin l op r => Words typ l ∧ Word op.str ∧ Words typ r
  | .tern c q m co t => Words typ c ∧ Word q.str ∧ Words typ m ∧ (∀ t ∈ co, Word t.str) ∧ Words typ t
  | .parens l e r => Word l.str ∧ Words typ e ∧ (∀ t ∈ r, Word t.str)
  | .call f l a r => Words typ f ∧ Word l.str ∧ Words typ a ∧ (∀ t ∈ r, Word t.str)
  | .squares f l a r => Words typ f ∧ Word l.str ∧ Words typ a ∧ (∀ t ∈ r, Word t.str)
  | .field l op r => Words typ l ∧ Word op.str ∧ Words typ r
  | .cast l ts r e => Word l.str ∧ Word (typ ts) ∧ ts.head?.all (·.ty ≠ .lbrace) = true ∧ (∀ t ∈ r, Word t.str) ∧ Words typ e
  | .sizeofE tk e => Word tk.str ∧ Words typ e
  | .sizeofP tk l e r => Word tk.str ∧ Word l.str ∧ Words typ e ∧ (∀ t ∈ r, Word t.str)
  | .concat e t => Words typ e ∧ Word t.str
  | .recov ts => Word (typ ts) ∧ ts.head?.all (·.ty ≠ .lbrace) = true

/-! ## Columns -/

theorem strwidth_add (a b : List Char) (c : Nat) : strwidth (a ++ b) c = strwidth b (strwidth a c) := by
  rw [(strwidth_spec _ _).2, (strwidth_spec _ _).2, (strwidth_spec _ _).2, column_append]

theorem strwidth_mono {s : List Char} (h : '\n' ∉ s) (c : Nat) : c ≤ strwidth s c := by
  rw [(strwidth_spec _ _).2]
  induction s generalizing c with
  | nil => exact Nat.le_refl _
  | cons x s ih =>
    rw [column_cons]
    simp only [List.mem_cons, not_or] at h
    refine Nat.le_trans ?_ (ih h.2 _)
    unfold advance
    split
    · next hx => exact absurd hx.symm h.1
    · split
      · have := (nextTabStop_least c).1; omega
      · omega

theorem put_nil (f : Spot) : f.put [] = f := rfl

theorem put_put (a b : List Char) (f : Spot) : (f.put a).put b = f.put (a ++ b) := by
  unfold Spot.put
  simp only [List.reverse_append, List.append_assoc, strwidth_add, Spot.mk.injEq, and_true, true_and]
  by_cases ha : a = [] <;> by_cases hb : b = [] <;> simp [ha, hb]

/-- The text can be printed on the line. -/
structure Room (lim : Nat) (s : List Char) (f : Spot) : Prop where
  edge : f.edge = .plain
  one : '\n' ∉ s
  fits : strwidth s f.col ≤ lim

theorem Room.left {lim : Nat} {a b : List Char} {f : Spot} (h : Room lim (a ++ b) f) : Room lim a f := by
  have h1 := h.one
  simp only [List.mem_append, not_or] at h1
  refine ⟨h.edge, h1.1, ?_⟩
  have h2 := h.fits
  rw [strwidth_add] at h2
  exact Nat.le_trans (strwidth_mono h1.2 _) h2

theorem Room.right {lim : Nat} {a b : List Char} {f : Spot} (h : Room lim (a ++ b) f) : Room lim b (f.put a) := by
  have h1 := h.one
  simp only [List.mem_append, not_or] at h1
  exact ⟨h.edge, h1.2, by have := h.fits; rw [strwidth_add] at this; exact this⟩

theorem Room.col {lim : Nat} {s : List Char} {f : Spot} (h : Room lim s f) : f.col ≤ lim :=
  Nat.le_trans (strwidth_mono h.one _) h.fits

/-! ## Pieces of documents -/

section
variable {lim : Nat} {tabs o : Bool} {mx cur : Nat}

theorem run_nil (brk : Bool) (f : Spot) : run lim tabs brk o mx cur .nil f = some f := by
  cases brk <;> rw [run]

theorem run_seq (brk : Bool) (a b : Doc) (f : Spot) :
    run lim tabs brk o mx cur (.seq a b) f = (run lim tabs brk o mx cur a f).bind (run lim tabs brk o mx cur b) := by
  rw [run]

theorem run_group {s : List Char} {f : Spot} (h : Room lim s f) (brk : Bool) (d : Doc) :
    run lim tabs brk o mx cur (.group d) f = run lim tabs false o mx cur d f := by
  rw [run, if_pos ⟨h.edge, h.col⟩]

theorem run_softline (n : Int) (f : Spot) : run lim tabs false o mx cur (.softline n) f = some f := by
  rw [run]

theorem run_indent {v : Int} (hv : (hasBit v 29 && !hasBit v 30) = false) (d : Doc) (f : Spot) :
    run lim tabs false o mx cur (.indent v d) f = run lim tabs false o mx cur d f := by
  rw [run, hv]
  simp only [Bool.false_eq_true, if_false]

theorem run_lit {s : List Char} {f : Spot} (h : Room lim s f) (hs : s ≠ []) (brk : Bool) (t : Option Knfmt.Doc.Tok) :
    run lim tabs brk o mx cur (.literal s t) f = some (f.put s) := by
  have : (⟨s.reverse ++ f.txt, strwidth s f.col, 0, .plain⟩ : Spot) = f.put s := by
    unfold Spot.put
    rw [if_neg hs, h.edge]
  cases brk <;> rw [run, if_pos ⟨h.edge, h.one, .inr h.fits⟩, this]

theorem run_line {f : Spot} (h : Room lim [' '] f) : run lim tabs false o mx cur .line f = some (f.put [' ']) := by
  have e : strwidth [' '] f.col = f.col + 1 := rfl
  have : (⟨' ' :: f.txt, f.col + 1, 0, .plain⟩ : Spot) = f.put [' '] := by
    unfold Spot.put
    rw [if_neg (by simp), h.edge, e]
    rfl
  rw [run, if_pos ⟨h.edge, by have := h.fits; omega⟩, this]

/-- A document that is a text. -/
def Says (d : Doc) (s : List Char) : Prop :=
  ∀ (lim : Nat) (tabs o : Bool) (mx cur : Nat) (f : Spot), Room lim s f → run lim tabs false o mx cur d f = some (f.put s)

/-- The settings for which the layout is as described: nothing is aligned in columns or simplified, and the expression has no
new line in it. -/
structure Mild (C : Conf) (typ : List Tok → List Char) : Prop where
  columns : C.columns = false
  simpleParens : C.simpleParens = false
  simpleSizeof : C.simpleSizeof = false
  hardline : C.hardline = false
  softline : C.softline = false
  suffix : ∀ t, C.suffix t = .nil
  recDoc : ∀ ts, Says (C.recDoc ts) (typ ts)
  indent : C.indent < 2 ^ 27
  align : C.align < 2 ^ 27

/-- The space around an operator. -/
def spacing (C : Conf) (op : Tok) : Bool := Knfmt.ExprDoc.assignFlag op.ty || Knfmt.ExprDoc.hasSpaces C op

variable {C : Conf} {typ : List Tok → List Char}

theorem run_tok (hC : Mild C typ) {t : Tok} (ht : Word t.str) {f : Spot} (h : Room lim t.str f) (brk : Bool) (k : Doc) :
    run lim tabs brk o mx cur (.seq (Knfmt.ExprDoc.tok C t) k) f = run lim tabs brk o mx cur k (f.put t.str) := by
  rw [run_seq, Knfmt.ExprDoc.tok, run_seq, run_lit h ht.1, hC.suffix]
  simp only [Option.bind_some, run_nil]

theorem run_tok1 (hC : Mild C typ) {t : Tok} (ht : Word t.str) {f : Spot} (h : Room lim t.str f) (brk : Bool) :
    run lim tabs brk o mx cur (Knfmt.ExprDoc.tok C t) f = some (f.put t.str) := by
  rw [Knfmt.ExprDoc.tok, run_seq, run_lit h ht.1, hC.suffix]
  simp only [Option.bind_some, run_nil]

theorem run_opt (hC : Mild C typ) {t : Option Tok} (ht : ∀ x ∈ t, Word x.str) {f : Spot} (h : Room lim (opt t) f) (brk : Bool) :
    run lim tabs brk o mx cur (Knfmt.ExprDoc.optTok C t) f = some (f.put (opt t)) := by
  cases t with
  | none => exact run_nil brk f
  | some t => exact run_tok1 hC (ht t rfl) h brk

theorem run_gap {f : Spot} {b : Bool} (h : Room lim (gap b) f) :
    run lim tabs false o mx cur (if b then .line else .nil) f = some (f.put (gap b)) := by
  cases b with
  | true => exact run_line h
  | false => exact run_nil _ f

theorem run_gapl {f : Spot} {b : Bool} (h : Room lim (gap b) f) :
    run lim tabs false o mx cur (if b then Knfmt.ExprDoc.lit [' '] else .nil) f = some (f.put (gap b)) := by
  cases b with
  | true => exact run_lit h (by simp [gap]) _ _
  | false => exact run_nil _ f

theorem run_soft {s : List Char} {f : Spot} (h : Room lim s f) (w : Int) (g : Doc → Doc) (k : Doc) :
    run lim tabs false o mx cur (Knfmt.ExprDoc.soft C w g k) f = run lim tabs false o mx cur (g k) f := by
  unfold Knfmt.ExprDoc.soft
  split
  · rfl
  · split
    · rw [run_group h]
    · rw [run_group h, run_seq, run_softline, Option.bind_some]

theorem run_softIf {s : List Char} {f : Spot} (h : Room lim s f) (b : Bool) (w : Int) (g : Doc → Doc) (k : Doc) :
    run lim tabs false o mx cur (Knfmt.ExprDoc.softIf b C w g k) f = run lim tabs false o mx cur (g k) f := by
  unfold Knfmt.ExprDoc.softIf
  split
  · exact run_soft h ..
  · rfl

theorem run_recover (hC : Mild C typ) {ts : List Tok} (ht : ts.head?.all (·.ty ≠ .lbrace) = true) {f : Spot}
    (h : Room lim (typ ts) f) (k : Doc) :
    run lim tabs false o mx cur (Knfmt.ExprDoc.recover C ts k) f = run lim tabs false o mx cur k (f.put (typ ts)) := by
  have e : Knfmt.ExprDoc.recover C ts k = .seq (C.recDoc ts) k := by
    unfold Knfmt.ExprDoc.recover
    cases ts with
    | nil => rfl
    | cons t ts =>
      simp only [List.head?_cons, Option.all_some, decide_eq_true_eq] at ht
      simp only [if_neg ht]
  rw [e, run_seq, hC.recDoc ts lim tabs o mx cur f h, Option.bind_some]

theorem run_indentParens (hC : Mild C typ) (c : Knfmt.ExprDoc.Ctx) (d : Doc) (f : Spot) :
    run lim tabs false o mx cur (Knfmt.ExprDoc.indentParens C c d) f = run lim tabs false o mx cur d f := by
  unfold Knfmt.ExprDoc.indentParens
  split
  · exact run_indent (by decide) d f
  · split
    · rfl
    · exact run_indent (by decide) d f

theorem run_alignD (b : Bool) (id : Nat) {n : Nat} (hn : n < 2 ^ 27) (d : Doc) (f : Spot) :
    run lim tabs false o mx cur (Knfmt.ExprDoc.alignD b id n d) f = run lim tabs false o mx cur d f := by
  unfold Knfmt.ExprDoc.alignD
  rw [run, if_pos]
  cases b
  · exact ⟨rfl, by simp; omega⟩
  · exact ⟨rfl, by simp; omega⟩

theorem run_alignIf (b : Bool) (id : Nat) (d : Doc) (f : Spot) :
    run lim tabs false o mx cur (Knfmt.ExprDoc.alignIf b id d) f = run lim tabs false o mx cur d f := by
  unfold Knfmt.ExprDoc.alignIf
  split
  · exact run_alignD _ _ (by omega) d f
  · rfl

theorem run_alignAssign (op : Tok) (d : Doc) (f : Spot) :
    run lim tabs false o mx cur (Knfmt.ExprDoc.alignAssign C op d) f = run lim tabs false o mx cur d f := by
  unfold Knfmt.ExprDoc.alignAssign
  split
  · exact run_alignD _ _ (by omega) d f
  · rfl

theorem run_alignArgs (hC : Mild C typ) (c : Knfmt.ExprDoc.Ctx) (l : Tok) (d : Doc) (f : Spot) :
    run lim tabs false o mx cur (Knfmt.ExprDoc.alignArgs C c l d) f = run lim tabs false o mx cur d f := by
  unfold Knfmt.ExprDoc.alignArgs
  split
  · refine run_alignD _ _ ?_ d f
    have := hC.indent
    split <;> omega
  · rfl

theorem small_bit {v : Int} (hv : v < 2 ^ 27) : (hasBit v 29 && !hasBit v 30) = false := by
  unfold hasBit
  by_cases h : v > 0
  · rw [Nat.testBit_lt_two_pow (i := 29) (by omega)]
    simp
  · simp [h]

/-- What an expression prints is its text. -/
theorem run_edoc (hC : Mild C typ) (e : Ex) (hw : Words typ e) (c : Knfmt.ExprDoc.Ctx) (k : Doc) {f : Spot}
    (h : Room lim (say typ (spacing C) C.nextComma e) f) :
    run lim tabs false o mx cur (Knfmt.ExprDoc.edoc C e c k) f =
      run lim tabs false o mx cur (Knfmt.ExprDoc.kk c k) (f.put (say typ (spacing C) C.nextComma e)) := by
  have hsub : ∀ (c : Knfmt.ExprDoc.Ctx) (k : Doc), Knfmt.ExprDoc.kk c.sub k = k := fun _ _ => rfl
  have hpl : ∀ (a b d : Nat) (e : Bool) (k : Doc), Knfmt.ExprDoc.kk ⟨a, b, d, e, false⟩ k = k := fun _ _ _ _ _ => rfl
  induction e generalizing c k f with
  | null => rfl
  | lit t => rw [Knfmt.ExprDoc.edoc, run_group h, run_tok hC hw h]; rfl
  | un op e ih =>
    rw [say] at h ⊢
    rw [Knfmt.ExprDoc.edoc, run_group h, run_tok hC hw.1 h.left, ih hw.2 _ _ h.right, hsub, put_put]
  | pre op e ih =>
    rw [say] at h ⊢
    rw [Knfmt.ExprDoc.edoc, run_group h, run_tok hC hw.1 h.left, run_seq, ih hw.2 _ _ h.right, hsub, run_nil,
      Option.bind_some, put_put]
  | post e op ih =>
    rw [say] at h ⊢
    rw [Knfmt.ExprDoc.edoc, run_group h, run_seq, ih hw.2 _ _ h.left, hsub, run_nil, Option.bind_some,
      run_tok hC hw.1 h.right, put_put]
  | bin l op r ihl ihr =>
    rw [say] at h ⊢
    rw [Knfmt.ExprDoc.edoc]
    -- the second operand
    have null : ∀ x : Ex, Knfmt.ExprDoc.isNull x = true → x = .null := by
      intro x hx; cases x <;> simp_all [Knfmt.ExprDoc.isNull]
    have second : ∀ (g : Spot) (c' : Knfmt.ExprDoc.Ctx) (w : Int), Room lim (say typ (spacing C) C.nextComma r) g → c'.chain = false →
        run lim tabs false o mx cur (if Knfmt.ExprDoc.isNull r then Knfmt.ExprDoc.kk c k
          else Knfmt.ExprDoc.soft C w (Knfmt.ExprDoc.edoc C r c') (Knfmt.ExprDoc.kk c k)) g =
        run lim tabs false o mx cur (Knfmt.ExprDoc.kk c k) (g.put (say typ (spacing C) C.nextComma r)) := by
      intro g c' w hg hc'
      have e : Knfmt.ExprDoc.kk c' (Knfmt.ExprDoc.kk c k) = Knfmt.ExprDoc.kk c k := by
        rw [Knfmt.ExprDoc.kk, hc']; rfl
      split
      · next hn => rw [null r hn]; rfl
      · rw [run_soft hg, ihr hw.2.2 _ _ hg, e]
    by_cases hcm : op.ty = .comma
    · rw [if_pos hcm] at h ⊢
      rw [if_pos hcm, run_group h, run_seq, ihl hw.1 _ _ h.left, hsub, run_tok hC hw.2.1 h.right.left]
      have e1 : (if C.columns = true then Doc.align (C.ruler op) else if C.nextComma op = true then .nil else .line) =
          (if (!C.nextComma op) = true then .line else .nil) := by
        rw [hC.columns]; cases C.nextComma op <;> rfl
      rw [e1, run_gap h.right.right.left, Option.bind_some, second _ _ _ h.right.right.right rfl]
      simp only [put_put, List.append_assoc]
    · rw [if_neg hcm] at h ⊢
      rw [if_neg hcm]
      by_cases ha : Knfmt.ExprDoc.assignFlag op.ty = true
      · have hs : spacing C op = true := by unfold spacing; simp [ha]
        have hg : gap true = [' '] := rfl
        rw [hs, hg] at h ⊢
        rw [if_pos ha, run_group h]
        simp only
        rw [run_seq, ihl hw.1 _ _ h.left]
        have e0 : ∀ k, Knfmt.ExprDoc.kk { c.sub with nassign := c.nassign + 1 } k = k := fun _ => rfl
        rw [e0, run_seq, Knfmt.ExprDoc.lit, run_lit h.right.left (by simp) _ none, Option.bind_some, run_tok hC hw.2.1 h.right.right.left,
          run_lit h.right.right.right.left (by simp) _ none, Option.bind_some]
        have h4 := h.right.right.right.right
        have e2 : run lim tabs false o mx cur (if Knfmt.ExprDoc.isNull r then Knfmt.ExprDoc.kk c k
            else Knfmt.ExprDoc.alignAssign C op (Knfmt.ExprDoc.softIf (decide (({ c.sub with nassign := c.nassign + 1 } : Knfmt.ExprDoc.Ctx).nassign > 1)) C 2
              (Knfmt.ExprDoc.edoc C r { c.sub with nassign := c.nassign + 1 }) (Knfmt.ExprDoc.kk c k)))
            ((((f.put (say typ (spacing C) C.nextComma l)).put [' ']).put op.str).put [' ']) =
          run lim tabs false o mx cur (Knfmt.ExprDoc.kk c k)
            (((((f.put (say typ (spacing C) C.nextComma l)).put [' ']).put op.str).put [' ']).put
              (say typ (spacing C) C.nextComma r)) := by
          split
          · next hn => rw [null r hn]; rfl
          · rw [run_alignAssign, run_softIf h4, ihr hw.2.2 _ _ h4, e0]
        refine e2.trans ?_
        simp only [put_put, List.append_assoc]
      · have hs : spacing C op = Knfmt.ExprDoc.hasSpaces C op := by unfold spacing; simp [ha]
        rw [hs] at h ⊢
        rw [if_neg ha, run_group h]
        split
        · rw [run_alignIf, run_seq, ihl hw.1 _ _ h.left, hsub, run_gap h.right.left, Option.bind_some, run_group h.right.right, run_seq,
            run_softline, Option.bind_some, run_tok hC hw.2.1 h.right.right.left, run_seq, run_gapl h.right.right.right.left,
            Option.bind_some, ihr hw.2.2 _ _ h.right.right.right.right, hsub]
          simp only [put_put, List.append_assoc]
        · rw [run_alignIf, run_seq, ihl hw.1 _ _ h.left, hsub, run_seq, run_gapl h.right.left, Option.bind_some,
            run_tok1 hC hw.2.1 h.right.right.left, Option.bind_some, run_group h.right.right.right, run_seq,
            run_gap h.right.right.right.left, Option.bind_some, second _ _ _ h.right.right.right.right rfl]
          simp only [put_put, List.append_assoc]
  | tern cd q m co t ihc ihm iht =>
    rw [say] at h ⊢
    rw [Knfmt.ExprDoc.edoc, run_group h]
    have null : ∀ x : Ex, Knfmt.ExprDoc.isNull x = true → x = .null := by
      intro x hx; cases x <;> simp_all [Knfmt.ExprDoc.isNull]
    have hl : Knfmt.ExprDoc.lit [' '] = .literal [' '] none := rfl
    by_cases hm : m = .null
    · subst hm
      simp only [if_true, List.nil_append] at h ⊢
      have hn : Knfmt.ExprDoc.isNull .null = true := rfl
      simp only [hn, if_true]
      split
      · rw [run_seq, ihc hw.1 _ _ h.left, hsub, run_line h.right.left, Option.bind_some, run_alignIf]
        rw [run_seq, run_group h.right.right, run_seq, run_softline, Option.bind_some, run_tok hC hw.2.1 h.right.right.left, run_nil,
          Option.bind_some, run_group h.right.right.right, run_seq, run_softline, Option.bind_some, run_seq,
          run_opt hC hw.2.2.2.1 h.right.right.right.left, Option.bind_some, run_seq, hl,
          run_lit h.right.right.right.right.left (by simp), Option.bind_some, iht hw.2.2.2.2 _ _ h.right.right.right.right.right, hsub]
        simp only [put_put, List.append_assoc]
      · rw [run_seq, ihc hw.1 _ _ h.left, hsub, run_seq, run_line h.right.left, Option.bind_some, run_tok hC hw.2.1 h.right.right.left,
          run_nil, Option.bind_some, run_seq, run_seq, run_opt hC hw.2.2.2.1 h.right.right.right.left, Option.bind_some,
          run_line h.right.right.right.right.left, Option.bind_some, run_soft h.right.right.right.right.right,
          iht hw.2.2.2.2 _ _ h.right.right.right.right.right, hsub]
        simp only [put_put, List.append_assoc]
    · have hn : Knfmt.ExprDoc.isNull m = false := by
        cases hx : Knfmt.ExprDoc.isNull m with
        | false => rfl
        | true => exact absurd (null m hx) hm
      simp only [if_neg hm, List.append_assoc] at h ⊢
      simp only [hn, Bool.false_eq_true, if_false]
      have h3 := h.right.right.right
      split
      · rw [run_seq, ihc hw.1 _ _ h.left, hsub, run_line h.right.left, Option.bind_some, run_alignIf]
        rw [run_seq, run_group h.right.right, run_seq, run_softline, Option.bind_some, run_tok hC hw.2.1 h.right.right.left, run_seq, hl,
          run_lit h3.left (by simp), Option.bind_some, run_soft h3.right, ihm hw.2.2.1 _ _ h3.right.left, hsub,
          run_line h3.right.right.left, Option.bind_some, run_group h3.right.right.right, run_seq, run_softline, Option.bind_some, run_seq,
          run_opt hC hw.2.2.2.1 h3.right.right.right.left, Option.bind_some, run_seq,
          run_lit h3.right.right.right.right.left (by simp), Option.bind_some, iht hw.2.2.2.2 _ _ h3.right.right.right.right.right, hsub]
        simp only [put_put, List.append_assoc]
      · rw [run_seq, ihc hw.1 _ _ h.left, hsub, run_seq, run_line h.right.left, Option.bind_some, run_tok hC hw.2.1 h.right.right.left,
          run_line h3.left, Option.bind_some, run_seq, run_soft h3.right, ihm hw.2.2.1 _ _ h3.right.left, hsub, run_seq,
          run_line h3.right.right.left, Option.bind_some, run_seq, run_opt hC hw.2.2.2.1 h3.right.right.right.left, Option.bind_some,
          run_line h3.right.right.right.right.left, Option.bind_some, run_soft h3.right.right.right.right.right,
          iht hw.2.2.2.2 _ _ h3.right.right.right.right.right, hsub]
        simp only [put_put, List.append_assoc]
  | parens l e r ih =>
    rw [say] at h ⊢
    rw [Knfmt.ExprDoc.edoc, run_group h, hC.simpleParens]
    simp only [Bool.and_false, Bool.false_eq_true, if_false]
    rw [run_tok hC hw.1 h.left, run_indentParens hC, ih hw.2.1 _ _ h.right.left, hsub, run_seq, run_opt hC hw.2.2 h.right.right,
      Option.bind_some]
    simp only [put_put, List.append_assoc]
  | call g l a r ihg iha =>
    rw [say] at h ⊢
    rw [Knfmt.ExprDoc.edoc]
    simp only
    rw [run_group h, run_softIf h, ihg hw.1 _ _ h.left]
    have e0 : ∀ k, Knfmt.ExprDoc.kk { c.sub with ncalls := c.ncalls + 1, noparens := c.noparens + 1 } k = k := fun _ => rfl
    have e1 : ∀ k, Knfmt.ExprDoc.kk { c.sub with ncalls := c.ncalls + 1 } k = k := fun _ => rfl
    rw [e0, run_tok hC hw.2.1 h.right.left]
    have null : ∀ x : Ex, Knfmt.ExprDoc.isNull x = true → x = .null := by
      intro x hx; cases x <;> simp_all [Knfmt.ExprDoc.isNull]
    split
    · next hn =>
      rw [null a hn] at h ⊢
      have h2 := h.right.right
      simp only [say, List.nil_append] at h2 ⊢
      have e2 : run lim tabs false o mx cur (Knfmt.ExprDoc.dedentTok C r) ((f.put (say typ (spacing C) C.nextComma g)).put l.str) =
          some (((f.put (say typ (spacing C) C.nextComma g)).put l.str).put (opt r)) := by
        cases r with
        | none => exact run_nil _ _
        | some r =>
          rw [Knfmt.ExprDoc.dedentTok, run_indent (small_bit (by have := hC.indent; omega))]
          exact run_tok1 hC (hw.2.2.2 r rfl) h2 _
      rw [run_seq, e2, Option.bind_some]
      simp only [put_put, List.append_assoc]
    · rw [run_alignArgs hC]
      rw [run_soft h.right.right, iha hw.2.2.1 _ _ h.right.right.left, e1, run_seq, run_opt hC hw.2.2.2 h.right.right.right, Option.bind_some]
      simp only [put_put, List.append_assoc]
  | squares g l i r ihg ihi =>
    rw [say] at h ⊢
    rw [Knfmt.ExprDoc.edoc, run_group h, ihg hw.1 _ _ h.left, hsub, run_tok hC hw.2.1 h.right.left, ihi hw.2.2.1 _ _ h.right.right.left,
      hsub, run_seq, run_opt hC hw.2.2.2 h.right.right.right, Option.bind_some]
    simp only [put_put, List.append_assoc]
  | field l op r ihl ihr =>
    rw [say] at h ⊢
    rw [Knfmt.ExprDoc.edoc, run_group h, ihl hw.1 _ _ h.left, hsub, run_tok hC hw.2.1 h.right.left, ihr hw.2.2 _ _ h.right.right, hsub]
    simp only [put_put, List.append_assoc]
  | cast l ts r e ih =>
    rw [say] at h ⊢
    rw [Knfmt.ExprDoc.edoc, run_group h, run_tok hC hw.1 h.left, run_seq, run_group h.right, run_recover hC hw.2.2.1 h.right.left, run_nil,
      Option.bind_some, run_seq, run_opt hC hw.2.2.2.1 h.right.right.left, Option.bind_some, run_seq,
      ih hw.2.2.2.2 _ _ h.right.right.right, hsub, run_nil, Option.bind_some]
    simp only [put_put, List.append_assoc]
  | sizeofE tk e ih =>
    rw [say] at h ⊢
    rw [Knfmt.ExprDoc.edoc, hC.simpleSizeof]
    simp only [Bool.false_eq_true, if_false]
    rw [run_group h, run_tok hC hw.1 h.left, run_seq, Knfmt.ExprDoc.lit, run_lit h.right.left (by simp), Option.bind_some,
      ih hw.2 _ _ h.right.right, hsub, run_seq, run_nil, Option.bind_some]
    simp only [put_put, List.append_assoc]
  | sizeofP tk l e r ih =>
    rw [say] at h ⊢
    rw [Knfmt.ExprDoc.edoc, run_group h, run_tok hC hw.1 h.left, run_tok hC hw.2.1 h.right.left, ih hw.2.2.1 _ _ h.right.right.left, hsub,
      run_seq, run_opt hC hw.2.2.2 h.right.right.right, Option.bind_some]
    simp only [put_put, List.append_assoc]
  | concat e t ih =>
    rw [say] at h ⊢
    rw [Knfmt.ExprDoc.edoc]
    split
    · next hc =>
      have e1 : ∀ k, Knfmt.ExprDoc.kk { c with root := false } k = .seq .line k := by
        intro k; unfold Knfmt.ExprDoc.kk; simp only [hc, if_true]
      have e2 : Knfmt.ExprDoc.kk c k = .seq .line k := by
        unfold Knfmt.ExprDoc.kk; simp only [hc, if_true]
      rw [ih hw.1 _ _ h.left, e1, e2, run_seq, run_line h.right.left, Option.bind_some, run_seq, run_group h.right.right,
        run_tok hC hw.2 h.right.right, run_seq]
      simp only [put_put, List.append_assoc]
    · next hc =>
      have e2 : Knfmt.ExprDoc.kk c k = k := by
        unfold Knfmt.ExprDoc.kk; rw [if_neg hc]
      have e1 : ∀ k, Knfmt.ExprDoc.kk { c.sub with chain := true } k = .seq .line k := fun _ => rfl
      rw [run_group h, run_alignIf]
      rw [ih hw.1 _ _ h.left, e1, e2, run_seq, run_line h.right.left, Option.bind_some, run_seq, run_group h.right.right,
        run_tok1 hC hw.2 h.right.right, Option.bind_some]
      simp only [put_put, List.append_assoc]
  | recov ts =>
    rw [say] at h ⊢
    rw [Knfmt.ExprDoc.edoc, run_group h, run_recover hC hw.2 h]

end

end Knfmt.Layout
