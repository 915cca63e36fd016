import Verif.Layout.UnitSpec
import Verif.Layout.DeclProps
/-! # Files of declarations and functions (C93) -/
namespace Knfmt.Layout
open Knfmt.Expr (Tok Ex)
open Knfmt.Doc (Doc Spot run Align)
open Knfmt.Util Knfmt.Spec
open Knfmt.Layout.Spec

/-- Declarations as in C92 and functions as in C91. -/
def Unit'.Ok (lim : Nat) (typ : List Tok → List Char) : Unit' → Prop
  | .block b => b ≠ [] ∧ (∀ d ∈ b, d.Ok typ) ∧ ∀ d ∈ b.dropLast, d.aft ≠ .blank
  | .func f => f.Ok typ ∧ Within lim 0 (typeText f.typ ++ [' '])

/-- The piece with the white space of the ruler. -/
def piece : Unit' → Piece
  | .block b => .block (spaced b)
  | .func f => .func f

theorem lastAft_getLast : ∀ {b : List Decl}, b ≠ [] → ∃ d, b.getLast? = some d ∧ lastAft b = d.aft
  | [], h => absurd rfl h
  | [d], _ => ⟨d, rfl, rfl⟩
  | _ :: d2 :: ds, _ => by
    obtain ⟨d, h1, h2⟩ := lastAft_getLast (b := d2 :: ds) (by simp)
    exact ⟨d, by simpa using h1, h2⟩

theorem gap_block {b : List Decl} {p : List (Decl × List Char)} (hb : b ≠ []) (hp : p.map Prod.fst = b) :
    (Piece.block p).gap = true ↔ lastAft b = .blank := by
  obtain ⟨d, h1, h2⟩ := lastAft_getLast hb
  rw [h2]
  subst hp
  rw [List.getLast?_map] at h1
  obtain ⟨q, h3, rfl⟩ := Option.map_eq_some_iff.mp h1
  simp [Piece.gap, h3]

theorem breaks_col (x : Bool) (c : Nat) : strwidth (if x then ['\n', '\n'] else ['\n']) c = 0 := by
  rw [(strwidth_spec _ _).2]
  cases x <;> rfl

section
variable {lim : Nat} {tabs : Bool} {S : FileStyle} {typ : List Tok → List Char}

/-- One piece. -/
theorem run_unit (hS : Fair S.toStyle typ) (hm : lim < 2 ^ 27) {u : Unit'} (hu : u.Ok lim typ) (last : Bool) :
    ∃ doc, unitDoc S last u = some doc ∧ (piece u).unit = u ∧ (piece u).Lined ∧
      (Within lim 0 ((piece u).text (hand S.toStyle tabs typ) S.breakType S.wrap) → ∀ {f : Spot}, f.edge = .plain → f.col = 0 →
        ∃ g n, run lim tabs true false 2 0 doc f = some g ∧ g.edge = .plain ∧ g.col = 0 ∧
          g.txt = List.replicate n '\n' ++ (((piece u).text (hand S.toStyle tabs typ) S.breakType S.wrap).reverse ++ f.txt) ∧
          (if last then n = 1 ∨ n = 2 else n = if (piece u).gap then 2 else 1)) := by
  cases u with
  | func f =>
    refine ⟨defDoc S f last, rfl, rfl, trivial, fun hw sp hp hc => ?_⟩
    exact run_def hS hu.1 hp hc hw hu.2 last
  | block b =>
    obtain ⟨hb, ho, hcl⟩ := hu
    obtain ⟨out, is, gv⟩ := block_exec ho
    have e1 : blockDoc S.toStyle b = some (.seq (declsDoc S.toStyle .other (out.headD []) is b) .hardline) := by
      rw [blockDoc, gv.exec]
      rfl
    have e2 : spaced b = pairs (out.headD []) b := by
      rw [spaced, gv.exec]
    refine ⟨.seq (declsDoc S.toStyle .other (out.headD []) is b) .hardline, e1, ?_, ?_, ?_⟩
    · show Unit'.block ((spaced b).map Prod.fst) = _
      rw [e2, pairs_fst]
    · show Spec.Lined (spaced b)
      rw [e2]
      exact block_lined ho gv
    · intro hw f hp hc
      have e3 : (piece (.block b)).text (hand S.toStyle tabs typ) S.breakType S.wrap = blockText (hand S.toStyle tabs typ) (pairs (out.headD []) b) := by
        rw [← e2]
        rfl
      rw [e3] at hw ⊢
      obtain ⟨g, c, k1, k2⟩ := run_block (lim := lim) (tabs := tabs) (f := f) hS tabs hb ho hcl (small_indents ho gv hm hw) hw hp hc
      obtain ⟨g2, k3, k4, k5, k6⟩ := run_feed2 (lim := lim) (tabs := tabs) k2
      have hg : (piece (.block b)).gap = true ↔ lastAft b = .blank := gap_block hb (by rw [e2, pairs_fst])
      by_cases hx : lastAft b = .blank
      · rw [if_pos hx] at k6
        refine ⟨g2, 2, by rw [run_seq, k1, Option.bind_some, k3], k4, k5, k6, ?_⟩
        rw [if_pos (hg.mpr hx)]
        cases last <;> simp
      · rw [if_neg hx] at k6
        refine ⟨g2, 1, by rw [run_seq, k1, Option.bind_some, k3], k4, k5, k6, ?_⟩
        rw [if_neg (fun h => hx (hg.mp h))]
        cases last <;> simp

/-- The pieces of a file. -/
theorem run_units (hS : Fair S.toStyle typ) (hm : lim < 2 ^ 27) : ∀ {us : List Unit'}, (∀ u ∈ us, u.Ok lim typ) →
    ∃ doc, unitsDoc S us = some doc ∧ (us.map piece).map Piece.unit = us ∧ (∀ p ∈ us.map piece, p.Lined) ∧
      (Within lim 0 (piecesText (hand S.toStyle tabs typ) S.breakType S.wrap (us.map piece)) → ∀ {f : Spot}, f.edge = .plain → f.col = 0 →
        ∃ g n, run lim tabs true false 2 0 doc f = some g ∧ g.edge = .plain ∧ (n = 0 ∨ n = 1 ∧ us ≠ []) ∧
          g.txt = List.replicate n '\n' ++ ((piecesText (hand S.toStyle tabs typ) S.breakType S.wrap (us.map piece)).reverse ++ f.txt))
  | [], _ => ⟨.nil, rfl, rfl, by simp, fun _ f hp _ => ⟨f, 0, run_nil _ _, hp, .inl rfl, rfl⟩⟩
  | [u], h => by
    obtain ⟨d, e1, m1, l1, r1⟩ := run_unit (lim := lim) (tabs := tabs) (S := S) hS hm (h u (List.mem_cons_self ..)) true
    refine ⟨.seq d .nil, by rw [unitsDoc]; show (unitDoc S true u).bind _ = _; rw [e1]; rfl, by simp [m1], by simp [l1], ?_⟩
    intro hw f hp hc
    have et : piecesText (hand S.toStyle tabs typ) S.breakType S.wrap ([u].map piece) =
      (piece u).text (hand S.toStyle tabs typ) S.breakType S.wrap ++ ['\n'] := rfl
    rw [et] at hw ⊢
    obtain ⟨g, n, k1, k2, k3, k4, k5⟩ := r1 (within_append hw).1 hp hc
    rw [if_pos rfl] at k5
    refine ⟨g, n - 1, by rw [run_seq, k1, Option.bind_some, run_nil], k2, ?_, ?_⟩
    · rcases k5 with rfl | rfl
      · exact .inl rfl
      · exact .inr ⟨rfl, by simp⟩
    · rw [k4]
      rcases k5 with rfl | rfl <;> simp [List.replicate]
  | u :: u2 :: us, h => by
    obtain ⟨d, e1, m1, l1, r1⟩ := run_unit (lim := lim) (tabs := tabs) (S := S) hS hm (h u (List.mem_cons_self ..)) false
    obtain ⟨doc, e2, m2, l2, r2⟩ := run_units hS hm (us := u2 :: us) (fun x hx => h x (List.mem_cons_of_mem _ hx))
    refine ⟨.seq d doc, by rw [unitsDoc]; show (unitDoc S false u).bind _ = _; rw [e1, e2]; rfl,
      by rw [List.map_cons, List.map_cons, m1, m2], ?_, ?_⟩
    · intro p hp
      rw [List.map_cons] at hp
      rcases List.mem_cons.mp hp with rfl | hp
      · exact l1
      · exact l2 p hp
    · intro hw f hp hc
      have et : piecesText (hand S.toStyle tabs typ) S.breakType S.wrap ((u :: u2 :: us).map piece) =
        (piece u).text (hand S.toStyle tabs typ) S.breakType S.wrap ++ ((if (piece u).gap then ['\n', '\n'] else ['\n']) ++
          piecesText (hand S.toStyle tabs typ) S.breakType S.wrap ((u2 :: us).map piece)) := rfl
      rw [et] at hw ⊢
      have hw1 := within_append hw
      have hw2 := (within_append hw1.2).2
      rw [breaks_col] at hw2
      obtain ⟨g, n, k1, k2, k3, k4, k5⟩ := r1 hw1.1 hp hc
      rw [if_neg (by simp)] at k5
      obtain ⟨g3, m, k7, k8, k9, k10⟩ := r2 hw2 (f := g) k2 k3
      refine ⟨g3, m, by rw [run_seq, k1, Option.bind_some, k7], k8, ?_, ?_⟩
      · rcases k9 with k9 | ⟨k9, _⟩
        · exact .inl k9
        · exact .inr ⟨k9, by simp⟩
      · rw [k10, k4, k5]
        cases (piece u).gap <;> simp [List.replicate]

end

/-- The text of a piece ends in a right brace or a semicolon. -/
theorem piece_end (H : Hand) (b w : Bool) {p : Piece} (hp : ∀ q, p = .block q → q ≠ []) :
    ∃ t c, p.text H b w = t ++ [c] ∧ c ≠ '\n' := by
  cases p with
  | block q =>
    obtain ⟨t, e⟩ := blocks_end H (ps := [q]) (by simp) (by simpa using hp q rfl)
    have e2 : blocksText H [q] = blockText H q ++ ['\n'] := rfl
    rw [e2] at e
    have e3 : blockText H q ++ ['\n'] = (t ++ [';']) ++ ['\n'] := by simpa using e
    exact ⟨t, ';', List.append_cancel_right e3, by decide⟩
  | func f =>
    obtain ⟨t, e⟩ := file_end H b w (fs := [f]) (by simp)
    have e2 : fileText H b w [f] = defText H b w f ++ ['\n'] := rfl
    rw [e2] at e
    have e3 : defText H b w f ++ ['\n'] = (t ++ ['}']) ++ ['\n'] := by simpa using e
    exact ⟨t, '}', List.append_cancel_right e3, by decide⟩

theorem pieces_end (H : Hand) (b w : Bool) : ∀ {ps : List Piece}, ps ≠ [] → (∀ q, Piece.block q ∈ ps → q ≠ []) →
    ∃ t c, piecesText H b w ps = t ++ [c, '\n'] ∧ c ≠ '\n'
  | [], h, _ => absurd rfl h
  | [p], _, h => by
    obtain ⟨t, c, e, hc⟩ := piece_end H b w (p := p) (fun q hq => h q (by simp [hq]))
    exact ⟨t, c, by simp [piecesText, e], hc⟩
  | p :: p2 :: ps, _, h => by
    obtain ⟨t, c, e, hc⟩ := pieces_end H b w (ps := p2 :: ps) (by simp) (fun q hq => h q (List.mem_cons_of_mem _ hq))
    refine ⟨p.text H b w ++ ((if p.gap then ['\n', '\n'] else ['\n']) ++ t), c, ?_, hc⟩
    show p.text H b w ++ ((if p.gap then ['\n', '\n'] else ['\n']) ++ piecesText H b w (p2 :: ps)) = _
    rw [e]
    simp

/-- C93: in a file of declarations and functions every declaration and function begins on a line of its own, there is
exactly one empty line after every function that is not the last thing in the file, and between declarations and what
comes after them there is one if there are any in the source; the text of functions is as in C91, that of declarations
as in C92. Missing: what is missing in C91 and C92. -/
theorem C93_partial {env : Knfmt.Doc.Env} {S : FileStyle} {typ : List Tok → List Char} (hd : env.diff = none) (hm : env.limit < 2 ^ 27)
    (hS : Fair S.toStyle typ) {us : List Unit'} (hu : ∀ u ∈ us, u.Ok env.limit typ) :
    ∃ doc ps, unitsDoc S us = some doc ∧ ps = us.map piece ∧ ps.map Piece.unit = us ∧ (∀ p ∈ ps, p.Lined) ∧
      (Within env.limit 0 (piecesText (hand S.toStyle env.useTabs typ) S.breakType S.wrap ps) →
        (Knfmt.Doc.docExec env true [] doc).buf.reverse = piecesText (hand S.toStyle env.useTabs typ) S.breakType S.wrap ps ∧
          (Knfmt.Doc.docExec env true [] doc).ub = false) := by
  obtain ⟨doc, e1, e2, e3, hr⟩ := run_units (lim := env.limit) (tabs := env.useTabs) (S := S) hS hm hu
  refine ⟨doc, us.map piece, e1, rfl, e2, e3, fun hw => ?_⟩
  obtain ⟨g, n, h1, h3, h4, h2⟩ := hr hw (f := ⟨[], 0, 0, .plain⟩) rfl rfl
  have h := Knfmt.Doc.run_sound (env := env) (σ := {}) hd h1
    ⟨rfl, rfl, rfl, by decide, fun i h => by simp at h, fun _ => rfl, fun _ => rfl, fun h => by simp at h⟩ rfl
    (fun _ => by simp) (fun _ => ⟨rfl, rfl, rfl, rfl, rfl⟩)
  have hx : Knfmt.Doc.docExec env true [] doc = { Knfmt.Doc.exec env doc {} with
      buf := Knfmt.Doc.trimLines (Knfmt.Doc.exec env doc {}).buf } := by
    unfold Knfmt.Doc.docExec Knfmt.Doc.diffExit
    simp [hd]
  rw [hx]
  refine ⟨?_, h.2.1.ub⟩
  show (Knfmt.Doc.trimLines (Knfmt.Doc.exec env doc {}).buf).reverse = _
  rw [h.1.buf (by simp [h3]), h2]
  by_cases hf : us = []
  · subst hf
    have : n = 0 := by simpa using h4
    subst this
    rfl
  · obtain ⟨t, c, e, hc⟩ := pieces_end (hand S.toStyle env.useTabs typ) S.breakType S.wrap (ps := us.map piece) (by simpa using hf) (by
      intro q hq
      obtain ⟨u, h5, h6⟩ := List.mem_map.mp hq
      cases u with
      | func f => cases h6
      | block b =>
        cases h6
        have h7 := hu _ h5
        obtain ⟨out, is, gv⟩ := block_exec h7.2.1
        intro h8
        rw [spaced, gv.exec] at h8
        have h9 := congrArg (List.map Prod.fst) h8
        dsimp only at h9
        rw [pairs_fst] at h9
        exact h7.1 h9)
    rw [e]
    have e1 : ∀ X : List Char, Knfmt.Doc.trimLines ('\n' :: c :: X) = '\n' :: c :: X := by
      intro X
      rw [Knfmt.Doc.trimLines]
      simp [hc]
    rcases h4 with rfl | ⟨rfl, _⟩
    · simp [e1]
    · simp only [List.replicate, List.reverse_append, List.reverse_cons, List.reverse_nil, List.nil_append, List.cons_append, List.append_nil]
      rw [Knfmt.Doc.trimLines, e1]
      simp

/-! ## An example -/

namespace Example

/-- `int y;` without an empty line after it. -/
def tight : List Decl :=
  [⟨[['i', 'n', 't']], 0, .vars ⟨0, ['y'], [], none⟩ [],
      { str := ['i', 'n', 't'], suffixes := [⟨false, true, [' ']⟩], next := some (4, 5) }, .line⟩]

/-- `int g() { }` -/
def small (a : After) : Func := ⟨⟨[['i', 'n', 't']], 0⟩, ['g'], [], .none, .nil, a⟩

/-- The declarations and functions of the other examples, with a function after declarations without an empty line
and declarations after a function. -/
def units : List Unit' :=
  blocks.map .block ++ ((funcs .line).map .func ++ [.block tight, .func (small .none), .block tight])

theorem units_ok : ∀ u ∈ units, u.Ok 80 typ := by
  have f1 : Firm ['i', 'n', 't'] := ⟨by decide, ['i', 'n'], 't', rfl, by decide⟩
  have ht : (Unit'.block tight).Ok 80 typ := by
    refine ⟨by simp [tight], ?_, by simp [tight]⟩
    intro d hd
    simp only [tight, List.mem_cons, List.not_mem_nil, or_false] at hd
    subst hd
    refine ⟨by simp, by simp [Word], ?_, fun _ => ⟨by simp [Decl.datum], by simp [Decl.datum], ?_⟩, by simp⟩
    · intro x hx
      simp only [List.mem_cons, List.not_mem_nil, or_false] at hx
      subst hx
      exact ⟨by simp [Word], by simp, by simp⟩
    · intro l c h
      simp only [Decl.datum, Option.some.injEq, Prod.mk.injEq] at h
      rw [← h.2]
      decide +kernel
  intro u hu
  simp only [units, List.mem_append, List.mem_map, List.mem_cons, List.not_mem_nil, or_false] at hu
  rcases hu with ⟨b, hb, rfl⟩ | ⟨f, hf, rfl⟩ | rfl | rfl | rfl
  · exact ⟨blocks_ok.some b hb, blocks_ok.ok b hb, blocks_ok.close b hb⟩
  · refine ⟨funcs_ok _ f hf, ?_⟩
    revert f
    decide +kernel
  · exact ht
  · exact ⟨⟨by simp [small, Typ.Ok, f1], by simp [small, Word], by simp [small], by simp [small, Goods, Tolds]⟩, by decide +kernel⟩
  · exact ht

/-- The text. -/
def unitsOut : List Char :=
  blocksOut ++ ['\n'] ++ knfText ++ "\nint y;\nint\ng()\n{\n}\n\nint y;\n".toList

example : ∃ doc, unitsDoc knf units = some doc ∧
    (Knfmt.Doc.docExec { limit := 80, useTabs := true } true [] doc).buf.reverse = unitsOut := by
  have h : piecesText (hand knf.toStyle true typ) knf.breakType knf.wrap (units.map piece) = unitsOut := by decide +kernel
  obtain ⟨doc, ps, e1, rfl, _, _, hr⟩ := C93_partial (S := knf) (env := { limit := 80, useTabs := true }) rfl (by decide) fair units_ok
  refine ⟨doc, e1, ?_⟩
  rw [← h]
  exact (hr (by show Within 80 0 (piecesText (hand knf.toStyle true typ) knf.breakType knf.wrap (units.map piece)); rw [h]; decide +kernel)).1

end Example

end Knfmt.Layout
