import Verif.Layout.WholeSpec
import Verif.Layout.BodyProps
import Verif.Layout.UnitProps
/-! # Formatting a file of declarations and functions a second time (C96) -/
namespace Knfmt.Layout
open Knfmt.Expr (Tok Ex)
open Knfmt.Util Knfmt.Spec
open Knfmt.Layout.Spec

theorem spaced_zip {typ : List Tok → List Char} {b : List Decl} (ho : ∀ d ∈ b, d.Ok typ) : spaced b = b.zip (gapsAt 0 (rulerOf b).1 b) := by
  obtain ⟨out, is, g⟩ := block_exec ho
  rw [spaced, rulerOf, g.exec]
  exact pairs_zip ..

theorem blockText_zip (H : Hand) : ∀ (b : List Decl) (gs : List (List Char)),
    (b.zip gs).map (fun p => declText H p.2 p.1) = List.zipWith (declText H) gs b
  | [], gs => by simp
  | d :: b, [] => by simp
  | d :: b, g :: gs => by simp [blockText_zip H b gs]

theorem unit_again {lim : Nat} {S : FileStyle} {tabs : Bool} {typ : List Tok → List Char} (h8 : S.width % 8 = 0) (ln : List Decl → Nat) {u : Unit'}
    (hu : u.Ok lim typ) (hb : ∀ p ∈ unitBlocks u, Settled S.toStyle tabs typ p) (last : Bool) :
    (unitAgain (hand S.toStyle tabs typ) ln last u).Ok lim typ ∧
      (piece (unitAgain (hand S.toStyle tabs typ) ln last u)).text (hand S.toStyle tabs typ) S.breakType S.wrap =
        (piece u).text (hand S.toStyle tabs typ) S.breakType S.wrap ∧
      (last = false → (piece (unitAgain (hand S.toStyle tabs typ) ln last u)).gap = (piece u).gap) := by
  cases u with
  | func f =>
    have hs := goods_settled h8 hu.1.body ln hb
    refine ⟨⟨⟨hu.1.kind, hu.1.name, hu.1.params, tolds_again 1 _ _ hs hu.1.body⟩, hu.2⟩, ?_, fun _ => rfl⟩
    show defText _ _ _ _ = defText _ _ _ _
    unfold defText
    dsimp only
    rw [body_same _ _ _ fun p hp => (hs p hp).1]
    rfl
  | block b =>
    obtain ⟨h1, h2⟩ := settled_again h8 hu.1 hu.2.1 (hb (0, b) (List.mem_singleton.mpr rfl))
    dsimp only at h1 h2
    obtain ⟨x, hx⟩ : ∃ x, (if last then .line else tidy (lastAft b)) = x := ⟨_, rfl⟩
    have h3 := h2 (ln b) x
    obtain ⟨h4, h5⟩ := id h1
    dsimp only at h4 h5
    rw [Nat.zero_mul] at h3 h4 h5
    have h6 := spaced_zip h3.decls
    have h7 := h5 (ln b) x
    have h8 : gapsAt 0 (rulerOf (blockAgain 0 x (ln b) (b.zip ((hand S.toStyle tabs typ).gaps 0 b)))).1
        (blockAgain 0 x (ln b) (b.zip ((hand S.toStyle tabs typ).gaps 0 b))) = (hand S.toStyle tabs typ).gaps 0 b := h7
    rw [h8] at h6
    have h9 : spaced b = b.zip ((hand S.toStyle tabs typ).gaps 0 b) := spaced_zip hu.2.1
    have hU : unitAgain (hand S.toStyle tabs typ) ln last (.block b) = .block (blockAgain 0 x (ln b) (b.zip ((hand S.toStyle tabs typ).gaps 0 b))) := by
      rw [unitAgain, hx]
    rw [hU]
    refine ⟨⟨h3.some, h3.decls, h3.close⟩, ?_, fun hl => ?_⟩
    · show blockText _ (spaced _) = blockText _ (spaced b)
      rw [h6, h9]
      unfold blockText
      rw [blockText_zip, blockText_zip, zip_text _ _ _ _ _ _ h4]
    · have e : ∀ {x : List Decl}, (∀ d ∈ x, d.Ok typ) → (spaced x).map Prod.fst = x := by
        intro x hx
        obtain ⟨out, is, g⟩ := block_exec hx
        rw [spaced, g.exec]
        exact pairs_fst ..
      have k := h1.aft hu.1 (ln b) x
      rw [Nat.zero_mul] at k
      rw [Bool.eq_iff_iff]
      refine (gap_block h3.some (e h3.decls)).trans (Iff.trans ?_ (gap_block hu.1 (e hu.2.1)).symm)
      rw [k, ← hx, hl]
      show tidy (lastAft b) = .blank ↔ _
      cases lastAft b <;> simp [tidy]

theorem pieces_again {H : Hand} {ln : List Decl → Nat} {brk wrap : Bool} : ∀ {us : List Unit'},
    (∀ u ∈ us, ∀ last, (piece (unitAgain H ln last u)).text H brk wrap = (piece u).text H brk wrap ∧
      (last = false → (piece (unitAgain H ln last u)).gap = (piece u).gap)) →
    piecesText H brk wrap ((unitsAgain H ln us).map piece) = piecesText H brk wrap (us.map piece)
  | [], _ => rfl
  | [u], h => by
    have := h u (List.mem_singleton.mpr rfl) true
    simp only [unitsAgain, List.isEmpty_nil, List.map_cons, List.map_nil, piecesText, this.1]
  | u :: v :: us, h => by
    have h1 := h u (List.mem_cons_self ..) false
    have ih := pieces_again (us := v :: us) fun x hx => h x (List.mem_cons_of_mem _ hx)
    have e : ∀ (p q : Piece) (ps : List Piece), piecesText H brk wrap (p :: q :: ps) =
        p.text H brk wrap ++ ((if p.gap then ['\n', '\n'] else ['\n']) ++ piecesText H brk wrap (q :: ps)) := fun _ _ _ => rfl
    simp only [unitsAgain, List.map_cons] at ih ⊢
    rw [e, e, ih]
    show (piece (unitAgain H ln false u)).text H brk wrap ++ ((if (piece (unitAgain H ln false u)).gap then _ else _) ++ _) = _
    rw [h1.1, h1.2 rfl]

theorem unitsAgain_mem {H : Hand} {ln : List Decl → Nat} : ∀ {us : List Unit'} {u : Unit'}, u ∈ unitsAgain H ln us →
    ∃ v ∈ us, ∃ last, u = unitAgain H ln last v
  | [], u, h => by simp [unitsAgain] at h
  | v :: us, u, h => by
    rw [unitsAgain, List.mem_cons] at h
    rcases h with rfl | h
    · exact ⟨v, List.mem_cons_self .., _, rfl⟩
    · obtain ⟨w, h1, h2⟩ := unitsAgain_mem h
      exact ⟨w, List.mem_cons_of_mem _ h1, h2⟩

/-- C96, with the restrictions of C93: a file of declarations and functions, read again as it was printed, is printed in
the same way. Indentations must be tab stops. Missing: blocks of declarations that are not `Steady`. -/
theorem C96_partial {env : Knfmt.Doc.Env} {S : FileStyle} {typ : List Tok → List Char} (hd : env.diff = none) (hm : env.limit < 2 ^ 27)
    (hS : Fair S.toStyle typ) (h8 : S.width % 8 = 0) {us : List Unit'} (hu : ∀ u ∈ us, u.Ok env.limit typ) (ln : List Decl → Nat)
    (hb : ∀ u ∈ us, ∀ p ∈ unitBlocks u, Settled S.toStyle env.useTabs typ p)
    (hw : Within env.limit 0 (piecesText (hand S.toStyle env.useTabs typ) S.breakType S.wrap (us.map piece))) :
    ∃ doc doc', unitsDoc S us = some doc ∧ unitsDoc S (unitsAgain (hand S.toStyle env.useTabs typ) ln us) = some doc' ∧
      (Knfmt.Doc.docExec env true [] doc').buf.reverse = (Knfmt.Doc.docExec env true [] doc).buf.reverse ∧
      (Knfmt.Doc.docExec env true [] doc').ub = false := by
  have ha := fun u h => unit_again (S := S) h8 ln (hu u h) (hb u h)
  have e := pieces_again (us := us) fun u h last => (ha u h last).2
  obtain ⟨doc, _, e1, rfl, _, _, e4⟩ := C93_partial (S := S) hd hm hS hu
  obtain ⟨doc', _, f1, rfl, _, _, f4⟩ := C93_partial (S := S) hd hm hS (us := unitsAgain (hand S.toStyle env.useTabs typ) ln us) (by
    intro u h
    obtain ⟨v, h1, last, rfl⟩ := unitsAgain_mem h
    exact (ha v h1 last).1)
  rw [e] at f4
  exact ⟨doc, doc', e1, f1, by rw [(e4 hw).1, (f4 hw).1], (f4 hw).2⟩

namespace Example

/-- Declarations, a function with declarations in its body, and the declarations again. -/
def whole : List Unit' :=
  [.block blocks[0], .block blocks[1], .func { small .line with body := locals }, .block blocks[0]]

theorem whole_ok : ∀ u ∈ whole, u.Ok 80 typ := by
  have f1 : Firm ['i', 'n', 't'] := ⟨by decide, ['i', 'n'], 't', rfl, by decide⟩
  have hb : ∀ b ∈ blocks, (Unit'.block b).Ok 80 typ := fun b hb => ⟨blocks_ok.some b hb, blocks_ok.ok b hb, blocks_ok.close b hb⟩
  intro u hu
  simp only [whole, List.mem_cons, List.not_mem_nil, or_false] at hu
  rcases hu with rfl | rfl | rfl | rfl
  · exact hb _ (by simp)
  · exact hb _ (by simp)
  · exact ⟨⟨by simp [small, Typ.Ok, f1], by simp [small, Word], by simp [small], locals_good⟩, by decide +kernel⟩
  · exact hb _ (by simp)

theorem whole_settled : ∀ u ∈ whole, ∀ p ∈ unitBlocks u, Settled knf.toStyle true typ p := by
  have h0 : ∀ p ∈ [(0, blocks[0]), (0, blocks[1])], Settled knf.toStyle true typ p := by
    intro p hp
    refine ⟨?_, ?_, ?_⟩
    · simp only [List.mem_cons, List.not_mem_nil, or_false] at hp
      rcases hp with rfl | rfl <;> simp [blocks, Flat]
    · right
      right
      revert p
      decide +kernel
    · revert p
      decide +kernel
  intro u hu p hp
  simp only [whole, List.mem_cons, List.not_mem_nil, or_false] at hu
  rcases hu with rfl | rfl | rfl | rfl
  · exact h0 p (by rw [unitBlocks, List.mem_singleton] at hp; simp [hp])
  · exact h0 p (by rw [unitBlocks, List.mem_singleton] at hp; simp [hp])
  · exact locals_settled p hp
  · exact h0 p (by rw [unitBlocks, List.mem_singleton] at hp; simp [hp])

/-- The hypotheses of `C96_partial` hold for this file. -/
example : ∃ doc doc', unitsDoc knf whole = some doc ∧ unitsDoc knf (unitsAgain (hand knf.toStyle true typ) (fun _ => 1) whole) = some doc' ∧
    (Knfmt.Doc.docExec { limit := 80, useTabs := true } true [] doc').buf.reverse =
      (Knfmt.Doc.docExec { limit := 80, useTabs := true } true [] doc).buf.reverse := by
  obtain ⟨doc, doc', h1, h2, h3, _⟩ := C96_partial (S := knf) (env := { limit := 80, useTabs := true }) rfl (by decide) fair (by decide)
    whole_ok (fun _ => 1) whole_settled (by decide +kernel)
  exact ⟨doc, doc', h1, h2, h3⟩

end Example

/-- C96 is false in general: there is a file whose text changes if it is formatted again. -/
theorem C96_fails : ∃ (env : Knfmt.Doc.Env) (S : FileStyle) (typ : List Tok → List Char) (us : List Unit') (ln : List Decl → Nat)
    (doc doc' : Knfmt.Doc.Doc), env.diff = none ∧ env.limit < 2 ^ 27 ∧ Fair S.toStyle typ ∧ S.width % 8 = 0 ∧ (∀ u ∈ us, u.Ok env.limit typ) ∧
      Within env.limit 0 (piecesText (hand S.toStyle env.useTabs typ) S.breakType S.wrap (us.map piece)) ∧
      unitsDoc S us = some doc ∧ unitsDoc S (unitsAgain (hand S.toStyle env.useTabs typ) ln us) = some doc' ∧
      (Knfmt.Doc.docExec env true [] doc').buf.reverse ≠ (Knfmt.Doc.docExec env true [] doc).buf.reverse := by
  have hm : Example.nine ∈ [Example.nine] := List.mem_singleton.mpr rfl
  have ho := Example.nine_ok.ok _ hm
  have hu : ∀ u ∈ [Unit'.block Example.nine], u.Ok 80 Example.typ := by
    intro u h
    obtain rfl := List.mem_singleton.mp h
    exact ⟨Example.nine_ok.some _ hm, ho, Example.nine_ok.close _ hm⟩
  have hf : ∀ d ∈ Example.nine, Flat d := by simp [Example.nine, Example.eight, Flat]
  have hu' : ∀ u ∈ unitsAgain (hand Example.knf.toStyle true Example.typ) (fun _ => 1) [Unit'.block Example.nine], u.Ok 80 Example.typ := by
    intro u h
    obtain rfl := List.mem_singleton.mp h
    refine ⟨blockAgain_some (by decide +kernel), ?_, fun d hd => ?_⟩
    · obtain ⟨out, is, g⟩ := block_exec ho
      have eo : (rulerOf Example.nine).1 = out.headD [] := by rw [rulerOf, g.exec]
      show ∀ d ∈ blockAgain 0 .line 1 (Example.nine.zip (gapsAt 0 (rulerOf Example.nine).1 Example.nine)), d.Ok Example.typ
      rw [eo]
      refine again_ok ho hf 0 1 .line g ?_
      rw [← eo]
      decide +kernel
    · rw [blockAgain_close hd]
      simp
  have hw : Within 80 0 (piecesText (hand Example.knf.toStyle true Example.typ) Example.knf.breakType Example.knf.wrap ([Unit'.block Example.nine].map piece)) := by
    decide +kernel
  obtain ⟨doc, _, e1, rfl, _, _, e4⟩ := C93_partial (S := Example.knf) (env := { limit := 80, useTabs := true }) rfl (by decide) Example.fair hu
  obtain ⟨doc', _, f1, rfl, _, _, f4⟩ := C93_partial (S := Example.knf) (env := { limit := 80, useTabs := true }) rfl (by decide) Example.fair hu'
  refine ⟨{ limit := 80, useTabs := true }, Example.knf, Example.typ, [.block Example.nine], fun _ => 1, doc, doc', rfl, by decide, Example.fair, by decide, hu, hw,
    e1, f1, ?_⟩
  rw [(e4 hw).1, (f4 (by decide +kernel)).1]
  decide +kernel

end Knfmt.Layout
