import Verif.Layout.SenseSpec
import Verif.Layout.DeclProps
import Verif.Ruler.Decide
/-! # When names are lined up (C94) -/
namespace Knfmt.Layout
open Knfmt.Expr (Tok Ex)
open Knfmt.Doc (Align)
open Knfmt.Util Knfmt.Spec
open Knfmt.Layout.Spec

theorem named_iff (d : Decl) : named d = true ↔ d.tail ≠ .bare := by
  unfold named
  cases d.tail <;> simp

theorem tabbed_ruled {typ : List Tok → List Char} {d : Decl} (h : d.Ok typ) : tabbed d = (d.ruled && Knfmt.Ruler.hasTabs d.src) := by
  have e : named d = d.ruled := by
    rw [Bool.eq_iff_iff, named_iff, h.bare_of]
  unfold tabbed Knfmt.Ruler.hasTabs
  rw [e]

theorem zip_filter {α β : Type} (q : α → Bool) : ∀ (l : List α) (m : List β), l.length = m.length →
    ((l.zip m).filter (fun p => q p.1)).length = (l.filter q).length
  | [], _, _ => rfl
  | a :: l, [], h => by simp at h
  | a :: l, b :: m, h => by
    have ih := zip_filter q l m (by simpa using h)
    rw [List.zip_cons_cons, List.filter_cons, List.filter_cons]
    dsimp only
    cases q a <;> simp [ih]

/-- C94: for a block that is printed at a tab stop. -/
theorem given_decided {typ : List Tok → List Char} {b : List Decl} (hd : ∀ d ∈ b, d.Ok typ) {out : List (List Align)} {is : List Int}
    (g : Given b out is) {c : Nat} (hc : c % 8 = 0) : DecidedAt c (b.zip (gapsAt c (out.headD []) b)) := by
  have hH := holds_block b
  have hl := (gapsAt_length c b (out.headD [])).symm
  have hb : ∀ {p : Decl × List Char}, p ∈ b.zip (gapsAt c (out.headD []) b) → p.1 ∈ b := fun {p} hp => (List.of_mem_zip (a := p.1) (b := p.2) hp).1
  have hr : ∀ {p : Decl × List Char}, p ∈ b.zip (gapsAt c (out.headD []) b) → named p.1 = true → p.1.ruled ≠ false := by
    intro p hp h e
    rw [(hd _ (hb hp)).bare_of.mpr ((named_iff _).mp h)] at e
    cases e
  have hf1 : b.filter named = ruledOf b := List.filter_congr fun d h => by rw [Bool.eq_iff_iff, named_iff, (hd d h).bare_of]
  have hf2 : (b.filter tabbed).length = ((ruledOf b).map Decl.datum).countP (fun x => Knfmt.Ruler.hasTabs x.tk) := by
    rw [List.filter_congr fun d h => tabbed_ruled (hd d h), List.countP_map, ruledOf, List.countP_filter, List.countP_eq_length_filter]
    refine congrArg List.length (List.filter_congr fun d _ => ?_)
    rw [Bool.and_comm]
    rfl
  refine ⟨fun h0 h4 => ?_, fun h0 h1 => ?_⟩
  · rw [zip_filter tabbed _ _ hl] at h0
    rw [zip_filter tabbed _ _ hl, zip_filter named _ _ hl, hf1] at h4
    rw [hf2] at h0 h4
    rcases hH.cols with ⟨_, h2, _⟩ | ⟨rc, h1, h2, _⟩
    · rw [h2] at h0
      simp at h0
    rw [← h2] at h0 h4
    obtain ⟨x, hx⟩ := Knfmt.Ruler.sense_tabs hH.built hH.flags g.plain g.exec (k := 0) (by rw [h1]; rfl) h0
      (by rw [h2, List.length_map]; rw [h2] at h4; exact h4) hc
    refine ⟨x, fun p hp hn => ?_⟩
    have hm := hb hp
    rcases gapsAt_mem c g.length hp with ⟨e, _⟩ | ⟨i, d, a, e1, e2, _, rfl⟩
    · exact absurd e (hr hp hn)
    rw [lead_columnAt hc (fun w hw => ((hd d hm).words w hw).2)]
    exact (hx i _ a (g.entry i d a e1 e2)).1
  · intro p hp hn
    rcases gapsAt_mem c g.length hp with ⟨e, _⟩ | ⟨i, d, a, e1, e2, _, rfl⟩
    · exact absurd e (hr hp hn)
    rcases hH.cols with ⟨_, h2, _⟩ | ⟨rc, h3, h2, _⟩
    · rw [h2] at e1
      simp at e1
    have hin : ∀ {d : Decl}, d ∈ b → named d = true → d.datum ∈ rc.datums := by
      intro d h h'
      rw [h2]
      exact List.mem_map_of_mem (List.mem_filter.mpr ⟨h, (hd d h).bare_of.mpr ((named_iff d).mp h')⟩)
    have ha : a = Knfmt.Ruler.dflt := by
      refine Knfmt.Ruler.sense_spaces hH.built hH.flags g.exec (k := 0) (rc := rc) (by rw [h3]; rfl) ?_ ?_ i _ a (g.entry i d a e1 e2)
      · rw [zip_filter tabbed _ _ hl, zip_filter named _ _ hl, hf1, hf2, ← h2] at h0
        rw [h2, List.length_map, ← h2]
        exact h0
      · by_cases hx : ∃ d ∈ rc.datums, ∀ c, d.tk.next ≠ some (d.tk.lno, c)
        · exact .inl hx
        right
        by_cases hy : ∃ x ∈ rc.datums, ∃ x' ∈ rc.datums, ∃ l l' c c', x.tk.next = some (l, c) ∧ x'.tk.next = some (l', c') ∧ c + x.nspaces ≠ c' + x'.nspaces
        · exact hy
        exfalso
        have hz : ∀ x ∈ rc.datums, ∃ c, x.tk.next = some (x.tk.lno, c) := by
          intro x hm
          by_cases hcs : ∃ c, x.tk.next = some (x.tk.lno, c)
          · exact hcs
          · exact absurd ⟨x, hm, fun c hc => hcs ⟨c, hc⟩⟩ hx
        have hdm := hin (hb hp) hn
        obtain ⟨c0, k0⟩ := hz _ hdm
        refine h1 ⟨c0 + d.stars, fun q hq hqn => ?_⟩
        have hqm := hin (hb hq) hqn
        obtain ⟨c1, k1⟩ := hz _ hqm
        refine ⟨c1, k1, ?_⟩
        by_cases he : c1 + q.1.stars = c0 + d.stars
        · exact he
        · exact absurd ⟨_, hqm, _, hdm, _, _, _, _, k1, k0, he⟩ hy
    subst ha
    rfl

/-- C94, for the declarations in the body of a function, as C90 prints them. -/
theorem decls_decided {S : Style} {tabs : Bool} {typ : List Tok → List Char} {b : List Decl} (h : Block.Ok typ b) {c : Nat} (hc : c % 8 = 0) :
    DecidedAt c (b.zip ((hand S tabs typ).gaps c b)) := by
  obtain ⟨out, is, g⟩ := block_exec h.decls
  have hg : (hand S tabs typ).gaps c b = gapsAt c (out.headD []) b := by
    show gapsAt c (rulerOf b).1 b = _
    rw [rulerOf, g.exec]
  rw [hg]
  exact given_decided h.decls g hc

/-- C94: the blocks of a file are printed as in C92, with names that are lined up or not as the source says. -/
theorem C94_partial {env : Knfmt.Doc.Env} {S : Style} {typ : List Tok → List Char} (hd : env.diff = none) (hm : env.limit < 2 ^ 27)
    (hS : Fair S typ) {bs : List (List Decl)} (hb : Blocks typ bs) :
    ∃ doc ps, blocksDoc S bs = some doc ∧ ps.map (·.map Prod.fst) = bs ∧ (∀ p ∈ ps, DecidedAt 0 p) ∧
      (Within env.limit 0 (blocksText (hand S env.useTabs typ) ps) →
        (Knfmt.Doc.docExec env true [] doc).buf.reverse = blocksText (hand S env.useTabs typ) ps ∧
          (Knfmt.Doc.docExec env true [] doc).ub = false) := by
  obtain ⟨doc, ps, e1, e2, e3, _, e4⟩ := C92_partial hd hm hS hb
  refine ⟨doc, ps, e1, e3, fun p hp => ?_, e4⟩
  rw [e2] at hp
  obtain ⟨b, h1, rfl⟩ := List.mem_map.mp hp
  obtain ⟨out, is, g⟩ := block_exec (hb.ok b h1)
  rw [spaced, g.exec]
  show DecidedAt 0 (pairs (out.headD []) b)
  rw [pairs_zip]
  exact given_decided (hb.ok b h1) g rfl

/-! ## Examples -/

namespace Example

/-- `int x;` and `const char *p = f(), q[n][];` with tabs are lined up. -/
example : ∃ x, ∀ p ∈ (blocks[0]).zip ((hand style true typ).gaps 8 blocks[0]), named p.1 → column 8 (leadText p.2 p.1) = x :=
  (decls_decided (typ := typ) ⟨blocks_ok.some _ (by simp), blocks_ok.ok _ (by simp), blocks_ok.close _ (by simp), by decide +kernel⟩ (by decide)).1
    (by decide +kernel) (by decide +kernel)

/-- `int y;`, `struct s;` and `char z;` on lines 5 to 7, with one space after the types. -/
def spacy : List Decl :=
  [⟨[['i', 'n', 't']], 0, .vars ⟨0, ['y'], [], none⟩ [],
      { str := ['i', 'n', 't'], lno := 5, suffixes := [⟨false, true, [' ']⟩], next := some (5, 5) }, .line⟩,
    ⟨[['s', 't', 'r', 'u', 'c', 't'], ['s']], 0, .bare, { str := ['s'], lno := 6, cno := 8, next := some (6, 9) }, .line⟩,
    ⟨[['c', 'h', 'a', 'r']], 0, .vars ⟨0, ['z'], [], none⟩ [],
      { str := ['c', 'h', 'a', 'r'], lno := 7, suffixes := [⟨false, true, [' ']⟩], next := some (7, 6) }, .line⟩]

theorem spacy_ok : Block.Ok typ spacy where
  some := by simp [spacy]
  decls := by
    intro d hd
    simp only [spacy, List.mem_cons, List.not_mem_nil, or_false] at hd
    have hv : ∀ n : Char, n ≠ ' ' → n ≠ '\n' → (Tail.vars ⟨0, [n], [], none⟩ []).Ok typ := by
      intro n h1 h2 x hx
      simp only [List.mem_cons, List.not_mem_nil, or_false] at hx
      subst hx
      exact ⟨by simp [Word, Ne.symm h2], by simp, by simp⟩
    rcases hd with rfl | rfl | rfl
    · refine ⟨by simp, by simp [Word], hv _ (by decide) (by decide), fun _ => ⟨by simp [Decl.datum], by simp [Decl.datum], ?_⟩, by simp⟩
      intro l c h
      simp only [Decl.datum, Option.some.injEq, Prod.mk.injEq] at h
      rw [← h.2]
      decide +kernel
    · exact ⟨by simp, by simp [Word], trivial, by simp, by simp⟩
    · refine ⟨by simp, by simp [Word], hv _ (by decide) (by decide), fun _ => ⟨by simp [Decl.datum], by simp [Decl.datum], ?_⟩, by simp⟩
      intro l c h
      simp only [Decl.datum, Option.some.injEq, Prod.mk.injEq] at h
      rw [← h.2]
      decide +kernel
  close := by simp [spacy]
  small := by decide +kernel

/-- They are not. -/
example : ∀ p ∈ spacy.zip ((hand style true typ).gaps 8 spacy), named p.1 → p.2 = [' '] := by
  refine (decls_decided (typ := typ) spacy_ok (by decide)).2 (by decide +kernel) ?_
  have hl : (hand style true typ).gaps 8 spacy = [[' '], [], [' ']] := by decide +kernel
  rw [hl]
  rintro ⟨x, h⟩
  obtain ⟨c, h1, h2⟩ := h (spacy[0], [' ']) (by simp [spacy]) rfl
  obtain ⟨c', h1', h2'⟩ := h (spacy[2], [' ']) (by simp [spacy]) rfl
  simp [spacy] at h1 h2 h1' h2'
  omega

end Example

end Knfmt.Layout
