import Verif.Lexer.Theorems
/-! # The extent of comments and directives (C52) -/
namespace Knfmt.Spec

open Knfmt.Lexer

/-- Spaces within a line. -/
def lineSpace (c : Char) : Bool := c = ' ' || c = '\t' || c = '\x0c'

/-- After spaces, `s` starts with `//`. -/
def LineCommentAhead (s : List Char) : Prop :=
  ∃ sp t, (∀ c ∈ sp, lineSpace c = true) ∧ s = sp ++ '/' :: '/' :: t

/-- `CommentAt rest c b`: the comment `rest` starts with is `c`; `b` tells if it starts
with `//`. Consecutive lines with `//` comments are one comment. -/
inductive CommentAt : List Char → List Char → Bool → Prop
  /-- up to the first `*/` after the opening -/
  | block (s rest : List Char) : ¬ ['*', '/'] <:+: s ++ ['*'] →
      CommentAt ('/' :: '*' :: (s ++ '*' :: '/' :: rest)) ('/' :: '*' :: (s ++ ['*', '/'])) false
  /-- up to the end if there is none -/
  | openBlock (s : List Char) : ¬ ['*', '/'] <:+: s → CommentAt ('/' :: '*' :: s) ('/' :: '*' :: s) false
  /-- up to the end of the line -/
  | line (s rest : List Char) : '\n' ∉ s → ¬ LineCommentAhead rest →
      CommentAt ('/' :: '/' :: (s ++ '\n' :: rest)) ('/' :: '/' :: s) true
  | lastLine (s : List Char) : '\n' ∉ s → CommentAt ('/' :: '/' :: s) ('/' :: '/' :: s) true
  /-- with the comment on the next line -/
  | lines (s sp rest c : List Char) : '\n' ∉ s → (∀ c ∈ sp, lineSpace c = true) →
      CommentAt rest c true →
      CommentAt ('/' :: '/' :: (s ++ '\n' :: (sp ++ rest))) ('/' :: '/' :: (s ++ '\n' :: (sp ++ c))) true

/-- `DirectiveAt rest d`: a directive without comments starts at `rest` and is `d`: its
line feeds come after backslashes, and it is followed by one that does not. -/
def DirectiveAt (rest d : List Char) : Prop :=
  ∃ tail, rest = d ++ tail ∧ d.head? = some '#' ∧
    (∀ i : Nat, d[i + 1]? = some '\n' → d[i]? = some '\\') ∧
    (tail = [] ∨ (tail.head? = some '\n' ∧ d.getLast? ≠ some '\\'))

/-- The name of a directive. -/
def directiveName (d : List Char) : List Char :=
  ((d.drop 1).dropWhile lineSpace).takeWhile isLower

end Knfmt.Spec

namespace Knfmt.Lexer

open Knfmt.Str Knfmt.Util Knfmt.Spec

theorem infix2_cons {x y c d : Char} {l : List Char} :
    [x, y] <:+: c :: d :: l ↔ (c = x ∧ d = y) ∨ [x, y] <:+: d :: l := by
  constructor
  · rintro ⟨a, b, h⟩
    cases a with
    | nil => simp at h; exact Or.inl ⟨h.1.symm, h.2.1.symm⟩
    | cons z a =>
      simp at h
      exact Or.inr ⟨a, b, by simp [← h.2]⟩
  · rintro (⟨rfl, rfl⟩ | ⟨a, b, h⟩)
    · exact ⟨[], l, rfl⟩
    · exact ⟨c :: a, b, by simp [← h]⟩

theorem infix2_single {x y c : Char} : ¬ [x, y] <:+: [c] := by
  rintro ⟨a, b, h⟩
  have := congrArg List.length h
  simp at this
  omega

theorem infix2_nil {x y : Char} : ¬ [x, y] <:+: [] := by
  rintro ⟨a, b, h⟩
  have := congrArg List.length h
  simp at this

theorem lineSpace_iff (c : Char) : lineSpace c = true ↔ c = ' ' ∨ c = '\x0c' ∨ c = '\t' := by
  simp [lineSpace]; grind

/-- The loop over a `//` comment. -/
theorem c99Line_run (inp : List Char) (lx : Lx) (hi : Inv inp lx) (r : Lx × Bool)
    (hr : c99Line inp lx = r) :
    (r.2 = true → ∃ s tail, inp.drop lx.st.off = s ++ '\n' :: tail ∧ '\n' ∉ s ∧
      r.1.st.off = lx.st.off + s.length + 1) ∧
    (r.2 = false → '\n' ∉ inp.drop lx.st.off ∧ r.1.st.off = inp.length) := by
  induction hm : left inp lx using Nat.strongRecOn generalizing lx with
  | ind m ih =>
  subst hm
  rw [c99Line] at hr
  split at hr
  · next hg =>
    subst hr
    have he := hi.st.eof ((getc_none hi).mp hg)
    exact ⟨by simp, fun _ => ⟨by rw [drop_nil_of_get he]; simp, he⟩⟩
  · next c lx' hg =>
    obtain ⟨hs, hc⟩ := getc_some hi hg
    rcases hc with ⟨c1, c2, c3, _⟩ | ⟨c1, c2, c3, c4⟩
    · rw [drop_cons_of_get c1, ← c2]
      split at hr
      · next hn =>
        subst hr
        exact ⟨fun _ => ⟨[], _, by rw [hn]; rfl, by simp, by simp only [List.length_nil]; omega⟩, by simp⟩
      · next hn =>
        obtain ⟨i1, i2⟩ := ih _ (getc_left hg) _ hs.inv hr rfl
        constructor
        · intro h
          obtain ⟨s, tail, k1, k2, k3⟩ := i1 h
          refine ⟨c :: s, tail, by rw [k1]; rfl, ?_, by simp only [List.length_cons]; omega⟩
          simp [k2]; exact fun h => hn h.symm
        · intro h
          obtain ⟨k1, k2⟩ := i2 h
          refine ⟨?_, k2⟩
          simp [k1]; exact fun h => hn h.symm
    · subst c2
      rw [if_neg (by decide)] at hr
      obtain ⟨i1, i2⟩ := ih _ (getc_left hg) _ hs.inv hr rfl
      have e1 : lx'.st.off = lx.st.off := by rw [c4]
      rw [e1] at i1 i2
      exact ⟨i1, i2⟩

/-- The loop over a block comment. -/
theorem blockLoop_run (inp : List Char) (ch : Char) (o : Bool) (lx : Lx) (hi : Inv inp lx)
    (r : Lx × Bool) (hr : blockLoop inp ch o lx = r) :
    (∃ b tail, inp.drop lx.st.off = b ++ '/' :: tail ∧ (ch :: b).getLast? = some '*' ∧
      ¬ ['*', '/'] <:+: ch :: b ∧ r.1.st.off = lx.st.off + b.length + 1) ∨
    (¬ ['*', '/'] <:+: ch :: inp.drop lx.st.off ∧ r.1.st.off = inp.length) := by
  induction hm : left inp lx using Nat.strongRecOn generalizing lx ch o with
  | ind m ih =>
  subst hm
  rw [blockLoop] at hr
  split at hr
  · next hg =>
    subst hr
    have he := hi.st.eof ((getc_none hi).mp hg)
    exact Or.inr ⟨by rw [drop_nil_of_get he]; exact infix2_single, he⟩
  · next c lx' hg =>
    obtain ⟨hs, hc⟩ := getc_some hi hg
    rcases hc with ⟨c1, c2, c3, _⟩ | ⟨c1, c2, c3, c4⟩
    · rw [drop_cons_of_get c1, ← c2]
      split at hr
      · next hn =>
        subst hr
        refine Or.inl ⟨[], _, by rw [hn.2]; rfl, by simp [hn.1], infix2_single, ?_⟩
        simp only [List.length_nil]; omega
      · next hn =>
        rcases ih _ (getc_left hg) _ _ _ hs.inv hr rfl with ⟨b, tail, k1, k2, k3, k4⟩ | ⟨k1, k2⟩
        · refine Or.inl ⟨c :: b, tail, by rw [k1]; rfl, ?_, ?_, by simp only [List.length_cons]; omega⟩
          · rw [List.getLast?_cons_cons]; exact k2
          · rw [infix2_cons]; rintro (h | h)
            · exact hn h
            · exact k3 h
        · refine Or.inr ⟨?_, k2⟩
          rw [infix2_cons]; rintro (h | h)
          · exact hn h
          · exact k1 h
    · subst c2
      rw [if_neg (by simp)] at hr
      have e1 : lx'.st.off = lx.st.off := by rw [c4]
      have hnil := drop_nil_of_get c1
      rw [hnil]
      rcases ih _ (getc_left hg) _ _ _ hs.inv hr rfl with ⟨b, tail, k1, k2, k3, k4⟩ | ⟨k1, k2⟩
      · rw [e1, hnil] at k1; simp at k1
      · exact Or.inr ⟨infix2_single, k2⟩

/-- The loop over a block comment notes if it has line feeds. -/
theorem blockLoop_oneline (inp : List Char) (ch : Char) (o : Bool) (lx : Lx) (hi : Inv inp lx)
    (hch : lx.st.eof = true → ch ≠ '\n') (r : Lx × Bool) (hr : blockLoop inp ch o lx = r) :
    r.2 = (o && decide ('\n' ∉ ch :: seg inp lx.st.off r.1.st.off)) := by
  induction hm : left inp lx using Nat.strongRecOn generalizing lx ch o with
  | ind m ih =>
  subst hm
  have hst := blockLoop_step inp ch o lx hi r hr
  rw [blockLoop] at hr
  split at hr
  · next hg =>
    subst hr
    have := hch ((getc_none hi).mp hg)
    simp [seg, this.symm]
  · next c lx' hg =>
    obtain ⟨hs, hc⟩ := getc_some hi hg
    rcases hc with ⟨c1, c2, c3, c5, _⟩ | ⟨c1, c2, c3, c4⟩
    · split at hr
      · next hn =>
        subst hr
        have : seg inp lx.st.off lx'.st.off = ['/'] := by
          rw [seg_cons c1 (by omega), hn.2, c2]; simp [seg]
        simp only [this, hn.1]; simp
      · next hn =>
        have hstep := blockLoop_step inp _ _ _ hs.inv _ hr
        have := ih _ (getc_left hg) _ _ _ hs.inv (by rw [c3]; simp) hr rfl
        rw [this, seg_cons c1 (by have := hstep.off; omega), c2]
        by_cases hx : ch = '\n'
        · simp [hx]
        · simp [hx, Ne.symm hx]
    · subst c2
      rw [if_neg (by simp)] at hr
      have hstep := blockLoop_step inp _ _ _ hs.inv _ hr
      have e1 : lx'.st.off = lx.st.off := by rw [c4]
      have := ih _ (getc_left hg) _ _ _ hs.inv (by simp) hr rfl
      have hnil : seg inp lx.st.off r.1.st.off = [] := by
        unfold seg; rw [drop_nil_of_get c1]; simp
      rw [this, e1, hnil]
      by_cases hx : ch = '\n'
      · simp [hx]
      · simp [hx, Ne.symm hx]

/-- `peek_c99_comment` tells if a `//` comment comes next. -/
theorem peekC99_iff {inp : List Char} {lx : Lx} (hi : Inv inp lx) :
    (peekC99 inp lx).2 = true ↔ LineCommentAhead (inp.drop lx.st.off) := by
  obtain ⟨s1, s2, s3, s4, s5, s6, s7⟩ := eatSpaces_spec hi
  have hseg : inp.drop lx.st.off = seg inp lx.st.off (eatSpaces inp lx).1.st.off ++
      inp.drop (eatSpaces inp lx).1.st.off := by
    conv => lhs; rw [← List.take_append_drop ((eatSpaces inp lx).1.st.off - lx.st.off) (inp.drop lx.st.off)]
    rw [List.drop_drop, show lx.st.off + ((eatSpaces inp lx).1.st.off - lx.st.off) = (eatSpaces inp lx).1.st.off by
      have := s1.off; omega]; rfl
  have hsp : ∀ c ∈ seg inp lx.st.off (eatSpaces inp lx).1.st.off, lineSpace c = true := fun c hc =>
    (lineSpace_iff c).mpr (seg_all s2 c hc)
  -- what comes after the spaces is the same for every way to split
  have huniq : LineCommentAhead (inp.drop lx.st.off) ↔
      ∃ t, inp.drop (eatSpaces inp lx).1.st.off = '/' :: '/' :: t := by
    constructor
    · rintro ⟨sp, t, h1, h2⟩
      refine ⟨t, ?_⟩
      have e1 : (inp.drop lx.st.off).dropWhile lineSpace = '/' :: '/' :: t := by
        rw [h2, List.dropWhile_append_of_pos h1]; rfl
      rw [← e1, hseg, List.dropWhile_append_of_pos hsp]
      cases hc : inp[(eatSpaces inp lx).1.st.off]? with
      | none => rw [List.drop_of_length_le (by simpa using hc)]; rfl
      | some c =>
        rw [drop_cons_of_get hc, List.dropWhile_cons, if_neg]
        rw [lineSpace_iff]; exact s7 c hc
    · rintro ⟨t, h⟩
      exact ⟨_, t, hsp, by rw [hseg, h]⟩
  rw [huniq]
  unfold peekC99
  simp only
  generalize (eatSpaces inp lx).1 = lx1 at *
  split
  · next hg =>
    rw [drop_nil_of_get (s1.inv.st.eof ((getc_none s1.inv).mp hg))]; simp
  · next c lx2 hg =>
    obtain ⟨hs, hc⟩ := getc_some s1.inv hg
    rcases hc with ⟨c1, c2, c3, _⟩ | ⟨c1, c2, c3, c4⟩
    · rw [drop_cons_of_get c1, ← c2]
      split
      · next hne => simp; intro h _; exact absurd h hne
      · next hne =>
        have hne : c = '/' := by simpa using hne
        split
        · next hg' =>
          rw [drop_nil_of_get (hs.inv.st.eof ((getc_none hs.inv).mp hg'))]; simp
        · next c' lx3 hg' =>
          obtain ⟨_, hc'⟩ := getc_some hs.inv hg'
          rcases hc' with ⟨d1, d2, d3, _⟩ | ⟨d1, d2, d3, d4⟩
          · rw [drop_cons_of_get d1]; simp [hne]
          · rw [drop_nil_of_get d1]; simp [d2]
    · subst c2
      rw [if_pos (by decide), drop_nil_of_get c1]; simp

theorem commentAt_head {rest c : List Char} {b : Bool} (h : CommentAt rest c b) :
    ∃ t, rest = '/' :: (if b then '/' else '*') :: t := by
  cases h <;> exact ⟨_, rfl⟩

theorem commentAt_length {rest c : List Char} {b : Bool} (h : CommentAt rest c b) : 2 ≤ c.length := by
  cases h <;> (simp only [List.length_cons]; omega)

/-- The comment found by `commentExtent`. -/
theorem commentExtent_text (inp : List Char) (block : Bool) (lx : Lx) (st : St) (o : Bool)
    (hi : Inv inp lx) (hst : Saved inp lx st) (r : Lx × Option (St × Bool × Bool))
    (hr : commentExtent inp block lx st o = r) :
    ∀ st' o' c, r.2 = some (st', o', c) →
      ∃ p, lx.st.off ≤ p ∧ st'.off ≤ p ∧ AllIn inp Blank lx.st.off p ∧ p ≤ r.1.st.off ∧
        CommentAt (inp.drop p) (seg inp p r.1.st.off) c ∧
        o' = (o && decide ('\n' ∉ seg inp p r.1.st.off)) := by
  induction hm : inp.length - lx.st.off using Nat.strongRecOn generalizing lx st o with
  | ind m ih =>
  subst hm
  rw [commentExtent] at hr
  have he : ∀ e, e = (if block then eatLinesAndSpaces inp lx st else ((eatSpaces inp lx).1, st)) →
      Step inp lx e.1 ∧ AllIn inp Blank lx.st.off e.1.st.off ∧ Saved inp e.1 e.2 := by
    intro e he
    split at he
    · subst he
      obtain ⟨e1, e2, e3, e4, e5⟩ := eatLinesAndSpaces_spec hi st
      rcases Nat.lt_or_ge lx.st.lno (eatLinesAndSpaces inp lx st).1.st.lno with h | h
      · exact ⟨e1, e2, (e5 h).1⟩
      · have := e4 (by omega)
        rw [this]
        exact ⟨e1, e2, hst.step e1⟩
    · subst he
      exact ⟨(eatSpaces_spec hi).1, eatSpaces_blank hi, hst.step (eatSpaces_spec hi).1⟩
  simp only at hr
  generalize hge : (if block then eatLinesAndSpaces inp lx st else ((eatSpaces inp lx).1, st)) = e at hr
  obtain ⟨e1, e2, e3⟩ := he e hge.symm
  have heoff := e1.off
  have heso := e3.off
  split at hr
  · subst hr; simp
  · next c1 lx1 hg1 =>
    obtain ⟨g1, g1'⟩ := getc_some e1.inv hg1
    split at hr
    · subst hr; simp
    · next hc1 =>
      have hc1 : c1 = '/' := by simpa using hc1
      subst hc1
      obtain ⟨a1, a2, _⟩ := g1'.resolve_right (by simp)
      have hd1 := drop_cons_of_get a1
      rw [← a2] at hd1
      split at hr
      · subst hr; simp
      · next c2 lx2 hg2 =>
        obtain ⟨g2, g2'⟩ := getc_some g1.inv hg2
        split at hr
        · next hc2 =>
          subst hc2
          obtain ⟨b1, b2, _⟩ := g2'.resolve_right (by simp)
          have hd2 := drop_cons_of_get b1
          rw [← b2] at hd2
          obtain ⟨l1, l2, _⟩ := c99Line_step inp lx2 g2.inv _ rfl
          obtain ⟨n1, n2⟩ := c99Line_run inp lx2 g2.inv _ rfl
          generalize c99Line inp lx2 = l at *
          split at hr
          · next hl =>
            obtain ⟨s, tail, k1, k2, k3⟩ := n1 hl
            have htail : inp.drop l.1.st.off = tail := by
              have : inp.drop l.1.st.off = (inp.drop lx2.st.off).drop (s.length + 1) := by
                rw [List.drop_drop, k3]; rfl
              rw [this, k1]; simp
            obtain ⟨p1, p2⟩ := peekC99_spec l1.inv
            have hpk := peekC99_iff l1.inv
            generalize hpe : peekC99 inp l.1 = p at *
            split at hr
            · next hp =>
              split at hr
              · next hgd =>
                intro st' o' c hst'
                have hsv : Saved inp p.1 e.2 := (((e3.step g1).step g2).step l1).step p1
                obtain ⟨q, q1, -, q2, q3, q4, q5⟩ := ih _ hgd _ _ _ p1.inv hsv hr rfl st' o' c hst'
                obtain ⟨j0, j1⟩ := commentExtent_spec inp block p.1 e.2 false p1.inv hsv _ hr
                have j2 := (j1 st' o' c hst').2.2.2
                obtain ⟨sp, t, t1, t2⟩ := hpk.mp hp
                rw [p2] at q1 q2
                -- the comment starts where the spaces end
                obtain ⟨u, hu⟩ := commentAt_head q4
                have hq : q = l.1.st.off + sp.length := by
                  have h1 : q ≤ l.1.st.off + sp.length := by
                    apply Nat.le_of_not_lt
                    intro h
                    obtain ⟨x, x1, x2⟩ := q2 (l.1.st.off + sp.length) (by omega) h
                    have : inp[l.1.st.off + sp.length]? = some '/' := by
                      rw [← List.getElem?_drop, t2, List.getElem?_append_right (by omega)]; simp
                    rw [this] at x1; simp at x1; subst x1
                    revert x2; decide
                  apply Nat.le_antisymm h1
                  apply Nat.le_of_not_lt
                  intro h
                  have hx : inp[q]? = some '/' := by
                    have := congrArg (·[0]?) hu
                    simpa [List.getElem?_drop] using this
                  have : inp[q]? = sp[q - l.1.st.off]? := by
                    rw [show q = l.1.st.off + (q - l.1.st.off) by omega, ← List.getElem?_drop, t2,
                      List.getElem?_append_left (by omega)]
                    congr 1; omega
                  rw [hx] at this
                  exact absurd (t1 '/' (List.mem_of_getElem? this.symm)) (by decide)
                have hc : c = true := by
                  cases c with
                  | true => rfl
                  | false =>
                    have : inp[q + 1]? = some '/' := by
                      rw [hq, Nat.add_assoc, ← List.getElem?_drop, t2, List.getElem?_append_right (by omega)]; simp
                    have h2 := congrArg (·[1]?) hu
                    simp [List.getElem?_drop, this] at h2
                subst hc
                have hst2 : st' = e.2 := by
                  apply j2
                  rw [show p.1.st.off = l.1.st.off by rw [p2]]
                  exact peekC99_true l1.inv (by rw [hpe]; exact hp)
                refine ⟨e.1.st.off, heoff, by rw [hst2]; exact heso, e2,
                  by have := g1.off; have := g2.off; have := l1.off; omega, ?_⟩
                have hsq : inp.drop l.1.st.off = sp ++ inp.drop q := by
                  rw [t2, hq, ← List.drop_drop, t2]; simp
                have hfull : inp.drop e.1.st.off = '/' :: '/' :: (s ++ '\n' :: (sp ++ inp.drop q)) := by
                  rw [hd1, hd2, k1, ← htail, hsq]
                have hsg : seg inp e.1.st.off r.1.st.off =
                    '/' :: '/' :: (s ++ '\n' :: (sp ++ seg inp q r.1.st.off)) := by
                  refine seg_eq_append (t := inp.drop r.1.st.off) ?_ ?_
                  · rw [hfull]
                    simp only [List.cons_append, List.append_assoc]
                    have : inp.drop q = seg inp q r.1.st.off ++ inp.drop r.1.st.off := by
                      conv => lhs; rw [← List.take_append_drop (r.1.st.off - q) (inp.drop q)]
                      rw [List.drop_drop, show q + (r.1.st.off - q) = r.1.st.off by omega]; rfl
                    rw [← this]
                  · have hle : r.1.st.off ≤ inp.length := j0.inv.st.le
                    simp only [List.length_cons, List.length_append, seg_length inp hle]
                    omega
                rw [hfull, hsg]
                exact ⟨CommentAt.lines s sp _ _ k2 t1 q4, by rw [q5]; simp⟩
              · subst hr; simp
            · next hp =>
              subst hr
              obtain ⟨m1, m2, m3, m4⟩ := l2 hl
              obtain ⟨u1, u2, u3⟩ := ungetc_inv p1.inv (by rw [p2]; exact m4) (by rw [p2]; omega)
              rw [p2] at u2
              intro st' o' c hst'
              simp only [Option.some.injEq, Prod.mk.injEq] at hst'
              obtain ⟨rfl, rfl, rfl⟩ := hst'
              refine ⟨e.1.st.off, heoff, heso, e2, by have := g1.off; have := g2.off; simp only; omega, ?_⟩
              have hfull : inp.drop e.1.st.off = '/' :: '/' :: (s ++ '\n' :: tail) := by
                rw [hd1, hd2, k1]
              have hsg : seg inp e.1.st.off (ungetc inp p.1).st.off = '/' :: '/' :: s := by
                refine seg_eq_append (t := '\n' :: tail) (by rw [hfull]; rfl) ?_
                simp only [List.length_cons]; omega
              simp only [hsg]
              rw [hfull]
              refine ⟨CommentAt.line s tail k2 ?_, by simp [k2]⟩
              rw [← htail, ← hpk]; exact hp
          · next hl =>
            have hl : l.2 = false := by simpa using hl
            subst hr
            obtain ⟨m1, m2⟩ := n2 hl
            intro st' o' c hst'
            simp only [Option.some.injEq, Prod.mk.injEq] at hst'
            obtain ⟨rfl, rfl, rfl⟩ := hst'
            refine ⟨e.1.st.off, heoff, heso, e2, by have := g1.off; have := g2.off; have := l1.off; simp only; omega, ?_⟩
            have hsg : seg inp e.1.st.off l.1.st.off = inp.drop e.1.st.off :=
              seg_eq_append (t := []) (by simp) (by rw [m2, List.length_drop]; have := e1.inv.st.le; omega)
            simp only [hsg]
            rw [hd1, hd2]
            exact ⟨CommentAt.lastLine _ m1, by simp [m1]⟩
        · split at hr
          · next hc2 =>
            subst hc2
            obtain ⟨b1, b2, _⟩ := g2'.resolve_right (by simp)
            have hd2 := drop_cons_of_get b1
            rw [← b2] at hd2
            have bs := blockLoop_step inp '\x00' o lx2 g2.inv _ rfl
            have br := blockLoop_run inp '\x00' o lx2 g2.inv _ rfl
            have bo := blockLoop_oneline inp '\x00' o lx2 g2.inv (by simp) _ rfl
            generalize blockLoop inp '\x00' o lx2 = x at *
            subst hr
            intro st' o' c hst'
            simp only [Option.some.injEq, Prod.mk.injEq] at hst'
            obtain ⟨rfl, rfl, rfl⟩ := hst'
            refine ⟨e.1.st.off, heoff, heso, e2, by have := g1.off; have := g2.off; have := bs.off; simp only; omega, ?_⟩
            have bo' : x.2 = (o && decide ('\n' ∉ seg inp e.1.st.off x.1.st.off)) := by
              have o1 := bs.off
              rw [bo, seg_cons a1 (by omega), ← a2,
                seg_cons b1 (by omega), ← b2]
              simp
            refine ⟨?_, bo'⟩
            rcases br with ⟨b, tail, k1, k2, k3, k4⟩ | ⟨k1, k2⟩
            · have hb : ∃ b0, b = b0 ++ ['*'] := by
                cases b with
                | nil => simp at k2
                | cons x b =>
                  rw [List.getLast?_cons_cons] at k2
                  obtain ⟨b0, h⟩ := List.getLast?_eq_some_iff.mp k2
                  exact ⟨b0, h⟩
              obtain ⟨b0, rfl⟩ := hb
              have hfull : inp.drop e.1.st.off = '/' :: '*' :: (b0 ++ '*' :: '/' :: tail) := by
                rw [hd1, hd2, k1]; simp
              have hsg : seg inp e.1.st.off x.1.st.off = '/' :: '*' :: (b0 ++ ['*', '/']) := by
                refine seg_eq_append (t := tail) (by rw [hfull]; simp) ?_
                simp only [List.length_cons, List.length_append, List.length_nil] at k4 ⊢; omega
              simp only [hsg]
              rw [hfull]
              refine CommentAt.block _ _ (fun h => k3 ?_)
              exact h.trans (List.suffix_cons _ _).isInfix
            · have hsg : seg inp e.1.st.off x.1.st.off = inp.drop e.1.st.off :=
                seg_eq_append (t := []) (by simp) (by rw [k2, List.length_drop]; have := e1.inv.st.le; omega)
              simp only [hsg]
              rw [hd1, hd2]
              refine CommentAt.openBlock _ (fun h => k1 ?_)
              exact h.trans (List.suffix_cons _ _).isInfix
          · subst hr; simp

theorem drop_seg (inp : List Char) {a b : Nat} (h : a ≤ b) :
    inp.drop a = seg inp a b ++ inp.drop b := by
  conv => lhs; rw [← List.take_append_drop (b - a) (inp.drop a)]
  rw [List.drop_drop, show a + (b - a) = b by omega]; rfl

theorem isSpace_of_blank {c : Char} (h : Blank c) : Comment.isSpace c = true := by
  rcases h with rfl | rfl | rfl | rfl | rfl <;> decide

theorem append_prefix_iff {a b s : List Char} : a ++ b <+: s ↔ a <+: s ∧ b <+: s.drop a.length := by
  constructor
  · rintro ⟨t, rfl⟩
    exact ⟨⟨b ++ t, by simp⟩, ⟨t, by simp⟩⟩
  · rintro ⟨⟨t, rfl⟩, h⟩
    simp only [List.drop_left'] at h
    obtain ⟨u, rfl⟩ := h
    exact ⟨u, by simp⟩

/-- `sense_clang_format_comment`. -/
theorem senseClangFormat_spec (pre : List Char) (x y : Char) (s : List Char) (fl : Flags)
    (hp : ∀ c ∈ pre, Comment.isSpace c = true) (hx : Comment.isSpace x = false)
    (h1 : fl.cfOff = false) (h2 : fl.cfOn = false) :
    ((senseClangFormat (pre ++ x :: y :: s) fl).cfOff = true ↔ " clang-format off".toList <+: s) ∧
    ((senseClangFormat (pre ++ x :: y :: s) fl).cfOn = true ↔ " clang-format on".toList <+: s) ∧
    (senseClangFormat (pre ++ x :: y :: s) fl).c99 = fl.c99 ∧
    (senseClangFormat (pre ++ x :: y :: s) fl).diff = fl.diff := by
  have e0 : (pre ++ x :: y :: s).dropWhile Comment.isSpace = x :: y :: s := by
    rw [List.dropWhile_append_of_pos hp, List.dropWhile_cons, if_neg (by rw [hx]; decide)]
  have o1 : " clang-format off".toList = " clang-format ".toList ++ "off".toList := by decide
  have o2 : " clang-format on".toList = " clang-format ".toList ++ "on".toList := by decide
  have hne : ∀ s : List Char, "off".toList <+: s → ¬ "on".toList <+: s := by
    rintro _ ⟨t, rfl⟩ ⟨u, hu⟩
    simp only [String.reduceToList, List.cons_append, List.cons.injEq] at hu
    exact absurd hu.2.1 (by decide)
  rw [o1, o2, append_prefix_iff, append_prefix_iff]
  unfold senseClangFormat
  simp only [e0, List.drop_succ_cons, List.drop_zero]
  rw [if_neg (by simp only [List.length_cons]; omega)]
  split
  · next h =>
    have h := List.isPrefixOf_iff_prefix.mp h
    split
    · next h' =>
      have h' := List.isPrefixOf_iff_prefix.mp h'
      refine ⟨⟨fun _ => ⟨h, h'⟩, fun _ => rfl⟩, ⟨fun hx => ?_, fun hx => absurd hx.2 (hne _ h')⟩, rfl, rfl⟩
      rw [h2] at hx; exact absurd hx (by decide)
    · next h' =>
      rw [List.isPrefixOf_iff_prefix] at h'
      split
      · next h3 =>
        have h3 := List.isPrefixOf_iff_prefix.mp h3
        refine ⟨⟨fun hx => ?_, fun hx => absurd hx.2 h'⟩, ⟨fun _ => ⟨h, h3⟩, fun _ => rfl⟩, rfl, rfl⟩
        rw [h1] at hx; exact absurd hx (by decide)
      · next h3 =>
        rw [List.isPrefixOf_iff_prefix] at h3
        exact ⟨⟨fun hx => by rw [h1] at hx; exact absurd hx (by decide), fun hx => absurd hx.2 h'⟩,
          ⟨fun hx => by rw [h2] at hx; exact absurd hx (by decide), fun hx => absurd hx.2 h3⟩, rfl, rfl⟩
  · next h =>
    rw [List.isPrefixOf_iff_prefix] at h
    exact ⟨⟨fun hx => by rw [h1] at hx; exact absurd hx (by decide), fun hx => absurd hx.1 h⟩,
      ⟨fun hx => by rw [h2] at hx; exact absurd hx (by decide), fun hx => absurd hx.1 h⟩, rfl, rfl⟩

/-- `clang_read_comment`: the comment in the token it returns. -/
theorem readComment_text {inp : List Char} {lx : Lx} (cx : Ctx) (block : Bool) (hi : Inv inp lx)
    (t : Tok) (ht : (readComment inp cx block lx).2 = some t) :
    ∃ p q, t.off ≤ p ∧ AllIn inp Blank t.off p ∧ p ≤ q ∧ q ≤ t.stop ∧ AllIn inp Blank q t.stop ∧
      CommentAt (inp.drop p) (seg inp p q) t.flags.c99 ∧
      (t.flags.cfOff = true ↔ '\n' ∉ seg inp p q ∧ " clang-format off".toList <+: (seg inp p t.stop).drop 2) ∧
      (t.flags.cfOn = true ↔ '\n' ∉ seg inp p q ∧ " clang-format on".toList <+: (seg inp p t.stop).drop 2) ∧
      t.flags.diff = cx.diff t.lno := by
  have hall := ht
  unfold readComment at ht
  simp only at ht
  obtain ⟨c1, c2⟩ := commentExtent_spec inp block lx lx.st true hi hi.saved _ rfl
  have c3 := commentExtent_text inp block lx lx.st true hi hi.saved _ rfl
  split at ht
  · simp at ht
  · next st oneline c99 hc =>
    obtain ⟨d1, d2, d3, d4⟩ := c2 st oneline c99 hc
    obtain ⟨p, p1, p2, p3, p4, p5, p6⟩ := c3 st oneline c99 hc
    have hoff2 := d2
    generalize commentExtent inp block lx lx.st true = r at *
    generalize hlx1 : (if block = true then (eatLines inp 2 (eatSpaces inp r.1).1).1 else r.1) = lx1 at ht
    have h1 : Step inp r.1 lx1 ∧ AllIn inp Blank r.1.st.off lx1.st.off := by
      rw [← hlx1]
      split
      · obtain ⟨s1, _⟩ := eatSpaces_spec c1.inv
        obtain ⟨l1, l2, _⟩ := eatLines_spec 2 s1.inv
        refine ⟨s1.trans l1, ?_⟩
        intro i i1 i2
        rcases Nat.lt_or_ge i (eatSpaces inp r.1).1.st.off with h | h
        · exact eatSpaces_blank c1.inv i i1 h
        · exact l2 i h i2
      · exact ⟨Step.refl c1.inv, AllIn.empty _ _ _⟩
    obtain ⟨h1, h1b⟩ := h1
    have hsv : Saved inp lx1 st := d1.step h1
    generalize ht0 : emit inp cx lx1 st .comment { c99 := c99 } = t0 at ht
    have hf0 : t0.off = st.off ∧ t0.stop = lx1.st.off ∧ t0.flags.c99 = c99 ∧ t0.type = .comment ∧
        t0.joined = false ∧ t0.flags.cfOff = false ∧ t0.flags.cfOn = false ∧
        t0.flags.diff = cx.diff st.lno ∧ t0.lno = st.lno := by
      rw [← ht0]; exact ⟨rfl, rfl, rfl, rfl, rfl, rfl, rfl, rfl, rfl⟩
    obtain ⟨g1, g2, g3, g4, g5, g6, g7, g8, g9⟩ := hf0
    have hst : lx.st.off ≤ st.off := by
      rcases d3 with h | h
      · rw [h]; exact Nat.le_refl _
      · omega
    have htext0 : t0.str.text inp = some (t0.raw inp) := by
      rw [← ht0, emit_text cx _ _ h1.inv hsv]; rfl
    generalize ht1 : (if oneline = true then
        { t0 with flags := senseClangFormat ((t0.str.text inp).getD []) t0.flags } else t0) = t1 at ht
    have hraw0 : ∃ x y u, t0.raw inp = seg inp st.off p ++ x :: y :: u ∧ Comment.isSpace x = false ∧
        u = (seg inp p lx1.st.off).drop 2 := by
      obtain ⟨v, hv⟩ := commentAt_head p5
      have o1 := h1.off
      have hle := h1.inv.st.le
      have hlen := commentAt_length p5
      rw [seg_length inp c1.inv.st.le] at hlen
      have hx := seg_eq_append (inp := inp) (a := p) (b := p + 2) (s := ['/', if c99 = true then '/' else '*'])
        (t := v) hv rfl
      refine ⟨'/', (if c99 = true then '/' else '*'), seg inp (p + 2) lx1.st.off, ?_, by decide, ?_⟩
      · unfold Tok.raw
        rw [g1, g2, ← seg_append inp p2 (show p ≤ lx1.st.off by omega),
          ← seg_append inp (show p ≤ p + 2 by omega) (show p + 2 ≤ lx1.st.off by omega), hx]
        rfl
      · rw [← seg_append inp (show p ≤ p + 2 by omega) (show p + 2 ≤ lx1.st.off by omega), hx]
        rfl
    obtain ⟨x, y, u, hu1, hu2, hu3⟩ := hraw0
    have hpre : ∀ c ∈ seg inp st.off p, Comment.isSpace c = true := fun c hc =>
      isSpace_of_blank (seg_all (fun i i1 i2 => p3 i (by omega) i2) c hc)
    have hf1 : t1.off = t0.off ∧ t1.stop = t0.stop ∧ t1.type = t0.type ∧ t1.joined = t0.joined ∧
        t1.str = t0.str ∧ t1.flags.c99 = t0.flags.c99 ∧
        (t1.flags.cfOff = true ↔ oneline = true ∧ " clang-format off".toList <+: u) ∧
        (t1.flags.cfOn = true ↔ oneline = true ∧ " clang-format on".toList <+: u) ∧
        t1.flags.diff = t0.flags.diff ∧ t1.lno = t0.lno := by
      rw [← ht1]; split
      · next ho =>
        simp only [htext0, Option.getD_some, hu1]
        obtain ⟨w1, w2, w3, w4⟩ := senseClangFormat_spec _ x y u t0.flags hpre hu2 g6 g7
        exact ⟨trivial, trivial, trivial, trivial, trivial, w3, by rw [w1]; simp [ho],
          by rw [w2]; simp [ho], w4, trivial⟩
      · next ho => exact ⟨rfl, rfl, rfl, rfl, rfl, rfl, by rw [g6]; simp [ho], by rw [g7]; simp [ho], rfl, rfl⟩
    obtain ⟨f1, f2, f3, f4, f5, f6, f7, f8, f9, f10⟩ := hf1
    have hraw1 : t1.raw inp = t0.raw inp := by unfold Tok.raw; rw [f1, f2]
    obtain ⟨k1, k2, k3, k4, k5, k6, k7, k8, k9⟩ := trimmed_spec (inp := inp) cx t1 (t0.raw inp)
      (by rw [f5]; exact htext0) (by rw [f4, g5]) (by rw [f3, g4]) hraw1
    simp only [Option.some.injEq] at ht
    rw [← ht, k2, k3, k4, k7, f1, f2, f6, f7, f8, f9, f10, g1, g2, g3, g8, g9, hu3]
    have ho : oneline = true ↔ '\n' ∉ seg inp p r.1.st.off := by rw [p6]; simp
    rw [ho]
    exact ⟨p, r.1.st.off, p2, fun i i1 i2 => p3 i (by omega) i2, p4, h1.off, h1b, p5, Iff.rfl, Iff.rfl, rfl⟩

/-- The character in front of position `j`, where the one in front of `off` is `ch`. -/
def Prev (inp : List Char) (off : Nat) (ch : Char) (j : Nat) (c : Char) : Prop :=
  (j = off ∧ ch = c) ∨ (off < j ∧ inp[j - 1]? = some c)

theorem Prev.step {inp : List Char} {off : Nat} {ch c : Char} (h : inp[off]? = some c) {j : Nat} {d : Char}
    (hj : off + 1 ≤ j) : Prev inp (off + 1) c j d ↔ Prev inp off ch j d := by
  unfold Prev
  constructor
  · rintro (⟨rfl, rfl⟩ | ⟨h1, h2⟩)
    · exact Or.inr ⟨by omega, by simpa using h⟩
    · exact Or.inr ⟨by omega, h2⟩
  · rintro (⟨rfl, rfl⟩ | ⟨h1, h2⟩)
    · omega
    · rcases Nat.lt_or_ge (off + 1) j with hj' | hj'
      · exact Or.inr ⟨hj', h2⟩
      · have : j = off + 1 := by omega
        subst this
        simp [h] at h2
        exact Or.inl ⟨rfl, h2⟩

/-- The loop over a directive without comments. -/
theorem cppLoop_run (inp : List Char) (ch : Char) (lx : Lx) (hi : Inv inp lx)
    (r : Lx) (hr : cppLoop inp ch false lx = r)
    (hn : ∀ j, lx.st.off ≤ j → j < r.st.off → Prev inp lx.st.off ch j '/' → inp[j]? ≠ some '*') :
    (∀ j, lx.st.off ≤ j → j < r.st.off → inp[j]? = some '\n' → Prev inp lx.st.off ch j '\\') ∧
    (r.st.off = inp.length ∨
      (inp[r.st.off]? = some '\n' ∧ ¬ Prev inp lx.st.off ch r.st.off '\\')) := by
  induction hm : left inp lx using Nat.strongRecOn generalizing lx ch with
  | ind m ih =>
  subst hm
  rw [cppLoop] at hr
  split at hr
  · next hg =>
    subst hr
    have he := hi.st.eof ((getc_none hi).mp hg)
    exact ⟨fun j h1 h2 => by omega, Or.inl he⟩
  · next c lx' hg =>
    obtain ⟨hs, hc⟩ := getc_some hi hg
    rcases hc with ⟨c1, c2, c3, _⟩ | ⟨c1, c2, c3, c4⟩
    · split at hr
      · next hcm =>
        exfalso
        have hst := cppLoop_step inp _ _ _ hs.inv _ hr
        have := hst.off
        refine hn lx.st.off (Nat.le_refl _) (by omega) (Or.inl ⟨rfl, hcm.1⟩) ?_
        rw [c1, hcm.2]
      · split at hr
        · next h => simp at h
        · split at hr
          · next hcm =>
            subst hr
            obtain ⟨u1, u2, _⟩ := ungetc_getc hi hg
            rw [u2]
            refine ⟨fun j h1 h2 => by omega, Or.inr ⟨by rw [c1, hcm.2.2], ?_⟩⟩
            rintro (⟨_, h⟩ | ⟨h, _⟩)
            · exact hcm.2.1 h
            · omega
          · next hcm =>
            have hst := cppLoop_step inp _ _ _ hs.inv _ hr
            have hoff := hst.off
            rw [c2] at hoff
            obtain ⟨i1, i2⟩ := ih _ (getc_left hg) c lx' hs.inv hr (by
              intro j h1 h2 h3
              rw [c2] at h1 h3
              exact hn j (by omega) h2 ((Prev.step c1 h1).mp h3)) rfl
            rw [c2] at i1 i2
            constructor
            · intro j h1 h2 h3
              rcases Nat.lt_or_ge lx.st.off j with h | h
              · exact (Prev.step c1 h).mp (i1 j h h2 h3)
              · have : j = lx.st.off := by omega
                subst this
                rw [c1] at h3
                simp only [Option.some.injEq] at h3
                refine Or.inl ⟨rfl, ?_⟩
                simpa [h3] using hcm
            · rcases i2 with h | ⟨h1, h2⟩
              · exact Or.inl h
              · exact Or.inr ⟨h1, fun h => h2 ((Prev.step c1 hoff).mpr h)⟩
    · subst c2
      rw [if_neg (by simp), if_neg (by simp), if_neg (by simp)] at hr
      have hst := cppLoop_step inp _ _ _ hs.inv _ hr
      have e1 : lx'.st.off = lx.st.off := by rw [c4]
      have hlen : lx.st.off = inp.length := c1
      have h1 := hst.off
      have h2 := hst.inv.st.le
      exact ⟨fun j h3 h4 => by omega, Or.inl (by omega)⟩

theorem inRanges_lower (c : Char) : InRanges [('a', 'z')] c ↔ isLower c = true := by
  simp [InRanges, isLower]

/-- The type of the directive with the given name. -/
def Spec.directiveType (name : List Char) : TT :=
  ((cppKeywords.find? (fun k => k.1 == name)).map (·.2)).getD .cpp

theorem directiveName_eq (sp nm tl : List Char) (h1 : ∀ c ∈ sp, lineSpace c = true)
    (h2 : ∀ c ∈ nm, isLower c = true) (h3 : ∀ c, (nm ++ tl).head? = some c → lineSpace c = false)
    (h4 : ∀ c, tl.head? = some c → isLower c = false) :
    directiveName ('#' :: (sp ++ (nm ++ tl))) = nm := by
  unfold directiveName
  simp only [List.drop_succ_cons, List.drop_zero]
  rw [List.dropWhile_append_of_pos h1]
  have : (nm ++ tl).dropWhile lineSpace = nm ++ tl := by
    cases hc : nm ++ tl with
    | nil => rfl
    | cons c l => rw [List.dropWhile_cons, if_neg]; rw [h3 c (by rw [hc]; rfl)]; decide
  rw [this, List.takeWhile_append_of_pos h2]
  cases tl with
  | nil => simp
  | cons c l => rw [List.takeWhile_cons, if_neg]; · simp
                rw [h4 c rfl]; decide

/-- `clang_read_cpp`: the directive in the token it returns. -/
theorem readCpp_text {inp : List Char} {lx : Lx} (cx : Ctx) (hi : Inv inp lx)
    (t : Tok) (ht : (readCpp inp cx lx).2 = some t) :
    ∃ p q, t.off ≤ p ∧ AllIn inp Blank t.off p ∧ p < q ∧ q ≤ t.stop ∧ AllIn inp Blank q t.stop ∧
      t.type = Spec.directiveType (directiveName (seg inp p q)) ∧
      (¬ ['/', '*'] <:+: seg inp p q → DirectiveAt (inp.drop p) (seg inp p q)) := by
  unfold readCpp at ht
  simp only at ht
  obtain ⟨e1, e2, e3, e4, e5⟩ := eatLinesAndSpaces_spec hi lx.st
  have hst : (eatLinesAndSpaces inp lx lx.st).2.off ≤ (eatLinesAndSpaces inp lx lx.st).1.st.off ∧
      lx.st.off ≤ (eatLinesAndSpaces inp lx lx.st).2.off := by
    rcases Nat.lt_or_ge lx.st.lno (eatLinesAndSpaces inp lx lx.st).1.st.lno with h | h
    · obtain ⟨a, b, c, d⟩ := e5 h
      exact ⟨a.off, by omega⟩
    · rw [e4 (by omega)]; exact ⟨e1.off, Nat.le_refl _⟩
  generalize eatLinesAndSpaces inp lx lx.st = e at *
  split at ht
  · simp at ht
  · next c lx1 hg =>
    obtain ⟨g1, g1'⟩ := getc_some e1.inv hg
    split at ht
    · simp at ht
    · next hc =>
      have hc : c = '#' := by simpa using hc
      subst hc
      obtain ⟨a1, a2, _⟩ := g1'.resolve_right (by simp)
      obtain ⟨s1, s2, s3, s4, s5, s6, s7⟩ := eatSpaces_spec g1.inv
      generalize (eatSpaces inp lx1).1 = lx2 at *
      obtain ⟨m1, m2, m3, m4⟩ := span_step (inp := inp) s1.inv [('a', 'z')] (by unfold AsciiRanges; decide)
        (by unfold InRanges; decide)
      have hfc : findCpp inp (lexMatch inp lx2 [('a', 'z')]) lx2.st =
          Spec.directiveType (seg inp lx2.st.off (lexMatch inp lx2 [('a', 'z')]).st.off) := by
        unfold findCpp slice
        split
        · next hsl =>
          split at hsl
          · next h0 =>
            unfold seg
            rw [h0, List.take_zero]
            decide
          · simp at hsl
        · next s hsl =>
          split at hsl
          · simp at hsl
          · simp only [Option.some.injEq] at hsl
            rw [← hsl]
            unfold Spec.directiveType seg
            split
            · next h => rw [h]; rfl
            · next h => rw [h]; rfl
      generalize lexMatch inp lx2 [('a', 'z')] = lx3 at *
      have p1 := cppLoop_step inp '\x00' false _ m1.inv _ rfl
      have p2 := cppLoop_run inp '\x00' _ m1.inv _ rfl
      generalize cppLoop inp '\x00' false lx3 = lx4 at *
      obtain ⟨l1, l2, _⟩ := eatLines_spec 2 p1.inv
      generalize (eatLines inp 2 lx4).1 = lx5 at *
      have hal : t.off = e.2.off ∧ t.stop = lx5.st.off ∧
          t.type = findCpp inp lx3 lx2.st := by
        simp only [Option.some.injEq] at ht
        rw [← ht]
        unfold aligned
        split
        · split <;> exact ⟨rfl, rfl, rfl⟩
        · exact ⟨rfl, rfl, rfl⟩
      obtain ⟨f1, f2, f3⟩ := hal
      have o1 := s1.off
      have o2 := m1.off
      have o3 := p1.off
      have hle4 := p1.inv.st.le
      refine ⟨e.1.st.off, lx4.st.off, by rw [f1]; exact hst.1,
        by rw [f1]; exact fun i h1 h2 => e2 i (by omega) h2, by omega, by rw [f2]; exact l1.off,
        by rw [f2]; exact l2, ?_, ?_⟩
      · rw [f3, hfc]
        congr 1
        rw [seg_cons a1 (by omega), show e.1.st.off + 1 = lx1.st.off by omega,
          ← seg_append inp o1 (show lx2.st.off ≤ lx4.st.off by omega), ← seg_append inp o2 o3]
        have hhead : ∀ k, k ≤ lx4.st.off → ∀ c, (seg inp k lx4.st.off).head? = some c → inp[k]? = some c := by
          intro k hk c hc
          unfold seg at hc
          rw [List.head?_take] at hc
          split at hc
          · simp at hc
          · rwa [List.head?_drop] at hc
        symm
        apply directiveName_eq
        · exact fun c hc => (lineSpace_iff c).mpr (seg_all s2 c hc)
        · exact fun c hc => (inRanges_lower c).mp (seg_all m2 c hc)
        · intro c hc
          rw [seg_append inp o2 o3] at hc
          have := s7 c (hhead _ (by omega) c hc)
          rw [← lineSpace_iff] at this
          simpa using this
        · intro c hc
          have := m4 c (hhead _ o3 c hc)
          rw [inRanges_lower] at this
          simpa using this
      · intro hno
        have hat : ∀ i, (seg inp e.1.st.off lx4.st.off)[i]? =
            if e.1.st.off + i < lx4.st.off then inp[e.1.st.off + i]? else none := by
          intro i
          unfold seg
          rw [List.getElem?_take, List.getElem?_drop]
          by_cases h : e.1.st.off + i < lx4.st.off
          · rw [if_pos h, if_pos (by omega)]
          · rw [if_neg h, if_neg (by omega)]
        obtain ⟨q1, q2⟩ := p2 (by
          intro j h1 h2 h3 h4
          rcases h3 with ⟨_, h⟩ | ⟨h5, h6⟩
          · exact absurd h (by decide)
          · apply hno
            refine ⟨seg inp e.1.st.off (j - 1), seg inp (j + 1) lx4.st.off, ?_⟩
            have k1 : seg inp (j - 1) lx4.st.off = '/' :: '*' :: seg inp (j + 1) lx4.st.off := by
              rw [seg_cons h6 (by omega), show j - 1 + 1 = j by omega, seg_cons h4 h2]
            rw [← seg_append inp (show e.1.st.off ≤ j - 1 by omega) (show j - 1 ≤ lx4.st.off by omega), k1]
            simp)
        have hclass : ∀ j, e.1.st.off ≤ j → j < lx3.st.off → inp[j]? ≠ some '\n' ∧ inp[j]? ≠ some '\\' := by
          intro j h1 h2
          rcases Nat.lt_or_ge j lx1.st.off with h | h
          · have : j = e.1.st.off := by omega
            rw [this, a1]; decide
          · rcases Nat.lt_or_ge j lx2.st.off with h' | h'
            · obtain ⟨x, x1, x2⟩ := s2 j h h'
              rw [x1]
              rcases x2 with rfl | rfl | rfl <;> decide
            · obtain ⟨x, x1, x2⟩ := m2 j h' h2
              rw [x1, ]
              rw [inRanges_lower] at x2
              constructor <;> (intro hx; simp only [Option.some.injEq] at hx; subst hx; revert x2; decide)
        refine ⟨inp.drop lx4.st.off, drop_seg inp (by omega), ?_, ?_, ?_⟩
        · rw [seg_cons a1 (by omega)]; rfl
        · intro i h
          rw [hat] at h ⊢
          split at h
          · next hlt =>
            rw [if_pos (by omega)]
            rcases Nat.lt_or_ge (e.1.st.off + (i + 1)) lx3.st.off with h3 | h3
            · exact absurd h (hclass _ (by omega) h3).1
            · rcases q1 _ h3 hlt h with ⟨_, h4⟩ | ⟨_, h4⟩
              · exact absurd h4 (by decide)
              · exact h4
          · simp at h
        · rcases q2 with h | ⟨h1, h2⟩
          · exact Or.inl (List.drop_of_length_le (by omega))
          · refine Or.inr ⟨by rw [List.head?_drop]; exact h1, ?_⟩
            intro hl
            rw [List.getLast?_eq_getElem?, seg_length inp hle4, hat, if_pos (by omega),
              show e.1.st.off + (lx4.st.off - e.1.st.off - 1) = lx4.st.off - 1 by omega] at hl
            rcases Nat.lt_or_ge lx3.st.off lx4.st.off with h3 | h3
            · exact h2 (Or.inr ⟨h3, hl⟩)
            · exact (hclass (lx4.st.off - 1) (by omega) (by omega)).2 hl

/-- The flag that tells if a token is on a line of the diff. -/
def DiffOk (cx : Ctx) (t : Tok) : Prop := t.flags.diff = cx.diff t.lno

theorem readMain_diff (inp : List Char) (cx : Ctx) (lx : Lx) : DiffOk cx (readMain inp cx lx).2 := by
  unfold readMain
  simp only
  split
  · next tk hk =>
    unfold readKeyword at hk
    simp only at hk
    split at hk
    · simp at hk
    · split at hk
      · simp at hk
      · simp only [Option.some.injEq] at hk
        rw [← hk]; rfl
  · unfold readOther
    simp only
    split
    · rfl
    · split
      · split <;> rfl
      · split
        · split <;> rfl
        · split
          · split <;> rfl
          · split <;> rfl

theorem readCpp_diff {inp : List Char} {lx : Lx} (cx : Ctx) (t : Tok)
    (ht : (readCpp inp cx lx).2 = some t) : DiffOk cx t := by
  unfold readCpp at ht
  simp only at ht
  split at ht
  · simp at ht
  · split at ht
    · simp at ht
    · simp only [Option.some.injEq] at ht
      rw [← ht]
      unfold aligned
      split
      · split <;> rfl
      · rfl

theorem readComment_diff {inp : List Char} {lx : Lx} (cx : Ctx) (b : Bool) (hi : Inv inp lx) (t : Tok)
    (ht : (readComment inp cx b lx).2 = some t) : DiffOk cx t := by
  obtain ⟨_, _, _, _, _, _, _, _, _, _, h⟩ := readComment_text cx b hi t ht
  exact h

/-- Where a token, prefix or suffix comes from. -/
inductive Origin (inp : List Char) (cx : Ctx) (t : Tok) : Prop
  | main (lx : Lx) : Inv inp lx → t = (readMain inp cx lx).2 → Origin inp cx t
  | comment (b : Bool) (lx : Lx) : Inv inp lx → (readComment inp cx b lx).2 = some t → Origin inp cx t
  | cpp (lx : Lx) : Inv inp lx → (readCpp inp cx lx).2 = some t → Origin inp cx t
  | space : t.type = .space → DiffOk cx t → Origin inp cx t
  | joined : t.joined = true → t.type = .comment → DiffOk cx t → Origin inp cx t

theorem Origin.diff {inp : List Char} {cx : Ctx} {t : Tok} (h : Origin inp cx t) : DiffOk cx t := by
  cases h with
  | main lx _ h => rw [h]; exact readMain_diff inp cx lx
  | comment b lx hi h => exact readComment_diff cx b hi t h
  | cpp lx _ h => exact readCpp_diff cx t h
  | space _ h => exact h
  | joined _ _ h => exact h

theorem readPrefix_origin {inp : List Char} {lx : Lx} (cx : Ctx) (ps : List Tok) (hi : Inv inp lx)
    (h : ∀ t ∈ ps, Origin inp cx t) (ps' : List Tok) (h' : (readPrefix inp cx ps lx).2 = some ps') :
    ∀ t ∈ ps', Origin inp cx t := by
  unfold readPrefix at h'
  split at h'
  · next lx1 c hc =>
    have hoc : Origin inp cx c := .comment true lx hi (by rw [hc])
    split at h'
    · next pv hpv =>
      split at h'
      · next hcond =>
        simp only [Option.some.injEq] at h'
        subst h'
        intro t ht
        rcases List.mem_append.mp ht with ht | ht
        · exact h t (List.dropLast_subset _ ht)
        · simp only [List.mem_singleton] at ht
          subst ht
          exact .joined rfl hcond.1 (h pv (List.mem_of_getLast? hpv)).diff
      · simp only [Option.some.injEq] at h'
        subst h'
        intro t ht
        rcases List.mem_append.mp ht with ht | ht
        · exact h t ht
        · simp only [List.mem_singleton] at ht
          subst ht; exact hoc
    · simp only [Option.some.injEq] at h'
      subst h'
      intro t ht
      rcases List.mem_append.mp ht with ht | ht
      · exact h t ht
      · simp only [List.mem_singleton] at ht
        subst ht; exact hoc
  · next lx1 hc =>
    have hs := (readComment_spec cx true hi _ hc).1
    split at h'
    · next lx2 t' hc' =>
      simp only [Option.some.injEq] at h'
      subst h'
      intro t ht
      rcases List.mem_append.mp ht with ht | ht
      · exact h t ht
      · simp only [List.mem_singleton] at ht
        subst ht; exact .cpp lx1 hs.inv (by rw [hc'])
    · simp at h'

theorem readPrefix_step {inp : List Char} {lx : Lx} (cx : Ctx) (ps : List Tok) (hi : Inv inp lx) :
    Step inp lx (readPrefix inp cx ps lx).1 := by
  unfold readPrefix
  split
  · next lx1 c hc =>
    have := (readComment_spec cx true hi _ hc).1
    split
    · split <;> exact this
    · exact this
  · next lx1 hc =>
    have h1 := (readComment_spec cx true hi _ hc).1
    split
    · next hc' => exact h1.trans (readCpp_spec cx h1.inv _ hc').1
    · next hc' => exact h1.trans (readCpp_spec cx h1.inv _ hc').1

theorem readPrefixes_origin {inp : List Char} (cx : Ctx) (ps : List Tok) (lx : Lx) (hi : Inv inp lx)
    (h : ∀ t ∈ ps, Origin inp cx t) : ∀ t ∈ (readPrefixes inp cx ps lx).2, Origin inp cx t := by
  induction hm : inp.length - lx.st.off using Nat.strongRecOn generalizing lx ps with
  | ind m ih =>
  subst hm
  rw [readPrefixes]
  have hstep := readPrefix_step cx ps hi
  have ho := readPrefix_origin cx ps hi h
  split
  · exact h
  · next lx1 ps' he =>
    rw [he] at ho hstep
    split
    · next hg => exact ih _ hg _ _ hstep.inv (ho _ rfl) rfl
    · exact ho _ rfl

theorem readSuffixes_origin {inp : List Char} (cx : Ctx) (ss : List Tok) (lx : Lx) (hi : Inv inp lx)
    (h : ∀ t ∈ ss, Origin inp cx t) : ∀ t ∈ (readSuffixes inp cx ss lx).2, Origin inp cx t := by
  induction hm : inp.length - lx.st.off using Nat.strongRecOn generalizing lx ss with
  | ind m ih =>
  subst hm
  rw [readSuffixes]
  split
  · exact h
  · next lx1 c he =>
    have hstep := (readComment_spec cx false hi _ he).1
    have ho : ∀ t ∈ ss ++ [c], Origin inp cx t := by
      intro t ht
      rcases List.mem_append.mp ht with ht | ht
      · exact h t ht
      · simp only [List.mem_singleton] at ht
        subst ht; exact .comment false lx hi (by rw [he])
    split
    · next hg => exact ih _ hg _ _ hstep.inv ho rfl
    · exact ho

theorem readTail_origin {inp : List Char} {lx : Lx} (cx : Ctx) (d : Bool) (hi : Inv inp lx) :
    ∀ t ∈ (readTail inp cx d lx).2, Origin inp cx t := by
  unfold readTail
  simp only
  have hs : ∀ t ∈ (if d = true then (lx, []) else readSuffixes inp cx [] lx).2, Origin inp cx t := by
    split
    · simp
    · exact readSuffixes_origin cx [] lx hi (by simp)
  generalize (if d = true then (lx, []) else readSuffixes inp cx [] lx) = s at *
  have hu : ∀ t ∈ (optSpace inp cx s.2 s.1).2, Origin inp cx t := by
    unfold optSpace
    split
    · simp only
      split
      · simp only [List.mem_singleton]
        rintro t rfl
        exact .space rfl rfl
      · simp
    · exact hs
  generalize optSpace inp cx s.2 s.1 = u at *
  unfold optLines
  simp only
  split
  · intro t ht
    rcases List.mem_append.mp ht with ht | ht
    · exact hu t ht
    · simp only [List.mem_singleton] at ht
      subst ht; exact .space rfl rfl
  · exact hu

theorem tokenizeLoop_origin {inp : List Char} (cx : Ctx) (lx : Lx) (hi : Inv inp lx) :
    ∀ t ∈ allPieces (tokenizeLoop inp cx lx).2, Origin inp cx t := by
  induction hm : inp.length - lx.st.off using Nat.strongRecOn generalizing lx with
  | ind m ih =>
  subst hm
  rw [tokenizeLoop]
  obtain ⟨p1, _⟩ := readPrefixes_spec cx lx.st.off [] lx hi
    ⟨⟨Nat.le_refl _, AllIn.empty _ _ _⟩, by simp, by simp⟩ _ rfl
  obtain ⟨q, k1, k2, t1, _⟩ := readMain_spec cx p1.inv _ rfl
  have hread : ∀ t ∈ (read inp cx lx).2.pieces, Origin inp cx t := by
    intro t ht
    unfold read Token.pieces at ht
    simp only at ht
    rcases List.mem_append.mp ht with ht | ht
    · exact readPrefixes_origin cx [] lx hi (by simp) t ht
    · rcases List.mem_cons.mp ht with ht | ht
      · exact .main _ p1.inv ht
      · exact readTail_origin cx _ t1.inv t ht
  simp only
  split
  · simpa [allPieces] using hread
  · next he =>
    have hg := tokenizeLoop_guard cx hi he
    rw [dif_pos hg]
    intro t ht
    simp only [allPieces, List.flatMap_cons, List.mem_append] at ht
    rcases ht with ht | ht
    · exact hread t ht
    · exact ih _ hg _ (read_spec cx hi _ rfl).1.inv rfl t ht

theorem Blank.blank {c : Char} (h : Blank c) : Spec.blank c = true := by
  rcases h with rfl | rfl | rfl | rfl | rfl <;> decide

theorem prefix_blank {k s b : List Char} {z : Char} (hz : ¬ Blank z) (hb : ∀ x ∈ b, Blank x) :
    k ++ [z] <+: s ++ b ↔ k ++ [z] <+: s := by
  constructor
  · rintro ⟨t, ht⟩
    rcases Nat.lt_or_ge k.length s.length with h | h
    · exact List.prefix_of_prefix_length_le ⟨t, ht⟩ (List.prefix_append s b) (by
        rw [List.length_append]; exact h)
    · exfalso
      have h1 : (s ++ b)[k.length]? = some z := by rw [← ht]; simp
      rw [List.getElem?_append_right h] at h1
      exact hz (hb z (List.mem_of_getElem? h1))
  · exact fun h => h.trans (List.prefix_append _ _)

/-- C54: tokens, comments and directives are marked as changed exactly if the line they start
on is one the diff has. -/
theorem diff_flag (inp : List Char) (cx : Ctx) (t : Tok) (ht : t ∈ piecesOf inp cx) :
    t.flags.diff = cx.diff t.lno :=
  (tokenizeLoop_origin cx init (init_inv inp) t ht).diff

/-- C52: the token of a comment that was not joined with another one covers exactly the
comment the input has there, except for white space around it, and is a marker that turns
formatting off or on exactly if it is a one line comment that says so. -/
theorem comment_extent (inp : List Char) (cx : Ctx) (t : Tok) (ht : t ∈ piecesOf inp cx)
    (hc : t.type = .comment) (hj : t.joined = false) :
    ∃ pre c post, t.raw inp = pre ++ c ++ post ∧ (∀ x ∈ pre, Spec.blank x = true) ∧
      (∀ x ∈ post, Spec.blank x = true) ∧
      CommentAt (c ++ post ++ inp.drop t.stop) c t.flags.c99 ∧
      (t.flags.cfOff = true ↔ '\n' ∉ c ∧ " clang-format off".toList <+: c.drop 2) ∧
      (t.flags.cfOn = true ↔ '\n' ∉ c ∧ " clang-format on".toList <+: c.drop 2) := by
  have hcom : ∀ (b : Bool) (lx : Lx), Inv inp lx → (readComment inp cx b lx).2 = some t →
      ∃ pre c post, t.raw inp = pre ++ c ++ post ∧ (∀ x ∈ pre, Spec.blank x = true) ∧
      (∀ x ∈ post, Spec.blank x = true) ∧
      CommentAt (c ++ post ++ inp.drop t.stop) c t.flags.c99 ∧
      (t.flags.cfOff = true ↔ '\n' ∉ c ∧ " clang-format off".toList <+: c.drop 2) ∧
      (t.flags.cfOn = true ↔ '\n' ∉ c ∧ " clang-format on".toList <+: c.drop 2) := by
    intro b lx hi h
    obtain ⟨p, q, h1, h2, h3, h4, h5, h6, h7, h8, _⟩ := readComment_text cx b hi t h
    have hp : ∀ k : List Char, (∃ k' z, k = k' ++ [z] ∧ ¬ Blank z) →
        (k <+: (seg inp p t.stop).drop 2 ↔ k <+: (seg inp p q).drop 2) := by
      rintro k ⟨k', z, rfl, hz⟩
      rw [← seg_append inp h3 h4, List.drop_append_of_le_length (commentAt_length h6)]
      exact prefix_blank hz (fun x hx => seg_all h5 x hx)
    rw [hp _ ⟨" clang-format of".toList, 'f', by decide, by decide⟩] at h7
    rw [hp _ ⟨" clang-format o".toList, 'n', by decide, by decide⟩] at h8
    refine ⟨seg inp t.off p, seg inp p q, seg inp q t.stop, ?_, ?_, ?_, ?_, h7, h8⟩
    · rw [seg_append inp h1 h3, seg_append inp (by omega) h4]; rfl
    · exact fun x hx => (seg_all h2 x hx).blank
    · exact fun x hx => (seg_all h5 x hx).blank
    · rw [List.append_assoc, ← drop_seg inp h4, ← drop_seg inp h3]; exact h6
  cases tokenizeLoop_origin cx init (init_inv inp) t ht with
  | main lx hi h =>
    obtain ⟨_, _, _, _, _, _, _, _, h1, _⟩ := readMain_spec cx hi _ rfl
    rw [← h] at h1; exact absurd hc h1
  | comment b lx hi h => exact hcom b lx hi h
  | cpp lx hi h =>
    exact absurd hc ((readCpp_spec cx hi _ rfl).2.2 t h).2.2.1
  | space h _ => rw [hc] at h; exact absurd h (by decide)
  | joined h _ _ => rw [hj] at h; exact absurd h (by decide)

/-- The types of directives. -/
def Spec.IsDirective (t : TT) : Prop := t = .cpp ∨ ∃ k ∈ cppKeywords, k.2 = t

theorem main_not_directive {inp : List Char} {lx : Lx} (cx : Ctx) (hi : Inv inp lx) :
    ¬ Spec.IsDirective (readMain inp cx lx).2.type := by
  obtain ⟨h, -⟩ := readMain_lexeme cx hi _ rfl
  have hk : ∀ k ∈ keywords ++ aliases, ¬ Spec.IsDirective k.2.1 := by
    unfold Spec.IsDirective; decide +kernel
  generalize (readMain inp cx lx).2.type = ty at h ⊢
  generalize inp.drop (readMain inp cx lx).2.off = rest at h
  generalize (readMain inp cx lx).2.raw inp = raw at h
  have hs : ∀ ty, ty = TT.string ∨ ty = TT.literal ∨ ty = TT.ident ∨ ty = TT.kNone ∨ ty = TT.eof →
      ¬ Spec.IsDirective ty := by
    unfold Spec.IsDirective
    rintro ty (rfl | rfl | rfl | rfl | rfl) <;> decide
  cases h with
  | operator _ _ k _ _ h1 => exact hk k h1
  | keyword _ _ k _ h1 => exact hk k h1
  | quoted => split <;> exact hs _ (by simp)
  | number => exact hs _ (by simp)
  | ident => exact hs _ (by simp)
  | other => exact hs _ (by simp)
  | eof => exact hs _ (by simp)
  | openQuote => exact hs _ (by simp)
  | otherLast => exact hs _ (by simp)

/-- C53, for directives without comments: the token of a directive covers exactly the
directive the input has there, except for white space around it, and its type is
given by the name of the directive. Directives with something that looks like a
comment may extend further, see `quoted_comment_extends_directive`. -/
theorem directive_extent_partial (inp : List Char) (cx : Ctx) (t : Tok) (ht : t ∈ piecesOf inp cx)
    (hd : Spec.IsDirective t.type) (hno : ¬ ['/', '*'] <:+: t.raw inp) :
    ∃ pre d post, t.raw inp = pre ++ d ++ post ∧ (∀ x ∈ pre, Spec.blank x = true) ∧
      (∀ x ∈ post, Spec.blank x = true) ∧
      DirectiveAt (d ++ post ++ inp.drop t.stop) d ∧ t.type = Spec.directiveType (directiveName d) := by
  cases tokenizeLoop_origin cx init (init_inv inp) t ht with
  | main lx hi h => rw [h] at hd; exact absurd hd (main_not_directive cx hi)
  | comment b lx hi h =>
    rw [((readComment_spec cx b hi _ rfl).2.2 t h).2.2.1] at hd
    exact absurd hd (by unfold Spec.IsDirective; decide)
  | cpp lx hi h =>
    obtain ⟨p, q, h1, h2, h3, h4, h5, h6, h7⟩ := readCpp_text cx hi t h
    refine ⟨seg inp t.off p, seg inp p q, seg inp q t.stop, ?_, ?_, ?_, ?_, ?_⟩
    · rw [seg_append inp h1 (by omega), seg_append inp (by omega) h4]; rfl
    · exact fun x hx => (seg_all h2 x hx).blank
    · exact fun x hx => (seg_all h5 x hx).blank
    · rw [List.append_assoc, ← drop_seg inp h4, ← drop_seg inp (by omega)]
      apply h7
      intro hx
      apply hno
      obtain ⟨u, v, huv⟩ := hx
      refine ⟨seg inp t.off p ++ u, v ++ seg inp q t.stop, ?_⟩
      rw [show t.raw inp = seg inp t.off t.stop from rfl, ← seg_append inp h1 (show p ≤ t.stop by omega),
        ← seg_append inp (show p ≤ q by omega) h4, ← huv]
      simp
    · exact h6
  | space h _ => rw [h] at hd; exact absurd hd (by unfold Spec.IsDirective; decide)
  | joined _ h _ => rw [h] at hd; exact absurd hd (by unfold Spec.IsDirective; decide)

/-- A string with `/*` in a directive makes it extend over the lines that follow, although
none of its lines is continued (clang.c:1192-1213). -/
theorem quoted_comment_extends_directive :
    ((piecesOf "#define A \"/*\"\nint x;\n".toList demoCx).map
      (fun t => (t.type, t.raw "#define A \"/*\"\nint x;\n".toList))) =
    [(.cppDefine, "#define A \"/*\"\nint x;\n".toList), (.eof, [])] := by
  decide +kernel

/-- `/*/` in a directive is taken for a comment, and so ends one; the code after it is part
of the directive only up to the end of the line, although the comment goes on. -/
theorem slash_star_slash_in_directive :
    ((piecesOf "#define A /*/\nb */\n".toList demoCx).map
      (fun t => (t.type, t.raw "#define A /*/\nb */\n".toList))).head? =
    some (.cppDefine, "#define A /*/\n".toList) := by
  decide +kernel

/-- Comments and a directive: what is covered, without the white space. -/
example : ((piecesOf "/* a\n * b */\n#  define X \\\n\t1\n// c\n  // d\nint x; // e\n".toList demoCx).map
      (fun t => (t.type, t.flags.c99,
        t.raw "/* a\n * b */\n#  define X \\\n\t1\n// c\n  // d\nint x; // e\n".toList))).filter
        (fun x => x.1 ≠ .space) =
    [(.comment, false, "/* a\n * b */\n".toList), (.cppDefine, false, "#  define X \\\n\t1\n".toList),
     (.comment, true, "// c\n  // d\n".toList), (.kInt, false, "int".toList), (.ident, false, "x".toList),
     (.semi, false, ";".toList), (.comment, true, " // e".toList), (.eof, false, [])] := by
  decide +kernel

/-- Markers. -/
example : ((piecesOf "/* clang-format off */\nint x;\n\t// clang-format on\n/*\n clang-format off */".toList
      { demoCx with diff := fun n => n = 2 }).filter (fun t => t.type ≠ .space)).map
      (fun t => (t.flags.cfOff, t.flags.cfOn, t.flags.diff)) =
    [(true, false, false), (false, false, true), (false, false, true), (false, false, true),
     (false, true, false), (false, false, false), (false, false, false)] := by
  decide +kernel

end Knfmt.Lexer
