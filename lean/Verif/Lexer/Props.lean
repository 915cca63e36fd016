import Verif.Lexer.Operator
/-! # Properties of the reader: C10, C11, C12, C13, C17 -/
namespace Knfmt.Lexer

open Knfmt.Str Knfmt.Util Knfmt.Spec

theorem wide_spec {inp : List Char} {lx : Lx} (ch : Char) (hi : Inv inp lx)
    (r : Char × Lx) (hr : wide inp ch lx = r) :
    Step inp lx r.2 ∧ (r.1 = ch ∨ r.1 = '"' ∨ r.1 = '\'') ∧ (ch ≠ 'L' → r = (ch, lx)) := by
  have hL : ch ≠ 'L' → r = (ch, lx) := fun h => by rw [← hr]; unfold wide; rw [if_neg h]
  refine ⟨?_, ?_, hL⟩ <;> clear hL <;> unfold wide at hr
  · split at hr
    · split at hr
      · next hg =>
        subst hr
        have : ungetc inp lx = lx := by unfold ungetc; rw [(getc_none hi).mp hg]; rfl
        simp only [this]
        exact Step.refl hi
      · next c lx' hg =>
        split at hr
        · next hq => subst hr; exact (getc_some hi hg).1
        · subst hr; exact (ungetc_getc hi hg).1
    · subst hr; exact Step.refl hi
  · split at hr
    · split at hr
      · subst hr; exact Or.inl rfl
      · split at hr
        · next hq => subst hr; exact Or.inr hq
        · subst hr; exact Or.inl rfl
    · subst hr; exact Or.inl rfl

theorem inRanges_ident_nl : ¬ InRanges identRanges '\n' := by
  unfold InRanges identRanges; decide

theorem readOther_spec {inp : List Char} {lx : Lx} (cx : Ctx) (hi : Inv inp lx)
    (r : Lx × Tok) (hr : readOther inp cx lx = r) :
    Step inp lx r.1 ∧ Good inp cx lx.st.off r.1.st.off r.2 ∧ r.2.off = lx.st.off ∧
    r.2.stop = r.1.st.off ∧ r.2.joined = false ∧
    r.2.type ≠ .comment ∧ r.2.type ≠ .space ∧ r.2.flags.discard = false ∧
    (r.2.type = .eof → r.1.st.off = inp.length) ∧
    (r.2.type ≠ .eof → lx.st.off < r.1.st.off) := by
  -- emitting a token without a string of its own
  have hemit : ∀ (lx' : Lx) (ty : TT), Step inp lx lx' → ty ≠ .comment → ty ≠ .space → ty ≠ .cppDefine →
      Good inp cx lx.st.off lx'.st.off (emit inp cx lx' lx.st ty {}) := by
    intro lx' ty hs h1 h2 h3
    have hsv := hi.saved.step hs
    refine ⟨emit_located cx _ _ hs.inv hsv, Or.inl ⟨rfl, _, emit_text cx _ _ hs.inv hsv, ?_⟩,
      Nat.le_refl _, AllIn.empty _ _ _, Nat.le_refl _, AllIn.empty _ _ _⟩
    show TextOf cx ty _ _
    unfold TextOf
    split
    · contradiction
    · contradiction
    · contradiction
    · rfl
  unfold readOther at hr
  split at hr
  · next hg =>
    subst hr
    have := hi.st.eof ((getc_none hi).mp hg)
    exact ⟨Step.refl hi, hemit lx .eof (Step.refl hi) (by decide) (by decide) (by decide), rfl, rfl, rfl,
      by simp [emit], by simp [emit], rfl, fun _ => this, fun h => absurd rfl h⟩
  · next ch0 lx0 hg =>
    obtain ⟨g1, g1'⟩ := getc_some hi hg
    obtain ⟨w1, w2, w3⟩ := wide_spec ch0 g1.inv _ rfl
    simp only at hr
    generalize wide inp ch0 lx0 = w at hr w1 w2 w3
    have hpos : ∀ lx', Step inp w.2 lx' → w.1 ≠ '\x00' → lx.st.off < lx'.st.off := by
      intro lx' hs hne
      have h2 := w1.off; have h3 := hs.off
      rcases g1' with h | h
      · omega
      · exact absurd (by rw [w3 (by rw [h.2.1]; decide), h.2.1]) hne
    have hmk : ∀ (lx' : Lx) (ty : TT), Step inp w.2 lx' → ty ≠ .comment → ty ≠ .space → ty ≠ .cppDefine →
        (ty = .eof → lx'.st.off = inp.length) → (ty ≠ .eof → lx.st.off < lx'.st.off) →
        (lx', emit inp cx lx' lx.st ty {}) = r →
        Step inp lx r.1 ∧ Good inp cx lx.st.off r.1.st.off r.2 ∧ r.2.off = lx.st.off ∧
        r.2.stop = r.1.st.off ∧ r.2.joined = false ∧
        r.2.type ≠ .comment ∧ r.2.type ≠ .space ∧ r.2.flags.discard = false ∧
        (r.2.type = .eof → r.1.st.off = inp.length) ∧
        (r.2.type ≠ .eof → lx.st.off < r.1.st.off) := by
      intro lx' ty hs h1 h2 h3 h4 h5 he
      subst he
      have hs' := (g1.trans w1).trans hs
      exact ⟨hs', hemit lx' ty hs' h1 h2 h3, rfl, rfl, rfl, h1, h2, rfl, h4, h5⟩
    split at hr
    · next hq =>
      have hne : w.1 ≠ '\x00' := by rcases hq with h | h <;> rw [h] <;> decide
      obtain ⟨s1, s2⟩ := stringLoop_step inp w.1 w.1 w.2 w1.inv _ rfl
      split at hr
      · refine hmk _ _ s1 ?_ ?_ ?_ ?_ (fun _ => hpos _ s1 hne) hr
        · split <;> decide
        · split <;> decide
        · split <;> decide
        · split <;> (intro h; simp at h)
      · next hf =>
        exact hmk _ _ s1 (by decide) (by decide) (by decide) (fun _ => s2 (by simpa using hf))
          (fun h => absurd rfl h) hr
    · split at hr
      · next hd =>
        have hne : w.1 ≠ '\x00' := by intro h; rw [h] at hd; exact absurd hd (by decide)
        obtain ⟨s1, s2⟩ := numLoop_step inp w.2 w1.inv _ rfl
        split at hr
        · exact hmk _ _ s1 (by decide) (by decide) (by decide) (fun h => by simp at h)
            (fun _ => hpos _ s1 hne) hr
        · next hf =>
          exact hmk _ _ s1 (by decide) (by decide) (by decide) (fun _ => s2 (by simpa using hf))
            (fun h => absurd rfl h) hr
      · split at hr
        · next ha =>
          have hne : w.1 ≠ '\x00' := by intro h; rw [h] at ha; exact absurd ha (by decide)
          obtain ⟨m1, m2, m3, m4⟩ := span_step w1.inv identRanges identRanges_ascii inRanges_ident_nl
          split at hr
          · next kw hk =>
            have hs' := (g1.trans w1).trans m1
            have hsv := hi.saved.step hs'
            have hlt := hpos _ m1 hne
            rw [findKeyword_eq hlt] at hk
            obtain ⟨k1, k2⟩ := findKeyword1_some hk
            have hloc := emit_located cx kw.2.1 kw.2.2 m1.inv hsv
            have htt := table_types kw k1
            have hdisc : kw.2.2.discard = false := by
              cases hdc : kw.2.2.discard with
              | false => rfl
              | true =>
                exfalso
                have hbs := (table_discard kw k1).mp hdc
                rw [k2] at hbs
                have hw : w.1 = ch0 := by
                  rcases w2 with h | h | h
                  · exact h
                  · rw [h] at ha; exact absurd ha (by decide)
                  · rw [h] at ha; exact absurd ha (by decide)
                rcases g1' with h | h
                · have h0 := congrArg (fun l => l[0]?) hbs
                  simp only [seg, List.getElem?_take, List.getElem?_drop] at h0
                  rw [if_pos (by omega), Nat.add_zero, h.1] at h0
                  simp at h0
                  rw [hw, h0] at ha; exact absurd ha (by decide)
                · exact hne (by rw [hw, h.2.1])
            subst hr
            refine ⟨hs', ⟨⟨hloc.le, hloc.stop, hloc.lno, hloc.cno⟩, Or.inl ⟨rfl, kw.1, rfl, ?_⟩,
              Nat.le_refl _, AllIn.empty _ _ _, Nat.le_refl _, AllIn.empty _ _ _⟩, rfl, rfl, rfl,
              htt.1, htt.2.1, hdisc, fun h => absurd h htt.2.2.1, fun _ => hlt⟩
            show TextOf cx kw.2.1 (seg inp _ _) kw.1
            rw [k2]
            unfold TextOf
            split
            · next h => exact absurd h htt.1
            · next h => exact absurd h htt.2.2.2
            · next h => exact absurd h htt.2.1
            · rfl
          · exact hmk _ _ m1 (by decide) (by decide) (by decide) (fun h => by simp at h)
              (fun _ => hpos _ m1 hne) hr
        · split at hr
          · next he =>
            refine hmk _ _ (Step.refl w1.inv) (by decide) (by decide) (by decide) (fun _ => ?_)
              (fun h => absurd rfl h) hr
            simpa [isEof] using he
          · next he =>
            refine hmk _ _ (Step.refl w1.inv) (by decide) (by decide) (by decide) (fun h => by simp at h)
              (fun _ => ?_) hr
            rcases g1' with h | h
            · have := w1.off; omega
            · exfalso
              apply he
              rw [w3 (by rw [h.2.1]; decide), h.2.2.2]
              simp [isEof, h.1]

/-! ## One token -/

/-- A token, its prefixes and its suffixes, in the order of the input. -/
def Token.pieces (t : Token) : List Tok := t.prefixes ++ t.tok :: t.suffixes

theorem PInv.covers {inp : List Char} {cx : Ctx} {a : Nat} {ps : List Tok} {lx : Lx}
    (h : PInv inp cx a ps lx) : Covers inp cx a ps lx.st.off := ⟨h.chain, h.all⟩

theorem LongestOperator.unique {rest o o' : List Char} (h : LongestOperator rest o)
    (h' : LongestOperator rest o') : o = o' := by
  have hl : o.length = o'.length := Nat.le_antisymm (h'.2.2 o h.1 h.2.1) (h.2.2 o' h'.1 h'.2.1)
  rw [List.prefix_iff_eq_take.mp h.2.1, List.prefix_iff_eq_take.mp h'.2.1, hl]

/-- If the input has an operator where the token starts, then the token is the longest
such operator. -/
def Greedy (inp : List Char) (t : Tok) : Prop :=
  ∀ o, LongestOperator (inp.drop t.off) o → ¬ StartsFraction (inp.drop t.off) → t.raw inp = o

/-- The token itself: it starts after blanks, at `q`. -/
theorem readMain_spec {inp : List Char} {lx : Lx} (cx : Ctx) (hi : Inv inp lx)
    (t : Lx × Tok) (ht : readMain inp cx lx = t) :
    ∃ q, lx.st.off ≤ q ∧ AllIn inp Blank lx.st.off q ∧
    Step inp lx t.1 ∧ Covers inp cx q [t.2] t.1.st.off ∧ q ≤ t.1.st.off ∧
    (t.2.type = .eof → t.1.st.off = inp.length) ∧ (t.2.type ≠ .eof → q < t.1.st.off) ∧
    t.2.type ≠ .comment ∧ t.2.type ≠ .space ∧ t.2.joined = false ∧ Greedy inp t.2 := by
  obtain ⟨q, k1, k2, k3, k4, k5, k6, k7, k8⟩ := readKeyword_spec cx hi _ rfl
  refine ⟨q, k1, k2, ?_⟩
  unfold readMain at ht
  generalize readKeyword inp cx lx = k at *
  simp only at ht
  split at ht
  · next tk hk =>
    subst ht
    obtain ⟨a1, a2, a3, a4, ⟨kw, a5, a6, a7, a8⟩, a9, a10⟩ := k7 tk hk
    have := table_types kw a5
    refine ⟨⟨k4, k5, by simp only; omega⟩, a1.covers, k6, fun h => ?_, fun _ => a4, ?_, ?_, a9, ?_⟩
    · rw [a6] at h; exact absurd h this.2.2.1
    · rw [a6]; exact this.1
    · rw [a6]; exact this.2.1
    · intro o ho _
      rw [a2] at ho
      exact LongestOperator.unique a10 ho
  · next hk =>
    obtain ⟨b1, b2⟩ := k8 hk
    obtain ⟨o1, o2, o3, o4, o5, o6, o7, o8, o9, o10⟩ := readOther_spec cx k4 _ ht
    rw [b1] at o2 o10 o3
    exact ⟨(⟨k4, k5, by omega⟩ : Step inp lx k.1).trans o1, o2.covers, by have := o1.off; omega, o9, o10,
      o6, o7, o5, fun o ho hf => by
        rw [o3] at ho hf
        rcases b2 with b | b
        · exact absurd ho.2.1 (b o ho.1)
        · exact absurd b hf⟩

theorem readTail_spec {inp : List Char} {lx : Lx} (cx : Ctx) (d : Bool) (hi : Inv inp lx)
    (v : Lx × List Tok) (hv : readTail inp cx d lx = v) :
    Step inp lx v.1 ∧ Covers inp cx lx.st.off v.2 v.1.st.off := by
  unfold readTail at hv
  have hs : Step inp lx (if d = true then (lx, []) else readSuffixes inp cx [] lx).1 ∧
      Covers inp cx lx.st.off (if d = true then (lx, []) else readSuffixes inp cx [] lx).2
        (if d = true then (lx, []) else readSuffixes inp cx [] lx).1.st.off := by
    split
    · exact ⟨Step.refl hi, Covers.nil _ _ _⟩
    · exact readSuffixes_spec cx lx.st.off [] lx hi (Covers.nil _ _ _) _ rfl
  generalize (if d = true then (lx, []) else readSuffixes inp cx [] lx) = s at hv hs
  obtain ⟨s1, s2⟩ := hs
  obtain ⟨u1, u2⟩ := optSpace_spec cx lx.st.off s.2 s.1 s1.inv s2 _ rfl
  simp only at hv
  generalize optSpace inp cx s.2 s.1 = u at *
  obtain ⟨v1, v2⟩ := optLines_spec cx lx.st.off u.2 u.1 u1.inv u2 _ hv
  exact ⟨(s1.trans u1).trans v1, v2⟩

/-- `clang_read`: the token, its prefixes and its suffixes cover what was read. -/
theorem read_spec {inp : List Char} {lx : Lx} (cx : Ctx) (hi : Inv inp lx)
    (r : Lx × Token) (hr : read inp cx lx = r) :
    Step inp lx r.1 ∧ Covers inp cx lx.st.off r.2.pieces r.1.st.off ∧
    (r.2.tok.type = .eof → r.1.st.off = inp.length) ∧
    (r.2.tok.type ≠ .eof → lx.st.off < r.1.st.off) ∧
    r.2.tok.type ≠ .comment ∧ r.2.tok.type ≠ .space ∧ r.2.tok.joined = false ∧
    Greedy inp r.2.tok := by
  unfold read at hr
  simp only at hr
  obtain ⟨p1, p2⟩ := readPrefixes_spec cx lx.st.off [] lx hi
    ⟨⟨Nat.le_refl _, AllIn.empty _ _ _⟩, by simp, by simp⟩ _ rfl
  have p2 := p2.covers
  generalize readPrefixes inp cx [] lx = p at *
  obtain ⟨q, k1, k2, t1, t2, t3, t4, t5, t6, t7, t8⟩ := readMain_spec cx p1.inv _ rfl
  generalize readMain inp cx p.1 = t at *
  obtain ⟨v1, v2⟩ := readTail_spec cx t.2.flags.discard t1.inv _ rfl
  generalize readTail inp cx t.2.flags.discard t.1 = v at *
  have hq : Covers inp cx lx.st.off p.2 q := by
    have := Covers.append p2 (⟨⟨k1, k2⟩, by simp⟩ : Covers inp cx p.1.st.off [] q)
    simpa using this
  subst hr
  refine ⟨(p1.trans t1).trans v1, ?_, ?_, ?_, t6, t7, t8⟩
  · have := (hq.append t2).append v2
    simpa [Token.pieces] using this
  · intro h
    have h1 := t4 h
    have h2 := v1.off
    have h3 := v1.inv.st.le
    simp only; omega
  · intro h
    have h1 := t5 h
    have h2 := v1.off
    have h3 := p1.off
    simp only; omega

/-- The test on what is left in `tokenizeLoop` is always true. -/
theorem tokenizeLoop_guard {inp : List Char} {lx : Lx} (cx : Ctx) (hi : Inv inp lx)
    (h : (read inp cx lx).2.tok.type ≠ .eof) :
    inp.length - (read inp cx lx).1.st.off < inp.length - lx.st.off := by
  obtain ⟨h1, _, _, h4, _⟩ := read_spec cx hi _ rfl
  have := h4 h
  have := h1.inv.st.le
  omega

/-- All tokens with their prefixes and suffixes, in order. -/
def allPieces (ts : List Token) : List Tok := ts.flatMap Token.pieces

theorem tokenizeLoop_spec {inp : List Char} (cx : Ctx) (lx : Lx) (hi : Inv inp lx)
    (r : Lx × List Token) (hr : tokenizeLoop inp cx lx = r) :
    Step inp lx r.1 ∧ Covers inp cx lx.st.off (allPieces r.2) inp.length ∧
    r.1.st.off = inp.length ∧
    (∃ ts t, r.2 = ts ++ [t] ∧ t.tok.type = .eof ∧ ∀ u ∈ ts, u.tok.type ≠ .eof) ∧
    (∀ t ∈ r.2, t.tok.type ≠ .comment ∧ t.tok.type ≠ .space ∧ t.tok.joined = false ∧
      Greedy inp t.tok) := by
  induction hm : inp.length - lx.st.off using Nat.strongRecOn generalizing lx r with
  | ind m ih =>
  subst hm
  rw [tokenizeLoop] at hr
  obtain ⟨a1, a2, a3, a4, a5⟩ := read_spec cx hi _ rfl
  simp only at hr
  split at hr
  · next he =>
    subst hr
    refine ⟨a1, ?_, a3 he, ⟨[], _, rfl, he, by simp⟩, by simp only [List.mem_singleton]; rintro t rfl; exact a5⟩
    simp only [allPieces, List.flatMap_cons, List.flatMap_nil, List.append_nil]
    rw [← a3 he]; exact a2
  · next he =>
    have hg := tokenizeLoop_guard cx hi he
    rw [dif_pos hg] at hr
    obtain ⟨i1, i2, i3, ⟨ts, t, i4, i5, i6⟩, i7⟩ := ih _ hg _ a1.inv _ rfl rfl
    subst hr
    refine ⟨a1.trans i1, ?_, i3, ⟨(read inp cx lx).2 :: ts, t, by simp only [i4]; rfl, i5, ?_⟩, ?_⟩
    · simp only [allPieces, List.flatMap_cons]
      exact a2.append i2
    · intro u hu
      rcases List.mem_cons.mp hu with h | h
      · rw [h]; exact he
      · exact i6 u h
    · intro u hu
      rcases List.mem_cons.mp hu with h | h
      · rw [h]; exact a5
      · exact i7 u h

end Knfmt.Lexer
