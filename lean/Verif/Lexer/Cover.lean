import Verif.Lexer.Lemmas
/-! # Every byte of the input ends up in a token or is a skipped blank -/
namespace Knfmt.Lexer

open Knfmt.Str Knfmt.Util Knfmt.Spec

theorem peekC99_true {inp : List Char} {lx : Lx} (hi : Inv inp lx) (h : (peekC99 inp lx).2 = true) :
    ∃ k, lx.st.off ≤ k ∧ AllIn inp (fun c => c = ' ' ∨ c = '\x0c' ∨ c = '\t') lx.st.off k ∧
      inp[k]? = some '/' := by
  obtain ⟨s1, s2, _⟩ := eatSpaces_spec hi
  unfold peekC99 at h
  simp only at h
  split at h
  · simp at h
  · next c lx2 hg =>
    obtain ⟨hs, h1⟩ := getc_some s1.inv hg
    split at h
    · simp at h
    · next hc =>
      have hc : c = '/' := by simpa using hc
      subst hc
      have h1 := h1.resolve_right (by simp)
      exact ⟨_, s1.off, s2, h1.1⟩

/-- The position is followed by spaces and a slash. -/
def SlashAhead (inp : List Char) (off : Nat) : Prop :=
  ∃ k, off ≤ k ∧ AllIn inp (fun c => c = ' ' ∨ c = '\x0c' ∨ c = '\t') off k ∧ inp[k]? = some '/'

/-- No line feed is skipped in front of spaces and a slash. -/
theorem no_line_before_slash {inp : List Char} {lx : Lx} (hi : Inv inp lx) (st : St)
    (h : SlashAhead inp lx.st.off) : (eatLinesAndSpaces inp lx st).2 = st := by
  obtain ⟨k, hk, hsp, hsl⟩ := h
  obtain ⟨e1, e2, e3, e4, e5⟩ := eatLinesAndSpaces_spec hi st
  apply e4
  have hle : (eatLinesAndSpaces inp lx st).1.st.off ≤ k := by
    apply Nat.le_of_not_lt
    intro hlt
    obtain ⟨c, hc, hb⟩ := e2 k hk hlt
    rw [hsl] at hc
    simp at hc; subst hc
    revert hb; decide
  rw [e1.inv.st.lno, hi.st.lno]
  congr 1
  refine count_take_of_allIn e1.off ?_
  intro i h1 h2
  obtain ⟨c, hc, hb⟩ := hsp i h1 (by omega)
  exact ⟨c, hc, by rcases hb with h | h | h <;> subst h <;> decide⟩

theorem commentExtent_spec (inp : List Char) (block : Bool) (lx : Lx) (st : St) (o : Bool)
    (hi : Inv inp lx) (hst : Saved inp lx st) (r : Lx × Option (St × Bool × Bool))
    (hr : commentExtent inp block lx st o = r) :
    Step inp lx r.1 ∧
    ∀ st' o' c, r.2 = some (st', o', c) →
      Saved inp r.1 st' ∧ lx.st.off + 2 ≤ r.1.st.off ∧
      (st' = st ∨ (lx.st.off < st'.off ∧ AllIn inp Blank lx.st.off st'.off ∧ lx.st.lno < st'.lno)) ∧
      (SlashAhead inp lx.st.off → st' = st) := by
  induction hm : inp.length - lx.st.off using Nat.strongRecOn generalizing lx st o with
  | ind m ih =>
  subst hm
  rw [commentExtent] at hr
  have he : ∀ e, e = (if block then eatLinesAndSpaces inp lx st else ((eatSpaces inp lx).1, st)) →
      Step inp lx e.1 ∧ Saved inp e.1 e.2 ∧
      (e.2 = st ∨ (lx.st.off < e.2.off ∧ AllIn inp Blank lx.st.off e.2.off ∧ lx.st.lno < e.2.lno)) ∧
      (SlashAhead inp lx.st.off → e.2 = st) := by
    intro e he
    split at he
    · subst he
      obtain ⟨e1, e2, e3, e4, e5⟩ := eatLinesAndSpaces_spec hi st
      rcases Nat.lt_or_ge lx.st.lno (eatLinesAndSpaces inp lx st).1.st.lno with h | h
      · obtain ⟨a, b, c, d⟩ := e5 h
        exact ⟨e1, a, Or.inr ⟨b, fun i h1 h2 => e2 i h1 (by have := a.off; omega), by omega⟩,
          no_line_before_slash hi st⟩
      · have := e4 (by omega)
        rw [this]
        exact ⟨e1, hst.step e1, Or.inl rfl, fun _ => rfl⟩
    · subst he
      obtain ⟨s1, _⟩ := eatSpaces_spec hi
      exact ⟨s1, hst.step s1, Or.inl rfl, fun _ => rfl⟩
  simp only at hr
  generalize hge : (if block then eatLinesAndSpaces inp lx st else ((eatSpaces inp lx).1, st)) = e at hr
  obtain ⟨e1, e2, e3, e4⟩ := he e hge.symm
  split at hr
  · subst hr; exact ⟨e1, by simp⟩
  · next c1 lx1 hg1 =>
    obtain ⟨g1, g1'⟩ := getc_some e1.inv hg1
    split at hr
    · subst hr; exact ⟨e1.trans g1, by simp⟩
    · next hc1 =>
      have hc1 : c1 = '/' := by simpa using hc1
      subst hc1
      have g1' := g1'.resolve_right (by simp)
      split at hr
      · subst hr; exact ⟨e1.trans g1, by simp⟩
      · next c2 lx2 hg2 =>
        obtain ⟨g2, g2'⟩ := getc_some g1.inv hg2
        have hstep2 := (e1.trans g1).trans g2
        split at hr
        · next hc2 =>
          subst hc2
          have g2' := g2'.resolve_right (by simp)
          have hoff2 : lx.st.off + 2 ≤ lx2.st.off := by have := e1.off; omega
          obtain ⟨l1, l2, l3⟩ := c99Line_step inp lx2 g2.inv _ rfl
          split at hr
          · next hl =>
            obtain ⟨p1, p2⟩ := peekC99_spec l1.inv
            obtain ⟨m1, m2, m3, m4⟩ := l2 hl
            have hpoff : (peekC99 inp (c99Line inp lx2).1).1.st.off = (c99Line inp lx2).1.st.off := by
              rw [p2]
            split at hr
            · next hp =>
              split at hr
              · next hgd =>
                have hsv : Saved inp (peekC99 inp (c99Line inp lx2).1).1 e.2 :=
                  (((e2.step g1).step g2).step l1).step p1
                obtain ⟨i1, i2⟩ := ih _ hgd _ _ _ p1.inv hsv hr rfl
                refine ⟨((hstep2.trans l1).trans p1).trans i1, ?_⟩
                intro st' o' c hst'
                obtain ⟨j1, j2, j3, j4⟩ := i2 st' o' c hst'
                have hsl := peekC99_true l1.inv hp
                rw [← hpoff] at hsl
                have := j4 hsl
                subst this
                exact ⟨j1, by omega, e3, e4⟩
              · subst hr
                exact ⟨(hstep2.trans l1).trans p1, by simp⟩
            · subst hr
              obtain ⟨u1, u2, u3⟩ := ungetc_inv p1.inv (by rw [p2]; exact m4) (by omega)
              have hs3 := (hstep2.trans l1).trans p1
              have hstu : Step inp lx2 (ungetc inp (peekC99 inp (c99Line inp lx2).1).1) :=
                ⟨u1, by rw [u3]; exact (l1.trans p1).lines, by omega⟩
              refine ⟨hstep2.trans hstu, ?_⟩
              intro st' o' c hst'
              simp only [Option.some.injEq, Prod.mk.injEq] at hst'
              obtain ⟨rfl, -, -⟩ := hst'
              exact ⟨((e2.step g1).step g2).step hstu, by have := hstu.off; simp only; omega, e3, e4⟩
          · subst hr
            refine ⟨hstep2.trans l1, ?_⟩
            intro st' o' c hst'
            simp only [Option.some.injEq, Prod.mk.injEq] at hst'
            obtain ⟨rfl, -, -⟩ := hst'
            exact ⟨((e2.step g1).step g2).step l1, by have := l1.off; simp only; omega, e3, e4⟩
        · split at hr
          · next hc2 =>
            subst hc2
            have g2' := g2'.resolve_right (by simp)
            have hoff2 : lx.st.off + 2 ≤ lx2.st.off := by have := e1.off; omega
            have b1 := blockLoop_step inp '\x00' o lx2 g2.inv _ rfl
            subst hr
            refine ⟨hstep2.trans b1, ?_⟩
            intro st' o' c hst'
            simp only [Option.some.injEq, Prod.mk.injEq] at hst'
            obtain ⟨rfl, -, -⟩ := hst'
            exact ⟨((e2.step g1).step g2).step b1, by have := b1.off; simp only; omega, e3, e4⟩
          · subst hr; exact ⟨hstep2, by simp⟩

/-! ## Text of tokens -/

/-- How the text `s` of a token of type `t` relates to the part `raw` of the input it
covers. -/
def TextOf (cx : Ctx) (t : TT) (raw s : List Char) : Prop :=
  match t with
  | .comment => (Comment.commentTrim cx.usetabs raw = .unchanged ∧ s = raw) ∨
      Comment.commentTrim cx.usetabs raw = .text s
  | .cppDefine => s = (cx.align raw).getD raw
  | .space => s = raw ∨ (s = ['\n'] ∧ '\n' ∈ raw ∧ ∀ c ∈ raw, Blank c)
  | _ => s = raw

/-- The part of the input covered by a token. -/
def Tok.raw (inp : List Char) (t : Tok) : List Char := seg inp t.off t.stop

/-- A token that is not the result of `token_prolong` has the text it should. -/
def TextOk (inp : List Char) (cx : Ctx) (t : Tok) : Prop :=
  (t.joined = false ∧ ∃ s, t.str.text inp = some s ∧ TextOf cx t.type (t.raw inp) s) ∨
  (t.joined = true ∧ t.type = .comment ∧ ∃ n, t.str = .src t.off n)

/-- The tokens cover the input from `a` to `b`, except for blanks. -/
def Chain (inp : List Char) : Nat → List Tok → Nat → Prop
  | a, [], b => a ≤ b ∧ AllIn inp Blank a b
  | a, t :: ts, b => a ≤ t.off ∧ AllIn inp Blank a t.off ∧ t.off ≤ t.stop ∧ Chain inp t.stop ts b

theorem Chain.le {inp : List Char} {a b : Nat} {ts : List Tok} (h : Chain inp a ts b) : a ≤ b := by
  induction ts generalizing a with
  | nil => exact h.1
  | cons t ts ih => have := ih h.2.2.2; have := h.1; have := h.2.2.1; omega

theorem Chain.append {inp : List Char} {a b c : Nat} {xs ys : List Tok} (h : Chain inp a xs b)
    (h' : Chain inp b ys c) : Chain inp a (xs ++ ys) c := by
  induction xs generalizing a with
  | nil =>
    cases ys with
    | nil => exact ⟨Nat.le_trans h.1 h'.1, h.2.append h'.2⟩
    | cons y ys => exact ⟨Nat.le_trans h.1 h'.1, h.2.append h'.2.1, h'.2.2⟩
  | cons x xs ih => exact ⟨h.1, h.2.1, h.2.2.1, ih h.2.2.2⟩

theorem Chain.one {inp : List Char} {a b : Nat} {t : Tok} (h1 : a ≤ t.off)
    (h2 : AllIn inp Blank a t.off) (h3 : t.off ≤ t.stop) (h4 : t.stop ≤ b)
    (h5 : AllIn inp Blank t.stop b) : Chain inp a [t] b := ⟨h1, h2, h3, h4, h5⟩

/-- What is known about a token read between positions `a` and `b`. -/
structure Good (inp : List Char) (cx : Ctx) (a b : Nat) (t : Tok) : Prop where
  loc : Located inp t
  text : TextOk inp cx t
  le : a ≤ t.off
  gap : AllIn inp Blank a t.off
  stop : t.stop ≤ b
  gap' : AllIn inp Blank t.stop b

theorem Good.chain {inp : List Char} {cx : Ctx} {a b : Nat} {t : Tok} (h : Good inp cx a b t) :
    Chain inp a [t] b := Chain.one h.le h.gap h.loc.le h.stop h.gap'

theorem senseClangFormat_c (s : List Char) (fl : Flags) :
    senseClangFormat s fl = fl ∨ senseClangFormat s fl = { fl with cfOff := true } ∨
      senseClangFormat s fl = { fl with cfOn := true } := by
  unfold senseClangFormat
  simp only
  split
  · left; rfl
  · split
    · split
      · right; left; rfl
      · split
        · right; right; rfl
        · left; rfl
    · left; rfl

/-- The comment token before and after trimming. -/
theorem trimmed_spec {inp : List Char} (cx : Ctx) (t : Tok) (raw : List Char)
    (h : t.str.text inp = some raw) (hj : t.joined = false) (ht : t.type = .comment)
    (hr : t.raw inp = raw) :
    TextOk inp cx (trimmed cx inp t) ∧ (trimmed cx inp t).off = t.off ∧
    (trimmed cx inp t).stop = t.stop ∧ (trimmed cx inp t).lno = t.lno ∧
    (trimmed cx inp t).cno = t.cno ∧ (trimmed cx inp t).type = t.type ∧
    (trimmed cx inp t).flags = t.flags ∧ (trimmed cx inp t).joined = t.joined ∧
    (raw.getLast? ≠ some '\n' → (trimmed cx inp t).str = t.str) := by
  unfold trimmed
  rw [h]
  simp only
  have hd := Comment.comment_trim_defined cx.usetabs raw
  split
  · next hu =>
    refine ⟨Or.inl ⟨hj, raw, h, ?_⟩, rfl, rfl, rfl, rfl, rfl, rfl, rfl, fun _ => rfl⟩
    rw [ht, hr]; exact Or.inl ⟨hu, rfl⟩
  · next s' hs =>
    refine ⟨Or.inl ⟨hj, s', rfl, ?_⟩, rfl, rfl, rfl, rfl, rfl, rfl, rfl, fun hl => ?_⟩
    · simp only [ht]
      right
      show Comment.commentTrim cx.usetabs (t.raw inp) = _
      rw [hr]
      exact hs
    · rw [hd.2.mpr hl] at hs; simp at hs
  · next hu => exact absurd hu hd.1

theorem count_take_le (inp : List Char) {a b : Nat} (h : a ≤ b) :
    (inp.take a).count '\n' ≤ (inp.take b).count '\n' := by
  rw [show b = a + (b - a) by omega, List.take_add, List.count_append]
  omega

theorem seg_getLast_count {inp : List Char} {a b : Nat} (hab : a ≤ b)
    (h : (inp.take a).count '\n' = (inp.take b).count '\n') : '\n' ∉ seg inp a b := by
  rw [show b = a + (b - a) by omega, List.take_add, List.count_append] at h
  have : List.count '\n' ((inp.drop a).take (b - a)) = 0 := by omega
  exact List.count_eq_zero.mp this

/-- `clang_read_comment`. -/
theorem readComment_spec {inp : List Char} {lx : Lx} (cx : Ctx) (block : Bool) (hi : Inv inp lx)
    (r : Lx × Option Tok) (hr : readComment inp cx block lx = r) :
    Step inp lx r.1 ∧ (r.2 = none → r.1.st = lx.st) ∧
    ∀ t, r.2 = some t → Good inp cx lx.st.off r.1.st.off t ∧ lx.st.off < r.1.st.off ∧
      t.type = .comment ∧ t.joined = false ∧
      (t.off = lx.st.off ∨ lx.st.lno < t.lno) ∧
      ('\n' ∉ t.raw inp → t.str = .src t.off (t.stop - t.off)) ∧
      (r.1.st.lno = 1 + (inp.take t.stop).count '\n' → r.1.st.off = t.stop) := by
  unfold readComment at hr
  simp only at hr
  obtain ⟨c1, c2⟩ := commentExtent_spec inp block lx lx.st true hi hi.saved _ rfl
  split at hr
  · subst hr
    exact ⟨Step.reset hi c1, fun _ => rfl, by simp⟩
  · next st oneline c99 hc =>
    obtain ⟨d1, d2, d3, d4⟩ := c2 st oneline c99 hc
    generalize hlx1 : (if block = true then (eatLines inp 2 (eatSpaces inp (commentExtent inp block lx lx.st true).1).1).1
        else (commentExtent inp block lx lx.st true).1) = lx1 at hr
    have h1 : Step inp (commentExtent inp block lx lx.st true).1 lx1 := by
      rw [← hlx1]
      split
      · obtain ⟨s1, _⟩ := eatSpaces_spec c1.inv
        exact s1.trans (eatLines_spec 2 s1.inv).1
      · exact Step.refl c1.inv
    generalize hlx2 : (if block = true then (eatLines inp 0 lx1).1 else lx1) = lx2 at hr
    have h2 : Step inp lx1 lx2 ∧ AllIn inp Blank lx1.st.off lx2.st.off ∧
        (lx2.st.lno = lx1.st.lno → lx2.st = lx1.st) := by
      rw [← hlx2]
      split
      · obtain ⟨a, b, c, d, _⟩ := eatLines_spec 0 h1.inv
        exact ⟨a, b, d⟩
      · exact ⟨Step.refl h1.inv, AllIn.empty _ _ _, fun _ => rfl⟩
    have hsv : Saved inp lx1 st := d1.step h1
    generalize ht0 : emit inp cx lx1 st .comment { c99 := c99 } = t0 at hr
    have hloc0 : Located inp t0 := ht0 ▸ emit_located cx _ _ h1.inv hsv
    have htext0 : t0.str.text inp = some (t0.raw inp) := by
      rw [← ht0, emit_text cx _ _ h1.inv hsv]; rfl
    have hf0 : t0.off = st.off ∧ t0.stop = lx1.st.off ∧ t0.type = .comment ∧ t0.joined = false ∧
        t0.lno = st.lno ∧ t0.str = .src t0.off (t0.stop - t0.off) := by
      rw [← ht0]; exact ⟨rfl, rfl, rfl, rfl, rfl, rfl⟩
    generalize ht1 : (if oneline = true then
        { t0 with flags := senseClangFormat ((t0.str.text inp).getD []) t0.flags } else t0) = t1 at hr
    have hf1 : t1.off = t0.off ∧ t1.stop = t0.stop ∧ t1.type = t0.type ∧ t1.joined = t0.joined ∧
        t1.lno = t0.lno ∧ t1.cno = t0.cno ∧ t1.str = t0.str := by
      rw [← ht1]; split <;> exact ⟨rfl, rfl, rfl, rfl, rfl, rfl, rfl⟩
    obtain ⟨f1, f2, f3, f4, f5, f6, f7⟩ := hf1
    obtain ⟨g1, g2, g3, g4, g5, g6⟩ := hf0
    have hraw1 : t1.raw inp = t0.raw inp := by unfold Tok.raw; rw [f1, f2]
    obtain ⟨k1, k2, k3, k4, k5, k6, k7, k8, k9⟩ := trimmed_spec (inp := inp) cx t1 (t0.raw inp)
      (by rw [f7]; exact htext0) (by rw [f4, g4]) (by rw [f3, g3]) hraw1
    subst hr
    refine ⟨(c1.trans h1).trans h2.1, by simp, ?_⟩
    intro t ht
    simp only [Option.some.injEq] at ht
    subst ht
    have hst : st.off = lx.st.off ∨ (lx.st.off < st.off ∧ AllIn inp Blank lx.st.off st.off ∧ lx.st.lno < st.lno) := by
      rcases d3 with h | h
      · left; rw [h]
      · right; exact h
    refine ⟨⟨⟨?_, ?_, ?_, ?_⟩, k1, ?_, ?_, ?_, ?_⟩, ?_, ?_, ?_, ?_, ?_, ?_⟩
    · rw [k2, k3, f1, f2]; exact hloc0.le
    · rw [k3, f2]; exact hloc0.stop
    · rw [k2, k4, f1, f5]; exact hloc0.lno
    · rw [k2, k5, f1, f6]; exact hloc0.cno
    · rw [k2, f1, g1]; rcases hst with h | h <;> omega
    · rw [k2, f1, g1]
      rcases hst with h | h
      · rw [h]; exact AllIn.empty _ _ _
      · exact h.2.1
    · rw [k3, f2, g2]; exact h2.1.off
    · rw [k3, f2, g2]; exact h2.2.1
    · have := h1.off; have := h2.1.off; simp only; omega
    · rw [k6, f3, g3]
    · rw [k8, f4, g4]
    · rw [k2, k4, f1, f5, g1, g5]
      rcases hst with h | h
      · exact Or.inl h
      · exact Or.inr h.2.2
    · intro hn
      have hr' : (trimmed cx inp t1).raw inp = t0.raw inp := by
        unfold Tok.raw; rw [k2, k3, f1, f2]
      rw [hr'] at hn
      rw [k9 (fun hl => hn (List.mem_of_getLast? hl)), k2, k3, f7, f1, f2]
      exact g6
    · intro hl
      rw [k3, f2, g2] at hl ⊢
      rw [h2.2.2 (by simp only at hl; rw [hl, h1.inv.st.lno])]

theorem TT.cpp_ne_comment : (TT.cpp ≠ TT.comment) := by decide

theorem cppKeywords_types : ∀ k ∈ cppKeywords, k.2 ≠ .comment ∧ k.2 ≠ .space ∧ k.2 ≠ .eof := by decide

theorem findCpp_type (inp : List Char) (lx : Lx) (st : St) :
    findCpp inp lx st ≠ .comment ∧ findCpp inp lx st ≠ .space ∧ findCpp inp lx st ≠ .eof := by
  unfold findCpp
  split
  · decide
  · split
    · decide
    · next k hk => exact cppKeywords_types k (List.mem_of_find?_eq_some hk)

/-- `clang_read_cpp`. -/
theorem readCpp_spec {inp : List Char} {lx : Lx} (cx : Ctx) (hi : Inv inp lx)
    (r : Lx × Option Tok) (hr : readCpp inp cx lx = r) :
    Step inp lx r.1 ∧ (r.2 = none → r.1.st = lx.st) ∧
    ∀ t, r.2 = some t → Good inp cx lx.st.off r.1.st.off t ∧ lx.st.off < r.1.st.off ∧
      t.type ≠ .comment ∧ t.joined = false := by
  unfold readCpp at hr
  simp only at hr
  obtain ⟨e1, e2, e3, e4, e5⟩ := eatLinesAndSpaces_spec hi lx.st
  split at hr
  · subst hr; exact ⟨Step.reset hi e1, fun _ => rfl, by simp⟩
  · next c lx1 hg =>
    obtain ⟨g1, g1'⟩ := getc_some e1.inv hg
    split at hr
    · subst hr; exact ⟨Step.reset hi (e1.trans g1), fun _ => rfl, by simp⟩
    · next hc =>
      have hc : c = '#' := by simpa using hc
      subst hc
      have g1' := g1'.resolve_right (by simp)
      obtain ⟨s1, _⟩ := eatSpaces_spec g1.inv
      obtain ⟨m1, _⟩ := span_step (inp := inp) s1.inv [('a', 'z')] (by unfold AsciiRanges; decide)
        (by unfold InRanges; decide)
      have p1 := cppLoop_step inp '\x00' false _ m1.inv _ rfl
      obtain ⟨l1, _⟩ := eatLines_spec 2 p1.inv
      obtain ⟨n1, n2, _⟩ := eatLines_spec 0 l1.inv
      generalize hlx5 : (eatLines inp 2 (cppLoop inp '\x00' false
        (lexMatch inp (eatSpaces inp lx1).1 [('a', 'z')]))).1 = lx5 at hr l1 n1 n2
      have hs15 : Step inp lx1 lx5 := ((s1.trans m1).trans p1).trans l1
      have hs5 : Step inp (eatLinesAndSpaces inp lx lx.st).1 lx5 := g1.trans hs15
      have hst : Saved inp lx5 (eatLinesAndSpaces inp lx lx.st).2 ∧
          lx.st.off ≤ (eatLinesAndSpaces inp lx lx.st).2.off ∧
          AllIn inp Blank lx.st.off (eatLinesAndSpaces inp lx lx.st).2.off := by
        rcases Nat.lt_or_ge lx.st.lno (eatLinesAndSpaces inp lx lx.st).1.st.lno with h | h
        · obtain ⟨a, b, c, d⟩ := e5 h
          exact ⟨a.step hs5, by omega, fun i h1 h2 => e2 i h1 (by have := a.off; omega)⟩
        · rw [e4 (by omega)]
          exact ⟨hi.saved.step (e1.trans hs5), Nat.le_refl _, AllIn.empty _ _ _⟩
      obtain ⟨hsv, hle, hgap⟩ := hst
      generalize hty : findCpp inp (lexMatch inp (eatSpaces inp lx1).1 [('a', 'z')]) (eatSpaces inp lx1).1.st = ty at hr
      have htt := findCpp_type inp (lexMatch inp (eatSpaces inp lx1).1 [('a', 'z')]) (eatSpaces inp lx1).1.st
      rw [hty] at htt
      subst hr
      refine ⟨(e1.trans hs5).trans n1, by simp, ?_⟩
      intro t ht
      simp only [Option.some.injEq] at ht
      generalize ht0 : emit inp cx lx5 (eatLinesAndSpaces inp lx lx.st).2 ty { cpp := true } = t0 at ht
      have hloc0 : Located inp t0 := ht0 ▸ emit_located cx _ _ l1.inv hsv
      have htext0 : t0.str.text inp = some (t0.raw inp) := by
        rw [← ht0, emit_text cx _ _ l1.inv hsv]; rfl
      have hf0 : t0.off = (eatLinesAndSpaces inp lx lx.st).2.off ∧ t0.stop = lx5.st.off ∧
          t0.type = ty ∧ t0.joined = false := by
        rw [← ht0]; exact ⟨rfl, rfl, rfl, rfl⟩
      have hal : t.off = t0.off ∧ t.stop = t0.stop ∧ t.type = t0.type ∧ t.joined = t0.joined ∧
          t.lno = t0.lno ∧ t.cno = t0.cno ∧ TextOk inp cx t := by
        rw [← ht]
        unfold aligned
        split
        · next hd =>
          rw [htext0]
          simp only [Option.bind_some]
          split
          · next hn =>
            refine ⟨rfl, rfl, rfl, rfl, rfl, rfl, Or.inl ⟨hf0.2.2.2, _, htext0, ?_⟩⟩
            simp only [hd, TextOf, hn, Option.getD_none]
          · next s hs =>
            refine ⟨rfl, rfl, rfl, rfl, rfl, rfl, Or.inl ⟨hf0.2.2.2, s, rfl, ?_⟩⟩
            simp only [hd, TextOf]
            show s = (cx.align (t0.raw inp)).getD _
            rw [hs]; rfl
        · next hd =>
          refine ⟨rfl, rfl, rfl, rfl, rfl, rfl, Or.inl ⟨hf0.2.2.2, _, htext0, ?_⟩⟩
          have h1 : t0.type ≠ .comment := by rw [hf0.2.2.1]; exact htt.1
          have h2 : t0.type ≠ .space := by rw [hf0.2.2.1]; exact htt.2.1
          unfold TextOf
          split
          · contradiction
          · contradiction
          · contradiction
          · rfl
      obtain ⟨f1, f2, f3, f4, f5, f6, f7⟩ := hal
      refine ⟨⟨⟨?_, ?_, ?_, ?_⟩, f7, ?_, ?_, ?_, ?_⟩, ?_, ?_, ?_⟩
      · rw [f1, f2]; exact hloc0.le
      · rw [f2]; exact hloc0.stop
      · rw [f1, f5]; exact hloc0.lno
      · rw [f1, f6]; exact hloc0.cno
      · rw [f1, hf0.1]; exact hle
      · rw [f1, hf0.1]; exact hgap
      · rw [f2, hf0.2.1]; exact n1.off
      · rw [f2, hf0.2.1]; exact n2
      · have := e1.off; have := hs15.off; have := n1.off; simp only; omega
      · rw [f3, hf0.2.2.1]; exact htt.1
      · rw [f4, hf0.2.2.2]

theorem Chain.replaceLast {inp : List Char} {a b b' : Nat} {xs : List Tok} {t t' : Tok}
    (h : Chain inp a (xs ++ [t]) b) (ho : t'.off = t.off) (h1 : t'.off ≤ t'.stop) (h2 : t'.stop ≤ b')
    (h3 : AllIn inp Blank t'.stop b') : Chain inp a (xs ++ [t']) b' := by
  induction xs generalizing a with
  | nil => exact ⟨by rw [ho]; exact h.1, by rw [ho]; exact h.2.1, h1, h2, h3⟩
  | cons x xs ih => exact ⟨h.1, h.2.1, h.2.2.1, ih h.2.2.2⟩

/-- Invariant of the loop over prefixes. -/
structure PInv (inp : List Char) (cx : Ctx) (a : Nat) (ps : List Tok) (lx : Lx) : Prop where
  chain : Chain inp a ps lx.st.off
  all : ∀ t ∈ ps, Located inp t ∧ TextOk inp cx t
  last : ∀ pv, ps.getLast? = some pv →
    (pv.type = .comment → lx.st.lno = 1 + (inp.take pv.stop).count '\n' → lx.st.off = pv.stop) ∧
    (pv.type = .comment → '\n' ∉ pv.raw inp → ∃ n, pv.str = .src pv.off n)

theorem readPrefix_spec {inp : List Char} {lx : Lx} (cx : Ctx) (a : Nat) (ps : List Tok)
    (hi : Inv inp lx) (hp : PInv inp cx a ps lx)
    (r : Lx × Option (List Tok)) (hr : readPrefix inp cx ps lx = r) :
    Step inp lx r.1 ∧ (r.2 = none → r.1.st = lx.st) ∧
    ∀ ps', r.2 = some ps' → PInv inp cx a ps' r.1 ∧ lx.st.off < r.1.st.off := by
  have happ : ∀ (lx' : Lx) (c : Tok), Step inp lx lx' → Good inp cx lx.st.off lx'.st.off c →
      (c.type = .comment → lx'.st.lno = 1 + (inp.take c.stop).count '\n' → lx'.st.off = c.stop) →
      (c.type = .comment → '\n' ∉ c.raw inp → ∃ n, c.str = .src c.off n) →
      PInv inp cx a (ps ++ [c]) lx' := by
    intro lx' c hs hg h1 h2
    refine ⟨hp.chain.append hg.chain, ?_, ?_⟩
    · intro t ht
      rcases List.mem_append.mp ht with h | h
      · exact hp.all t h
      · simp at h; subst h; exact ⟨hg.loc, hg.text⟩
    · intro pv hpv
      simp at hpv; subst hpv
      exact ⟨h1, h2⟩
  unfold readPrefix at hr
  split at hr
  · next lx1 c hc =>
    obtain ⟨c1, c2, c3⟩ := readComment_spec cx true hi _ hc
    obtain ⟨d1, d2, d3, d4, d5, d6, d7⟩ := c3 c rfl
    have hnew : PInv inp cx a (ps ++ [c]) lx1 := happ lx1 c c1 d1 (fun _ => d7) (fun _ h => ⟨_, d6 h⟩)
    split at hr
    · next pv hpv =>
      split at hr
      · next hsame =>
        subst hr
        refine ⟨c1, by simp, ?_⟩
        intro ps' hps'
        simp only [Option.some.injEq] at hps'
        subst hps'
        refine ⟨?_, d2⟩
        obtain ⟨l1, l2⟩ := hp.last pv hpv
        have hmem : pv ∈ ps := List.mem_of_getLast? hpv
        obtain ⟨loc, txt⟩ := hp.all pv hmem
        have hps : ps = ps.dropLast ++ [pv] := by
          obtain ⟨ys, hys⟩ := List.getLast?_eq_some_iff.mp hpv
          rw [hys]; simp
        have hch := hp.chain
        rw [hps] at hch
        have hpvstop : pv.stop ≤ lx.st.off := by
          have : ∀ (xs : List Tok) (a : Nat), Chain inp a (xs ++ [pv]) lx.st.off → pv.stop ≤ lx.st.off := by
            intro xs
            induction xs with
            | nil => intro a h; exact h.2.2.2.1
            | cons x xs ih => intro a h; exact ih _ h.2.2.2
          exact this _ _ hch
        -- both comments start on the same line, hence nothing was skipped in between
        have hcnt : (inp.take pv.off).count '\n' = (inp.take c.off).count '\n' := by
          have := loc.lno; have := d1.loc.lno; have := hsame.2; omega
        have hle1 := count_take_le inp loc.le
        have hle2 := count_take_le inp hpvstop
        have hle3 := count_take_le inp d1.le
        have hlx : lx.st.off = pv.stop := l1 hsame.1 (by rw [hi.st.lno]; omega)
        have hcoff : c.off = lx.st.off := by
          rcases d5 with h | h
          · exact h
          · exfalso
            have := hi.st.lno; have := d1.loc.lno
            omega
        have hnn : '\n' ∉ pv.raw inp := seg_getLast_count loc.le (by omega)
        obtain ⟨n, hn⟩ := l2 hsame.1 hnn
        have hoff : (prolong pv c).off = pv.off := rfl
        have hstop : (prolong pv c).stop = c.stop := rfl
        have hstr : (prolong pv c).str = .src pv.off (n + c.str.len) := by
          simp only [prolong, hn]
        have hle : pv.off ≤ c.stop := by have := loc.le; have := d1.loc.le; omega
        refine ⟨?_, ?_, ?_⟩
        · exact Chain.replaceLast hch hoff hle d1.stop d1.gap'
        · intro t ht
          rcases List.mem_append.mp ht with h | h
          · exact hp.all t (by rw [hps]; exact List.mem_append_left _ h)
          · simp at h; subst h
            exact ⟨⟨hle, d1.loc.stop, loc.lno, loc.cno⟩, Or.inr ⟨rfl, hsame.1, _, hstr⟩⟩
        · intro q hq
          simp at hq; subst hq
          exact ⟨fun _ => d7, fun _ _ => ⟨_, hstr⟩⟩
      · subst hr
        exact ⟨c1, by simp, fun ps' h => by simp at h; subst h; exact ⟨hnew, d2⟩⟩
    · subst hr
      exact ⟨c1, by simp, fun ps' h => by simp at h; subst h; exact ⟨hnew, d2⟩⟩
  · next lx1 hc =>
    obtain ⟨c1, c2, -⟩ := readComment_spec cx true hi _ hc
    have c2 := c2 rfl
    simp only at c2
    split at hr
    · next lx2 t ht =>
      obtain ⟨p1, p2, p3⟩ := readCpp_spec cx c1.inv _ ht
      obtain ⟨q1, q2, q3, q4⟩ := p3 t rfl
      subst hr
      refine ⟨c1.trans p1, by simp, ?_⟩
      intro ps' h
      simp at h; subst h
      simp only [c2] at q1 q2
      refine ⟨happ lx2 t (c1.trans p1) q1 (fun h => absurd h q3) (fun h => absurd h q3), q2⟩
    · next lx2 ht =>
      obtain ⟨p1, p2, p3⟩ := readCpp_spec cx c1.inv _ ht
      subst hr
      exact ⟨c1.trans p1, fun _ => by simp only; rw [p2 rfl]; exact c2, by simp⟩

/-- The test on what is left in `readPrefixes` is always true. -/
theorem readPrefixes_guard {inp : List Char} {lx : Lx} (cx : Ctx) (a : Nat) (ps ps' : List Tok)
    (hi : Inv inp lx) (hp : PInv inp cx a ps lx) (lx1 : Lx)
    (h : readPrefix inp cx ps lx = (lx1, some ps')) :
    inp.length - lx1.st.off < inp.length - lx.st.off := by
  obtain ⟨h1, -, h3⟩ := readPrefix_spec cx a ps hi hp _ h
  have := (h3 ps' rfl).2
  have := h1.inv.st.le
  simp only at *
  omega

theorem readPrefixes_spec {inp : List Char} (cx : Ctx) (a : Nat) (ps : List Tok) (lx : Lx)
    (hi : Inv inp lx) (hp : PInv inp cx a ps lx)
    (r : Lx × List Tok) (hr : readPrefixes inp cx ps lx = r) :
    Step inp lx r.1 ∧ PInv inp cx a r.2 r.1 := by
  induction hm : inp.length - lx.st.off using Nat.strongRecOn generalizing lx ps with
  | ind m ih =>
  subst hm
  rw [readPrefixes] at hr
  split at hr
  · next lx1 h1 =>
    obtain ⟨a1, a2, -⟩ := readPrefix_spec cx a ps hi hp _ h1
    subst hr
    have a2 := a2 rfl
    simp only at a2
    refine ⟨a1, ?_, hp.all, ?_⟩
    · simp only [a2]; exact hp.chain
    · simp only [a2]; exact hp.last
  · next lx1 ps' h1 =>
    obtain ⟨a1, -, a3⟩ := readPrefix_spec cx a ps hi hp _ h1
    have a3 := a3 ps' rfl
    rw [dif_pos (readPrefixes_guard cx a ps ps' hi hp lx1 h1)] at hr
    obtain ⟨b1, b2⟩ := ih _ (readPrefixes_guard cx a ps ps' hi hp lx1 h1) ps' lx1 a1.inv a3.1 hr rfl
    exact ⟨a1.trans b1, b2⟩

/-- A list of tokens covering the input from `a` to `b`. -/
structure Covers (inp : List Char) (cx : Ctx) (a : Nat) (ts : List Tok) (b : Nat) : Prop where
  chain : Chain inp a ts b
  all : ∀ t ∈ ts, Located inp t ∧ TextOk inp cx t

theorem Covers.append {inp : List Char} {cx : Ctx} {a b c : Nat} {xs ys : List Tok}
    (h : Covers inp cx a xs b) (h' : Covers inp cx b ys c) : Covers inp cx a (xs ++ ys) c :=
  ⟨h.chain.append h'.chain, fun t ht => (List.mem_append.mp ht).elim (h.all t) (h'.all t)⟩

theorem Covers.nil (inp : List Char) (cx : Ctx) (a : Nat) : Covers inp cx a [] a :=
  ⟨⟨Nat.le_refl _, AllIn.empty _ _ _⟩, by simp⟩

theorem Good.covers {inp : List Char} {cx : Ctx} {a b : Nat} {t : Tok} (h : Good inp cx a b t) :
    Covers inp cx a [t] b :=
  ⟨h.chain, fun u hu => by simp at hu; subst hu; exact ⟨h.loc, h.text⟩⟩

theorem readSuffixes_spec {inp : List Char} (cx : Ctx) (a : Nat) (ss : List Tok) (lx : Lx)
    (hi : Inv inp lx) (hp : Covers inp cx a ss lx.st.off)
    (r : Lx × List Tok) (hr : readSuffixes inp cx ss lx = r) :
    Step inp lx r.1 ∧ Covers inp cx a r.2 r.1.st.off := by
  induction hm : inp.length - lx.st.off using Nat.strongRecOn generalizing lx ss with
  | ind m ih =>
  subst hm
  rw [readSuffixes] at hr
  split at hr
  · next lx1 h1 =>
    obtain ⟨a1, a2, -⟩ := readComment_spec cx false hi _ h1
    subst hr
    have a2 := a2 rfl
    simp only at a2
    exact ⟨a1, by simp only [a2]; exact hp⟩
  · next lx1 c h1 =>
    obtain ⟨a1, -, a3⟩ := readComment_spec cx false hi _ h1
    obtain ⟨b1, b2, -⟩ := a3 c rfl
    have hg : inp.length - lx1.st.off < inp.length - lx.st.off := by
      have := a1.inv.st.le
      simp only at *
      omega
    rw [dif_pos hg] at hr
    obtain ⟨i1, i2⟩ := ih _ hg (ss ++ [c]) lx1 a1.inv (hp.append b1.covers) hr rfl
    exact ⟨a1.trans i1, i2⟩

theorem optSpace_spec {inp : List Char} (cx : Ctx) (a : Nat) (ss : List Tok) (lx : Lx)
    (hi : Inv inp lx) (hp : Covers inp cx a ss lx.st.off)
    (r : Lx × List Tok) (hr : optSpace inp cx ss lx = r) :
    Step inp lx r.1 ∧ Covers inp cx a r.2 r.1.st.off := by
  unfold optSpace at hr
  obtain ⟨s1, s2, s3, s4, s5, s6, s7⟩ := eatSpaces_spec hi
  split at hr
  · next hn =>
    subst hn
    simp only at hr
    split at hr
    · next hs =>
      subst hr
      refine ⟨s1, ?_⟩
      have hsv : Saved inp (eatSpaces inp lx).1 lx.st := hi.saved.step s1
      refine Covers.append hp (Good.covers ⟨emit_located cx _ _ s1.inv hsv, Or.inl ⟨rfl, _, emit_text cx _ _ s1.inv hsv, Or.inl rfl⟩, Nat.le_refl _, AllIn.empty _ _ _, Nat.le_refl _, AllIn.empty _ _ _⟩)
    · next hs =>
      have := s6 (by simpa using hs)
      subst hr
      exact ⟨s1, by simp only [this]; exact hp⟩
  · subst hr; exact ⟨Step.refl hi, hp⟩

theorem optLines_spec {inp : List Char} (cx : Ctx) (a : Nat) (ss : List Tok) (lx : Lx)
    (hi : Inv inp lx) (hp : Covers inp cx a ss lx.st.off)
    (r : Lx × List Tok) (hr : optLines inp cx ss lx = r) :
    Step inp lx r.1 ∧ Covers inp cx a r.2 r.1.st.off := by
  unfold optLines at hr
  obtain ⟨l1, l2, l3, l4, l5, l6, l7⟩ := eatLines_spec 0 hi
  have l7 := l7 rfl
  simp only at hr
  split at hr
  · next hn =>
    subst hr
    refine ⟨l1, ?_⟩
    have hsv : Saved inp (eatLines inp 0 lx).1 lx.st := hi.saved.step l1
    obtain ⟨m1, m2⟩ := l5 (by omega)
    have hlt : lx.st.off < (eatLines inp 0 lx).1.st.off := by
      have h1 := hi.st.lno; have h2 := l1.inv.st.lno; have h3 := l1.off
      rcases Nat.lt_or_ge lx.st.off (eatLines inp 0 lx).1.st.off with h | h
      · exact h
      · rw [show (eatLines inp 0 lx).1.st.off = lx.st.off by omega] at h2; omega
    have hloc := emit_located cx .space { optline := (eatLines inp 0 lx).2 = 1 } l1.inv hsv
    refine Covers.append hp (Good.covers ⟨⟨hloc.le, hloc.stop, hloc.lno, hloc.cno⟩, Or.inl ⟨rfl, ['\n'], rfl, Or.inr ⟨rfl, ?_, seg_all l2⟩⟩,
      Nat.le_refl _, AllIn.empty _ _ _, Nat.le_refl _, AllIn.empty _ _ _⟩)
    show '\n' ∈ seg inp lx.st.off (eatLines inp 0 lx).1.st.off
    rw [List.mem_iff_getElem?]
    refine ⟨(eatLines inp 0 lx).1.st.off - 1 - lx.st.off, ?_⟩
    unfold seg
    rw [List.getElem?_take, if_pos (by omega), List.getElem?_drop, ← m2]
    congr 1; omega
  · subst hr
    have := l4 (by omega)
    exact ⟨l1, by simp only [this]; exact hp⟩

end Knfmt.Lexer
