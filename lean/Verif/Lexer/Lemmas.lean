import Verif.Lexer.Model
import Verif.Str.Props
import Verif.Util.Props
import Verif.Comment.Props
/-! # Lemmas about the character reader -/
namespace Knfmt.Spec

/-- Positions after the line feeds of `s`, given the position of `s`. -/
def afterLineFeeds : Nat → List Char → List Nat
  | _, [] => []
  | n, c :: s => if c = '\n' then (n + 1) :: afterLineFeeds (n + 1) s else afterLineFeeds (n + 1) s

/-- Positions at which the lines of a text start: position 0 and the position after
every line feed. -/
def lineStarts (s : List Char) : List Nat := 0 :: afterLineFeeds 0 s

end Knfmt.Spec

namespace Knfmt.Lexer

open Knfmt.Str Knfmt.Util Knfmt.Spec

theorem afterLineFeeds_append (n : Nat) (a b : List Char) :
    afterLineFeeds n (a ++ b) = afterLineFeeds n a ++ afterLineFeeds (n + a.length) b := by
  induction a generalizing n with
  | nil => simp [afterLineFeeds]
  | cons c a ih =>
    simp only [List.cons_append, afterLineFeeds, List.length_cons]
    split <;> simp [ih, Nat.add_assoc, Nat.add_comm 1]

theorem afterLineFeeds_length (n : Nat) (a : List Char) :
    (afterLineFeeds n a).length = a.count '\n' := by
  induction a generalizing n with
  | nil => simp [afterLineFeeds]
  | cons c a ih =>
    simp only [afterLineFeeds, List.count_cons]
    split
    · next h => simp [ih, h]
    · next h => simp [ih, h]

/-- Entry of the line table for the line feed at position `k`. -/
theorem lineStarts_take_succ (inp : List Char) (k : Nat) (h : inp[k]? = some '\n') :
    lineStarts (inp.take (k + 1)) = lineStarts (inp.take k) ++ [k + 1] := by
  have hk : k < inp.length := (List.getElem?_eq_some_iff.mp h).1
  have : inp.take (k + 1) = inp.take k ++ ['\n'] := by
    rw [List.take_add_one, h]; rfl
  rw [this]
  simp only [lineStarts, afterLineFeeds_append, List.cons_append]
  simp [afterLineFeeds, List.length_take, Nat.min_eq_left (Nat.le_of_lt hk)]

theorem lineStarts_take_prefix (inp : List Char) (k : Nat) :
    lineStarts (inp.take k) <+: lineStarts inp := by
  conv => rhs; rw [← List.take_append_drop k inp]
  simp only [lineStarts, afterLineFeeds_append, ← List.cons_append]
  exact List.prefix_append _ _

theorem lineStarts_length (s : List Char) : (lineStarts s).length = 1 + s.count '\n' := by
  simp [lineStarts, afterLineFeeds_length, Nat.add_comm]

/-- A state that belongs to the input: the line number is that of the position, and the
end of file flag is only set at the end. -/
structure StOk (inp : List Char) (st : St) : Prop where
  le : st.off ≤ inp.length
  lno : st.lno = 1 + (inp.take st.off).count '\n'
  eof : st.eof = true → st.off = inp.length

/-- Invariant of the reader. -/
structure Inv (inp : List Char) (lx : Lx) : Prop where
  st : StOk inp lx.st
  lines : lx.lines <+: lineStarts inp
  lno : lx.st.lno ≤ lx.lines.length

/-- The reader moved from `lx` to `lx'`, not backwards. -/
structure Step (inp : List Char) (lx lx' : Lx) : Prop where
  inv : Inv inp lx'
  lines : lx.lines <+: lx'.lines
  off : lx.st.off ≤ lx'.st.off

theorem Step.refl {inp : List Char} {lx : Lx} (h : Inv inp lx) : Step inp lx lx :=
  ⟨h, List.prefix_refl _, Nat.le_refl _⟩

theorem Step.trans {inp : List Char} {a b c : Lx} (h : Step inp a b) (h' : Step inp b c) :
    Step inp a c :=
  ⟨h'.inv, h.lines.trans h'.lines, Nat.le_trans h.off h'.off⟩

/-- Going back to a state seen before. -/
theorem Step.restore {inp : List Char} {a b : Lx} {st : St} (h : Step inp a b) (hst : StOk inp st)
    (hl : st.lno ≤ b.lines.length) (ho : a.st.off ≤ st.off) : Step inp a (setState b st) :=
  ⟨⟨hst, h.inv.lines, hl⟩, h.lines, ho⟩

theorem Step.reset {inp : List Char} {a b : Lx} (ha : Inv inp a) (h : Step inp a b) :
    Step inp a (setState b a.st) :=
  h.restore ha.st (Nat.le_trans ha.lno h.lines.length_le) (Nat.le_refl _)

theorem init_inv (inp : List Char) : Inv inp init := by
  refine ⟨⟨Nat.zero_le _, by simp [init, lineAlloc], by simp [init, lineAlloc]⟩, ?_, by simp [init, lineAlloc]⟩
  exact ⟨afterLineFeeds 0 inp, by simp [init, lineAlloc, lineStarts]⟩

/-- All bytes at positions in `[a, b)` satisfy `p`. -/
def AllIn (inp : List Char) (p : Char → Prop) (a b : Nat) : Prop :=
  ∀ i, a ≤ i → i < b → ∃ c, inp[i]? = some c ∧ p c

theorem AllIn.empty (inp : List Char) (p : Char → Prop) (a : Nat) : AllIn inp p a a :=
  fun i h h' => absurd h (by omega)

theorem AllIn.append {inp : List Char} {p : Char → Prop} {a b c : Nat} (h : AllIn inp p a b)
    (h' : AllIn inp p b c) : AllIn inp p a c := fun i hi hi' =>
  if hb : i < b then h i hi hb else h' i (by omega) hi'

theorem AllIn.one {inp : List Char} {p : Char → Prop} {a : Nat} {c : Char}
    (h : inp[a]? = some c) (hp : p c) : AllIn inp p a (a + 1) := fun i hi hi' =>
  ⟨c, by rw [show i = a by omega]; exact h, hp⟩

theorem AllIn.mono {inp : List Char} {p q : Char → Prop} {a b : Nat} (h : AllIn inp p a b)
    (hq : ∀ c, p c → q c) : AllIn inp q a b := fun i hi hi' => by
  obtain ⟨c, hc, hp⟩ := h i hi hi'; exact ⟨c, hc, hq c hp⟩

/-- Effect of `lexer_getc`: either the byte at the position is returned and the position
moves by one, or the end was reached and `'\0'` is returned once. -/
theorem getc_some {inp : List Char} {lx lx' : Lx} {c : Char} (hi : Inv inp lx)
    (h : getc inp lx = some (c, lx')) :
    Step inp lx lx' ∧
    ((inp[lx.st.off]? = some c ∧ lx'.st.off = lx.st.off + 1 ∧ lx'.st.eof = false ∧ lx.st.eof = false ∧
        lx'.st.lno = lx.st.lno + (if c = '\n' then 1 else 0)) ∨
     (lx.st.off = inp.length ∧ c = '\x00' ∧ lx.st.eof = false ∧
        lx' = { lx with st := { lx.st with eof := true } })) := by
  obtain ⟨⟨hle, hlno, heof⟩, hlines, hll⟩ := hi
  unfold getc at h
  split at h
  · next hn =>
    have hoff : lx.st.off = inp.length := by
      have := List.getElem?_eq_none_iff.mp hn; omega
    split at h
    · simp at h
    · next he =>
      simp only [Option.some.injEq, Prod.mk.injEq] at h
      obtain ⟨rfl, rfl⟩ := h
      refine ⟨⟨⟨⟨hle, hlno, fun _ => hoff⟩, hlines, hll⟩, List.prefix_refl _, Nat.le_refl _⟩, ?_⟩
      right
      exact ⟨hoff, rfl, by simpa using he, rfl⟩
  · next c' hc =>
    have hlt : lx.st.off < inp.length := (List.getElem?_eq_some_iff.mp hc).1
    have he : lx.st.eof = false := by
      cases hh : lx.st.eof with
      | false => rfl
      | true => exact absurd (heof hh) (by omega)
    have htake : inp.take (lx.st.off + 1) = inp.take lx.st.off ++ [c'] := by
      rw [List.take_add_one, hc]; rfl
    split at h <;> simp only [Option.some.injEq, Prod.mk.injEq] at h
    · next hnl =>
      obtain ⟨rfl, rfl⟩ := h
      subst hnl
      refine ⟨⟨⟨⟨?_, ?_, ?_⟩, ?_, ?_⟩, ?_, ?_⟩, Or.inl ⟨hc, ?_, ?_, he, ?_⟩⟩
      · rw [lineAlloc_st]; exact hlt
      · rw [lineAlloc_st]; simp only [htake, List.count_append, hlno]; simp; omega
      · rw [lineAlloc_st]; simp [he]
      · unfold lineAlloc
        split
        · exact hlines
        · next hn =>
          simp only at hn
          have hlen : lx.lines.length = lx.st.lno := by omega
          have heq : lx.lines = lineStarts (inp.take lx.st.off) := by
            have h1 := List.prefix_iff_eq_take.mp hlines
            have h2 := List.prefix_iff_eq_take.mp (lineStarts_take_prefix inp lx.st.off)
            rw [h2, lineStarts_length, ← hlno, ← hlen]; exact h1
          simp only
          rw [heq, ← lineStarts_take_succ inp _ hc]
          exact lineStarts_take_prefix _ _
      · unfold lineAlloc
        split
        · simp_all; omega
        · simp_all
      · unfold lineAlloc
        split
        · exact List.prefix_refl _
        · exact List.prefix_append _ _
      · rw [lineAlloc_st]; exact Nat.le_succ _
      · rw [lineAlloc_st]
      · rw [lineAlloc_st]; exact he
      · rw [lineAlloc_st]; simp
    · next hnl =>
      obtain ⟨rfl, rfl⟩ := h
      refine ⟨⟨⟨⟨hlt, ?_, ?_⟩, hlines, hll⟩, List.prefix_refl _, Nat.le_succ _⟩,
        Or.inl ⟨hc, rfl, he, he, by simp [hnl]⟩⟩
      · simp [htake, List.count_append, hlno, hnl]
      · simp [he]

/-- `lexer_getc` fails only at the end of the input, after having said so once. -/
theorem getc_none {inp : List Char} {lx : Lx} (hi : Inv inp lx) :
    getc inp lx = none ↔ lx.st.eof = true := by
  unfold getc
  constructor
  · intro h
    split at h
    · split at h
      · assumption
      · simp at h
    · split at h <;> simp at h
  · intro h
    have : inp[lx.st.off]? = none := List.getElem?_eq_none_iff.mpr (by rw [hi.st.eof h]; omega)
    rw [this]; simp [h]

theorem getc_off_pos {inp : List Char} {lx lx' : Lx} {c : Char} (hi : Inv inp lx)
    (h : getc inp lx = some (c, lx')) : lx'.st.eof = true ∨ 0 < lx'.st.off := by
  rcases (getc_some hi h).2 with h | h
  · right; omega
  · left; rw [h.2.2.2]

/-- `lexer_ungetc` undoes `lexer_getc`, except that the end of file indication stays. -/
theorem ungetc_getc {inp : List Char} {lx lx' : Lx} {c : Char} (hi : Inv inp lx)
    (h : getc inp lx = some (c, lx')) :
    Step inp lx (ungetc inp lx') ∧ (ungetc inp lx').st.off = lx.st.off ∧
    (ungetc inp lx').st.lno = lx.st.lno ∧ (ungetc inp lx').lines = lx'.lines ∧
    (lx.st.off < inp.length → (ungetc inp lx').st = lx.st) := by
  obtain ⟨hs, h1 | h1⟩ := getc_some hi h
  · have hst : (ungetc inp lx').st = lx.st := by
      unfold ungetc
      simp only [h1.2.2.1, Bool.false_eq_true, if_false, h1.2.1, Nat.add_sub_cancel, h1.1,
        Option.some.injEq, h1.2.2.2.2]
      split
      · next hc => simp [hc, ← h1.2.2.2.1]
      · next hc => simp [hc, ← h1.2.2.2.1]
    have hl : (ungetc inp lx').lines = lx'.lines := by unfold ungetc; split <;> rfl
    have he : ungetc inp lx' = setState lx' lx.st := by
      unfold setState; rw [← hl, ← hst]
    refine ⟨?_, by rw [hst], by rw [hst], hl, fun _ => hst⟩
    rw [he]; exact Step.reset hi hs
  · have hu : ungetc inp lx' = lx' := by
      unfold ungetc; rw [h1.2.2.2]; simp
    rw [hu]
    refine ⟨hs, by rw [h1.2.2.2], by rw [h1.2.2.2], rfl, fun hlt => by omega⟩

/-- `lexer_ungetc` anywhere but at the end of file indication. -/
theorem ungetc_inv {inp : List Char} {lx : Lx} (hi : Inv inp lx) (he : lx.st.eof = false)
    (hp : 0 < lx.st.off) :
    Inv inp (ungetc inp lx) ∧ (ungetc inp lx).st.off + 1 = lx.st.off ∧
    (ungetc inp lx).lines = lx.lines := by
  have hlt : lx.st.off - 1 < inp.length := by have := hi.st.le; omega
  have hc : inp[lx.st.off - 1]? = some inp[lx.st.off - 1] := List.getElem?_eq_getElem hlt
  have htake : inp.take lx.st.off = inp.take (lx.st.off - 1) ++ [inp[lx.st.off - 1]] := by
    conv => lhs; rw [show lx.st.off = (lx.st.off - 1) + 1 by omega, List.take_add_one, hc]
    rfl
  have hl := hi.st.lno
  rw [htake, List.count_append] at hl
  have hll := hi.lno
  unfold ungetc
  simp only [he, Bool.false_eq_true, if_false, hc, Option.some.injEq]
  refine ⟨⟨⟨?_, ?_, ?_⟩, hi.lines, ?_⟩, ?_, trivial⟩
  · have := hi.st.le; simp only; omega
  · simp only
    split
    · next h => simp [h] at hl; omega
    · next h => simp [h] at hl; omega
  · simp
  · simp only
    split <;> omega
  · omega

/-- The blanks skipped between tokens. -/
def Blank (c : Char) : Prop := c = ' ' ∨ c = '\t' ∨ c = '\r' ∨ c = '\n' ∨ c = '\x0c'

instance : DecidablePred Blank := fun c => by unfold Blank; infer_instance

theorem eatLinesLoop_spec (inp : List Char) (threshold : Nat) (lx : Lx) (oldst : St) (nlines : Nat)
    (hi : Inv inp lx) (ho : StOk inp oldst) (hol : oldst.lno ≤ lx.lines.length)
    (hle : oldst.off ≤ lx.st.off) (hb : AllIn inp Blank oldst.off lx.st.off)
    (hnl : lx.st.lno = oldst.lno) (r : Lx × St × Nat)
    (hr : eatLinesLoop inp threshold lx oldst nlines = r) :
    Step inp lx r.1 ∧ StOk inp r.2.1 ∧ r.2.1.lno ≤ r.1.lines.length ∧
    oldst.off ≤ r.2.1.off ∧ AllIn inp Blank oldst.off r.2.1.off ∧
    nlines + r.2.1.lno = r.2.2 + oldst.lno ∧ oldst.lno ≤ r.2.1.lno ∧
    (r.2.1.lno = oldst.lno → r.2.1 = oldst) ∧
    (oldst.lno < r.2.1.lno → 0 < r.2.1.off ∧ inp[r.2.1.off - 1]? = some '\n') := by
  induction hm : left inp lx using Nat.strongRecOn generalizing lx oldst nlines with
  | ind m ih =>
  subst hm
  rw [eatLinesLoop] at hr
  split at hr
  · subst hr
    exact ⟨Step.refl hi, ho, hol, Nat.le_refl _, AllIn.empty _ _ _, rfl,
      Nat.le_refl _, fun _ => rfl, fun h => absurd h (by simp)⟩
  · next c lx' hg =>
    have hlt := getc_left hg
    obtain ⟨hs, h1⟩ := getc_some hi hg
    have hcont : (c = '\r' ∨ c = ' ' ∨ c = '\t') →
        eatLinesLoop inp threshold lx' oldst nlines = r →
        Step inp lx r.1 ∧ StOk inp r.2.1 ∧ r.2.1.lno ≤ r.1.lines.length ∧
        oldst.off ≤ r.2.1.off ∧ AllIn inp Blank oldst.off r.2.1.off ∧
        nlines + r.2.1.lno = r.2.2 + oldst.lno ∧ oldst.lno ≤ r.2.1.lno ∧
        (r.2.1.lno = oldst.lno → r.2.1 = oldst) ∧
        (oldst.lno < r.2.1.lno → 0 < r.2.1.off ∧ inp[r.2.1.off - 1]? = some '\n') := by
      intro hc hr
      rcases h1 with h1 | h1
      · have hcb : Blank c := by unfold Blank; rcases hc with h | h | h <;> simp [h]
        have hcn : c ≠ '\n' := by rcases hc with h | h | h <;> simp [h]
        obtain ⟨h2, h3⟩ := ih _ hlt lx' oldst nlines hs.inv ho
          (Nat.le_trans hol hs.lines.length_le) (by omega)
          (by rw [h1.2.1]; exact hb.append (AllIn.one h1.1 hcb))
          (by rw [h1.2.2.2.2, hnl]; simp [hcn]) hr rfl
        exact ⟨hs.trans h2, h3⟩
      · rw [h1.2.1] at hc; exact absurd hc (by decide)
    split at hr
    · next hc => exact hcont (Or.inl hc) hr
    · split at hr
      · next hc =>
        subst hc
        have h1 := h1.resolve_right (by simp)
        have hl : lx'.st.lno = oldst.lno + 1 := by rw [h1.2.2.2.2, hnl]; simp
        have hb' : AllIn inp Blank oldst.off lx'.st.off := by
          rw [h1.2.1]; exact hb.append (AllIn.one h1.1 (by decide))
        split at hr
        · subst hr
          refine ⟨hs, hs.inv.st, hs.inv.lno, ?_, hb', ?_, ?_, ?_, fun _ => ⟨?_, ?_⟩⟩
          · simp only; omega
          · simp only; omega
          · simp only; omega
          · simp only; omega
          · simp only; omega
          · simp [h1.2.1, h1.1]
        · obtain ⟨h2, h3, h4, h5, h6, h7, h8, h9, h10⟩ := ih _ hlt lx' lx'.st (nlines + 1) hs.inv
            hs.inv.st hs.inv.lno (Nat.le_refl _) (AllIn.empty _ _ _) rfl hr rfl
          refine ⟨hs.trans h2, h3, h4, by omega, hb'.append h6, by omega, by omega, by omega, ?_⟩
          intro _
          rcases Nat.lt_or_ge lx'.st.lno r.2.1.lno with hlt | hge
          · exact h10 hlt
          · rw [h9 (by omega)]
            exact ⟨by omega, by simp [h1.2.1, h1.1]⟩
      · split at hr
        · subst hr
          obtain ⟨hu, _⟩ := ungetc_getc hi hg
          exact ⟨hu, ho, Nat.le_trans hol hu.lines.length_le, Nat.le_refl _,
            AllIn.empty _ _ _, rfl, Nat.le_refl _, fun _ => rfl, fun h => absurd h (by simp)⟩
        · next hne =>
          exact hcont (by
            by_cases h : c = ' '
            · exact Or.inr (Or.inl h)
            · by_cases h' : c = '\t'
              · exact Or.inr (Or.inr h')
              · exact absurd ⟨h, h'⟩ hne) hr

/-- Effect of `lexer_eat_lines`: only blanks are skipped; the result is 0 or the number
of line feeds skipped, and what is skipped ends with a line feed. -/
theorem eatLines_spec {inp : List Char} {lx : Lx} (threshold : Nat) (hi : Inv inp lx) :
    Step inp lx (eatLines inp threshold lx).1 ∧
    AllIn inp Blank lx.st.off (eatLines inp threshold lx).1.st.off ∧
    lx.st.lno ≤ (eatLines inp threshold lx).1.st.lno ∧
    ((eatLines inp threshold lx).1.st.lno = lx.st.lno → (eatLines inp threshold lx).1.st = lx.st) ∧
    (lx.st.lno < (eatLines inp threshold lx).1.st.lno →
      0 < (eatLines inp threshold lx).1.st.off ∧
      inp[(eatLines inp threshold lx).1.st.off - 1]? = some '\n') ∧
    ((eatLines inp threshold lx).2 = 0 ∨
      lx.st.lno + (eatLines inp threshold lx).2 = (eatLines inp threshold lx).1.st.lno) ∧
    (threshold = 0 →
      lx.st.lno + (eatLines inp threshold lx).2 = (eatLines inp threshold lx).1.st.lno) := by
  obtain ⟨h1, h2, h3, h4, h5, h6, h7, h8, h9⟩ := eatLinesLoop_spec inp threshold lx lx.st 0 hi hi.st
    hi.lno (Nat.le_refl _) (AllIn.empty _ _ _) rfl _ rfl
  have hst : (eatLines inp threshold lx).1 =
      setState (eatLinesLoop inp threshold lx lx.st 0).1 (eatLinesLoop inp threshold lx lx.st 0).2.1 := by
    unfold eatLines; simp only; split <;> rfl
  have hn : (eatLines inp threshold lx).2 = if (eatLinesLoop inp threshold lx lx.st 0).2.2 = 0 ∨
      (eatLinesLoop inp threshold lx lx.st 0).2.2 < threshold then 0 else
      (eatLinesLoop inp threshold lx lx.st 0).2.2 := by
    unfold eatLines; simp only; split <;> rfl
  rw [hst, hn]
  refine ⟨h1.restore h2 h3 h4, h5, h7, h8, h9, ?_, ?_⟩
  · simp only [setState]; split
    · left; rfl
    · right; omega
  · intro ht
    simp only [setState]; split <;> omega

theorem count_take_of_allIn {inp : List Char} {a b : Nat} (hab : a ≤ b)
    (h : AllIn inp (· ≠ '\n') a b) : (inp.take b).count '\n' = (inp.take a).count '\n' := by
  induction b with
  | zero => rw [Nat.le_zero.mp hab]
  | succ b ih =>
    rcases Nat.lt_or_ge a (b + 1) with hlt | hge
    · obtain ⟨c, hc, hn⟩ := h b (by omega) (by omega)
      rw [List.take_add_one, hc, List.count_append, ih (by omega) (fun i h1 h2 => h i h1 (by omega))]
      simp [hn]
    · rw [show a = b + 1 by omega]

/-- Effect of consuming a span of bytes none of which is a line feed. -/
theorem span_step {inp : List Char} {lx : Lx} (hi : Inv inp lx) (rs : List (Char × Char))
    (ha : AsciiRanges rs) (hnl : ¬ InRanges rs '\n') :
    Step inp lx (lexMatch inp lx rs) ∧
    AllIn inp (InRanges rs) lx.st.off (lexMatch inp lx rs).st.off ∧
    (lexMatch inp lx rs).st.lno = lx.st.lno ∧
    (∀ c, inp[(lexMatch inp lx rs).st.off]? = some c → ¬ InRanges rs c) := by
  obtain ⟨h1, h2, h3⟩ := str_match_default_spec rs ha (inp.drop lx.st.off)
  have hall : AllIn inp (InRanges rs) lx.st.off
      (lx.st.off + matchDefault rs (inp.drop lx.st.off)) := by
    intro i hi1 hi2
    obtain ⟨c, hc, hp⟩ := h2 (i - lx.st.off) (by omega)
    refine ⟨c, ?_, hp⟩
    rw [List.getElem?_drop] at hc
    rw [← hc]; congr 1; omega
  have hlen : lx.st.off + matchDefault rs (inp.drop lx.st.off) ≤ inp.length := by
    rw [List.length_drop] at h1
    have := hi.st.le
    omega
  refine ⟨⟨⟨⟨hlen, ?_, ?_⟩, hi.lines, hi.lno⟩, List.prefix_refl _, ?_⟩, hall, rfl, ?_⟩
  · rw [show (lexMatch inp lx rs).st.lno = lx.st.lno from rfl, hi.st.lno]
    congr 1
    refine (count_take_of_allIn (Nat.le_add_right _ _) (hall.mono ?_)).symm
    intro c hc hn
    exact hnl (hn ▸ hc)
  · intro he
    have := hi.st.eof he
    simp only [lexMatch]; omega
  · simp [lexMatch]
  · intro c hc
    refine h3 c ?_
    rw [List.getElem?_drop]; exact hc

theorem spaceRanges_ascii : AsciiRanges spaceRanges := by
  unfold AsciiRanges spaceRanges; decide
theorem identRanges_ascii : AsciiRanges identRanges := by
  unfold AsciiRanges identRanges; decide

theorem inRanges_space (c : Char) : InRanges spaceRanges c ↔ c = ' ' ∨ c = '\x0c' ∨ c = '\t' := by
  have key : ∀ d : Char, (d.toNat ≤ c.toNat ∧ c.toNat ≤ d.toNat) ↔ c = d := by
    intro d
    constructor
    · intro h
      exact Char.ext (UInt32.toNat_inj.mp (by have := h.1; have := h.2; simp only [Char.toNat] at *; omega))
    · rintro rfl; exact ⟨Nat.le_refl _, Nat.le_refl _⟩
  simp only [InRanges, spaceRanges, List.mem_cons, List.not_mem_nil, or_false,
    exists_eq_or_imp, exists_eq_left, key]

/-- Effect of `lexer_eat_spaces`. -/
theorem eatSpaces_spec {inp : List Char} {lx : Lx} (hi : Inv inp lx) :
    Step inp lx (eatSpaces inp lx).1 ∧
    AllIn inp (fun c => c = ' ' ∨ c = '\x0c' ∨ c = '\t') lx.st.off (eatSpaces inp lx).1.st.off ∧
    (eatSpaces inp lx).1.st.lno = lx.st.lno ∧
    (eatSpaces inp lx).1.lines = lx.lines ∧
    ((eatSpaces inp lx).2 = true ↔ lx.st.off < (eatSpaces inp lx).1.st.off) ∧
    ((eatSpaces inp lx).2 = false → (eatSpaces inp lx).1 = lx) ∧
    (∀ c, inp[(eatSpaces inp lx).1.st.off]? = some c → ¬ (c = ' ' ∨ c = '\x0c' ∨ c = '\t')) := by
  obtain ⟨h1, h2, h3, h4⟩ := span_step hi spaceRanges spaceRanges_ascii (by rw [inRanges_space]; decide)
  have he : (eatSpaces inp lx).1 = lexMatch inp lx spaceRanges := by
    unfold eatSpaces lexMatch; simp only
    split
    · next h => simp [h]
    · rfl
  rw [he]
  refine ⟨h1, h2.mono (fun c hc => (inRanges_space c).mp hc), h3, rfl, ?_, ?_,
    fun c hc hs => h4 c hc ((inRanges_space c).mpr hs)⟩
  · unfold eatSpaces lexMatch; simp only
    split <;> simp_all; omega
  · unfold eatSpaces lexMatch; simp only
    split <;> simp_all

theorem eatSpaces_blank {inp : List Char} {lx : Lx} (hi : Inv inp lx) :
    AllIn inp Blank lx.st.off (eatSpaces inp lx).1.st.off :=
  (eatSpaces_spec hi).2.1.mono (fun c hc => by
    unfold Blank; rcases hc with h | h | h <;> simp [h])

/-- A state that may be restored later. -/
structure Saved (inp : List Char) (lx : Lx) (st : St) : Prop where
  ok : StOk inp st
  lno : st.lno ≤ lx.lines.length
  off : st.off ≤ lx.st.off

theorem Inv.saved {inp : List Char} {lx : Lx} (hi : Inv inp lx) : Saved inp lx lx.st :=
  ⟨hi.st, hi.lno, Nat.le_refl _⟩

theorem Saved.step {inp : List Char} {lx lx' : Lx} {st : St} (h : Saved inp lx st)
    (hs : Step inp lx lx') : Saved inp lx' st :=
  ⟨h.ok, Nat.le_trans h.lno hs.lines.length_le, Nat.le_trans h.off hs.off⟩

/-- Effect of `lexer_eat_lines_and_spaces`: only blanks are skipped. If no line feed is
skipped the given state is left alone; otherwise it becomes the start of the line
reached. -/
theorem eatLsLoop_spec (inp : List Char) (g : Bool) (lx : Lx) (st : St) (hi : Inv inp lx)
    (r : Lx × St) (hr : eatLsLoop inp g lx st = r) :
    Step inp lx r.1 ∧ AllIn inp Blank lx.st.off r.1.st.off ∧ lx.st.lno ≤ r.1.st.lno ∧
    ((r.1.st.lno = lx.st.lno → r.2 = st) ∧
     (lx.st.lno < r.1.st.lno →
      Saved inp r.1 r.2 ∧ lx.st.off < r.2.off ∧ r.2.lno = r.1.st.lno ∧
      inp[r.2.off - 1]? = some '\n')) := by
  induction hm : inp.length - lx.st.off using Nat.strongRecOn generalizing g lx st with
  | ind m ih =>
  subst hm
  rw [eatLsLoop] at hr
  obtain ⟨l1, l2, l3, l4, l5, l6, l7⟩ := eatLines_spec 0 hi
  have l7 := l7 rfl
  simp only at hr
  obtain ⟨s1, s2, s3, s4, s5, s6, s7⟩ := eatSpaces_spec l1.inv
  have sb := eatSpaces_blank l1.inv
  split at hr
  · next hc =>
    subst hr
    have hst := l4 (by omega)
    exact ⟨l1, l2, l3, fun _ => rfl, fun h => absurd h (by simp only; omega)⟩
  · have hnl : (eatLines inp 0 lx).2 ≠ 0 → (eatLines inp 0 lx).1.st.off ≠ lx.st.off := by
      intro h he
      have h1 := hi.st.lno
      have h2 := l1.inv.st.lno
      rw [he] at h2; omega
    have hst : ∀ st', st' = (if (eatLines inp 0 lx).2 ≠ 0 then (eatLines inp 0 lx).1.st else st) →
        ∀ lx', Step inp (eatLines inp 0 lx).1 lx' → lx'.st.lno = (eatLines inp 0 lx).1.st.lno →
        ((lx'.st.lno = lx.st.lno → st' = st) ∧
          (lx.st.lno < lx'.st.lno →
            Saved inp lx' st' ∧ lx.st.off < st'.off ∧ st'.lno = lx'.st.lno ∧
            inp[st'.off - 1]? = some '\n')) := by
      intro st' he lx' hs hl
      refine ⟨fun h => ?_, fun h => ?_⟩
      · rw [he, if_neg]; omega
      · have hn : (eatLines inp 0 lx).2 ≠ 0 := by omega
        rw [if_pos hn] at he
        subst he
        refine ⟨l1.inv.saved.step hs, ?_, hl.symm, (l5 (by omega)).2⟩
        have := l1.off
        have := hnl hn
        omega
    split at hr
    · next hsp =>
      have hlt : (eatLines inp 0 lx).1.st.off < (eatSpaces inp (eatLines inp 0 lx).1).1.st.off :=
        s5.mp hsp
      split at hr
      · next hguard =>
        obtain ⟨i1, i2, i3, i4, i5⟩ := ih _ hguard true _ _ s1.inv hr rfl
        have hall := (l2.append sb).append i2
        refine ⟨l1.trans (s1.trans i1), hall, by omega, ?_, ?_⟩
        · intro h
          rw [i4 (by omega), if_neg (by omega)]
        · intro h
          rcases Nat.lt_or_ge (eatSpaces inp (eatLines inp 0 lx).1).1.st.lno r.1.st.lno with h' | h'
          · obtain ⟨a1, a2, a3⟩ := i5 h'
            exact ⟨a1, by have := l1.off; omega, a3⟩
          · have h0 := i4 (by omega)
            obtain ⟨b1, b2, b3, b4⟩ := (hst _ h0 _ (s1.trans i1) (by omega)).2 h
            exact ⟨b1, b2, b3, b4⟩
      · next hguard =>
        exfalso
        apply hguard
        have := s1.inv.st.le
        have := l1.off
        omega
    · subst hr
      exact ⟨l1.trans s1, l2.append sb, by simp only; omega, hst _ rfl _ s1 s3⟩

/-- The test on what is left in `eatLsLoop` is always true. -/
theorem eatLsLoop_guard {inp : List Char} {lx : Lx} (hi : Inv inp lx)
    (h : (eatSpaces inp (eatLines inp 0 lx).1).2 = true) :
    inp.length - (eatSpaces inp (eatLines inp 0 lx).1).1.st.off < inp.length - lx.st.off := by
  obtain ⟨l1, _⟩ := eatLines_spec 0 hi
  obtain ⟨s1, s2, s3, s4, s5, _⟩ := eatSpaces_spec l1.inv
  have := s5.mp h
  have := s1.inv.st.le
  have := l1.off
  omega

theorem eatLinesAndSpaces_spec {inp : List Char} {lx : Lx} (hi : Inv inp lx) (st : St) :
    Step inp lx (eatLinesAndSpaces inp lx st).1 ∧
    AllIn inp Blank lx.st.off (eatLinesAndSpaces inp lx st).1.st.off ∧
    lx.st.lno ≤ (eatLinesAndSpaces inp lx st).1.st.lno ∧
    ((eatLinesAndSpaces inp lx st).1.st.lno = lx.st.lno → (eatLinesAndSpaces inp lx st).2 = st) ∧
    (lx.st.lno < (eatLinesAndSpaces inp lx st).1.st.lno →
      Saved inp (eatLinesAndSpaces inp lx st).1 (eatLinesAndSpaces inp lx st).2 ∧
      lx.st.off < (eatLinesAndSpaces inp lx st).2.off ∧
      (eatLinesAndSpaces inp lx st).2.lno = (eatLinesAndSpaces inp lx st).1.st.lno ∧
      inp[(eatLinesAndSpaces inp lx st).2.off - 1]? = some '\n') :=
  eatLsLoop_spec inp false lx st hi _ rfl

/-! ## Positions of tokens -/

theorem lineStarts_last (s : List Char) :
    ∃ lo, (lineStarts s).getLast? = some lo ∧ lo ≤ s.length ∧ column 0 (s.take lo) = 0 := by
  induction hn : s.length generalizing s with
  | zero =>
    have : s = [] := List.length_eq_zero_iff.mp hn
    subst this
    exact ⟨0, rfl, Nat.le_refl _, rfl⟩
  | succ n ih =>
    have hne : s ≠ [] := by intro h; simp [h] at hn
    obtain ⟨t, c, rfl⟩ : ∃ t c, s = t ++ [c] := ⟨s.dropLast, s.getLast hne, (List.dropLast_concat_getLast hne).symm⟩
    have ht : t.length = n := by simpa using hn
    obtain ⟨lo, h1, h2, h3⟩ := ih t ht
    by_cases hc : c = '\n'
    · refine ⟨t.length + 1, ?_, by simp; omega, ?_⟩
      · simp only [lineStarts, afterLineFeeds_append, ← List.cons_append]
        simp only [afterLineFeeds, hc, if_true, Nat.zero_add]
        exact List.getLast?_concat
      · rw [List.take_of_length_le (by simp)]
        simp [column, List.foldl_append, advance, hc]
    · refine ⟨lo, ?_, by omega, ?_⟩
      · have : lineStarts (t ++ [c]) = lineStarts t := by
          simp only [lineStarts, afterLineFeeds_append]
          simp [afterLineFeeds, hc]
        rw [this]; exact h1
      · rw [List.take_append_of_le_length (by omega)]; exact h3

/-- `lexer_column` returns the display column, counted from one, of the position. -/
theorem columnOf_spec {inp : List Char} {lx : Lx} {st : St} (hl : lx.lines <+: lineStarts inp)
    (h : StOk inp st) (hll : st.lno ≤ lx.lines.length) :
    columnOf inp lx st = some (column 0 (inp.take st.off) + 1) := by
  obtain ⟨lo, h1, h2, h3⟩ := lineStarts_last (inp.take st.off)
  have hlen : (lineStarts (inp.take st.off)).length = st.lno := by
    rw [lineStarts_length, h.lno]
  have hidx : lx.lines[st.lno - 1]? = some lo := by
    rw [List.getLast?_eq_getElem?, hlen] at h1
    have hp := lineStarts_take_prefix inp st.off
    have hl1 : st.lno - 1 < (lineStarts (inp.take st.off)).length := by
      rw [hlen]; have := h.lno; omega
    have hl2 : st.lno - 1 < lx.lines.length := by have := h.lno; omega
    rw [← h1]
    obtain ⟨a, ha⟩ := hp
    obtain ⟨b, hb⟩ := hl
    have e1 : (lineStarts inp)[st.lno - 1]? = (lineStarts (inp.take st.off))[st.lno - 1]? := by
      rw [← ha, List.getElem?_append_left hl1]
    have e2 : (lineStarts inp)[st.lno - 1]? = lx.lines[st.lno - 1]? := by
      rw [← hb, List.getElem?_append_left hl2]
    rw [← e2, e1]
  have hle : lo ≤ st.off := by
    rw [List.length_take] at h2; omega
  unfold columnOf
  rw [hidx]
  simp only
  rw [colwidth_spec _ _ (Nat.le_refl _)]
  have : inp.take st.off = inp.take lo ++ (inp.drop lo).take (st.off - lo) := by
    conv => lhs; rw [show st.off = lo + (st.off - lo) by omega, List.take_add]
  rw [List.take_take, Nat.min_eq_left hle] at h3
  rw [this, column_append, h3]

/-- The bytes at positions `[a, b)`. -/
def seg (inp : List Char) (a b : Nat) : List Char := (inp.drop a).take (b - a)

theorem seg_append (inp : List Char) {a b c : Nat} (h1 : a ≤ b) (h2 : b ≤ c) :
    seg inp a b ++ seg inp b c = seg inp a c := by
  unfold seg
  rw [show c - a = (b - a) + (c - b) by omega, List.take_add, List.drop_drop,
    show a + (b - a) = b by omega]

theorem seg_length (inp : List Char) {a b : Nat} (h2 : b ≤ inp.length) :
    (seg inp a b).length = b - a := by
  unfold seg; rw [List.length_take, List.length_drop]; omega

theorem seg_all {inp : List Char} {p : Char → Prop} {a b : Nat} (h : AllIn inp p a b) :
    ∀ c ∈ seg inp a b, p c := by
  intro c hc
  obtain ⟨i, hi⟩ := List.mem_iff_getElem?.mp hc
  unfold seg at hi
  rw [List.getElem?_take] at hi
  split at hi
  · next hlt =>
    rw [List.getElem?_drop] at hi
    obtain ⟨d, hd, hp⟩ := h (a + i) (by omega) (by omega)
    rw [hi] at hd
    simp at hd; rw [hd]; exact hp
  · simp at hi

/-- What is known about every token, prefix and suffix: it covers a part of the input,
and its line and column are those of its first byte. -/
structure Located (inp : List Char) (t : Tok) : Prop where
  le : t.off ≤ t.stop
  stop : t.stop ≤ inp.length
  lno : t.lno = 1 + (inp.take t.off).count '\n'
  cno : t.cno = some (column 0 (inp.take t.off) + 1)

theorem emit_located {inp : List Char} {lx : Lx} {st : St} (cx : Ctx) (type : TT) (fl : Flags)
    (hi : Inv inp lx) (h : Saved inp lx st) : Located inp (emit inp cx lx st type fl) :=
  ⟨h.off, hi.st.le, h.ok.lno, columnOf_spec hi.lines h.ok h.lno⟩

theorem emit_text {inp : List Char} {lx : Lx} {st : St} (cx : Ctx) (type : TT) (fl : Flags)
    (hi : Inv inp lx) (h : Saved inp lx st) :
    (emit inp cx lx st type fl).str.text inp = some (seg inp st.off lx.st.off) := by
  simp only [emit, Str.text]
  rw [if_pos]; rfl
  have := h.off
  have := hi.st.le
  omega

/-! ## Loops over characters -/

/-- What a loop over characters does: it moves forward. -/
theorem c99Line_step (inp : List Char) (lx : Lx) (hi : Inv inp lx) (r : Lx × Bool)
    (hr : c99Line inp lx = r) :
    Step inp lx r.1 ∧ (r.2 = true → lx.st.off < r.1.st.off ∧ inp[r.1.st.off - 1]? = some '\n' ∧
      r.1.st.lno = lx.st.lno + 1 ∧ r.1.st.eof = false) ∧
    (r.2 = false → r.1.st.off = inp.length ∧ r.1.st.lno = lx.st.lno) := by
  induction hm : left inp lx using Nat.strongRecOn generalizing lx with
  | ind m ih =>
  subst hm
  rw [c99Line] at hr
  split at hr
  · next hg =>
    subst hr
    exact ⟨Step.refl hi, by simp, fun _ => ⟨hi.st.eof ((getc_none hi).mp hg), rfl⟩⟩
  · next c lx' hg =>
    obtain ⟨hs, h1⟩ := getc_some hi hg
    split at hr
    · next hc =>
      subst hc hr
      have h1 := h1.resolve_right (by simp)
      refine ⟨hs, fun _ => ⟨by simp only; omega, ?_, by simp [h1.2.2.2.2], h1.2.2.1⟩, by simp⟩
      simp [h1.2.1, h1.1]
    · next hc =>
      obtain ⟨i1, i2, i3⟩ := ih _ (getc_left hg) _ hs.inv hr rfl
      have hl : lx'.st.lno = lx.st.lno := by
        rcases h1 with h1 | h1
        · rw [h1.2.2.2.2]; simp [hc]
        · rw [h1.2.2.2]
      refine ⟨hs.trans i1, fun h => ?_, fun h => ?_⟩
      · obtain ⟨a, b, c, d⟩ := i2 h
        exact ⟨by have := hs.off; omega, b, by omega, d⟩
      · obtain ⟨a, b⟩ := i3 h
        exact ⟨a, by omega⟩

theorem blockLoop_step (inp : List Char) (ch : Char) (o : Bool) (lx : Lx) (hi : Inv inp lx)
    (r : Lx × Bool) (hr : blockLoop inp ch o lx = r) : Step inp lx r.1 := by
  induction hm : left inp lx using Nat.strongRecOn generalizing lx ch o with
  | ind m ih =>
  subst hm
  rw [blockLoop] at hr
  split at hr
  · subst hr; exact Step.refl hi
  · next c lx' hg =>
    obtain ⟨hs, _⟩ := getc_some hi hg
    split at hr
    · subst hr; exact hs
    · exact hs.trans (ih _ (getc_left hg) _ _ _ hs.inv hr rfl)

theorem cppLoop_step (inp : List Char) (ch : Char) (o : Bool) (lx : Lx) (hi : Inv inp lx)
    (r : Lx) (hr : cppLoop inp ch o lx = r) : Step inp lx r := by
  induction hm : left inp lx using Nat.strongRecOn generalizing lx ch o with
  | ind m ih =>
  subst hm
  rw [cppLoop] at hr
  split at hr
  · subst hr; exact Step.refl hi
  · next c lx' hg =>
    obtain ⟨hs, _⟩ := getc_some hi hg
    split at hr
    · exact hs.trans (ih _ (getc_left hg) _ _ _ hs.inv hr rfl)
    · split at hr
      · exact hs.trans (ih _ (getc_left hg) _ _ _ hs.inv hr rfl)
      · split at hr
        · subst hr; exact (ungetc_getc hi hg).1
        · exact hs.trans (ih _ (getc_left hg) _ _ _ hs.inv hr rfl)

theorem stringLoop_step (inp : List Char) (d p : Char) (lx : Lx) (hi : Inv inp lx)
    (r : Lx × Bool) (hr : stringLoop inp d p lx = r) :
    Step inp lx r.1 ∧ (r.2 = false → r.1.st.off = inp.length) := by
  induction hm : left inp lx using Nat.strongRecOn generalizing lx p with
  | ind m ih =>
  subst hm
  rw [stringLoop] at hr
  split at hr
  · next hg => subst hr; exact ⟨Step.refl hi, fun _ => hi.st.eof ((getc_none hi).mp hg)⟩
  · next c lx' hg =>
    obtain ⟨hs, _⟩ := getc_some hi hg
    split at hr
    · obtain ⟨i1, i2⟩ := ih _ (getc_left hg) _ _ hs.inv hr rfl
      exact ⟨hs.trans i1, i2⟩
    · split at hr
      · subst hr; exact ⟨hs, by simp⟩
      · obtain ⟨i1, i2⟩ := ih _ (getc_left hg) _ _ hs.inv hr rfl
        exact ⟨hs.trans i1, i2⟩

theorem numLoop_step (inp : List Char) (lx : Lx) (hi : Inv inp lx)
    (r : Lx × Bool) (hr : numLoop inp lx = r) :
    Step inp lx r.1 ∧ (r.2 = false → r.1.st.off = inp.length) := by
  induction hm : left inp lx using Nat.strongRecOn generalizing lx with
  | ind m ih =>
  subst hm
  rw [numLoop] at hr
  split at hr
  · next hg => subst hr; exact ⟨Step.refl hi, fun _ => hi.st.eof ((getc_none hi).mp hg)⟩
  · next c lx' hg =>
    obtain ⟨hs, _⟩ := getc_some hi hg
    split at hr
    · obtain ⟨i1, i2⟩ := ih _ (getc_left hg) _ hs.inv hr rfl
      exact ⟨hs.trans i1, i2⟩
    · subst hr; exact ⟨(ungetc_getc hi hg).1, by simp⟩

theorem peekC99_spec {inp : List Char} {lx : Lx} (hi : Inv inp lx) :
    Step inp lx (peekC99 inp lx).1 ∧ (peekC99 inp lx).1.st = lx.st := by
  obtain ⟨s1, _⟩ := eatSpaces_spec hi
  unfold peekC99
  simp only
  split
  · exact ⟨Step.reset hi s1, rfl⟩
  · next hg =>
    obtain ⟨hs, _⟩ := getc_some s1.inv hg
    split
    · exact ⟨Step.reset hi (s1.trans hs), rfl⟩
    · split
      · exact ⟨Step.reset hi (s1.trans hs), rfl⟩
      · next hg' =>
        obtain ⟨hs', _⟩ := getc_some hs.inv hg'
        exact ⟨Step.reset hi ((s1.trans hs).trans hs'), rfl⟩

end Knfmt.Lexer
