import Verif.Lexer.Props
/-! # The lexical class of every token (C51) -/
namespace Knfmt.Spec

open Knfmt.Lexer

/-- Characters of identifiers after the first one. -/
def identChar (c : Char) : Bool := isAlpha c || isDigit c || c = '_'

/-- First characters of identifiers. -/
def identStart (c : Char) : Bool := isAlpha c || c = '_'

/-- The text between the quotes `q` of a literal: a quote in it comes after a backslash,
and a backslash takes the next character with it. -/
inductive Quoted (q : Char) : List Char → Prop
  | nil : Quoted q []
  | plain (c : Char) (s : List Char) : c ≠ q → c ≠ '\\' → Quoted q s → Quoted q (c :: s)
  | escape (c : Char) (s : List Char) : Quoted q s → Quoted q ('\\' :: c :: s)

/-- A literal is opened by `pre`, with or without the `L` of wide characters. -/
def Opens (pre : List Char) (q : Char) : Prop :=
  (pre = [q] ∨ pre = ['L', q]) ∧ (q = '"' ∨ q = '\'')

/-- `Lexeme rest text type`: the first token of `rest` has the given text and type. -/
inductive Lexeme : List Char → List Char → TT → Prop
  /-- an operator: the longest one possible, unless a number such as `.5` begins there -/
  | operator (rest o : List Char) (k : List Char × TT × Flags) : LongestOperator rest o →
      ¬ StartsFraction rest → k ∈ keywords ++ aliases → k.1 = o → Lexeme rest o k.2.1
  /-- a string or character constant: up to the first quote that is not escaped -/
  | quoted (pre body rest : List Char) (q : Char) : Opens pre q → Quoted q body →
      Lexeme (pre ++ (body ++ q :: rest)) (pre ++ (body ++ [q])) (if q = '"' then .string else .literal)
  /-- a number: as many characters that occur in numbers as possible -/
  | number (c : Char) (rest : List Char) : isDigit c = true ∨ StartsFraction (c :: rest) →
      Lexeme (c :: rest) (c :: rest.takeWhile isNum) .literal
  /-- a keyword: as many characters that occur in identifiers as possible -/
  | keyword (c : Char) (rest : List Char) (k : List Char × TT × Flags) : identStart c = true →
      k ∈ keywords ++ aliases → k.1 = c :: rest.takeWhile identChar →
      Lexeme (c :: rest) (c :: rest.takeWhile identChar) k.2.1
  /-- an identifier: the same, but not a keyword and not the `L` of a wide literal -/
  | ident (c : Char) (rest : List Char) : identStart c = true →
      (∀ pre q, Opens pre q → ¬ pre <+: c :: rest) →
      (∀ k ∈ keywords ++ aliases, k.1 ≠ c :: rest.takeWhile identChar) →
      Lexeme (c :: rest) (c :: rest.takeWhile identChar) .ident
  /-- any other character is a token of its own -/
  | other (c d : Char) (rest : List Char) : (∀ o ∈ operators, ¬ o <+: c :: d :: rest) →
      isDigit c = false → identStart c = false → c ≠ '"' → c ≠ '\'' →
      Lexeme (c :: d :: rest) [c] .kNone
  /-- the end -/
  | eof : Lexeme [] [] .eof
  /-- a literal without closing quote is taken for the end -/
  | openQuote (pre body : List Char) (q : Char) : Opens pre q →
      (∀ b rest, body = b ++ q :: rest → ¬ Quoted q b) → Lexeme (pre ++ body) (pre ++ body) .eof
  /-- any other character at the very end is taken for the end -/
  | otherLast (c : Char) : (∀ o ∈ operators, ¬ o <+: [c]) → isDigit c = false → identStart c = false →
      c ≠ '"' → c ≠ '\'' → Lexeme [c] [c] .eof

end Knfmt.Spec

namespace Knfmt.Lexer

open Knfmt.Str Knfmt.Util Knfmt.Spec

theorem drop_cons_of_get {inp : List Char} {i : Nat} {c : Char} (h : inp[i]? = some c) :
    inp.drop i = c :: inp.drop (i + 1) := by
  obtain ⟨hi, rfl⟩ := List.getElem?_eq_some_iff.mp h
  exact List.drop_eq_getElem_cons hi

theorem drop_nil_of_get {inp : List Char} {i : Nat} (h : i = inp.length) : inp.drop i = [] :=
  List.drop_of_length_le (by omega)

/-- The text up to the closing quote; `esc` tells if the previous character is a backslash
that takes the next one with it. -/
def Body (d : Char) (esc : Bool) (l : List Char) : Prop :=
  if esc then ∃ c b, l = c :: b ∧ Quoted d b else Quoted d l

theorem Body.esc {d c : Char} {b : List Char} (h : Quoted d b) : Body d true (c :: b) := by
  unfold Body; rw [if_pos rfl]; exact ⟨c, b, rfl, h⟩

theorem stringLoop_body (inp : List Char) (d p : Char) (hd : d ≠ '\\') (h0 : d ≠ '\x00') (lx : Lx)
    (hi : Inv inp lx) (r : Lx × Bool) (hr : stringLoop inp d p lx = r) :
    (r.2 = true → ∃ body tail, Body d (p = '\\') body ∧ inp.drop lx.st.off = body ++ d :: tail ∧
      r.1.st.off = lx.st.off + body.length + 1) ∧
    (r.2 = false → ∀ b tail, inp.drop lx.st.off = b ++ d :: tail → ¬ Body d (p = '\\') b) := by
  induction hm : left inp lx using Nat.strongRecOn generalizing lx p with
  | ind m ih =>
  subst hm
  rw [stringLoop] at hr
  split at hr
  · next hg =>
    subst hr
    refine ⟨by simp, fun _ b tail h => ?_⟩
    rw [drop_nil_of_get (hi.st.eof ((getc_none hi).mp hg))] at h
    simp at h
  · next c lx' hg =>
    obtain ⟨hs, hc⟩ := getc_some hi hg
    rcases hc with ⟨c1, c2, _⟩ | ⟨c1, c2, c3, c4⟩
    · have hdr := drop_cons_of_get c1
      rw [← c2] at hdr
      split at hr
      · next hb =>
        obtain ⟨i1, i2⟩ := ih _ (getc_left hg) _ _ hs.inv hr rfl
        constructor
        · intro h
          obtain ⟨body, tail, k1, k2, k3⟩ := i1 h
          refine ⟨c :: body, tail, ?_, by rw [hdr, k2]; rfl, by simp only [List.length_cons]; omega⟩
          simp [Body] at k1
          rw [decide_eq_true hb.1]; exact Body.esc k1
        · intro h b tail e hB
          rw [hdr] at e
          simp [Body, hb.1] at hB
          obtain ⟨x, b', rfl, hq⟩ := hB
          simp at e
          exact i2 h b' tail e.2 (by simp [Body, hq])
      · next hb =>
        split at hr
        · next hq =>
          subst hr
          refine ⟨fun _ => ⟨[], inp.drop lx'.st.off, ?_, by rw [hdr, hq.2]; rfl, by simp only [List.length_nil]; omega⟩, by simp⟩
          simp [Body, hq.1]; exact Quoted.nil
        · next hq =>
          obtain ⟨i1, i2⟩ := ih _ (getc_left hg) _ _ hs.inv hr rfl
          by_cases hp : p = '\\'
          · have hc : c ≠ '\\' := fun h => hb ⟨hp, h⟩
            constructor
            · intro h
              obtain ⟨body, tail, k1, k2, k3⟩ := i1 h
              refine ⟨c :: body, tail, ?_, by rw [hdr, k2]; rfl, by simp only [List.length_cons]; omega⟩
              simp [Body, hc] at k1
              rw [decide_eq_true hp]; exact Body.esc k1
            · intro h b tail e hB
              rw [hdr] at e
              simp [Body, hp] at hB
              obtain ⟨x, b', rfl, hq⟩ := hB
              simp at e
              exact i2 h b' tail e.2 (by simp [Body, hc, hq])
          · have hcd : c ≠ d := fun h => hq ⟨hp, h⟩
            by_cases hc : c = '\\'
            · constructor
              · intro h
                obtain ⟨body, tail, k1, k2, k3⟩ := i1 h
                refine ⟨c :: body, tail, ?_, by rw [hdr, k2]; rfl, by simp only [List.length_cons]; omega⟩
                simp [Body, hc] at k1
                obtain ⟨x, b', rfl, hq'⟩ := k1
                simp [Body, hp, hc]
                exact Quoted.escape _ _ hq'
              · intro h b tail e hB
                rw [hdr] at e
                simp [Body, hp] at hB
                cases hB with
                | nil => simp at e; exact hcd e.1
                | plain x s h1 h2 h3 => simp at e; exact h2 (by rw [← e.1]; exact hc)
                | escape x s h1 =>
                  simp at e
                  exact i2 h (x :: s) tail e.2 (by rw [decide_eq_true hc]; exact Body.esc h1)
            · constructor
              · intro h
                obtain ⟨body, tail, k1, k2, k3⟩ := i1 h
                refine ⟨c :: body, tail, ?_, by rw [hdr, k2]; rfl, by simp only [List.length_cons]; omega⟩
                simp [Body, hc] at k1
                simp [Body, hp]
                exact Quoted.plain _ _ hcd hc k1
              · intro h b tail e hB
                rw [hdr] at e
                simp [Body, hp] at hB
                cases hB with
                | nil => simp at e; exact hcd e.1
                | plain x s h1 h2 h3 =>
                  simp at e
                  exact i2 h s tail e.2 (by simp [Body, hc, h3])
                | escape x s h1 => simp at e; exact hc e.1
    · subst c2
      have hnil := drop_nil_of_get c1
      have e1 : lx'.st.off = lx.st.off := by rw [c4]
      have key : r.2 = false := by
        cases hr2 : r.2 with
        | false => rfl
        | true =>
          exfalso
          split at hr
          · next h => exact absurd h.2 (by decide)
          · split at hr
            · next h => exact h0 h.2.symm
            · obtain ⟨i1, i2⟩ := ih _ (getc_left hg) _ _ hs.inv hr rfl
              obtain ⟨body, tail, k1, k2, k3⟩ := i1 hr2
              rw [e1, hnil] at k2
              simp at k2
      refine ⟨fun h => by rw [key] at h; simp at h, fun _ b tail h => ?_⟩
      rw [hnil] at h
      simp at h

theorem numLoop_run (inp : List Char) (lx : Lx) (hi : Inv inp lx) (he : lx.st.eof = false)
    (r : Lx × Bool) (hr : numLoop inp lx = r) :
    r.2 = true ∧ r.1.st.off = lx.st.off + ((inp.drop lx.st.off).takeWhile isNum).length := by
  induction hm : left inp lx using Nat.strongRecOn generalizing lx with
  | ind m ih =>
  subst hm
  rw [numLoop] at hr
  split at hr
  · next hg => rw [(getc_none hi).mp hg] at he; simp at he
  · next c lx' hg =>
    obtain ⟨hs, hc⟩ := getc_some hi hg
    obtain ⟨_, u2, _⟩ := ungetc_getc hi hg
    rcases hc with ⟨c1, c2, c3, _⟩ | ⟨c1, c2, c3, c4⟩
    · rw [drop_cons_of_get c1, ← c2]
      split at hr
      · next hn =>
        obtain ⟨i1, i2⟩ := ih _ (getc_left hg) _ hs.inv c3 hr rfl
        refine ⟨i1, ?_⟩
        rw [List.takeWhile_cons, if_pos hn, i2, List.length_cons]; omega
      · next hn =>
        subst hr
        refine ⟨rfl, ?_⟩
        rw [List.takeWhile_cons, if_neg hn]; simp only [u2]; rfl
    · rw [drop_nil_of_get c1]
      rw [if_neg (by subst c2; decide)] at hr
      subst hr
      exact ⟨rfl, by simp only [u2]; rfl⟩

theorem wide_cases {inp : List Char} {lx : Lx} (ch : Char) (hi : Inv inp lx)
    (r : Char × Lx) (hr : wide inp ch lx = r) :
    (r.1 = ch ∧ r.2.st.off = lx.st.off) ∨
    (ch = 'L' ∧ (r.1 = '"' ∨ r.1 = '\'') ∧ inp[lx.st.off]? = some r.1 ∧ r.2.st.off = lx.st.off + 1) := by
  unfold wide at hr
  split at hr
  · next hL =>
    split at hr
    · next hg =>
      subst hr
      have : ungetc inp lx = lx := by unfold ungetc; rw [(getc_none hi).mp hg]; rfl
      exact Or.inl ⟨rfl, by rw [this]⟩
    · next c lx' hg =>
      split at hr
      · next hq =>
        subst hr
        rcases (getc_some hi hg).2 with h | h
        · exact Or.inr ⟨hL, hq, h.1, h.2.1⟩
        · rw [h.2.1] at hq; exact absurd hq (by decide)
      · subst hr; exact Or.inl ⟨rfl, (ungetc_getc hi hg).2.1⟩
  · subst hr; exact Or.inl ⟨rfl, rfl⟩

theorem inRanges_ident (c : Char) : InRanges identRanges c ↔ identChar c = true := by
  unfold InRanges identRanges identChar isAlpha isUpper isLower isDigit
  have hu : ('_'.toNat ≤ c.toNat ∧ c.toNat ≤ '_'.toNat) ↔ c = '_' := by
    constructor
    · intro h
      have : c.toNat = '_'.toNat := by omega
      exact Char.toNat_inj.mp this
    · rintro rfl; simp
  constructor
  · rintro ⟨r, hr, h⟩
    simp only [List.mem_cons, List.not_mem_nil, or_false] at hr
    rcases hr with rfl | rfl | rfl | rfl
    · rw [decide_eq_true h.1, decide_eq_true h.2]; rfl
    · rw [decide_eq_true h.1, decide_eq_true h.2]; simp
    · rw [decide_eq_true h.1, decide_eq_true h.2]; simp
    · rw [decide_eq_true (hu.mp h)]; simp
  · intro h
    simp only [Bool.or_eq_true, Bool.and_eq_true, decide_eq_true_eq] at h
    rcases h with ((h | h) | h) | h
    · exact ⟨('A', 'Z'), by simp, h⟩
    · exact ⟨_, List.mem_cons_of_mem _ (List.mem_cons_self ..), h⟩
    · exact ⟨_, List.mem_cons_of_mem _ (List.mem_cons_of_mem _ (List.mem_cons_self ..)), h⟩
    · exact ⟨('_', '_'), by simp, hu.mpr h⟩

/-- A run of characters as long as possible. -/
theorem takeWhile_run {inp : List Char} {p : Char → Bool} {a b : Nat} (hab : a ≤ b) (hb : b ≤ inp.length)
    (h : AllIn inp (fun c => p c = true) a b) (hn : ∀ c, inp[b]? = some c → p c = false) :
    (inp.drop a).takeWhile p = seg inp a b := by
  rw [show inp.drop a = seg inp a b ++ inp.drop b by
    conv => lhs; rw [← List.take_append_drop (b - a) (inp.drop a)]
    rw [List.drop_drop, show a + (b - a) = b by omega]; rfl]
  rw [List.takeWhile_append_of_pos (seg_all h)]
  have : (inp.drop b).takeWhile p = [] := by
    cases hc : inp[b]? with
    | none => rw [List.drop_of_length_le (by simpa using hc)]; rfl
    | some c => rw [drop_cons_of_get hc, List.takeWhile_cons, if_neg (by simp [hn c hc])]
  rw [this, List.append_nil]

theorem seg_cons {inp : List Char} {a b : Nat} {c : Char} (h : inp[a]? = some c) (hab : a < b) :
    seg inp a b = c :: seg inp (a + 1) b := by
  unfold seg
  rw [drop_cons_of_get h, show b - a = (b - (a + 1)) + 1 by omega, List.take_succ_cons]

theorem seg_eq_append {inp s t : List Char} {a b : Nat} (h : inp.drop a = s ++ t)
    (hb : b = a + s.length) : seg inp a b = s := by
  unfold seg; rw [h, hb, Nat.add_sub_cancel_left, List.take_left]

/-- A quote after an `L` is taken for the start of a literal. -/
theorem wide_quote {inp : List Char} {lx : Lx} {ch q : Char} (hL : ch = 'L') (hg : inp[lx.st.off]? = some q)
    (hq : q = '"' ∨ q = '\'') : (wide inp ch lx).1 = q := by
  have : getc inp lx = some (q, { lx with st := { lx.st with off := lx.st.off + 1 } }) := by
    unfold getc
    rw [hg]
    dsimp only
    rw [if_neg (by rcases hq with h | h <;> rw [h] <;> decide)]
  unfold wide
  rw [if_pos hL, this]
  dsimp only
  rw [if_pos hq]

/-- The raw text of what `clang_read` reads after it found no operator. -/
theorem readOther_lexeme {inp : List Char} {lx : Lx} (cx : Ctx) (hi : Inv inp lx)
    (hop : (∀ o ∈ operators, ¬ o <+: inp.drop lx.st.off) ∨ StartsFraction (inp.drop lx.st.off))
    (r : Lx × Tok) (hr : readOther inp cx lx = r) :
    Lexeme (inp.drop lx.st.off) (seg inp lx.st.off r.1.st.off) r.2.type := by
  unfold readOther at hr
  split at hr
  · next hg =>
    subst hr
    have := hi.st.eof ((getc_none hi).mp hg)
    rw [drop_nil_of_get this]
    have : seg inp lx.st.off lx.st.off = [] := by simp [seg]
    rw [this]; exact Lexeme.eof
  · next ch0 lx0 hg =>
    obtain ⟨g1, g2⟩ := getc_some hi hg
    have hw := wide_cases ch0 g1.inv _ rfl
    have hw' := wide_spec ch0 g1.inv _ rfl
    simp only at hr
    have hwq := fun q (h1 : ch0 = 'L') h2 h3 => wide_quote (inp := inp) (lx := lx0) (q := q) h1 h2 h3
    generalize wide inp ch0 lx0 = w at hr hw hw' hwq
    obtain ⟨w1, w2, w3⟩ := hw'
    rcases g2 with ⟨c1, c2, c3, c4, c5⟩ | ⟨c1, c2, c3, c4⟩
    · have hdr := drop_cons_of_get c1
      rw [← c2] at hdr
      split at hr
      · next hq =>
        obtain ⟨s1, s2⟩ := stringLoop_step inp w.1 w.1 w.2 w1.inv _ rfl
        have hb := stringLoop_body inp w.1 w.1 (by rcases hq with h | h <;> rw [h] <;> decide)
          (by rcases hq with h | h <;> rw [h] <;> decide) w.2 w1.inv _ rfl
        have hnb : (decide (w.1 = '\\')) = false := by rcases hq with h | h <;> rw [h] <;> decide
        rw [hnb] at hb
        simp only [Body, Bool.false_eq_true, if_false] at hb
        have hopen : ∃ pre, Opens pre w.1 ∧ inp.drop lx.st.off = pre ++ inp.drop w.2.st.off ∧
            w.2.st.off = lx.st.off + pre.length := by
          rcases hw with ⟨h1, h2⟩ | ⟨h1, h2, h3, h4⟩
          · exact ⟨[w.1], ⟨Or.inl rfl, hq⟩, by rw [hdr, h2, h1]; rfl, by simp; omega⟩
          · refine ⟨['L', w.1], ⟨Or.inr rfl, hq⟩, ?_, by simp; omega⟩
            rw [hdr, drop_cons_of_get h3, h4, h1]; rfl
        obtain ⟨pre, p1, p2, p3⟩ := hopen
        generalize stringLoop inp w.1 w.1 w.2 = x at *
        split at hr
        · next hx =>
          obtain ⟨body, tail, k1, k2, k3⟩ := hb.1 hx
          subst hr
          have hd2 : inp.drop lx.st.off = (pre ++ (body ++ [w.1])) ++ tail := by rw [p2, k2]; simp
          have hsg : seg inp lx.st.off x.1.st.off = pre ++ (body ++ [w.1]) :=
            seg_eq_append hd2 (by simp; omega)
          simp only [hsg]
          rw [p2, k2]
          exact Lexeme.quoted pre body tail w.1 p1 k1
        · next hx =>
          have hx : x.2 = false := by simpa using hx
          subst hr
          have hsg : seg inp lx.st.off x.1.st.off = inp.drop lx.st.off :=
            seg_eq_append (t := []) (by simp) (by rw [s2 hx, List.length_drop]; have := hi.st.le; omega)
          simp only [hsg]
          rw [p2]
          exact Lexeme.openQuote pre _ w.1 p1 (fun b rest e => hb.2 hx b rest e)
      · next hq =>
        have hw1 : w.1 = ch0 ∧ w.2.st.off = lx0.st.off := by
          rcases hw with h | h
          · exact h
          · exact absurd h.2.1 hq
        rw [hdr] at hop ⊢
        split at hr
        · next hd =>
          have hL : ch0 ≠ 'L' := by
            intro h; rw [hw1.1, h] at hd; exact absurd hd (by decide)
          have hww := w3 hL
          have hn := numLoop_run inp w.2 w1.inv (by rw [hww]; exact c3) _ rfl
          generalize numLoop inp w.2 = x at *
          rw [if_pos hn.1] at hr
          subst hr
          have hsg : seg inp lx.st.off x.1.st.off = ch0 :: (inp.drop lx0.st.off).takeWhile isNum := by
            refine seg_eq_append (t := (inp.drop lx0.st.off).dropWhile isNum) ?_ ?_
            · rw [hdr, List.cons_append, List.takeWhile_append_dropWhile]
            · rw [hn.2, hw1.2, List.length_cons, c2]; omega
          simp only [hsg]
          refine Lexeme.number ch0 _ ?_
          rw [hw1.1] at hd
          simp only [Bool.or_eq_true, decide_eq_true_eq] at hd
          rcases hd with h | h
          · exact Or.inl h
          · rcases hop with h' | h'
            · exfalso
              refine h' ['.'] (by decide +kernel) ?_
              rw [h]; exact ⟨_, rfl⟩
            · exact Or.inr h'
        · next hd =>
          split at hr
          · next ha =>
            obtain ⟨m1, m2, m3, m4⟩ := span_step w1.inv identRanges identRanges_ascii inRanges_ident_nl
            have hlt : lx.st.off < (lexMatch inp w.2 identRanges).st.off := by
              have := m1.off; omega
            have hrun : (inp.drop lx0.st.off).takeWhile identChar =
                seg inp lx0.st.off (lexMatch inp w.2 identRanges).st.off := by
              have := m1.off
              refine takeWhile_run (by omega) m1.inv.st.le ?_ ?_
              · rw [hw1.2] at m2; exact m2.mono (fun c hc => (inRanges_ident c).mp hc)
              · intro c hc
                have := m4 c hc
                rw [inRanges_ident] at this
                simpa using this
            have hsg : seg inp lx.st.off (lexMatch inp w.2 identRanges).st.off =
                ch0 :: (inp.drop lx0.st.off).takeWhile identChar := by
              rw [hrun, seg_cons c1 hlt, ← c2]
            have hst : identStart ch0 = true := by rw [← hw1.1]; exact ha
            split at hr
            · next kw hk =>
              rw [findKeyword_eq hlt] at hk
              obtain ⟨k1, k2⟩ := findKeyword1_some hk
              subst hr
              simp only [hsg]
              exact Lexeme.keyword ch0 _ kw hst k1 (by rw [k2, hsg])
            · next hk =>
              rw [findKeyword_eq hlt] at hk
              have := findKeyword1_none hk
              subst hr
              simp only [hsg]
              refine Lexeme.ident ch0 _ hst ?_ (fun k hk' => by rw [← hsg]; exact this k hk')
              rintro pre q ⟨hpre, hq'⟩ ⟨tl, htl⟩
              rcases hpre with rfl | rfl
              · simp only [List.cons_append, List.cons.injEq] at htl
                exact hq (by rw [hw1.1, ← htl.1]; exact hq')
              · simp only [List.cons_append, List.nil_append, List.cons.injEq] at htl
                have hg1 : inp[lx0.st.off]? = some q := by
                  have := congrArg (fun l => l[0]?) htl.2
                  simpa [List.getElem?_drop] using this.symm
                have := hwq q htl.1.symm hg1 hq'
                exact hq (by rw [this]; exact hq')
          · next ha =>
            have hst : identStart ch0 = false := by
              rw [hw1.1] at ha
              cases h : identStart ch0 with
              | false => rfl
              | true => exact absurd h ha
            have hdg : isDigit ch0 = false := by
              cases h : isDigit ch0 with
              | false => rfl
              | true => exact absurd (by rw [hw1.1, h]; rfl) hd
            have hop' : ∀ o ∈ operators, ¬ o <+: ch0 :: inp.drop lx0.st.off := by
              rcases hop with h | ⟨d, rest', h, _⟩
              · exact h
              · exfalso
                simp at h
                exact hd (by rw [hw1.1, h.1]; decide)
            have hsg : seg inp lx.st.off w.2.st.off = [ch0] := by
              rw [hw1.2, seg_cons c1 (by omega), c2]; simp [seg]
            have q1 : ch0 ≠ '"' := fun h => hq (Or.inl (by rw [hw1.1, h]))
            have q2 : ch0 ≠ '\'' := fun h => hq (Or.inr (by rw [hw1.1, h]))
            split at hr
            · next he =>
              have he : w.2.st.off = inp.length := by simpa [isEof] using he
              subst hr
              simp only [hsg]
              rw [drop_nil_of_get (by rw [← hw1.2]; exact he)] at hop' ⊢
              exact Lexeme.otherLast ch0 hop' hdg hst q1 q2
            · next he =>
              have he : w.2.st.off ≠ inp.length := by simpa [isEof] using he
              subst hr
              simp only [hsg]
              have hlt : lx0.st.off < inp.length := by
                have := g1.inv.st.le
                rw [hw1.2] at he; omega
              have hx := drop_cons_of_get (List.getElem?_eq_getElem hlt)
              rw [hx] at hop' ⊢
              exact Lexeme.other ch0 _ _ hop' hdg hst q1 q2
    · have hww := w3 (by rw [c2]; decide)
      subst c2
      rw [hww] at hr
      simp only at hr
      rw [if_neg (by decide), if_neg (by simp [isDigit]), if_neg (by simp [isAlpha, isUpper, isLower]), if_pos (by rw [c4]; simp [isEof, c1])] at hr
      subst hr
      simp only [c4]
      have : seg inp lx.st.off lx.st.off = [] := by simp [seg]
      rw [drop_nil_of_get c1, this]
      exact Lexeme.eof

theorem readOther_type {inp : List Char} {lx : Lx} (cx : Ctx) :
    (readOther inp cx lx).2.type ≠ .cppDefine := by
  unfold readOther
  split
  · simp [emit]
  · simp only
    split
    · split
      · show (if _ then TT.string else TT.literal) ≠ _
        split <;> decide
      · simp [emit]
    · split
      · split <;> simp [emit]
      · split
        · split
          · next kw hk =>
            unfold findKeyword at hk
            obtain ⟨x, _, hx⟩ := Option.bind_eq_some_iff.mp hk
            exact (table_types kw (findKeyword1_some hx).1).2.2.2
          · simp [emit]
        · split <;> simp [emit]

/-- A number such as `.5` is not taken for an operator. -/
theorem readKeyword_fraction {inp : List Char} {lx : Lx} (cx : Ctx) (hi : Inv inp lx) (t : Tok)
    (ht : (readKeyword inp cx lx).2 = some t) : ¬ StartsFraction (inp.drop t.off) := by
  rintro ⟨d, rest, hd, hdig⟩
  obtain ⟨e1, -⟩ := eatLinesAndSpaces_spec hi lx.st
  unfold readKeyword at ht
  simp only at ht
  generalize (eatLinesAndSpaces inp lx lx.st).1 = y at *
  split at ht
  · simp at ht
  · next c lx1 hg =>
    obtain ⟨g1, g2⟩ := getc_some e1.inv hg
    split at ht
    · simp at ht
    · next kw hk =>
      simp only [Option.some.injEq] at ht
      have hoff : t.off = y.st.off := by rw [← ht]; rfl
      rw [hoff] at hd
      have q0 : inp[y.st.off]? = some '.' := by
        have := congrArg (fun l => l[0]?) hd
        simpa [List.getElem?_drop] using this
      have q1 : inp[y.st.off + 1]? = some d := by
        have := congrArg (fun l => l[1]?) hd
        simpa [List.getElem?_drop] using this
      have hlt := (List.getElem?_eq_some_iff.mp q0).1
      have g2' := g2.resolve_right (by rintro ⟨h, _⟩; omega)
      have hf : findKeyword inp lx1 y.st = findKeyword1 ['.'] := by
        rw [findKeyword_eq (by omega)]
        congr 1
        rw [g2'.2.1, seg_cons q0 (by omega)]; simp [seg]
      have hdot : findKeyword1 ['.'] = some (['.'], .period, { ambiguous := true }) := by decide +kernel
      have hg1 : getc inp lx1 = some (d, { lx1 with st := { lx1.st with off := lx1.st.off + 1 } }) := by
        unfold getc
        rw [g2'.2.1, q1]
        have hnl : d ≠ '\n' := by intro h; rw [h] at hdig; exact absurd hdig (by decide)
        dsimp only
        rw [if_neg hnl]
      rw [keywordLoop, hf, hdot] at hk
      simp [hg1, hdig] at hk

theorem readMain_lexeme {inp : List Char} {lx : Lx} (cx : Ctx) (hi : Inv inp lx)
    (t : Lx × Tok) (ht : readMain inp cx lx = t) :
    Lexeme (inp.drop t.2.off) (t.2.raw inp) t.2.type ∧ t.2.str.text inp = some (t.2.raw inp) := by
  obtain ⟨q, k1, k2, k3, k4, k5, k6, k7, k8⟩ := readKeyword_spec cx hi _ rfl
  unfold readMain at ht
  have hfrac := readKeyword_fraction cx hi
  generalize readKeyword inp cx lx = k at *
  simp only at ht
  have htext : ∀ (t : Tok), TextOk inp cx t → t.joined = false → t.type ≠ .comment → t.type ≠ .space →
      t.type ≠ .cppDefine → t.str.text inp = some (t.raw inp) := by
    intro t h1 h2 h3 h4 h5
    rcases h1 with ⟨_, s, m1, m2⟩ | ⟨m1, _⟩
    · unfold TextOf at m2
      split at m2
      · next h => exact absurd h h3
      · next h => exact absurd h h5
      · next h => exact absurd h h4
      · rw [m1, m2]
    · rw [h2] at m1; simp at m1
  split at ht
  · next tk hk =>
    subst ht
    obtain ⟨a1, a2, a3, a4, ⟨kw, a5, a6, a7, a8⟩, a9, a10⟩ := k7 tk hk
    have htt := table_types kw a5
    refine ⟨?_, htext tk a1.text a9 (by rw [a6]; exact htt.1) (by rw [a6]; exact htt.2.1)
      (by rw [a6]; exact htt.2.2.2)⟩
    simp only
    have hfr := hfrac tk hk
    rw [a2, a6]
    rw [a2] at hfr
    exact Lexeme.operator _ _ kw a10 hfr a5 a7.symm
  · next hk =>
    obtain ⟨b1, b2⟩ := k8 hk
    have hl := readOther_lexeme cx k4 (by rw [b1]; exact b2) _ ht
    obtain ⟨o1, o2, o3, o4, o5, o6, o7, o8, o9, o10⟩ := readOther_spec cx k4 _ ht
    rw [← o3, ← o4] at hl
    refine ⟨hl, htext _ o2.text o5 o6 o7 ?_⟩
    rw [← ht]; exact readOther_type cx

/-- Every token of the list was read by `readMain`. -/
theorem tokenizeLoop_mem {inp : List Char} (cx : Ctx) (lx : Lx) (hi : Inv inp lx) (t : Token)
    (ht : t ∈ (tokenizeLoop inp cx lx).2) : ∃ lx', Inv inp lx' ∧ t.tok = (readMain inp cx lx').2 := by
  induction hm : inp.length - lx.st.off using Nat.strongRecOn generalizing lx with
  | ind m ih =>
  subst hm
  rw [tokenizeLoop] at ht
  obtain ⟨p1, _⟩ := readPrefixes_spec cx lx.st.off [] lx hi
    ⟨⟨Nat.le_refl _, AllIn.empty _ _ _⟩, by simp, by simp⟩ _ rfl
  have hread : ∃ lx', Inv inp lx' ∧ (read inp cx lx).2.tok = (readMain inp cx lx').2 :=
    ⟨_, p1.inv, rfl⟩
  simp only at ht
  split at ht
  · simp only [List.mem_singleton] at ht
    rw [ht]; exact hread
  · next he =>
    have hg := tokenizeLoop_guard cx hi he
    rw [dif_pos hg] at ht
    rcases List.mem_cons.mp ht with h | h
    · rw [h]; exact hread
    · exact ih _ hg _ (read_spec cx hi _ rfl).1.inv h rfl

/-- C51: the text and type of every token are those the lexical rules give to the
characters at its position. -/
theorem token_lexeme (inp : List Char) (cx : Ctx) (t : Token)
    (ht : t ∈ (tokenizeLoop inp cx init).2) :
    ∃ s, t.tok.str.text inp = some s ∧ Lexeme (inp.drop t.tok.off) s t.tok.type := by
  obtain ⟨lx, h1, h2⟩ := tokenizeLoop_mem cx init (init_inv inp) t ht
  obtain ⟨h3, h4⟩ := readMain_lexeme cx h1 _ rfl
  rw [h2]
  exact ⟨_, h4, h3⟩

end Knfmt.Lexer
