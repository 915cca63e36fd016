import Verif.Lexer.ReadBack
/-! # White space after the tokens of a line (C86) -/
namespace Knfmt.Spec
open Knfmt.Lexer

/-- Given a text made of tokens and white space, is there white space after each token? Nothing comes after the
end of the text. -/
def gapsOf : List Char → List (List Char) → List Bool
  | _, [] => [false]
  | text, s :: ts =>
    ((text.dropWhile gapChar).drop s.length).head?.any gapChar ::
      gapsOf ((text.dropWhile gapChar).drop s.length) ts

end Knfmt.Spec

namespace Knfmt.Lexer
open Knfmt.Str Knfmt.Util Knfmt.Spec

theorem eatLines_none {inp : List Char} {lx : Lx} (hi : Inv inp lx) (hn : '\n' ∉ inp) : (eatLines inp 0 lx).2 = 0 := by
  obtain ⟨-, -, h1, -, h2, -, h3⟩ := eatLines_spec 0 hi
  have h3 := h3 rfl
  rcases Nat.lt_or_ge lx.st.lno (eatLines inp 0 lx).1.st.lno with h | h
  · exact absurd (List.mem_of_getElem? (h2 h).2) hn
  · omega

/-- The suffixes of a token in a text on one line: at most one, of spaces. -/
theorem readTail_gap {inp : List Char} {lx : Lx} (cx : Ctx) (d : Bool) (hi : Inv inp lx) (hn : '\n' ∉ inp)
    {g s : List Char} (h : Plain inp lx.st.off g s) :
    (readTail inp cx d lx).2.map (fun t => t.flags.optspace) = if g.isEmpty then [] else [true] := by
  unfold readTail
  simp only
  have hsuf : (if d = true then (lx, []) else readSuffixes inp cx [] lx).2 = ([] : List Tok) ∧
      (if d = true then (lx, []) else readSuffixes inp cx [] lx).1.st = lx.st ∧
      Inv inp (if d = true then (lx, []) else readSuffixes inp cx [] lx).1 := by
    cases d with
    | true => exact ⟨rfl, rfl, hi⟩
    | false =>
      obtain ⟨a, b⟩ := readSuffixes_plain cx hi h
      exact ⟨a, b, (readSuffixes_spec cx lx.st.off [] lx hi (Covers.nil _ _ _) _ rfl).1.inv⟩
  generalize (if d = true then (lx, []) else readSuffixes inp cx [] lx) = u at hsuf ⊢
  obtain ⟨u1, u2, u3⟩ := hsuf
  obtain ⟨s1, s2, -, -, s5, s6, s7⟩ := eatSpaces_spec u3
  have hsp : (optSpace inp cx u.2 u.1).2.map (fun t => t.flags.optspace) = (if g.isEmpty then [] else [true]) ∧
      Inv inp (optSpace inp cx u.2 u.1).1 := by
    have hat : ∀ c, (g ++ s).head? = some c → inp[u.1.st.off]? = some c := by
      intro c hc
      rw [u2, ← Nat.add_zero lx.st.off, ← List.getElem?_drop, h.drop, ← List.head?_eq_getElem?, hc]
    unfold optSpace
    rw [if_pos u1]
    simp only
    cases hg : g with
    | nil =>
      have : (eatSpaces inp u.1).2 = false := by
        rw [← Bool.not_eq_true, s5]
        intro hlt
        obtain ⟨c, hc, hb⟩ := s2 u.1.st.off (Nat.le_refl _) hlt
        have hs : s.head? = some c := by
          rw [hg, List.nil_append] at hat
          cases hs : s with
          | nil =>
            have hd := h.drop
            rw [hg, hs, List.append_nil] at hd
            have : inp[u.1.st.off]? = none := by
              rw [u2, ← Nat.add_zero lx.st.off, ← List.getElem?_drop, hd]; rfl
            rw [this] at hc; cases hc
          | cons x r =>
            have := hat x (by rw [hs]; rfl)
            rw [this] at hc
            rw [List.head?_cons, hc]
        have := h.nonblank
        rw [hs] at this
        rcases hb with hb | hb | hb <;> rw [hb] at this <;> exact absurd this (by decide)
      rw [this]
      exact ⟨rfl, s1.inv⟩
    | cons x r =>
      have hx : inp[u.1.st.off]? = some x := hat x (by rw [hg]; rfl)
      have hgx := h.gap x (by rw [hg]; exact List.mem_cons_self ..)
      have hxn : x ≠ '\n' := by
        rintro rfl
        exact hn (List.mem_of_getElem? hx)
      have : (eatSpaces inp u.1).2 = true := by
        rw [← Bool.not_eq_false]
        intro hf
        have := s7 x (by rw [s6 hf]; exact hx)
        simp only [gapChar, Bool.or_eq_true, decide_eq_true_eq] at hgx
        rcases hgx with (h | h) | h
        · exact this (Or.inl h)
        · exact this (Or.inr (Or.inr h))
        · exact hxn h
      rw [this]
      exact ⟨by simp [emit], s1.inv⟩
  generalize optSpace inp cx u.2 u.1 = v at hsp ⊢
  unfold optLines
  simp only
  rw [if_neg (by rw [eatLines_none hsp.2 hn]; decide)]
  exact hsp.1

theorem dropWhile_gap {g s : List Char} (hg : ∀ c ∈ g, gapChar c = true) (hs : s.head?.any blank = false) :
    (g ++ s).dropWhile gapChar = s := by
  induction g with
  | nil =>
    cases s with
    | nil => rfl
    | cons x s =>
      have : gapChar x = false := by
        rw [← Bool.not_eq_true]
        intro h
        simp only [gapChar, Bool.or_eq_true, decide_eq_true_eq] at h
        rcases h with (h | h) | h <;> rw [h] at hs <;> simp [blank] at hs
      rw [List.nil_append, List.dropWhile_cons, if_neg (by rw [this]; simp)]
  | cons x g ih =>
    rw [List.cons_append, List.dropWhile_cons, if_pos (hg x (List.mem_cons_self ..))]
    exact ih fun c hc => hg c (List.mem_cons_of_mem _ hc)

theorem head_gap {g s : List Char} (hg : ∀ c ∈ g, gapChar c = true) (hs : s.head?.any blank = false) :
    (g ++ s).head?.any gapChar = !g.isEmpty := by
  cases g with
  | cons x g => simp [hg x (List.mem_cons_self ..)]
  | nil =>
    cases s with
    | nil => rfl
    | cons x s =>
      simp only [List.nil_append, List.head?_cons, Option.any_some, List.isEmpty_nil, Bool.not_true]
      rw [← Bool.not_eq_true]
      intro h
      simp only [gapChar, Bool.or_eq_true, decide_eq_true_eq] at h
      rcases h with (h | h) | h <;> rw [h] at hs <;> simp [blank] at hs

/-- Reading one token of a text on one line: its suffixes. -/
theorem read_gap {inp : List Char} {lx : Lx} (cx : Ctx) (hi : Inv inp lx) (hn : '\n' ∉ inp) {g s r : List Char} {ty : TT}
    (h : Plain inp lx.st.off g (s ++ r)) (hl : Lexeme (s ++ r) s ty) {g' r' : List Char}
    (h' : Plain inp (lx.st.off + g.length + s.length) g' r') :
    (read inp cx lx).2.suffixes.map (fun t => t.flags.optspace) = if g'.isEmpty then [] else [true] := by
  obtain ⟨p1, p2⟩ := readPrefixes_plain cx hi h
  obtain ⟨ps, _⟩ := readPrefixes_spec cx lx.st.off [] lx hi
    ⟨⟨Nat.le_refl _, AllIn.empty _ _ _⟩, by simp, by simp⟩ _ rfl
  unfold read
  simp only
  generalize readPrefixes inp cx [] lx = p at *
  rw [← p2] at h
  obtain ⟨m1, m2, m3, m4⟩ := readMain_off cx ps.inv
  obtain ⟨l1, l2⟩ := readMain_lexeme cx ps.inv _ rfl
  obtain ⟨e1, e2⟩ := eat_all ps.inv p.1.st h.drop h.gap h.nonblank
  rw [m1, e1] at l1
  obtain ⟨u1, u2⟩ := lexeme_unique l1 hl
  have hlen : (readMain inp cx p.1).1.st.off = lx.st.off + g.length + s.length := by
    have hq : ((readMain inp cx p.1).2.raw inp).length = s.length := by rw [u1]
    have hraw : (readMain inp cx p.1).2.raw inp =
      seg inp (readMain inp cx p.1).2.off (readMain inp cx p.1).2.stop := rfl
    rw [hraw, seg_length inp (by rw [m2]; exact m4.inv.st.le)] at hq
    rw [← m2]
    have : (readMain inp cx p.1).2.off = lx.st.off + g.length := by rw [m1, e2, p2]
    omega
  rw [← hlen] at h'
  exact readTail_gap cx _ m4.inv hn h'

/-- The gap left before the next token does not matter. -/
theorem gapsOf_gap (g s : List Char) (ts : List (List Char)) (hg : ∀ c ∈ g, gapChar c = true)
    (hs : s.head?.any blank = false) : gapsOf (g ++ s) ts = gapsOf s ts := by
  cases ts with
  | nil => rfl
  | cons x ts =>
    have h0 := dropWhile_gap (g := []) (by simp) hs
    rw [List.nil_append] at h0
    rw [gapsOf, gapsOf, dropWhile_gap hg hs, h0]

theorem tokenize_gaps {inp : List Char} (cx : Ctx) (hn : '\n' ∉ inp) (ts : List (List Char × TT)) (lx : Lx)
    (hi : Inv inp lx) (ht : Spelled (inp.drop lx.st.off) ts) :
    ((tokenizeLoop inp cx lx).2.map (fun t => t.suffixes.map (fun u => u.flags.optspace))).dropLast =
      (gapsOf (inp.drop lx.st.off) (ts.map (·.1))).dropLast.map (fun b => if b then [true] else []) := by
  induction ts generalizing lx with
  | nil =>
    obtain ⟨g, s, h1, h2, h3, -⟩ := plain_of_spelled (inp := inp) rfl ht
    have h3 := h3 rfl
    subst h3
    obtain ⟨r1, r2, r3, r4⟩ := read_plain (s := []) (r := []) (ty := .eof) cx hi h2 Lexeme.eof
    rw [tokenizeLoop]
    simp only
    rw [if_pos r1]
    rfl
  | cons x ts ih =>
    obtain ⟨g, s, h1, h2, -, h3⟩ := plain_of_spelled (inp := inp) rfl ht
    obtain ⟨r, e1, e2, e3⟩ := h3 x ts rfl
    subst e1
    obtain ⟨r1, r2, r3, r4⟩ := read_plain cx hi h2 e2.lexeme
    have hd : inp.drop (lx.st.off + g.length + x.1.length) = r := by
      rw [← List.drop_drop, ← List.drop_drop, h2.drop]; simp
    obtain ⟨g', s', k1, k2, k3, k4⟩ := plain_of_spelled hd e3
    have hgap := read_gap cx hi hn h2 e2.lexeme k2
    obtain ⟨r5, r6, g'', r7⟩ := r4 g' s' k2
    have hne : (read inp cx lx).2.tok.type ≠ .eof := by rw [r1]; exact e2.notEof
    have i1 := ih (read inp cx lx).1 r6 (by
      rw [r7.drop]
      cases ts with
      | nil => rw [k3 rfl, List.append_nil]; exact Spelled.nil _ r7.gap
      | cons y l =>
        obtain ⟨r', f1, f2, f3⟩ := k4 y l rfl
        rw [f1]
        exact Spelled.cons _ _ _ _ _ r7.gap f2 f3)
    have hgs : gapsOf (inp.drop (read inp cx lx).1.st.off) (ts.map (·.1)) = gapsOf r (ts.map (·.1)) := by
      rw [r7.drop, k1, gapsOf_gap g'' s' _ r7.gap r7.nonblank, gapsOf_gap g' s' _ k2.gap k2.nonblank]
    rw [hgs] at i1
    have hcur : gapsOf (inp.drop lx.st.off) ((x :: ts).map (·.1)) =
        (!g'.isEmpty) :: gapsOf r (ts.map (·.1)) := by
      rw [List.map_cons, gapsOf, h2.drop, dropWhile_gap h2.gap h2.nonblank, List.drop_left, ← head_gap k2.gap k2.nonblank,
        ← k1]
    rw [hcur]
    have hne1 : ∀ (t : List Char) (l : List (List Char)), gapsOf t l ≠ [] := by
      intro t l; cases l <;> simp [gapsOf]
    have hne2 : (tokenizeLoop inp cx (read inp cx lx).1).2 ≠ [] := by
      rw [tokenizeLoop]
      simp only
      split
      · simp
      · split <;> simp
    rw [tokenizeLoop]
    simp only
    rw [if_neg hne, dif_pos (tokenizeLoop_guard cx hi hne)]
    rw [List.map_cons, List.dropLast_cons_of_ne_nil (by simpa using hne2),
      List.dropLast_cons_of_ne_nil (hne1 _ _), List.map_cons, i1, hgap]
    cases g'.isEmpty <;> rfl

/-- C86: in a text on one line made of tokens and white space, a token has one suffix, of spaces, if white space comes
after it, and none otherwise. -/
theorem read_gaps (inp : List Char) (cx : Ctx) (hn : '\n' ∉ inp) (ts : List (List Char × TT)) (h : Spelled inp ts) :
    ((tokenizeLoop inp cx init).2.map (fun t => t.suffixes.map (fun u => u.flags.optspace))).dropLast =
      (gapsOf inp (ts.map (·.1))).dropLast.map (fun b => if b then [true] else []) :=
  tokenize_gaps cx hn ts init (init_inv inp) h

end Knfmt.Lexer
