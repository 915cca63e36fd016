import Verif.Lexer.Lexeme
/-! # Theorems about the lexer (C10, C11, C12, C13, C17, C51) -/
namespace Knfmt.Spec

/-- The lines of a text, each with its line feed; the last one has none and may be
empty. -/
def splitLines : List Char → List (List Char)
  | [] => [[]]
  | c :: s =>
    if c = '\n' then ['\n'] :: splitLines s
    else match splitLines s with
      | [] => [[c]]
      | l :: ls => (c :: l) :: ls

/-- White space. -/
def blank (c : Char) : Bool :=
  c = ' ' || c = '\t' || c = '\x0c' || c = '\x0b' || c = '\n' || c = '\r'

/-- What is left of a text without white space. -/
def nonblank (s : List Char) : List Char := s.filter (fun c => !blank c)

/-- The text `s` consists of the pieces `ps` in order, with nothing but white space
in front of, between and after them. -/
inductive Pieces : List Char → List (List Char) → Prop
  | nil (b : List Char) : (∀ c ∈ b, blank c = true) → Pieces b []
  | cons (b p s : List Char) (ps : List (List Char)) : (∀ c ∈ b, blank c = true) →
      Pieces s ps → Pieces (b ++ p ++ s) (p :: ps)

/-- A position in the input; `told` says if the end has been reported. -/
structure Cursor where
  pos : Nat
  told : Bool
deriving DecidableEq, Repr

/-- What can be done with the character reader. -/
inductive ROp where
  /-- read a character -/
  | get
  /-- put the last character back -/
  | unget
  /-- remember the position -/
  | save
  /-- go back to the last position remembered and forget it -/
  | restore
deriving DecidableEq, Repr

/-- Reading by a cursor: the characters in order, then one NUL, then nothing. Putting
back moves one position back, unless the end was reported. The result is the list of
what was read; `none` if a character is put back in front of the first one, or if there
is no position to go back to. -/
def runCursor (inp : List Char) : List ROp → Cursor → List Cursor →
    Option (List (Option Char) × Cursor)
  | [], c, _ => some ([], c)
  | .get :: ops, c, stk =>
    match inp[c.pos]? with
    | some ch => (runCursor inp ops { c with pos := c.pos + 1 } stk).map (fun r => (some ch :: r.1, r.2))
    | none =>
      if c.told then (runCursor inp ops c stk).map (fun r => (none :: r.1, r.2))
      else (runCursor inp ops { c with told := true } stk).map (fun r => (some '\x00' :: r.1, r.2))
  | .unget :: ops, c, stk =>
    if c.told then runCursor inp ops c stk
    else if c.pos = 0 then none
    else runCursor inp ops { c with pos := c.pos - 1 } stk
  | .save :: ops, c, stk => runCursor inp ops c (c :: stk)
  | .restore :: ops, _, stk =>
    match stk with
    | [] => none
    | c' :: stk => runCursor inp ops c' stk

end Knfmt.Spec

namespace Knfmt.Lexer

open Knfmt.Spec

/-! ## Reading characters (C11) -/

/-- A sequence of `lexer_getc`, `lexer_ungetc`, `lexer_get_state` and `lexer_set_state`
(lexer.c:163-231); `none` if the assertion on lexer.c:225 fails or there is no state to go
back to. -/
def runReader (inp : List Char) : List ROp → Lx → List St → Option (List (Option Char) × Lx)
  | [], lx, _ => some ([], lx)
  | .get :: ops, lx, stk =>
    match getc inp lx with
    | some (ch, lx') => (runReader inp ops lx' stk).map (fun r => (some ch :: r.1, r.2))
    | none => (runReader inp ops lx stk).map (fun r => (none :: r.1, r.2))
  | .unget :: ops, lx, stk =>
    if !lx.st.eof && lx.st.off = 0 then none
    else runReader inp ops (ungetc inp lx) stk
  | .save :: ops, lx, stk => runReader inp ops lx (lx.st :: stk)
  | .restore :: ops, lx, stk =>
    match stk with
    | [] => none
    | st :: stk => runReader inp ops (setState lx st) stk

theorem ungetc_back {inp : List Char} {lx : Lx} (hi : Inv inp lx) (he : lx.st.eof = false)
    (h0 : lx.st.off ≠ 0) : Inv inp (ungetc inp lx) ∧ (ungetc inp lx).st.off = lx.st.off - 1 ∧
      (ungetc inp lx).st.eof = false := by
  obtain ⟨⟨hle, hlno, heof⟩, hlines, hll⟩ := hi
  have hlt : lx.st.off - 1 < inp.length := by omega
  have htake : inp.take lx.st.off = inp.take (lx.st.off - 1) ++ [inp[lx.st.off - 1]] := by
    conv => lhs; rw [show lx.st.off = (lx.st.off - 1) + 1 by omega]
    rw [List.take_add_one, List.getElem?_eq_getElem hlt]; rfl
  have hg : inp[lx.st.off - 1]? = some inp[lx.st.off - 1] := List.getElem?_eq_getElem hlt
  rw [htake, List.count_append] at hlno
  unfold ungetc
  rw [if_neg (by simp [he])]
  refine ⟨⟨⟨by simp only; omega, ?_, by simp [he]⟩, hlines, ?_⟩, rfl, he⟩
  · simp only [hg, Option.some.injEq]
    split
    · next h => rw [h] at hlno; simp at hlno; omega
    · next h => simp [h] at hlno; omega
  · simp only
    split <;> omega

theorem runReader_runCursor (inp : List Char) (ops : List ROp) (lx : Lx) (stk : List St)
    (hi : Inv inp lx) (hs : ∀ st ∈ stk, StOk inp st ∧ st.lno ≤ lx.lines.length) :
    match runCursor inp ops ⟨lx.st.off, lx.st.eof⟩ (stk.map (fun st => ⟨st.off, st.eof⟩)) with
    | none => runReader inp ops lx stk = none
    | some (outs, c) => ∃ lx', runReader inp ops lx stk = some (outs, lx') ∧ Inv inp lx' ∧
        lx'.st.off = c.pos ∧ lx'.st.eof = c.told := by
  induction ops generalizing lx stk with
  | nil => exact ⟨lx, rfl, hi, rfl, rfl⟩
  | cons op ops ih =>
    cases op with
    | get =>
      rw [runCursor, runReader]
      cases hg : getc inp lx with
      | none =>
        have he := (getc_none hi).mp hg
        have hn : inp[lx.st.off]? = none :=
          List.getElem?_eq_none_iff.mpr (by rw [hi.st.eof he]; omega)
        have := ih lx stk hi hs
        simp only [hn, he, if_true] at this ⊢
        split at this
        · next hr => simp [hr, this]
        · next outs c hr =>
          obtain ⟨lx', h1, h2⟩ := this
          rw [hr]
          exact ⟨lx', by simp [h1], h2⟩
      | some p =>
        obtain ⟨ch, lx1⟩ := p
        obtain ⟨g1, g2⟩ := getc_some hi hg
        have hs1 : ∀ st ∈ stk, StOk inp st ∧ st.lno ≤ lx1.lines.length := fun st h =>
          ⟨(hs st h).1, Nat.le_trans (hs st h).2 g1.lines.length_le⟩
        have := ih lx1 stk g1.inv hs1
        rcases g2 with ⟨a1, a2, a3, a4, a5⟩ | ⟨a1, a2, a3, a4⟩
        · simp only [a1, a2, a3, a4] at this ⊢
          split at this
          · next hr => simp [hr, this]
          · next outs c hr =>
            obtain ⟨lx', h1, h2⟩ := this
            rw [hr]
            exact ⟨lx', by simp [h1], h2⟩
        · have hn : inp[lx.st.off]? = none := List.getElem?_eq_none_iff.mpr (by omega)
          subst a2
          have e1 : lx1.st.off = lx.st.off := by rw [a4]
          have e2 : lx1.st.eof = true := by rw [a4]
          simp only [hn, a3, e1, e2] at this ⊢
          rw [if_neg (by simp)]
          split at this
          · next hr => simp [hr, this]
          · next outs c hr =>
            obtain ⟨lx', h1, h2⟩ := this
            rw [hr]
            exact ⟨lx', by simp [h1], h2⟩
    | unget =>
      rw [runCursor, runReader]
      cases he : lx.st.eof with
      | true =>
        have hu : ungetc inp lx = lx := by unfold ungetc; rw [if_pos he]
        have := ih lx stk hi hs
        rw [he] at this
        simp only [if_true, hu, Bool.not_true, Bool.false_and, Bool.false_eq_true, if_false]
        exact this
      | false =>
        by_cases h0 : lx.st.off = 0
        · simp [h0]
        · obtain ⟨u1, u2, u3⟩ := ungetc_back hi he h0
          have hl : (ungetc inp lx).lines = lx.lines := by unfold ungetc; split <;> rfl
          have := ih (ungetc inp lx) stk u1 (by rw [hl]; exact hs)
          rw [u2, u3] at this
          simp only [h0, if_false, Bool.not_false, Bool.true_and, decide_false, Bool.false_eq_true]
          exact this
    | save =>
      rw [runCursor, runReader]
      exact ih lx (lx.st :: stk) hi (fun st h => by
        rcases List.mem_cons.mp h with h | h
        · rw [h]; exact ⟨hi.st, hi.lno⟩
        · exact hs st h)
    | restore =>
      cases stk with
      | nil => simp [runCursor, runReader]
      | cons st stk =>
        simp only [runCursor, runReader, List.map_cons]
        have := ih (setState lx st) stk ⟨(hs st (by simp)).1, hi.lines, (hs st (by simp)).2⟩
          (fun st' h => hs st' (by simp [h]))
        simpa [setState] using this

/-- C11: however reads, un-reads, saved and restored positions are mixed, the lexer
behaves as a cursor in the input: it returns the characters at its position, in order,
and the line number it keeps is that of the position. -/
theorem reader_is_cursor (inp : List Char) (ops : List ROp) :
    match runCursor inp ops ⟨0, false⟩ [] with
    | none => runReader inp ops init [] = none
    | some (outs, c) => ∃ lx, runReader inp ops init [] = some (outs, lx) ∧
        lx.st.off = c.pos ∧ lx.st.eof = c.told ∧ lx.st.lno = 1 + (inp.take c.pos).count '\n' := by
  have := runReader_runCursor inp ops init [] (init_inv inp) (by simp)
  simp only [List.map_nil] at this
  have e : (⟨init.st.off, init.st.eof⟩ : Cursor) = ⟨0, false⟩ := by decide
  rw [e] at this
  split
  · next h => rw [h] at this; exact this
  · next outs c h =>
    rw [h] at this
    obtain ⟨lx, h1, h2, h3, h4⟩ := this
    exact ⟨lx, h1, h3, h4, by rw [← h3]; exact h2.st.lno⟩

/-- C11: reading a character and putting it back gives the lexer position there was. -/
theorem unget_restores (inp : List Char) (lx lx' : Lx) (c : Char) (hi : Inv inp lx)
    (h : getc inp lx = some (c, lx')) (hlt : lx.st.off < inp.length) :
    (ungetc inp lx').st = lx.st :=
  (ungetc_getc hi h).2.2.2.2 hlt

example : runCursor "a\nb".toList [.get, .get, .save, .get, .unget, .get, .get, .get, .restore, .get] ⟨0, false⟩ [] =
    some ([some 'a', some '\n', some 'b', some 'b', some '\x00', none, some 'b'], ⟨3, false⟩) := by
  decide

example : ∃ lx', getc "a\nb".toList init = some ('a', lx') ∧ init.st.off < "a\nb".toList.length := by
  exact ⟨_, rfl, by decide⟩

/-! ## The line table (C10) -/

theorem splitLines_ne (s : List Char) : splitLines s ≠ [] := by
  cases s with
  | nil => simp [splitLines]
  | cons c s =>
    rw [splitLines]; split
    · simp
    · split <;> simp

theorem splitLines_flatten (s : List Char) : (splitLines s).flatten = s := by
  induction s with
  | nil => rfl
  | cons c s ih =>
    rw [splitLines]; split
    · next h => simp [ih, h]
    · split
      · next h => exact absurd h (splitLines_ne s)
      · next l ls h => rw [h] at ih; simp at ih; simp [ih]

theorem splitLines_length (s : List Char) : (splitLines s).length = 1 + s.count '\n' := by
  induction s with
  | nil => rfl
  | cons c s ih =>
    rw [splitLines]; split
    · next h => simp [ih, h]; omega
    · next h =>
      split
      · next h => exact absurd h (splitLines_ne s)
      · next l ls hs => rw [hs] at ih; simp [h] at ih ⊢; exact ih

theorem afterLineFeeds_get (s : List Char) (n i : Nat) (h : i + 1 < (splitLines s).length) :
    (afterLineFeeds n s)[i]? = some (n + ((splitLines s).take (i + 1)).flatten.length) := by
  induction s generalizing n i with
  | nil => simp [splitLines] at h
  | cons c s ih =>
    rw [splitLines] at h ⊢
    rw [afterLineFeeds]
    by_cases hc : c = '\n'
    · rw [if_pos hc] at h ⊢
      rw [if_pos hc]
      cases i with
      | zero => simp
      | succ i =>
        simp only [List.length_cons] at h
        simp only [List.getElem?_cons_succ]
        rw [ih (n + 1) i (by omega)]
        simp only [List.take_succ_cons, List.flatten_cons, List.length_append, List.length_singleton]
        congr 1; omega
    · rw [if_neg hc] at h ⊢
      rw [if_neg hc]
      cases hs : splitLines s with
      | nil => exact absurd hs (splitLines_ne s)
      | cons l ls =>
        rw [hs] at h
        simp only [List.length_cons] at h
        have := ih (n + 1) i (by rw [hs]; simpa using h)
        rw [this, hs]
        simp only [List.take_succ_cons, List.flatten_cons, List.length_append, List.length_cons]
        congr 1; omega

theorem lineStarts_get (s : List Char) (i : Nat) (h : i < (splitLines s).length) :
    (lineStarts s)[i]? = some ((splitLines s).take i).flatten.length := by
  cases i with
  | zero => simp [lineStarts]
  | succ i =>
    rw [lineStarts, List.getElem?_cons_succ, afterLineFeeds_get s 0 i h]; simp

/-- C10: after tokenising, the line table has one entry for every line of the input:
the position at which the line starts. -/
theorem line_table_complete (inp : List Char) (cx : Ctx) :
    (tokenizeLoop inp cx init).1.lines = lineStarts inp ∧
    (tokenizeLoop inp cx init).1.lines.length = 1 + inp.count '\n' ∧
    ∀ i, i < (splitLines inp).length →
      (tokenizeLoop inp cx init).1.lines[i]? = some ((splitLines inp).take i).flatten.length := by
  obtain ⟨h1, _, h3, _⟩ := tokenizeLoop_spec cx init (init_inv inp) _ rfl
  have hl := h1.inv.st.lno
  rw [h3, List.take_length] at hl
  have h4 := h1.inv.lno
  have he : (tokenizeLoop inp cx init).1.lines = lineStarts inp := by
    have := h1.inv.lines
    exact this.eq_of_length (Nat.le_antisymm this.length_le (by rw [lineStarts_length]; omega))
  exact ⟨he, by rw [he, lineStarts_length], fun i hi => by rw [he]; exact lineStarts_get inp i hi⟩

theorem drop_flatten (ls : List (List Char)) (i : Nat) :
    ls.flatten.drop (ls.take i).flatten.length = (ls.drop i).flatten := by
  conv => lhs; arg 2; rw [← List.take_append_drop i ls, List.flatten_append]
  simp

/-- C10: the lines `beg` up to and not including `stop` of the input are returned byte for
byte; `stop` being zero stands for the end of the input. A line number beyond the last
line is reported. -/
theorem get_lines_exact (inp : List Char) (cx : Ctx) (beg stop : Nat) (hb : 1 ≤ beg)
    (hs : beg ≤ stop ∨ stop = 0) :
    getLines inp (tokenizeLoop inp cx init).1 beg stop =
      if (splitLines inp).length < beg ∨ (splitLines inp).length < stop then .fail
      else .text (if stop = 0 then ((splitLines inp).drop (beg - 1)).flatten
        else (((splitLines inp).drop (beg - 1)).take (stop - beg)).flatten) := by
  obtain ⟨_, h2, h3⟩ := line_table_complete inp cx
  have hlen : (tokenizeLoop inp cx init).1.lines.length = (splitLines inp).length := by
    rw [h2, splitLines_length]
  have hfl := splitLines_flatten inp
  unfold getLines
  rw [hlen]
  by_cases h : (splitLines inp).length < beg ∨ (splitLines inp).length < stop
  · rw [if_pos h, if_pos h]
  · rw [if_neg h, if_neg h, if_neg (by omega), h3 (beg - 1) (by omega)]
    simp only
    have hd : inp.drop ((splitLines inp).take (beg - 1)).flatten.length =
        ((splitLines inp).drop (beg - 1)).flatten := by
      conv => lhs; arg 2; rw [← hfl]
      exact drop_flatten _ _
    have hle : ((splitLines inp).take (beg - 1)).flatten.length ≤ inp.length := by
      conv => rhs; rw [← hfl, ← List.take_append_drop (beg - 1) (splitLines inp), List.flatten_append]
      simp
    rw [hd]
    by_cases h0 : stop = 0
    · rw [if_pos h0, if_neg (by omega), if_pos h0, ← hd, List.take_of_length_le (by simp)]
    · rw [if_neg h0, h3 (stop - 1) (by omega), if_neg h0]
      have hsplit : (splitLines inp).take (stop - 1) =
          (splitLines inp).take (beg - 1) ++ ((splitLines inp).drop (beg - 1)).take (stop - beg) := by
        rw [show stop - 1 = (beg - 1) + (stop - beg) by omega, List.take_add]
      have hlen2 : ((splitLines inp).take (stop - 1)).flatten.length =
          ((splitLines inp).take (beg - 1)).flatten.length +
          (((splitLines inp).drop (beg - 1)).take (stop - beg)).flatten.length := by
        rw [hsplit]; simp
      simp only [Option.getD_some]
      rw [if_neg (by omega), hlen2, Nat.add_sub_cancel_left]
      congr 1
      conv => lhs; arg 2; rw [← List.take_append_drop (stop - beg) ((splitLines inp).drop (beg - 1)),
        List.flatten_append]
      rw [List.take_left]

example : getLines "a\nbb\n\nc".toList (tokenizeLoop "a\nbb\n\nc".toList ⟨true, fun _ => none, fun _ => false⟩ init).1 2 4
    = .text "bb\n\n".toList := by decide +kernel

/-- Line numbers start at one: the first line must not be given as zero, and the last one
not before the first. -/
theorem get_lines_undefined (inp : List Char) (lx : Lx) :
    getLines inp lx 0 0 = .undefined := by simp [getLines]

/-! ## Nothing is lost (C12) -/

theorem blank_of_Blank {c : Char} (h : Blank c) : blank c = true := by
  simp only [Blank] at h
  simp only [blank, Bool.or_eq_true, decide_eq_true_eq]; grind

theorem seg_blank {inp : List Char} {a b : Nat} (h : AllIn inp Blank a b) :
    ∀ c ∈ seg inp a b, blank c = true := by
  intro c hc
  exact blank_of_Blank (seg_all h c hc)

theorem seg_split {inp : List Char} {a b : Nat} (h : a ≤ b) :
    inp.drop a = seg inp a b ++ inp.drop b := by
  conv => lhs; rw [← List.take_append_drop (b - a) (inp.drop a)]
  rw [List.drop_drop, show a + (b - a) = b by omega]; rfl

theorem Chain.pieces {inp : List Char} {a : Nat} {ts : List Tok} (h : Chain inp a ts inp.length) :
    Pieces (inp.drop a) (ts.map (Tok.raw inp)) := by
  induction ts generalizing a with
  | nil =>
    refine Pieces.nil _ ?_
    have := seg_blank h.2
    rw [seg_split h.1]; simpa using this
  | cons t ts ih =>
    obtain ⟨h1, h2, h3, h4⟩ := h
    rw [seg_split h1, seg_split h3, ← List.append_assoc]
    exact Pieces.cons _ _ _ _ (seg_blank h2) (ih h4)

theorem nonblank_append (a b : List Char) : nonblank (a ++ b) = nonblank a ++ nonblank b := by
  simp [nonblank]

theorem nonblank_blank (b : List Char) (h : ∀ c ∈ b, blank c = true) : nonblank b = [] := by
  simp [nonblank]; exact h

/-- The pieces of a text have the non-white-space characters of the text. -/
theorem pieces_nonblank {s : List Char} {ps : List (List Char)} (h : Pieces s ps) :
    nonblank s = Spec.nonblank ps.flatten := by
  induction h with
  | nil b hb => rw [nonblank_blank b hb]; rfl
  | cons b p s ps hb _ ih =>
    rw [nonblank_append, nonblank_append, nonblank_blank b hb, ih, List.flatten_cons, nonblank_append]
    simp

/-- `token_prolong` was given a second comment whose text is that of the input, so that
the length it computes is right. -/
def JoinOk (t : Tok) : Prop := t.joined = true → t.str = .src t.off (t.stop - t.off)

/-- The tokens read from an input, with their prefixes and suffixes, in order. -/
def piecesOf (inp : List Char) (cx : Ctx) : List Tok := allPieces (tokenizeLoop inp cx init).2

/-- C12: the input consists of parts, in order and with only white space around them, one
for each token, comment, directive and white space token; the text of each token is that
part of the input, except that comments are trimmed and `#define` directives are aligned,
and that line feeds may be represented by a single one. This is proved for inputs in
which no two comments on the same line are joined wrongly, see
`joined_comments_lose_text`. -/
theorem tokenize_lossless_partial (inp : List Char) (cx : Ctx)
    (hj : ∀ t ∈ piecesOf inp cx, JoinOk t) :
    ∃ parts : List (List Char), Pieces inp parts ∧ parts.length = (piecesOf inp cx).length ∧
      ∀ (i : Nat) (t : Tok) (p : List Char), (piecesOf inp cx)[i]? = some t → parts[i]? = some p →
        ∃ s, t.str.text inp = some s ∧ (TextOf cx t.type p s ∨ s = p) := by
  obtain ⟨_, h2, _, _, _⟩ := tokenizeLoop_spec cx init (init_inv inp) _ rfl
  refine ⟨(piecesOf inp cx).map (Tok.raw inp), ?_, by simp, ?_⟩
  · have := h2.chain.pieces
    rw [show init.st.off = 0 from rfl, List.drop_zero] at this
    exact this
  · intro i t p ht hp
    rw [List.getElem?_map, ht] at hp
    simp only [Option.map_some, Option.some.injEq] at hp
    subst hp
    have hm := List.mem_of_getElem? ht
    obtain ⟨l1, l2⟩ := h2.all t hm
    rcases l2 with ⟨_, s, k1, k2⟩ | ⟨k1, k2, k3⟩
    · exact ⟨s, k1, Or.inl k2⟩
    · refine ⟨t.raw inp, ?_, Or.inr rfl⟩
      rw [hj t hm k1]
      simp only [Str.text]
      rw [if_pos (by have := l1.le; have := l1.stop; omega)]
      rfl

theorem isSpace_blank (c : Char) : Comment.isSpace c = blank c := by
  simp [Comment.isSpace, blank]; grind

theorem TextOf.nonblank {cx : Ctx} {t : TT} {raw s : List Char} (h : TextOf cx t raw s)
    (ha : ∀ d d', cx.align d = some d' → nonblank d' = nonblank d) :
    nonblank s = Spec.nonblank raw := by
  unfold TextOf at h
  split at h
  · rcases h with ⟨_, h⟩ | h
    · rw [h]
    · have := Comment.comment_trim_nonblank _ _ _ h
      simpa [Spec.nonblank, isSpace_blank] using this
  · cases hd : cx.align raw with
    | none => rw [h, hd]; rfl
    | some d => rw [h, hd]; exact ha raw d hd
  · rcases h with h | ⟨h1, h2, h3⟩
    · rw [h]
    · rw [h1, nonblank_blank raw (fun c hc => blank_of_Blank (h3 c hc))]
      decide
  · rw [h]

/-- C12: no character other than white space is lost, added or moved when an input is
split into tokens, under the condition of `tokenize_lossless_partial` and provided the
alignment of `#define` directives only changes white space (C28). -/
theorem tokenize_nonblank_partial (inp : List Char) (cx : Ctx)
    (hj : ∀ t ∈ piecesOf inp cx, JoinOk t)
    (ha : ∀ d d', cx.align d = some d' → nonblank d' = nonblank d) :
    nonblank ((piecesOf inp cx).flatMap (fun t => (t.str.text inp).getD [])) = nonblank inp := by
  obtain ⟨parts, h1, h2, h3⟩ := tokenize_lossless_partial inp cx hj
  rw [pieces_nonblank h1]
  clear h1 hj
  generalize piecesOf inp cx = ts at *
  induction ts generalizing parts with
  | nil => cases parts with
    | nil => rfl
    | cons p ps => simp at h2
  | cons t ts ih =>
    cases parts with
    | nil => simp at h2
    | cons p ps =>
      simp only [List.length_cons, Nat.add_right_cancel_iff] at h2
      have := ih ps h2 (fun i t' p' ht hp => h3 (i + 1) t' p' (by simpa using ht) (by simpa using hp))
      obtain ⟨s, k1, k2⟩ := h3 0 t p rfl rfl
      rw [List.flatMap_cons, List.flatten_cons, nonblank_append, nonblank_append, this, k1]
      congr 1
      rcases k2 with k2 | k2
      · exact k2.nonblank ha
      · simp [k2]

def demoCx : Ctx := ⟨true, fun _ => none, fun _ => false⟩

example : (piecesOf "int a; /* x */ /* y */ b".toList demoCx).all (fun t => !t.joined) = true := by
  decide +kernel

example : ((piecesOf " #if 0\nif (a >>= 1.5) // x\n".toList demoCx).map (fun t => t.str.text " #if 0\nif (a >>= 1.5) // x\n".toList)) =
    [some " #if 0\n".toList, some "if".toList, some " ".toList, some "(".toList, some "a".toList, some " ".toList,
      some ">>=".toList, some " ".toList, some "1.5".toList, some ")".toList, some " // x".toList, some "\n".toList, some []] := by
  decide +kernel

/-- The general claim is false: if two comments in front of a token are on the same line,
and trailing white space was removed from the second one, then the joined comment is cut
short. Here the line feed that ends the second comment is lost, so that the token that
follows becomes part of the comment. -/
theorem joined_comments_lose_text :
    ∃ inp, nonblank ((piecesOf inp demoCx).flatMap (fun t => (t.str.text inp).getD [])) ≠ nonblank inp ∧
      ∃ t ∈ piecesOf inp demoCx, ¬ JoinOk t := by
  refine ⟨"/* a */ /* b   \n   */\nint x;\n".toList, by decide +kernel, ?_⟩
  refine ⟨(piecesOf "/* a */ /* b   \n   */\nint x;\n".toList demoCx).head (by decide +kernel), List.head_mem _, ?_⟩
  unfold JoinOk
  decide +kernel

/-- The first token of this input is a one line comment without its line feed. -/
theorem joined_comments_lose_line_feed :
    ((tokenizeLoop "/* a */ // b   \nint x;\n".toList demoCx init).2.head?.bind (fun t => t.prefixes.head?)).bind
      (fun t => t.str.text "/* a */ // b   \nint x;\n".toList) = some "/* a */ // b ".toList := by
  decide +kernel

/-! ## The last token -/

/-- The list of tokens ends with the token that stands for the end of the input, and has
no other such token. -/
theorem one_eof_token (inp : List Char) (cx : Ctx) :
    ∃ ts t, (tokenizeLoop inp cx init).2 = ts ++ [t] ∧ t.tok.type = .eof ∧
      ∀ u ∈ ts, u.tok.type ≠ .eof :=
  (tokenizeLoop_spec cx init (init_inv inp) _ rfl).2.2.2.1

/-- The token for the end of the input may hold text of the input: a string that is not
terminated or an unexpected byte at the very end. -/
theorem eof_token_has_text :
    ((tokenizeLoop "int x;\n@".toList demoCx init).2.getLast?.map (fun t => (t.tok.type, t.tok.str.text "int x;\n@".toList)))
      = some (.eof, some ['@']) ∧
    ((tokenizeLoop "f(\"a);\n".toList demoCx init).2.getLast?.map (fun t => (t.tok.type, t.tok.str.text "f(\"a);\n".toList)))
      = some (.eof, some "\"a);\n".toList) := by
  decide +kernel

/-! ## Operators (C13) -/

/-- C13: if the input has an operator at the position of a token, and not a number such as
`.5`, then the text of the token is the longest operator found there. -/
theorem operators_longest_match (inp : List Char) (cx : Ctx) (t : Token)
    (ht : t ∈ (tokenizeLoop inp cx init).2) (o : List Char)
    (ho : LongestOperator (inp.drop t.tok.off) o) (hf : ¬ StartsFraction (inp.drop t.tok.off)) :
    t.tok.str.text inp = some o := by
  obtain ⟨_, h2, _, _, h5⟩ := tokenizeLoop_spec cx init (init_inv inp) _ rfl
  obtain ⟨lx, l1, l2⟩ := tokenizeLoop_mem cx init (init_inv inp) t ht
  have := (readMain_lexeme cx l1 _ rfl).2
  rw [← l2] at this
  rw [this, (h5 t ht).2.2.2 o ho hf]

example : Lexeme "\"a\\\"b\" c".toList "\"a\\\"b\"".toList .string :=
  Lexeme.quoted ['"'] "a\\\"b".toList " c".toList '"' ⟨Or.inl rfl, Or.inl rfl⟩
    (.plain _ _ (by decide) (by decide) (.escape _ _ (.plain _ _ (by decide) (by decide) .nil)))

example : LongestOperator ">>= 2".toList ">>=".toList := by
  unfold LongestOperator; decide +kernel

/-! ## Positions (C17) -/

/-- C17: the line number of a token, comment or directive is one plus the number of line
feeds in front of it, and its column is one plus the width of what is in front of it on its
line, a tab advancing to the next multiple of eight. -/
theorem token_position (inp : List Char) (cx : Ctx) (t : Tok) (ht : t ∈ piecesOf inp cx) :
    t.lno = 1 + (inp.take t.off).count '\n' ∧ t.cno = some (column 0 (inp.take t.off) + 1) := by
  obtain ⟨_, h2, _⟩ := tokenizeLoop_spec cx init (init_inv inp) _ rfl
  exact ⟨(h2.all t ht).1.lno, (h2.all t ht).1.cno⟩

example : ((piecesOf "a\n\t/* x */ b".toList demoCx).map (fun t => (t.lno, t.cno))) =
    [(1, some 1), (1, some 2), (2, some 1), (2, some 17), (2, some 18)] := by decide +kernel

end Knfmt.Lexer
