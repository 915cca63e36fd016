import Verif.Expr.RemarkCases
import Verif.Lexer.ReadBack
import Verif.Lexer.CommentText
/-!
# The comments the lexer puts behind tokens (C89)

The conditions `Fair` of `Verif.Expr.RemarkProps` hold for every source without form feeds that ends with a new line,
has no empty line after a token and no comment left open.
-/
namespace Knfmt.Lexer
open Knfmt.Spec Knfmt.Str Knfmt.Util

/-- `CommentAt` for a line comment: it goes up to the end of a line, or of the text. -/
theorem commentAt_line {rest c : List Char} {b : Bool} (h : CommentAt rest c b) (hb : b = true) :
    (∃ q s, c = q ++ '/' :: '/' :: s ∧ '\n' ∉ s) ∧ ∃ tail, rest = c ++ tail ∧ (tail = [] ∨ ∃ u, tail = '\n' :: u) := by
  induction h with
  | block s rest _ => cases hb
  | openBlock s _ => cases hb
  | line s rest h _ => exact ⟨⟨[], s, rfl, h⟩, '\n' :: rest, by simp, Or.inr ⟨_, rfl⟩⟩
  | lastLine s h => exact ⟨⟨[], s, rfl, h⟩, [], by simp, Or.inl rfl⟩
  | lines s sp rest c h1 h2 h3 ih =>
    obtain ⟨⟨q, u, e, hu⟩, tail, e2, h4⟩ := ih rfl
    exact ⟨⟨'/' :: '/' :: (s ++ '\n' :: (sp ++ q)), u, by simp [e], hu⟩, tail, by simp [e2], h4⟩

theorem ext_slash {inp : List Char} {lx : Lx} {st : St} {o : Bool} (hi : Inv inp lx) {x : St × Bool × Bool}
    (h : (commentExtent inp false lx st o).2 = some x) : inp[(eatSpaces inp lx).1.st.off]? = some '/' := by
  rw [commentExtent] at h
  simp only [Bool.false_eq_true, if_false] at h
  have hs := (eatSpaces_spec hi).1
  split at h
  · cases h
  · next c lx1 hg =>
    obtain ⟨_, hc⟩ := getc_some hs.inv hg
    split at h
    · cases h
    · next hne =>
      have hne : c = '/' := by simpa using hne
      subst hne
      rcases hc with ⟨c1, c2⟩ | ⟨c1, c2, _⟩
      · exact c1
      · exact absurd c2 (by decide)

theorem ext_start (inp : List Char) (lx : Lx) (st : St) (o : Bool) (st' : St) (o' c : Bool)
    (h : (commentExtent inp false lx st o).2 = some (st', o', c)) : st' = st := by
  induction hm : inp.length - lx.st.off using Nat.strongRecOn generalizing lx o with
  | ind m ih =>
  subst hm
  rw [commentExtent] at h
  simp only [Bool.false_eq_true, if_false] at h
  split at h
  · cases h
  · split at h
    · cases h
    · split at h
      · cases h
      · split at h
        · split at h
          · split at h
            · split at h
              · next hlt => exact ih _ hlt _ _ h rfl
              · cases h
            · simp only [Option.some.injEq, Prod.mk.injEq] at h; exact h.1.symm
          · simp only [Option.some.injEq, Prod.mk.injEq] at h; exact h.1.symm
        · split at h
          · simp only [Option.some.injEq, Prod.mk.injEq] at h; exact h.1.symm
          · cases h

theorem sense_c99 (s : List Char) (fl : Flags) : (senseClangFormat s fl).c99 = fl.c99 := by
  unfold senseClangFormat
  simp only
  split
  · rfl
  · split
    · split
      · rfl
      · split <;> rfl
    · rfl

theorem trimmed_flags (cx : Ctx) (inp : List Char) (t : Tok) : (trimmed cx inp t).flags = t.flags := by
  unfold trimmed
  split
  · rfl
  · split <;> rfl

theorem trim_text (u : Bool) (s : List Char) :
    Comment.commentTrim u s = .unchanged ∨
      (s.getLast? = some '\n' ∧ ∃ s', Comment.commentTrim u s = .text s' ∧ s'.getLast? = some '\n') := by
  by_cases h : s.getLast? = some '\n'
  · obtain ⟨ls, crlf, hne, _, _, _, e⟩ := Comment.commentTrim_eq u s h
    obtain ⟨q, l, _, e2⟩ := Comment.glue_getLast crlf (ls.map (Comment.trimLine u)) (by simpa using hne)
    refine Or.inr ⟨h, _, e, ?_⟩
    rw [e2]
    simp
  · left
    unfold Comment.commentTrim
    split
    · next b e =>
      rw [← List.head?_reverse, e] at h
      exact absurd rfl h
    · rfl

/-- A comment behind a token: spaces and the comment, unless it ends with a new line. -/
theorem readComment_suffix {inp : List Char} {lx : Lx} (cx : Ctx) (hi : Inv inp lx) {t : Tok}
    (ht : (readComment inp cx false lx).2 = some t) :
    ∃ p, lx.st.off ≤ p ∧ (∀ c ∈ seg inp lx.st.off p, lineSpace c = true) ∧ p ≤ (readComment inp cx false lx).1.st.off ∧
      CommentAt (inp.drop p) (seg inp p (readComment inp cx false lx).1.st.off) t.flags.c99 ∧
      (t.str.text inp = some (seg inp lx.st.off (readComment inp cx false lx).1.st.off) ∨
        ((seg inp lx.st.off (readComment inp cx false lx).1.st.off).getLast? = some '\n' ∧
          ((t.str.text inp).getD []).getLast? = some '\n')) := by
  have hall := ht
  obtain ⟨c1, c2⟩ := commentExtent_spec inp false lx lx.st true hi hi.saved _ rfl
  have c3 := commentExtent_text inp false lx lx.st true hi hi.saved _ rfl
  have c4 := @ext_slash inp lx lx.st true hi
  have c5 := ext_start inp lx lx.st true
  unfold readComment at ht ⊢
  simp only [Bool.false_eq_true, if_false] at ht ⊢
  generalize commentExtent inp false lx lx.st true = r at *
  split at ht
  · cases ht
  · next st oneline c99 hc =>
    obtain ⟨d1, d2, d3, d4⟩ := c2 st oneline c99 hc
    obtain ⟨p, p1, p2, p3, p4, p5, p6⟩ := c3 st oneline c99 hc
    have c4 := c4 hc
    have c5 := c5 _ _ _ hc
    subst c5
    simp only [Option.some.injEq] at ht
    obtain ⟨s1, s2, s3, s4, s5, s6, s7⟩ := eatSpaces_spec hi
    have hpe : p ≤ (eatSpaces inp lx).1.st.off := by
      apply Nat.le_of_not_lt
      intro hlt
      obtain ⟨c, h1, h2⟩ := p3 (eatSpaces inp lx).1.st.off s1.off hlt
      rw [c4] at h1
      obtain rfl := Option.some.inj h1
      revert h2
      unfold Blank
      decide
    refine ⟨p, p1, ?_, p4, ?_, ?_⟩
    · intro c hx
      have : AllIn inp (fun c => c = ' ' ∨ c = '\x0c' ∨ c = '\t') lx.st.off p := fun i h1 h2 => s2 i h1 (by omega)
      exact (lineSpace_iff c).2 (seg_all this c hx)
    · have : t.flags.c99 = c99 := by
        rw [← ht, trimmed_flags]
        split
        · exact sense_c99 _ _
        · rfl
      rw [this]
      exact p5
    · have hx : ∀ u : Tok, u.str.text inp = some (seg inp lx.st.off r.1.st.off) →
          (trimmed cx inp u).str.text inp = some (seg inp lx.st.off r.1.st.off) ∨
          ((seg inp lx.st.off r.1.st.off).getLast? = some '\n' ∧
            (((trimmed cx inp u).str.text inp).getD []).getLast? = some '\n') := by
        intro u hu
        unfold trimmed
        rw [hu]
        simp only
        rcases trim_text cx.usetabs (seg inp lx.st.off r.1.st.off) with h | ⟨h0, s', h, h2⟩
        · rw [h]; exact Or.inl hu
        · rw [h]; exact Or.inr ⟨h0, h2⟩
      rw [← ht]
      apply hx
      have := emit_text cx .comment { c99 := c99 } c1.inv d1
      split <;> exact this

theorem commentAt_begin {rest c : List Char} {b : Bool} (h : CommentAt rest c b) :
    ∃ t, c = '/' :: (if b then '/' else '*') :: t := by
  cases h <;> exact ⟨_, rfl⟩

theorem commentAt_rest {rest c : List Char} {b : Bool} (h : CommentAt rest c b) : ∃ t, rest = '/' :: t := by
  cases h <;> exact ⟨_, rfl⟩

end Knfmt.Lexer

namespace Knfmt.ExprDoc
open Knfmt.Lexer
open Knfmt.Doc (blank Firm slashes core CommentText)
open Knfmt.Doc.Spec (white)
open Knfmt.Spec (lineSpace CommentAt)

theorem firm_core {pre q u : List Char} {d x : Char} {t : List Char} (hp : ∀ c ∈ pre, blank c = true) (hx : blank x = false)
    (e : x :: t = q ++ d :: u) (hd : white d = false) (hu : '\n' ∉ u) : Firm (core (pre ++ x :: t)) := by
  unfold core
  rw [List.dropWhile_append_of_pos hp, List.dropWhile_cons_of_neg (by simp [hx]), e, List.reverse_append,
    List.reverse_cons, List.append_assoc, List.dropWhile_append]
  have hdb : blank d = false := by
    cases h : blank d with
    | false => rfl
    | true => rw [Knfmt.Doc.blank_white h] at hd; cases hd
  split
  · simp only [List.singleton_append, List.dropWhile_cons_of_neg (p := blank) (a := d) (by simp [hdb])]
    exact ⟨q, d, by simp, hd⟩
  · next hne =>
    cases hv : u.reverse.dropWhile blank with
    | nil => simp [hv] at hne
    | cons y v =>
      refine ⟨(v ++ ([d] ++ q.reverse)).reverse, y, by simp, ?_⟩
      have hy : blank y = false := by
        have := List.head?_dropWhile_not blank u.reverse
        rw [hv] at this
        simpa using this
      have hm : y ∈ u := by
        have : y ∈ u.reverse.dropWhile blank := by rw [hv]; simp
        simpa using (List.dropWhile_sublist blank).subset this
      unfold white
      unfold blank at hy
      simp only [Bool.or_eq_false_iff, decide_eq_false_iff_not] at hy ⊢
      exact ⟨hy, fun h => hu (h ▸ hm)⟩

theorem blank_lineSpace {c : Char} (h : lineSpace c = true) (hf : c ≠ '\x0c') : blank c = true := by
  rcases (lineSpace_iff c).1 h with h | h | h
  · subst h; rfl
  · exact absurd h hf
  · subst h; rfl

/-- The text of a comment behind a token. -/
theorem suffix_text {inp : List Char} {lx : Lx} (cx : Knfmt.Lexer.Ctx) (hi : Inv inp lx) {t : Knfmt.Lexer.Tok}
    (ht : (readComment inp cx false lx).2 = some t) (hff : '\x0c' ∉ inp)
    (hcl : t.flags.c99 = false → ((t.str.text inp).getD []).getLast? = some '/') :
    CommentText ((t.str.text inp).getD []) ∧ t.flags.c99 = slashes ((t.str.text inp).getD []) := by
  obtain ⟨p, h1, h2, h3, h4, h5⟩ := readComment_suffix cx hi ht
  generalize (readComment inp cx false lx).1.st.off = q at *
  have hpre : ∀ c ∈ seg inp lx.st.off p, blank c = true := fun c hc =>
    blank_lineSpace (h2 c hc) (fun h => hff (h ▸ List.mem_of_mem_drop (List.mem_of_mem_take hc)))
  obtain ⟨u, eu⟩ := commentAt_begin h4
  have hraw : seg inp lx.st.off q = seg inp lx.st.off p ++ seg inp p q := (seg_append inp h1 h3).symm
  have hsl : ∀ b : Bool, slashes (seg inp lx.st.off p ++ '/' :: (if b then '/' else '*') :: u) = b := by
    intro b
    unfold slashes
    rw [List.dropWhile_append_of_pos hpre, List.dropWhile_cons_of_neg (by decide)]
    cases b <;> rfl
  cases hc : t.flags.c99 with
  | true =>
    rw [hc] at h4 eu
    obtain ⟨⟨a, v, e, hv⟩, _⟩ := commentAt_line h4 rfl
    have hlast : (seg inp lx.st.off q).getLast? ≠ some '\n' := by
      rw [hraw, e, List.getLast?_append, List.getLast?_append]
      cases v with
      | nil => simp
      | cons x v =>
        intro h
        have : (x :: v).getLast? = some '\n' := by
          simpa using h
        exact hv (List.mem_of_getLast? this)
    rcases h5 with h5 | h5
    · rw [h5]
      simp only [Option.getD_some]
      refine ⟨⟨?_, hlast⟩, ?_⟩
      · rw [hraw, eu]
        exact firm_core hpre (by decide) (q := a ++ ['/']) (d := '/') (u := v) (by rw [← eu, e]; simp) (by decide) hv
      · rw [hraw, eu]
        exact (hsl true).symm
    · exact absurd h5.1 hlast
  | false =>
    rw [hc] at h4 eu
    have hcl := hcl hc
    rcases h5 with h5 | h5
    · rw [h5] at hcl ⊢
      simp only [Option.getD_some] at hcl ⊢
      refine ⟨⟨?_, by rw [hcl]; decide⟩, ?_⟩
      · rw [hraw, eu] at hcl ⊢
        rw [List.getLast?_append] at hcl
        have : ('/' :: (if false = true then '/' else '*') :: u).getLast? = some '/' := by
          simpa using hcl
        obtain ⟨w, ew⟩ := List.getLast?_eq_some_iff.1 this
        exact firm_core hpre (by decide) (q := w) (d := '/') (u := []) ew (by decide) (by simp)
      · rw [hraw, eu]
        exact (hsl false).symm
    · rw [h5.2] at hcl
      exact absurd hcl (by decide)

/-- After a line comment comes the end of the line. -/
theorem suffix_end {inp : List Char} {lx : Lx} (cx : Knfmt.Lexer.Ctx) (hi : Inv inp lx) {t : Knfmt.Lexer.Tok}
    (ht : (readComment inp cx false lx).2 = some t) (hnl : inp.getLast? = some '\n') (hc : t.flags.c99 = true) :
    inp[(readComment inp cx false lx).1.st.off]? = some '\n' := by
  obtain ⟨p, h1, h2, h3, h4, h5⟩ := readComment_suffix cx hi ht
  generalize (readComment inp cx false lx).1.st.off = q at *
  rw [hc] at h4
  obtain ⟨⟨a, v, e, hv⟩, tail, e2, h6⟩ := commentAt_line h4 rfl
  have hd := drop_seg inp h3
  rw [hd] at e2
  have e3 : inp.drop q = tail := List.append_cancel_left e2
  rcases h6 with rfl | ⟨u, rfl⟩
  · exfalso
    have h7 : inp = (inp.take p ++ (a ++ ['/'])) ++ '/' :: v := by
      have : inp = inp.take p ++ seg inp p q := by
        conv => lhs; rw [← List.take_append_drop p inp, hd, e3, List.append_nil]
      rw [e] at this
      simpa using this
    rw [h7, List.getLast?_append] at hnl
    cases v with
    | nil => simp at hnl
    | cons x v =>
      have : (x :: v).getLast? = some '\n' := by
        rw [List.getLast?_cons_cons] at hnl
        cases h : (x :: v).getLast? with
        | none => simp at h
        | some z => rw [h] at hnl; simpa using hnl
      exact hv (List.mem_of_getLast? this)
  · have := congrArg List.head? e3
    simpa using this

/-- A comment does not begin at the end of a line. -/
theorem suffix_start {inp : List Char} {lx : Lx} (cx : Knfmt.Lexer.Ctx) (hi : Inv inp lx) {t : Knfmt.Lexer.Tok}
    (ht : (readComment inp cx false lx).2 = some t) : inp[lx.st.off]? ≠ some '\n' := by
  obtain ⟨p, h1, h2, h3, h4, h5⟩ := readComment_suffix cx hi ht
  intro h
  rcases Nat.eq_or_lt_of_le h1 with e | e
  · obtain ⟨u, hu⟩ := commentAt_rest h4
    have := congrArg List.head? hu
    rw [List.head?_drop, ← e, h] at this
    simp at this
  · have hm : '\n' ∈ seg inp lx.st.off p := by
      have hl : inp.drop lx.st.off = '\n' :: inp.drop (lx.st.off + 1) := by
        obtain ⟨hlt, he⟩ := List.getElem?_eq_some_iff.1 h
        rw [List.drop_eq_getElem_cons hlt, he]
      unfold seg
      obtain ⟨k, hk⟩ : ∃ k, p - lx.st.off = k + 1 := ⟨p - lx.st.off - 1, by omega⟩
      rw [hl, hk]
      simp
    exact absurd (h2 _ hm) (by decide)

/-- What is known about the text of a comment behind a token. -/
def Told (inp : List Char) (t : Knfmt.Lexer.Tok) : Prop :=
  (t.flags.c99 = false → ((t.str.text inp).getD []).getLast? = some '/') →
    CommentText ((t.str.text inp).getD []) ∧ t.flags.c99 = slashes ((t.str.text inp).getD [])

/-- A line comment comes last, before a new line. -/
def Tailed (inp : List Char) (ss : List Knfmt.Lexer.Tok) (off : Nat) : Prop :=
  (∀ t ∈ ss, t.flags.c99 = false) ∨ (inp[off]? = some '\n' ∧ ∃ a x, ss = a ++ [x] ∧ ∀ t ∈ a, t.flags.c99 = false)

theorem readSuffixes_told {inp : List Char} (cx : Knfmt.Lexer.Ctx) (hff : '\x0c' ∉ inp) (hnl : inp.getLast? = some '\n')
    (ss : List Knfmt.Lexer.Tok) (lx : Lx) (hi : Inv inp lx) (h1 : ∀ t ∈ ss, Told inp t) (h2 : Tailed inp ss lx.st.off) :
    (∀ t ∈ (readSuffixes inp cx ss lx).2, Told inp t) ∧
      Tailed inp (readSuffixes inp cx ss lx).2 (readSuffixes inp cx ss lx).1.st.off := by
  induction hm : inp.length - lx.st.off using Nat.strongRecOn generalizing lx ss with
  | ind m ih =>
  subst hm
  rw [readSuffixes]
  split
  · rename_i lx1 hc
    have := (readComment_spec cx false hi _ hc).2.1 rfl
    simp only at this ⊢
    rw [this]
    exact ⟨h1, h2⟩
  · rename_i lx1 c hc
    have hstep := (readComment_spec cx false hi _ hc).1
    have hcc : (readComment inp cx false lx).2 = some c := by rw [hc]
    have g1 : ∀ t ∈ ss ++ [c], Told inp t := by
      intro t ht
      rcases List.mem_append.1 ht with ht | ht
      · exact h1 t ht
      · simp only [List.mem_singleton] at ht
        subst ht
        exact suffix_text cx hi hcc hff
    have g0 : ∀ t ∈ ss, t.flags.c99 = false := by
      rcases h2 with h2 | h2
      · exact h2
      · exact absurd h2.1 (suffix_start cx hi hcc)
    have g2 : Tailed inp (ss ++ [c]) lx1.st.off := by
      cases hb : c.flags.c99 with
      | true =>
        have := suffix_end cx hi hcc hnl hb
        rw [hc] at this
        exact Or.inr ⟨this, ss, c, rfl, g0⟩
      | false =>
        refine Or.inl fun t ht => ?_
        rcases List.mem_append.1 ht with ht | ht
        · exact g0 t ht
        · simp only [List.mem_singleton] at ht
          rw [ht, hb]
    split
    · exact ih _ (by assumption) _ _ hstep.inv g1 g2 rfl
    · exact ⟨g1, g2⟩

theorem optLines_line {inp : List Char} (cx : Knfmt.Lexer.Ctx) (ss : List Knfmt.Lexer.Tok) {lx : Lx} (hi : Inv inp lx)
    (h : inp[lx.st.off]? = some '\n') :
    ∃ u, (optLines inp cx ss lx).2 = ss ++ [u] ∧ ∃ one, remOf inp u = some (.line one false) := by
  unfold optLines
  simp only
  have h1 := eatLines_spec 0 hi
  have h2 := eatLines_max hi
  rw [if_pos]
  · exact ⟨_, rfl, _, rfl⟩
  · obtain ⟨_, _, _, h3, _, _, h4⟩ := h1
    have h4 := h4 rfl
    apply Nat.pos_of_ne_zero
    intro h0
    rw [h0] at h4
    rw [h3 h4.symm] at h2
    exact h2 h

theorem ended_none (l : List Rem) (h : ∀ c s, .comment c s ∈ l → slashes s = false) : Ended l := by
  induction l with
  | nil => trivial
  | cons x l ih =>
    have ih := ih fun c s hm => h c s (by simp [hm])
    cases x with
    | comment c s => exact ⟨fun hs => by simp [h c s (by simp)] at hs, ih⟩
    | _ => exact ih

theorem ended_line (l : List Rem) (h : ∀ c s, .comment c s ∈ l → slashes s = false) (c : Bool) (s : List Char) :
    Ended (l ++ [.comment c s, .line true false]) := by
  induction l with
  | nil => exact ⟨fun _ => rfl, trivial⟩
  | cons x l ih =>
    have ih := ih fun c s hm => h c s (by simp [hm])
    cases x with
    | comment c s => exact ⟨fun hs => by simp [h c s (by simp)] at hs, ih⟩
    | _ => exact ih

/-- What comes after a token is fair, if no line is left empty and no comment open. -/
def Mild (l : List Rem) : Prop :=
  (∀ b, .line b false ∈ l → b = true) → (∀ s, .comment false s ∈ l → s.getLast? = some '/') → Fair l

theorem rem_comment {inp : List Char} {t : Knfmt.Lexer.Tok} {c : Bool} {s : List Char}
    (h : remOf inp t = some (.comment c s)) : t.type = .comment ∧ c = t.flags.c99 ∧ s = (t.str.text inp).getD [] := by
  unfold remOf at h
  split at h
  · simp only [Option.some.injEq, Rem.comment.injEq] at h
    exact ⟨by assumption, h.1.symm, h.2.symm⟩
  · split at h
    · cases h
    · split at h <;> simp at h

theorem mild_of {inp : List Char} {us tl : List Knfmt.Lexer.Tok} {off : Nat} (h0 : ∀ t ∈ us, t.type = .comment)
    (h1 : ∀ t ∈ us, Told inp t) (h2 : Tailed inp us off) (h3 : ∀ t ∈ tl, t.type = .space)
    (h4 : us ≠ [] → inp[off]? = some '\n' → ∃ u one, tl = [u] ∧ remOf inp u = some (.line one false)) :
    Mild ((us ++ tl).filterMap (remOf inp)) := by
  intro hone hclosed
  have hmem : ∀ c s, .comment c s ∈ (us ++ tl).filterMap (remOf inp) →
      ∃ t ∈ us, c = t.flags.c99 ∧ s = (t.str.text inp).getD [] := by
    intro c s hm
    obtain ⟨t, ht, e⟩ := List.mem_filterMap.1 hm
    obtain ⟨e1, e2⟩ := rem_comment e
    rcases List.mem_append.1 ht with ht | ht
    · exact ⟨t, ht, e2⟩
    · rw [h3 t ht] at e1; cases e1
  have hback : ∀ t ∈ us, .comment t.flags.c99 ((t.str.text inp).getD []) ∈ (us ++ tl).filterMap (remOf inp) := by
    intro t ht
    refine List.mem_filterMap.2 ⟨t, by simp [ht], ?_⟩
    rw [remOf, if_pos (h0 t ht)]
  have htext : ∀ t ∈ us, CommentText ((t.str.text inp).getD []) ∧ t.flags.c99 = slashes ((t.str.text inp).getD []) := by
    intro t ht
    refine h1 t ht fun hc => hclosed _ ?_
    have := hback t ht
    rwa [hc] at this
  refine ⟨hone, ?_, ?_⟩
  · intro c s hm
    obtain ⟨t, ht, rfl, rfl⟩ := hmem c s hm
    exact htext t ht
  · rcases h2 with h2 | ⟨h2, a, x, rfl, h5⟩
    · refine ended_none _ fun c s hm => ?_
      obtain ⟨t, ht, rfl, rfl⟩ := hmem c s hm
      rw [← (htext t ht).2]
      exact h2 t ht
    · obtain ⟨u, one, rfl, e⟩ := h4 (by simp) h2
      have hx : remOf inp x = some (.comment x.flags.c99 ((x.str.text inp).getD [])) := by
        rw [remOf, if_pos (h0 x (by simp))]
      have hl : ((a ++ [x]) ++ [u]).filterMap (remOf inp) =
          a.filterMap (remOf inp) ++ [.comment x.flags.c99 ((x.str.text inp).getD []), .line one false] := by
        simp [List.filterMap_append, hx, e]
      have := hone one (by rw [hl]; simp)
      subst this
      rw [hl]
      refine ended_line _ (fun c s hm => ?_) _ _
      obtain ⟨t, ht, e⟩ := List.mem_filterMap.1 hm
      obtain ⟨_, rfl, rfl⟩ := rem_comment e
      rw [← (htext t (by simp [ht])).2]
      exact h5 t ht

theorem readTail_mild {inp : List Char} (cx : Knfmt.Lexer.Ctx) (hff : '\x0c' ∉ inp) (hnl : inp.getLast? = some '\n')
    (d : Bool) {lx : Lx} (hi : Inv inp lx) : Mild ((readTail inp cx d lx).2.filterMap (remOf inp)) := by
  unfold readTail
  simp only
  have h0 : ∀ t ∈ (if d = true then (lx, []) else readSuffixes inp cx [] lx).2, t.type = .comment := by
    split
    · simp
    · exact readSuffixes_type inp cx [] lx (by simp)
  have h1 : (∀ t ∈ (if d = true then (lx, []) else readSuffixes inp cx [] lx).2, Told inp t) ∧
      Tailed inp (if d = true then (lx, []) else readSuffixes inp cx [] lx).2
        (if d = true then (lx, []) else readSuffixes inp cx [] lx).1.st.off := by
    split
    · exact ⟨by simp, Or.inl (by simp)⟩
    · exact readSuffixes_told cx hff hnl [] lx hi (by simp) (Or.inl (by simp))
  have h2 : Inv inp (if d = true then (lx, []) else readSuffixes inp cx [] lx).1 := by
    split
    · exact hi
    · exact (readSuffixes_spec cx lx.st.off [] lx hi (Covers.nil _ _ _) _ rfl).1.inv
  generalize (if d = true then (lx, []) else readSuffixes inp cx [] lx) = u at h0 h1 h2
  obtain ⟨ul, us⟩ := u
  simp only at h0 h1 h2
  obtain ⟨h3, h4⟩ := h1
  have key : ∃ tl, (optLines inp cx (optSpace inp cx us ul).2 (optSpace inp cx us ul).1).2 = us ++ tl ∧
      (∀ t ∈ tl, t.type = .space) ∧
      (us ≠ [] → inp[ul.st.off]? = some '\n' → ∃ u one, tl = [u] ∧ remOf inp u = some (.line one false)) := by
    have ho : ∀ (ss : List Knfmt.Lexer.Tok) (l : Lx), ∃ tl, (optLines inp cx ss l).2 = ss ++ tl ∧ ∀ t ∈ tl, t.type = .space := by
      intro ss l
      unfold optLines
      simp only
      split
      · exact ⟨_, rfl, by simp [emitStr, emit]⟩
      · exact ⟨[], by simp, by simp⟩
    by_cases hn : us = []
    · subst hn
      obtain ⟨tl, e, ht⟩ := ho (optSpace inp cx [] ul).2 (optSpace inp cx [] ul).1
      refine ⟨(optSpace inp cx [] ul).2 ++ tl, by rw [e]; rfl, ?_, fun h => absurd rfl h⟩
      intro t hm
      rcases List.mem_append.1 hm with hm | hm
      · unfold optSpace at hm
        simp only [if_true] at hm
        split at hm
        · simp only [List.mem_singleton] at hm
          rw [hm]; rfl
        · simp at hm
      · exact ht t hm
    · have : optSpace inp cx us ul = (ul, us) := by
        unfold optSpace
        rw [if_neg hn]
      rw [this]
      obtain ⟨tl, e, ht⟩ := ho us ul
      refine ⟨tl, e, ht, fun _ hl => ?_⟩
      obtain ⟨u, e2, one, hu⟩ := optLines_line cx us h2 hl
      refine ⟨u, one, ?_, hu⟩
      have e3 := e.symm.trans e2
      exact List.append_cancel_left e3
  obtain ⟨tl, e, h5, h6⟩ := key
  rw [e]
  exact mild_of h0 h3 h4 h5 h6

theorem tokenizeLoop_mild {inp : List Char} (cx : Knfmt.Lexer.Ctx) (hff : '\x0c' ∉ inp) (hnl : inp.getLast? = some '\n')
    (lx : Lx) (hi : Inv inp lx) : ∀ x ∈ (tokenizeLoop inp cx lx).2, Mild (x.suffixes.filterMap (remOf inp)) := by
  induction hm : inp.length - lx.st.off using Nat.strongRecOn generalizing lx with
  | ind m ih =>
  subst hm
  rw [tokenizeLoop]
  obtain ⟨p1, _⟩ := readPrefixes_spec cx lx.st.off [] lx hi
    ⟨⟨Nat.le_refl _, AllIn.empty _ _ _⟩, by simp, by simp⟩ _ rfl
  obtain ⟨q, k1, k2, t1, _⟩ := readMain_spec cx p1.inv _ rfl
  have hread : Mild ((Knfmt.Lexer.read inp cx lx).2.suffixes.filterMap (remOf inp)) := by
    unfold Knfmt.Lexer.read
    exact readTail_mild cx hff hnl _ t1.inv
  simp only
  split
  · intro x hx
    simp only [List.mem_singleton] at hx
    rw [hx]
    exact hread
  · next he =>
    have hg := tokenizeLoop_guard cx hi he
    rw [dif_pos hg]
    intro x hx
    rcases List.mem_cons.1 hx with rfl | hx
    · exact hread
    · exact ih _ hg _ (read_spec cx hi _ rfl).1.inv rfl x hx

/-- The lexer puts every line comment before the end of its line, whatever the source is. -/
theorem survey_fair {cx : Knfmt.Lexer.Ctx} {src : List Char} {ts : List Knfmt.Expr.Tok} {t : RTab} (h : survey cx src = some (ts, t))
    (hff : '\x0c' ∉ src) (hnl : src.getLast? = some '\n') (hone : ∀ i b, .line b false ∈ t.at i → b = true)
    (hcl : ∀ i s, .comment false s ∈ t.at i → s.getLast? = some '/') (i : Nat) : Fair (t.at i) := by
  unfold survey at h
  simp only at h
  split at h
  · simp only [Option.some.injEq, Prod.mk.injEq] at h
    have hone := hone i
    have hcl := hcl i
    rw [← h.2] at hone hcl ⊢
    revert hone hcl
    unfold RTab.at
    simp only [List.getD_eq_getElem?_getD, List.getElem?_map]
    cases hx : (tokenizeLoop src cx Knfmt.Lexer.init).2.dropLast[i]? with
    | none => exact fun _ _ => ⟨by simp, by simp, trivial⟩
    | some x =>
      simp only [Option.map_some, Option.getD_some]
      intro hone hcl
      exact tokenizeLoop_mild cx hff hnl Knfmt.Lexer.init (init_inv src) x
        (List.dropLast_subset _ (List.mem_of_getElem? hx)) hone hcl
  · cases h

/-- **C89, from the source**: as `C89_partial`, with the conditions on comments replaced by those on the source. It has
no form feed, ends with a new line, no line is empty and no block comment is left open. -/
theorem C89_source_partial {E : Knfmt.Expr.Env} {cx : Knfmt.Lexer.Ctx} {C : Conf} {env : Knfmt.Doc.Env} {src out : List Char}
    {ts : List Knfmt.Expr.Tok} {t : RTab} {e : Knfmt.Expr.Ex} {τ : Knfmt.Expr.PS} (hC : C.Calm) (hh : C.hardline = false)
    (ht : C.top < 2 ^ 27) (hd : env.diff = none) (hff : '\x0c' ∉ src) (hnl : src.getLast? = some '\n')
    (hsv : survey cx src = some (ts, t)) (hone : ∀ i b, .line b false ∈ t.at i → b = true)
    (hcl : ∀ i s, .comment false s ∈ t.at i → s.getLast? = some '/')
    (hp : Knfmt.Expr.parse E ⟨[], ts, false⟩ = some (e, τ)) (hy : Knfmt.Expr.yield e = ts) (he : Full e)
    (hq : ∀ i ∈ quiets e, (t.at i).any Rem.isC99 = false) (hfirm : ∀ x ∈ ts, Firm x.str ∧ '\n' ∉ x.str)
    (hIK : C.top + parenCount e ≤ env.limit)
    (hroom : (row env.limit (C.top + parenCount e) (shifts C e true t) ts 0).isSome = true)
    (hr : remark E cx C env src = some out) :
    ∃ ps o, Knfmt.Doc.Spec.Laid ps out o ∧ (ps.filter (·.code)).map (·.text) = ts.map (·.str) ∧
      ∀ p ∈ ps, p.code = false → p ∈ comments t :=
  C89_partial hC hh ht hd hsv hp hy he (survey_fair hsv hff hnl hone hcl) hq hfirm hIK hroom hr

/-- `callTab` with the new line at the end of the source. -/
def callTab' : RTab :=
  ⟨[[], [], [], [.comment true [' ', '/', '/', ' ', 'c'], .line true false], [.space],
    [.comment true [' ', '/', '/', ' ', 'd'], .line true false], [], [.line true false]], [1, 1, 1, 1, 2, 2, 3, 3]⟩

theorem callTab'_cases (i : Nat) : callTab'.at i ∈ [[], [.space], [.line true false],
    [.comment true [' ', '/', '/', ' ', 'c'], .line true false],
    [.comment true [' ', '/', '/', ' ', 'd'], .line true false]] := by
  rcases Nat.lt_or_ge i 8 with h | h
  · have : i ∈ List.range 8 := List.mem_range.2 h
    revert this
    revert i
    decide
  · unfold RTab.at
    rw [List.getD_eq_getElem?_getD, List.getElem?_eq_none (by simpa [callTab'] using h)]
    simp

example : ∃ ps o, Knfmt.Doc.Spec.Laid ps ['f', '(', 'a', ',', ' ', '/', '/', ' ', 'c', '\n', ' ', ' ', ' ', ' ', 'b', ' ', '+', ' ', '/', '/', ' ', 'd', '\n', ' ', ' ', ' ', ' ', 'c', ')'] o ∧
    (ps.filter (·.code)).map (·.text) = callToks.map (·.str) ∧ ∀ p ∈ ps, p.code = false → p ∈ comments callTab' := by
  refine C89_source_partial (E := Knfmt.Expr.ints) (cx := ctx) (C := { indent := 4 }) (env := {}) (e := callEx)
    (src := ['f', '(', 'a', ',', ' ', '/', '/', ' ', 'c', '\n', ' ', 'b', ' ', '+', ' ', '/', '/', ' ', 'd', '\n', ' ', 'c', ')', '\n'])
    (τ := ⟨callToks.reverse, [], false⟩) ⟨rfl, rfl, rfl, rfl, rfl⟩ rfl (by decide) rfl (by decide) (by decide)
    (by decide +kernel) (fun i => ?_) (fun i => ?_) (by decide +kernel) rfl
    ⟨trivial, Or.inr ⟨trivial, trivial, trivial⟩⟩ (by simp [quiets, callEx]) ?_ (by decide)
    (by decide +kernel) (by decide +kernel)
  · have h := callTab'_cases i
    simp only [List.mem_cons, List.not_mem_nil, or_false] at h
    rcases h with h | h | h | h | h <;> rw [h] <;> simp
  · have h := callTab'_cases i
    simp only [List.mem_cons, List.not_mem_nil, or_false] at h
    rcases h with h | h | h | h | h <;> rw [h] <;> simp
  · intro x hx
    simp only [callToks, List.mem_cons, List.not_mem_nil, or_false] at hx
    rcases hx with rfl | rfl | rfl | rfl | rfl | rfl | rfl | rfl <;>
      exact ⟨firm_last rfl (by decide), by decide⟩

end Knfmt.ExprDoc
