import Verif.Lexer.CommentText
import Verif.Lexer.Unique
/-! # Reading text made of tokens and white space (C77) -/
namespace Knfmt.Spec

open Knfmt.Lexer

/-- The white space a formatter writes. -/
def gapChar (c : Char) : Bool := c = ' ' || c = '\t' || c = '\n'

/-- The text `rest` starts with the token `s` of type `ty`: it is the one the lexical rules
give, and neither a comment nor a directive starts there. -/
structure TokenAt (rest s : List Char) (ty : TT) : Prop where
  lexeme : Lexeme rest s ty
  notEof : ty ≠ .eof
  first : ∃ c t, s = c :: t ∧ blank c = false ∧ c ≠ '#'
  noLine : ¬ ['/', '/'] <+: rest
  noBlock : ¬ ['/', '*'] <+: rest

/-- `Spelled text ts`: the text is made of the tokens `ts`, with nothing but white space in
between, and every one of them ends where the next one, or white space, begins. -/
inductive Spelled : List Char → List (List Char × TT) → Prop
  | nil (b : List Char) : (∀ c ∈ b, gapChar c = true) → Spelled b []
  | cons (b s rest : List Char) (ty : TT) (ts : List (List Char × TT)) :
      (∀ c ∈ b, gapChar c = true) → TokenAt (s ++ rest) s ty → Spelled rest ts →
      Spelled (b ++ (s ++ rest)) ((s, ty) :: ts)

end Knfmt.Spec

namespace Knfmt.Lexer

open Knfmt.Str Knfmt.Util Knfmt.Spec

theorem eatLinesLoop_max (inp : List Char) (lx : Lx) (oldst : St) (n : Nat) (hi : Inv inp lx)
    (hp : inp[oldst.off]? = some '\n' → oldst.off = lx.st.off) (r : Lx × St × Nat)
    (hr : eatLinesLoop inp 0 lx oldst n = r) : inp[r.2.1.off]? ≠ some '\n' := by
  induction hm : left inp lx using Nat.strongRecOn generalizing lx oldst n with
  | ind m ih =>
  subst hm
  rw [eatLinesLoop] at hr
  split at hr
  · next hg =>
    subst hr
    intro h
    have h1 := hp h
    rw [h1, hi.st.eof ((getc_none hi).mp hg)] at h
    simp at h
  · next c lx' hg =>
    obtain ⟨hs, hc⟩ := getc_some hi hg
    have hne : c ≠ '\n' → inp[oldst.off]? = some '\n' → False := by
      intro hcn h
      rw [hp h] at h
      rcases hc with ⟨c1, _⟩ | ⟨c1, _⟩
      · rw [c1] at h; simp only [Option.some.injEq] at h; exact hcn h
      · rw [c1] at h; simp at h
    split at hr
    · next hc =>
      exact ih _ (getc_left hg) _ _ _ hs.inv (fun h => (hne (by rw [hc]; decide) h).elim) hr rfl
    · split at hr
      · rw [if_neg (by omega)] at hr
        exact ih _ (getc_left hg) _ _ _ hs.inv (fun _ => rfl) hr rfl
      · next h2 =>
        split at hr
        · subst hr; exact hne h2
        · exact ih _ (getc_left hg) _ _ _ hs.inv (fun h => (hne h2 h).elim) hr rfl

theorem eatLines_max {inp : List Char} {lx : Lx} (hi : Inv inp lx) :
    inp[(eatLines inp 0 lx).1.st.off]? ≠ some '\n' := by
  have := eatLinesLoop_max inp lx lx.st 0 hi (fun _ => rfl) _ rfl
  unfold eatLines
  simp only
  split <;> exact this

theorem eatLsLoop_max (inp : List Char) (g : Bool) (lx : Lx) (st : St) (hi : Inv inp lx)
    (hg : g = true → ∀ c, inp[lx.st.off]? = some c → lineSpace c = false)
    (r : Lx × St) (hr : eatLsLoop inp g lx st = r) :
    ∀ c, inp[r.1.st.off]? = some c → gapChar c = false := by
  induction hm : inp.length - lx.st.off using Nat.strongRecOn generalizing g lx st with
  | ind m ih =>
  subst hm
  have hmx := eatLines_max hi
  obtain ⟨l1, l2, l3, l4, l5, l6, l7⟩ := eatLines_spec 0 hi
  have l7 := l7 rfl
  obtain ⟨s1, s2, s3, s4, s5, s6, s7⟩ := eatSpaces_spec l1.inv
  rw [eatLsLoop] at hr
  simp only at hr
  have hgap : ∀ c, lineSpace c = false → c ≠ '\n' → gapChar c = false := by
    intro c h1 h2
    simp only [lineSpace, Bool.or_eq_false_iff, decide_eq_false_iff_not] at h1
    simp [gapChar, h1.1.1, h1.1.2, h2]
  have hls : ∀ c, ¬ (c = ' ' ∨ c = '\x0c' ∨ c = '\t') → lineSpace c = false := by
    intro c h
    simp only [not_or] at h
    simp [lineSpace, h.1, h.2.1, h.2.2]
  split at hr
  · next h =>
    subst hr
    intro c hc
    have he : (eatLines inp 0 lx).1.st = lx.st := l4 (by omega)
    refine hgap c ?_ ?_
    · rw [he] at hc; exact hg h.2 c hc
    · rintro rfl; exact hmx hc
  · split at hr
    · next hsp =>
      have hlt := s5.mp hsp
      have h3 := l1.off
      have h4 := s1.inv.st.le
      rw [dif_pos (by omega)] at hr
      exact ih _ (by omega) _ _ _ s1.inv (fun _ c hc => hls c (s7 c hc)) hr rfl
    · next hsp =>
      subst hr
      intro c hc
      have hsf : (eatSpaces inp (eatLines inp 0 lx).1).2 = false := by simpa using hsp
      refine hgap c (hls c (s7 c hc)) ?_
      rintro rfl
      rw [s6 hsf] at hc
      exact hmx hc

theorem eatLinesAndSpaces_max {inp : List Char} {lx : Lx} (hi : Inv inp lx) (st : St) :
    ∀ c, inp[(eatLinesAndSpaces inp lx st).1.st.off]? = some c → gapChar c = false :=
  eatLsLoop_max inp false lx st hi (by simp) _ rfl

/-- Blanks in front of `s`: at most the white space there. -/
theorem blanks_le {inp : List Char} {a b : Nat} {g s : List Char} (hab : a ≤ b) (hbl : AllIn inp Blank a b)
    (hd : inp.drop a = g ++ s) (hs : s.head?.any blank = false) :
    ∃ g1 g2, g = g1 ++ g2 ∧ b = a + g1.length ∧ inp.drop b = g2 ++ s := by
  have hle : b ≤ a + g.length := by
    rcases Nat.lt_or_ge (a + g.length) b with h | h
    · exfalso
      obtain ⟨c, hc, hb⟩ := hbl (a + g.length) (by omega) h
      have : (inp.drop a)[g.length]? = some c := by rw [List.getElem?_drop]; exact hc
      rw [hd, List.getElem?_append_right (Nat.le_refl _), Nat.sub_self] at this
      rw [← List.head?_eq_getElem?] at this
      rw [this] at hs
      simp [blank_of_Blank hb] at hs
    · exact h
  refine ⟨g.take (b - a), g.drop (b - a), (List.take_append_drop _ _).symm, ?_, ?_⟩
  · rw [List.length_take]; omega
  · have : inp.drop b = (inp.drop a).drop (b - a) := by
      rw [List.drop_drop, show a + (b - a) = b by omega]
    rw [this, hd, List.drop_append_of_le_length (by omega)]

/-- The white space is skipped completely. -/
theorem eat_all {inp : List Char} {lx : Lx} (hi : Inv inp lx) (st : St) {g s : List Char}
    (hd : inp.drop lx.st.off = g ++ s) (hg : ∀ c ∈ g, gapChar c = true) (hs : s.head?.any blank = false) :
    inp.drop (eatLinesAndSpaces inp lx st).1.st.off = s ∧
    (eatLinesAndSpaces inp lx st).1.st.off = lx.st.off + g.length := by
  obtain ⟨e1, e2, -⟩ := eatLinesAndSpaces_spec hi st
  have e3 := eatLinesAndSpaces_max hi st
  obtain ⟨g1, g2, h1, h2, h3⟩ := blanks_le e1.off e2 hd hs
  cases g2 with
  | nil => exact ⟨by rw [h3]; rfl, by rw [h2, h1, List.append_nil]⟩
  | cons c g2 =>
    exfalso
    have hc : inp[(eatLinesAndSpaces inp lx st).1.st.off]? = some c := by
      rw [← Nat.add_zero (eatLinesAndSpaces inp lx st).1.st.off, ← List.getElem?_drop, h3]; rfl
    have := e3 c hc
    rw [hg c (by rw [h1]; simp)] at this
    exact absurd this (by decide)

theorem readKeyword_off {inp : List Char} {lx : Lx} (cx : Ctx) :
    (∀ t, (readKeyword inp cx lx).2 = some t → t.off = (eatLinesAndSpaces inp lx lx.st).1.st.off) ∧
    ((readKeyword inp cx lx).2 = none →
      (readKeyword inp cx lx).1.st.off = (eatLinesAndSpaces inp lx lx.st).1.st.off) := by
  unfold readKeyword
  simp only
  generalize (eatLinesAndSpaces inp lx lx.st).1 = e
  split
  · exact ⟨by simp, fun _ => rfl⟩
  · split
    · exact ⟨by simp, fun _ => rfl⟩
    · refine ⟨fun t ht => ?_, by simp⟩
      simp only [Option.some.injEq] at ht
      rw [← ht]; rfl

theorem readMain_off {inp : List Char} {lx : Lx} (cx : Ctx) (hi : Inv inp lx) :
    (readMain inp cx lx).2.off = (eatLinesAndSpaces inp lx lx.st).1.st.off ∧
    (readMain inp cx lx).2.stop = (readMain inp cx lx).1.st.off ∧
    (readMain inp cx lx).2.off ≤ (readMain inp cx lx).2.stop ∧ Step inp lx (readMain inp cx lx).1 := by
  obtain ⟨q, k1, k2, k3, k4, k5, k6, k7, k8⟩ := readKeyword_spec cx hi _ rfl
  obtain ⟨r1, r2⟩ := @readKeyword_off inp lx cx
  obtain ⟨_, _, _, s1, _⟩ := readMain_spec cx hi _ rfl
  refine ⟨?_, ?_, ?_, s1⟩ <;> unfold readMain <;> simp only <;> split
  · next tk hk => exact r1 tk hk
  · next hk =>
    obtain ⟨o1, o2, o3, o4, _⟩ := readOther_spec cx k4 _ rfl
    rw [o3]; exact r2 hk
  · next tk hk => exact (k7 tk hk).2.2.1
  · next hk =>
    obtain ⟨o1, o2, o3, o4, _⟩ := readOther_spec cx k4 _ rfl
    exact o4
  · next tk hk => exact (k7 tk hk).1.loc.le
  · next hk =>
    obtain ⟨o1, o2, o3, o4, _⟩ := readOther_spec cx k4 _ rfl
    exact o2.loc.le

/-- What is about to be read: white space and then no comment and no directive. -/
structure Plain (inp : List Char) (a : Nat) (g s : List Char) : Prop where
  drop : inp.drop a = g ++ s
  gap : ∀ c ∈ g, gapChar c = true
  nonblank : s.head?.any blank = false
  noHash : s.head? ≠ some '#'
  noLine : ¬ ['/', '/'] <+: s
  noBlock : ¬ ['/', '*'] <+: s

theorem commentAt_start {r c : List Char} {b : Bool} (h : CommentAt r c b) :
    ['/', '/'] <+: r ∨ ['/', '*'] <+: r := by
  cases h with
  | block => right; exact ⟨_, rfl⟩
  | openBlock => right; exact ⟨_, rfl⟩
  | line => left; exact ⟨_, rfl⟩
  | lastLine => left; exact ⟨_, rfl⟩
  | lines => left; exact ⟨_, rfl⟩

theorem readComment_plain {inp : List Char} {lx : Lx} (cx : Ctx) (block : Bool) (hi : Inv inp lx)
    {g s : List Char} (h : Plain inp lx.st.off g s) : (readComment inp cx block lx).2 = none := by
  cases hc : (readComment inp cx block lx).2 with
  | none => rfl
  | some t =>
    exfalso
    obtain ⟨r1, r2, r3⟩ := readComment_spec cx block hi _ rfl
    obtain ⟨g1, -⟩ := r3 t hc
    obtain ⟨p, q, t1, t2, t3, t4, t5, t6, -⟩ := readComment_text cx block hi t hc
    obtain ⟨x, y, e1, e2, e3⟩ := blanks_le (by have := g1.le; omega) (g1.gap.append t2) h.drop h.nonblank
    have hst := commentAt_start t6
    rw [e3] at hst
    cases y with
    | nil => exact hst.elim h.noLine h.noBlock
    | cons c y =>
      have hcg : gapChar c = true := h.gap c (by rw [e1]; simp)
      have hc' : c = '/' := by
        rcases hst with ⟨u, hu⟩ | ⟨u, hu⟩ <;>
          (simp only [List.cons_append, List.cons.injEq] at hu; exact hu.1.symm)
      rw [hc'] at hcg
      exact absurd hcg (by decide)

theorem readCpp_plain {inp : List Char} {lx : Lx} (cx : Ctx) (hi : Inv inp lx)
    {g s : List Char} (h : Plain inp lx.st.off g s) : (readCpp inp cx lx).2 = none := by
  unfold readCpp
  simp only
  obtain ⟨e1, -⟩ := eatLinesAndSpaces_spec hi lx.st
  obtain ⟨a1, -⟩ := eat_all hi lx.st h.drop h.gap h.nonblank
  generalize eatLinesAndSpaces inp lx lx.st = e at *
  split
  · rfl
  · next c lx1 hg =>
    obtain ⟨-, hc⟩ := getc_some e1.inv hg
    rw [if_pos]
    rintro rfl
    rcases hc with ⟨c1, _⟩ | ⟨_, c1, _⟩
    · rw [drop_cons_of_get c1] at a1
      exact h.noHash (by rw [← a1]; rfl)
    · exact absurd c1 (by decide)

theorem readPrefixes_plain {inp : List Char} {lx : Lx} (cx : Ctx) (hi : Inv inp lx)
    {g s : List Char} (h : Plain inp lx.st.off g s) :
    (readPrefixes inp cx [] lx).2 = [] ∧ (readPrefixes inp cx [] lx).1.st = lx.st := by
  have h1 := readComment_plain cx true hi h
  obtain ⟨r1, r2, -⟩ := readComment_spec cx true hi _ rfl
  have r2 := r2 h1
  have h2 := readCpp_plain cx r1.inv (by rw [r2]; exact h)
  obtain ⟨q1, q2, -⟩ := readCpp_spec cx r1.inv _ rfl
  have q2 := q2 h2
  have hpre : readPrefix inp cx [] lx = ((readCpp inp cx (readComment inp cx true lx).1).1, none) := by
    unfold readPrefix
    generalize readComment inp cx true lx = c at *
    obtain ⟨c, o⟩ := c
    simp only at h1
    subst h1
    simp only at *
    generalize readCpp inp cx c = d at *
    obtain ⟨d, o⟩ := d
    simp only at h2
    subst h2
    rfl
  rw [readPrefixes, hpre]
  exact ⟨rfl, q2.trans r2⟩

theorem readSuffixes_plain {inp : List Char} {lx : Lx} (cx : Ctx) (hi : Inv inp lx)
    {g s : List Char} (h : Plain inp lx.st.off g s) :
    (readSuffixes inp cx [] lx).2 = [] ∧ (readSuffixes inp cx [] lx).1.st = lx.st := by
  have h1 := readComment_plain cx false hi h
  obtain ⟨r1, r2, -⟩ := readComment_spec cx false hi _ rfl
  have r2 := r2 h1
  rw [readSuffixes]
  generalize readComment inp cx false lx = c at *
  obtain ⟨c, o⟩ := c
  simp only at h1
  subst h1
  exact ⟨rfl, r2⟩

theorem Plain.later {inp : List Char} {a b : Nat} {g s : List Char} (h : Plain inp a g s) (hab : a ≤ b)
    (hbl : AllIn inp Blank a b) : ∃ g', Plain inp b g' s := by
  obtain ⟨g1, g2, e1, e2, e3⟩ := blanks_le hab hbl h.drop h.nonblank
  exact ⟨g2, e3, fun c hc => h.gap c (by rw [e1]; simp [hc]), h.nonblank, h.noHash, h.noLine, h.noBlock⟩

theorem readTail_plain {inp : List Char} {lx : Lx} (cx : Ctx) (d : Bool) (hi : Inv inp lx)
    {g s : List Char} (h : Plain inp lx.st.off g s) :
    (∀ t ∈ (readTail inp cx d lx).2, t.type = .space) ∧
    Inv inp (readTail inp cx d lx).1 ∧ ∃ g', Plain inp (readTail inp cx d lx).1.st.off g' s := by
  obtain ⟨t1, -⟩ := readTail_spec cx d hi _ rfl
  refine ⟨?_, t1.inv, ?_⟩ <;>
  · unfold readTail
    simp only
    have hsuf : (if d = true then (lx, []) else readSuffixes inp cx [] lx).2 = ([] : List Tok) ∧
        (if d = true then (lx, []) else readSuffixes inp cx [] lx).1.st = lx.st ∧
        Inv inp (if d = true then (lx, []) else readSuffixes inp cx [] lx).1 := by
      cases d with
      | true => exact ⟨rfl, rfl, hi⟩
      | false =>
        obtain ⟨a, b⟩ := readSuffixes_plain cx hi h
        exact ⟨a, b, (readSuffixes_spec cx lx.st.off [] lx hi (Covers.nil _ _ _) _ rfl).1.inv⟩
    generalize (if d = true then (lx, []) else readSuffixes inp cx [] lx) = u at hsuf ⊢
    obtain ⟨u1, u2, u3⟩ := hsuf
    have hsp : (∀ t ∈ (optSpace inp cx u.2 u.1).2, t.type = .space) ∧ Inv inp (optSpace inp cx u.2 u.1).1 ∧
        ∃ g', Plain inp (optSpace inp cx u.2 u.1).1.st.off g' s := by
      obtain ⟨s1, s2, -⟩ := eatSpaces_spec u3
      obtain ⟨g', hp⟩ := h.later (b := (eatSpaces inp u.1).1.st.off) (by rw [← u2]; exact s1.off)
        (by rw [← u2]; exact s2.mono (fun c hc => by
          unfold Blank; rcases hc with h | h | h <;> simp [h]))
      unfold optSpace
      rw [if_pos u1]
      simp only
      split
      · exact ⟨by simp [emit], s1.inv, g', hp⟩
      · exact ⟨by simp, s1.inv, g', hp⟩
    generalize optSpace inp cx u.2 u.1 = v at hsp ⊢
    obtain ⟨v1, v2, g', v3⟩ := hsp
    obtain ⟨l1, l2, -⟩ := eatLines_spec 0 v2
    obtain ⟨g'', hp⟩ := v3.later l1.off l2
    unfold optLines
    simp only
    first
    | (split
       · intro t ht
         simp only [List.mem_append, List.mem_singleton] at ht
         rcases ht with ht | ht
         · exact v1 t ht
         · rw [ht]; rfl
       · exact v1)
    | (refine ⟨g'', ?_⟩
       split <;> exact hp)

theorem plain_of_spelled {inp text : List Char} {a : Nat} {ts : List (List Char × TT)}
    (hd : inp.drop a = text) (h : Spelled text ts) :
    ∃ g s, text = g ++ s ∧ Plain inp a g s ∧ (ts = [] → s = []) ∧
      (∀ x l, ts = x :: l → ∃ r, s = x.1 ++ r ∧ TokenAt (x.1 ++ r) x.1 x.2 ∧ Spelled r l) := by
  cases h with
  | nil b hb =>
    exact ⟨text, [], by simp, ⟨by simp [hd], hb, rfl, by simp, by simp, by simp⟩, fun _ => rfl, by simp⟩
  | cons b s rest ty ts hb ht hr =>
    obtain ⟨c, t, h1, h2, h3⟩ := ht.first
    refine ⟨b, s ++ rest, rfl, ⟨hd, hb, ?_, ?_, ht.noLine, ht.noBlock⟩, by simp, ?_⟩
    · rw [h1]; simpa using h2
    · rw [h1]; simpa using h3
    · rintro x l h
      simp only [List.cons.injEq] at h
      rw [← h.1, ← h.2]
      exact ⟨rest, rfl, ht, hr⟩

/-- Reading one token. -/
theorem read_plain {inp : List Char} {lx : Lx} (cx : Ctx) (hi : Inv inp lx) {g s r : List Char} {ty : TT}
    (h : Plain inp lx.st.off g (s ++ r)) (hl : Lexeme (s ++ r) s ty) :
    (read inp cx lx).2.tok.type = ty ∧ (read inp cx lx).2.tok.str.text inp = some s ∧
    (read inp cx lx).2.prefixes = [] ∧
    (∀ g' r', Plain inp (lx.st.off + g.length + s.length) g' r' →
      (∀ t ∈ (read inp cx lx).2.suffixes, t.type = .space) ∧ Inv inp (read inp cx lx).1 ∧
      ∃ g'', Plain inp (read inp cx lx).1.st.off g'' r') := by
  obtain ⟨p1, p2⟩ := readPrefixes_plain cx hi h
  obtain ⟨ps, _⟩ := readPrefixes_spec cx lx.st.off [] lx hi
    ⟨⟨Nat.le_refl _, AllIn.empty _ _ _⟩, by simp, by simp⟩ _ rfl
  unfold read
  simp only
  generalize readPrefixes inp cx [] lx = p at *
  rw [← p2] at h
  obtain ⟨m1, m2, m3, m4⟩ := readMain_off cx ps.inv
  obtain ⟨l1, l2⟩ := readMain_lexeme cx ps.inv _ rfl
  obtain ⟨e1, e2⟩ := eat_all ps.inv p.1.st h.drop h.gap h.nonblank
  rw [m1, e1] at l1
  obtain ⟨u1, u2⟩ := lexeme_unique l1 hl
  refine ⟨u2, by rw [l2, u1], p1, ?_⟩
  intro g' r' h'
  have hlen : (readMain inp cx p.1).1.st.off = lx.st.off + g.length + s.length := by
    have hq : ((readMain inp cx p.1).2.raw inp).length = s.length := by rw [u1]
    have hraw : (readMain inp cx p.1).2.raw inp =
      seg inp (readMain inp cx p.1).2.off (readMain inp cx p.1).2.stop := rfl
    rw [hraw, seg_length inp (by rw [m2]; exact m4.inv.st.le)] at hq
    rw [← m2]
    have : (readMain inp cx p.1).2.off = lx.st.off + g.length := by rw [m1, e2, p2]
    omega
  rw [← hlen] at h'
  exact readTail_plain cx _ m4.inv h'

theorem tokenize_spelled {inp : List Char} (cx : Ctx) (ts : List (List Char × TT)) (lx : Lx)
    (hi : Inv inp lx) (ht : Spelled (inp.drop lx.st.off) ts) :
    (tokenizeLoop inp cx lx).2.map (fun t => (t.tok.str.text inp, t.tok.type)) =
      ts.map (fun x => (some x.1, x.2)) ++ [(some [], .eof)] ∧
    ∀ t ∈ (tokenizeLoop inp cx lx).2, t.prefixes = [] ∧ ∀ u ∈ t.suffixes, u.type = .space := by
  induction ts generalizing lx with
  | nil =>
    obtain ⟨g, s, h1, h2, h3, -⟩ := plain_of_spelled (inp := inp) rfl ht
    have h3 := h3 rfl
    subst h3
    obtain ⟨r1, r2, r3, r4⟩ := read_plain (s := []) (r := []) (ty := .eof) cx hi h2 Lexeme.eof
    have hend : inp.drop (lx.st.off + g.length + 0) = [] := by
      rw [Nat.add_zero, ← List.drop_drop, h2.drop]; simp
    obtain ⟨r5, -⟩ := r4 [] [] ⟨hend, by simp, rfl, by simp, by simp, by simp⟩
    rw [tokenizeLoop]
    simp only
    rw [if_pos r1]
    refine ⟨by simp [r1, r2], ?_⟩
    intro t ht
    simp only [List.mem_singleton] at ht
    rw [ht]; exact ⟨r3, r5⟩
  | cons x ts ih =>
    obtain ⟨g, s, h1, h2, -, h3⟩ := plain_of_spelled (inp := inp) rfl ht
    obtain ⟨r, e1, e2, e3⟩ := h3 x ts rfl
    subst e1
    obtain ⟨r1, r2, r3, r4⟩ := read_plain cx hi h2 e2.lexeme
    have hd : inp.drop (lx.st.off + g.length + x.1.length) = r := by
      rw [← List.drop_drop, ← List.drop_drop, h2.drop]; simp
    obtain ⟨g', s', k1, k2, k3, k4⟩ := plain_of_spelled hd e3
    obtain ⟨r5, r6, g'', r7⟩ := r4 g' s' k2
    have hne : (read inp cx lx).2.tok.type ≠ .eof := by rw [r1]; exact e2.notEof
    obtain ⟨i1, i2⟩ := ih (read inp cx lx).1 r6 (by
      rw [r7.drop]
      cases ts with
      | nil => rw [k3 rfl, List.append_nil]; exact Spelled.nil _ r7.gap
      | cons y l =>
        obtain ⟨r', f1, f2, f3⟩ := k4 y l rfl
        rw [f1]
        exact Spelled.cons _ _ _ _ _ r7.gap f2 f3)
    rw [tokenizeLoop]
    simp only
    rw [if_neg hne, dif_pos (tokenizeLoop_guard cx hi hne)]
    refine ⟨by simp only [List.map_cons, i1, r1, r2, List.cons_append], ?_⟩
    intro t ht
    simp only [List.mem_cons] at ht
    rcases ht with ht | ht
    · rw [ht]; exact ⟨r3, r5⟩
    · exact i2 t ht

/-- C77: reading text made of tokens and white space gives these tokens, and nothing is read
as a comment or as a directive. -/
theorem read_back (inp : List Char) (cx : Ctx) (ts : List (List Char × TT)) (h : Spelled inp ts) :
    (tokenizeLoop inp cx init).2.map (fun t => (t.tok.str.text inp, t.tok.type)) =
      ts.map (fun x => (some x.1, x.2)) ++ [(some [], .eof)] ∧
    ∀ t ∈ (tokenizeLoop inp cx init).2, t.prefixes = [] ∧ ∀ u ∈ t.suffixes, u.type = .space :=
  tokenize_spelled cx ts init (init_inv inp) h

end Knfmt.Lexer
