import Verif.Lexer.CommentText
/-!
# What the lexer attaches to tokens

Everything in front of and behind a token is a comment, a directive or white space. Only white space is
marked in a way that keeps it from being printed.
-/
namespace Knfmt.Whole
open Knfmt.Lexer
open Knfmt.Spec (blank)

/-- A comment or a directive, which is always printed, or white space. -/
def Att (inp : List Char) (t : Tok) : Prop :=
  (t.type ≠ .space ∧ t.flags.discard = false ∧ t.flags.optline = false) ∨
  (t.type = .space ∧ (∀ c ∈ (t.str.text inp).getD [], blank c = true) ∧
    (t.flags.discard = true ∨ t.str = .own ['\n']))

theorem sense_flags (s : List Char) (fl : Flags) :
    (senseClangFormat s fl).discard = fl.discard ∧ (senseClangFormat s fl).optline = fl.optline := by
  unfold senseClangFormat
  simp only
  repeat' split
  all_goals exact ⟨rfl, rfl⟩

theorem trimmed_same (cx : Ctx) (inp : List Char) (t : Tok) :
    (trimmed cx inp t).type = t.type ∧ (trimmed cx inp t).flags = t.flags := by
  unfold trimmed
  repeat' split
  all_goals exact ⟨rfl, rfl⟩

theorem aligned_same (cx : Ctx) (inp : List Char) (t : Tok) :
    (aligned cx inp t).type = t.type ∧ (aligned cx inp t).flags = t.flags := by
  unfold aligned
  repeat' split
  all_goals exact ⟨rfl, rfl⟩

theorem findCpp_space (inp : List Char) (lx : Lx) (st : St) : findCpp inp lx st ≠ .space := by
  unfold findCpp
  split
  · decide
  · split
    · decide
    · next k hk =>
      have hall : ∀ k ∈ cppKeywords, k.2 ≠ TT.space := by decide
      exact hall k (List.mem_of_find?_eq_some hk)

theorem readComment_att {inp : List Char} {lx : Lx} (cx : Ctx) (b : Bool) (t : Tok)
    (ht : (readComment inp cx b lx).2 = some t) : Att inp t := by
  unfold readComment at ht
  simp only at ht
  split at ht
  · simp at ht
  · simp only [Option.some.injEq] at ht
    subst ht
    left
    simp only [(trimmed_same cx inp _).1, (trimmed_same cx inp _).2]
    split
    · exact ⟨by simp [emit], (sense_flags _ _).1, (sense_flags _ _).2⟩
    · exact ⟨by simp [emit], rfl, rfl⟩

theorem readCpp_att {inp : List Char} {lx : Lx} (cx : Ctx) (t : Tok)
    (ht : (readCpp inp cx lx).2 = some t) : Att inp t := by
  unfold readCpp at ht
  simp only at ht
  split at ht
  · simp at ht
  · split at ht
    · simp at ht
    · simp only [Option.some.injEq] at ht
      subst ht
      left
      rw [(aligned_same cx inp _).1, (aligned_same cx inp _).2]
      exact ⟨findCpp_space _ _ _, rfl, rfl⟩

theorem prolong_att {inp : List Char} {a b : Tok} (h : Att inp a) (hc : a.type = .comment) :
    Att inp (prolong a b) := by
  rcases h with h | h
  · exact Or.inl h
  · rw [hc] at h; cases h.1

theorem readPrefix_att {inp : List Char} {lx : Lx} (cx : Ctx) (ps : List Tok)
    (h : ∀ t ∈ ps, Att inp t) (ps' : List Tok) (h' : (readPrefix inp cx ps lx).2 = some ps') :
    ∀ t ∈ ps', Att inp t := by
  unfold readPrefix at h'
  split at h'
  · next lx1 c hc =>
    have hoc : Att inp c := readComment_att cx true c (by rw [hc])
    split at h'
    · next pv hpv =>
      split at h'
      · next hcond =>
        simp only [Option.some.injEq] at h'
        subst h'
        intro t ht
        rcases List.mem_append.mp ht with ht | ht
        · exact h t (List.dropLast_subset _ ht)
        · simp only [List.mem_singleton] at ht
          subst ht
          exact prolong_att (h pv (List.mem_of_getLast? hpv)) hcond.1
      · simp only [Option.some.injEq] at h'
        subst h'
        intro t ht
        rcases List.mem_append.mp ht with ht | ht
        · exact h t ht
        · simp only [List.mem_singleton] at ht
          subst ht; exact hoc
    · simp only [Option.some.injEq] at h'
      subst h'
      intro t ht
      rcases List.mem_append.mp ht with ht | ht
      · exact h t ht
      · simp only [List.mem_singleton] at ht
        subst ht; exact hoc
  · next lx1 hc =>
    split at h'
    · next lx2 t' hc' =>
      simp only [Option.some.injEq] at h'
      subst h'
      intro t ht
      rcases List.mem_append.mp ht with ht | ht
      · exact h t ht
      · simp only [List.mem_singleton] at ht
        subst ht; exact readCpp_att cx t (by rw [hc'])
    · simp at h'

theorem readPrefixes_att {inp : List Char} (cx : Ctx) (ps : List Tok) (lx : Lx)
    (h : ∀ t ∈ ps, Att inp t) : ∀ t ∈ (readPrefixes inp cx ps lx).2, Att inp t := by
  induction hm : inp.length - lx.st.off using Nat.strongRecOn generalizing lx ps with
  | ind m ih =>
  subst hm
  rw [readPrefixes]
  have ho := readPrefix_att cx (lx := lx) ps h
  split
  · exact h
  · next lx1 ps' he =>
    rw [he] at ho
    split
    · next hg => exact ih _ hg _ _ (ho _ rfl) rfl
    · exact ho _ rfl

theorem readSuffixes_att {inp : List Char} (cx : Ctx) (ss : List Tok) (lx : Lx) (hi : Inv inp lx)
    (h : ∀ t ∈ ss, Att inp t) : Inv inp (readSuffixes inp cx ss lx).1 ∧
      ∀ t ∈ (readSuffixes inp cx ss lx).2, Att inp t := by
  induction hm : inp.length - lx.st.off using Nat.strongRecOn generalizing lx ss with
  | ind m ih =>
  subst hm
  rw [readSuffixes]
  split
  · next lx1 he => exact ⟨(readComment_spec cx false hi _ he).1.inv, h⟩
  · next lx1 c he =>
    have hstep := (readComment_spec cx false hi _ he).1
    have ho : ∀ t ∈ ss ++ [c], Att inp t := by
      intro t ht
      rcases List.mem_append.mp ht with ht | ht
      · exact h t ht
      · simp only [List.mem_singleton] at ht
        subst ht; exact readComment_att cx false t (by rw [he])
    split
    · next hg => exact ih _ hg _ _ hstep.inv ho rfl
    · exact ⟨hstep.inv, ho⟩

theorem readTail_att {inp : List Char} {lx : Lx} (cx : Ctx) (d : Bool) (hi : Inv inp lx) :
    ∀ t ∈ (readTail inp cx d lx).2, Att inp t := by
  unfold readTail
  simp only
  have hs : Inv inp (if d = true then (lx, []) else readSuffixes inp cx [] lx).1 ∧
      ∀ t ∈ (if d = true then (lx, []) else readSuffixes inp cx [] lx).2, Att inp t := by
    split
    · exact ⟨hi, by simp⟩
    · exact readSuffixes_att cx [] lx hi (by simp)
  generalize (if d = true then (lx, []) else readSuffixes inp cx [] lx) = s at *
  have hu : ∀ t ∈ (optSpace inp cx s.2 s.1).2, Att inp t := by
    unfold optSpace
    split
    · simp only
      split
      · simp only [List.mem_singleton]
        rintro t rfl
        right
        have s1 := (eatSpaces_spec hs.1).1
        refine ⟨rfl, ?_, Or.inl rfl⟩
        rw [emit_text cx _ _ s1.inv (hs.1.saved.step s1)]
        exact seg_blank (eatSpaces_blank hs.1)
      · simp
    · exact hs.2
  generalize optSpace inp cx s.2 s.1 = u at *
  unfold optLines
  simp only
  split
  · intro t ht
    rcases List.mem_append.mp ht with ht | ht
    · exact hu t ht
    · simp only [List.mem_singleton] at ht
      subst ht
      right
      refine ⟨rfl, ?_, Or.inr rfl⟩
      intro c hc
      simp [emitStr, Str.text] at hc
      subst hc; decide
  · exact hu

/-- Whatever the lexer attaches to a token is a comment or directive that is printed, or white space. -/
theorem tokenize_att {inp : List Char} (cx : Ctx) (lx : Lx) (hi : Inv inp lx) :
    ∀ T ∈ (tokenizeLoop inp cx lx).2, (∀ t ∈ T.prefixes, Att inp t) ∧ ∀ t ∈ T.suffixes, Att inp t := by
  induction hm : inp.length - lx.st.off using Nat.strongRecOn generalizing lx with
  | ind m ih =>
  subst hm
  rw [tokenizeLoop]
  obtain ⟨p1, _⟩ := readPrefixes_spec cx lx.st.off [] lx hi
    ⟨⟨Nat.le_refl _, AllIn.empty _ _ _⟩, by simp, by simp⟩ _ rfl
  obtain ⟨q, k1, k2, t1, _⟩ := readMain_spec cx p1.inv _ rfl
  have hread : (∀ t ∈ (read inp cx lx).2.prefixes, Att inp t) ∧
      ∀ t ∈ (read inp cx lx).2.suffixes, Att inp t := by
    unfold Lexer.read
    exact ⟨readPrefixes_att cx [] lx (by simp), readTail_att cx _ t1.inv⟩
  simp only
  split
  · intro T hT
    simp only [List.mem_singleton] at hT
    subst hT; exact hread
  · next he =>
    have hg := tokenizeLoop_guard cx hi he
    rw [dif_pos hg]
    intro T hT
    rcases List.mem_cons.mp hT with hT | hT
    · subst hT; exact hread
    · exact ih _ hg _ (read_spec cx hi _ rfl).1.inv rfl T hT

theorem readPrefix_type {inp : List Char} {lx : Lx} (cx : Ctx) (ps : List Tok) (hi : Inv inp lx)
    (h : ∀ t ∈ ps, t.type ≠ .space) (ps' : List Tok) (h' : (readPrefix inp cx ps lx).2 = some ps') :
    ∀ t ∈ ps', t.type ≠ .space := by
  unfold readPrefix at h'
  split at h'
  · next lx1 c hc =>
    have hoc : c.type ≠ .space := by
      rw [((readComment_spec cx true hi _ hc).2.2 c rfl).2.2.1]; decide
    split at h'
    · next pv hpv =>
      split at h'
      · next hcond =>
        simp only [Option.some.injEq] at h'
        subst h'
        intro t ht
        rcases List.mem_append.mp ht with ht | ht
        · exact h t (List.dropLast_subset _ ht)
        · simp only [List.mem_singleton] at ht
          subst ht
          exact h pv (List.mem_of_getLast? hpv)
      · simp only [Option.some.injEq] at h'
        subst h'
        intro t ht
        rcases List.mem_append.mp ht with ht | ht
        · exact h t ht
        · simp only [List.mem_singleton] at ht
          subst ht; exact hoc
    · simp only [Option.some.injEq] at h'
      subst h'
      intro t ht
      rcases List.mem_append.mp ht with ht | ht
      · exact h t ht
      · simp only [List.mem_singleton] at ht
        subst ht; exact hoc
  · next lx1 hc =>
    split at h'
    · next lx2 t' hc' =>
      simp only [Option.some.injEq] at h'
      subst h'
      intro t ht
      rcases List.mem_append.mp ht with ht | ht
      · exact h t ht
      · simp only [List.mem_singleton] at ht
        subst ht
        have hcc : (readCpp inp cx lx1).2 = some t := by rw [hc']
        unfold readCpp at hcc
        simp only at hcc
        split at hcc
        · simp at hcc
        · split at hcc
          · simp at hcc
          · simp only [Option.some.injEq] at hcc
            subst hcc
            rw [(aligned_same cx inp _).1]
            exact findCpp_space _ _ _
    · simp at h'

theorem readPrefixes_type {inp : List Char} (cx : Ctx) (ps : List Tok) (lx : Lx) (hi : Inv inp lx)
    (h : ∀ t ∈ ps, t.type ≠ .space) : ∀ t ∈ (readPrefixes inp cx ps lx).2, t.type ≠ .space := by
  induction hm : inp.length - lx.st.off using Nat.strongRecOn generalizing lx ps with
  | ind m ih =>
  subst hm
  rw [readPrefixes]
  have hstep := readPrefix_step cx ps hi
  have ho := readPrefix_type cx ps hi h
  split
  · exact h
  · next lx1 ps' he =>
    rw [he] at ho hstep
    split
    · next hg => exact ih _ hg _ _ hstep.inv (ho _ rfl) rfl
    · exact ho _ rfl

/-- White space in front of a token is not attached to it. -/
theorem prefix_type {inp : List Char} (cx : Ctx) (lx : Lx) (hi : Inv inp lx) :
    ∀ T ∈ (tokenizeLoop inp cx lx).2, ∀ t ∈ T.prefixes, t.type ≠ .space := by
  induction hm : inp.length - lx.st.off using Nat.strongRecOn generalizing lx with
  | ind m ih =>
  subst hm
  rw [tokenizeLoop]
  have hread : ∀ t ∈ (Lexer.read inp cx lx).2.prefixes, t.type ≠ .space := by
    unfold Lexer.read
    exact readPrefixes_type cx [] lx hi (by simp)
  simp only
  split
  · intro T hT
    simp only [List.mem_singleton] at hT
    subst hT; exact hread
  · next he =>
    have hg := tokenizeLoop_guard cx hi he
    rw [dif_pos hg]
    intro T hT
    rcases List.mem_cons.mp hT with hT | hT
    · subst hT; exact hread
    · exact ih _ hg _ (read_spec cx hi _ rfl).1.inv rfl T hT

/-- At the end of the input there are no comments left. -/
theorem readTail_end {inp : List Char} {lx : Lx} (cx : Ctx) (d : Bool) (hi : Inv inp lx)
    (he : lx.st.off = inp.length) : ∀ t ∈ (readTail inp cx d lx).2, t.type = .space := by
  unfold readTail
  simp only
  have hs : (if d = true then (lx, []) else readSuffixes inp cx [] lx).2 = [] := by
    split
    · rfl
    · rw [readSuffixes]
      split
      · rfl
      · next lx1 c hc =>
        obtain ⟨h1, _, h3⟩ := readComment_spec cx false hi _ hc
        have h3 := (h3 c rfl).2.1
        have := h1.inv.st.le
        simp only at h3 this
        omega
  generalize (if d = true then (lx, []) else readSuffixes inp cx [] lx) = s at *
  have hu : ∀ t ∈ (optSpace inp cx s.2 s.1).2, t.type = .space := by
    unfold optSpace
    rw [if_pos hs]
    simp only
    split
    · simp [emit]
    · simp
  generalize optSpace inp cx s.2 s.1 = u at *
  unfold optLines
  simp only
  split
  · intro t ht
    rcases List.mem_append.mp ht with ht | ht
    · exact hu t ht
    · simp only [List.mem_singleton] at ht
      subst ht; rfl
  · exact hu

/-- No comment follows a token that is to be discarded. -/
theorem readTail_discard {inp : List Char} {lx : Lx} (cx : Ctx) :
    ∀ t ∈ (readTail inp cx true lx).2, t.type = .space := by
  unfold readTail
  simp only [if_true]
  have hu : ∀ t ∈ (optSpace inp cx [] lx).2, t.type = .space := by
    unfold optSpace
    rw [if_pos rfl]
    simp only
    split
    · simp [emit]
    · simp
  generalize optSpace inp cx [] lx = u at *
  unfold optLines
  simp only
  split
  · intro t ht
    rcases List.mem_append.mp ht with ht | ht
    · exact hu t ht
    · simp only [List.mem_singleton] at ht
      subst ht; rfl
  · exact hu

theorem discard_suffixes {inp : List Char} (cx : Ctx) (lx : Lx) (hi : Inv inp lx) :
    ∀ T ∈ (tokenizeLoop inp cx lx).2, T.tok.flags.discard = true → ∀ t ∈ T.suffixes, t.type = .space := by
  induction hm : inp.length - lx.st.off using Nat.strongRecOn generalizing lx with
  | ind m ih =>
  subst hm
  rw [tokenizeLoop]
  have hread : (Lexer.read inp cx lx).2.tok.flags.discard = true →
      ∀ t ∈ (Lexer.read inp cx lx).2.suffixes, t.type = .space := by
    intro h
    unfold Lexer.read at h ⊢
    simp only at h ⊢
    rw [h]
    exact readTail_discard cx
  simp only
  split
  · intro T hT
    simp only [List.mem_singleton] at hT
    subst hT; exact hread
  · next he =>
    have hg := tokenizeLoop_guard cx hi he
    rw [dif_pos hg]
    intro T hT
    rcases List.mem_cons.mp hT with hT | hT
    · subst hT; exact hread
    · exact ih _ hg _ (read_spec cx hi _ rfl).1.inv rfl T hT

/-- Only a backslash is discarded. -/
theorem readMain_discard {inp : List Char} {lx : Lx} (cx : Ctx) (hi : Inv inp lx)
    (h : (readMain inp cx lx).2.flags.discard = true) :
    (readMain inp cx lx).2.type = .backslash ∧ (readMain inp cx lx).2.raw inp = ['\\'] := by
  obtain ⟨q, k1, k2, k3, k4, k5, k6, k7, k8⟩ := readKeyword_spec cx hi _ rfl
  unfold readMain at h ⊢
  generalize readKeyword inp cx lx = k at *
  simp only at h ⊢
  split at h
  · next tk hk =>
    simp only at h
    obtain ⟨a1, a2, a3, a4, ⟨kw, a5, a6, a7, a8⟩, a9, a10⟩ := k7 tk hk
    have h1 : kw.2.2.discard = true := by rw [a8] at h; exact h
    have h2 := (table_discard kw a5).1 h1
    have h3 : ∀ k ∈ table, k.1 = ['\\'] → k.2.1 = TT.backslash := by decide +kernel
    exact ⟨by rw [a6]; exact h3 kw a5 h2, by rw [a7, h2]⟩
  · next hk =>
    obtain ⟨o1, o2, o3, o4, o5, o6, o7, o8, o9, o10⟩ := readOther_spec cx k4 _ rfl
    rw [o8] at h; cases h

theorem discard_backslash {inp : List Char} (cx : Ctx) (T : Token)
    (hT : T ∈ (tokenizeLoop inp cx init).2) (h : T.tok.flags.discard = true) :
    T.tok.type = .backslash ∧ T.tok.raw inp = ['\\'] := by
  obtain ⟨lx, hi, he⟩ := tokenizeLoop_mem cx init (init_inv inp) T hT
  rw [he] at h ⊢
  exact readMain_discard cx hi h

/-- No comment follows the token for the end of the input. -/
theorem eof_suffixes {inp : List Char} (cx : Ctx) (lx : Lx) (hi : Inv inp lx) :
    ∀ T ∈ (tokenizeLoop inp cx lx).2, T.tok.type = .eof → ∀ t ∈ T.suffixes, t.type = .space := by
  induction hm : inp.length - lx.st.off using Nat.strongRecOn generalizing lx with
  | ind m ih =>
  subst hm
  rw [tokenizeLoop]
  obtain ⟨p1, _⟩ := readPrefixes_spec cx lx.st.off [] lx hi
    ⟨⟨Nat.le_refl _, AllIn.empty _ _ _⟩, by simp, by simp⟩ _ rfl
  obtain ⟨q, k1, k2, t1, _, _, t4, _⟩ := readMain_spec cx p1.inv _ rfl
  have hread : (Lexer.read inp cx lx).2.tok.type = .eof →
      ∀ t ∈ (Lexer.read inp cx lx).2.suffixes, t.type = .space := by
    intro h
    unfold Lexer.read at h ⊢
    exact readTail_end cx _ t1.inv (t4 h)
  simp only
  split
  · intro T hT
    simp only [List.mem_singleton] at hT
    subst hT; exact hread
  · next he =>
    have hg := tokenizeLoop_guard cx hi he
    rw [dif_pos hg]
    intro T hT
    rcases List.mem_cons.mp hT with hT | hT
    · subst hT; exact hread
    · exact ih _ hg _ (read_spec cx hi _ rfl).1.inv rfl T hT

end Knfmt.Whole
