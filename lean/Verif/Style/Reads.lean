import Verif.Style.File
/-!
# Reading the entries of a .clang-format file, continued
-/
namespace Knfmt.Style

open Knfmt.Style.Spec (IsWord Value Written Word Numeric Valid Invalid Entry words OtherKey Plain Ignored update
  Reads Conf Field fieldWords CatReads CatsRead IsInt Pattern)

/-- The tokens of an entry. -/
def toks (e : Entry) : List Tok := (words e).map tokOf

/-- The tokens of entries. -/
def toksOf (es : List Entry) : List Tok := es.flatMap toks

theorem toksOf_cons (e : Entry) (es : List Entry) : toksOf (e :: es) = toks e ++ toksOf es := rfl

theorem toksOf_words (es : List Entry) : (es.flatMap words).map tokOf = toksOf es := by
  unfold toksOf toks
  rw [List.map_flatMap]

/-- A word a text can be written from. -/
def Lexical (w : List Char) : Prop := Value w ∨ w ∈ [":".toList, "-".toList, "---".toList, "...".toList]

theorem written_lexical {ws : List (List Char)} {text : List Char} (h : Written ws text) : ∀ w ∈ ws, Lexical w := by
  induction h with
  | nil => simp
  | comment => simp
  | colon _ _ _ ih =>
    intro w hw
    rcases List.mem_cons.mp hw with rfl | hw
    · exact Or.inr (by simp)
    · exact ih w hw
  | word _ hv _ _ ih =>
    intro w hw
    rcases List.mem_cons.mp hw with rfl | hw
    · rcases hv with hv | hv
      · exact Or.inl hv
      · exact Or.inr (List.mem_cons_of_mem _ hv)
    · exact ih w hw

theorem lexical_begin {w : List Char} (h : Lexical w) (hw : w ≠ "---".toList) : (tokOf w).ty ≠ .docBegin := by
  rcases h with h | h
  · exact (value_tok h).2.2.2.docBegin
  · simp only [List.mem_cons, List.not_mem_nil, or_false] at h
    rcases h with rfl | rfl | rfl | rfl
    · rw [show ":".toList = [':'] from rfl, tokOf_colon]; simp
    · rw [show "-".toList = ['-'] from rfl, tokOf_seq]; simp
    · exact absurd rfl hw
    · rw [tokOf_finish]; simp

/-! ## The language of a document -/

theorem dl_cons {t : Tok} (ts : List Tok) (h1 : t.ty ≠ .docBegin) (h2 : t.ty ≠ .kw .Language) :
    documentLanguage (t :: ts) = documentLanguage ts := by
  cases ts with
  | nil => rfl
  | cons u ts =>
    rw [documentLanguage, if_neg h1, if_neg h2]

theorem dl_begin {t : Tok} (ts : List Tok) (h : t.ty = .docBegin) : documentLanguage (t :: ts) = .kw .None := by
  cases ts with
  | nil => rfl
  | cons u ts => rw [documentLanguage, if_pos h]

theorem dl_language {a b c : Tok} (ts : List Tok) (ha : a.ty = .kw .Language) (hb : b.ty = .colon) :
    documentLanguage (a :: b :: c :: ts) = c.ty := by
  rw [documentLanguage, if_neg (by simp [ha]), if_pos ha, if_pos hb]
  rfl

theorem dl_word {w : List Char} (ts : List Tok) (h : Value w) (hl : ¬ Word w "Language".toList) :
    documentLanguage (tokOf w :: ts) = documentLanguage ts := by
  have := (value_tok h).2.2.2
  exact dl_cons ts this.docBegin fun e => hl (this.kw _ e)

theorem dl_colon (ts : List Tok) : documentLanguage (tokOf [':'] :: ts) = documentLanguage ts :=
  dl_cons ts (by rw [tokOf_colon]; simp) (by rw [tokOf_colon]; simp)

theorem dl_seq (ts : List Tok) : documentLanguage (tokOf ['-'] :: ts) = documentLanguage ts :=
  dl_cons ts (by rw [tokOf_seq]; simp) (by rw [tokOf_seq]; simp)

theorem name_ci : Spec.isOption .CaseInsensitive = false := by decide +kernel

theorem tokOf_option {k : Kw} (h : Spec.isOption k = true) : (tokOf (Spec.name k)).ty = .kw k := by
  rw [tokOf_name (by rintro rfl; rw [name_ci] at h; simp at h)]

theorem otherKey_word {key : List Char} (h : OtherKey key) : Value key ∧ ¬ Word key "Language".toList := by
  refine ⟨.word h.1, ?_⟩
  rintro (e | e)
  · exact h.2 .Language (by decide +kernel) e
  · obtain ⟨c, s, h1, h2, -⟩ := h.1
    rw [e] at h1
    simp only [List.cons_append, List.cons.injEq] at h1
    rw [← h1.1] at h2
    revert h2
    decide

theorem word_not {w : List Char} (h : IsWord w) (hl : w ≠ "Language".toList) : ¬ Word w "Language".toList := by
  rintro (e | e)
  · exact hl e
  · obtain ⟨c, s, h1, h2, -⟩ := h
    rw [e] at h1
    simp only [List.cons_append, List.cons.injEq] at h1
    rw [← h1.1] at h2
    revert h2
    decide

theorem dl_ignored {e : Entry} (h : Ignored e) (ts : List Tok) :
    documentLanguage (toks e ++ ts) = documentLanguage ts := by
  cases h with
  | other hk hw =>
    obtain ⟨h1, h2⟩ := otherKey_word hk
    simp only [toks, words, List.map_cons, List.map_nil, List.cons_append, List.nil_append]
    rw [dl_word _ h1 h2, dl_colon, dl_word _ hw.1 hw.2]
  | @list key ws hk _ hws =>
    obtain ⟨h1, h2⟩ := otherKey_word hk
    simp only [toks, words, List.map_cons, List.cons_append]
    rw [dl_word _ h1 h2, dl_colon]
    clear h1 h2
    induction ws with
    | nil => rfl
    | cons w ws ih =>
      simp only [List.flatMap_cons, List.cons_append, List.nil_append, List.map_cons]
      have hw := hws w (by simp)
      rw [dl_seq, dl_word _ hw.1 hw.2]
      by_cases hne : ws = []
      · subst hne; rfl
      · exact ih hne fun x hx => hws x (by simp [hx])
  | sub hk hk' hl hw =>
    obtain ⟨h1, h2⟩ := otherKey_word hk
    simp only [toks, words, List.map_cons, List.map_nil, List.cons_append, List.nil_append]
    rw [dl_word _ h1 h2, dl_colon, dl_word _ (.word hk') (word_not hk' hl), dl_colon, dl_word _ hw.1 hw.2]

theorem valid_not_language_all : ∀ k ∈ all, Kw.Language ∉ Spec.values k := by decide +kernel

theorem name_inj_all : ∀ k ∈ all, Spec.name k = "Language".toList → k = .Language := by decide +kernel

/-- The value of an option is not `Language`. -/
theorem valid_ty {k : Kw} {w : List Char} {v : Val} (h : Valid k w v) :
    (tokOf w).ty ≠ .docBegin ∧ (tokOf w).ty ≠ .kw .Language ∧ (tokOf w).ty ≠ .seq := by
  cases h with
  | @named x hx hci hw =>
    rw [tokOf_named hci hw]
    refine ⟨by simp, ?_, by simp⟩
    simp only [ne_eq, Ty.kw.injEq]
    rintro rfl
    exact valid_not_language_all k (mem_all k) hx
  | number hk hd hw hfit hg =>
    rw [(tokOf_number hd hw hfit).1]
    simp

theorem dl_option {k : Kw} {w : List Char} (ts : List Tok) (hk : k ≠ .Language) (ho : Spec.isOption k = true)
    (h1 : (tokOf w).ty ≠ .docBegin) (h2 : (tokOf w).ty ≠ .kw .Language) :
    documentLanguage (toks (.option k w) ++ ts) = documentLanguage ts := by
  have hk' := tokOf_option ho
  simp only [toks, words, List.map_cons, List.map_nil, List.cons_append, List.nil_append]
  rw [dl_cons _ (by rw [hk']; simp) (by rw [hk']; simpa using hk), dl_colon, dl_cons _ h1 h2]

theorem valid_option {k : Kw} {w : List Char} {v : Val} (h : Valid k w v) : Spec.isOption k = true := by
  have hall := kinds_values_all k (mem_all k)
  cases h with
  | named hx _ _ => exact hall.2.2.2.1 (List.ne_nil_of_mem hx)
  | number hk _ _ _ _ => exact hall.2.2.2.2.1 hk

theorem invalid_ty {k : Kw} {w : List Char} (h : Invalid k w) :
    (tokOf w).ty ≠ .docBegin ∧ (tokOf w).ty ≠ .kw .Language := by
  have := (value_tok h.1).2.2.2
  exact ⟨this.docBegin, fun e => h.2.2.2.2 (this.kw _ e)⟩

theorem language_cpp {w : List Char} (h : Valid .Language w (.kw .Cpp)) : (tokOf w).ty = .kw .Cpp := by
  generalize hv : Val.kw .Cpp = v at h
  cases h with
  | @named x hx hci hw =>
    rw [tokOf_named hci hw]
    simp only [Spec.named, reduceCtorEq, false_and, if_false, Val.kw.injEq] at hv
    rw [hv]
  | number hk _ _ _ _ => simp [Spec.isNumber] at hk

theorem ours_option {k : Kw} {w : List Char} {ts : List Tok} {v : Val} (hv : Valid k w v)
    (hl : k = .Language → v = .kw .Cpp) (ht : Ours ts) : Ours (toks (.option k w) ++ ts) := by
  by_cases hk : k = .Language
  · subst hk
    have := hl rfl
    subst this
    right
    simp only [toks, words, List.map_cons, List.map_nil, List.cons_append, List.nil_append]
    rw [dl_language _ (tokOf_option (by decide +kernel)) tokOf_colon, language_cpp hv]
  · unfold Ours
    rw [dl_option ts hk (valid_option hv) (valid_ty hv).1 (valid_ty hv).2.1]
    exact ht

theorem group_toks : toks .group = [tokOf (Spec.name .BraceWrapping), tokOf [':']] := rfl

theorem brace_language {k : Kw} (h : Spec.isBrace k = true) : k ≠ .Language ∧ k ≠ .BasedOnStyle ∧
    Spec.isCategory k = false := by
  have := (kinds_values_all k (mem_all k)).2.2.2.2.2.1 h
  exact ⟨this.2.1, this.1, this.2.2⟩

theorem option_of {k : Kw} (h : Spec.values k ≠ [] ∨ Spec.isNumber k = true) : Spec.isOption k = true := by
  have hall := kinds_values_all k (mem_all k)
  rcases h with h | h
  · exact hall.2.2.2.1 h
  · exact hall.2.2.2.2.1 h

/-! ## Categories of includes -/

theorem dl_skip {a : List Tok} (h : ∀ t ∈ a, t.ty ≠ .docBegin ∧ t.ty ≠ .kw .Language) (ts : List Tok) :
    documentLanguage (a ++ ts) = documentLanguage ts := by
  induction a with
  | nil => rfl
  | cons t a ih =>
    rw [List.cons_append, dl_cons _ (h t (by simp)).1 (h t (by simp)).2]
    exact ih fun x hx => h x (by simp [hx])

theorem tokOf_pattern {s : List Char} (h : Pattern s) : tokOf ('\'' :: s ++ ['\'']) = ⟨.str, s, 0⟩ := by
  obtain ⟨h1, -, h2, h3, h4⟩ := h
  rw [tokOf_eq (read_quoted h1 h2)]
  unfold quotedTok
  rw [if_pos]
  rcases (keyword_ty s).2.2 with e | e
  · exact e
  · simp only [List.mem_cons, List.not_mem_nil, or_false, not_or] at h3
    cases ht : (keyword s).ty <;> rw [ht] at e <;> simp only [tyName, Option.some.injEq, reduceCtorEq] at e
    · exact absurd e.symm (h4 _)
    all_goals first
      | exact absurd e.symm h3.1
      | exact absurd e.symm h3.2.1
      | exact absurd e.symm h3.2.2
      | exact absurd rfl (h2 _ _ e.symm).2
      | rfl

theorem tokOf_int {w : List Char} {i : Int} (h : IsInt w i) : (tokOf w).ty = .int ∧ (tokOf w).int = i := by
  cases h with
  | nonneg hd hw h => exact tokOf_number hd hw h
  | @negative d hd hw h =>
    have hv : wrap (digits 0 d * -1) = -(Spec.decimal d : Int) := by
      have h2 : digits 0 d = (Spec.decimal d : Int) := digits_eq d 0 h
      rw [h2, Int.mul_neg, Int.mul_one]
      exact wrap_id (by omega) (by omega)
    rcases hw with rfl | rfl
    · have h1 := read_num (neg := true) hd ends_blank
      simp only [if_true] at h1
      rw [tokOf_eq (w := '-' :: d) (by simpa using h1)]
      exact ⟨rfl, by simpa using hv⟩
    · have h1 := read_quotedNum (neg := true) (r := [' ']) hd
      simp only [if_true] at h1
      rw [tokOf_eq (w := '\'' :: '-' :: d ++ ['\'']) (by simpa using h1)]
      exact ⟨rfl, by simpa using hv⟩

/-- The tokens of the lines of a category. -/
def fieldToks (fs : List Field) : List Tok := (fs.flatMap fieldWords).map tokOf

theorem catReads_toks {env : Env} {f f' : Kw → Val} {c c' : Category} {fs : List Field}
    (h : CatReads env f c fs f' c') : ∀ t ∈ fieldToks fs, t.ty ≠ .docBegin ∧ t.ty ≠ .kw .Language := by
  have key : ∀ (k : Kw) (w : List Char) (fs : List Field), Spec.isCategory k = true →
      ((tokOf w).ty ≠ .docBegin ∧ (tokOf w).ty ≠ .kw .Language) →
      (∀ t ∈ fieldToks fs, t.ty ≠ .docBegin ∧ t.ty ≠ .kw .Language) →
      ∀ t ∈ tokOf (Spec.name k) :: tokOf [':'] :: tokOf w :: fieldToks fs,
        t.ty ≠ .docBegin ∧ t.ty ≠ .kw .Language := by
    intro k w fs hk hw h t ht
    simp only [List.mem_cons] at ht
    rcases ht with rfl | rfl | rfl | ht
    · rw [tokOf_option (by simp [Spec.isOption, hk])]
      refine ⟨by simp, ?_⟩
      simp only [ne_eq, Ty.kw.injEq]
      rintro rfl
      simp [Spec.isCategory] at hk
    · rw [tokOf_colon]; simp
    · exact hw
    · exact h t ht
  induction h with
  | nil => simp [fieldToks]
  | regex hp _ _ ih => exact key .Regex _ _ rfl (by rw [tokOf_pattern hp]; simp) ih
  | priority hi _ ih => exact key .Priority _ _ rfl (by rw [(tokOf_int hi).1]; simp) ih
  | sortPriority hi _ ih => exact key .SortPriority _ _ rfl (by rw [(tokOf_int hi).1]; simp) ih
  | caseSensitive hv _ ih => exact key .CaseSensitive _ _ rfl ⟨(valid_ty hv).1, (valid_ty hv).2.1⟩ ih

/-- The tokens of categories. -/
def catToks (l : List (List Field)) : List Tok := l.flatMap fun fs => tokOf ['-'] :: fieldToks fs

theorem categories_toks (l : List (List Field)) :
    toks (.categories l) = tokOf (Spec.name .IncludeCategories) :: tokOf [':'] :: catToks l := by
  simp [toks, words, catToks, fieldToks, List.map_flatMap]

theorem catsRead_toks {env : Env} {x y : Conf} {l : List (List Field)}
    (h : CatsRead env x l y) : ∀ t ∈ catToks l, t.ty ≠ .docBegin ∧ t.ty ≠ .kw .Language := by
  induction h with
  | nil => simp [catToks]
  | @cons x y f c fs l hc _ ih =>
    intro t ht
    simp only [catToks, List.flatMap_cons, List.cons_append, List.mem_cons, List.mem_append] at ht
    rcases ht with rfl | ht | ht
    · rw [tokOf_seq]; simp
    · exact catReads_toks hc t ht
    · exact ih t ht

theorem dl_categories {env : Env} {x y : Conf} {l : List (List Field)} (h : CatsRead env x l y) (ts : List Tok) :
    documentLanguage (toks (.categories l) ++ ts) = documentLanguage ts := by
  rw [categories_toks]
  refine dl_skip ?_ ts
  intro t ht
  simp only [List.mem_cons] at ht
  rcases ht with rfl | rfl | ht
  · rw [tokOf_option (by decide +kernel)]; simp
  · rw [tokOf_colon]; simp
  · exact catsRead_toks h t ht

/-- The rest of a document that is read is not skipped. -/
theorem reads_ours {env : Env} {d : Nat} {g s : Bool} {f f' : Conf} {es : List Entry}
    (h : Reads env d g s f es f') : s = true ∨ Ours (toksOf es) := by
  induction h with
  | nil => exact Or.inr (Or.inl rfl)
  | set hb hc hv hl hbase _ ih => exact Or.inr (ours_option hv hl (ih.resolve_left (by simp)))
  | base hv _ _ _ _ _ _ _ ih => exact Or.inr (ours_option hv (by simp) (ih.resolve_left (by simp)))
  | group _ ih =>
    right
    unfold Ours
    rw [toksOf_cons, group_toks]
    simp only [List.cons_append, List.nil_append]
    have hk := tokOf_option (k := .BraceWrapping) (by decide +kernel)
    rw [dl_cons _ (by rw [hk]; simp) (by rw [hk]; simp), dl_colon]
    exact ih.resolve_left (by simp)
  | brace hb hv _ ih =>
    exact Or.inr (ours_option hv (fun e => absurd e (brace_language hb).1) (ih.resolve_left (by simp)))
  | invalid hb hc hl hk hi _ ih =>
    right
    unfold Ours
    rw [toksOf_cons, dl_option _ hl (option_of hk) (invalid_ty hi).1 (invalid_ty hi).2]
    exact ih.resolve_left (by simp)
  | ignored hi _ ih =>
    right
    unfold Ours
    rw [toksOf_cons, dl_ignored hi]
    exact ih.resolve_left (by simp)
  | categories hc _ ih =>
    right
    unfold Ours
    rw [toksOf_cons, dl_categories hc]
    exact ih.resolve_left (by simp)
  | begin _ ih => exact Or.inr (Or.inl (dl_begin _ tokOf_begin))
  | finish _ ih =>
    right
    unfold Ours
    rw [toksOf_cons]
    simp only [toks, words, List.map_cons, List.map_nil, List.cons_append, List.nil_append]
    rw [dl_cons _ (by rw [tokOf_finish]; simp) (by rw [tokOf_finish]; simp)]
    exact ih.resolve_left (by simp)
  | foreign => exact Or.inl rfl
  | last => exact Or.inl rfl

/-- No entry starts with a dash. -/
theorem reads_head {env : Env} {d : Nat} {g s : Bool} {f f' : Conf} {es : List Entry}
    (h : Reads env d g s f es f') : (pop (toksOf es)).1.ty ≠ .seq := by
  cases h with
  | nil => simp [toksOf, pop]
  | set hb hc hv hl hbase _ =>
    show (tokOf (Spec.name _)).ty ≠ _
    rw [tokOf_option (valid_option hv)]; simp
  | base hv _ _ _ _ _ _ =>
    show (tokOf (Spec.name _)).ty ≠ _
    rw [tokOf_option (valid_option hv)]; simp
  | group _ =>
    show (tokOf (Spec.name .BraceWrapping)).ty ≠ _
    rw [tokOf_option (by decide +kernel)]; simp
  | brace hb hv _ =>
    show (tokOf (Spec.name _)).ty ≠ _
    rw [tokOf_option (valid_option hv)]; simp
  | invalid hb hc hl hk hi _ =>
    show (tokOf (Spec.name _)).ty ≠ _
    rw [tokOf_option (option_of hk)]; simp
  | ignored hi _ =>
    have key : ∀ w, OtherKey w → (tokOf w).ty ≠ .seq := fun w hw => (value_tok (otherKey_word hw).1).2.2.2.seq
    cases hi with
    | other hk _ => exact key _ hk
    | list hk _ _ => exact key _ hk
    | sub hk _ _ _ => exact key _ hk
  | categories _ _ =>
    show (tokOf (Spec.name .IncludeCategories)).ty ≠ _
    rw [tokOf_option (by decide +kernel)]; simp
  | begin _ =>
    show (tokOf "---".toList).ty ≠ _
    rw [tokOf_begin]; simp
  | finish _ =>
    show (tokOf "...".toList).ty ≠ _
    rw [tokOf_finish]; simp
  | foreign =>
    show (tokOf (Spec.name .Language)).ty ≠ _
    rw [tokOf_option (by decide +kernel)]; simp
  | last =>
    show (tokOf (Spec.name .Language)).ty ≠ _
    rw [tokOf_option (by decide +kernel)]; simp

/-! ## Entries that are ignored -/

theorem so_other {t : Tok} (h : ∀ k, t.ty = .kw k → Spec.isOption k = false) : t.so = none := by
  cases hs : t.so with
  | none => rfl
  | some e =>
    obtain ⟨k, h1, -, h2⟩ := so_some hs
    rw [h k h1] at h2
    simp at h2

theorem unknown_cons (a : Tok) (ts : List Tok) :
    unknown (a :: ts) = (fun us => if (pop us).1.ty = .seq then skipSequence us else (pop us).2)
      (match lexIf .colon ts with | some (_, ts) => ts | none => ts) := rfl

theorem unknown_value {a b c : Tok} {us : List Tok} (hb : b.ty = .colon) (hc : c.ty ≠ .seq) :
    unknown (a :: b :: c :: us) = us := by
  rw [unknown_cons, lexIf_cons hb]
  exact if_neg hc

theorem unknown_colon {a c : Tok} {us : List Tok} (h1 : c.ty ≠ .colon) (h2 : c.ty ≠ .seq) :
    unknown (a :: c :: us) = us := by
  rw [unknown_cons, lexIf_ne h1]
  exact if_neg h2

theorem skipSequence_list (ws : List (List Char)) (us : List Tok) (h : (pop us).1.ty ≠ .seq) :
    skipSequence ((ws.flatMap fun w => [['-'], w]).map tokOf ++ us) = us := by
  induction ws with
  | nil =>
    simp only [List.flatMap_nil, List.map_nil, List.nil_append]
    cases us with
    | nil => rfl
    | cons a us =>
      cases us with
      | nil => rw [skipSequence]; exact if_neg h
      | cons b us => rw [skipSequence]; exact if_neg h
  | cons w ws ih =>
    simp only [List.flatMap_cons, List.cons_append, List.nil_append, List.map_cons]
    rw [skipSequence, if_pos tokOf_seq]
    exact ih

theorem unknown_list {a b : Tok} {ws : List (List Char)} {us : List Tok} (hb : b.ty = .colon) (hne : ws ≠ [])
    (h : (pop us).1.ty ≠ .seq) :
    unknown (a :: b :: ((ws.flatMap fun w => [['-'], w]).map tokOf ++ us)) = us := by
  rw [unknown_cons, lexIf_cons hb]
  cases ws with
  | nil => exact absurd rfl hne
  | cons w ws =>
    simp only
    exact (if_pos (by
      simp only [List.flatMap_cons, List.cons_append, List.nil_append, List.map_cons, pop]
      exact tokOf_seq)).trans (skipSequence_list _ us h)

theorem otherKey_so {key : List Char} (h : OtherKey key) : (tokOf key).so = none := by
  refine so_other ?_
  intro k hk
  rw [tokOf_word h.1] at hk
  have := (keyword_ty key).2.2
  rw [hk] at this
  rcases this with e | e
  · simp at e
  · cases ho : Spec.isOption k
    · rfl
    · exfalso
      simp only [tyName, Option.some.injEq] at e
      exact h.2 k ho e.symm

theorem ev_ignored {env : Env} {nested : Bool} {st : State} {e : Entry} {us : List Tok} {o : Out} (he : Ignored e)
    (hl : nested = true ∨ Ours us) (hs : (pop us).1.ty ≠ .seq) (h : Ev env nested st us o) :
    Ev env nested st (toks e ++ us) o := by
  have hl' : nested = true ∨ Ours (toks e ++ us) := by
    unfold Ours
    rw [dl_ignored he]
    exact hl
  cases he with
  | other hk hw =>
    have hty := (value_tok (otherKey_word hk).1).2.2.2
    simp only [toks, words, List.map_cons, List.map_nil, List.cons_append, List.nil_append] at hl' ⊢
    refine ev_unknown hl' hty.seq hty.docBegin hty.docEnd (otherKey_so hk) ?_
    rw [unknown_value tokOf_colon (value_tok hw.1).2.2.2.seq]
    exact h
  | list hk hne hw =>
    have hty := (value_tok (otherKey_word hk).1).2.2.2
    simp only [toks, words, List.map_cons, List.cons_append] at hl' ⊢
    refine ev_unknown hl' hty.seq hty.docBegin hty.docEnd (otherKey_so hk) ?_
    rw [unknown_list tokOf_colon hne hs]
    exact h
  | sub hk hk' hn hw =>
    have hty := (value_tok (otherKey_word hk).1).2.2.2
    simp only [toks, words, List.map_cons, List.map_nil, List.cons_append, List.nil_append] at hl' ⊢
    refine ev_unknown hl' hty.seq hty.docBegin hty.docEnd (otherKey_so hk) ?_
    rw [unknown_value tokOf_colon (value_tok (.word hk')).2.2.2.seq]
    refine ev_unknown ?_ (by rw [tokOf_colon]; simp) (by rw [tokOf_colon]; simp) (by rw [tokOf_colon]; simp) ?_ ?_
    · unfold Ours
      rw [dl_colon, dl_word _ hw.1 hw.2]
      exact hl
    · refine so_other ?_
      rw [tokOf_colon]
      simp
    · rw [unknown_colon (value_tok hw.1).2.2.2.colon (value_tok hw.1).2.2.2.seq]
      exact h

/-! ## All entries -/

theorem skipDocument_append {ts : List Tok} (h : ∀ t ∈ ts, t.ty ≠ .docBegin) {b : Tok} (hb : b.ty = .docBegin)
    (us : List Tok) : skipDocument (ts ++ b :: us) = us := by
  induction ts with
  | nil => rw [List.nil_append, skipDocument, if_pos hb]
  | cons t ts ih =>
    rw [List.cons_append, skipDocument, if_neg (h t (by simp))]
    exact ih fun x hx => h x (by simp [hx])

theorem skipDocument_all {ts : List Tok} (h : ∀ t ∈ ts, t.ty ≠ .docBegin) : skipDocument ts = [] := by
  induction ts with
  | nil => rfl
  | cons t ts ih =>
    rw [skipDocument, if_neg (h t (by simp))]
    exact ih fun x hx => h x (by simp [hx])

/-- The entries are read. -/
def DoneA (env : Env) (d : Nat) (f : Conf) (ts : List Tok) (f' : Conf) : Prop :=
  Ev env false ⟨f.vals, none, d, f.cats⟩ ts (.none, ⟨f'.vals, none, d, f'.cats⟩, [])

/-- The entries are read, the first ones within `BraceWrapping`. -/
def DoneB (env : Env) (d : Nat) (f : Conf) (ts : List Tok) (f' : Conf) : Prop :=
  ∃ st ts', Ev env true ⟨f.vals, some .BraceWrapping, d, f.cats⟩ ts (.none, st, ts') ∧
    Ev env false { st with scope := none } ts' (.none, ⟨f'.vals, none, d, f'.cats⟩, [])

/-- The entries are read, the first ones within `IncludeCategories`. -/
def DoneC (env : Env) (d : Nat) (f : Conf) (ts : List Tok) (f' : Conf) : Prop :=
  ∃ ts', (∀ st : State, st.scope = some .IncludeCategories → Ev env true st ts (.none, st, ts')) ∧
    (pop ts').1.ty ≠ .seq ∧ DoneA env d f ts' f'

theorem doneB_of_doneA {env : Env} {d : Nat} {f f' : Conf} {t : Tok} {us : List Tok} {k : Kw}
    (ht : t.ty = .kw k) (ho : Spec.isOption k = true) (hs : scopeOf k = none)
    (h : DoneA env d f (t :: us) f') : DoneB env d f (t :: us) f' :=
  ⟨_, _, ev_stop ht ho (by rw [hs]; simp), h⟩

theorem doneC_of_doneA {env : Env} {d : Nat} {f f' : Conf} {t : Tok} {us : List Tok} {k : Kw}
    (ht : t.ty = .kw k) (ho : Spec.isOption k = true) (hs : scopeOf k = none)
    (h : DoneA env d f (t :: us) f') : DoneC env d f (t :: us) f' :=
  ⟨_, fun st h => ev_stop ht ho (by rw [hs, h]; simp), by show t.ty ≠ _; rw [ht]; simp, h⟩

/-- An option that is not within a group ends it. -/
theorem done_of_doneA {env : Env} {d : Nat} {g : Bool} {f f' : Conf} {t : Tok} {us : List Tok} {k : Kw}
    (ht : t.ty = .kw k) (ho : Spec.isOption k = true) (hs : scopeOf k = none)
    (h : DoneA env d f (t :: us) f') :
    (g = false → DoneA env d f (t :: us) f' ∧ DoneC env d f (t :: us) f') ∧ DoneB env d f (t :: us) f' :=
  ⟨fun _ => ⟨h, doneC_of_doneA ht ho hs h⟩, doneB_of_doneA ht ho hs h⟩

/-! The lines of a category -/

theorem onLastCat_append (g : Category → Category) (f : Kw → Val) (sc : Option Kw) (d : Nat) (cs : List Category)
    (c : Category) : onLastCat g ⟨f, sc, d, cs ++ [c]⟩ = ⟨f, sc, d, cs ++ [g c]⟩ := by
  simp [onLastCat]

theorem ev_category {env : Env} {d : Nat} {f f' : Kw → Val} {c c' : Category} {fs : List Field}
    {cs : List Category} {ts : List Tok} {o : Out} (h : CatReads env f c fs f' c')
    (ht : Ev env true ⟨f', some .IncludeCategories, d, cs ++ [c']⟩ ts o) :
    Ev env true ⟨f, some .IncludeCategories, d, cs ++ [c]⟩ (fieldToks fs ++ ts) o := by
  induction h with
  | nil => exact ht
  | @regex f f' c c' s fs hp hr _ ih =>
    refine ev_option (k := .Regex) (r := .good) (st' := ⟨f, some .IncludeCategories, d, cs ++ [{ c with pattern := some s }]⟩)
      (Or.inl rfl) (tokOf_option (by decide +kernel)) (by decide +kernel) rfl ⟨0, ?_⟩ (Or.inl rfl) (ih ht)
    show some (parseRegex env (entry .Regex) _ (tokOf (Spec.name .Regex) :: tokOf [':'] ::
      tokOf ('\'' :: s ++ ['\'']) :: (fieldToks fs ++ ts))) = _
    unfold parseRegex
    rw [show (entry .Regex).ty = .kw .Regex from rfl, lexIf_cons (tokOf_option (by decide +kernel))]
    simp only
    rw [lexIf_cons tokOf_colon]
    simp only
    rw [tokOf_pattern hp, lexIf_cons (t := ⟨.str, s, 0⟩) (ty := .str) rfl]
    simp only
    have hz : s.takeWhile (· ≠ '\x00') = s := by
      have : ∀ l : List Char, '\x00' ∉ l → l.takeWhile (· ≠ '\x00') = l := by
        intro l
        induction l with
        | nil => intro _; rfl
        | cons x l ih =>
          intro h
          simp only [List.mem_cons, not_or] at h
          rw [List.takeWhile_cons_of_pos (by simpa using fun e => h.1 e.symm), ih h.2]
      exact this s hp.2.1
    rw [hz, if_pos hr, onLastCat_append]
  | @priority f f' c c' w i fs hi _ ih =>
    refine ev_option (k := .Priority) (r := .good)
      (st' := ⟨f, some .IncludeCategories, d, cs ++ [{ c with group := i, sort := i }]⟩)
      (Or.inl rfl) (tokOf_option (by decide +kernel)) (by decide +kernel) rfl ⟨0, ?_⟩ (Or.inl rfl) (ih ht)
    show some (parsePriority (entry .Priority) .Priority _ (tokOf (Spec.name .Priority) :: tokOf [':'] ::
      tokOf w :: (fieldToks fs ++ ts))) = _
    unfold parsePriority
    rw [parseIntegerImpl_good (tokOf_option (by decide +kernel)) tokOf_colon (tokOf_int hi).1, (tokOf_int hi).2]
    simp only [onLastCat_append, if_true]
  | @sortPriority f f' c c' w i fs hi _ ih =>
    refine ev_option (k := .SortPriority) (r := .good)
      (st' := ⟨f, some .IncludeCategories, d, cs ++ [{ c with sort := i }]⟩)
      (Or.inl rfl) (tokOf_option (by decide +kernel)) (by decide +kernel) rfl ⟨0, ?_⟩ (Or.inl rfl) (ih ht)
    show some (parsePriority (entry .SortPriority) .SortPriority _ (tokOf (Spec.name .SortPriority) :: tokOf [':'] ::
      tokOf w :: (fieldToks fs ++ ts))) = _
    unfold parsePriority
    rw [parseIntegerImpl_good (tokOf_option (by decide +kernel)) tokOf_colon (tokOf_int hi).1, (tokOf_int hi).2]
    simp only [onLastCat_append, reduceCtorEq, if_false]
  | @caseSensitive f f' c c' w v fs hv _ ih =>
    refine ev_option (k := .CaseSensitive) (r := .good)
      (st' := ⟨update f .CaseSensitive v, some .IncludeCategories, d, cs ++ [c]⟩)
      (Or.inl rfl) (tokOf_option (by decide +kernel)) (by decide +kernel) rfl ⟨0, ?_⟩ (Or.inl rfl) (ih ht)
    show some (parseBool (entry .CaseSensitive) .CaseSensitive _ (tokOf (Spec.name .CaseSensitive) :: tokOf [':'] ::
      tokOf w :: (fieldToks fs ++ ts))) = _
    unfold parseBool
    rw [show (entry .CaseSensitive).ty = .kw .CaseSensitive from rfl, lexIf_cons (tokOf_option (by decide +kernel))]
    simp only
    rw [lexIf_cons tokOf_colon]
    simp only
    cases hv with
    | @named x hx hci hw =>
      have hc := tokOf_named hci hw
      simp only [Spec.values, Spec.isBool, if_true, List.mem_cons, List.not_mem_nil, or_false] at hx
      rcases hx with rfl | rfl
      · rw [lexIf_cons hc]
        rfl
      · rw [lexIf_ne (by rw [hc]; simp)]
        simp only
        rw [lexIf_cons hc]
        rfl
    | number hk _ _ _ _ => simp [Spec.isNumber] at hk

/-- The loop over categories ends. -/
theorem ev_categories {env : Env} {d : Nat} {x y : Conf} {l : List (List Field)} {ts ts' : List Tok}
    (h : CatsRead env x l y) (hn : l = [] → ts' = ts)
    (ht : l ≠ [] → ∀ st : State, st.scope = some .IncludeCategories → Ev env true st ts (.none, st, ts'))
    (hs : (pop ts').1.ty ≠ .seq) :
    ∃ n, categories (documents env n) n ⟨x.vals, some .IncludeCategories, d, x.cats⟩ (catToks l ++ ts) =
      some (⟨y.vals, some .IncludeCategories, d, y.cats⟩, ts') := by
  induction h with
  | nil =>
    cases hn rfl
    refine ⟨1, ?_⟩
    rw [categories]
    have : lexIf .seq (catToks [] ++ ts) = none := if_neg hs
    rw [this]
    rfl
  | @cons x y f c fs l hc hl ih =>
    cases l with
    | nil =>
      cases hl
      obtain ⟨n, h1⟩ := ev_category (d := d) (cs := x.cats) hc (ht (by simp) ⟨f, some .IncludeCategories, d, x.cats ++ [c]⟩ rfl)
      refine ⟨n + 2, ?_⟩
      have e : catToks [fs] ++ ts = tokOf ['-'] :: (fieldToks fs ++ ts) := by simp [catToks]
      rw [e, categories, lexIf_cons tokOf_seq]
      simp only
      rw [documents_mono env (show n ≤ n + 2 by omega) _ _ _ _ h1]
      simp only
      rw [categories]
      have : lexIf .seq ts' = none := if_neg hs
      rw [this]
    | cons gs l =>
      obtain ⟨n, h2⟩ := ih (by simp) (fun _ => ht (by simp))
      have hst : ∀ (st : State) us, Ev env true st (tokOf ['-'] :: us) (.none, st, tokOf ['-'] :: us) := by
        intro st us
        refine ⟨1, ?_⟩
        rw [documents_cons, if_neg (by simp), if_pos tokOf_seq]
      obtain ⟨m, h1⟩ := ev_category (d := d) (cs := x.cats) hc
        (hst ⟨f, some .IncludeCategories, d, x.cats ++ [c]⟩ (fieldToks gs ++ catToks l ++ ts))
      refine ⟨max n m + 1, ?_⟩
      have e : catToks (fs :: gs :: l) ++ ts =
          tokOf ['-'] :: (fieldToks fs ++ tokOf ['-'] :: (fieldToks gs ++ catToks l ++ ts)) := by
        simp [catToks]
      have e2 : catToks (gs :: l) ++ ts = tokOf ['-'] :: (fieldToks gs ++ catToks l ++ ts) := by
        simp [catToks]
      rw [e, categories, lexIf_cons tokOf_seq]
      simp only
      rw [documents_mono env (show m ≤ max n m + 1 by omega) _ _ _ _ h1]
      simp only
      rw [← e2]
      exact categories_mono (documents_mono env (by omega)) _ _ _ _ _ (by omega) h2

theorem scopeOf_none {k : Kw} (h1 : Spec.isBrace k = false) (h2 : Spec.isCategory k = false) : scopeOf k = none :=
  (kinds_values_all k (mem_all k)).2.1 h2 h1

theorem scopeOf_brace {k : Kw} (h : Spec.isBrace k = true) : scopeOf k = some .BraceWrapping :=
  (kinds_values_all k (mem_all k)).2.2.1 h

theorem foreign_tok {w : List Char} (hw : Value w) (h1 : ¬ Word w (Spec.name .Cpp)) (h2 : ¬ Word w (Spec.name .None))
    (ts : List Tok) : ¬ Ours (tokOf (Spec.name .Language) :: tokOf [':'] :: tokOf w :: ts) := by
  unfold Ours
  rw [dl_language _ (tokOf_option (by decide +kernel)) tokOf_colon]
  have := (value_tok hw).2.2.2
  rintro (e | e)
  · exact h2 (this.kw _ e)
  · exact h1 (this.kw _ e)

theorem foreign_begin {w : List Char} {es : List Entry} (hw : Value w)
    (hes : ∀ e ∈ es, "---".toList ∉ words e) (hlex : ∀ x ∈ es.flatMap words, Lexical x) :
    ∀ t ∈ toksOf (.option .Language w :: es), t.ty ≠ .docBegin := by
  intro t ht
  rw [toksOf_cons] at ht
  rcases List.mem_append.mp ht with ht | ht
  · simp only [toks, words, List.map_cons, List.map_nil, List.mem_cons, List.not_mem_nil, or_false] at ht
    rcases ht with rfl | rfl | rfl
    · rw [tokOf_option (by decide +kernel)]; simp
    · rw [tokOf_colon]; simp
    · exact (value_tok hw).2.2.2.docBegin
  · rw [← toksOf_words, List.mem_map] at ht
    obtain ⟨x, hx, rfl⟩ := ht
    refine lexical_begin (hlex x hx) ?_
    rintro rfl
    rw [List.mem_flatMap] at hx
    obtain ⟨e, he, hx⟩ := hx
    exact hes e he hx

/-- Reading does what the entries mean. -/
theorem reads_done {env : Env} {d : Nat} {g s : Bool} {f f' : Conf} {es : List Entry}
    (h : Reads env d g s f es f') : (∀ x ∈ es.flatMap words, Lexical x) →
      (g = false → DoneA env d f (toksOf es) f' ∧ DoneC env d f (toksOf es) f') ∧ DoneB env d f (toksOf es) f' := by
  induction h with
  | nil =>
    intro _
    exact ⟨fun _ => ⟨ev_nil env false _, [], fun st _ => ev_nil env true st, by simp [pop], ev_nil env false _⟩,
      _, _, ev_nil env true _, ev_nil env false _⟩
  | @set d g s f f' k w v es hb hc hv hl hbase ht ih =>
    intro hlex
    have ih := ((ih fun x hx => hlex x (by simp only [List.flatMap_cons, List.mem_append]; exact Or.inr hx)).1 rfl).1
    have ho := valid_option hv
    have hA : DoneA env d f (toksOf (.option k w :: es)) f' := by
      obtain ⟨r, h1, h2⟩ := soParse_valid (env := env) (docs := documents env 0) (n := 0)
        (st := ⟨f.vals, none, d, f.cats⟩) (us := toksOf es) (tokOf_option ho) tokOf_colon hv hc hbase
      exact ev_option (Or.inr (ours_option hv hl ((reads_ours ht).resolve_left (by simp)))) (tokOf_option ho) ho
        (scopeOf_none hb hc) ⟨0, h1⟩ h2 ih
    exact done_of_doneA (tokOf_option ho) ho (scopeOf_none hb hc) hA
  | @base g s f f₁ f' w text b es es₁ hv h1 h2 hd hw hr₁ hr ih₁ ih =>
    intro hlex
    have ih := ((ih fun x hx => hlex x (by simp only [List.flatMap_cons, List.mem_append]; exact Or.inr hx)).1 rfl).1
    have ih₁ := ((ih₁ (written_lexical hw)).1 rfl).1
    have ho := valid_option hv
    have hA : DoneA env 0 f (toksOf (.option .BasedOnStyle w :: es)) f' := by
      obtain ⟨n, h3⟩ := ih₁
      refine ev_option (r := .good) (Or.inr (ours_option hv (by simp) ((reads_ours hr).resolve_left (by simp))))
        (tokOf_option ho) ho (scopeOf_none rfl rfl) ⟨n, ?_⟩ (Or.inl rfl) ih
      have hen : parseEnum (entry .BasedOnStyle) .BasedOnStyle ⟨f.vals, none, 0, f.cats⟩
          (tokOf (Spec.name .BasedOnStyle) :: tokOf [':'] :: tokOf w :: toksOf es) =
            (.good, set ⟨f.vals, none, 0, f.cats⟩ .BasedOnStyle (.kw b), toksOf es) := by
        generalize hvv : Val.kw b = v at hv
        cases hv with
        | @named x hx hci hwx =>
          simp only [Spec.named, reduceCtorEq, false_and, if_false, Val.kw.injEq] at hvv
          subst hvv
          exact parseEnum_good (tokOf_option ho) tokOf_colon (tokOf_named hci hwx) hx rfl
        | number hk _ _ _ _ => simp [Spec.isNumber] at hk
      show parseBasedOnStyle env (documents env n) (entry .BasedOnStyle) .BasedOnStyle ⟨f.vals, none, 0, f.cats⟩
        (tokOf (Spec.name .BasedOnStyle) :: tokOf [':'] :: tokOf w :: toksOf es) = _
      unfold parseBasedOnStyle
      rw [hen]
      simp only [set_vals]
      rw [if_neg (by simp [set]), if_neg (by simp [h1, h2]), hd]
      simp only
      unfold parseYaml
      rw [written_tokenize hw, toksOf_words]
      simp only
      rw [show documents env n false { set ⟨f.vals, none, 0, f.cats⟩ .BasedOnStyle (.kw b) with
          depth := (set ⟨f.vals, none, 0, f.cats⟩ .BasedOnStyle (.kw b)).depth + 1 } (toksOf es₁) =
        some (.none, ⟨f₁.vals, none, 1, f₁.cats⟩, []) from h3]
      rfl
    exact done_of_doneA (tokOf_option ho) ho (scopeOf_none rfl rfl) hA
  | @categories d g s f f₁ f' l es hc ht ih =>
    intro hlex
    obtain ⟨ihA, ts', hts, hsq, hT⟩ :=
      (ih fun x hx => hlex x (by simp only [List.flatMap_cons, List.mem_append]; exact Or.inr hx)).1 rfl
    have ho : Spec.isOption .IncludeCategories = true := by decide +kernel
    have hours : Ours (toksOf (.categories l :: es)) :=
      (reads_ours (Reads.categories (g := g) (s := false) hc ht)).resolve_left (by simp)
    have hA : DoneA env d f (toksOf (.categories l :: es)) f' := by
      have heq : toksOf (.categories l :: es) =
          tokOf (Spec.name .IncludeCategories) :: tokOf [':'] :: (catToks l ++ toksOf es) := by
        rw [toksOf_cons, categories_toks]; rfl
      have key : ∀ us, (∃ n, categories (documents env n) n ⟨f.vals, some .IncludeCategories, d, f.cats⟩
            (catToks l ++ toksOf es) = some (⟨f₁.vals, some .IncludeCategories, d, f₁.cats⟩, us)) →
          DoneA env d (f₁.update .IncludeCategories (.kw .None)) us f' →
          DoneA env d f (toksOf (.categories l :: es)) f' := by
        rintro us ⟨n, h1⟩ h2
        unfold DoneA
        rw [heq] at hours ⊢
        refine ev_option (r := .good) (Or.inr hours) (tokOf_option ho) ho (scopeOf_none rfl rfl) ⟨n, ?_⟩ (Or.inl rfl) h2
        show parseIncludeCategories (documents env n) n (entry .IncludeCategories) .IncludeCategories _
          (tokOf (Spec.name .IncludeCategories) :: tokOf [':'] :: (catToks l ++ toksOf es)) = _
        unfold parseIncludeCategories
        rw [show (entry .IncludeCategories).ty = .kw .IncludeCategories from rfl, lexIf_cons (tokOf_option ho)]
        simp only
        rw [lexIf_cons tokOf_colon]
        simp only
        rw [h1]
        rfl
      by_cases hl : l = []
      · exact key _ (ev_categories (ts' := toksOf es) hc (fun _ => rfl) (fun h => absurd hl h) (reads_head ht)) ihA
      · exact key _ (ev_categories hc (fun h => absurd h hl) (fun _ => hts) hsq) hT
    exact done_of_doneA (tokOf_option ho) ho (scopeOf_none rfl rfl) hA
  | @group d g s f f' es ht ih =>
    intro hlex
    have ih := (ih fun x hx => hlex x (by simp only [List.flatMap_cons, List.mem_append]; exact Or.inr hx)).2
    have ho : Spec.isOption .BraceWrapping = true := by decide +kernel
    have hours : Ours (toksOf (.group :: es)) := (reads_ours (Reads.group (g := g) (s := false) ht)).resolve_left (by simp)
    have hA : DoneA env d f (toksOf (.group :: es)) f' := by
      obtain ⟨st, ts', ⟨n, h1⟩, h2⟩ := ih
      refine ev_option (r := .good) (st' := { st with scope := none }) (Or.inr hours) (tokOf_option ho) ho
        (scopeOf_none rfl rfl) ⟨n, ?_⟩ (Or.inl rfl) h2
      show parseNested (documents env n) (entry .BraceWrapping) .BraceWrapping ⟨f.vals, none, d, f.cats⟩
        (tokOf (Spec.name .BraceWrapping) :: tokOf [':'] :: toksOf es) = _
      unfold parseNested
      rw [show (entry .BraceWrapping).ty = .kw .BraceWrapping from rfl, lexIf_cons (tokOf_option ho)]
      simp only
      rw [lexIf_cons tokOf_colon]
      simp only
      rw [h1]
    exact done_of_doneA (tokOf_option ho) ho (scopeOf_none rfl rfl) hA
  | @brace d s f f' k w v es hb hv ht ih =>
    intro hlex
    have ih := (ih fun x hx => hlex x (by simp only [List.flatMap_cons, List.mem_append]; exact Or.inr hx)).2
    have ho := valid_option hv
    obtain ⟨hk1, hk2, hk3⟩ := brace_language hb
    refine ⟨by simp, ?_⟩
    obtain ⟨st, ts', h1, h2⟩ := ih
    obtain ⟨r, h3, h4⟩ := soParse_valid (env := env) (docs := documents env 0) (n := 0)
      (st := ⟨f.vals, some .BraceWrapping, d, f.cats⟩) (us := toksOf es) (tokOf_option ho) tokOf_colon hv hk3
      (fun e => absurd e hk2)
    exact ⟨st, ts', ev_option (Or.inl rfl) (tokOf_option ho) ho (scopeOf_brace hb) ⟨0, h3⟩ h4 h1, h2⟩
  | @invalid d g s f f' k w es hb hc hl hk hi ht ih =>
    intro hlex
    have ih := ih fun x hx => hlex x (by simp only [List.flatMap_cons, List.mem_append]; exact Or.inr hx)
    have ho := option_of hk
    have hours : Ours (toksOf (.option k w :: es)) := by
      unfold Ours
      rw [toksOf_cons, dl_option _ hl (option_of hk) (invalid_ty hi).1 (invalid_ty hi).2]
      exact (reads_ours ht).resolve_left (by simp)
    cases hbk : Spec.isBrace k with
    | false =>
      have hA : DoneA env d f (toksOf (.option k w :: es)) f' :=
        ev_option (Or.inr hours) (tokOf_option ho) ho (scopeOf_none hbk hc)
          ⟨0, soParse_invalid (tokOf_option ho) tokOf_colon hi hc hk⟩ (Or.inr rfl) (ih.1 hbk).1
      exact done_of_doneA (tokOf_option ho) ho (scopeOf_none hbk hc) hA
    | true =>
      refine ⟨fun hg => absurd (hb hbk) (by simp [hg]), ?_⟩
      obtain ⟨st, ts', h1, h2⟩ := ih.2
      exact ⟨st, ts', ev_option (Or.inl rfl) (tokOf_option ho) ho (scopeOf_brace hbk)
        ⟨0, soParse_invalid (tokOf_option ho) tokOf_colon hi hc hk⟩ (Or.inr rfl) h1, h2⟩
  | @ignored d g s f f' e es hi ht ih =>
    intro hlex
    have ih := ih fun x hx => hlex x (by simp only [List.flatMap_cons, List.mem_append]; exact Or.inr hx)
    refine ⟨fun hg => ⟨?_, ?_⟩, ?_⟩
    · exact ev_ignored hi (Or.inr ((reads_ours ht).resolve_left (by simp))) (reads_head ht) (ih.1 hg).1
    · obtain ⟨ts', h1, h2, h3⟩ := (ih.1 hg).2
      exact ⟨ts', fun st hst => ev_ignored hi (Or.inl rfl) (reads_head ht) (h1 st hst), h2, h3⟩
    · obtain ⟨st, ts', h1, h2⟩ := ih.2
      exact ⟨st, ts', ev_ignored hi (Or.inl rfl) (reads_head ht) h1, h2⟩
  | @begin d g s f f' es ht ih =>
    intro hlex
    have ih := ih fun x hx => hlex x (by simp only [List.flatMap_cons, List.mem_append]; exact Or.inr hx)
    refine ⟨fun _ => ⟨?_, ?_⟩, ?_⟩
    · exact ev_doc (Or.inr (Or.inl (dl_begin _ tokOf_begin))) (Or.inl tokOf_begin) (ih.1 rfl).1
    · obtain ⟨ts', h1, h2, h3⟩ := (ih.1 rfl).2
      exact ⟨ts', fun st hst => ev_doc (Or.inl rfl) (Or.inl tokOf_begin) (h1 st hst), h2, h3⟩
    · obtain ⟨st, ts', h1, h2⟩ := ih.2
      exact ⟨st, ts', ev_doc (Or.inl rfl) (Or.inl tokOf_begin) h1, h2⟩
  | @finish d g s f f' es ht ih =>
    intro hlex
    have ih := ih fun x hx => hlex x (by simp only [List.flatMap_cons, List.mem_append]; exact Or.inr hx)
    have hours : Ours (toksOf (.finish :: es)) := (reads_ours (Reads.finish (g := g) (s := false) ht)).resolve_left (by simp)
    refine ⟨fun _ => ⟨?_, ?_⟩, ?_⟩
    · exact ev_doc (Or.inr hours) (Or.inr tokOf_finish) (ih.1 rfl).1
    · obtain ⟨ts', h1, h2, h3⟩ := (ih.1 rfl).2
      exact ⟨ts', fun st hst => ev_doc (Or.inl rfl) (Or.inr tokOf_finish) (h1 st hst), h2, h3⟩
    · obtain ⟨st, ts', h1, h2⟩ := ih.2
      exact ⟨st, ts', ev_doc (Or.inl rfl) (Or.inr tokOf_finish) h1, h2⟩
  | @foreign d g f f' w es es' hw h1 h2 hes ht ih =>
    intro hlex
    have ih := ih fun x hx => hlex x (by
      simp only [List.cons_append, List.flatMap_cons, List.flatMap_append, List.mem_append]
      exact Or.inr (Or.inr (Or.inr hx)))
    have hnb := foreign_begin hw hes fun x hx => hlex x (by
      simp only [List.cons_append, List.flatMap_cons, List.flatMap_append, List.mem_append]
      exact Or.inr (Or.inl hx))
    have heq : toksOf (.option .Language w :: es ++ .begin :: es') =
        toksOf (.option .Language w :: es) ++ tokOf "---".toList :: toksOf es' := by
      unfold toksOf
      rw [List.flatMap_append, List.flatMap_cons]
      rfl
    have hA : DoneA env d f (toksOf (.option .Language w :: es ++ .begin :: es')) f' := by
      refine ev_foreign (foreign_tok hw h1 h2 _) ?_
      have : skipDocument (toksOf (.option .Language w :: es ++ .begin :: es')) = toksOf es' := by
        rw [heq]
        exact skipDocument_append hnb tokOf_begin _
      exact this ▸ (ih.1 rfl).1
    exact done_of_doneA (tokOf_option (k := .Language) (by decide +kernel)) (by decide +kernel)
      (scopeOf_none rfl rfl) hA
  | @last d g f w es hw h1 h2 hes =>
    intro hlex
    have hnb := foreign_begin hw hes fun x hx => hlex x (by
      simp only [List.flatMap_cons, List.mem_append]
      exact Or.inr hx)
    have hA : DoneA env d f (toksOf (.option .Language w :: es)) f := by
      refine ev_foreign (foreign_tok hw h1 h2 _) ?_
      have : skipDocument (toksOf (.option .Language w :: es)) = [] := skipDocument_all hnb
      have hn := ev_nil env false ⟨f.vals, none, d, f.cats⟩
      exact (congrArg (fun ts => Ev env false ⟨f.vals, none, d, f.cats⟩ ts
        (.none, ⟨f.vals, none, d, f.cats⟩, [])) this).mpr hn
    exact done_of_doneA (tokOf_option (k := .Language) (by decide +kernel)) (by decide +kernel)
      (scopeOf_none rfl rfl) hA

end Knfmt.Style
