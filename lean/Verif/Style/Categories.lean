import Verif.Style.Witness
import Verif.Cpp.IncludeProps
/-!
# The categories of includes in the configuration, and the order includes are put in
-/
namespace Knfmt.Style

open Knfmt.Style.Spec (Written Word Valid Entry words Reads Conf Field CatReads CatsRead IsInt Pattern)

/-! ## What the categories of a file are -/

namespace Spec

/-- The categories of a file, in the order they are in. -/
inductive OwnCats (env : Env) : List Entry → List Category → Prop where
  | nil : OwnCats env [] []
  | categories {l : List (List Field)} {c : Conf} {es : List Entry} {cs : List Category} :
      CatsRead env ⟨default, []⟩ l c → OwnCats env es cs → OwnCats env (.categories l :: es) (c.cats ++ cs)
  | other {e : Entry} {es : List Entry} {cs : List Category} :
      (∀ l, e ≠ .categories l) → OwnCats env es cs → OwnCats env (e :: es) cs

/-- What a category says, given which paths a pattern matches. -/
def rule (rx : List Char → List Char → Bool) (c : Category) : Include.Category :=
  ⟨fun p => c.pattern.any fun s => rx s p, ⟨c.group, c.sort⟩⟩

/-- The file is not based on another style and says nothing about languages. -/
def Own (es : List Entry) : Prop := ∀ w, .option .BasedOnStyle w ∉ es ∧ .option .Language w ∉ es

end Spec

open Knfmt.Style.Spec (OwnCats rule Own)

/-- What `cpp_include_alloc` takes from the style, cpp-include.c:74-94, style.c:468-517. `rx` is `regexec` on
the pattern given to `regcomp`. A category without a pattern, where `regexec` is given what `regcomp` has not
written, is taken to match nothing. -/
def includeCfg (rx : List Char → List Char → Bool) (st : State) (diff : Bool) (path : List Char) : Include.Cfg where
  enabled := decide (style st .SortIncludes = .kw .CaseSensitive)
  regroup := decide (style st .IncludeBlocks = .kw .Regroup)
  categories := st.cats.map fun c =>
    ⟨fun p => match c.pattern with
      | some s => rx s p
      | none => false, ⟨c.group, c.sort⟩⟩
  diff := diff
  path := path

theorem includeCfg_categories (rx : List Char → List Char → Bool) (st : State) (diff : Bool) (path : List Char) :
    (includeCfg rx st diff path).categories = st.cats.map (rule rx) := by
  unfold includeCfg
  simp only
  refine List.map_congr_left fun c _ => ?_
  unfold rule
  cases c.pattern <;> rfl

/-! ## They are unique -/

theorem catReads_vals {env : Env} {f f' : Kw → Val} {c c' : Category} {fs : List Field}
    (h : CatReads env f c fs f' c') (g : Kw → Val) : ∃ g', CatReads env g c fs g' c' := by
  induction h generalizing g with
  | nil => exact ⟨g, .nil⟩
  | regex h1 h2 _ ih => obtain ⟨g', h⟩ := ih g; exact ⟨g', .regex h1 h2 h⟩
  | priority h1 _ ih => obtain ⟨g', h⟩ := ih g; exact ⟨g', .priority h1 h⟩
  | sortPriority h1 _ ih => obtain ⟨g', h⟩ := ih g; exact ⟨g', .sortPriority h1 h⟩
  | caseSensitive h1 _ ih => obtain ⟨g', h⟩ := ih _; exact ⟨g', .caseSensitive h1 h⟩

theorem catsRead_shift {env : Env} {x y : Conf} {l : List (List Field)} (h : CatsRead env x l y) :
    ∃ z, y.cats = x.cats ++ z ∧ ∀ g cs, ∃ g', CatsRead env ⟨g, cs⟩ l ⟨g', cs ++ z⟩ := by
  induction h with
  | nil => exact ⟨[], by simp, fun g cs => ⟨g, by simpa using .nil⟩⟩
  | @cons x y f c fs l hc _ ih =>
    obtain ⟨z, h1, h2⟩ := ih
    refine ⟨c :: z, by simp [h1], fun g cs => ?_⟩
    obtain ⟨g', h3⟩ := catReads_vals hc g
    obtain ⟨g'', h4⟩ := h2 g' (cs ++ [c])
    exact ⟨g'', .cons h3 (by simpa using h4)⟩

theorem catsRead_unique {env : Env} {x y y' : Conf} {l : List (List Field)} (h : CatsRead env x l y)
    (h' : CatsRead env x l y') : y = y' := by
  have key := fun {y : Conf} (h : CatsRead env x l y) => ev_categories (d := 0) (ts := []) (ts' := []) h (fun _ => rfl)
    (fun _ st _ => ev_nil env true st) (by simp [pop])
  obtain ⟨n, h1⟩ := key h
  obtain ⟨m, h2⟩ := key h'
  have h1 := categories_mono (documents_mono env (Nat.le_max_left n m)) _ (max n m) _ _ _ (by omega) h1
  have h2 := categories_mono (documents_mono env (Nat.le_max_right n m)) _ (max n m) _ _ _ (by omega) h2
  rw [h1] at h2
  cases y; cases y'
  simp only [Option.some.injEq, Prod.mk.injEq, State.mk.injEq] at h2
  simp [h2]

/-- Reading categories adds what they are to those there are. -/
theorem catsRead_cats {env : Env} {x y c : Conf} {l : List (List Field)} (h : CatsRead env x l y)
    (hc : CatsRead env ⟨Spec.default, []⟩ l c) : y.cats = x.cats ++ c.cats := by
  obtain ⟨z, h1, h2⟩ := catsRead_shift h
  obtain ⟨g, h3⟩ := h2 Spec.default []
  rw [h1, catsRead_unique hc h3]
  rfl

/-- Reading a file that is not based on another one adds its categories to those there are. -/
theorem reads_cats {env : Env} {d : Nat} {g s : Bool} {f f' : Conf} {es : List Entry}
    (h : Reads env d g s f es f') : Own es → ∀ cs, OwnCats env es cs → f'.cats = f.cats ++ cs := by
  have tail : ∀ {e : Entry} {es : List Entry}, Own (e :: es) → Own es := fun h w =>
    ⟨fun hm => (h w).1 (List.mem_cons_of_mem _ hm), fun hm => (h w).2 (List.mem_cons_of_mem _ hm)⟩
  have other : ∀ {e : Entry} {es : List Entry} {cs : List Category}, (∀ l, e ≠ .categories l) →
      OwnCats env (e :: es) cs → OwnCats env es cs := by
    intro e es cs he h
    cases h with
    | categories => exact absurd rfl (he _)
    | other _ h => exact h
  induction h with
  | nil =>
    intro _ cs h
    cases h
    simp
  | set _ _ _ _ _ _ ih =>
    intro ho cs h
    exact ih (tail ho) cs (other (by simp) h)
  | base => intro ho; exact absurd (List.mem_cons_self ..) (ho _).1
  | group _ ih => intro ho cs h; exact ih (tail ho) cs (other (by simp) h)
  | brace _ _ _ ih => intro ho cs h; exact ih (tail ho) cs (other (by simp) h)
  | invalid _ _ _ _ _ _ ih => intro ho cs h; exact ih (tail ho) cs (other (by simp) h)
  | ignored hi _ ih =>
    intro ho cs h
    exact ih (tail ho) cs (other (by cases hi <;> simp) h)
  | categories hc _ ih =>
    intro ho cs h
    cases h with
    | categories h1 h2 =>
      rw [ih (tail ho) _ h2]
      show _ ++ _ = _
      simp only [Conf.update]
      rw [catsRead_cats hc h1, List.append_assoc]
    | other he _ => exact absurd rfl (he _)
  | begin _ ih => intro ho cs h; exact ih (tail ho) cs (other (by simp) h)
  | finish _ ih => intro ho cs h; exact ih (tail ho) cs (other (by simp) h)
  | foreign => intro ho; exact absurd (List.mem_cons_self ..) (ho _).2
  | last => intro ho; exact absurd (List.mem_cons_self ..) (ho _).2

/-! ## The property -/

/-- C85: of the categories of a configuration, the first one with a pattern that matches the path of an include
decides its group and its place. -/
def C85_statement : Prop :=
  ∀ (env : Env) (rx : List Char → List Char → Bool) (text : List Char) (es : List Entry) (c : Conf)
    (cs : List Category) (st : State) (diff : Bool) (path inc : List Char) (r : Include.Prio),
    Written (es.flatMap words) text → Reads env 0 false true ⟨Spec.default, []⟩ es c → OwnCats env es cs →
    Parsed env (some text) st → Include.Spec.CategoryPrio (cs.map (rule rx)) inc r →
    Include.Spec.CategoryPrio (includeCfg rx st diff path).categories inc r

/-- C85: it does, if the configuration is not based on another style. Missing: configurations that are, see
`C85_statement_false`, and those with documents about other languages. -/
theorem C85_partial {env : Env} {text : List Char} {es : List Entry} {c : Conf} {cs : List Category} {st : State}
    (rx : List Char → List Char → Bool) (diff : Bool) (path : List Char)
    (hw : Written (es.flatMap words) text) (hr : Reads env 0 false true ⟨Spec.default, []⟩ es c)
    (ho : Own es) (hc : OwnCats env es cs) (h : Parsed env (some text) st) :
    (includeCfg rx st diff path).categories = cs.map (rule rx) := by
  rw [includeCfg_categories, categories_reads hw hr h, reads_cats hr ho cs hc]
  rfl

/-- C85: if the configuration starts with the style it is based on, the categories of that style come first and
those of the configuration after them. -/
theorem C85_base_first {env : Env} {w text text₁ : List Char} {b : Kw} {es es₁ : List Entry} {c c₁ : Conf}
    {cs cs₁ : List Category} {st : State} (rx : List Char → List Char → Bool) (diff : Bool) (path : List Char)
    (hw : Written ((.option .BasedOnStyle w :: es).flatMap words) text) (hv : Valid .BasedOnStyle w (.kw b))
    (hb : b ≠ .OpenBSD ∧ b ≠ .InheritParentConfig) (hd : env.dump b = some text₁)
    (hw₁ : Written (es₁.flatMap words) text₁)
    (hr₁ : Reads env 1 false true ((⟨Spec.default, []⟩ : Conf).update .BasedOnStyle (.kw b)) es₁ c₁)
    (hr : Reads env 0 false false c₁ es c) (ho₁ : Own es₁) (hc₁ : OwnCats env es₁ cs₁) (ho : Own es)
    (hc : OwnCats env es cs) (h : Parsed env (some text) st) :
    (includeCfg rx st diff path).categories = (cs₁ ++ cs).map (rule rx) := by
  rw [includeCfg_categories, categories_reads hw (.base hv hb.1 hb.2 hd hw₁ hr₁ hr) h, reads_cats hr ho cs hc,
    reads_cats hr₁ ho₁ cs₁ hc₁]
  rfl

/-- C85: with `SortIncludes: CaseSensitive`, every block of includes that is sorted is arranged by the categories
of the configuration if `IncludeBlocks` is `Regroup`: each include is in the group of the first one that matches,
the groups are in ascending order, and so are the includes of each group. Otherwise they are sorted without
the categories. Missing: what `C85_partial` and `sort_includes_partial` leave out. -/
theorem C85_arranged_partial {env : Env} {text : List Char} {es : List Entry} {c : Conf} {cs : List Category}
    {st : State} (rx : List Char → List Char → Bool) (diff : Bool) (path : List Char)
    (hw : Written (es.flatMap words) text) (hr : Reads env 0 false true ⟨Spec.default, []⟩ es c)
    (ho : Own es) (hc : OwnCats env es cs) (h : Parsed env (some text) st)
    (h1 : c.vals .SortIncludes = .kw .CaseSensitive)
    (srt : List (Include.Tok × Include.Prio) → List (Include.Tok × Include.Prio)) (hs : Include.IsSort srt)
    (tks : List Include.Tok) (fresh : Nat) (nd : (tks.map (·.id)).Nodup) (hlt : ∀ t ∈ tks, t.id < fresh)
    (hpl : ∀ t ∈ tks, Include.Plain t) :
    ∃ o, Include.run (includeCfg rx st diff path) srt tks fresh = some o ∧
      Include.Spec.Output { enabled := true, regroup := decide (c.vals .IncludeBlocks = .kw .Regroup),
                            categories := cs.map (rule rx), diff, path } tks o.prefixes := by
  have hv := style_reads hw hr h
  have e : includeCfg rx st diff path =
      { enabled := true, regroup := decide (c.vals .IncludeBlocks = .kw .Regroup),
        categories := cs.map (rule rx), diff, path } := by
    have hcat := C85_partial rx diff path hw hr ho hc h
    unfold includeCfg at hcat ⊢
    simp only at hcat
    rw [hcat, hv, hv, h1]
    rfl
  rw [e]
  exact Include.sort_includes_partial _ rfl srt hs tks fresh nd hlt hpl

/-- C85: without `SortIncludes: CaseSensitive` no include moves. -/
theorem C85_disabled {env : Env} {text : List Char} {es : List Entry} {c : Conf} {st : State}
    (rx : List Char → List Char → Bool) (diff : Bool) (path : List Char)
    (hw : Written (es.flatMap words) text) (hr : Reads env 0 false true ⟨Spec.default, []⟩ es c)
    (h : Parsed env (some text) st) (h1 : c.vals .SortIncludes ≠ .kw .CaseSensitive)
    (srt : List (Include.Tok × Include.Prio) → List (Include.Tok × Include.Prio)) (tks : List Include.Tok)
    (fresh : Nat) :
    ∃ o, Include.run (includeCfg rx st diff path) srt tks fresh = some o ∧ o.prefixes = tks :=
  Include.sort_includes_disabled _ (by
    unfold includeCfg
    simp only [style_reads hw hr h, decide_eq_false_iff_not]
    exact h1) srt tks fresh

/-! ## A configuration -/

/-- A pattern, computed. -/
def patternB (s : List Char) : Bool :=
  !s.contains '\'' && !s.contains '\x00' && s.head?.all (fun c => !('0' ≤ c && c ≤ '9') && c != '-') &&
    all.all (fun k => s != Spec.name k) && !["..." |>.toList, ":".toList, "Integer".toList].contains s

theorem patternB_pattern {s : List Char} (h : patternB s = true) : Pattern s := by
  unfold patternB at h
  simp only [Bool.and_eq_true, Bool.not_eq_true', List.contains_eq_mem, decide_eq_false_iff_not] at h
  obtain ⟨⟨⟨⟨h1, h2⟩, h3⟩, h4⟩, h5⟩ := h
  refine ⟨h1, h2, ?_, ?_, ?_⟩
  · intro c r e
    rw [e] at h3
    simp only [List.head?_cons, Option.all_some, Bool.and_eq_true] at h3
    refine ⟨fun hh => ?_, by simpa using h3.2⟩
    have := h3.1
    rw [decide_eq_true hh.1, decide_eq_true hh.2] at this
    cases this
  · simp only [List.mem_cons, List.not_mem_nil, or_false, not_or] at h5 ⊢
    exact ⟨h5.2.1, h5.1, h5.2.2⟩
  · intro k
    have := List.all_eq_true.mp h4 k (mem_all k)
    simpa using this

theorem isInt_digit {c : Char} {n : Nat} (h1 : '0' ≤ c ∧ c ≤ '9') (h2 : Spec.decimal [c] = n) (h3 : n ≤ 2147483647) :
    IsInt [c] (n : Int) := by
  subst h2
  exact .nonneg ⟨by simp, by simpa using h1⟩ (Or.inl rfl) h3

/-- Two categories, the second one of them with another place. -/
def ownFields : List (List Field) :=
  [[.regex "^<sys/".toList, .priority "5".toList, .sortPriority "3".toList], [.priority "5".toList, .regex "^<".toList]]

def ownEntries : List Entry :=
  [.option .SortIncludes "CaseSensitive".toList, .option .IncludeBlocks "Regroup".toList, .categories ownFields]

def ownText : String :=
  "SortIncludes: CaseSensitive\nIncludeBlocks: Regroup\nIncludeCategories:\n  - Regex: '^<sys/'\n    Priority: 5\n" ++
  "    SortPriority: 3\n  - Priority: 5\n    Regex: '^<'\n"

def ownWords : List (String × String) :=
  [("", "SortIncludes"), ("", ":"), (" ", "CaseSensitive"), ("\n", "IncludeBlocks"), ("", ":"), (" ", "Regroup"),
   ("\n", "IncludeCategories"), ("", ":"), ("\n  ", "-"), (" ", "Regex"), ("", ":"), (" ", "'^<sys/'"),
   ("\n    ", "Priority"), ("", ":"), (" ", "5"), ("\n    ", "SortPriority"), ("", ":"), (" ", "3"),
   ("\n  ", "-"), (" ", "Priority"), ("", ":"), (" ", "5"), ("\n    ", "Regex"), ("", ":"), (" ", "'^<'")]

theorem own_written : Written (ownEntries.flatMap words) ownText.toList :=
  written_of (ownWords.map fun p => (p.1.toList, p.2.toList)) ['\n'] (by decide +kernel) (by decide +kernel)
    (by decide +kernel)

/-- What its categories are. -/
def ownCategories : List Category := [⟨some "^<sys/".toList, 5, 3⟩, ⟨some "^<".toList, 5, 5⟩]

theorem own_fields {env : Env} (hrx : ∀ s, env.regcomp s = true) (x : Conf) :
    CatsRead env x ownFields ⟨x.vals, x.cats ++ ownCategories⟩ := by
  have h5 := isInt_digit (c := '5') (n := 5) (by decide) (by decide) (by decide)
  have h3 := isInt_digit (c := '3') (n := 3) (by decide) (by decide) (by decide)
  have h := CatsRead.cons (l := [[.priority "5".toList, .regex "^<".toList]]) (x := x)
    (.regex (patternB_pattern (by decide +kernel)) (hrx "^<sys/".toList) (.priority h5 (.sortPriority h3 .nil)))
    (.cons (.priority h5 (.regex (patternB_pattern (by decide +kernel)) (hrx "^<".toList) .nil)) .nil)
  simpa [ownCategories, ownFields, List.append_assoc] using h

theorem valid_word {k v : Kw} (h1 : v ∈ Spec.values k) (h2 : v ≠ .CaseInsensitive) (h3 : Spec.named k v = .kw v) :
    Valid k (Spec.name v) (.kw v) := h3 ▸ Valid.named (k := k) (v := v) h1 h2 (Or.inl rfl)

theorem own_reads {env : Env} (hrx : ∀ s, env.regcomp s = true) (x : Conf) (s : Bool) : ∃ f,
    Reads env 0 false s x ownEntries ⟨f, x.cats ++ ownCategories⟩ ∧
      f .SortIncludes = .kw .CaseSensitive ∧ f .IncludeBlocks = .kw .Regroup := by
  refine ⟨_, .set rfl rfl (v := .kw .CaseSensitive)
    (valid_word (k := .SortIncludes) (v := .CaseSensitive) (by decide) (by decide) rfl) (fun e => by cases e)
    (fun e => by cases e) (.set rfl rfl (v := .kw .Regroup)
    (valid_word (k := .IncludeBlocks) (v := .Regroup) (by decide) (by decide) rfl) (fun e => by cases e)
    (fun e => by cases e) (.categories (own_fields hrx _) .nil)), ?_, ?_⟩ <;> rfl

theorem own_cats {env : Env} (hrx : ∀ s, env.regcomp s = true) : OwnCats env ownEntries ownCategories := by
  refine .other (by simp) (.other (by simp) ?_)
  simpa using OwnCats.categories (own_fields hrx ⟨Spec.default, []⟩) .nil

/-- The hypotheses of the theorems hold of it. -/
example {st : State} (rx : List Char → List Char → Bool) (h : Parsed noDump (some ownText.toList) st) :
    (includeCfg rx st false "a.c".toList).categories = ownCategories.map (rule rx) := by
  obtain ⟨f, h1, -, -⟩ := own_reads (env := noDump) (fun _ => rfl) ⟨Spec.default, []⟩ true
  exact C85_partial rx false _ own_written h1 (by intro w; constructor <;> simp [ownEntries])
    (own_cats fun _ => rfl) h

/-! ## The categories of the style a configuration is based on come first -/

/-- What clang-format says LLVM is, in part. -/
def llvmText : String := "---\nIncludeCategories:\n  - Regex: '.*'\n    Priority: 1\n...\n"

def llvmFields : List (List Field) := [[.regex ".*".toList, .priority "1".toList]]

def llvmEntries : List Entry := [.begin, .categories llvmFields, .finish]

def llvmWords : List (String × String) :=
  [("", "---"), ("\n", "IncludeCategories"), ("", ":"), ("\n  ", "-"), (" ", "Regex"), ("", ":"), (" ", "'.*'"),
   ("\n    ", "Priority"), ("", ":"), (" ", "1"), ("\n", "...")]

theorem llvm_written : Written (llvmEntries.flatMap words) llvmText.toList :=
  written_of (llvmWords.map fun p => (p.1.toList, p.2.toList)) ['\n'] (by decide +kernel) (by decide +kernel)
    (by decide +kernel)

def llvmDump : Env := ⟨fun k => if k = .LLVM then some llvmText.toList else none, fun _ => true⟩

def llvmCategories : List Category := [⟨some ".*".toList, 1, 1⟩]

theorem llvm_reads (x : Conf) : ∃ f, Reads llvmDump 1 false true x llvmEntries ⟨f, x.cats ++ llvmCategories⟩ := by
  have h1 := isInt_digit (c := '1') (n := 1) (by decide) (by decide) (by decide)
  exact ⟨_, .begin (.categories (.cons (.regex (patternB_pattern (by decide +kernel)) rfl (.priority h1 .nil)) .nil)
    (.finish .nil))⟩

def basedEntries : List Entry := .option .BasedOnStyle "LLVM".toList :: ownEntries

def basedText : String := "BasedOnStyle: LLVM\n" ++ ownText

theorem based_written : Written (basedEntries.flatMap words) basedText.toList :=
  written_of ((("", "BasedOnStyle") :: ("", ":") :: (" ", "LLVM") :: ("\n", "SortIncludes") :: ownWords.tail).map
    fun p => (p.1.toList, p.2.toList)) ['\n'] (by decide +kernel) (by decide +kernel) (by decide +kernel)

theorem based_reads : ∃ f, Reads llvmDump 0 false true ⟨Spec.default, []⟩ basedEntries
    ⟨f, llvmCategories ++ ownCategories⟩ := by
  obtain ⟨f, h1⟩ := llvm_reads ((⟨Spec.default, []⟩ : Conf).update .BasedOnStyle (.kw .LLVM))
  obtain ⟨f', h2, -⟩ := own_reads (env := llvmDump) (fun _ => rfl)
    ⟨f, ((⟨Spec.default, []⟩ : Conf).update .BasedOnStyle (.kw .LLVM)).cats ++ llvmCategories⟩ false
  exact ⟨f', .base (b := .LLVM) (text := llvmText.toList) (es₁ := llvmEntries)
    (valid_word (k := .BasedOnStyle) (v := .LLVM) (by decide) (by decide) rfl) (by decide) (by decide) rfl
    llvm_written h1 h2⟩

/-- The categories of LLVM come before those of the file, and the last one of them matches every path: whatever
categories a file based on LLVM has, they are never used. -/
theorem C85_based {st : State} (h : Parsed llvmDump (some basedText.toList) st) (rx : List Char → List Char → Bool)
    (hrx : ∀ p, rx ".*".toList p = true) (diff : Bool) (path inc : List Char) :
    Include.Spec.CategoryPrio (includeCfg rx st diff path).categories inc ⟨1, 1⟩ := by
  obtain ⟨f, h1⟩ := based_reads
  rw [includeCfg_categories, categories_reads based_written h1 h]
  exact Or.inl ⟨[], _, _, rfl, by simp, hrx inc, rfl⟩

/-- C85 is false: a file based on LLVM that puts system headers last. -/
theorem C85_statement_false : ¬ C85_statement := by
  intro hs
  obtain ⟨st, hst, -⟩ := style_total llvmDump (some basedText.toList)
  obtain ⟨f, h1⟩ := based_reads
  have h2 := hs llvmDump (fun _ _ => true) _ _ _ ownCategories st false [] "<a.h>".toList ⟨5, 3⟩ based_written h1
    (.other (by simp) (own_cats fun _ => rfl)) hst (Or.inl ⟨[], _, _, rfl, by simp, rfl, rfl⟩)
  have h3 := C85_based hst (fun _ _ => true) (fun _ => rfl) false [] "<a.h>".toList
  have e2 := (Include.stylePriority_spec _ _ _).mpr h2
  rw [(Include.stylePriority_spec _ _ _).mpr h3] at e2
  cases e2

end Knfmt.Style
