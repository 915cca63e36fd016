import Verif.Style.Props
/-!
# The properties of the options in use, and what they leave out
-/
namespace Knfmt.Style

open Knfmt.Style.Spec (IsWord IsNum Value Written Word Numeric Valid Invalid Entry words OtherKey Plain Ignored
  update Reads Sets Means Space Conf)

/-- No style can be dumped, all regular expressions are valid. -/
def noDump : Env := ⟨fun _ => none, fun _ => true⟩

/-- clang-format knows one style. -/
def oneDump : Env :=
  ⟨fun k => if k = .LLVM then some "---\nLanguage: Cpp\nIndentWidth: 2\nUseTab: Never\n...\n".toList else none,
   fun _ => true⟩

/-- The value of an option, if the file can be read. -/
def valueOf (env : Env) (text : String) (k : Kw) : Option Val :=
  (parseBuffer env 100 (some text.toList)).map fun st => style st k

theorem valueOf_parsed {env : Env} {text : String} {k : Kw} {v : Val} (h : valueOf env text k = some v) {st : State}
    (hs : Parsed env (some text.toList) st) : style st k = v := by
  unfold valueOf at h
  cases hp : parseBuffer env 100 (some text.toList) with
  | none => rw [hp] at h; simp at h
  | some s =>
    rw [hp] at h
    simp only [Option.map_some, Option.some.injEq] at h
    rw [parsed_unique ⟨_, hp⟩ hs, h]

/-! ## Hypotheses that are met -/

theorem valid_number {k : Kw} {c : Char} {n : Nat} (hk : Spec.isNumber k = true) (hg : k ≠ .IncludeGuards)
    (hl : k ≠ .ColumnLimit) (hc : '0' ≤ c ∧ c ≤ '9') (hn : c.toNat - 48 = n) : Valid k [c] (.int n) := by
  have hd : Spec.decimal [c] = n := by simp [Spec.decimal, hn]
  have h9 : n ≤ 9 := by
    have h2 : c.toNat ≤ 57 := by
      have := hc.2
      rw [Char.le_def] at this
      exact this
    omega
  have := Valid.number (k := k) (w := [c]) (d := [c]) hk ⟨by simp, by simpa using hc⟩ (Or.inl rfl)
    (by rw [hd]; omega) (fun e => absurd e hg)
  rw [hd] at this
  rwa [show Spec.number k n = .int n by unfold Spec.number; exact if_neg (fun e => hl e.1)] at this

instance (w x : List Char) : Decidable (Word w x) := by unfold Word; infer_instance

theorem valid_tab : Valid .UseTab "Never".toList (.kw .Never) :=
  Valid.named (k := .UseTab) (v := .Never) (by decide) (by decide) (Or.inl rfl)

example {env : Env} {st : State} (h : Parsed env (some "IndentWidth: 4\nUseTab: Never\n".toList) st) :
    style st .IndentWidth = .int 4 ∧ style st .UseTab = .kw .Never ∧ style st .ColumnLimit = .int 80 := by
  have hl := style_lines (l := [(.IndentWidth, "4".toList, .int 4), (.UseTab, "Never".toList, .kw .Never)])
    (by
      intro p hp
      simp only [List.mem_cons, List.not_mem_nil, or_false] at hp
      rcases hp with rfl | rfl
      · exact ⟨rfl, rfl, valid_number rfl (by decide) (by decide) (by decide) rfl, by decide, by decide⟩
      · exact ⟨rfl, rfl, valid_tab, by decide, by decide⟩) h
  exact ⟨hl _, hl _, hl _⟩

/-- A file with most of what it may have. -/
def sample : String :=
  "---\n# ours\nBasedOnStyle: LLVM\nIndentWidth: 4 # wide\nUseTab: sometimes\nFoo: 'a b'\nMacros:\n- A\n- B\n" ++
  "BraceWrapping:\n  AfterClass: true\nBar:\n  Baz: 1\n---\nLanguage: Java\nIndentWidth: 3\n"

def sampleEntries : List Entry :=
  [.begin, .option .BasedOnStyle "LLVM".toList, .option .IndentWidth "4".toList, .option .UseTab "sometimes".toList,
   .other "Foo".toList "'a b'".toList, .list "Macros".toList ["A".toList, "B".toList], .group,
   .option .AfterClass "true".toList, .sub "Bar".toList "Baz".toList "1".toList] ++
  .begin :: .option .Language "Java".toList :: [.option .IndentWidth "3".toList]

def dumpEntries : List Entry :=
  [.begin, .option .Language "Cpp".toList, .option .IndentWidth "2".toList, .option .UseTab "Never".toList, .finish]

theorem isWord_of {c : Char} {s : List Char} (h : (('a' ≤ c ∧ c ≤ 'z') ∨ ('A' ≤ c ∧ c ≤ 'Z') ∨ c = '_'))
    (h2 : ∀ x ∈ s, x ∉ [' ', '\t', '\n', '\x0b', '\x0c', '\r', ':']) : IsWord (c :: s) := ⟨c, s, rfl, h, h2⟩

/-- White space and comments, computed. -/
def spaceB : Bool → List Char → Bool
  | inside, [] => !inside
  | true, c :: s => spaceB (c ≠ '\n') s
  | false, c :: s => if c = '#' then spaceB true s else [' ', '\t', '\n', '\x0c'].contains c && spaceB false s

theorem spaceB_space (s : List Char) : (spaceB false s = true → Space s) ∧
    (spaceB true s = true → ∃ b r, s = b ++ '\n' :: r ∧ '\n' ∉ b ∧ Space r) := by
  induction s with
  | nil => exact ⟨fun _ => .nil, fun h => by simp [spaceB] at h⟩
  | cons c s ih =>
    constructor
    · intro h
      by_cases hc : c = '#'
      · subst hc
        simp only [spaceB, if_true] at h
        obtain ⟨b, r, rfl, hb, hr⟩ := ih.2 h
        exact .comment hb hr
      · simp only [spaceB, if_neg hc, Bool.and_eq_true, List.contains_iff_mem] at h
        exact .blank h.1 (ih.1 h.2)
    · intro h
      by_cases hc : c = '\n'
      · subst hc
        simp only [spaceB, ne_eq, not_true_eq_false, decide_false] at h
        exact ⟨[], s, rfl, by simp, ih.1 h⟩
      · simp only [spaceB, ne_eq, hc, not_false_eq_true, decide_true] at h
        obtain ⟨b, r, rfl, hb, hr⟩ := ih.2 h
        exact ⟨c :: b, r, rfl, by simp [hb, Ne.symm hc], hr⟩

/-- Words and numbers, computed. -/
def wordB : List Char → Bool
  | [] => false
  | c :: s => (('a' ≤ c && c ≤ 'z') || ('A' ≤ c && c ≤ 'Z') || c = '_') &&
      s.all (fun x => !([' ', '\t', '\n', '\x0b', '\x0c', '\r', ':'].contains x)) ||
    (c :: s).all fun x => '0' ≤ x && x ≤ '9'

theorem wordB_value {w : List Char} (h : wordB w = true) : Value w := by
  cases w with
  | nil => simp [wordB] at h
  | cons c s =>
    unfold wordB at h
    simp only [Bool.or_eq_true, Bool.and_eq_true, decide_eq_true_eq, List.all_eq_true, Bool.not_eq_true',
      List.contains_eq_mem, decide_eq_false_iff_not] at h
    rcases h with ⟨h1, h2⟩ | h
    · exact .word ⟨c, s, rfl, by rcases h1 with (h | h) | h <;> simp [h], h2⟩
    · exact .number ⟨by simp, h⟩

/-- Text between quotes, computed. -/
def quotedB (w : List Char) : Bool :=
  w == '\'' :: w.tail.dropLast ++ ['\''] && !w.tail.dropLast.contains '\'' &&
    w.tail.dropLast.head?.all (fun c => !('0' ≤ c && c ≤ '9') && c != '-') &&
    w.tail.dropLast != [':'] && w.tail.dropLast != ['.', '.', '.']

theorem quotedB_value {w : List Char} (h : quotedB w = true) : Value w := by
  unfold quotedB at h
  simp only [Bool.and_eq_true, beq_iff_eq, bne_iff_ne, Bool.not_eq_true', List.contains_eq_mem,
    decide_eq_false_iff_not] at h
  obtain ⟨⟨⟨⟨h1, h2⟩, h3⟩, h4⟩, h5⟩ := h
  rw [h1]
  refine .quoted h2 ?_ (by simp [h4, h5])
  intro c r e
  rw [e] at h3
  simp only [List.head?_cons, Option.all_some, Bool.and_eq_true] at h3
  refine ⟨fun hh => ?_, by simpa using h3.2⟩
  have := h3.1
  rw [decide_eq_true hh.1, decide_eq_true hh.2] at this
  cases this

/-- A text of gaps and words. -/
def join : List (List Char × List Char) → List Char → List Char
  | [], tail => tail
  | (g, w) :: r, tail => g ++ w ++ join r tail

/-- It is written from the words, computed. -/
def joinB : List (List Char × List Char) → List Char → Bool
  | [], tail => spaceB false tail
  | (g, w) :: r, tail => spaceB false g && joinB r tail &&
    (w = [':'] && (join r tail).head? ≠ some ':' ||
      (wordB w || w = ['-'] || w = ['-', '-', '-'] || w = ['.', '.', '.'] || quotedB w) &&
        match (join r tail).head? with
        | some c => [' ', '\t', '\n', '\x0c', '\r', ':'].contains c
        | none => false)

theorem joinB_written (l : List (List Char × List Char)) (tail : List Char) (h : joinB l tail = true) :
    Written (l.map (·.2)) (join l tail) := by
  induction l with
  | nil => exact .nil ((spaceB_space _).1 h)
  | cons p l ih =>
    obtain ⟨g, w⟩ := p
    simp only [joinB, Bool.and_eq_true] at h
    obtain ⟨⟨h1, h2⟩, h3⟩ := h
    have hg := (spaceB_space g).1 h1
    have hr := ih h2
    simp only [Bool.or_eq_true, Bool.and_eq_true, decide_eq_true_eq] at h3
    rcases h3 with ⟨rfl, h4⟩ | ⟨h4, h5⟩
    · have := Written.colon hg hr h4
      simpa [join] using this
    · refine .word hg ?_ hr (Or.inr ?_)
      · rcases h4 with (((h | h) | h) | h) | h
        · exact Or.inl (wordB_value h)
        · exact Or.inr (by subst h; simp)
        · exact Or.inr (by subst h; simp)
        · exact Or.inr (by subst h; simp)
        · exact Or.inl (quotedB_value h)
      · cases hh : (join l tail).head? with
        | none => rw [hh] at h5; simp at h5
        | some c =>
          rw [hh] at h5
          exact ⟨c, by simpa using h5, rfl⟩

theorem written_of (l : List (List Char × List Char)) (tail : List Char) {ws : List (List Char)} {text : List Char}
    (h : joinB l tail = true) (e1 : l.map (·.2) = ws) (e2 : join l tail = text) : Written ws text := by
  subst e1
  subst e2
  exact joinB_written l tail h

def sampleWords : List (String × String) :=
  [("", "---"), ("\n# ours\n", "BasedOnStyle"), ("", ":"), (" ", "LLVM"), ("\n", "IndentWidth"), ("", ":"),
   (" ", "4"), (" # wide\n", "UseTab"), ("", ":"), (" ", "sometimes"), ("\n", "Foo"), ("", ":"),
   (" ", "'a b'"), ("\n", "Macros"), ("", ":"), ("\n", "-"), (" ", "A"), ("\n", "-"), (" ", "B"),
   ("\n", "BraceWrapping"), ("", ":"), ("\n  ", "AfterClass"), ("", ":"), (" ", "true"), ("\n", "Bar"),
   ("", ":"), ("\n  ", "Baz"), ("", ":"), (" ", "1"), ("\n", "---"), ("\n", "Language"), ("", ":"),
   (" ", "Java"), ("\n", "IndentWidth"), ("", ":"), (" ", "3")]

def dumpWords : List (String × String) :=
  [("", "---"), ("\n", "Language"), ("", ":"), (" ", "Cpp"), ("\n", "IndentWidth"), ("", ":"), (" ", "2"),
   ("\n", "UseTab"), ("", ":"), (" ", "Never"), ("\n", "...")]

theorem sample_written : Written (sampleEntries.flatMap words) sample.toList :=
  written_of (sampleWords.map fun p => (p.1.toList, p.2.toList)) ['\n'] (by decide +kernel) (by decide +kernel)
    (by decide +kernel)

theorem dump_written : Written (dumpEntries.flatMap words) "---\nLanguage: Cpp\nIndentWidth: 2\nUseTab: Never\n...\n".toList :=
  written_of (dumpWords.map fun p => (p.1.toList, p.2.toList)) ['\n'] (by decide +kernel) (by decide +kernel)
    (by decide +kernel)

theorem dump_reads (f : Conf) : Reads oneDump 1 false true f dumpEntries
    (((f.update .Language (.kw .Cpp)).update .IndentWidth (.int 2)).update .UseTab (.kw .Never)) := by
  refine .begin (.set rfl rfl (v := .kw .Cpp) ?_ (fun _ => rfl) (fun e => by cases e) ?_)
  · exact Valid.named (k := .Language) (v := .Cpp) (by decide) (by decide) (Or.inl rfl)
  · refine .set rfl rfl (valid_number rfl (by decide) (by decide) (by decide) rfl) (fun e => by cases e)
      (fun e => by cases e) ?_
    exact .set rfl rfl valid_tab (fun e => by cases e) (fun e => by cases e) (.finish .nil)

theorem isWord_bool {w : List Char} (h : wordB w = true) (h2 : w.head?.any (fun c => !('0' ≤ c && c ≤ '9')) = true) :
    IsWord w := by
  cases w with
  | nil => simp [wordB] at h
  | cons c s =>
    unfold wordB at h
    simp only [Bool.or_eq_true, Bool.and_eq_true, decide_eq_true_eq, List.all_eq_true, Bool.not_eq_true',
      List.contains_eq_mem, decide_eq_false_iff_not] at h
    rcases h with ⟨h1, h3⟩ | h
    · exact ⟨c, s, rfl, by rcases h1 with (h | h) | h <;> simp [h], h3⟩
    · have := h c (by simp)
      simp [this] at h2

theorem otherKey_bool {w : List Char} (h : wordB w = true)
    (h2 : w.head?.any (fun c => !('0' ≤ c && c ≤ '9')) = true) (h3 : all.all (fun k => w ≠ Spec.name k) = true) :
    OtherKey w := by
  refine ⟨isWord_bool h h2, fun k _ => ?_⟩
  have := List.all_eq_true.mp h3 k (mem_all k)
  simpa using this

/-- The values the sample gives. -/
def sampleValues : Kw → Val :=
  update (update (update (update (update (update Spec.default .BasedOnStyle (.kw .LLVM)) .Language (.kw .Cpp))
    .IndentWidth (.int 2)) .UseTab (.kw .Never)) .IndentWidth (.int 4)) .AfterClass (.kw .True)

theorem sample_reads : Reads oneDump 0 false true ⟨Spec.default, []⟩ sampleEntries ⟨sampleValues, []⟩ := by
  refine .begin (.base (b := .LLVM) (text := "---\nLanguage: Cpp\nIndentWidth: 2\nUseTab: Never\n...\n".toList)
    (es₁ := dumpEntries) ?_ (by decide) (by decide) rfl dump_written (dump_reads _) ?_)
  · exact Valid.named (k := .BasedOnStyle) (v := .LLVM) (by decide) (by decide) (Or.inl rfl)
  refine .set rfl rfl (valid_number rfl (by decide) (by decide) (by decide) rfl) (fun e => by cases e)
    (fun e => by cases e) ?_
  refine .invalid (fun e => by cases e) rfl (by decide) (Or.inl (by decide)) ?_ ?_
  · refine ⟨wordB_value (by decide), ?_, fun e => ?_, ?_, ?_⟩
    · decide
    · cases e
    · decide
    · decide
  refine .ignored (.other (otherKey_bool (by decide) (by decide) (by decide +kernel)) ⟨?_, by decide⟩) ?_
  · refine .quoted (s := ['a', ' ', 'b']) (by decide) ?_ (by decide)
    intro c r e
    injection e with e _
    subst e
    decide
  refine .ignored (.list (otherKey_bool (by decide) (by decide) (by decide +kernel)) (by simp) ?_) ?_
  · intro w hw
    simp only [List.mem_cons, List.not_mem_nil, or_false] at hw
    rcases hw with rfl | rfl
    · exact ⟨wordB_value (by decide), by decide⟩
    · exact ⟨wordB_value (by decide), by decide⟩
  refine .group (.brace rfl (v := .kw .True) ?_ ?_)
  · exact Valid.named (k := .AfterClass) (v := .True) (by decide) (by decide) (Or.inl rfl)
  refine .ignored (.sub (otherKey_bool (by decide) (by decide) (by decide +kernel)) (isWord_bool (by decide) (by decide))
    (by decide) ⟨wordB_value (by decide), by decide⟩) ?_
  refine .begin (.last (wordB_value (by decide)) (by decide) (by decide) ?_)
  decide

example {st : State} (h : Parsed oneDump (some sample.toList) st) :
    style st .IndentWidth = .int 4 ∧ style st .UseTab = .kw .Never ∧ style st .AfterClass = .kw .True ∧
      style st .ColumnLimit = .int 80 :=
  have := style_reads sample_written sample_reads h
  ⟨this _, this _, this _, this _⟩

/-! ## What is not so -/

/-- A byte that means nothing to it anywhere in the file, here a brace: all options of the file are ignored,
also the ones before it. -/
theorem byte_ignores_all {env : Env} {text : List Char} {st : State} (ht : tokenize text = none)
    (h : Parsed env (some text) st) (k : Kw) : style st k = Spec.default k := by
  obtain ⟨n, h⟩ := h
  simp only [parseBuffer, parseYaml, ht, Option.map_some, Option.some.injEq] at h
  subst h
  rw [← default_eq]
  rfl

theorem byte_example : valueOf noDump "IndentWidth: 4\nMacros: {}\n" .IndentWidth = some (.int 8) ∧
    valueOf noDump "IndentWidth: 4\nMacros: A\n" .IndentWidth = some (.int 4) := by
  constructor <;> decide +kernel

/-- A number that is not valid is used, modulo 2³². -/
theorem negative_number : valueOf noDump "IndentWidth: -1\n" .IndentWidth = some (.int 4294967295) := by
  decide +kernel

theorem large_number : valueOf noDump "IndentWidth: 4294967298\n" .IndentWidth = some (.int 4294967290) := by
  decide +kernel

/-- The word is read as a number. -/
theorem integer_word : valueOf noDump "IndentWidth: Integer\n" .IndentWidth = some (.int 0) := by
  decide +kernel

/-- Not all invalid values are ignored. -/
theorem style_invalid_false : ¬ ∀ (env : Env) (text : List Char) (st : State), Parsed env (some text) st →
    (∀ w, (∃ p q, text = p ++ "IndentWidth: ".toList ++ w ++ '\n' :: q) → ¬ IsNum w) →
    style st .IndentWidth = Spec.default .IndentWidth := by
  intro h
  obtain ⟨st, hs, -⟩ := style_total noDump (some "IndentWidth: Integer\n".toList)
  have h1 := h noDump _ st hs (by
    rintro w ⟨p, q, e⟩ ⟨hw, hd⟩
    have hl := congrArg List.length e
    have h0 : p.length + w.length + q.length = 7 := by
      simp only [List.length_append, List.length_cons] at hl
      have h1 : "IndentWidth: Integer\n".toList.length = 21 := by decide
      have h2 : "IndentWidth: ".toList.length = 13 := by decide
      omega
    obtain ⟨c, w', rfl⟩ : ∃ c w', w = c :: w' := by
      cases w with
      | nil => exact absurd rfl hw
      | cons c w' => exact ⟨c, w', rfl⟩
    have hc := hd c (by simp)
    have hm : c ∈ "IndentWidth: Integer\n".toList := by rw [e]; simp
    have : ∀ c ∈ "IndentWidth: Integer\n".toList, ¬ ('0' ≤ c ∧ c ≤ '9') := by decide
    exact this c hm hc)
  rw [valueOf_parsed integer_word hs] at h1
  exact absurd h1 (by decide)

/-- The documented way to have no include guards ends the file: what follows is ignored. -/
theorem no_guards_ends : valueOf noDump "IncludeGuards: 0\nIndentWidth: 4\n" .IndentWidth = some (.int 8) ∧
    valueOf noDump "IncludeGuards: 1\nIndentWidth: 4\n" .IndentWidth = some (.int 4) := by
  constructor <;> decide +kernel

/-- As does an option of a group outside of it. -/
theorem outside_group_ends : valueOf noDump "AfterClass: true\nIndentWidth: 4\n" .IndentWidth = some (.int 8) := by
  decide +kernel

/-- The manual says that the value is the same as `Never`; the value before it is kept. -/
theorem case_insensitive_kept :
    valueOf noDump "SortIncludes: CaseSensitive\nSortIncludes: CaseInsensitive\n" .SortIncludes =
      some (.kw .CaseSensitive) := by
  decide +kernel

/-- A language named within a list is taken for the language of the document: the options after it are
ignored. clang-format writes such a list for Google's style. -/
theorem language_in_list :
    valueOf noDump "RawStringFormats:\n  - Language: TextProto\nUseTab: Never\n" .UseTab = some (.kw .Always) := by
  decide +kernel

/-- C63, in full: an option with a valid value on a line of its own has that value, if the option is not on
another line. It is not so; `style_reads` says for which files it is. -/
theorem style_line_false : ¬ ∀ (env : Env) (pre post : List Char) (st : State),
    Parsed env (some (pre ++ "\nUseTab: Never\n".toList ++ post)) st →
    (∀ p q, pre ≠ p ++ "UseTab".toList ++ q) → (∀ p q, post ≠ p ++ "UseTab".toList ++ q) →
    style st .UseTab = .kw .Never := by
  intro h
  obtain ⟨st, hs, -⟩ := style_total noDump (some ("IncludeGuards: 0".toList ++ "\nUseTab: Never\n".toList ++ []))
  have h1 := h noDump "IncludeGuards: 0".toList [] st hs (by
    intro p q e
    have hm : 'U' ∈ "IncludeGuards: 0".toList := by rw [e]; simp
    exact absurd hm (by decide)) (by intro p q e; simp at e)
  have h2 : valueOf noDump "IncludeGuards: 0\nUseTab: Never\n" .UseTab = some (.kw .Always) := by decide +kernel
  rw [valueOf_parsed (text := "IncludeGuards: 0\nUseTab: Never\n") h2 hs] at h1
  exact absurd h1 (by decide)

/-! ## Braces -/

/-- C63: `Linux` puts the brace of a function on a line of its own. -/
theorem braces_linux {st : State} (h : style st .BreakBeforeBraces = .kw .Linux) :
    braceWrapping st .AfterFunction = true := by
  unfold style at h
  unfold braceWrapping
  simp [h]

/-- C63: in all other cases the options in `BraceWrapping` say where braces go. -/
theorem braces_custom {st : State} {k : Kw} (h : style st .BreakBeforeBraces ≠ .kw .Linux ∨ k ≠ .AfterFunction) :
    braceWrapping st k = true ↔ style st k = .kw .True := by
  unfold style at h ⊢
  unfold braceWrapping
  rcases h with h | h
  · simp [h]
  · simp [h]

example : ∃ st, Parsed noDump none st ∧ braceWrapping st .AfterFunction = true ∧
    ¬ braceWrapping st .AfterClass = true := by
  refine ⟨_, ⟨0, rfl⟩, ?_, ?_⟩ <;> decide

end Knfmt.Style
