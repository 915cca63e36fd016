/-!
# style.c: reading .clang-format

Bytes are `Char`s with code below 256. Diagnostics are not modelled, they change nothing else: see
`Verif.Sys.Error` for when they are shown.
-/
namespace Knfmt.Style

/-- `enum style_keyword`, style.h:8-110. -/
inductive Kw where
  | After | Align | AlignAfterOpenBracket | AlignAfterOperator | AlignEscapedNewlines
  | AlignOperands | AlignWithSpaces | All | AllDefinitions | Always | AlwaysBreak
  | AlwaysBreakAfterReturnType | BasedOnStyle | Chromium | Google | InheritParentConfig | LLVM
  | Microsoft | OpenBSD | Before | BitFieldColonSpacing | BlockIndent | Both | BraceWrapping
  | AfterCaseLabel | AfterClass | AfterControlStatement | AfterEnum | AfterExternBlock
  | AfterFunction | AfterNamespace | AfterObjCDeclaration | AfterStruct | AfterUnion
  | BeforeCatch | BeforeElse | BeforeLambdaBody | BeforeWhile | IndentBraces
  | SplitEmptyFunction | SplitEmptyNamespace | SplitEmptyRecord | BreakBeforeBinaryOperators
  | Allman | Attach | Custom | GNU | Linux | Mozilla | Stroustrup | WebKit | Whitesmiths
  | BreakBeforeBraces | BreakBeforeTernaryOperators | CaseInsensitive | CaseSensitive
  | ColumnLimit | ContinuationIndentWidth | DontAlign | False | ForContinuationAndIndentation
  | ForIndentation | IncludeBlocks | Merge | Preserve | Regroup | IncludeCategories
  | IncludeGuards | IndentWidth | Language | Cpp | CSharp | Java | JavaScript | Json | ObjC
  | Proto | TableGen | TextProto | Verilog | Left | MultiLine | Never | NonAssignment | None
  | Priority | Regex | Right | SortIncludes | SortPriority | TopLevel | TopLevelDefinitions
  | True | UseTab
deriving DecidableEq, Repr

/-- The types of tokens: a keyword, `enum yaml_type`, style.c:45-59, or `LEXER_EOF`. -/
inductive Ty where
  | kw (k : Kw)
  | docBegin | docEnd | colon | seq | str | int | unknown | eof
deriving DecidableEq, Repr

/-- The functions `so_parse` may point to. -/
inductive Parse where
  | bool | enum | integer | nested | alignOperands | basedOnStyle | columnLimit | includeCategories
  | includeGuards | priority | regex
deriving DecidableEq, Repr

/-- `struct style_option`, style.c:85-93. -/
structure Opt where
  scope : Option Kw
  key : List Char
  ty : Ty
  parse : Option Parse
  vals : List Kw
deriving DecidableEq, Repr

/-- The table of `style_init`, style.c:169-305. -/
def table : List Opt :=
  [ ⟨none, "AlignAfterOpenBracket".toList, .kw .AlignAfterOpenBracket, some .enum, [.Align, .DontAlign, .AlwaysBreak, .BlockIndent]⟩,
    ⟨none, "AlignEscapedNewlines".toList, .kw .AlignEscapedNewlines, some .enum, [.DontAlign, .Left, .Right]⟩,
    ⟨none, "AlignOperands".toList, .kw .AlignOperands, some .alignOperands, [.Align, .DontAlign, .AlignAfterOperator, .True, .False]⟩,
    ⟨none, "AlwaysBreakAfterReturnType".toList, .kw .AlwaysBreakAfterReturnType, some .enum, [.None, .All, .TopLevel, .AllDefinitions, .TopLevelDefinitions]⟩,
    ⟨none, "BitFieldColonSpacing".toList, .kw .BitFieldColonSpacing, some .enum, [.Both, .None, .Before, .After]⟩,
    ⟨none, "BasedOnStyle".toList, .kw .BasedOnStyle, some .basedOnStyle, [.LLVM, .Google, .Chromium, .Mozilla, .WebKit, .Microsoft, .GNU, .InheritParentConfig, .OpenBSD]⟩,
    ⟨none, "BraceWrapping".toList, .kw .BraceWrapping, some .nested, []⟩,
    ⟨(some .BraceWrapping), "AfterCaseLabel".toList, .kw .AfterCaseLabel, some .bool, []⟩,
    ⟨(some .BraceWrapping), "AfterClass".toList, .kw .AfterClass, some .bool, []⟩,
    ⟨(some .BraceWrapping), "AfterControlStatement".toList, .kw .AfterControlStatement, some .enum, [.Never, .MultiLine, .Always, .True, .False]⟩,
    ⟨(some .BraceWrapping), "AfterEnum".toList, .kw .AfterEnum, some .bool, []⟩,
    ⟨(some .BraceWrapping), "AfterExternBlock".toList, .kw .AfterExternBlock, some .bool, []⟩,
    ⟨(some .BraceWrapping), "AfterFunction".toList, .kw .AfterFunction, some .bool, []⟩,
    ⟨(some .BraceWrapping), "AfterNamespace".toList, .kw .AfterNamespace, some .bool, []⟩,
    ⟨(some .BraceWrapping), "AfterObjCDeclaration".toList, .kw .AfterObjCDeclaration, some .bool, []⟩,
    ⟨(some .BraceWrapping), "AfterStruct".toList, .kw .AfterStruct, some .bool, []⟩,
    ⟨(some .BraceWrapping), "AfterUnion".toList, .kw .AfterUnion, some .bool, []⟩,
    ⟨(some .BraceWrapping), "BeforeCatch".toList, .kw .BeforeCatch, some .bool, []⟩,
    ⟨(some .BraceWrapping), "BeforeElse".toList, .kw .BeforeElse, some .bool, []⟩,
    ⟨(some .BraceWrapping), "BeforeLambdaBody".toList, .kw .BeforeLambdaBody, some .bool, []⟩,
    ⟨(some .BraceWrapping), "BeforeWhile".toList, .kw .BeforeWhile, some .bool, []⟩,
    ⟨(some .BraceWrapping), "IndentBraces".toList, .kw .IndentBraces, some .bool, []⟩,
    ⟨(some .BraceWrapping), "SplitEmptyFunction".toList, .kw .SplitEmptyFunction, some .bool, []⟩,
    ⟨(some .BraceWrapping), "SplitEmptyNamespace".toList, .kw .SplitEmptyNamespace, some .bool, []⟩,
    ⟨(some .BraceWrapping), "SplitEmptyRecord".toList, .kw .SplitEmptyRecord, some .bool, []⟩,
    ⟨none, "BreakBeforeBinaryOperators".toList, .kw .BreakBeforeBinaryOperators, some .enum, [.None, .NonAssignment, .All]⟩,
    ⟨none, "BreakBeforeBraces".toList, .kw .BreakBeforeBraces, some .enum, [.Attach, .Linux, .Mozilla, .Stroustrup, .Allman, .Whitesmiths, .GNU, .WebKit, .Custom]⟩,
    ⟨none, "BreakBeforeTernaryOperators".toList, .kw .BreakBeforeTernaryOperators, some .bool, []⟩,
    ⟨none, "ColumnLimit".toList, .kw .ColumnLimit, some .columnLimit, []⟩,
    ⟨none, "ContinuationIndentWidth".toList, .kw .ContinuationIndentWidth, some .integer, []⟩,
    ⟨none, "IncludeBlocks".toList, .kw .IncludeBlocks, some .enum, [.Merge, .Preserve, .Regroup]⟩,
    ⟨none, "IncludeCategories".toList, .kw .IncludeCategories, some .includeCategories, []⟩,
    ⟨(some .IncludeCategories), "CaseSensitive".toList, .kw .CaseSensitive, some .bool, []⟩,
    ⟨(some .IncludeCategories), "Priority".toList, .kw .Priority, some .priority, []⟩,
    ⟨(some .IncludeCategories), "Regex".toList, .kw .Regex, some .regex, []⟩,
    ⟨(some .IncludeCategories), "SortPriority".toList, .kw .SortPriority, some .priority, []⟩,
    ⟨none, "IncludeGuards".toList, .kw .IncludeGuards, some .includeGuards, []⟩,
    ⟨none, "IndentWidth".toList, .kw .IndentWidth, some .integer, []⟩,
    ⟨none, "Language".toList, .kw .Language, some .enum, [.Cpp, .CSharp, .Java, .JavaScript, .Json, .ObjC, .Proto, .TableGen, .TextProto, .Verilog]⟩,
    ⟨none, "SortIncludes".toList, .kw .SortIncludes, some .enum, [.Never, .CaseSensitive, .CaseInsensitive]⟩,
    ⟨none, "UseTab".toList, .kw .UseTab, some .enum, [.Never, .ForIndentation, .ForContinuationAndIndentation, .AlignWithSpaces, .Always]⟩,
    ⟨none, "After".toList, .kw .After, none, []⟩,
    ⟨none, "Align".toList, .kw .Align, none, []⟩,
    ⟨none, "AlignAfterOperator".toList, .kw .AlignAfterOperator, none, []⟩,
    ⟨none, "AlignWithSpaces".toList, .kw .AlignWithSpaces, none, []⟩,
    ⟨none, "All".toList, .kw .All, none, []⟩,
    ⟨none, "AllDefinitions".toList, .kw .AllDefinitions, none, []⟩,
    ⟨none, "Allman".toList, .kw .Allman, none, []⟩,
    ⟨none, "Always".toList, .kw .Always, none, []⟩,
    ⟨none, "AlwaysBreak".toList, .kw .AlwaysBreak, none, []⟩,
    ⟨none, "Attach".toList, .kw .Attach, none, []⟩,
    ⟨none, "Before".toList, .kw .Before, none, []⟩,
    ⟨none, "BlockIndent".toList, .kw .BlockIndent, none, []⟩,
    ⟨none, "Both".toList, .kw .Both, none, []⟩,
    ⟨none, "CSharp".toList, .kw .CSharp, none, []⟩,
    ⟨none, "Chromium".toList, .kw .Chromium, none, []⟩,
    ⟨none, "Cpp".toList, .kw .Cpp, none, []⟩,
    ⟨none, "Custom".toList, .kw .Custom, none, []⟩,
    ⟨none, "DontAlign".toList, .kw .DontAlign, none, []⟩,
    ⟨none, "ForContinuationAndIndentation".toList, .kw .ForContinuationAndIndentation, none, []⟩,
    ⟨none, "ForIndentation".toList, .kw .ForIndentation, none, []⟩,
    ⟨none, "GNU".toList, .kw .GNU, none, []⟩,
    ⟨none, "Google".toList, .kw .Google, none, []⟩,
    ⟨none, "InheritParentConfig".toList, .kw .InheritParentConfig, none, []⟩,
    ⟨none, "Java".toList, .kw .Java, none, []⟩,
    ⟨none, "JavaScript".toList, .kw .JavaScript, none, []⟩,
    ⟨none, "Json".toList, .kw .Json, none, []⟩,
    ⟨none, "LLVM".toList, .kw .LLVM, none, []⟩,
    ⟨none, "Left".toList, .kw .Left, none, []⟩,
    ⟨none, "Linux".toList, .kw .Linux, none, []⟩,
    ⟨none, "Merge".toList, .kw .Merge, none, []⟩,
    ⟨none, "Microsoft".toList, .kw .Microsoft, none, []⟩,
    ⟨none, "Mozilla".toList, .kw .Mozilla, none, []⟩,
    ⟨none, "MultiLine".toList, .kw .MultiLine, none, []⟩,
    ⟨none, "Never".toList, .kw .Never, none, []⟩,
    ⟨none, "NonAssignment".toList, .kw .NonAssignment, none, []⟩,
    ⟨none, "None".toList, .kw .None, none, []⟩,
    ⟨none, "ObjC".toList, .kw .ObjC, none, []⟩,
    ⟨none, "OpenBSD".toList, .kw .OpenBSD, none, []⟩,
    ⟨none, "Preserve".toList, .kw .Preserve, none, []⟩,
    ⟨none, "Proto".toList, .kw .Proto, none, []⟩,
    ⟨none, "Regroup".toList, .kw .Regroup, none, []⟩,
    ⟨none, "Right".toList, .kw .Right, none, []⟩,
    ⟨none, "Stroustrup".toList, .kw .Stroustrup, none, []⟩,
    ⟨none, "TableGen".toList, .kw .TableGen, none, []⟩,
    ⟨none, "TextProto".toList, .kw .TextProto, none, []⟩,
    ⟨none, "TopLevel".toList, .kw .TopLevel, none, []⟩,
    ⟨none, "TopLevelDefinitions".toList, .kw .TopLevelDefinitions, none, []⟩,
    ⟨none, "Verilog".toList, .kw .Verilog, none, []⟩,
    ⟨none, "WebKit".toList, .kw .WebKit, none, []⟩,
    ⟨none, "Whitesmiths".toList, .kw .Whitesmiths, none, []⟩,
    ⟨none, ":".toList, .colon, none, []⟩,
    ⟨none, "---".toList, .docBegin, none, []⟩,
    ⟨none, "...".toList, .docEnd, none, []⟩,
    ⟨none, "false".toList, .kw .False, none, []⟩,
    ⟨none, "Integer".toList, .int, none, []⟩,
    ⟨none, "-".toList, .seq, none, []⟩,
    ⟨none, "true".toList, .kw .True, none, []⟩ ]

/-- `yaml_find_keyword`, style.c:957-973: the first entry with the given text. The slots of
`style_init`, style.c:313-327, keep the order of entries with the same first byte. -/
def find (s : List Char) : Option Opt := table.find? fun e => e.key = s

/-- `struct token` and `struct yaml_token`, style.c:95-101. The member `so` is not stored, it can be
told from the type: see `Tok.so`. -/
structure Tok where
  ty : Ty
  text : List Char
  int : Int := 0
deriving DecidableEq, Repr

/-- The member `so` of `struct yaml_token` as set by `yaml_keyword`, style.c:949-950. No two entries
of the table have the same type. -/
def Tok.so (t : Tok) : Option Opt := table.find? fun e => e.ty = t.ty && e.parse.isSome

/-! ## Tokens

The state of the lexer is what is left of the input, positions are not modelled. At the end of it
`lexer_getc` gives a NUL once, lexer.c:187-214, and from then on `lexer_ungetc` does nothing,
lexer.c:216-231. The comments below say where this matters. -/

/-- `isspace` in the C locale. -/
def isSpace (c : Char) : Bool :=
  c = ' ' || c = '\t' || c = '\n' || c = '\x0b' || c = '\x0c' || c = '\r'

/-- `isalpha` in the C locale. -/
def isAlpha (c : Char) : Bool := ('a' ≤ c && c ≤ 'z') || ('A' ≤ c && c ≤ 'Z')

/-- `isdigit`. -/
def isDigit (c : Char) : Bool := '0' ≤ c && c ≤ '9'

/-- The loop of `lexer_eat_lines`, lexer.c:926-939, with a threshold of 0: what is left after the
last newline, or `old` if there is none. -/
def eatLines (old : List Char) : List Char → List Char
  | [] => old
  | c :: s =>
    if c = '\n' then eatLines s s
    else if c = '\r' || c = ' ' || c = '\t' then eatLines old s
    else old

/-- `lexer_eat_spaces`, lexer.c:953-967. -/
def eatSpaces (s : List Char) : List Char := s.dropWhile fun c => c = ' ' || c = '\x0c' || c = '\t'

theorem eatLines_le (s old : List Char) (h : s.length ≤ old.length) :
    (eatLines old s).length ≤ old.length := by
  induction s generalizing old with
  | nil => exact Nat.le_refl _
  | cons c s ih =>
    simp only [List.length_cons] at h
    rw [eatLines]
    split
    · exact Nat.le_trans (ih s (Nat.le_refl _)) (by omega)
    · split
      · exact ih old (by omega)
      · exact Nat.le_refl _

theorem eatSpaces_le (s : List Char) : (eatSpaces s).length ≤ s.length :=
  (List.dropWhile_suffix _).length_le

/-- `lexer_eat_lines_and_spaces`, lexer.c:897-915. No lines were eaten if nothing is gone, since a
newline would be. -/
def skip (got : Bool) (s : List Char) : List Char :=
  let l := eatLines s s
  if l = s ∧ got = true then l
  else
    let r := eatSpaces l
    if _h : r.length < l.length then skip true r
    else l
termination_by s.length
decreasing_by exact Nat.lt_of_lt_of_le _h (eatLines_le s s (Nat.le_refl _))

theorem skip_le (got : Bool) (s : List Char) : (skip got s).length ≤ s.length := by
  induction got, s using skip.induct with
  | case1 got s l h => rw [skip, if_pos h]; exact eatLines_le s s (Nat.le_refl _)
  | case2 got s l h r hr ih =>
    rw [skip, if_neg h]
    simp only
    rw [dif_pos hr]
    exact Nat.le_trans ih (Nat.le_trans (Nat.le_of_lt hr) (eatLines_le s s (Nat.le_refl _)))
  | case3 got s l h r hr =>
    rw [skip, if_neg h]
    simp only
    rw [dif_neg hr]
    exact eatLines_le s s (Nat.le_refl _)

/-- A result as stored by the overflow builtins, libks/arithmetic.h:49-77, in an `int32_t`. -/
def wrap (x : Int) : Int := Int.bmod x 4294967296

/-- The loop over the digits in `yaml_read_integer`, style.c:874-883: the digit is not added if the
multiplication overflows. The fallback without builtins is not modelled. -/
def digits (i : Int) : List Char → Int
  | [] => i
  | c :: s =>
    let p := wrap (i * 10)
    digits (if p ≠ i * 10 then p else wrap (p + ((c.toNat - 48 : Nat) : Int))) s

/-- `yaml_read_integer`, style.c:874-896, from the first digit on. If `string` is set one byte after
the digits is not given back. -/
def integerRest (string : Bool) (sign : Int) (s : List Char) : Int × List Char :=
  let d := s.takeWhile isDigit
  let r := s.dropWhile isDigit
  (wrap (digits 0 d * sign), if string then r.drop 1 else r)

/-- `yaml_read_integer`, style.c:859-872, after the optional quote; `s₀` is where it started. A dash
at the end of the input is gone, since nothing is given back there. -/
def integerBody (string : Bool) (s₀ : List Char) : List Char → Option Int × List Char
  | [] => (none, [])
  | c :: s =>
    if isDigit c then ((integerRest string 1 (c :: s)).1, (integerRest string 1 (c :: s)).2)
    else if c = '-' then
      match s with
      | [] => (none, [])
      | d :: s =>
        if isDigit d then ((integerRest string (-1) (d :: s)).1, (integerRest string (-1) (d :: s)).2)
        else (none, s₀)
    else (none, s₀)

/-- `yaml_read_integer`, style.c:838-897: the value, if any, and what is left. -/
def readInteger (s : List Char) : Option Int × List Char :=
  match s with
  | '\'' :: t => integerBody true s t
  | _ => integerBody false s s

/-- What `yaml_read` returns. -/
inductive Read where
  | tok (t : Tok) (rest : List Char)
  | eof
  /-- An unknown byte. -/
  | bad
deriving DecidableEq, Repr

/-- `yaml_keyword`, style.c:933-955. -/
def keyword (s : List Char) : Tok :=
  if s = [] then ⟨.unknown, s, 0⟩
  else
    match find s with
    | none => ⟨.unknown, s, 0⟩
    | some e => ⟨e.ty, s, 0⟩

/-- What is left after the first newline: the loop over a comment, style.c:778-784. -/
def afterLine : List Char → Option (List Char)
  | [] => none
  | c :: s => if c = '\n' then some s else afterLine s

/-- The text up to the next quote, and what is left after it: style.c:808-816. -/
def quoted : List Char → Option (List Char × List Char)
  | [] => none
  | c :: s => if c = '\'' then some ([], s) else (quoted s).map fun r => (c :: r.1, r.2)

theorem afterLine_lt {s r : List Char} (h : afterLine s = some r) : r.length < s.length := by
  induction s with
  | nil => simp [afterLine] at h
  | cons c s ih =>
    rw [afterLine] at h
    split at h
    · simp only [Option.some.injEq] at h; subst h; simp
    · exact Nat.lt_succ_of_lt (ih h)

/-- A quoted text is a keyword, style.c:817-823, or a string. -/
def quotedTok (s : List Char) : Tok :=
  if (keyword s).ty = .unknown then ⟨.str, s, 0⟩ else keyword s

theorem integerBody_le (string : Bool) (s₀ s : List Char) (h : s.length ≤ s₀.length) :
    (integerBody string s₀ s).2.length ≤ s₀.length := by
  have hd : ∀ (l : List Char), (integerRest string 1 l).2.length ≤ l.length ∧
      (integerRest string (-1) l).2.length ≤ l.length := by
    intro l
    have := (List.dropWhile_suffix isDigit (l := l)).length_le
    simp only [integerRest]
    constructor <;> (split <;> (try simp only [List.length_drop]) <;> omega)
  unfold integerBody
  split
  · simp
  · next c s =>
    split
    · exact Nat.le_trans (hd _).1 h
    · split
      · split
        · simp
        · next d s =>
          split
          · exact Nat.le_trans (hd _).2 (by simp only [List.length_cons] at h ⊢; omega)
          · exact Nat.le_refl _
      · exact Nat.le_refl _

theorem readInteger_le (s : List Char) : (readInteger s).2.length ≤ s.length := by
  unfold readInteger
  split
  · next t => exact integerBody_le true _ t (by simp)
  · exact integerBody_le false s s (Nat.le_refl _)

/-- The bytes of a word, style.c:788-794. -/
def wordChar (c : Char) : Bool := !isSpace c && c ≠ ':'

/-- `yaml_read`, style.c:760-836. A word goes on to the end of the input if nothing else ends it,
since the NUL read there does not. The jump to `again`, style.c:785, is the recursive call. -/
def read (s : List Char) : Read :=
  match _h0 : readInteger (skip false s) with
  | (some i, r) => .tok ⟨.int, (skip false s).take ((skip false s).length - r.length), i⟩ r
  | (none, []) => .eof
  | (none, c :: t) =>
    if c = '#' then
      match _h : afterLine t with
      | none => .eof
      | some r => read r
    else if isAlpha c || c = '_' then
      .tok (keyword (c :: t.takeWhile wordChar)) (t.dropWhile wordChar)
    else if c = '-' || c = '.' || c = ':' then
      .tok (keyword (c :: t.takeWhile (· = c))) (t.dropWhile (· = c))
    else if c = '\'' then
      match quoted t with
      | none => .eof
      | some (b, r) => .tok (quotedTok b) r
    else .bad
termination_by s.length
decreasing_by
  have h1 := afterLine_lt _h
  have h2 := readInteger_le (skip false s)
  have h3 := skip_le false s
  rw [_h0] at h2
  simp only [List.length_cons] at h2
  omega

theorem quoted_lt {s b r : List Char} (h : quoted s = some (b, r)) : r.length < s.length := by
  induction s generalizing b with
  | nil => simp [quoted] at h
  | cons c s ih =>
    rw [quoted] at h
    split at h
    · simp only [Option.some.injEq, Prod.mk.injEq] at h; rw [← h.2]; simp
    · rw [Option.map_eq_some_iff] at h
      obtain ⟨⟨b', r'⟩, h1, h2⟩ := h
      simp only [Prod.mk.injEq] at h2
      obtain ⟨rfl, rfl⟩ := h2
      exact Nat.lt_succ_of_lt (ih h1)

theorem integerBody_lt {string : Bool} {s₀ s r : List Char} {i : Int} (h : s.length ≤ s₀.length)
    (hr : integerBody string s₀ s = (some i, r)) : r.length < s₀.length := by
  have hd : ∀ (c : Char) (l : List Char), isDigit c = true →
      (integerRest string 1 (c :: l)).2.length < (c :: l).length ∧
      (integerRest string (-1) (c :: l)).2.length < (c :: l).length := by
    intro c l hc
    have := (List.dropWhile_suffix isDigit (l := l)).length_le
    simp only [integerRest, List.dropWhile_cons, hc, if_true]
    constructor <;> (split <;> simp only [List.length_drop, List.length_cons] <;> omega)
  unfold integerBody at hr
  split at hr
  · simp at hr
  · next c s =>
    split at hr
    · next hc =>
      simp only [Prod.mk.injEq] at hr
      rw [← hr.2]
      exact Nat.lt_of_lt_of_le (hd c s hc).1 h
    · split at hr
      · split at hr
        · simp at hr
        · next d s =>
          split at hr
          · next hc =>
            simp only [Prod.mk.injEq] at hr
            rw [← hr.2]
            exact Nat.lt_of_lt_of_le (hd d s hc).2 (by simp only [List.length_cons] at h ⊢; omega)
          · simp at hr
      · simp at hr

theorem readInteger_lt {s r : List Char} {i : Int} (h : readInteger s = (some i, r)) :
    r.length < s.length := by
  unfold readInteger at h
  split at h
  · next t => exact integerBody_lt (by simp) h
  · exact integerBody_lt (Nat.le_refl _) h

theorem read_lt {s r : List Char} {t : Tok} (h : read s = .tok t r) : r.length < s.length := by
  induction hn : s.length using Nat.strongRecOn generalizing s with
  | _ n ih =>
    have h2 := readInteger_le (skip false s)
    have h3 := skip_le false s
    unfold read at h
    split at h
    · next i r' he =>
      simp only [Read.tok.injEq] at h
      have := readInteger_lt he
      rw [← h.2]
      omega
    · simp at h
    · next c u he =>
      rw [he] at h2
      simp only [List.length_cons] at h2
      have hw : ∀ p : Char → Bool, (u.dropWhile p).length ≤ u.length := fun p =>
        (List.dropWhile_suffix p).length_le
      split at h
      · split at h
        · simp at h
        · next r' hr =>
          have := afterLine_lt hr
          exact Nat.lt_trans (ih r'.length (by omega) h rfl) (by omega)
      · split at h
        · simp only [Read.tok.injEq] at h
          have := hw wordChar
          rw [← h.2]; omega
        · split at h
          · simp only [Read.tok.injEq] at h
            have := hw (· = c)
            rw [← h.2]; omega
          · split at h
            · split at h
              · simp at h
              · next b r' hq =>
                simp only [Read.tok.injEq] at h
                have := quoted_lt hq
                rw [← h.2]; omega
            · simp at h

/-- The loop of `lexer_tokenize`, lexer.c:106-122: `none` if an unknown byte is found. The token at
the end is not part of the list. -/
def tokenize (s : List Char) : Option (List Tok) :=
  match _h : read s with
  | .eof => some []
  | .bad => none
  | .tok t r => (tokenize r).map (t :: ·)
termination_by s.length
decreasing_by exact read_lt _h

/-! ## Options -/

/-- The member `val` of an option, style.c:71-75. What an option is set to is either one of the keywords
or a number, `zero` is an option that was never set. The members `type` and `isset` are only used to show
the options and not modelled. -/
inductive Val where
  | zero
  | kw (k : Kw)
  | int (n : Nat)
deriving DecidableEq, Repr

/-- `struct include_category`, style.c:79-83. -/
structure Category where
  pattern : Option (List Char) := none
  group : Int := 0
  sort : Int := 0
deriving DecidableEq, Repr

/-- `struct style`, style.c:61-77. -/
structure State where
  vals : Kw → Val
  scope : Option Kw := none
  depth : Nat := 0
  cats : List Category := []

/-- The environment: what `clang-format -dump-config` prints for a style, `none` if it cannot be run or
fails, `clang_format_dump_style`, style.c:1107-1156; and the patterns `regcomp` takes. -/
structure Env where
  dump : Kw → Option (List Char)
  regcomp : List Char → Bool

/-- The defaults, style.c:526-539. -/
def defaultVals : Kw → Val
  | .AlignAfterOpenBracket => .kw .DontAlign
  | .AlignEscapedNewlines => .kw .Right
  | .AlignOperands => .kw .DontAlign
  | .AlwaysBreakAfterReturnType => .kw .AllDefinitions
  | .BitFieldColonSpacing => .kw .None
  | .BreakBeforeBinaryOperators => .kw .None
  | .BreakBeforeBraces => .kw .Linux
  | .BreakBeforeTernaryOperators => .kw .False
  | .ColumnLimit => .int 80
  | .ContinuationIndentWidth => .int 4
  | .IncludeBlocks => .kw .Preserve
  | .IndentWidth => .int 8
  | .SortIncludes => .kw .Never
  | .UseTab => .kw .Always
  | _ => .zero

/-- `style_defaults`, style.c:519-546, of a new style. -/
def defaults : State := { vals := defaultVals }

/-- `style_set`, style.c:548-554. -/
def set (st : State) (k : Kw) (v : Val) : State :=
  { st with vals := fun x => if x = k then v else st.vals x }

/-- `NONE`, `GOOD`, `SKIP` and `FAIL`, style.c:40-43. -/
inductive Res where
  | none | good | skip | fail
deriving DecidableEq, Repr

/-- The token the lexer pops, lexer.c:410-445, is the first one of those that are left; at the end it is the
one at the end again and again. -/
def pop (ts : List Tok) : Tok × List Tok :=
  match ts with
  | [] => (⟨.eof, [], 0⟩, [])
  | t :: ts => (t, ts)

/-- `lexer_if`, lexer.c:623-640: what is left if the next token has the type. -/
def lexIf (ty : Ty) (ts : List Tok) : Option (Tok × List Tok) :=
  if (pop ts).1.ty = ty then some (pop ts) else none

/-- What parsing an option gives: what it returned, the style and the tokens that are left. -/
abbrev Out := Res × State × List Tok

/-- `parse_bool`, style.c:975-993. -/
def parseBool (e : Opt) (k : Kw) (st : State) (ts : List Tok) : Out :=
  match lexIf e.ty ts with
  | none => (.none, st, ts)
  | some (_, ts) =>
    match lexIf .colon ts with
    | none => (.fail, st, ts)
    | some (_, ts) =>
      match lexIf (.kw .True) ts with
      | some (_, ts) => (.good, set st k (.kw .True), ts)
      | none =>
        match lexIf (.kw .False) ts with
        | some (_, ts) => (.good, set st k (.kw .False), ts)
        | none => (.skip, st, (pop ts).2)

/-- The loop of `parse_enum`, style.c:1006-1012. -/
def enumValue (ts : List Tok) : List Kw → Option (Kw × List Tok)
  | [] => none
  | v :: vs =>
    match lexIf (.kw v) ts with
    | some (_, ts) => some (v, ts)
    | none => enumValue ts vs

/-- `parse_enum`, style.c:995-1019. -/
def parseEnum (e : Opt) (k : Kw) (st : State) (ts : List Tok) : Out :=
  match lexIf e.ty ts with
  | none => (.none, st, ts)
  | some (_, ts) =>
    match lexIf .colon ts with
    | none => (.fail, st, ts)
    | some (_, ts) =>
      match enumValue ts e.vals with
      | some (v, ts) => (.good, set st k (.kw v), ts)
      | none => (.skip, st, (pop ts).2)

/-- `parse_integer_impl`, style.c:1035-1051: the value as well. -/
def parseIntegerImpl (e : Opt) (ts : List Tok) : Res × Int × List Tok :=
  match lexIf e.ty ts with
  | none => (.none, 0, ts)
  | some (_, ts) =>
    match lexIf .colon ts with
    | none => (.fail, 0, ts)
    | some (_, ts) =>
      match lexIf .int ts with
      | some (v, ts) => (.good, v.int, ts)
      | none => (.skip, 0, (pop ts).2)

/-- `integer.i32` read as `integer.u32`, style.c:97-100. -/
def u32 (i : Int) : Nat := (i % 4294967296).toNat

/-- `parse_integer`, style.c:1021-1033. -/
def parseInteger (e : Opt) (k : Kw) (st : State) (ts : List Tok) : Out :=
  match parseIntegerImpl e ts with
  | (.good, i, ts) => (.good, set st k (.int (u32 i)), ts)
  | (r, _, ts) => (r, st, ts)

/-- `parse_AlignOperands`, style.c:1089-1105. -/
def parseAlignOperands (e : Opt) (k : Kw) (st : State) (ts : List Tok) : Out :=
  match parseEnum e k st ts with
  | (.good, st, ts) =>
    (.good,
      (if st.vals .AlignOperands = .kw .True then set st .AlignOperands (.kw .Align)
       else if st.vals .AlignOperands = .kw .False then set st .AlignOperands (.kw .DontAlign)
       else st), ts)
  | o => o

/-- `parse_ColumnLimit`, style.c:1195-1205. -/
def parseColumnLimit (e : Opt) (k : Kw) (st : State) (ts : List Tok) : Out :=
  match parseInteger e k st ts with
  | (.good, st, ts) =>
    (.good, (if st.vals .ColumnLimit = .int 0 then set st .ColumnLimit (.int 4294967295) else st), ts)
  | o => o

/-- `parse_IncludeGuards`, style.c:1231-1249. -/
def parseIncludeGuards (e : Opt) (k : Kw) (st : State) (ts : List Tok) : Out :=
  match parseIntegerImpl e ts with
  | (.good, i, ts) =>
    if i ≤ 0 then (.fail, set (set st k (.int (u32 i))) .IncludeGuards (.int 0), ts)
    else (.good, set st k (.int (u32 i)), ts)
  | (r, _, ts) => (r, st, ts)

/-- A change of the last category, `VECTOR_LAST`; there is one, style.c:1220-1224. -/
def onLastCat (f : Category → Category) (st : State) : State :=
  { st with cats := match st.cats.reverse with
      | [] => []
      | c :: cs => cs.reverse ++ [f c] }

/-- `parse_Priority`, style.c:1251-1276. -/
def parsePriority (e : Opt) (k : Kw) (st : State) (ts : List Tok) : Out :=
  match parseIntegerImpl e ts with
  | (.good, i, ts) =>
    (.good, onLastCat (fun c => if k = .Priority then { c with group := i, sort := i }
      else { c with sort := i }) st, ts)
  | (r, _, ts) => (r, st, ts)

/-- `parse_string`, style.c:1053-1071, and `parse_Regex`, style.c:1278-1313. The compiled pattern is
not modelled, only whether there is one. -/
def parseRegex (env : Env) (e : Opt) (st : State) (ts : List Tok) : Out :=
  match lexIf e.ty ts with
  | none => (.none, st, ts)
  | some (_, ts) =>
    match lexIf .colon ts with
    | none => (.fail, st, ts)
    | some (_, ts) =>
      match lexIf .str ts with
      | none => (.skip, st, (pop ts).2)
      | some (v, ts) =>
        let p := v.text.takeWhile (· ≠ '\x00')
        if env.regcomp p then (.good, onLastCat (fun c => { c with pattern := some p }) st, ts)
        else (.fail, onLastCat (fun c => { c with pattern := none }) st, ts)

/-- `style_parse_yaml_documents` as called by the functions below: `none` if it is not done after
the number of rounds given. The argument is `nested`. -/
abbrev Docs := Bool → State → List Tok → Option Out

/-- `parse_nested`, style.c:1073-1087. -/
def parseNested (docs : Docs) (e : Opt) (k : Kw) (st : State) (ts : List Tok) : Option Out :=
  match lexIf e.ty ts with
  | none => some (.none, st, ts)
  | some (_, ts) =>
    match lexIf .colon ts with
    | none => some (.fail, st, ts)
    | some (_, ts) =>
      match docs true { st with scope := some k } ts with
      | none => none
      | some (_, st', ts) => some (.good, { st' with scope := st.scope }, ts)

/-- The loop of `parse_IncludeCategories`, style.c:1220-1224. -/
def categories (docs : Docs) : Nat → State → List Tok → Option (State × List Tok)
  | 0, _, _ => none
  | n + 1, st, ts =>
    match lexIf .seq ts with
    | none => some (st, ts)
    | some (_, ts) =>
      match docs true { st with cats := st.cats ++ [{}] } ts with
      | none => none
      | some (_, st, ts) => categories docs n st ts

/-- `parse_IncludeCategories`, style.c:1207-1229. -/
def parseIncludeCategories (docs : Docs) (n : Nat) (e : Opt) (k : Kw) (st : State) (ts : List Tok) :
    Option Out :=
  match lexIf e.ty ts with
  | none => some (.none, st, ts)
  | some (_, ts) =>
    match lexIf .colon ts with
    | none => some (.fail, st, ts)
    | some (_, ts) =>
      match categories docs n { st with scope := some k } ts with
      | none => none
      | some (st', ts) => some (.good, set { st' with scope := st.scope } .IncludeCategories (.kw .None), ts)

/-- `style_parse_yaml`, style.c:556-587: the style, and whether there was an error. -/
def parseYaml (docs : Docs) (st : State) (text : List Char) : Option (Bool × State) :=
  match tokenize text with
  | none => some (true, st)
  | some ts =>
    match docs false st ts with
    | none => none
    | some (r, st, _) => some (r != .none, st)

/-- `parse_BasedOnStyle`, style.c:1158-1193. -/
def parseBasedOnStyle (env : Env) (docs : Docs) (e : Opt) (k : Kw) (st : State) (ts : List Tok) :
    Option Out :=
  match parseEnum e k st ts with
  | (.good, st, ts) =>
    if st.depth > 0 then some (.skip, st, ts)
    else
      match st.vals .BasedOnStyle with
      | .kw b =>
        if b = .OpenBSD || b = .InheritParentConfig then some (.good, st, ts)
        else
          match env.dump b with
          | none => some (.skip, st, ts)
          | some text =>
            match parseYaml docs { st with depth := st.depth + 1 } text with
            | none => none
            | some (err, st') =>
              some (if err then .fail else .good, { st' with depth := st'.depth - 1 }, ts)
      | _ => some (.good, st, ts)
  | o => some o

/-- The call of `so_parse`, style.c:672. The option set is the one of the token found, which has the type
of the entry. -/
def soParse (env : Env) (docs : Docs) (n : Nat) (e : Opt) (st : State) (ts : List Tok) : Option Out :=
  match e.parse, e.ty with
  | some .bool, .kw k => some (parseBool e k st ts)
  | some .enum, .kw k => some (parseEnum e k st ts)
  | some .integer, .kw k => some (parseInteger e k st ts)
  | some .nested, .kw k => parseNested docs e k st ts
  | some .alignOperands, .kw k => some (parseAlignOperands e k st ts)
  | some .basedOnStyle, .kw k => parseBasedOnStyle env docs e k st ts
  | some .columnLimit, .kw k => some (parseColumnLimit e k st ts)
  | some .includeCategories, .kw k => parseIncludeCategories docs n e k st ts
  | some .includeGuards, .kw k => some (parseIncludeGuards e k st ts)
  | some .priority, .kw k => some (parsePriority e k st ts)
  | some .regex, .kw _ => some (parseRegex env e st ts)
  | _, _ => some (.none, st, ts)

/-- `yaml_document_language`, style.c:589-613. -/
def documentLanguage : List Tok → Ty
  | [] => .kw .None
  | [_] => .kw .None
  | t :: u :: ts =>
    if t.ty = .docBegin then .kw .None
    else if t.ty = .kw .Language then
      if u.ty = .colon then (pop ts).1.ty
      else documentLanguage ts
    else documentLanguage (u :: ts)

/-- `skip_document`, style.c:615-625. -/
def skipDocument : List Tok → List Tok
  | [] => []
  | t :: ts => if t.ty = .docBegin then ts else skipDocument ts

/-- The loop over a sequence that is ignored, style.c:685-687. -/
def skipSequence : List Tok → List Tok
  | [] => []
  | [t] => if t.ty = .seq then [] else [t]
  | t :: u :: ts => if t.ty = .seq then skipSequence ts else t :: u :: ts

/-- An option that is not known is ignored, style.c:678-690. -/
def unknown (ts : List Tok) : List Tok :=
  let ts := (pop ts).2
  let ts := match lexIf .colon ts with
    | some (_, ts) => ts
    | none => ts
  if (pop ts).1.ty = .seq then skipSequence ts else (pop ts).2

/-- `style_parse_yaml_documents`, style.c:627-697. `none` if it is not done after the given number of
rounds. -/
def documents (env : Env) : Nat → Docs
  | 0, _, _, _ => none
  | n + 1, nested, st, ts =>
    match ts with
    | [] => some (.none, st, [])
    | t :: us =>
      if nested = false ∧ documentLanguage ts ≠ .kw .None ∧ documentLanguage ts ≠ .kw .Cpp then
        documents env n nested st (skipDocument ts)
      else if t.ty = .seq then some (.none, st, ts)
      else if t.ty = .docBegin then documents env n nested st us
      else if t.ty = .docEnd then documents env n nested st us
      else
        match t.so with
        | none => documents env n nested st (unknown ts)
        | some e =>
          if e.scope ≠ st.scope then some (.none, st, ts)
          else
            match soParse env (documents env n) n e st ts with
            | none => none
            | some (.fail, st, ts) => some (.fail, st, ts)
            | some (.none, st, ts) => documents env n nested st (unknown ts)
            | some (_, st, ts) => documents env n nested st ts

/-- `style_parse_buffer`, style.c:392-418: `text` is the content of the file, `none` if there is no
file. -/
def parseBuffer (env : Env) (n : Nat) (text : Option (List Char)) : Option State :=
  match text with
  | none => some (set defaults .BasedOnStyle (.kw .OpenBSD))
  | some text => (parseYaml (documents env n) defaults text).map (·.2)

/-- `style`, style.c:434-439. -/
def style (st : State) (k : Kw) : Val := st.vals k

/-- `style_brace_wrapping`, style.c:441-453. -/
def braceWrapping (st : State) (k : Kw) : Bool :=
  if st.vals .BreakBeforeBraces = .kw .Linux ∧ k = .AfterFunction then true
  else decide (st.vals k = .kw .True)

end Knfmt.Style
