import Verif.Style.Model
/-!
# What a .clang-format file means

Written down from the manual, knfmt.1:95-400, and from what clang-format documents. Only `Kw` and `Val` are
taken from the model.
-/
namespace Knfmt.Style.Spec

open Knfmt.Style

/-- The name of an option or value. -/
def name : Kw → List Char
  | .After => "After".toList
  | .Align => "Align".toList
  | .AlignAfterOpenBracket => "AlignAfterOpenBracket".toList
  | .AlignAfterOperator => "AlignAfterOperator".toList
  | .AlignEscapedNewlines => "AlignEscapedNewlines".toList
  | .AlignOperands => "AlignOperands".toList
  | .AlignWithSpaces => "AlignWithSpaces".toList
  | .All => "All".toList
  | .AllDefinitions => "AllDefinitions".toList
  | .Always => "Always".toList
  | .AlwaysBreak => "AlwaysBreak".toList
  | .AlwaysBreakAfterReturnType => "AlwaysBreakAfterReturnType".toList
  | .BasedOnStyle => "BasedOnStyle".toList
  | .Chromium => "Chromium".toList
  | .Google => "Google".toList
  | .InheritParentConfig => "InheritParentConfig".toList
  | .LLVM => "LLVM".toList
  | .Microsoft => "Microsoft".toList
  | .OpenBSD => "OpenBSD".toList
  | .Before => "Before".toList
  | .BitFieldColonSpacing => "BitFieldColonSpacing".toList
  | .BlockIndent => "BlockIndent".toList
  | .Both => "Both".toList
  | .BraceWrapping => "BraceWrapping".toList
  | .AfterCaseLabel => "AfterCaseLabel".toList
  | .AfterClass => "AfterClass".toList
  | .AfterControlStatement => "AfterControlStatement".toList
  | .AfterEnum => "AfterEnum".toList
  | .AfterExternBlock => "AfterExternBlock".toList
  | .AfterFunction => "AfterFunction".toList
  | .AfterNamespace => "AfterNamespace".toList
  | .AfterObjCDeclaration => "AfterObjCDeclaration".toList
  | .AfterStruct => "AfterStruct".toList
  | .AfterUnion => "AfterUnion".toList
  | .BeforeCatch => "BeforeCatch".toList
  | .BeforeElse => "BeforeElse".toList
  | .BeforeLambdaBody => "BeforeLambdaBody".toList
  | .BeforeWhile => "BeforeWhile".toList
  | .IndentBraces => "IndentBraces".toList
  | .SplitEmptyFunction => "SplitEmptyFunction".toList
  | .SplitEmptyNamespace => "SplitEmptyNamespace".toList
  | .SplitEmptyRecord => "SplitEmptyRecord".toList
  | .BreakBeforeBinaryOperators => "BreakBeforeBinaryOperators".toList
  | .Allman => "Allman".toList
  | .Attach => "Attach".toList
  | .Custom => "Custom".toList
  | .GNU => "GNU".toList
  | .Linux => "Linux".toList
  | .Mozilla => "Mozilla".toList
  | .Stroustrup => "Stroustrup".toList
  | .WebKit => "WebKit".toList
  | .Whitesmiths => "Whitesmiths".toList
  | .BreakBeforeBraces => "BreakBeforeBraces".toList
  | .BreakBeforeTernaryOperators => "BreakBeforeTernaryOperators".toList
  | .CaseInsensitive => "CaseInsensitive".toList
  | .CaseSensitive => "CaseSensitive".toList
  | .ColumnLimit => "ColumnLimit".toList
  | .ContinuationIndentWidth => "ContinuationIndentWidth".toList
  | .DontAlign => "DontAlign".toList
  | .False => "false".toList
  | .ForContinuationAndIndentation => "ForContinuationAndIndentation".toList
  | .ForIndentation => "ForIndentation".toList
  | .IncludeBlocks => "IncludeBlocks".toList
  | .Merge => "Merge".toList
  | .Preserve => "Preserve".toList
  | .Regroup => "Regroup".toList
  | .IncludeCategories => "IncludeCategories".toList
  | .IncludeGuards => "IncludeGuards".toList
  | .IndentWidth => "IndentWidth".toList
  | .Language => "Language".toList
  | .Cpp => "Cpp".toList
  | .CSharp => "CSharp".toList
  | .Java => "Java".toList
  | .JavaScript => "JavaScript".toList
  | .Json => "Json".toList
  | .ObjC => "ObjC".toList
  | .Proto => "Proto".toList
  | .TableGen => "TableGen".toList
  | .TextProto => "TextProto".toList
  | .Verilog => "Verilog".toList
  | .Left => "Left".toList
  | .MultiLine => "MultiLine".toList
  | .Never => "Never".toList
  | .NonAssignment => "NonAssignment".toList
  | .None => "None".toList
  | .Priority => "Priority".toList
  | .Regex => "Regex".toList
  | .Right => "Right".toList
  | .SortIncludes => "SortIncludes".toList
  | .SortPriority => "SortPriority".toList
  | .TopLevel => "TopLevel".toList
  | .TopLevelDefinitions => "TopLevelDefinitions".toList
  | .True => "true".toList
  | .UseTab => "UseTab".toList

/-- The options that are either true or false. -/
def isBool : Kw → Bool
  | .AfterCaseLabel | .AfterClass | .AfterEnum | .AfterExternBlock | .AfterFunction | .AfterNamespace
  | .AfterObjCDeclaration | .AfterStruct | .AfterUnion | .BeforeCatch | .BeforeElse | .BeforeLambdaBody
  | .BeforeWhile | .IndentBraces | .SplitEmptyFunction | .SplitEmptyNamespace | .SplitEmptyRecord
  | .BreakBeforeTernaryOperators | .CaseSensitive => true
  | _ => false

/-- The options that are a number. -/
def isNumber : Kw → Bool
  | .ColumnLimit | .ContinuationIndentWidth | .IncludeGuards | .IndentWidth => true
  | _ => false

/-- The names an option takes. -/
def values : Kw → List Kw
  | .AlignAfterOpenBracket => [.Align, .DontAlign, .AlwaysBreak, .BlockIndent]
  | .AlignEscapedNewlines => [.DontAlign, .Left, .Right]
  | .AlignOperands => [.Align, .DontAlign, .AlignAfterOperator, .True, .False]
  | .AlwaysBreakAfterReturnType => [.None, .All, .TopLevel, .AllDefinitions, .TopLevelDefinitions]
  | .BitFieldColonSpacing => [.Both, .None, .Before, .After]
  | .BasedOnStyle => [.LLVM, .Google, .Chromium, .Mozilla, .WebKit, .Microsoft, .GNU,
      .InheritParentConfig, .OpenBSD]
  | .AfterControlStatement => [.Never, .MultiLine, .Always, .True, .False]
  | .BreakBeforeBinaryOperators => [.None, .NonAssignment, .All]
  | .BreakBeforeBraces => [.Attach, .Linux, .Mozilla, .Stroustrup, .Allman, .Whitesmiths, .GNU, .WebKit,
      .Custom]
  | .IncludeBlocks => [.Merge, .Preserve, .Regroup]
  | .Language => [.Cpp, .CSharp, .Java, .JavaScript, .Json, .ObjC, .Proto, .TableGen, .TextProto, .Verilog]
  | .SortIncludes => [.Never, .CaseSensitive, .CaseInsensitive]
  | .UseTab => [.Never, .ForIndentation, .ForContinuationAndIndentation, .AlignWithSpaces, .Always]
  | k => if isBool k then [.True, .False] else []

/-- The options within `BraceWrapping`. -/
def isBrace : Kw → Bool
  | .AfterCaseLabel | .AfterClass | .AfterControlStatement | .AfterEnum | .AfterExternBlock
  | .AfterFunction | .AfterNamespace | .AfterObjCDeclaration | .AfterStruct | .AfterUnion | .BeforeCatch
  | .BeforeElse | .BeforeLambdaBody | .BeforeWhile | .IndentBraces | .SplitEmptyFunction
  | .SplitEmptyNamespace | .SplitEmptyRecord => true
  | _ => false

/-- The options within `IncludeCategories`. -/
def isCategory : Kw → Bool
  | .CaseSensitive | .Priority | .Regex | .SortPriority => true
  | _ => false

/-- The options. -/
def isOption (k : Kw) : Bool :=
  values k ≠ [] || isNumber k || isCategory k || k = .BraceWrapping || k = .IncludeCategories

/-- What naming a value means: `true` and `false` are other names for two values of `AlignOperands`. -/
def named (k v : Kw) : Val :=
  if k = .AlignOperands ∧ v = .True then .kw .Align
  else if k = .AlignOperands ∧ v = .False then .kw .DontAlign
  else .kw v

/-- What a number means: no limit if `ColumnLimit` is zero. -/
def number (k : Kw) (n : Nat) : Val :=
  if k = .ColumnLimit ∧ n = 0 then .int 4294967295 else .int n

/-- The value of digits. -/
def decimal (s : List Char) : Nat := s.foldl (fun n c => 10 * n + (c.toNat - 48)) 0

/-- White space and comments. -/
inductive Gap : List Char → Prop where
  | nil : Gap []
  | blank {c : Char} {s : List Char} : c ∈ [' ', '\t', '\n', '\r', '\x0c'] → Gap s → Gap (c :: s)
  | comment {b s : List Char} : '\n' ∉ b → Gap s → Gap ('#' :: b ++ '\n' :: s)

/-- A text as it is or between quotes. -/
def Word (w s : List Char) : Prop := w = s ∨ w = '\'' :: s ++ ['\'']

/-- A number, with an optional sign, as it is or after a quote and followed by at most one other byte. It
is the value of the digits if they fit in 31 bits, nothing is said about it otherwise. -/
def Num (w : List Char) (i : Int) : Prop :=
  ∃ (q sign d tail : List Char), w = q ++ sign ++ d ++ tail ∧
    ((q = [] ∧ tail = []) ∨ (q = ['\''] ∧ tail.length ≤ 1)) ∧ (sign = [] ∨ sign = ['-']) ∧ d ≠ [] ∧
    (∀ c ∈ d, '0' ≤ c ∧ c ≤ '9') ∧ -2147483648 ≤ i ∧ i ≤ 2147483647 ∧
    (decimal d ≤ 2147483647 → i = if sign = [] then (decimal d : Int) else -(decimal d : Int))

/-- What a number means if it may be negative: it is taken modulo 2³², and a number of path components
that is not positive is zero. -/
def integer (k : Kw) (i : Int) : Val :=
  if k = .IncludeGuards ∧ i ≤ 0 then .int 0 else number k (i % 4294967296).toNat

/-- A text that is a value of an option, and what it means. The name `Integer` counts as zero, see
`integer_named`. -/
inductive Means (k : Kw) (w : List Char) : Val → Prop where
  | named {v : Kw} : v ∈ values k → Word w (name v) → Means k w (named k v)
  | number {i : Int} : isNumber k = true → Num w i → Means k w (integer k i)
  | integer : isNumber k = true → Word w "Integer".toList → Means k w (integer k 0)

/-- A text sets an option: the option, a colon and a value follow each other. -/
def Sets (text : List Char) (k : Kw) (v : Val) : Prop :=
  ∃ (pre wk g₁ wc g₂ wv post : List Char), text = pre ++ wk ++ g₁ ++ wc ++ g₂ ++ wv ++ post ∧
    Word wk (name k) ∧ Gap g₁ ∧ Word wc [':'] ∧ Gap g₂ ∧ Means k wv v

end Knfmt.Style.Spec
