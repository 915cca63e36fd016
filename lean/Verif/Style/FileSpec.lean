import Verif.Style.Spec
/-!
# What a .clang-format file means, for the files the manual and clang-format describe

A file is written from words, the words make up entries, and reading the entries one after the other changes
the values of the options. `Written` and `words` say what the text of entries is, `Reads` what entries mean.
What is left out is said at each of them; the theorems in `Style/Props.lean` show why it is.
-/
namespace Knfmt.Style.Spec

open Knfmt.Style

/-- White space and comments. A carriage return is only white space before a newline. -/
inductive Space : List Char → Prop where
  | nil : Space []
  | blank {c : Char} {s : List Char} : c ∈ [' ', '\t', '\n', '\x0c'] → Space s → Space (c :: s)
  | crlf {s : List Char} : Space s → Space ('\r' :: '\n' :: s)
  | comment {b s : List Char} : '\n' ∉ b → Space s → Space ('#' :: b ++ '\n' :: s)

/-- A word: a letter or underscore, and anything but white space and colons. -/
def IsWord (w : List Char) : Prop :=
  ∃ c s, w = c :: s ∧ (('a' ≤ c ∧ c ≤ 'z') ∨ ('A' ≤ c ∧ c ≤ 'Z') ∨ c = '_') ∧
    ∀ x ∈ s, x ∉ [' ', '\t', '\n', '\x0b', '\x0c', '\r', ':']

/-- Digits. -/
def IsNum (d : List Char) : Prop := d ≠ [] ∧ ∀ c ∈ d, '0' ≤ c ∧ c ≤ '9'

/-- The text of a value: a word, a number or either of them, or any other text, between quotes. What means
something else between quotes is left out. -/
inductive Value : List Char → Prop where
  | word {w : List Char} : IsWord w → Value w
  | number {d : List Char} : IsNum d → Value d
  | negative {d : List Char} : IsNum d → Value ('-' :: d)
  | quotedNumber {d : List Char} : IsNum d → Value ('\'' :: d ++ ['\''])
  | quotedNegative {d : List Char} : IsNum d → Value ('\'' :: '-' :: d ++ ['\''])
  | quoted {s : List Char} : '\'' ∉ s → (∀ c r, s = c :: r → ¬ ('0' ≤ c ∧ c ≤ '9') ∧ c ≠ '-') →
      s ∉ [":".toList, "...".toList] → Value ('\'' :: s ++ ['\''])

/-- A number, also between quotes. -/
def Numeric (w : List Char) : Prop :=
  ∃ d, IsNum d ∧ (w = d ∨ w = '-' :: d ∨ w = '\'' :: d ++ ['\''] ∨ w = '\'' :: '-' :: d ++ ['\''])

/-- A text is a value of an option, and what it means. Left out are `CaseInsensitive`, numbers of 2³¹ or
more, negative numbers and zero path components. -/
inductive Valid (k : Kw) (w : List Char) : Val → Prop where
  | named {v : Kw} : v ∈ values k → v ≠ .CaseInsensitive → Word w (name v) → Valid k w (named k v)
  | number {d : List Char} : isNumber k = true → IsNum d → Word w d → decimal d ≤ 2147483647 →
      (k = .IncludeGuards → 0 < decimal d) → Valid k w (number k (decimal d))

/-- A text is not a value of an option. The names `Integer` and `Language` are left out. -/
def Invalid (k : Kw) (w : List Char) : Prop :=
  Value w ∧ (∀ v ∈ values k, ¬ Word w (name v)) ∧ (isNumber k = true → ¬ Numeric w) ∧
    ¬ Word w "Integer".toList ∧ ¬ Word w "Language".toList

/-- A whole number and what it means. -/
inductive IsInt (w : List Char) : Int → Prop where
  | nonneg {d : List Char} : IsNum d → Word w d → decimal d ≤ 2147483647 → IsInt w (decimal d : Int)
  | negative {d : List Char} : IsNum d → Word w ('-' :: d) → decimal d ≤ 2147483647 → IsInt w (-(decimal d : Int))

/-- A text that is a pattern if it is between quotes. What means something else between quotes is left out,
and so are quotes and null bytes. -/
def Pattern (s : List Char) : Prop :=
  '\'' ∉ s ∧ '\x00' ∉ s ∧ (∀ c r, s = c :: r → ¬ ('0' ≤ c ∧ c ≤ '9') ∧ c ≠ '-') ∧
    s ∉ [":".toList, "...".toList, "Integer".toList] ∧ ∀ k, s ≠ name k

/-- A line of a category of includes. -/
inductive Field where
  | regex (s : List Char)
  | priority (w : List Char)
  | sortPriority (w : List Char)
  | caseSensitive (w : List Char)

/-- The words of a line of a category. -/
def fieldWords : Field → List (List Char)
  | .regex s => [name .Regex, [':'], '\'' :: s ++ ['\'']]
  | .priority w => [name .Priority, [':'], w]
  | .sortPriority w => [name .SortPriority, [':'], w]
  | .caseSensitive w => [name .CaseSensitive, [':'], w]

/-- An entry of a file. -/
inductive Entry where
  /-- An option and its value. -/
  | option (k : Kw) (w : List Char)
  /-- `BraceWrapping:`, the options of it follow. -/
  | group
  /-- A key that is not an option and its value. -/
  | other (key w : List Char)
  /-- A key that is not an option and a list of values. -/
  | list (key : List Char) (ws : List (List Char))
  /-- A key that is not an option and has keys of its own, up to the first one and its value. -/
  | sub (key key' w : List Char)
  /-- `IncludeCategories:` and the lines of each category. -/
  | categories (l : List (List Field))
  /-- `---`. -/
  | begin
  /-- `...`. -/
  | finish

/-- The words of an entry. -/
def words : Entry → List (List Char)
  | .option k w => [name k, [':'], w]
  | .group => ["BraceWrapping".toList, [':']]
  | .other key w => [key, [':'], w]
  | .list key ws => key :: [':'] :: ws.flatMap fun w => [['-'], w]
  | .sub key key' w => [key, [':'], key', [':'], w]
  | .categories l => name .IncludeCategories :: [':'] :: l.flatMap fun fs => ['-'] :: fs.flatMap fieldWords
  | .begin => ["---".toList]
  | .finish => ["...".toList]

/-- A text is written from words: there may be white space before each of them, and has to be after it,
unless it is a colon, a colon follows or the text ends there. There may be a comment without a newline at the
end. A dash at the end is left out. -/
inductive Written : List (List Char) → List Char → Prop where
  | nil {g : List Char} : Space g → Written [] g
  | comment {g b : List Char} : Space g → '\n' ∉ b → Written [] (g ++ '#' :: b)
  | colon {g r : List Char} {ws : List (List Char)} : Space g → Written ws r → r.head? ≠ some ':' →
      Written ([':'] :: ws) (g ++ ':' :: r)
  | word {g w r : List Char} {ws : List (List Char)} : Space g →
      (Value w ∨ w ∈ ["-".toList, "---".toList, "...".toList]) → Written ws r →
      ((r = [] ∧ w ≠ "-".toList) ∨ ∃ c ∈ [' ', '\t', '\n', '\x0c', '\r', ':'], r.head? = some c) →
      Written (w :: ws) (g ++ w ++ r)

/-- A key that is not an option. -/
def OtherKey (key : List Char) : Prop := IsWord key ∧ ∀ k, isOption k = true → key ≠ name k

/-- A value that is not `Language`. -/
def Plain (w : List Char) : Prop := Value w ∧ ¬ Word w "Language".toList

/-- An entry that means nothing. -/
inductive Ignored : Entry → Prop where
  | other {key w : List Char} : OtherKey key → Plain w → Ignored (.other key w)
  | list {key : List Char} {ws : List (List Char)} : OtherKey key → ws ≠ [] → (∀ w ∈ ws, Plain w) →
      Ignored (.list key ws)
  | sub {key key' w : List Char} : OtherKey key → IsWord key' → key' ≠ "Language".toList → Plain w →
      Ignored (.sub key key' w)

/-- An option is set. -/
def update (f : Kw → Val) (k : Kw) (v : Val) : Kw → Val := fun x => if x = k then v else f x

/-- What a file gives: the values of the options and the categories of includes. -/
structure Conf where
  vals : Kw → Val
  cats : List Category := []

/-- An option is set. -/
def Conf.update (c : Conf) (k : Kw) (v : Val) : Conf := ⟨Spec.update c.vals k v, c.cats⟩

/-- Reading the lines of a category. `SortPriority` is the same as `Priority` unless given after it.
`CaseSensitive` means nothing to the category. Left out are patterns that are not valid. -/
inductive CatReads (env : Env) : (Kw → Val) → Category → List Field → (Kw → Val) → Category → Prop where
  | nil {f : Kw → Val} {c : Category} : CatReads env f c [] f c
  | regex {f f' : Kw → Val} {c c' : Category} {s : List Char} {fs : List Field} :
      Pattern s → env.regcomp s = true → CatReads env f { c with pattern := some s } fs f' c' →
      CatReads env f c (.regex s :: fs) f' c'
  | priority {f f' : Kw → Val} {c c' : Category} {w : List Char} {i : Int} {fs : List Field} :
      IsInt w i → CatReads env f { c with group := i, sort := i } fs f' c' →
      CatReads env f c (.priority w :: fs) f' c'
  | sortPriority {f f' : Kw → Val} {c c' : Category} {w : List Char} {i : Int} {fs : List Field} :
      IsInt w i → CatReads env f { c with sort := i } fs f' c' → CatReads env f c (.sortPriority w :: fs) f' c'
  | caseSensitive {f f' : Kw → Val} {c c' : Category} {w : List Char} {v : Val} {fs : List Field} :
      Valid .CaseSensitive w v → CatReads env (update f .CaseSensitive v) c fs f' c' →
      CatReads env f c (.caseSensitive w :: fs) f' c'

/-- Reading categories: each one is added to those there are. -/
inductive CatsRead (env : Env) : Conf → List (List Field) → Conf → Prop where
  | nil {x : Conf} : CatsRead env x [] x
  | cons {x y : Conf} {f : Kw → Val} {c : Category} {fs : List Field} {l : List (List Field)} :
      CatReads env x.vals {} fs f c → CatsRead env ⟨f, x.cats ++ [c]⟩ l y → CatsRead env x (fs :: l) y

/-- Reading entries changes the values of the options.

The style another one is based on is read where it is named, unless a style that is based on is read itself:
`depth` is how many are. The options within `BraceWrapping` are only read after it, `group` says whether they
may follow. A document starts at the start of the file and after `---`, where `start` is set; if its first
entry says that it is about another language it is skipped. Left out is another language named later
on. -/
inductive Reads (env : Env) : Nat → Bool → Bool → Conf → List Entry → Conf → Prop where
  | nil {d : Nat} {g s : Bool} {f : Conf} : Reads env d g s f [] f
  | set {d : Nat} {g s : Bool} {f f' : Conf} {k : Kw} {w : List Char} {v : Val} {es : List Entry} :
      isBrace k = false → isCategory k = false → Valid k w v → (k = .Language → v = .kw .Cpp) →
      (k = .BasedOnStyle → d ≠ 0 ∨ v = .kw .OpenBSD ∨ v = .kw .InheritParentConfig ∨
        ∃ b, v = .kw b ∧ env.dump b = none) →
      Reads env d false false (f.update k v) es f' → Reads env d g s f (.option k w :: es) f'
  | base {g s : Bool} {f f₁ f' : Conf} {w text : List Char} {b : Kw} {es es₁ : List Entry} :
      Valid .BasedOnStyle w (.kw b) → b ≠ .OpenBSD → b ≠ .InheritParentConfig → env.dump b = some text →
      Written (es₁.flatMap words) text → Reads env 1 false true (f.update .BasedOnStyle (.kw b)) es₁ f₁ →
      Reads env 0 false false f₁ es f' → Reads env 0 g s f (.option .BasedOnStyle w :: es) f'
  | group {d : Nat} {g s : Bool} {f f' : Conf} {es : List Entry} :
      Reads env d true false f es f' → Reads env d g s f (.group :: es) f'
  | brace {d : Nat} {s : Bool} {f f' : Conf} {k : Kw} {w : List Char} {v : Val} {es : List Entry} :
      isBrace k = true → Valid k w v → Reads env d true false (f.update k v) es f' →
      Reads env d true s f (.option k w :: es) f'
  | invalid {d : Nat} {g s : Bool} {f f' : Conf} {k : Kw} {w : List Char} {es : List Entry} :
      (isBrace k = true → g = true) → isCategory k = false → k ≠ .Language →
      (values k ≠ [] ∨ isNumber k = true) → Invalid k w →
      Reads env d (isBrace k) false f es f' → Reads env d g s f (.option k w :: es) f'
  | ignored {d : Nat} {g s : Bool} {f f' : Conf} {e : Entry} {es : List Entry} :
      Ignored e → Reads env d g false f es f' → Reads env d g s f (e :: es) f'
  | categories {d : Nat} {g s : Bool} {f f₁ f' : Conf} {l : List (List Field)} {es : List Entry} :
      CatsRead env f l f₁ → Reads env d false false (f₁.update .IncludeCategories (.kw .None)) es f' →
      Reads env d g s f (.categories l :: es) f'
  | begin {d : Nat} {g s : Bool} {f f' : Conf} {es : List Entry} :
      Reads env d false true f es f' → Reads env d g s f (.begin :: es) f'
  | finish {d : Nat} {g s : Bool} {f f' : Conf} {es : List Entry} :
      Reads env d false false f es f' → Reads env d g s f (.finish :: es) f'
  | foreign {d : Nat} {g : Bool} {f f' : Conf} {w : List Char} {es es' : List Entry} :
      Value w → ¬ Word w (name .Cpp) → ¬ Word w (name .None) → (∀ e ∈ es, "---".toList ∉ words e) →
      Reads env d false true f es' f' →
      Reads env d g true f (.option .Language w :: es ++ .begin :: es') f'
  | last {d : Nat} {g : Bool} {f : Conf} {w : List Char} {es : List Entry} :
      Value w → ¬ Word w (name .Cpp) → ¬ Word w (name .None) → (∀ e ∈ es, "---".toList ∉ words e) →
      Reads env d g true f (.option .Language w :: es) f

/-- The defaults in the manual, knfmt.1:58-392. An option that has none there has no value. -/
def default : Kw → Val
  | .AlignAfterOpenBracket => .kw .DontAlign
  | .AlignEscapedNewlines => .kw .Right
  | .AlignOperands => .kw .DontAlign
  | .AlwaysBreakAfterReturnType => .kw .AllDefinitions
  | .BitFieldColonSpacing => .kw .None
  | .BreakBeforeBinaryOperators => .kw .None
  | .BreakBeforeBraces => .kw .Linux
  | .BreakBeforeTernaryOperators => .kw .False
  | .ColumnLimit => .int 80
  | .ContinuationIndentWidth => .int 4
  | .IncludeBlocks => .kw .Preserve
  | .IndentWidth => .int 8
  | .SortIncludes => .kw .Never
  | .UseTab => .kw .Always
  | _ => .zero

end Knfmt.Style.Spec
