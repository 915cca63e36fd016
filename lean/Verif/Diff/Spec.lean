/-!
# Specification of unified diffs
-/
namespace Knfmt.Spec.Udiff

abbrev Line := List Char

/-- A line of a hunk. -/
inductive HLine where
  /-- present in both files -/
  | ctx (t : List Char)
  /-- an empty context line whose leading space got lost -/
  | blank
  | add (t : List Char)
  | del (t : List Char)
  /-- the marker `\ No newline at end of file` -/
  | nonl
deriving DecidableEq, Repr

def marker : List Char := " No newline at end of file".toList

def HLine.render : HLine → Line
  | .ctx t => ' ' :: t
  | .blank => []
  | .add t => '+' :: t
  | .del t => '-' :: t
  | .nonl => '\\' :: marker

/-- Does the line exist in the new file? -/
def HLine.isNew : HLine → Bool
  | .ctx _ | .blank | .add _ => true
  | .del _ | .nonl => false

/-- Numbers in the new file, from `n` on, of the added lines. -/
def added : Nat → List HLine → List Nat
  | _, [] => []
  | n, .add _ :: ls => n :: added (n + 1) ls
  | n, .ctx _ :: ls => added (n + 1) ls
  | n, .blank :: ls => added (n + 1) ls
  | n, .del _ :: ls => added n ls
  | n, .nonl :: ls => added n ls

/-- Decimal value. -/
def decimal (s : List Char) : Nat := s.foldl (fun n c => n * 10 + (c.toNat - 48)) 0

def IsNumber (s : List Char) : Prop := s ≠ [] ∧ ∀ c ∈ s, '0' ≤ c ∧ c ≤ '9'

/-- `start,count` or `start`. -/
structure Range where
  start : List Char
  count : Option (List Char)

def Range.render (r : Range) : List Char :=
  r.start ++ match r.count with | none => [] | some c => ',' :: c

def Range.Ok (r : Range) : Prop := IsNumber r.start ∧ ∀ c, r.count = some c → IsNumber c

/-- Number of lines. -/
def Range.len (r : Range) : Nat := match r.count with | none => 1 | some c => decimal c

structure Hunk where
  old : Range
  new : Range
  heading : List Char
  lines : List HLine

def Hunk.header (h : Hunk) : Line :=
  "@@ -".toList ++ h.old.render ++ " +".toList ++ h.new.render ++ " @@".toList ++ h.heading

def Hunk.render (h : Hunk) : List Line := h.header :: h.lines.map HLine.render

/-- Numbers of the lines added by the hunk. -/
def Hunk.added (h : Hunk) : List Nat := Udiff.added (decimal h.new.start) h.lines

/-- A well formed hunk: numbers, a heading that cannot be taken for the end of the
header, the number of new lines announced, line numbers within 32 bits, and no
`\ No newline` marker in front of a line of the new file. -/
structure Hunk.Ok (h : Hunk) : Prop where
  old : h.old.Ok
  new : h.new.Ok
  heading : ¬ ['@', '@'] <:+: h.heading ∧ h.heading.head? ≠ some '@'
  count : (h.lines.filter HLine.isNew).length = h.new.len
  start : h.new.len ≠ 0 → decimal h.new.start ≠ 0
  small : decimal h.new.start + h.new.len < 2 ^ 32
  marker : ∀ ls rs, h.lines = ls ++ .nonl :: rs → ∀ r ∈ rs, r.isNew = false

/-- A file of the diff: other lines, the `+++` line, the hunks. -/
structure Section where
  junk : List Line
  path : List Char
  /-- what follows the path on the `+++` line, e.g. a tab and a date -/
  rest : List Char
  hunks : List Hunk

def Section.render (s : Section) : List Line :=
  s.junk ++ ("+++ ".toList ++ s.path ++ s.rest) :: (s.hunks.map Hunk.render).flatten

def space (c : Char) : Prop := c ∈ [' ', '\t', '\n', '\x0b', '\x0c', '\r']

structure Section.Ok (s : Section) : Prop where
  junk : ∀ l ∈ s.junk, ¬ "+++".toList <+: l ∧ ¬ "@@".toList <+: l
  path : s.path ≠ [] ∧ ∀ c ∈ s.path, ¬ space c
  rest : ∀ c, s.rest.head? = some c → space c
  hunks : ∀ h ∈ s.hunks, h.Ok

/-- Numbers of the lines added to the file. -/
def Section.added (s : Section) : List Nat := (s.hunks.map Hunk.added).flatten

/-- Without the `b/` prefix of git. -/
def Section.newPath (s : Section) : List Char :=
  match s.path with
  | 'b' :: '/' :: p => p
  | p => p

/-- A text made of lines. -/
def unlines (ls : List Line) : List Char := (ls.map (· ++ ['\n'])).flatten

end Knfmt.Spec.Udiff
