import Verif.Doc.Fits
import Verif.Util.Props
/-!
# ruler.c: aligning entries in columns

Unsigned integers are natural numbers, except where the code relies on wrapping.
Allocation is assumed to succeed. A failing assertion is the outcome `none`.
-/
namespace Knfmt.Ruler

open Knfmt.Doc (Align)

/-- A suffix of a token, token.h:164-230: whether it is a comment, whether it is
a `TOKEN_SPACE` with `TOKEN_FLAG_OPTSPACE`, and its text. -/
structure Suffix where
  comment : Bool := false
  optspace : Bool := false
  str : List Char := []
deriving DecidableEq, Repr

/-- What the ruler reads of a token, token.h:164-230: its text, line, column,
suffixes, and the line and column of the token after it. -/
structure Tok where
  str : List Char
  lno : Nat := 1
  cno : Nat := 1
  suffixes : List Suffix := []
  next : Option (Nat × Nat) := none
deriving DecidableEq, Repr

/-- `token_has_tabs`, token.c:319-331. -/
def hasTabs (tk : Tok) : Bool := tk.suffixes.any fun s => s.optspace && s.str.head? == some '\t'

/-- `token_find_suffix_spaces`, token.c:500-505. -/
def suffixSpaces (tk : Tok) : Option Suffix := tk.suffixes.find? (·.optspace)

/-- `struct ruler_datum`, ruler.c:29-34, without the document. -/
structure Datum where
  tk : Tok
  len : Nat
  nspaces : Nat := 0
deriving DecidableEq, Repr

/-- `struct ruler_column`, ruler.c:16-21. -/
structure Column where
  datums : List Datum := []
  len : Nat := 0
  nspaces : Nat := 0
  ntabs : Nat := 0
deriving DecidableEq, Repr

/-- `rl_flags`, ruler.h:9-31. -/
structure Flags where
  min : Bool := false
  max : Bool := false
  fixed : Bool := false
  tabs : Bool := false
  sense : Bool := false
deriving DecidableEq, Repr

/-- `struct ruler`, ruler.h:4-8; `indents` holds `ri_rd` and whether `ri_sign` is
positive, `none` if the vector is not allocated. -/
structure Ruler where
  columns : List Column := []
  indents : Option (List (Nat × Bool)) := none
  align : Nat
  flags : Flags
deriving DecidableEq, Repr

/-- `ruler_init`, ruler.c:51-58. -/
def init (align : Nat) (flags : Flags) : Ruler := { align, flags }

/-- The second half of `ruler_insert_impl`, ruler.c:99-114. -/
def Column.add (rc : Column) (d : Datum) : Column where
  datums := rc.datums ++ [d]
  len := if d.len > rc.len then d.len else rc.len
  nspaces := if d.nspaces > rc.nspaces then d.nspaces else rc.nspaces
  ntabs := if hasTabs d.tk then rc.ntabs + 1 else rc.ntabs

/-- `ruler_insert_impl`, ruler.c:83-115. Column zero would be out of bounds. -/
def insert (rl : Ruler) (d : Datum) (col : Nat) : Option Ruler :=
  if col = 0 then none
  else
    let cols := rl.columns ++ List.replicate (col - rl.columns.length) ({} : Column)
    some { rl with columns := cols.modify (col - 1) (·.add d) }

/-- `ruler_indent_impl`, ruler.c:131-159: `none` if there is nothing to indent to,
in which case an ordinary document is made. -/
def indent (rl : Ruler) (pos : Bool) : Option Ruler :=
  match rl.columns with
  | [] => none
  | rc :: _ =>
    if rc.datums.length = 0 then none
    else some { rl with indents := some (rl.indents.getD [] ++ [(rc.datums.length - 1, pos)]) }

/-- `ruler_indent_remove`, ruler.c:161-167. -/
def indentRemove (rl : Ruler) : Ruler := { rl with indents := rl.indents.map List.dropLast }

/-- `countspaces`, ruler.c:371-384. -/
def countspaces (s : List Char) : Option Nat :=
  let r := s.dropWhile (· = '\t')
  let q := r.dropWhile (· = ' ')
  if q = [] then some (r.length - q.length) else none

/-- One round of the loop of `minimize`, ruler.c:397-407; `UINT_MAX` is `none`. -/
def minStep (len nspaces : Nat) (m : Option Nat) (d : Datum) : Option Nat :=
  if d.len < len then m
  else
    let n := nspaces - d.nspaces
    match m with
    | none => some n
    | some x => if n < x then some n else some x

/-- `minimize`, ruler.c:386-415; `UINT_MAX` is `none`. -/
def minimize (rc : Column) : Bool :=
  if rc.datums.length < 2 || rc.nspaces = 0 || rc.len % 8 > 0 then false
  else
    let m := rc.datums.foldl (minStep rc.len rc.nspaces) none
    match m with
    | none => true
    | some x => decide (x ≥ rc.nspaces)

/-- One round of the first loop of `ruler_column_alignment`, ruler.c:278-293;
`none` for `goto noalign`. -/
def spacesStep (x : Nat) (d : Datum) : Option Nat :=
  if !hasTabs d.tk then some x
  else match suffixSpaces d.tk with
    | none => some x
    | some s => match countspaces s.str with
      | none => none
      | some n => some (if n > x then n else x)

/-- The first loop of `ruler_column_alignment`, ruler.c:271-296: the new
`rc_nspaces`, `none` for `goto noalign`. -/
def senseSpaces (rc : Column) : Option Nat :=
  if rc.ntabs > 0 && rc.nspaces = 0 then rc.datums.foldlM spacesStep 0
  else some rc.nspaces

/-- `colwidth`, util.c:13-37. -/
def colwidth (s : List Char) (cno : Nat) : Nat :=
  (Knfmt.Util.colwidthWith Knfmt.Str.matchUntilDefault s cno).getD 0

/-- One round of the second loop of `ruler_column_alignment`, ruler.c:298-323:
`cno` and `tk`, `none` for `goto noalign`. -/
def senseStep (rc : Column) (nspaces : Nat) (st : Nat × Option Tok) (d : Datum) :
    Option (Nat × Option Tok) :=
  if d.tk.suffixes.any (·.comment) then none
  else match d.tk.next with
    | none => none
    | some (lno, ncno) =>
      if d.tk.lno ≠ lno then none
      else
        let n := nspaces - d.nspaces
        if n > ncno then none
        else
          let w := ncno - n
          if colwidth d.tk.str d.tk.cno ≥ w then none
          else if st.1 ≠ 0 && st.1 ≠ w then none
          else some (w, if d.len = rc.len then some d.tk else st.2)

/-- `ruler_column_alignment`, ruler.c:260-334: the column, whose `rc_nspaces` may
be changed, and the alignment, zero if there is none. The outer `none` is the
failing assertion. The subtraction wraps. -/
def columnAlignment (rc : Column) : Option (Column × Nat) :=
  match senseSpaces rc with
  | none => some (rc, 0)
  | some nspaces =>
    match rc.datums.foldlM (senseStep rc nspaces) (0, none) with
    | none => some (rc, 0)
    | some (_, none) => none
    | some (cno, some tk) =>
      some ({ rc with nspaces },
        (((rc.len : Int) + cno - Knfmt.Util.strwidth tk.str tk.cno) % 2 ^ 32).toNat)

/-- `struct ruler_length`, ruler.c:36-39. -/
structure Length where
  max : Nat
  tabalign : Bool
deriving DecidableEq, Repr

/-- The code under the label `tabs` in `ruler_column_length`, ruler.c:359-363. -/
def tabsLength (rc : Column) : Length :=
  { max := if minimize rc then rc.len else rc.len + 1, tabalign := true }

/-- `ruler_column_length`, ruler.c:336-369: the inner `none` if it returns
non-zero. -/
def columnLength (rl : Ruler) (rc : Column) : Option (Column × Option Length) :=
  if rl.flags.min then some (rc, some ⟨rc.len + 1, rl.flags.tabs⟩)
  else if rl.flags.max then some (rc, some ⟨rl.align, rl.flags.tabs⟩)
  else if rl.flags.fixed then some (rc, some ⟨rl.align, rl.flags.tabs⟩)
  else if rl.flags.sense then
    match columnAlignment rc with
    | none => none
    | some (rc, 0) =>
      if rc.ntabs > 0 && rc.ntabs ≥ rc.datums.length / 4 then some (rc, some (tabsLength rc))
      else some (rc, none)
    | some (rc, m + 1) => some (rc, some ⟨m + 1, decide (rc.ntabs > 0)⟩)
  else if rl.flags.tabs then some (rc, some (tabsLength rc))
  else some (rc, some ⟨0, false⟩)

/-- The value of the document of a datum as allocated by `ruler_insert_impl`,
ruler.c:102, through doc.c:488. -/
def dflt : Align := { indent := 1, spaces := 0, tabalign := false }

/-- The inner loop of `ruler_exec`, ruler.c:181-198. `doc_set_indent` changes
only `indent`, doc.c:420-424. -/
def execDatum (rl : Ruler) (rc : Column) (len : Length) (d : Datum) : Option Align :=
  if rl.flags.fixed then some { dflt with indent := len.max }
  else if d.len > len.max then
    if rl.flags.max then some { dflt with indent := 0 } else none
  else some { indent := len.max - d.len, spaces := rc.nspaces - d.nspaces, tabalign := len.tabalign }

/-- One column in `ruler_exec`, ruler.c:174-199: the alignment of every datum. -/
def execColumn (rl : Ruler) (rc : Column) : Option (Column × List Align) :=
  match columnLength rl rc with
  | none => none
  | some (rc, none) => some (rc, rc.datums.map fun _ => dflt)
  | some (rc, some len) => (rc.datums.mapM (execDatum rl rc len)).map fun l => (rc, l)

/-- `ruler_exec_indent`, ruler.c:214-244: the indentation of every requested
document. -/
def execIndent (rl : Ruler) (rc : Column) : Option (List Int) :=
  match columnLength rl rc with
  | none => none
  | some (rc, l) =>
    let max := match l with
      | none => 0
      | some len => if len.tabalign then (len.max + 8 - 1) / 8 * 8 else len.max
    (rl.indents.getD []).mapM fun (i, pos) =>
      rc.datums[i]?.map fun d =>
        let n : Nat := if max > 0 then max + (rc.nspaces - d.nspaces) else d.len + 1
        if pos then (n : Int) else -(n : Int)

/-- `ruler_exec`, ruler.c:169-206: the alignment of every datum and the
indentation of every requested document. -/
def exec (rl : Ruler) : Option (List (List Align) × List Int) :=
  match rl.columns.mapM (execColumn rl) with
  | none => none
  | some cols =>
    if rl.indents = none then some (cols.map (·.2), [])
    else match cols with
      | [(rc, as)] => (execIndent rl rc).map fun is => ([as], is)
      | _ => none

end Knfmt.Ruler
