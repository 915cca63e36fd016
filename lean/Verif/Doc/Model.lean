import Verif.Util.Model
import Verif.Diff.Model
import Verif.Lexer.Model
/-! Model of the document printer, doc.c.

Simplifications used throughout: the `unsigned int` and `int` fields of the
printer state are unbounded numbers, a boolean where only being zero matters;
tracing and allocation failures are left out. Failed assertions and reads out of
bounds set the sticky flag `ub`. -/
namespace Knfmt.Doc
open Knfmt.Util

/-- The parts of `struct token` the printer looks at, token.h:16-46: the pointer
as `id`, `tk_lno`, `tk_str` and whether `tk_flags` has `TOKEN_FLAG_DIFF`. -/
structure Tok where
  id : Nat
  lno : Nat := 0
  str : List Char := []
  diff : Bool := false
deriving DecidableEq, Repr

/-- `struct doc_align`, doc.h:62-66. -/
structure Align where
  indent : Nat
  spaces : Nat
  tabalign : Bool
deriving DecidableEq, Repr

/-- `struct doc_minimize`, doc.h:42-60: the indentation and the flag
`DOC_MINIMIZE_FORCE` as given by the caller. -/
structure Minimizer where
  indent : Nat
  force : Bool := false
deriving DecidableEq, Repr

/-- `struct doc`, doc.c:45-72, and `enum doc_type`, doc.h:8-26. The list of children of a
`DOC_CONCAT` is right nested, `c₁.seq (c₂.seq … nil)`; a minimizing document has
an `id`, standing for its address. `DOC_LITERAL` made by `doc_literal` has no
token. -/
inductive Doc where
  | nil
  | seq (d ds : Doc)
  | group (d : Doc)
  | indent (n : Int) (d : Doc)
  | noindent (d : Doc)
  | align (a : Align)
  | literal (s : List Char) (tk : Option Tok)
  | verbatim (s : List Char) (tk : Tok)
  | line
  | softline (n : Int)
  | hardline
  | optline
  | mute (n : Int)
  | unmute (n : Int)
  | optional (d : Doc)
  | minimize (id : Nat) (ms : List Minimizer) (d : Doc)
  | scope (d : Doc)
  | maxlines (n : Nat) (d : Doc)
deriving DecidableEq, Repr

/-- A `DOC_CONCAT` document with the given children. -/
def concat (l : List Doc) : Doc := l.foldr Doc.seq Doc.nil

/-- `enum doc_mode`, doc.c:89-92. -/
inductive Mode where
  | brk
  | munge
deriving DecidableEq, Repr

/-- `st_diff`, doc.c:94-102. `struct doc *group` is the document itself; `stop` is
the field `end`. -/
structure DiffSt where
  verbatim : Option Nat := none
  group : Option Doc := none
  many : Bool := false
  mute : Int := 0
  beg : Nat := 1
  stop : Nat := 0
  muteline : Bool := false
deriving DecidableEq, Repr

/-- `struct doc_state`, doc.c:76-137, as initialised by `doc_state_init`,
doc.c:1757-1777. `buf` is the output buffer, last byte first; `forced` holds the
flags `DOC_MINIMIZE_FORCE` set on documents while running (document, index);
`idx` and `force` are -1 if `none`. -/
structure St where
  buf : List Char := []
  mode : Mode := .brk
  df : DiffSt := {}
  cur : Nat := 0
  pre : Nat := 0
  idx : Option Nat := none
  force : Option Nat := none
  statLines : Nat := 0
  statExceeds : Nat := 0
  col : Nat := 0
  refit : Bool := false
  parens : Nat := 0
  maxlines : Nat := 2
  nlines : Nat := 0
  newline : Bool := false
  muteline : Bool := false
  optline : Nat := 0
  mute : Int := 0
  forced : List (Nat × Nat) := []
  ub : Bool := false
deriving DecidableEq, Repr

/-- What the printer needs to know in diff mode: the chunks and `lexer_get_lines`. -/
structure DiffEnv where
  chunks : List Diff.Chunk
  getLines : Nat → Nat → Lexer.GetLines

/-- The arguments of `doc_exec` that do not change, doc.h:28-40: the style's
`ColumnLimit`, `style_use_tabs` and, in diff mode (`DOC_EXEC_DIFF`), the diff. -/
structure Env where
  limit : Nat := 80
  useTabs : Bool := true
  diff : Option DiffEnv := none

/-- The characters dropped by `doc_trim_spaces`. -/
def blank (c : Char) : Bool := c = ' ' || c = '\t'

/-- The loop of `doc_trim_spaces`, doc.c:1262-1272. -/
def trimLoop : List Char → Nat → List Char × Nat
  | [], col => ([], col)
  | c :: b, col =>
    if blank c then trimLoop b (col - (if c = '\t' then 8 - col % 8 else 1))
    else (c :: b, col)

/-- `doc_trim_spaces`, doc.c:1255-1277. -/
def trimSpaces (σ : St) : St :=
  let r := trimLoop σ.buf σ.col
  { σ with buf := r.1, col := r.2 }

/-- `doc_column`, doc.c:1724-1739: only the effect on the state. -/
def column (env : Env) (σ : St) (s : List Char) : St :=
  let col := strwidth s σ.col
  { σ with
    col := col
    statExceeds :=
      if col > env.limit then
        σ.statExceeds + (if σ.col < env.limit then col - env.limit else col - σ.col)
      else σ.statExceeds }

/-- `doc_print_indent1`, doc.c:1177-1185. -/
def printIndent1 (σ : St) (indent : Nat) (usetabs : Bool) : St :=
  let r := strindent indent usetabs σ.col
  { σ with buf := r.1.reverse ++ σ.buf, col := r.2 }

/-- `doc_print_indent`, doc.c:1164-1175. -/
def printIndent (env : Env) (σ : St) (indent : Nat) : St :=
  if σ.parens > 0 then printIndent1 σ (σ.pre + σ.parens) env.useTabs
  else printIndent1 { σ with pre := indent } indent env.useTabs

/-- `doc_diff_is_mute`, doc.c:1641-1646. -/
def diffIsMute (env : Env) (σ : St) : Bool :=
  env.diff.isSome && (σ.df.stop = 0 || σ.df.verbatim.isSome)

/-- `doc_is_mute`, doc.c:1679-1683. -/
def isMute (env : Env) (σ : St) : Bool := σ.mute ≠ 0 || diffIsMute env σ

/-- Flags given to `doc_print`, doc.c:336-341. -/
structure PF where
  indent : Bool := false
  newline : Bool := false
  force : Bool := false
deriving DecidableEq, Repr

/-- The new line written by `doc_print`, doc.c:1213-1247 with `isnewline`. -/
def newLine (env : Env) (f : PF) (ismute : Bool) (σ : St) : St :=
  let σ := { σ with
    nlines := σ.nlines + 1
    statLines := if f.force then σ.statLines else σ.statLines + 1
    optline := if f.newline then σ.optline else 0 }
  let σ := trimSpaces σ
  let σ := { σ with idx := if σ.force ≠ none then none else σ.idx }
  let σ := { σ with buf := if ismute then σ.buf else '\n' :: σ.buf }
  column env σ ['\n']

/-- The part of `doc_print` emitting a new line, doc.c:1213-1253 with `isnewline`. -/
def emitLine (env : Env) (f : PF) (ismute : Bool) (σ : St) : St :=
  if σ.nlines ≥ σ.maxlines then σ
  else if f.indent then printIndent env (newLine env f ismute σ) (newLine env f ismute σ).cur
  else newLine env f ismute σ

/-- The part of `doc_print` emitting anything else, doc.c:1236-1253 without
`isnewline`. -/
def emitText (env : Env) (ismute : Bool) (s : List Char) (σ : St) : St :=
  let σ := { σ with nlines := 0 }
  let σ := { σ with buf := if ismute then σ.buf else s.reverse ++ σ.buf }
  column env σ s

/-- The recursive call of `doc_print` for a pending new line, doc.c:1204-1207. -/
def emitPending (env : Env) (f : PF) (ismute : Bool) (σ : St) : St :=
  emitLine env { f with newline := true } ismute
    { σ with refit := true, newline := false, muteline := σ.muteline || ismute }

/-- `doc_print`, doc.c:1187-1253: the state and the return value. -/
def print (env : Env) (σ : St) (s : List Char) (f : PF) : St × Bool :=
  let ismute := isMute env σ && !f.force
  let isnewline : Bool := s = ['\n']
  let σ := { σ with muteline := σ.muteline || (isnewline && ismute) }
  if σ.newline then
    if s = [' '] then (σ, false)
    else if isnewline then (emitPending env f ismute σ, true)
    else (emitText env ismute s (emitPending env f ismute σ), true)
  else if isnewline then (emitLine env f ismute σ, true)
  else (emitText env ismute s σ, true)

/-- `doc_state_reset_lines`, doc.c:1788-1794. -/
def resetLines (σ : St) : St :=
  { σ with nlines := 0, newline := false, muteline := false }

/-- `countlines`, doc.c:2006-2028 and parser.c:24-42: the number of new lines in a text. -/
def countlines (s : List Char) : Nat := (s.filter (· = '\n')).length

/-- `enum doc_diff_group`, doc.c:39-43. -/
inductive Covers where
  | ignore
  | notCovered
  | covered
deriving DecidableEq, Repr

/-- `struct doc_diff`, doc.c:151-164; `stop` says that the walk was ended. -/
structure DD where
  verbatim : Option Tok := none
  threshold : Nat
  first : Nat := 0
  chunk : Nat := 0
  covers : Covers := .notCovered
  goOn : Bool
  stop : Bool := false
deriving DecidableEq, Repr

/-- `doc_diff_covers` for a token, doc.c:1609-1624. -/
def coversTok (dd : DD) (tk : Tok) : DD :=
  if tk.lno < dd.threshold then { dd with stop := !dd.goOn }
  else
    let dd := { dd with first := if dd.first = 0 then tk.lno else dd.first }
    if tk.diff then { dd with chunk := tk.lno, covers := .covered, stop := true }
    else dd

/-- `doc_walk`, doc.c:1016-1060, with `doc_diff_covers`, doc.c:1599-1635. The
explicit stack of the walk is the recursion. -/
def coversWalk : Doc → DD → DD
  | .seq d ds, dd => coversWalk ds (coversWalk d dd)
  | .group d, dd | .indent _ d, dd | .noindent d, dd | .optional d, dd
  | .minimize _ _ d, dd | .scope d, dd | .maxlines _ d, dd => coversWalk d dd
  | .literal _ (some tk), dd => if dd.stop then dd else coversTok dd tk
  | .verbatim _ tk, dd =>
    if dd.stop then dd
    else coversTok { dd with verbatim := if tk.diff then dd.verbatim else some tk } tk
  | .hardline, dd => if dd.stop then dd else { dd with covers := .ignore, stop := true }
  | _, dd => dd

/-- `doc_diff_group_has_many_chunks`, doc.c:1455-1467. -/
def hasManyChunks (g : Doc) (threshold : Nat) : Bool :=
  (coversWalk g { threshold := threshold, goOn := true }).covers = .covered

/-- `doc_diff_emit`, doc.c:1571-1593. -/
def diffEmit (env : Env) (de : DiffEnv) (σ : St) (beg stop : Nat) : St :=
  match de.getLines beg stop with
  | .fail => σ
  | .undefined => { σ with ub := true }
  | .text s =>
    let σ := (print env (trimSpaces (resetLines σ)) s { force := true }).1
    printIndent env σ σ.cur

/-- The end of `doc_diff_group_enter`, doc.c:1370-1442: the group is covered by a
diff chunk. -/
def enterCovered (env : Env) (de : DiffEnv) (σ : St) (g : Doc) (dd : DD) : St :=
  let σ := { σ with df := { σ.df with group := some g } }
  if σ.df.stop > 0 then σ
  else
    match Diff.getChunk de.chunks dd.chunk with
    | none => σ
    | some du =>
      let σ := { σ with
        df := { σ.df with
          many := hasManyChunks g (du.end_ + 1) || σ.df.many
          stop := du.end_
          mute := σ.mute
          verbatim := match dd.verbatim with | some tk => some tk.id | none => σ.df.verbatim }
        mute := 0 }
      diffEmit env de σ σ.df.beg
        (match dd.verbatim with
          | some tk => tk.lno + countlines tk.str
          | none => dd.first)

/-- `doc_diff_group_enter`, doc.c:1300-1442, called from `doc_diff_leave`: nested,
and `st_diff.end` is zero so that no chunk is left on the way. -/
def groupEnterNested (env : Env) (de : DiffEnv) (σ : St) (g : Doc) : St :=
  let dd := coversWalk g { threshold := σ.df.beg, goOn := true }
  match dd.covers with
  | .ignore => σ
  | .notCovered => { σ with df := { σ.df with group := some g } }
  | .covered => enterCovered env de σ g dd

/-- `doc_diff_leave_impl`, doc.c:1648-1677. -/
def leave (env : Env) (de : DiffEnv) (σ : St) (stop : Nat) : St :=
  if stop = 0 then σ
  else
    let σ := { σ with
      ub := σ.ub || σ.df.stop = 0 || σ.df.verbatim.isSome
      mute := σ.df.mute
      df := { σ.df with beg := σ.df.stop + stop, stop := 0, mute := 0 } }
    let σ := if σ.newline then (print env σ ['\n'] { force := true }).1 else σ
    if σ.df.many then
      match σ.df.group with
      | some g => groupEnterNested env de σ g
      | none => { σ with ub := true }
    else σ

/-- `doc_diff_group_enter`, doc.c:1300-1442, called from `doc_exec1`. -/
def groupEnter (env : Env) (σ : St) (g : Doc) : St × Bool :=
  match env.diff with
  | none => (σ, false)
  | some de =>
    if σ.df.group.isSome then (σ, false)
    else
      let dd := coversWalk g { threshold := σ.df.beg, goOn := false }
      match dd.covers with
      | .ignore => (σ, false)
      | .notCovered =>
        let σ := if σ.df.stop > 0 then leave env de σ 1 else σ
        ({ σ with df := { σ.df with group := some g } }, true)
      | .covered =>
        let σ := if σ.df.stop > 0 ∧ dd.first > σ.df.stop then leave env de σ 1 else σ
        (enterCovered env de σ g dd, true)

/-- `doc_diff_group_leave`, doc.c:1444-1453. -/
def groupLeave (env : Env) (σ : St) (enter : Bool) : St :=
  if enter && env.diff.isSome then
    { σ with
      ub := σ.ub || σ.df.group.isNone
      df := { σ.df with group := none, many := false } }
  else σ

/-- `doc_diff_mute_enter`, doc.c:1469-1475. -/
def diffMuteEnter (env : Env) (σ : St) : St :=
  if diffIsMute env σ then σ else { σ with df := { σ.df with muteline := true } }

/-- `doc_diff_mute_leave`, doc.c:1477-1490. -/
def diffMuteLeave (env : Env) (σ : St) : St :=
  match env.diff with
  | none => σ
  | some _ =>
    let σ := if σ.df.muteline && σ.muteline then
        (print env (resetLines σ) ['\n'] { force := true }).1 else σ
    { σ with df := { σ.df with muteline := false } }

/-- `doc_diff_literal`, doc.c:1492-1516. -/
def diffLiteral (env : Env) (σ : St) (tk : Option Tok) : St :=
  match env.diff, tk with
  | some de, some tk =>
    if σ.df.stop = 0 then σ
    else if σ.df.group.isSome then
      { σ with df := { σ.df with stop := if tk.lno > σ.df.stop then tk.lno else σ.df.stop } }
    else if tk.lno > σ.df.stop then leave env de σ 1
    else σ
  | _, _ => σ

/-- `doc_diff_verbatim`, doc.c:1518-1551. -/
def diffVerbatim (env : Env) (σ : St) (s : List Char) (tk : Tok) : St × Nat :=
  match env.diff with
  | none => (σ, 0)
  | some de =>
    if tk.lno = 0 ∨ σ.df.stop = 0 then (σ, 0)
    else if tk.lno > σ.df.stop then (leave env de σ 1, 0)
    else
      let n := countlines s
      if n > 0 ∧ tk.lno + n > σ.df.stop then (σ, tk.lno + n - σ.df.stop) else (σ, 0)

/-- The last `doc_diff_leave` of `doc_exec_verbatim`, doc.c:856. -/
def diffLeave (env : Env) (σ : St) (stop : Nat) : St :=
  match env.diff with
  | none => σ
  | some de => leave env de σ stop

/-- `doc_diff_exit`, doc.c:1553-1566. -/
def diffExit (env : Env) (σ : St) : St :=
  match env.diff with
  | none => σ
  | some de =>
    let σ := if σ.df.stop > 0 then leave env de σ 1 else σ
    diffEmit env de σ σ.df.beg 0

/-- State of `doc_fits1`, doc.c:1089-1162: the copy of the printer state it may
change and whether the walk was ended. -/
structure FitSt where
  col : Nat
  optline : Nat
  fits : Bool := true
  stop : Bool := false
deriving DecidableEq, Repr

/-- The end of `doc_fits1`, doc.c:1157-1161. -/
def fitCheck (env : Env) (φ : FitSt) : FitSt :=
  if φ.col > env.limit then { φ with fits := false, stop := true } else φ

/-- The tab loop of `doc_fits1`, doc.c:1104-1110: the column and what is left of
the indentation. -/
def fitTabs (col : Nat) : Nat → Nat
  | 0 => col
  | n + 1 => fitTabs (strwidth ['\t'] col) (n + 1 - (8 - col % 8))
termination_by n => n

/-- `doc_walk`, doc.c:1016-1060, with `doc_fits1`, doc.c:1089-1162, for a document
entered without pending new line. -/
def fitsWalk (env : Env) : Doc → FitSt → FitSt
  | d, φ =>
    if φ.stop then φ
    else
      match d with
      | .nil => φ
      | .seq d ds => fitsWalk env ds (fitsWalk env d φ)
      | .group d | .indent _ d | .noindent d | .minimize _ _ d | .scope d | .maxlines _ d =>
        fitsWalk env d (fitCheck env φ)
      | .optional d => fitsWalk env d (fitCheck env { φ with optline := φ.optline + 1 })
      | .align a =>
        fitCheck env { φ with
          col := if a.tabalign then fitTabs φ.col a.indent + a.spaces
            else φ.col + a.indent + a.spaces }
      | .literal s _ => fitCheck env { φ with col := strwidth s φ.col }
      | .verbatim s _ =>
        if s.getLast? = some '\n' then fitCheck env φ
        else fitCheck env { φ with col := strwidth s φ.col }
      | .line => fitCheck env { φ with col := φ.col + 1 }
      | .optline =>
        if φ.optline ≠ 0 then { φ with stop := true } else fitCheck env φ
      | .softline _ | .hardline | .mute _ | .unmute _ => fitCheck env φ

/-- `doc_fits`, doc.c:1062-1087. With a pending new line the walk ends at once,
doc.c:1094-1097. -/
def fits (env : Env) (σ : St) (d : Doc) : Bool :=
  if σ.newline then σ.col ≤ env.limit
  else (fitsWalk env d { col := σ.col, optline := σ.optline }).fits

/-- `doc_parens_align`, doc.c:1694-1712. -/
def parensAlign (buf : List Char) : Bool :=
  let r := buf.dropWhile (· = '(')
  decide (buf.head? = some '(') && !r.isEmpty && (r.takeWhile (· ≠ '\n')).all blank

/-- `IS_DOC_INDENT_*`, doc.c:28-35, for the sentinels in doc.h:92-104. -/
def hasBit (v : Int) (bit : Nat) : Bool := decide (v > 0) && v.toNat.testBit bit

/-- The first half of `doc_exec_indent`, doc.c:749-771. -/
def indentEnter (env : Env) (v : Int) (σ : St) : St :=
  if hasBit v 30 then
    { σ with parens := if parensAlign σ.buf then σ.parens + 1 else σ.parens }
  else if hasBit v 29 then printIndent env σ σ.cur
  else if hasBit v 28 then
    { σ with cur := if σ.statLines > 0 then σ.cur + (v.toNat - 2 ^ 28) else σ.cur }
  else if hasBit v 27 then { σ with cur := if σ.newline then σ.cur else σ.col }
  else { σ with cur := if v > 0 then σ.cur + v.toNat else σ.cur - (-v).toNat }

/-- `doc_exec_indent`, doc.c:746-781; `f` executes the child. The sentinel
`DOC_INDENT_NEWLINE` is cleared by subtraction. -/
def execIndent (env : Env) (v : Int) (f : St → St) (σ : St) : St :=
  let τ := f (indentEnter env v σ)
  if hasBit v 30 then { τ with parens := σ.parens }
  else if hasBit v 29 then τ
  else { τ with cur := σ.cur }

/-- The tab loop of `doc_exec_align`, doc.c:789-794. A round always advances. -/
def alignTabs (σ : St) (indent : Nat) : St :=
  if indent = 0 then σ
  else
    let τ := printIndent1 σ 8 true
    let n := τ.col - σ.col
    if _h : indent - n < indent then alignTabs τ (indent - n) else { τ with ub := true }
termination_by indent

/-- `doc_exec_align`, doc.c:783-800. -/
def execAlign (a : Align) (σ : St) : St :=
  if a.tabalign then printIndent1 (alignTabs σ a.indent) a.spaces false
  else printIndent1 σ (a.indent + a.spaces) false

/-- `doc_exec_verbatim`, doc.c:802-857. -/
def execVerbatim (env : Env) (s : List Char) (tk : Tok) (σ : St) : St :=
  if isMute env σ && !(env.diff.isSome && σ.df.verbatim = some tk.id) then σ
  else
    let r := diffVerbatim env σ s tk
    let isblock : Bool := s.length > 1 && s.getLast? = some '\n'
    let isnewline : Bool := s = ['\n']
    let σ := trimSpaces r.1
    let oldcol := σ.col
    let σ := { σ with newline := σ.newline || (isblock && σ.col > 0) }
    let σ := (print env σ s {}).1
    let σ := if env.diff.isSome ∧ σ.df.verbatim = some tk.id then
        { σ with df := { σ.df with verbatim := none } } else σ
    let σ := if isblock || isnewline then
        printIndent env σ (if oldcol > 0 then σ.cur else σ.pre) else σ
    diffLeave env σ r.2

/-- `doc_exec_mute`, doc.c:971-997; `n` is the value of the document and `isMuteDoc`
says that it is a `DOC_MUTE`. -/
def execMute (env : Env) (n : Int) (isMuteDoc : Bool) (σ : St) : St :=
  let σ := if σ.mute = 0 ∧ n > 0 then diffMuteEnter env σ else σ
  let σ := { σ with mute := if n > 0 ∨ σ.mute ≥ -n then σ.mute + n else σ.mute }
  if σ.mute = 0 then
    let σ := diffMuteLeave env σ
    let m := σ.muteline
    let σ := resetLines σ
    { σ with newline := isMuteDoc && m }
  else σ

/-- `doc_exec_minimize_indent1`, doc.c:958-969. -/
def minimize1 (env : Env) (id : Nat) (ms : List Minimizer) (f : St → St) (σ : St) (i : Nat) : St :=
  match ms[i]? with
  | none => { σ with ub := true }
  | some m =>
    execIndent env m.indent f
      { σ with force := if m.force ∨ (id, i) ∈ σ.forced then some i else σ.force }

/-- State after one round of the first loop of `doc_exec_minimize_indent`,
doc.c:894-912: the saved state with the flags set on documents, and the lines and
exceeding columns counted. -/
def trial (env : Env) (id : Nat) (ms : List Minimizer) (f : St → St) (sn : St)
    (σ : St) (i : Nat) : St × Nat × Nat :=
  let τ := minimize1 env id ms f
    { σ with statLines := 0, statExceeds := 0, force := none, idx := some i } i
  ({ sn with
      forced := if τ.force ≠ none then (id, i) :: τ.forced else τ.forced
      ub := τ.ub }, τ.statLines, τ.statExceeds)

/-- The first loop of `doc_exec_minimize_indent`, doc.c:894-912. -/
def trials (env : Env) (id : Nat) (ms : List Minimizer) (f : St → St) (sn : St) :
    St → List Nat → St × List (Nat × Nat)
  | σ, [] => (σ, [])
  | σ, i :: is =>
    let r := trial env id ms f sn σ i
    let rs := trials env id ms f sn r.1 is
    (rs.1, r.2 :: rs.2)

/-- The largest of some numbers, doc.c:905-910. -/
def maximum : List Nat → Nat := List.foldl max 0

/-- The penalty of a candidate, doc.c:919-924, scaled by twice the maxima. The
quotients are exact instead of floating point numbers. -/
def penalty (ml me : Nat) (p : Nat × Nat) : Nat := p.1 * max 1 me + p.2 * max 1 ml

/-- The second loop of `doc_exec_minimize_indent`, doc.c:915-935, over the penalties
and the flags `DOC_MINIMIZE_FORCE`. -/
def bestLoop : List (Nat × Bool) → Nat → Option (Nat × Nat) → Option Nat
  | [], _, b => b.map (·.2)
  | (p, forced) :: l, i, b =>
    if forced then some i
    else
      match b with
      | none => bestLoop l (i + 1) (some (p, i))
      | some (q, _) => if p < q then bestLoop l (i + 1) (some (p, i)) else bestLoop l (i + 1) b

/-- The flag `DOC_MINIMIZE_FORCE` of the candidate `i`. -/
def isForced (id : Nat) (ms : List Minimizer) (σ : St) (i : Nat) : Bool :=
  (ms[i]?.map (·.force)).getD false || decide ((id, i) ∈ σ.forced)

/-- The choice made by `doc_exec_minimize_indent`, doc.c:894-935: the state after all
trials and the candidate. -/
def choose (env : Env) (id : Nat) (ms : List Minimizer) (f : St → St) (σ : St) :
    St × Option Nat :=
  let is := List.range ms.length
  let r := trials env id ms f σ σ is
  let ml := maximum (r.2.map (·.1))
  let me := maximum (r.2.map (·.2))
  (r.1, bestLoop ((r.2.map (penalty ml me)).zip (is.map (isForced id ms r.1))) 0 none)

/-- `doc_exec_minimize_indent`, doc.c:870-956; `f` executes the child. -/
def execMinimize (env : Env) (id : Nat) (ms : List Minimizer) (f : St → St) (σ : St) : St :=
  match σ.idx with
  | some i => minimize1 env id ms f σ i
  | none =>
    match choose env id ms f σ with
    | (σ, none) => { σ with ub := true }
    | (σ, some best) => { minimize1 env id ms f { σ with idx := some best } best with idx := none }

/-- `doc_exec1`, doc.c:608-744. -/
def exec (env : Env) : Doc → St → St
  | .nil, σ => σ
  | .seq d ds, σ => exec env ds (exec env d σ)
  | .group d, σ =>
    let e := groupEnter env σ (.group d)
    let σ := e.1
    let σ :=
      if σ.mode = .munge ∧ σ.refit = false then exec env d σ
      else
        let old := σ.mode
        let σ := { σ with refit := false }
        { exec env d { σ with mode := if fits env σ (.group d) then .munge else .brk } with
          mode := old }
    groupLeave env σ e.2
  | .indent n d, σ => execIndent env n (exec env d) σ
  | .noindent d, σ =>
    let σ := trimSpaces σ
    { exec env d { σ with cur := 0, pre := 0 } with cur := σ.cur, pre := σ.pre }
  | .align a, σ => execAlign a σ
  | .literal s tk, σ => (print env (diffLiteral env σ tk) s { indent := true }).1
  | .verbatim s tk, σ => execVerbatim env s tk σ
  | .line, σ =>
    match σ.mode with
    | .brk => (print env σ ['\n'] { indent := true }).1
    | .munge =>
      let r := print env σ [' '] { indent := true }
      { r.1 with refit := r.1.refit || r.2 }
  | .softline _, σ =>
    match σ.mode with
    | .brk => (print env σ ['\n'] { indent := true }).1
    | .munge => σ
  | .hardline, σ => (print env σ ['\n'] { indent := true }).1
  | .optline, σ => { σ with newline := σ.newline || σ.optline ≠ 0 }
  | .mute n, σ => execMute env n true σ
  | .unmute n, σ => execMute env n false σ
  | .optional d, σ =>
    let old := σ.optline
    let σ := exec env d { σ with optline := σ.optline + 1 }
    { σ with optline := if old ≤ σ.optline then old else σ.optline }
  | .minimize id ms d, σ => execMinimize env id ms (exec env d) σ
  | .scope d, σ => exec env d { σ with statLines := 0 }
  | .maxlines n d, σ =>
    { exec env d { σ with maxlines := n } with maxlines := σ.maxlines }

/-- `doc_trim_lines`, doc.c:1284-1298, on the buffer, last byte first. -/
def trimLines : List Char → List Char
  | '\n' :: '\n' :: b => trimLines ('\n' :: b)
  | b => b

/-- `doc_exec`, doc.c:374-387, appending to the given buffer; `trim` is the flag
`DOC_EXEC_TRIM`. -/
def docExec (env : Env) (trim : Bool) (buf : List Char) (d : Doc) : St :=
  let σ := exec env d { buf := buf.reverse }
  let σ := { σ with buf := if trim then trimLines σ.buf else σ.buf }
  diffExit env σ

/-- `doc_width`, doc.c:389-398. -/
def docWidth (env : Env) (d : Doc) : Nat := (exec env d { mode := .munge }).col

end Knfmt.Doc
