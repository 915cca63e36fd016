import Verif.Ruler.Stable
import Verif.Comment.Model
/-!
# cpp-align.c: aligning the backslashes of a macro
-/
namespace Knfmt.CppAlign

open Knfmt.Comment (isSpace)
open Knfmt.Doc (Align Doc Env docExec docWidth concat)
open Knfmt.Ruler (Ruler)

/-- A line ended by a backslash: what is before the white space in front of the
backslash, and that white space. -/
structure Line where
  text : List Char
  ws : List Char
deriving DecidableEq, Repr

/-- `nextline`, cpp-align.c:51-64: the line and what follows it. -/
def nextline (s : List Char) : Option (Line × List Char) :=
  match s.dropWhile (· ≠ '\n') with
  | [] => none
  | _ :: rest =>
    let l := s.takeWhile (· ≠ '\n')
    if l.getLast? = some '\\' then
      let body := l.dropLast
      let text := (body.reverse.dropWhile isSpace).reverse
      some (⟨text, body.drop text.length⟩, rest)
    else none

theorem nextline_length {s : List Char} {l : Line} {rest : List Char}
    (h : nextline s = some (l, rest)) : rest.length < s.length := by
  unfold nextline at h
  split at h
  · simp at h
  · next c r e =>
    dsimp only at h
    split at h
    · simp only [Option.some.injEq, Prod.mk.injEq] at h
      rw [← h.2]
      have := (List.dropWhile_suffix (p := fun x => decide (x ≠ '\n')) (l := s)).length_le
      rw [e] at this
      simp at this; omega
    · simp at h

/-- The loops over `nextline`, cpp-align.c:122-146 and 217-257: all the lines and
what is left. -/
def split (s : List Char) : List Line × List Char :=
  match h : nextline s with
  | none => ([], s)
  | some (l, rest) =>
    have := nextline_length h
    let r := split rest
    (l :: r.1, r.2)
termination_by s.length

/-- `enum indent_type`, cpp-align.c:22-26. -/
inductive IndentType where
  | none
  | spaces
  | tabs
deriving DecidableEq, Repr

/-- `classify_indent`, cpp-align.c:37-45; the white space is followed by a backslash. -/
def classify (l : Line) : IndentType :=
  match l.ws with
  | '\t' :: _ => .tabs
  | ' ' :: _ => .spaces
  | _ => .none

/-- `is_not_aligned`, cpp-align.c:66-70. -/
def isNotAligned (l : Line) : Bool := (l.ws ++ ['\\']).take 2 = [' ', '\\']

/-- The column computed in `sense_alignment`, cpp-align.c:135. -/
def col (l : Line) : Nat := Knfmt.Ruler.colwidth (l.text ++ l.ws ++ ['\\']) 1

/-- `lines[i].width` in `sense_alignment`, cpp-align.c:140. -/
def width (l : Line) : Nat := col l - 2

/-- `all_identical`, cpp-align.c:72-88. -/
def allIdentical : List Line → Bool
  | a :: b :: ls =>
    decide (width a = width b) &&
    (decide (classify a = .none) || decide (classify b = .none) || decide (classify a = classify b)) &&
    allIdentical (b :: ls)
  | _ => true

/-- `all_tabs`, cpp-align.c:102-113. -/
def allTabs (ls : List Line) : Bool :=
  ls.all fun l => decide (classify l = .none) || decide (classify l = .tabs)

/-- The values of `AlignEscapedNewlines`, style.h. -/
inductive Mode where
  | dontAlign
  | left
  | right
  | other
deriving DecidableEq, Repr

/-- What is read of the style: `AlignEscapedNewlines`, `ColumnLimit`, `IndentWidth`
and `style_use_tabs`. -/
structure Style where
  mode : Mode := .right
  limit : Nat := 80
  indentWidth : Nat := 8
  useTabs : Bool := true
deriving DecidableEq, Repr

/-- `struct alignment`, cpp-align.c:28-35, without the indentation. -/
structure Alignment where
  mode : Mode
  width : Nat := 0
  tabs : Bool := false
  skip : Bool := false
deriving DecidableEq, Repr

/-- `sense_alignment`, cpp-align.c:115-164, on the lines of the macro. A line
ended by a backslash has at least two characters. -/
def sense (st : Style) (all : List Line) : Option Alignment :=
  let lines := all.take 3
  if lines.any fun l => decide (col l > st.limit) then none
  else if lines.all isNotAligned then some { mode := .dontAlign }
  else if decide (lines.length ≥ 3) && allIdentical lines.tail then
    some {
      mode := .right
      width := (lines.getLast?.map width).getD 0
      tabs := allTabs lines
      skip := (lines.head?.map isNotAligned).getD false }
  else none

/-- The alignment in `cpp_align`, cpp-align.c:173-177 and 191-196. The subtraction
wraps. -/
def alignment (st : Style) (lines : List Line) : Alignment :=
  (sense st lines).getD {
    mode := st.mode
    width := (((st.limit : Int) - st.indentWidth) % 2 ^ 32).toNat
    tabs := st.useTabs }

/-- The ruler made by `cpp_align`, cpp-align.c:197-211. -/
def rulerInit (al : Alignment) : Option Ruler :=
  match al.mode with
  | .dontAlign => some (Knfmt.Ruler.init 1 { fixed := true })
  | .left => some (Knfmt.Ruler.init 0 (if al.tabs then { tabs := true } else { min := true }))
  | .right => some (Knfmt.Ruler.init al.width { max := true, tabs := al.tabs })
  | .other => none

/-- `doc_literal`, doc.c:547-557: a text ends at the first NUL. -/
def cstr (s : List Char) : List Char := s.takeWhile (· ≠ '\x00')

/-- The literal of a line, cpp-align.c:229-235. -/
def textDoc (l : Line) : Doc :=
  if l.text = [] then .nil else .seq (.literal (cstr l.text) none) .nil

/-- The width of a line, cpp-align.c:236-243. -/
def textWidth (env : Env) (l : Line) : Nat := docWidth env (textDoc l)

/-- The document of a line, cpp-align.c:224-252: `none` is the line that is skipped. -/
def lineDoc (l : Line) (a : Option Align) : Doc :=
  .seq (textDoc l) (.seq (match a with | none => .literal [' '] none | some a => .align a)
    (.seq (.literal ['\\'] none) (.seq .hardline .nil)))

/-- The document of the macro, cpp-align.c:214-264. -/
def macroDoc (ls : List (Line × Option Align)) (rest : List Char) : Doc :=
  match ls with
  | [] => if rest = [] then .nil else .seq (.literal (cstr rest) none) .nil
  | (l, a) :: ls => .seq (lineDoc l a) (macroDoc ls rest)

/-- What `cpp_align` does: nothing, fail an assertion, or return a new text. -/
inductive Result where
  | unchanged
  | failed
  | aligned (s : List Char)
deriving DecidableEq, Repr

/-- `cpp_align`, cpp-align.c:169-282. The token given to the ruler is only read
with `RULER_ALIGN_SENSE`. -/
def cppAlign (st : Style) (s : List Char) : Result :=
  let env : Env := { limit := st.limit, useTabs := st.useTabs }
  let ls := (split s).1
  let rest := (split s).2
  if ls = [] then .unchanged
  else
    let al := alignment st ls
    match rulerInit al with
    | none => .unchanged
    | some rl =>
      if ls.length ≤ 1 then .unchanged
      else
        let es := if al.skip then ls.tail else ls
        match Knfmt.Ruler.exec (es.foldl (fun rl l =>
          (Knfmt.Ruler.insert rl { tk := { str := [] }, len := textWidth env l } 1).getD rl) rl) with
        | none => .failed
        | some (as, _) =>
          let as := (if al.skip then [none] else []) ++ (as.headD []).map some
          .aligned (docExec env false [] (macroDoc (ls.zip as) rest)).buf.reverse

end Knfmt.CppAlign
