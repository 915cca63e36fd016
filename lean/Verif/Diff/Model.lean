import Verif.Common
/-!
# diff.c: parsing of a unified diff on standard input

Bytes are characters. `unsigned int` arithmetic wraps at 2^32. Memory allocation does
not fail. The regular expressions of `diff_init` are modelled by functions returning
the leftmost longest POSIX match with its subexpressions.
-/
namespace Knfmt.Diff

abbrev Path := List Char
abbrev Line := List Char

/-- `struct diffchunk`. -/
structure Chunk where
  beg : Nat
  end_ : Nat
deriving DecidableEq, Repr

/-- A file of the list, file.h: path and chunks. -/
structure FileDiff where
  path : Path
  chunks : List Chunk
deriving DecidableEq, Repr

def isDigit (c : Char) : Bool := '0' ≤ c && c ≤ '9'

/-- `[[:space:]]` in the C locale. -/
def isSpace (c : Char) : Bool :=
  c = ' ' || c = '\t' || c = '\n' || c = '\x0b' || c = '\x0c' || c = '\r'

def digitsVal : Nat → List Char → Nat
  | acc, [] => acc
  | acc, c :: s => if isDigit c then digitsVal (acc * 10 + (c.toNat - '0'.toNat)) s else acc

def UINT_MAX : Nat := 2 ^ 32 - 1

/-- `strtou`, diff.c:203-213, at a position where a digit is: zero for a zero, for
overflow of `unsigned long` and for more than `UINT_MAX`. -/
def strtou (s : List Char) : Nat :=
  let n := digitsVal 0 s
  if n = 0 ∨ n > UINT_MAX then 0 else n

/-- Split at the last `@@`: what precedes it. -/
def beforeLastAt : List Char → Option (List Char)
  | [] => none
  | c :: s =>
    match beforeLastAt s with
    | some b => some (c :: b)
    | none => if c = '@' ∧ s.head? = some '@' then some [] else none

/-- Match `([[:digit:]]+)(,([[:digit:]]+))?.+` against all of the text, the
subexpressions as long as possible from left to right: offset of the third
subexpression, if it takes part. `none`: no match. -/
def matchNumbers (s : List Char) : Option (Option Nat) :=
  let d := (s.takeWhile isDigit).length
  if d = 0 then none
  else if d = s.length then
    -- one digit must be left to `.+`
    if d ≥ 2 then some none else none
  else
    match s.drop d with
    | ',' :: t =>
      let e := (t.takeWhile isDigit).length
      if e = 0 then some none
      else if e = t.length then (if e ≥ 2 then some (some (d + 1)) else some none)
      else some (some (d + 1))
    | _ => some none

/-- The last `+` preceded by at least one character (`first = false`) from which
`matchNumbers` succeeds: the text after it and the offset found. -/
def matchPlus : Bool → List Char → Option (List Char × Option Nat)
  | _, [] => none
  | first, c :: s =>
    match matchPlus false s with
    | some r => some r
    | none =>
      if first = false ∧ c = '+' then (matchNumbers s).map (fun o => (s, o)) else none

/-- `regexec(&rechunk, …)`: `^@@.+\+([[:digit:]]+)(,([[:digit:]]+))?.+@@`, diff.c:50.
The strings at which the first and third subexpressions start, up to the end of
what precedes the last `@@`: `strtoul` stops at the `@` at the latest. -/
def reChunk : Line → Option (List Char × Option (List Char))
  | '@' :: '@' :: s =>
    match beforeLastAt s with
    | none => none
    | some body => (matchPlus true body).map (fun r => (r.1, r.2.map (fun o => r.1.drop o)))
  | _ => none

/-- `regexec(&repath, …)`: `^\+\+\+[[:space:]]+([^[:space:]]+)`, diff.c:51, followed by
the rest of the line. -/
def rePath : Line → Option (List Char)
  | '+' :: '+' :: '+' :: s =>
    let ws := s.takeWhile isSpace
    let rest := s.dropWhile isSpace
    let path := rest.takeWhile (fun c => !isSpace c)
    if ws ≠ [] ∧ path ≠ [] then some path else none
  | _ => none

/-- `trimprefix`, diff.c:263-273. -/
def trimPrefix (s : List Char) : List Char :=
  if '/' ∈ s then (s.dropWhile (· ≠ '/')).drop 1 else s

def iterate {α} (f : α → α) : Nat → α → α
  | 0, x => x
  | n + 1, x => iterate f n (f x)

/-- The surroundings: number of directories below the repository, and which paths
exist (`stat(path) == -1 && errno == ENOENT` negated). -/
structure Env where
  gitNdirs : Nat
  present : Path → Bool

/-- `matchpath`, diff.c:170-201. -/
def matchPath (env : Env) (l : Line) : Option Path :=
  match rePath l with
  | none => none
  | some buf =>
    let buf := if buf.take 2 = ['b', '/'] then trimPrefix buf else buf
    if env.gitNdirs > 0 ∧ buf.head? ≠ some '/' ∧ env.present buf = false then
      some (iterate trimPrefix env.gitNdirs buf)
    else some buf

/-- Arithmetic on `unsigned int`. -/
@[irreducible] def wrap (n : Nat) : Nat := n % 2 ^ 32

theorem wrap_of_lt {n : Nat} (h : n < 2 ^ 32) : wrap n = n := by
  unfold wrap; exact Nat.mod_eq_of_lt h

/-- `matchchunk`, diff.c:215-239. The last line `(*sl + n) - 1` is computed with `n > 0`. -/
def matchChunk (l : Line) : Option (Nat × Nat) :=
  match reChunk l with
  | none => none
  | some (s, t) =>
    let sl := strtou s
    if sl = 0 then none
    else
      match t with
      | none => some (sl, sl)
      | some t =>
        let n := strtou t
        if n = 0 then none else some (sl, wrap (sl + (n - 1)))

/-- `diff_end`, diff.c:160-168. -/
def diffEnd (cs : List Chunk) (lno : Nat) : List Chunk :=
  match cs.getLast? with
  | some du => if du.end_ = 0 then cs.dropLast ++ [{ du with end_ := lno }] else cs
  | none => cs

/-- `matchline`, diff.c:241-261: the chunks, and whether the line counts. -/
def matchLine (l : Line) (lno : Nat) (cs : List Chunk) : List Chunk × Bool :=
  match l with
  | '-' :: _ => (cs, false)
  | '+' :: _ =>
    match cs.getLast? with
    | none => (cs ++ [⟨lno, 0⟩], true)
    | some du => if du.beg > 0 ∧ du.end_ > 0 then (cs ++ [⟨lno, 0⟩], true) else (cs, true)
  | _ => (diffEnd cs (lno - 1), true)

/-- The inner loop of `diff_parse`, diff.c:111-120: `none` if the input ends early. -/
def hunkLoop : List Line → Nat → Nat → List Chunk → Option (List Chunk × List Line)
  | [], sl, el, cs => if sl ≤ el then none else some (cs, [])
  | l :: ls, sl, el, cs =>
    if sl ≤ el then
      let r := matchLine l sl cs
      hunkLoop ls (if r.2 then wrap (sl + 1) else sl) el r.1
    else some (cs, l :: ls)

theorem hunkLoop_length {ls : List Line} {sl el : Nat} {cs cs' : List Chunk} {rest : List Line}
    (h : hunkLoop ls sl el cs = some (cs', rest)) : rest.length ≤ ls.length := by
  induction ls generalizing sl cs with
  | nil =>
    unfold hunkLoop at h
    split at h
    · simp at h
    · simp at h; simp [← h.2]
  | cons l ls ih =>
    unfold hunkLoop at h
    split at h
    · have := ih h; simp; omega
    · simp at h; simp [← h.2]

/-- `diff_parse`, diff.c:82-144: the outer loop. `none` is an error. The current file
`fe` is the last one. -/
def parseLoop (env : Env) (ls : List Line) (files : List FileDiff) : Option (List FileDiff) :=
  match ls with
  | [] => some files
  | l :: ls =>
    match matchPath env l with
    | some path => parseLoop env ls (files ++ [⟨path, []⟩])
    | none =>
      match matchChunk l with
      | none => parseLoop env ls files
      | some (sl, el) =>
        match files.getLast? with
        | none => none
        | some fe =>
          match _h : hunkLoop ls sl el fe.chunks with
          | none => none
          | some (cs, rest) =>
            parseLoop env rest (files.dropLast ++ [{ fe with chunks := diffEnd cs el }])
termination_by ls.length
decreasing_by
  · simp
  · simp
  · have := hunkLoop_length _h; simp; omega

/-- Lines as returned by `buffer_getline`, libks/buffer.c:279-300: the text after the
last line feed counts if it is not empty; a NUL byte ends the C string. -/
def getLines : List Char → List Line
  | [] => []
  | s@(_ :: _) =>
    let l := s.takeWhile (· ≠ '\n')
    l.takeWhile (· ≠ '\x00') :: getLines (s.drop (l.length + 1))
termination_by s => s.length

/-- `diff_parse` of the bytes on standard input. -/
def diffParse (env : Env) (input : List Char) : Option (List FileDiff) :=
  parseLoop env (getLines input) []

/-- `diff_get_chunk`, diff.c:146-158. -/
def getChunk : List Chunk → Nat → Option Chunk
  | [], _ => none
  | du :: cs, lno => if lno ≥ du.beg ∧ lno ≤ du.end_ then some du else getChunk cs lno

end Knfmt.Diff
