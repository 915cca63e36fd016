import Verif.Str.Model
/-!
# util.c

Columns are natural numbers; the C code uses `unsigned int` for `colwidth` and
`size_t` for `strwidth`, wrap-around at 2^32 columns is not modelled.
-/
namespace Knfmt.Util

open Knfmt.Str

/-- The range string `"\t\t\n\n"`, util.c:19 and util.c:48. -/
def tabNl : List (Char × Char) := [('\t', '\t'), ('\n', '\n')]

/-- The inner loop of `strwidth`, util.c:53-62. -/
def strwidthInner : Nat → List Char → Nat × List Char
  | pos, [] => (pos, [])
  | pos, c :: s =>
    if c = '\t' then strwidthInner (pos + (8 - pos % 8)) s
    else if c = '\n' then strwidthInner 0 s
    else (pos, c :: s)

/-- The outer loop of `strwidth`, util.c:45-63, with a bound on the number of
iterations; `none` is a loop that has not ended within the bound. `until` is the
function `KS_str_match_until` points to. -/
def strwidthLoop (until_ : List (Char × Char) → List Char → Nat) :
    Nat → List Char → Nat → Option Nat
  | _, [], pos => some pos
  | 0, _ :: _, _ => none
  | fuel + 1, c :: s, pos =>
    let n := until_ tabNl (c :: s)
    let r := strwidthInner (pos + n) ((c :: s).drop n)
    strwidthLoop until_ fuel r.2 r.1

/-- `strwidth`, util.c:42-66. The bound is the number of bytes. -/
def strwidthWith (until_ : List (Char × Char) → List Char → Nat) (s : List Char) (pos : Nat) :
    Option Nat :=
  strwidthLoop until_ s.length s pos

/-- The inner loop of `colwidth`, util.c:24-33. `((cno + 8 - 1) & ~0x7u) + 1` clears
the low three bits, i.e. rounds down to a multiple of eight. -/
def colwidthInner : Nat → List Char → Nat × List Char
  | cno, [] => (cno, [])
  | cno, c :: s =>
    if c = '\t' then colwidthInner ((cno + 8 - 1) / 8 * 8 + 1) s
    else if c = '\n' then colwidthInner 1 s
    else (cno, c :: s)

/-- The outer loop of `colwidth`, util.c:16-34. -/
def colwidthLoop (until_ : List (Char × Char) → List Char → Nat) :
    Nat → List Char → Nat → Option Nat
  | _, [], cno => some cno
  | 0, _ :: _, _ => none
  | fuel + 1, c :: s, cno =>
    let n := until_ tabNl (c :: s)
    let r := colwidthInner (cno + n) ((c :: s).drop n)
    colwidthLoop until_ fuel r.2 r.1

/-- `colwidth`, util.c:13-37. -/
def colwidthWith (until_ : List (Char × Char) → List Char → Nat) (s : List Char) (cno : Nat) :
    Option Nat :=
  colwidthLoop until_ s.length s cno

/-- One step of the column computation with the portable span function; used by
the other models in place of `strwidth` (equality is `strwidth_spec`). -/
def strwidth (s : List Char) (pos : Nat) : Nat :=
  (strwidthInner' s pos)
where
  /-- Character by character version of util.c:45-63. -/
  strwidthInner' : List Char → Nat → Nat
    | [], pos => pos
    | c :: s, pos =>
      if c = '\t' then strwidthInner' s (pos + (8 - pos % 8))
      else if c = '\n' then strwidthInner' s 0
      else strwidthInner' s (pos + 1)

/-- The tab loop of `strindent_buffer`, util.c:109-112: bytes emitted, new `i`, new `pos`. -/
def strindentTabs (indent : Nat) (i pos : Nat) : List Char × Nat × Nat :=
  if i + 8 ≤ indent then
    let r := strindentTabs indent (i + 8) (pos + (8 - pos % 8))
    ('\t' :: r.1, r.2)
  else ([], i, pos)
termination_by indent - i

/-- The space loop of `strindent_buffer`, util.c:114-117. -/
def strindentSpaces (indent : Nat) (i pos : Nat) : List Char × Nat :=
  if i < indent then
    let r := strindentSpaces indent (i + 1) (pos + 1)
    (' ' :: r.1, r.2)
  else ([], pos)
termination_by indent - i

/-- `strindent_buffer`, util.c:103-119: bytes appended to the buffer and the
returned position. -/
def strindent (indent : Nat) (usetabs : Bool) (pos : Nat) : List Char × Nat :=
  let t := if usetabs then strindentTabs indent 0 pos else ([], 0, pos)
  let s := strindentSpaces indent t.2.1 t.2.2
  (t.1 ++ s.1, s.2)

/-- The loop of `path_slice`, util.c:83-87: append the components, separated
unless the buffer is still empty. -/
def pathSliceLoop : List Char → List (List Char) → List Char
  | bf, [] => bf
  | bf, p :: ps =>
    pathSliceLoop ((if bf.length > 0 then bf ++ ['/'] else bf) ++ p) ps

/-- `path_slice`, util.c:68-89. `none` if splitting does not end. -/
def pathSlice (path : List Char) (ncomponents : Nat) : Option (List Char) :=
  match split ['/'] path with
  | none => none
  | some components =>
    let n := components.length
    if n < ncomponents then some path
    else some (pathSliceLoop [] (components.drop (n - ncomponents)))

/-- `strrchr(path, '.')`, util.c:97: the suffix starting at the last dot. -/
def strrchrDot : List Char → Option (List Char)
  | [] => none
  | c :: s =>
    match strrchrDot s with
    | some t => some t
    | none => if c = '.' then some (c :: s) else none

/-- `is_path_header`, util.c:91-101. The second conjunct of line 100 is implied by
the first. -/
def isPathHeader (path : List Char) : Bool :=
  match strrchrDot path with
  | none => false
  | some dot => dot == ['.', 'h']

end Knfmt.Util
