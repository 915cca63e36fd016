import Verif.Lexer.Token
import Verif.Comment.Model
import Verif.Util.Model
import Verif.Str.Model
/-!
# lexer.c (character level) and the reader of clang.c

The input buffer never changes while a file is read, it is a parameter `inp` of
every definition. Bytes are `Char`s with code below 256.
-/
namespace Knfmt.Lexer

open Knfmt.Str Knfmt.Util

/-- `struct lexer_state`, lexer.h:29-37, without the token cursor `st_tk` (unused
while reading) and without the `error` flag. -/
structure St where
  off : Nat
  lno : Nat
  eof : Bool
deriving DecidableEq, Repr

/-- The parts of `struct lexer` used while reading: `lx_st` and `lx_lines`. -/
structure Lx where
  st : St
  lines : List Nat
deriving DecidableEq, Repr

/-- `lexer_set_state`, lexer.c:169-173. The line table is not part of the state. -/
def setState (lx : Lx) (st : St) : Lx := { lx with st := st }

/-- `lexer_line_alloc`, lexer.c:975-988. -/
def lineAlloc (lx : Lx) (lno : Nat) : Lx :=
  if lno - 1 < lx.lines.length then lx
  else { lx with lines := lx.lines ++ [lx.st.off] }

/-- Initial state, lexer.c:95-99. -/
def init : Lx := lineAlloc { st := { off := 0, lno := 1, eof := false }, lines := [] } 1

/-- `lexer_eof`, lexer.c:969-973. -/
def isEof (inp : List Char) (lx : Lx) : Bool := lx.st.off == inp.length

/-- `lexer_getc`, lexer.c:187-214. `none` is a non-zero return, in which case nothing
changes. (The position never exceeds the length, see `Inv`; reading there is
treated as being at the end.) -/
def getc (inp : List Char) (lx : Lx) : Option (Char × Lx) :=
  match inp[lx.st.off]? with
  | none =>
    if lx.st.eof then none
    else some ('\x00', { lx with st := { lx.st with eof := true } })
  | some c =>
    if c = '\n' then
      some (c, lineAlloc { lx with st := { lx.st with off := lx.st.off + 1, lno := lx.st.lno + 1 } }
        (lx.st.lno + 1))
    else some (c, { lx with st := { lx.st with off := lx.st.off + 1 } })

/-- `lexer_ungetc`, lexer.c:216-231. The assertion on line 225 holds since every call
follows a `lexer_getc`, see `getc_off_pos`. -/
def ungetc (inp : List Char) (lx : Lx) : Lx :=
  if lx.st.eof then lx
  else
    { lx with st := { lx.st with
        off := lx.st.off - 1
        lno := if inp[lx.st.off - 1]? = some '\n' then lx.st.lno - 1 else lx.st.lno } }

/-- `lexer_match`, lexer.c:233-242. -/
def lexMatch (inp : List Char) (lx : Lx) (rs : List (Char × Char)) : Lx :=
  { lx with st := { lx.st with off := lx.st.off + matchDefault rs (inp.drop lx.st.off) } }

/-- What is left to read, counting the pending end of file indication. Used to show
that loops end. -/
def left (inp : List Char) (lx : Lx) : Nat :=
  2 * (inp.length - lx.st.off) + (if lx.st.eof then 0 else 1)

theorem lineAlloc_st (lx : Lx) (n : Nat) : (lineAlloc lx n).st = lx.st := by
  unfold lineAlloc; split <;> rfl

theorem getc_left {inp : List Char} {lx lx' : Lx} {c : Char} (h : getc inp lx = some (c, lx')) :
    left inp lx' < left inp lx := by
  unfold getc at h
  split at h
  · split at h
    · simp at h
    · simp only [Option.some.injEq, Prod.mk.injEq] at h
      rw [← h.2]; simp_all [left]
  · next c' hc =>
    have hlt : lx.st.off < inp.length := by
      rw [List.getElem?_eq_some_iff] at hc; exact hc.1
    split at h <;> (simp only [Option.some.injEq, Prod.mk.injEq] at h; rw [← h.2])
    · simp only [left, lineAlloc_st]; split <;> omega
    · simp only [left]; split <;> omega

/-- The loop of `lexer_eat_lines`, lexer.c:926-939: the lexer, `oldst`, `nlines`. -/
def eatLinesLoop (inp : List Char) (threshold : Nat) (lx : Lx) (oldst : St) (nlines : Nat) :
    Lx × St × Nat :=
  match _h : getc inp lx with
  | none => (lx, oldst, nlines)
  | some (c, lx') =>
    if c = '\r' then eatLinesLoop inp threshold lx' oldst nlines
    else if c = '\n' then
      if nlines + 1 = threshold then (lx', lx'.st, nlines + 1)
      else eatLinesLoop inp threshold lx' lx'.st (nlines + 1)
    else if c ≠ ' ' ∧ c ≠ '\t' then (ungetc inp lx', oldst, nlines)
    else eatLinesLoop inp threshold lx' oldst nlines
termination_by left inp lx
decreasing_by all_goals exact getc_left _h

/-- `lexer_eat_lines`, lexer.c:917-951, without the emitted token; returns `nlines`. -/
def eatLines (inp : List Char) (threshold : Nat) (lx : Lx) : Lx × Nat :=
  let r := eatLinesLoop inp threshold lx lx.st 0
  let lx := setState r.1 r.2.1
  if r.2.2 = 0 ∨ r.2.2 < threshold then (lx, 0) else (lx, r.2.2)

/-- The ranges `"  \f\f\t\t"`, lexer.c:960. -/
def spaceRanges : List (Char × Char) := [(' ', ' '), ('\x0c', '\x0c'), ('\t', '\t')]

/-- `lexer_eat_spaces`, lexer.c:953-967, without the emitted token. -/
def eatSpaces (inp : List Char) (lx : Lx) : Lx × Bool :=
  let n := matchDefault spaceRanges (inp.drop lx.st.off)
  if n = 0 then (lx, false)
  else ({ lx with st := { lx.st with off := lx.st.off + n } }, true)

/-- The loop of `lexer_eat_lines_and_spaces`, lexer.c:902-914. The loop continues only
after `lexer_eat_spaces` moved forward; the test on what is left is always true,
see `eatLsLoop_guard`, and only there for Lean to accept the recursion. -/
def eatLsLoop (inp : List Char) (gotspaces : Bool) (lx : Lx) (st : St) : Lx × St :=
  let l := eatLines inp 0 lx
  if l.2 = 0 ∧ gotspaces = true then (l.1, st)
  else
    let st := if l.2 ≠ 0 then l.1.st else st
    let s := eatSpaces inp l.1
    if s.2 then
      if _h : inp.length - s.1.st.off < inp.length - lx.st.off then
        eatLsLoop inp true s.1 st
      else (s.1, st)
    else (s.1, st)
termination_by inp.length - lx.st.off

/-- `lexer_eat_lines_and_spaces`, lexer.c:897-915: the lexer and `*st`. -/
def eatLinesAndSpaces (inp : List Char) (lx : Lx) (st : St) : Lx × St :=
  eatLsLoop inp false lx st

/-- `tk_str` and `tk_len`. -/
inductive Str where
  /-- a pointer into the input buffer -/
  | src (off len : Nat)
  /-- a string of its own -/
  | own (s : List Char)
  /-- a string that reaches beyond its allocation -/
  | bad
deriving DecidableEq, Repr

/-- `tk_len`. -/
def Str.len : Str → Nat
  | .src _ len => len
  | .own s => s.length
  | .bad => 0

/-- The bytes `tk_str[0..tk_len)`; `none` if they are not all within the buffer. -/
def Str.text (inp : List Char) : Str → Option (List Char)
  | .src off len => if off + len ≤ inp.length then some ((inp.drop off).take len) else none
  | .own s => some s
  | .bad => none

/-- `struct token`, token.h:183-230, as emitted by the reader. `stop` is the position
of the lexer when the token was emitted and `joined` tells if `token_prolong` was
applied to it; they are not stored in /repo and only used to state theorems. `cno`
is `none` if the line table was indexed out of bounds. -/
structure Tok where
  type : TT
  flags : Flags
  str : Str
  off : Nat
  stop : Nat
  lno : Nat
  cno : Option Nat
  joined : Bool := false
deriving DecidableEq, Repr

/-- A token with its prefixes and suffixes. -/
structure Token where
  tok : Tok
  prefixes : List Tok
  suffixes : List Tok
deriving DecidableEq, Repr

/-- What the reader is given besides the input: the `UseTab` style used by
`comment_trim`, the function applied to `#define` directives (`cpp_align`,
`none` leaves the directive as is) and the lines covered by a diff. -/
structure Ctx where
  usetabs : Bool
  align : List Char → Option (List Char)
  diff : Nat → Bool

/-- `lexer_column`, lexer.c:990-998. -/
def columnOf (inp : List Char) (lx : Lx) (st : St) : Option Nat :=
  match lx.lines[st.lno - 1]? with
  | none => none
  | some lo => colwidthWith matchUntilDefault ((inp.drop lo).take (st.off - lo)) 1

/-- `lexer_emit_template`, lexer.c:252-271, with a template that has no string. -/
def emit (inp : List Char) (cx : Ctx) (lx : Lx) (st : St) (type : TT) (flags : Flags) : Tok :=
  { type := type, flags := { flags with diff := cx.diff st.lno }
    str := .src st.off (lx.st.off - st.off)
    off := st.off, stop := lx.st.off, lno := st.lno, cno := columnOf inp lx st }

/-- `lexer_emit_template`, lexer.c:252-271, with a template that has a string. -/
def emitStr (inp : List Char) (cx : Ctx) (lx : Lx) (st : St) (type : TT) (flags : Flags)
    (s : List Char) : Tok :=
  { emit inp cx lx st type flags with str := .own s }

/-- `lexer_buffer_slice`, lexer.c:1000-1008: `none` if empty. -/
def slice (inp : List Char) (lx : Lx) (st : St) : Option (List Char) :=
  if lx.st.off - st.off = 0 then none
  else some ((inp.drop st.off).take (lx.st.off - st.off))

/-- The map of clang.c:136-172, `MAP_FIND_N(clang_tokens, ...)`. -/
def findKeyword1 (key : List Char) : Option (List Char × TT × Flags) :=
  (keywords ++ aliases).find? (fun k => k.1 == key)

/-- `clang_find_keyword`, clang.c:1317-1327. -/
def findKeyword (inp : List Char) (lx : Lx) (st : St) : Option (List Char × TT × Flags) :=
  (slice inp lx st).bind findKeyword1

/-- `clang_find_cpp`, clang.c:1243-1258. -/
def findCpp (inp : List Char) (lx : Lx) (st : St) : TT :=
  match slice inp lx st with
  | none => .cpp
  | some s =>
    match cppKeywords.find? (fun k => k.1 == s) with
    | none => .cpp
    | some k => k.2

/-- `isdigit`. -/
def isDigit (c : Char) : Bool := '0'.toNat ≤ c.toNat && c.toNat ≤ '9'.toNat

/-- `isupper`. -/
def isUpper (c : Char) : Bool := 'A'.toNat ≤ c.toNat && c.toNat ≤ 'Z'.toNat

/-- `islower`. -/
def isLower (c : Char) : Bool := 'a'.toNat ≤ c.toNat && c.toNat ≤ 'z'.toNat

/-- `isalpha` in the C locale. -/
def isAlpha (c : Char) : Bool := isUpper c || isLower c

/-- `isxdigit`. -/
def isXdigit (c : Char) : Bool :=
  isDigit c || ('a'.toNat ≤ c.toNat && c.toNat ≤ 'f'.toNat) ||
    ('A'.toNat ≤ c.toNat && c.toNat ≤ 'F'.toNat)

/-- `isnum`, clang.c:1468-1474. -/
def isNum (c : Char) : Bool :=
  isXdigit c || c = 'l' || c = 'L' || c = 'x' || c = 'X' || c = 'u' || c = 'U' || c = '.'

/-- `clang_ellipsis`, clang.c:1340-1356. -/
def readEllipsis (inp : List Char) (lx : Lx) (st : St) : Lx × Option (List Char × TT × Flags) :=
  match getc inp lx with
  | none => (lx, none)
  | some (c, lx1) =>
    if c ≠ '.' then (setState lx1 lx.st, none)
    else
      match getc inp lx1 with
      | none => (setState lx1 lx.st, none)
      | some (c, lx2) =>
        if c ≠ '.' then (setState lx2 lx.st, none)
        else (lx2, findKeyword inp lx2 st)

/-- The loop of `clang_keyword`, clang.c:1273-1309: the lexer and `tk`. -/
def keywordLoop (inp : List Char) (st : St) (lx : Lx) (pv : Option (List Char × TT × Flags)) :
    Lx × Option (List Char × TT × Flags) :=
  match findKeyword inp lx st with
  | none => (ungetc inp lx, pv)
  | some tmp =>
    if tmp.2.2.ambiguous = false then (lx, some tmp)
    else if tmp.2.1 = .period then
      match getc inp lx with
      | none => (lx, none)
      | some (peek, lx1) =>
        if isDigit peek then (lx1, none)
        else
          let e := readEllipsis inp (ungetc inp lx1) st
          match e.2 with
          | some kw => (e.1, some kw)
          | none =>
            match getc inp e.1 with
            | none => (e.1, some tmp)
            | some (_, lx2) =>
              if _h : left inp lx2 < left inp lx then keywordLoop inp st lx2 (some tmp)
              else (lx2, none)
    else
      match getc inp lx with
      | none => (lx, some tmp)
      | some (_, lx2) =>
        if _h : left inp lx2 < left inp lx then keywordLoop inp st lx2 (some tmp)
        else (lx2, none)
termination_by left inp lx

/-- `clang_keyword`, clang.c:1260-1315. -/
def readKeyword (inp : List Char) (cx : Ctx) (lx : Lx) : Lx × Option Tok :=
  let lx := (eatLinesAndSpaces inp lx lx.st).1
  match getc inp lx with
  | none => (lx, none)
  | some (_, lx1) =>
    let r := keywordLoop inp lx.st lx1 none
    match r.2 with
    | none => (setState r.1 lx.st, none)
    | some kw => (r.1, some (emitStr inp cx r.1 lx.st kw.2.1 kw.2.2 kw.1))

/-- `peek_c99_comment`, clang.c:1042-1056. The state is restored; only the line table
may differ, and it does not as no line feed is read before a non-space. -/
def peekC99 (inp : List Char) (lx : Lx) : Lx × Bool :=
  let lx1 := (eatSpaces inp lx).1
  match getc inp lx1 with
  | none => (setState lx1 lx.st, false)
  | some (c, lx2) =>
    if c ≠ '/' then (setState lx2 lx.st, false)
    else
      match getc inp lx2 with
      | none => (setState lx2 lx.st, false)
      | some (c, lx3) => (setState lx3 lx.st, c = '/')

/-- The loop over a `//` comment, clang.c:1116-1127, up to and including the line
feed: the lexer and whether a line feed was read. -/
def c99Line (inp : List Char) (lx : Lx) : Lx × Bool :=
  match _h : getc inp lx with
  | none => (lx, false)
  | some (c, lx') => if c = '\n' then (lx', true) else c99Line inp lx'
termination_by left inp lx
decreasing_by exact getc_left _h

/-- The loop over a block comment, clang.c:1131-1140: the lexer and `oneline`. -/
def blockLoop (inp : List Char) (ch : Char) (oneline : Bool) (lx : Lx) : Lx × Bool :=
  match _h : getc inp lx with
  | none => (lx, oneline)
  | some (peek, lx') =>
    if ch = '*' ∧ peek = '/' then (lx', oneline)
    else blockLoop inp peek (if ch = '\n' then false else oneline) lx'
termination_by left inp lx
decreasing_by exact getc_left _h

/-- The part of `clang_read_comment` that finds the extent of the comment,
clang.c:1099-1141: the lexer, `st`, `oneline`, `c99`; `none` if there is no comment. -/
def commentExtent (inp : List Char) (block : Bool) (lx : Lx) (st : St) (oneline : Bool) :
    Lx × Option (St × Bool × Bool) :=
  let e := if block then eatLinesAndSpaces inp lx st else ((eatSpaces inp lx).1, st)
  match getc inp e.1 with
  | none => (e.1, none)
  | some (c1, lx1) =>
    if c1 ≠ '/' then (lx1, none)
    else
      match getc inp lx1 with
      | none => (lx1, none)
      | some (c2, lx2) =>
        if c2 = '/' then
          let l := c99Line inp lx2
          if l.2 then
            let p := peekC99 inp l.1
            if p.2 then
              if _h : inp.length - p.1.st.off < inp.length - lx.st.off then
                commentExtent inp block p.1 e.2 false
              else (p.1, none)
            else (ungetc inp p.1, some (e.2, oneline, true))
          else (l.1, some (e.2, oneline, true))
        else if c2 = '*' then
          let b := blockLoop inp '\x00' oneline lx2
          (b.1, some (e.2, b.2, false))
        else (lx2, none)
termination_by inp.length - lx.st.off

/-- `sense_clang_format_comment`, clang.c:1058-1086. -/
def senseClangFormat (s : List Char) (fl : Flags) : Flags :=
  let s := s.dropWhile Comment.isSpace
  let needle := " clang-format ".toList
  if s.length < 2 then fl
  else
    let s := s.drop 2
    if needle.isPrefixOf s then
      let s := s.drop needle.length
      if "off".toList.isPrefixOf s then { fl with cfOff := true }
      else if "on".toList.isPrefixOf s then { fl with cfOn := true }
      else fl
    else fl

/-- `comment_trim` applied to the token, clang.c:1159-1161. -/
def trimmed (cx : Ctx) (inp : List Char) (t : Tok) : Tok :=
  match t.str.text inp with
  | none => { t with str := .bad }
  | some s =>
    match Comment.commentTrim cx.usetabs s with
    | .unchanged => t
    | .text s' => { t with str := .own s' }
    | .undefined => { t with str := .bad }

/-- `clang_read_comment`, clang.c:1088-1168. -/
def readComment (inp : List Char) (cx : Ctx) (block : Bool) (lx : Lx) : Lx × Option Tok :=
  let r := commentExtent inp block lx lx.st true
  match r.2 with
  | none => (setState r.1 lx.st, none)
  | some (st, oneline, c99) =>
    let lx1 := if block then (eatLines inp 2 (eatSpaces inp r.1).1).1 else r.1
    let t := emit inp cx lx1 st .comment { c99 := c99 }
    let t := if oneline then
        { t with flags := senseClangFormat ((t.str.text inp).getD []) t.flags } else t
    let t := trimmed cx inp t
    let lx2 := if block then (eatLines inp 0 lx1).1 else lx1
    (lx2, some t)

/-- The loop over a preprocessor directive, clang.c:1192-1213. -/
def cppLoop (inp : List Char) (ch : Char) (comment : Bool) (lx : Lx) : Lx :=
  match _h : getc inp lx with
  | none => lx
  | some (peek, lx') =>
    if ch = '/' ∧ peek = '*' then cppLoop inp peek true lx'
    else if comment = true ∧ ch = '*' ∧ peek = '/' then cppLoop inp peek false lx'
    else if comment = false ∧ ch ≠ '\\' ∧ peek = '\n' then ungetc inp lx'
    else cppLoop inp peek comment lx'
termination_by left inp lx
decreasing_by all_goals exact getc_left _h

/-- `cpp_align` applied to a `#define`, clang.c:1226-1235. -/
def aligned (cx : Ctx) (inp : List Char) (t : Tok) : Tok :=
  if t.type = .cppDefine then
    match (t.str.text inp).bind cx.align with
    | none => t
    | some s => { t with str := .own s }
  else t

/-- `clang_read_cpp`, clang.c:1170-1241. -/
def readCpp (inp : List Char) (cx : Ctx) (lx : Lx) : Lx × Option Tok :=
  let e := eatLinesAndSpaces inp lx lx.st
  match getc inp e.1 with
  | none => (setState e.1 lx.st, none)
  | some (c, lx1) =>
    if c ≠ '#' then (setState lx1 lx.st, none)
    else
      let lx2 := (eatSpaces inp lx1).1
      let lx3 := lexMatch inp lx2 [('a', 'z')]
      let type := findCpp inp lx3 lx2.st
      let lx4 := cppLoop inp '\x00' false lx3
      let lx5 := (eatLines inp 2 lx4).1
      let t := aligned cx inp (emit inp cx lx5 e.2 type { cpp := true })
      ((eatLines inp 0 lx5).1, some t)

/-- `token_prolong`, clang.c:1459-1466: only the length changes, so the token goes on
to cover what follows its string in memory. -/
def prolong (dst src : Tok) : Tok :=
  { dst with
    str := match dst.str with
      | .src off len => .src off (len + src.str.len)
      | _ => .bad
    stop := src.stop
    joined := true }

/-- `clang_read_prefix`, clang.c:1013-1040, on `cl->prefixes`. -/
def readPrefix (inp : List Char) (cx : Ctx) (prefixes : List Tok) (lx : Lx) :
    Lx × Option (List Tok) :=
  match readComment inp cx true lx with
  | (lx1, some c) =>
    match prefixes.getLast? with
    | some pv =>
      if pv.type = .comment ∧ c.lno = pv.lno then
        (lx1, some (prefixes.dropLast ++ [prolong pv c]))
      else (lx1, some (prefixes ++ [c]))
    | none => (lx1, some (prefixes ++ [c]))
  | (lx1, none) =>
    match readCpp inp cx lx1 with
    | (lx2, some t) => (lx2, some (prefixes ++ [t]))
    | (lx2, none) => (lx2, none)

/-- The loop over prefixes, clang.c:553-558. `cpp_include_add`, called on every prefix,
only records it; the sorting it may lead to is modelled separately. The test on
what is left is always true, see `readPrefixes_guard`. -/
def readPrefixes (inp : List Char) (cx : Ctx) (prefixes : List Tok) (lx : Lx) : Lx × List Tok :=
  match readPrefix inp cx prefixes lx with
  | (lx1, none) => (lx1, prefixes)
  | (lx1, some ps) =>
    if _h : inp.length - lx1.st.off < inp.length - lx.st.off then readPrefixes inp cx ps lx1
    else (lx1, ps)
termination_by inp.length - lx.st.off

/-- The loop over a string or character literal, clang.c:582-590: the lexer and
whether the closing delimiter was found. -/
def stringLoop (inp : List Char) (delim pch : Char) (lx : Lx) : Lx × Bool :=
  match _h : getc inp lx with
  | none => (lx, false)
  | some (ch, lx') =>
    if pch = '\\' ∧ ch = '\\' then stringLoop inp delim '\x00' lx'
    else if pch ≠ '\\' ∧ ch = delim then (lx', true)
    else stringLoop inp delim ch lx'
termination_by left inp lx
decreasing_by all_goals exact getc_left _h

/-- The loop over a number, clang.c:594-598: the lexer, and whether the loop ended at
a character that is not part of the number. -/
def numLoop (inp : List Char) (lx : Lx) : Lx × Bool :=
  match _h : getc inp lx with
  | none => (lx, false)
  | some (ch, lx') => if isNum ch then numLoop inp lx' else (ungetc inp lx', true)
termination_by left inp lx
decreasing_by exact getc_left _h

/-- The ranges `"AZaz09__"`, clang.c:603. -/
def identRanges : List (Char × Char) := [('A', 'Z'), ('a', 'z'), ('0', '9'), ('_', '_')]

/-- clang.c:569-576: an `L` in front of a quote is skipped. -/
def wide (inp : List Char) (ch : Char) (lx : Lx) : Char × Lx :=
  if ch = 'L' then
    match getc inp lx with
    | none => (ch, ungetc inp lx)
    | some (peek, lx') => if peek = '"' ∨ peek = '\'' then (peek, lx') else (ch, ungetc inp lx')
  else (ch, lx)

/-- The part of `clang_read` that reads a token other than an operator, clang.c:565-618. -/
def readOther (inp : List Char) (cx : Ctx) (lx : Lx) : Lx × Tok :=
  match getc inp lx with
  | none => (lx, emit inp cx lx lx.st .eof {})
  | some (ch0, lx0) =>
    let w := wide inp ch0 lx0
    let ch := w.1
    let lx1 := w.2
    if ch = '"' ∨ ch = '\'' then
      let r := stringLoop inp ch ch lx1
      if r.2 then
        (r.1, emit inp cx r.1 lx.st (if ch = '"' then .string else .literal) {})
      else (r.1, emit inp cx r.1 lx.st .eof {})
    else if isDigit ch || ch = '.' then
      let r := numLoop inp lx1
      if r.2 then (r.1, emit inp cx r.1 lx.st .literal {})
      else (r.1, emit inp cx r.1 lx.st .eof {})
    else if isAlpha ch || ch = '_' then
      let lx2 := lexMatch inp lx1 identRanges
      match findKeyword inp lx2 lx.st with
      | some kw => (lx2, emitStr inp cx lx2 lx.st kw.2.1 kw.2.2 kw.1)
      | none => (lx2, emit inp cx lx2 lx.st .ident {})
    else if isEof inp lx1 then (lx1, emit inp cx lx1 lx.st .eof {})
    else (lx1, emit inp cx lx1 lx.st .kNone {})

/-- The loop over trailing comments, clang.c:629-637. -/
def readSuffixes (inp : List Char) (cx : Ctx) (suffixes : List Tok) (lx : Lx) : Lx × List Tok :=
  match readComment inp cx false lx with
  | (lx1, none) => (lx1, suffixes)
  | (lx1, some c) =>
    if _h : inp.length - lx1.st.off < inp.length - lx.st.off then
      readSuffixes inp cx (suffixes ++ [c]) lx1
    else (lx1, suffixes ++ [c])
termination_by inp.length - lx.st.off

/-- clang.c:644-647: white space right after the token. -/
def optSpace (inp : List Char) (cx : Ctx) (suffixes : List Tok) (lx : Lx) : Lx × List Tok :=
  if suffixes = [] then
    let s := eatSpaces inp lx
    if s.2 then
      (s.1, [emit inp cx s.1 lx.st .space { optspace := true, discard := true }])
    else (s.1, [])
  else (lx, suffixes)

/-- clang.c:650-655 and lexer.c:943-949: the line feeds after the token. -/
def optLines (inp : List Char) (cx : Ctx) (suffixes : List Tok) (lx : Lx) : Lx × List Tok :=
  let l := eatLines inp 0 lx
  if l.2 > 0 then
    (l.1, suffixes ++ [emitStr inp cx l.1 lx.st .space { optline := l.2 = 1 } ['\n']])
  else (l.1, suffixes)

/-- clang.c:559-617: the token itself, a keyword or operator first. -/
def readMain (inp : List Char) (cx : Ctx) (lx : Lx) : Lx × Tok :=
  let k := readKeyword inp cx lx
  match k.2 with
  | some tk => (k.1, tk)
  | none => readOther inp cx k.1

/-- clang.c:622-656: what follows the token. Comments after a token that is about to be
discarded are left to be prefixes of the next token. -/
def readTail (inp : List Char) (cx : Ctx) (discard : Bool) (lx : Lx) : Lx × List Tok :=
  let s := if discard then (lx, []) else readSuffixes inp cx [] lx
  let s := optSpace inp cx s.2 s.1
  optLines inp cx s.2 s.1

/-- `clang_read`, clang.c:542-675, without the links between branches (clang.c:658-672,
see `Verif.Stream.Branch`). -/
def read (inp : List Char) (cx : Ctx) (lx : Lx) : Lx × Token :=
  let p := readPrefixes inp cx [] lx
  let t := readMain inp cx p.1
  let s := readTail inp cx t.2.flags.discard t.1
  (s.1, { tok := t.2, prefixes := p.2, suffixes := s.2 })

/-- The loop of `lexer_tokenize`, lexer.c:104-121, before tokens with the `DISCARD` flag
are removed. The test on what is left is always true, see `tokenizeLoop_guard`. -/
def tokenizeLoop (inp : List Char) (cx : Ctx) (lx : Lx) : Lx × List Token :=
  let r := read inp cx lx
  if r.2.tok.type = .eof then (r.1, [r.2])
  else if _h : inp.length - r.1.st.off < inp.length - lx.st.off then
    let rs := tokenizeLoop inp cx r.1
    (rs.1, r.2 :: rs.2)
  else (r.1, [r.2])
termination_by inp.length - lx.st.off

/-- Outcome of `lexer_get_lines`. -/
inductive GetLines where
  | fail
  | text (s : List Char)
  /-- the line table is read out of bounds, or the length is negative -/
  | undefined
deriving DecidableEq, Repr

/-- `lexer_get_lines`, lexer.c:369-388. -/
def getLines (inp : List Char) (lx : Lx) (beg stop : Nat) : GetLines :=
  if beg > lx.lines.length ∨ stop > lx.lines.length then .fail
  else if beg = 0 then .undefined
  else
    match lx.lines[beg - 1]? with
    | none => .undefined
    | some bo =>
      let eo := if stop = 0 then inp.length else (lx.lines[stop - 1]?).getD 0
      if eo < bo then .undefined else .text ((inp.drop bo).take (eo - bo))

end Knfmt.Lexer
