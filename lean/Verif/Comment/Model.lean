import Verif.Util.Model
/-!
# comment.c
-/
namespace Knfmt.Comment

open Knfmt.Util

/-- `isspace` in the C locale, comment.c:92 (knfmt never calls `setlocale`). -/
def isSpace (c : Char) : Bool :=
  c = ' ' || c = '\t' || c = '\n' || c = '\x0b' || c = '\x0c' || c = '\r'

/-- The loop condition of `skipws`, comment.c:79. -/
def isBlank (c : Char) : Bool := c = ' ' || c = '\t'

/-- `skipws`, comment.c:74-84: `none` is `NULL`, otherwise the white space skipped
and what the returned pointer points at. -/
def skipws (s : List Char) : Option (List Char × List Char) :=
  let ws := s.takeWhile isBlank
  if ws = [] then none else some (ws, s.dropWhile isBlank)

/-- `rskipws`, comment.c:89-95: the part of the string kept. -/
def rskipws (s : List Char) : List Char := (s.reverse.dropWhile isSpace).reverse

/-- `nextline`, comment.c:63-72: the line including its line feed, and the rest. -/
def nextline : List Char → Option (List Char × List Char)
  | [] => none
  | c :: s =>
    if c = '\n' then some ([c], s)
    else (nextline s).map (fun r => (c :: r.1, r.2))

/-- comment.c:37-46: re-emit leading white space in front of `*` and `/`. The
result is what was emitted and what remains; `none` is a read past the end of the
comment on line 38. -/
def leading (usetabs : Bool) (s : List Char) : Option (List Char × List Char) :=
  match skipws s with
  | none => some ([], s)
  | some (_, []) => none
  | some (ws, c :: rest) =>
    if c = '*' ∨ c = '/' then some ((strindent (strwidth ws 0) usetabs 0).1, c :: rest)
    else some ([], s)

theorem leading_length {usetabs : Bool} {s o r : List Char} (h : leading usetabs s = some (o, r)) :
    r.length ≤ s.length := by
  unfold leading skipws at h
  simp only at h
  split at h
  · simp at h; rw [h.2]; exact Nat.le_refl _
  · simp at h
  · next ws c rest hs =>
    split at hs
    · simp at hs
    · simp at hs
      have : s.length = (s.takeWhile isBlank).length + (s.dropWhile isBlank).length := by
        rw [← List.length_append, List.takeWhile_append_dropWhile]
      rw [hs.2] at this
      split at h <;> simp at h
      · rw [← h.2]; omega
      · rw [h.2]; exact Nat.le_refl _

theorem nextline_length {s l r : List Char} (h : nextline s = some (l, r)) :
    r.length < s.length := by
  induction s generalizing l r with
  | nil => simp [nextline] at h
  | cons c s ih =>
    unfold nextline at h
    split at h
    · simp at h; rw [h.2]; simp
    · cases hn : nextline s with
      | none => simp [hn] at h
      | some p =>
        simp [hn] at h
        have := ih (l := p.1) (r := p.2) hn
        rw [← h.2]; simp; omega

/-- The loop of `comment_trim`, comment.c:33-58. `none` is undefined behaviour. -/
def trimLoop (usetabs crlf : Bool) (s : List Char) : Option (List Char) :=
  match _h : leading usetabs s with
  | none => none
  | some (out, s') =>
    match _h' : nextline s' with
    | none => some out
    | some (line, rest) =>
      (trimLoop usetabs crlf rest).map
        (fun r => out ++ rskipws line ++ (if crlf then ['\r'] else []) ++ ['\n'] ++ r)
termination_by s.length
decreasing_by
  have := leading_length _h
  have := nextline_length _h'
  omega

/-- What `comment_trim` does. -/
inductive Result where
  /-- The comment is left alone (`NULL`). -/
  | unchanged
  /-- The new text. -/
  | text (s : List Char)
  /-- Undefined behaviour. -/
  | undefined
deriving DecidableEq, Repr

/-- `comment_trim`, comment.c:19-61. -/
def commentTrim (usetabs : Bool) (s : List Char) : Result :=
  match s.reverse with
  | '\n' :: before =>
    let crlf := decide (before.head? = some '\r')
    match trimLoop usetabs crlf s with
    | some t => .text t
    | none => .undefined
  | _ => .unchanged

end Knfmt.Comment
