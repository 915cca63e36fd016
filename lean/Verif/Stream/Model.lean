import Verif.Lexer.Token
/-! # Consuming and looking ahead at tokens, lexer.c:390-847

Tokens are named by their position in `lx_tokens`. The stream ends with the end of file
token. The callback `end_of_branch` is a parameter here; `Verif.Stream.Branch` models it. -/
namespace Knfmt.Stream

open Knfmt.Lexer (TT Flags)

/-- What the operations look at in `struct token`, token.h:183-230. -/
structure Elem where
  type : TT
  flags : Flags := {}
  /-- the flags of its prefixes, in order -/
  prefixes : List Flags := []
deriving DecidableEq, Repr

/-- `lx_tokens` and the callback `end_of_branch`. -/
structure Stream where
  toks : List Elem
  eob : Nat → Nat

/-- `struct lexer_state`: `st_tk` and `st_flags.error`. The other fields are not used once
all tokens are read. -/
structure St where
  tk : Option Nat := none
  error : Bool := false
deriving DecidableEq, Repr

/-- The fields of `struct lexer` that change: `lx_st`, `lx_peek` and the number of errors
reported so far. -/
structure Lx where
  st : St := {}
  peek : Nat := 0
  msgs : Nat := 0
deriving DecidableEq, Repr

/-- Sets `st_tk`. -/
def Lx.at (l : Lx) (tk : Option Nat) : Lx := { l with st := { l.st with tk := tk } }

/-- `tk->tk_type`; positions beyond the end do not occur, see `Stream.Ok`. -/
def Stream.type (S : Stream) (p : Nat) : TT := ((S.toks[p]?).map (·.type)).getD .eof

/-- `tk->tk_flags`. -/
def Stream.flags (S : Stream) (p : Nat) : Flags := ((S.toks[p]?).map (·.flags)).getD {}

/-- `tk->tk_flags & TOKEN_FLAG_BRANCH`. -/
def Stream.branch (S : Stream) (p : Nat) : Bool := (S.flags p).branch

/-- `lexer_seek`, lexer.c:390-396. -/
def seek (l : Lx) (p : Nat) : Lx :=
  l.at (if p = 0 then none else some (p - 1))

/-- `lexer_seek_after`, lexer.c:398-408. -/
def seekAfter (S : Stream) (l : Lx) (p : Nat) : Lx × Bool :=
  if p + 1 < S.toks.length then (seek l (p + 1), true) else (l, false)

/-- `lexer_pop`, lexer.c:410-445. -/
def pop (S : Stream) (l : Lx) : Lx × Option Nat :=
  match l.st.tk with
  | none => (l.at (some 0), some 0)
  | some p =>
    if S.type p = .eof then (l, some p)
    else if l.peek = 0 ∧ S.branch p = true then (l, none)
    else if S.branch (p + 1) = true then
      if l.peek = 0 then (l.at (some (p + 1)), none)
      else (l.at (some (S.eob (p + 1))), some (S.eob (p + 1)))
    else (l.at (some (p + 1)), some (p + 1))

/-- `lexer_back`, lexer.c:450-457. -/
def back (l : Lx) : Option Nat := l.st.tk

/-- `lexer_back_if`, lexer.c:459-469. -/
def backIf (S : Stream) (type : TT) (l : Lx) : Option Nat :=
  (back l).filter (fun p => S.type p = type)

/-- `lexer_peek_enter`, lexer.c:567-572: the state is saved by the caller. -/
def peekEnter (l : Lx) : Lx := { l with peek := l.peek + 1 }

/-- `lexer_peek_leave`, lexer.c:574-580. -/
def peekLeave (l : Lx) (s : St) : Lx := { l with st := s, peek := l.peek - 1 }

/-- `lexer_peek`, lexer.c:586-601. -/
def peek (S : Stream) (l : Lx) : Lx × Option Nat :=
  let r := pop S (peekEnter l)
  (peekLeave r.1 l.st, r.2)

/-- `lexer_peek_if`, lexer.c:607-617. -/
def peekIf (S : Stream) (type : TT) (l : Lx) : Lx × Option Nat :=
  let r := peek S l
  (r.1, r.2.filter (fun p => S.type p = type))

/-- `lexer_if`, lexer.c:623-640. -/
def ifType (S : Stream) (type : TT) (l : Lx) : Lx × Option Nat :=
  match pop S l with
  | (l1, none) => (l1, none)
  | (l1, some t) => if S.type t ≠ type then ({ l1 with st := l.st }, none) else (l1, some t)

/-- `lexer_peek_if_flags`, lexer.c:646-656; `f` selects the flags. -/
def peekIfFlags (S : Stream) (f : Flags → Bool) (l : Lx) : Lx × Option Nat :=
  let r := peek S l
  (r.1, r.2.filter (fun p => f (S.flags p)))

/-- `lexer_if_flags`, lexer.c:662-672. -/
def ifFlags (S : Stream) (f : Flags → Bool) (l : Lx) : Lx × Option Nat :=
  match peekIfFlags S f l with
  | (l1, none) => (l1, none)
  | (l1, some _) => pop S l1

/-- What is left to read; used to show that loops end. -/
def left (S : Stream) (l : Lx) : Nat :=
  S.toks.length - (match l.st.tk with | none => 0 | some p => p + 1)

/-- The count of brackets after a token, lexer.c:695-698. -/
def pairStep (lhs rhs type : TT) (pair : Int) : Int :=
  let pair := if type = lhs then pair + 1 else pair
  if type = rhs then pair - 1 else pair

/-- The loop of `lexer_peek_if_pair`, lexer.c:690-701: the lexer, `pair` and `t`. The test
on what is left is always true, see `pop_left`. -/
def pairLoop (S : Stream) (lhs rhs : TT) (pair : Int) (t : Option Nat) (l : Lx) :
    Lx × Int × Option Nat :=
  match pop S l with
  | (l1, none) => (l1, pair, t)
  | (l1, some t) =>
    if S.type t = .eof then (l1, pair, some t)
    else
      let pair := pairStep lhs rhs (S.type t) pair
      if pair = 0 then (l1, pair, some t)
      else if _h : left S l1 < left S l then pairLoop S lhs rhs pair (some t) l1
      else (l1, pair, some t)
termination_by left S l

/-- `lexer_peek_if_pair`, lexer.c:678-708: the lexer, `lhs` and `rhs`. -/
def peekIfPair (S : Stream) (lhs rhs : TT) (l : Lx) : Lx × Option (Nat × Nat) :=
  match peekIf S lhs l with
  | (l1, none) => (l1, none)
  | (l1, some a) =>
    let r := pairLoop S lhs rhs 0 none (peekEnter l1)
    let l2 := peekLeave r.1 l1.st
    if r.2.1 > 0 then (l2, none) else (l2, r.2.2.map fun b => (a, b))

/-- `lexer_if_pair`, lexer.c:714-727. -/
def ifPair (S : Stream) (lhs rhs : TT) (l : Lx) : Lx × Option (Nat × Nat) :=
  match peekIfPair S lhs rhs l with
  | (l1, none) => (l1, none)
  | (l1, some (a, b)) => (l1.at (some b), some (a, b))

/-- `lexer_peek_if_prefix_flags`, lexer.c:733-753: whether a prefix is found. -/
def peekIfPrefixFlags (S : Stream) (f : Flags → Bool) (l : Lx) : Bool :=
  match back l with
  | none => false
  | some p =>
    match S.toks[p + 1]? with
    | none => false
    | some e => e.prefixes.any f

/-- `lexer_until`, lexer.c:819-833. -/
def until_ (S : Stream) (type : TT) (l : Lx) : Lx × Option Nat :=
  match pop S l with
  | (l1, none) => (l1, none)
  | (l1, some t) =>
    if S.type t = .eof then (l1, none)
    else if S.type t = type then (l1, some t)
    else if _h : left S l1 < left S l then until_ S type l1
    else (l1, none)
termination_by left S l

/-- `lexer_peek_until`, lexer.c:759-769. -/
def peekUntil (S : Stream) (type : TT) (l : Lx) : Lx × Option Nat :=
  let r := until_ S type (peekEnter l)
  (peekLeave r.1 l.st, r.2)

/-- The nesting after a token, lexer.c:792-796. -/
def nestStep (type : TT) (nest : Int) : Int :=
  if type = .lparen ∨ type = .lbrace then nest + 1
  else if type = .rparen ∨ type = .rbrace then nest - 1 else nest

/-- The loop of `lexer_peek_until_not_nested`, lexer.c:789-801. `stop` is `none` for a null
pointer. -/
def nestLoop (S : Stream) (type : TT) (stop : Option Nat) (nest : Int) (l : Lx) : Lx × Option Nat :=
  match pop S l with
  | (l1, none) => (l1, none)
  | (l1, some t) =>
    if some t = stop ∨ S.type t = .eof then (l1, none)
    else
      let nest := nestStep (S.type t) nest
      if S.type t = type ∧ nest = 0 then (l1, some t)
      else if _h : left S l1 < left S l then nestLoop S type stop nest l1
      else (l1, none)
termination_by left S l

/-- `lexer_peek_until_not_nested`, lexer.c:779-806: the lexer, whether the token was found,
and `*tk`. -/
def peekUntilNotNested (S : Stream) (type : TT) (stop : Option Nat) (l : Lx) :
    Lx × Bool × Option Nat :=
  let r := nestLoop S type stop 0 (peekEnter l)
  (peekLeave r.1 l.st, r.2.isSome, if r.2.isSome then r.2 else stop)

/-- `lexer_peek_until_comma`, lexer.c:808-813. -/
def peekUntilComma (S : Stream) (stop : Option Nat) (l : Lx) : Lx × Bool × Option Nat :=
  peekUntilNotNested S .comma stop l

/-- `lexer_error`, lexer.c:288-334, without the text of the message. -/
def error (l : Lx) : Lx :=
  { l with st := { l.st with error := true }
           msgs := if l.peek > 0 then l.msgs else l.msgs + 1 }

/-- `lexer_expect_error`, lexer.c:1017-1038. -/
def expectError (S : Stream) (l : Lx) : Lx :=
  match back l with
  | some p =>
    if S.branch p = true then l else if l.st.error = true then l else error l
  | none => if l.st.error = true then l else error l

/-- `lexer_expect_impl`, lexer.c:550-565. -/
def expect (S : Stream) (type : TT) (l : Lx) : Lx × Option Nat :=
  match ifType S type l with
  | (l1, some t) => (l1, some t)
  | (l1, none) => (expectError S (peek S l1).1, none)

/-- `lexer_error_reset`, lexer.c:342-347. -/
def errorReset (l : Lx) : Lx := { l with st := { l.st with error := false } }

end Knfmt.Stream
