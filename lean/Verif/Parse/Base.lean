import Verif.Expr.Model
import Verif.Parse.Near
/-!
# The parser, part 1: state and primitives

Model of what the parser does with tokens: which ones it consumes, removes and emits, and into
which document. Based on parser.c, lexer.c:390-841 and doc.c:400-493.

Simplifications, valid for all files in `Verif.Parse`:

* no token carries `TOKEN_FLAG_BRANCH`: parsing of sources in which a preprocessor branch halts the
  parser (`BRCH`, parser-priv.h:15) is not modelled;
* prefixes and suffixes (comments, preprocessor directives, white space) belong to their token and
  are not represented, `parser_doc_token` prints them along with it, see `Verif.Parser.Token`;
* the simple passes (`-s`) are off;
* every decision that depends on white space, widths, the style or the options is taken by an
  arbitrary oracle `Env.ask`: what is proved holds for all of its answers. The oracle only chooses
  between layouts;
* the end of file token is not part of the list of tokens. Popping it does not change the state,
  emitting it adds nothing;
* rulers are not represented apart from the documents they allocate;
* recursion and loops are bounded by fuel, `none` stands for running out of it. All theorems are
  about runs that end.
-/
namespace Knfmt.Parse
open Knfmt.Lexer (TT)
open Knfmt.Parse.Spec (near loose)

/-- The fields of `struct token` the parser looks at, token.h:183-226: identity, `tk_type`, `tk_str`,
`tk_lno` and `tk_cno`. -/
structure Tok where
  id : Nat
  ty : TT
  str : List Char := []
  lno : Nat := 1
  cno : Nat := 2
deriving DecidableEq, Repr

/-- The end of file token, clang.c:613-615. It is on a line of its own. -/
def eofTok : Tok := { id := 0, ty := .eof, lno := 1000000000, cno := 1 }

/-- Identity of a document, `struct doc *`. -/
abbrev Id := Nat

/-- The kinds of documents, doc.h. `blank` is `doc_literal(" ")`, `space` the white space token
emitted at parser-braces.c:228-231. -/
inductive DK where
  | root | concat | group | indent | optional | noindent | scope | maxlines | minimize
  | line | softline | hardline | align | blank | space
deriving DecidableEq, Repr

/-- A document is represented by its traversal: a container is opened and closed, everything in
between is part of it. `tok` is a token and `lay` a document without tokens. `sub` stands for a
document finished earlier and given to `doc_append`, expr.c:1140-1153, represented by its
tokens and the white space between them, `none`. -/
inductive Ev where
  | opn (d : Id) (k : DK)
  | cls (d : Id)
  | tok (t : Tok)
  | lay (i : Id) (k : DK)
  | sub (ts : List (Option Tok))
deriving DecidableEq, Repr

/-- The tokens among tokens and white space. -/
def solid (l : List (Option Tok)) : List Tok := l.filterMap id

/-- The tokens of an event. -/
def Ev.toks : Ev → List Tok
  | .tok t => [t]
  | .sub ts => solid ts
  | _ => []

/-- The tokens of a document, in the order in which they are printed. -/
def toks (L : List Ev) : List Tok := L.flatMap Ev.toks

/-- Documents that are printed as white space: a line is a space or a line break. The alignments made
by the parser's rulers are at least one column wide, ruler.c:103, 184-198, 261-375. A soft line may
be printed as nothing. -/
def DK.white : DK → Bool
  | .line | .hardline | .align | .blank | .space => true
  | _ => false

/-- The tokens of an event and the white space, `none`. -/
def Ev.items : Ev → List (Option Tok)
  | .tok t => [some t]
  | .lay _ k => if k.white then [none] else []
  | .sub ts => ts
  | _ => []

/-- The tokens of a document and the white space between them. -/
def items (L : List Ev) : List (Option Tok) := L.flatMap Ev.items

/-- Things that can go wrong without any error being reported. They are recorded while running the
model, the program does not know about them.

* `swallowed`: tokens were consumed by an expression, or by something parsed on behalf of it, that
  was given up afterwards: nothing is left to emit them;
* `lost`: a document was removed although it held tokens, parser-decl.c:321-324;
* `misplaced`: a token was added to a document that is followed by other tokens;
* `glued`: at one of the places marked with `noteGlue` or `noteFree`, where no white space is added
  whatever the tokens are, a token was added right after another one with which it would be read as
  one. -/
structure Ghost where
  swallowed : Bool := false
  lost : Bool := false
  misplaced : Bool := false
  glued : Bool := false
deriving DecidableEq, Repr

/-- State of lexer and parser: consumed tokens (last one first), remaining tokens, the error flag of
the lexer, the document being constructed, the next identity of a document. -/
structure St where
  done : List Tok
  rest : List Tok
  err : Bool := false
  L : List Ev := []
  next : Id := 0
  gh : Ghost := {}
deriving DecidableEq, Repr

/-- A parsing step. `none` if out of fuel. -/
def M (α : Type) : Type := St → Option (α × St)

instance : Monad M where
  pure a := fun s => some (a, s)
  bind m f := fun s =>
    match m s with
    | none => none
    | some (a, s') => f a s'

/-- Do something only if the condition holds. -/
def when (b : Bool) (m : M Unit) : M Unit := if b then m else pure ()

/-- Read the state. -/
def read {α : Type} (f : St → α) : M α := fun s => some (f s, s)

/-- Loops. The body gives either the next value of the loop variables or the result. -/
def loop {α β : Type} : Nat → (α → M (α ⊕ β)) → α → M β
  | 0, _, _ => fun _ => none
  | n + 1, f, a => f a >>= fun r =>
    match r with
    | .inl a' => loop n f a'
    | .inr b => pure b

/-- Return values of parser routines, parser-priv.h:6-16, without `BRCH`. -/
inductive Res where
  | good | fail | non
deriving DecidableEq, Repr

/-! ## The lexer -/

/-- The next token, `lexer_peek`, lexer.c:586-601. -/
def nxt (s : St) : Tok := s.rest.head?.getD eofTok

/-- `lexer_peek`, lexer.c:586-601. -/
def peek : M Tok := read nxt

/-- `lexer_peek_if`, lexer.c:607-617. -/
def peekIf (ty : TT) : M Bool := read fun s => decide ((nxt s).ty = ty)

/-- `lexer_back`, lexer.c:450-457. -/
def back : M (Option Tok) := read fun s => s.done.head?

/-- `lexer_back_if`, lexer.c:459-469. -/
def backIf (ty : TT) : M Bool := read fun s => decide (s.done.head?.map Tok.ty = some ty)

/-- `lexer_pop`, lexer.c:410-445. -/
def pop : M Tok := fun s =>
  match s.rest with
  | [] => some (eofTok, s)
  | t :: r => some (t, { s with done := t :: s.done, rest := r })

/-- `lexer_if`, lexer.c:623-640, and `lexer_if_flags`, lexer.c:662-672: consume the next token if it
fulfills the condition. -/
def lexIf (p : TT → Bool) : M (Option Tok) := fun s =>
  match s.rest with
  | [] => some (none, s)
  | t :: r =>
    if p t.ty then some (some t, { s with done := t :: s.done, rest := r }) else some (none, s)

/-- The type looked for by `lexer_if`. -/
def is (ty : TT) : TT → Bool := fun x => decide (x = ty)

/-- `lexer_expect`, lexer.c:550-565. -/
def expect (ty : TT) : M (Option Tok) := fun s =>
  match s.rest with
  | [] => some (none, { s with err := true })
  | t :: r =>
    if t.ty = ty then some (some t, { s with done := t :: s.done, rest := r })
    else some (none, { s with err := true })

/-- Leave a nested use of the lexer: go back to the given position, lexer.c:574-580. Tokens removed
in the meantime stay removed. The document and the recorded events are those of before. -/
def restore (s s' : St) : St :=
  { done := s.done
    rest := (s'.done.reverse ++ s'.rest).drop s.done.length
    err := s.err, L := s.L, next := s'.next, gh := s.gh }

/-- Run between `lexer_peek_enter` and `lexer_peek_leave`. -/
def peeking {α : Type} (m : M α) : M α := fun s =>
  match m s with
  | none => none
  | some (a, s') => some (a, restore s s')

/-! ## Outcomes -/

/-- `parser_good`, parser.c:291-297. -/
def parserGood : M Res := read fun s => if s.err then .fail else .good

/-- `parser_none`, parser.c:299-305. -/
def parserNone : M Res := read fun s => if s.err then .fail else .non

/-- `parser_fail`, parser.c:225-244. -/
def parserFail : M Res := fun s => some (.fail, { s with err := true })

/-! ## Documents -/

/-- Insert before the end of document `d`, `doc_append`, doc.c:438-447. -/
def ins (d : Id) (e : List Ev) : List Ev → List Ev
  | [] => []
  | x :: l => if x = .cls d then e ++ x :: l else x :: ins d e l

/-- `doc_alloc` of a container, doc.c:478-493. -/
def alloc (k : DK) (d : Id) : M Id := fun s =>
  some (s.next, { s with L := ins d [.opn s.next k, .cls s.next] s.L, next := s.next + 1 })

/-- `doc_alloc` of a document that never holds tokens. -/
def lay (k : DK) (d : Id) : M Id := fun s =>
  some (s.next, { s with L := ins d [.lay s.next k] s.L, next := s.next + 1 })

/-- The same when nobody refers to it afterwards. -/
def lay_ (k : DK) (d : Id) : M Unit := fun s =>
  some ((), { s with L := ins d [.lay s.next k] s.L, next := s.next + 1 })

/-- Not the document `i` without tokens. -/
def notLay (i : Id) : Ev → Bool
  | .lay j _ => decide (j ≠ i)
  | _ => true

/-- `doc_remove` of a document without tokens, doc.c:400-418. -/
def rmLay (i : Id) : M Unit := fun s => some ((), { s with L := s.L.filter (notLay i) })

/-- Not the soft line `i`. -/
def notSoft (i : Id) : Ev → Bool
  | .lay j k => decide (j ≠ i) || decide (k ≠ .softline)
  | _ => true

/-- `doc_remove` of a soft line, expr.c:1278-1279. -/
def rmSoft (i : Id) : M Unit := fun s => some ((), { s with L := s.L.filter (notSoft i) })

/-- What follows the first close of `d`. -/
def afterCls (d : Id) : List Ev → Option (List Ev)
  | [] => none
  | x :: l => if x = .cls d then some l else afterCls d l

/-- The document without container `d` and all that is in it. -/
def cut (d : Id) : List Ev → List Ev
  | [] => []
  | .opn d' k :: l =>
    if d' = d then
      match afterCls d l with
      | none => .opn d' k :: l
      | some l' => l'
    else .opn d' k :: cut d l
  | x :: l => x :: cut d l

/-- The events before the first close of `d`. -/
def untilCls (d : Id) : List Ev → List Ev
  | [] => []
  | x :: l => if x = .cls d then [] else x :: untilCls d l

/-- The contents of container `d`. -/
def inside (d : Id) : List Ev → List Ev
  | [] => []
  | .opn d' _ :: l => if d' = d then untilCls d l else inside d l
  | _ :: l => inside d l

/-- Number of tokens in container `d`. -/
def cnt (d : Id) (L : List Ev) : Nat := (toks (inside d L)).length

/-- `doc_remove` of a container, doc.c:400-418. -/
def rmDoc (d : Id) : M Unit := fun s => some ((), { s with L := cut d s.L })

/-- `doc_remove` of a container that may hold tokens. -/
def rmDocChk (d : Id) : M Unit := fun s =>
  some ((), { s with
    L := cut d s.L
    gh := { s.gh with lost := s.gh.lost || decide (cnt d s.L ≠ 0) } })

/-- `parser_doc_token`, parser.c:323-363: add a token to a document. -/
def emit (t : Tok) (d : Id) : M Unit := fun s =>
  some ((), { s with L := if t.ty = .eof then s.L else ins d [.tok t] s.L })

/-- Is the end of document `o` followed by no token, and by the end of document `d`? -/
def endsIn (o d : Id) (L : List Ev) : Bool :=
  match afterCls o L with
  | none => false
  | some T => (toks T).isEmpty && T.any fun x => decide (x = .cls d)

/-- `parser_doc_token` into a document `o` which is part of `d` and may no longer be the last one. -/
def emitChk (t : Tok) (o d : Id) : M Unit := fun s =>
  some ((), { s with
    L := if t.ty = .eof then s.L else ins o [.tok t] s.L
    gh := { s.gh with misplaced := s.gh.misplaced || !endsIn o d s.L } })

/-- Would a token of the given type, added to document `d`, be read as one with the token before? -/
def glues (d : Id) (ty : TT) (L : List Ev) : Bool :=
  match (items (untilCls d L)).getLast? with
  | some (some a) => !near a.ty ty
  | _ => false

/-- Would some token, added to document `d`, be read as one with the token before? -/
def tight (d : Id) (L : List Ev) : Bool :=
  match (items (untilCls d L)).getLast? with
  | some (some a) => !loose a.ty
  | _ => false

/-- Is no token right after one with which it would be read as one? -/
def apart : List (Option Tok) → Bool
  | [] => true
  | [_] => true
  | x :: y :: l =>
    (match x, y with
     | some a, some b => near a.ty b.ty
     | _, _ => true) && apart (y :: l)

/-- Record that tokens are glued together. -/
def note (f : List Ev → Bool) : M Unit := fun s =>
  some ((), { s with gh := { s.gh with glued := s.gh.glued || f s.L } })

/-- Record that a token about to be added to `d` would be read as one with the token before it. -/
abbrev noteGlue (ty : TT) (d : Id) : M Unit := note (glues d ty)

/-- The same when it is not known which token is about to be added. -/
abbrev noteFree (d : Id) : M Unit := note (tight d)

/-- Record that the removal of white space has glued tokens together. -/
abbrev noteRm : M Unit := note fun L => !apart (items L)

/-- `doc_remove` of white space between tokens that may have been added in the meantime,
parser-stmt.c:219-221, 728-731. -/
def rmWhite (i : Id) : M Unit := rmLay i >>= fun _ => noteRm

/-- `doc_append` of a finished document, expr.c:1140-1153. -/
def adopt (ts : List (Option Tok)) (d : Id) : M Unit := fun s =>
  some ((), { s with L := ins d [.sub ts] s.L })

/-- Construct another document below `doc_root`, doc.c:464-476; its tokens and white space are given
back. -/
def withRoot {α : Type} (m : Id → M α) : M (α × List (Option Tok)) := fun s =>
  match m s.next { s with L := [.opn s.next .root, .cls s.next], next := s.next + 1 } with
  | none => none
  | some (a, s') => some ((a, items s'.L), { s' with L := s.L })

/-- `if (lexer_expect(lx, ty, &tk)) parser_doc_token(pr, tk, d)`. -/
def expectEmit (ty : TT) (d : Id) : M Unit := expect ty >>= fun o =>
  match o with
  | some t => emit t d
  | none => pure ()

/-- `if (lexer_if(lx, ty, &tk)) parser_doc_token(pr, tk, d)`. -/
def ifEmit (ty : TT) (d : Id) : M Unit := lexIf (is ty) >>= fun o =>
  match o with
  | some t => emit t d
  | none => pure ()

/-- `doc_alloc(DOC_CONCAT, doc_alloc(k, d))`. -/
def allocIn (k : DK) (d : Id) : M Id := alloc k d >>= fun g => alloc .concat g

/-- The decisions left open, by place in the code. -/
structure Env where
  ask : Nat → St → Bool

/-- Ask. -/
def Env.q (E : Env) (n : Nat) : M Bool := read (E.ask n)

/-- A line in one of two flavours. -/
def layIf (b : Bool) (k k' : DK) (d : Id) : M Unit := lay_ (if b then k else k') d

/-- Tokens with the given flag, token.h:7-139. -/
def hasFlag (f : Knfmt.Lexer.Flags → Bool) (ty : TT) : Bool :=
  Knfmt.Lexer.keywords.any fun k => decide (k.2.1 = ty) && f k.2.2

/-- `TOKEN_FLAG_TYPE`. -/
def isType : TT → Bool := hasFlag (·.type)
/-- `TOKEN_FLAG_QUALIFIER`. -/
def isQual : TT → Bool := hasFlag (·.qualifier)
/-- `TOKEN_FLAG_STORAGE`. -/
def isStorage : TT → Bool := hasFlag (·.storage)
/-- `TOKEN_FLAG_QUALIFIER | TOKEN_FLAG_STORAGE`. -/
def isQS (ty : TT) : Bool := isQual ty || isStorage ty
/-- `TOKEN_FLAG_ASSIGN`. -/
def isAssign : TT → Bool := hasFlag (·.assign)
/-- `TOKEN_FLAG_BINARY`. -/
def isBinary : TT → Bool := hasFlag (·.binary)

end Knfmt.Parse
