import Verif.Doc.Exact
import Verif.Lexer.Theorems
/-!
# parser.c: from tokens to the document, and regions with formatting disabled

Tokens are those of `Verif.Lexer.Model`, documents those of `Verif.Doc.Model`.
-/
namespace Knfmt.Parser

open Knfmt.Doc Knfmt.Doc.Spec Knfmt.Util
open Knfmt.Lexer (Lx getLines)

/-- The bytes of a token; the empty string if they are not all within the buffer. -/
def text (inp : List Char) (t : Lexer.Tok) : List Char := (t.str.text inp).getD []

/-- The token as seen by the printer. Its position stands for the pointer. -/
def docTok (inp : List Char) (t : Lexer.Tok) : Knfmt.Doc.Tok :=
  { id := t.off, lno := t.lno, str := text inp t, diff := t.flags.diff }

/-- `pr_token`, parser-priv.h: the last `clang-format off` comment and the token, by its
position, at which a branch is left. `ub` tells that `lexer_get_lines` was called with line
numbers for which it is not defined. -/
structure St where
  off : Option Lexer.Tok := none
  unmute : Option Nat := none
  ub : Bool := false
deriving DecidableEq, Repr

/-- `clang_format_verbatim`, parser.c:44-71. The synthetic token has no line number. -/
def formatVerbatim (inp : List Char) (lx : Lx) (stop : Nat) (σ : St) : List Doc × St :=
  match σ.off with
  | none => ([], σ)
  | some t =>
    match getLines inp lx (t.lno + countlines (text inp t)) stop with
    | .fail => ([.unmute (-1)], { σ with off := none })
    | .text s => ([.unmute (-1), .verbatim s { id := inp.length + 1, str := s }], { σ with off := none })
    | .undefined => ([.unmute (-1)], { σ with off := none, ub := true })

/-- `clang_format_on`, parser.c:73-84. -/
def formatOn (inp : List Char) (lx : Lx) (peek : Bool) (t : Lexer.Tok) (σ : St) : List Doc × St :=
  if peek ∨ σ.unmute ≠ none then ([], σ) else formatVerbatim inp lx t.lno σ

/-- `clang_format_off`, parser.c:86-102. -/
def formatOff (peek : Bool) (t : Lexer.Tok) (σ : St) : List Doc × St :=
  if peek ∨ σ.unmute ≠ none then ([], σ) else ([.mute 1], { σ with off := some t })

/-- The body of the loop over prefixes, parser.c:335-343. -/
def docPrefix (inp : List Char) (lx : Lx) (peek : Bool) (t : Lexer.Tok) (σ : St) : List Doc × St :=
  let a := if t.flags.cfOn then formatOn inp lx peek t σ else ([], σ)
  let b := if t.flags.cfOff then formatOff peek t a.2 else ([], a.2)
  (a.1 ++ .verbatim (text inp t) (docTok inp t) :: b.1, b.2)

/-- The loop over prefixes, parser.c:335-343. -/
def docPrefixes (inp : List Char) (lx : Lx) (peek : Bool) : List Lexer.Tok → St → List Doc × St
  | [], σ => ([], σ)
  | t :: ts, σ =>
    let a := docPrefix inp lx peek t σ
    let b := docPrefixes inp lx peek ts a.2
    (a.1 ++ b.1, b.2)

/-- The loop over suffixes, parser.c:347-354. -/
def docSuffixes (inp : List Char) (ts : List Lexer.Tok) : List Doc :=
  ts.flatMap fun t =>
    if t.flags.discard then []
    else if t.flags.optline then [.optline]
    else [.verbatim (text inp t) (docTok inp t)]

/-- `parser_doc_token_impl`, parser.c:323-362: the documents added and the state.
`branch` tells if the next token is the first one of an alternative branch. -/
def docToken (inp : List Char) (lx : Lx) (peek branch : Bool) (t : Lexer.Token) (σ : St) :
    List Doc × St :=
  let left : Bool := σ.unmute = some t.tok.off
  let p := docPrefixes inp lx peek t.prefixes
    (if left && !peek then { σ with unmute := none } else σ)
  ((if left then [.mute (-1)] else []) ++ p.1 ++
    .literal (text inp t.tok) (some (docTok inp t.tok)) :: docSuffixes inp t.suffixes ++
    (if branch then [.mute 1] else []), p.2)

/-- What the parser does to the document: it adds a token, or anything else that does not
concern tokens (white space, line breaks, literals of its own). Groups, indentation and the
like are left out here, see `Builds`. -/
inductive Act where
  | token (t : Lexer.Token)
  | other (d : Doc)

/-- A run of the parser that neither looks ahead nor comes across a branch. -/
def acts (inp : List Char) (lx : Lx) : List Act → St → List Doc × St
  | [], σ => ([], σ)
  | .token t :: l, σ =>
    let a := docToken inp lx false false t σ
    let b := acts inp lx l a.2
    (a.1 ++ b.1, b.2)
  | .other d :: l, σ =>
    let b := acts inp lx l σ
    (d :: b.1, b.2)

/-- `parser_exec`, parser.c:122-195, as far as the document is concerned: whatever
`parser_root` does to it, and `clang_format_verbatim` at the end. Recovering from errors and
branches is not part of this. -/
def parserExec (inp : List Char) (lx : Lx) (l : List Act) : List Doc × St :=
  let a := acts inp lx l {}
  let b := formatVerbatim inp lx 0 a.2
  (a.1 ++ b.1, b.2)

/-- The document has the given parts in order, in whatever groups and the like. -/
def Builds (d : Doc) (parts : List Doc) : Prop := events d = parts.flatMap events

end Knfmt.Parser
