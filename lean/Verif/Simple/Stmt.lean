import Verif.Stream.Edit
import Verif.Comment.Model
/-!
# simple-stmt.c: braces around statements

Tokens are named by their address, `Node.id`. The parser reports the bodies of the statements it
parses, in order; what the document of a body is printed as is given with it.
-/
namespace Knfmt.Stmt

open Knfmt.Lexer (TT)
open Knfmt.Stream (Node Fix)
open Knfmt.Comment (isSpace)

/-- What is given to `simple_stmt_braces_enter`, simple-stmt.c:107-125, `simple_stmt_no_braces_enter`,
simple-stmt.c:127-143, and `simple_stmt_no_braces_leave`, simple-stmt.c:145-155. With braces `lb` and
`rb` are the braces, without they are the first token of the body and the token after it. `text` is what
`doc_exec` gives for the body, simple-stmt.c:209-216. -/
structure Body where
  lb : Nat
  rb : Nat
  braces : Bool
  text : List Char
deriving DecidableEq, Repr

/-- `struct stmt`, simple-stmt.c:22-30. -/
structure Stmt extends Body where
  ignore : Bool
deriving DecidableEq, Repr

/-- The token with the given address. -/
def node (ts : List Node) (id : Nat) : Option Node := ts.find? (fun t => t.id == id)

/-- Its position. -/
def pos (ts : List Node) (id : Nat) : Option Nat := ts.findIdx? (fun t => t.id == id)

/-- `token_has_cpp`, token.c:225-234. -/
def hasCpp (t : Node) : Bool := t.prefixes.any (·.flags.cpp)

/-- `token_is_moveable`, token.c:375-389. -/
def isMoveable (t : Node) : Bool :=
  !(t.prefixes.any fun p => decide (p.type = .comment) || p.flags.cpp) &&
  !(t.suffixes.any fun s => decide (s.type = .comment))

/-- `is_brace_moveable`, simple-stmt.c:298-305. -/
def isBraceMoveable (diffparse : Bool) (ts : List Node) (id : Nat) : Bool :=
  match node ts id with
  | none => false
  | some t => (!diffparse || t.flags.diff) && !hasCpp t

/-- `SIMPLE_STMT_MAX`, simple-stmt.c:20. -/
def stmtMax : Nat := 32

/-- `simple_stmt_alloc`, simple-stmt.c:157-175, called by the functions that report a body: what is
recorded. -/
def record (diffparse : Bool) (ts : List Node) (bs : List Body) : List Stmt :=
  (bs.take stmtMax).map fun b =>
    { b with ignore := !(isBraceMoveable diffparse ts b.lb && isBraceMoveable diffparse ts b.rb) }

/-- `token_next`, token.c. -/
def next (ts : List Node) (id : Nat) : Option Node :=
  match pos ts id with
  | none => none
  | some i => ts[i + 1]?

/-- `token_prev`, token.c. -/
def prev (ts : List Node) (id : Nat) : Option Node :=
  match pos ts id with
  | none => none
  | some 0 => none
  | some (i + 1) => ts[i]?

/-- `is_stmt_empty`, simple-stmt.c:177-197; `len` is the number of recorded statements. -/
def isEmpty (ts : List Node) (len : Nat) (s : Stmt) : Bool :=
  let nx := next ts s.lb
  if s.braces then
    if (nx.map (·.id) == (prev ts s.rb).map (·.id)) && (nx.map (·.type) == some .semi) && len == 1 then true
    else nx.map (·.id) == some s.rb
  else (nx.map (·.id) == some s.rb) && ((node ts s.lb).map (·.type) != some .semi)

/-- `strtrim`, simple-stmt.c:307-318. -/
def strtrim (s : List Char) : List Char :=
  ((s.dropWhile isSpace).reverse.dropWhile isSpace).reverse

/-- `isoneline`, simple-stmt.c:292-296. -/
def isoneline (s : List Char) : Bool := !s.contains '\n'

/-- `simple_stmt_need_braces`, simple-stmt.c:199-223. -/
def needBraces1 (ts : List Node) (len : Nat) (s : Stmt) : Bool :=
  if isEmpty ts len s then true
  else if isoneline (strtrim s.text) then
    s.braces && !((node ts s.rb).map isMoveable).getD true
  else true

/-- `need_braces`, simple-stmt.c:225-246. -/
def needBraces (ts : List Node) (ss : List Stmt) : Bool :=
  ss.any fun s => if s.ignore then s.braces else needBraces1 ts ss.length s

/-- A brace is inserted before the token `id`, and suffixes of the token before it are moved to
the brace, simple-stmt.c:261-264 and 266-269. `n` is the address of the brace. -/
def addBrace (kind : TT) (ts : List Node) (id n : Nat) : Option (List Node) :=
  match pos ts id with
  | none => none
  | some 0 => none
  | some (p + 1) =>
    match Knfmt.Stream.insertAfter ts p { id := n, type := kind } n with
    | none => none
    | some ts =>
      match ts[p]?, ts[p + 1]? with
      | some pv, some br =>
        let r := if kind = .lbrace then ([], Knfmt.Stream.moveSuffixes pv.suffixes br.suffixes)
          else Knfmt.Stream.moveSuffixesIf .space pv.suffixes br.suffixes
        some ((ts.set p { pv with suffixes := r.1 }).set (p + 1) { br with suffixes := r.2 })
      | _, _ => none

/-- `add_braces`, simple-stmt.c:248-272. -/
def addBraces : List Node → Nat → List Stmt → Option (List Node)
  | ts, _, [] => some ts
  | ts, n, s :: ss =>
    if s.ignore || s.braces then addBraces ts n ss
    else
      match addBrace .lbrace ts s.lb n with
      | none => none
      | some ts =>
        match addBrace .rbrace ts s.rb (n + 1) with
        | none => none
        | some ts => addBraces ts (n + 2) ss

/-- `lexer_remove`, lexer.c:525-548, of the token with the given address. -/
def removeId (ts : List Node) (st : Option Nat) (id : Nat) : Option (List Node × Option Nat) :=
  match pos ts id with
  | none => none
  | some i => Knfmt.Stream.remove ts st i

/-- `remove_braces`, simple-stmt.c:274-290; `st` is the token the lexer is at. -/
def removeBraces : List Node → Option Nat → List Stmt → Option (List Node)
  | ts, _, [] => some ts
  | ts, st, s :: ss =>
    if s.ignore || !s.braces then removeBraces ts st ss
    else
      match removeId ts st s.lb with
      | none => none
      | some (ts, st) =>
        match removeId ts st s.rb with
        | none => none
        | some (ts, st) => removeBraces ts st ss

/-- `simple_stmt_leave`, simple-stmt.c:77-87, for the bodies reported. `none` if something that does
not exist is used, `n` is the first unused address. -/
def simpleStmt (diffparse : Bool) (ts : List Node) (st : Option Nat) (n : Nat) (bs : List Body) :
    Option (List Node) :=
  let ss := record diffparse ts bs
  if ss = [] then some ts
  else if needBraces ts ss then addBraces ts n ss
  else removeBraces ts st ss

end Knfmt.Stmt
