import Verif.Simple.Stmt
import Verif.Cpp.Include
/-!
# simple-decl-forward.c: sorting forward declarations

Tokens are named by their address, `Node.id`; `text` gives the text of a token.
-/
namespace Knfmt.Forward

open Knfmt.Lexer (TT)
open Knfmt.Stream (Node Fix)
open Knfmt.Stmt (node pos next)

/-- `struct decl_forward`, simple-decl-forward.c:22-26. -/
structure Decl where
  beg : Nat
  ident : Nat
  semi : Nat
deriving DecidableEq, Repr

/-- The tokens and `struct simple_decl_forward`, simple-decl-forward.c:15-20. -/
structure State where
  ts : List Node
  decls : List Decl := []
  after : Option Nat := none
deriving DecidableEq, Repr

/-- `decl_forward_cmp`, simple-decl-forward.c:42-46; `token_strcmp` is token.c:200-204. -/
def cmp (text : Nat → List Char) (a b : Decl) : Ordering :=
  Knfmt.Include.memcmp (text a.ident) (text b.ident)

/-- The token with address `id` is changed. -/
def update (ts : List Node) (id : Nat) (f : Node → Node) : List Node :=
  ts.map fun t => if t.id == id then f t else t

/-- `clang_token_move_prefixes`, clang.c:414-423, for tokens that exist. -/
def movePrefixes (ts : List Node) (src dst : Nat) : Option (List Node) :=
  match node ts src, node ts dst with
  | some s, some d =>
    some (update (update ts src fun t => { t with prefixes := [] }) dst
      fun t => { t with prefixes := Knfmt.Stream.movePrefixes s.prefixes d.prefixes })
  | _, _ => none

/-- `token_move_suffixes_if` with `TOKEN_SPACE`, token.c:519-531, for tokens that exist. -/
def moveSpaces (ts : List Node) (src dst : Nat) : Option (List Node) :=
  match node ts src, node ts dst with
  | some s, some d =>
    let r := Knfmt.Stream.moveSuffixesIf .space s.suffixes d.suffixes
    some (update (update ts src fun t => { t with suffixes := r.1 }) dst
      fun t => { t with suffixes := r.2 })
  | _, _ => none

/-- `lexer_move_after`, lexer.c:497-504. -/
def moveId (ts : List Node) (after tk : Nat) : Option (List Node) :=
  match pos ts after, pos ts tk with
  | some i, some k => Knfmt.Stream.moveAfter ts i k
  | _, _ => none

/-- The inner loop of `simple_decl_forward_leave`, simple-decl-forward.c:98-108: the tokens and
`after`. `none` if the end of the tokens is passed, or if a token is put after itself, or if the loop is not
left after the given number of rounds. -/
def moveDecl (semi : Nat) : Nat → List Node → Nat → Nat → Option (List Node × Nat)
  | 0, _, _, _ => none
  | fuel + 1, ts, after, tk =>
    let nx := next ts tk
    match moveId ts after tk with
    | none => none
    | some ts =>
      if tk = semi then some (ts, tk)
      else
        match nx with
        | none => none
        | some nx => moveDecl semi fuel ts tk nx.id

/-- The outer loop of `simple_decl_forward_leave`, simple-decl-forward.c:94-109. -/
def moveDecls : List Node → Nat → List Decl → Option (List Node)
  | ts, _, [] => some ts
  | ts, after, d :: ds =>
    match moveDecl d.semi ts.length ts after d.beg with
    | none => none
    | some (ts, after) => moveDecls ts after ds

/-- `first_token`, simple-decl-forward.c:55-63, and `last_token`, simple-decl-forward.c:65-73, before and
after sorting, and what is moved between them, simple-decl-forward.c:85-93. -/
def preserve (ts : List Node) (ds ds' : List Decl) : Option (List Node) :=
  match ds.head?, ds.getLast?, ds'.head?, ds'.getLast? with
  | some fu, some lu, some fs, some ls =>
    match (if fu.beg ≠ fs.beg then movePrefixes ts fu.beg fs.beg else some ts) with
    | none => none
    | some ts => if lu.semi ≠ ls.semi then moveSpaces ts lu.semi ls.semi else some ts
  | _, _, _, _ => none

/-- `simple_decl_forward_leave`, simple-decl-forward.c:75-114, and `simple_decl_forward_reset`,
simple-decl-forward.c:48-53. `srt` is the order `qsort` gives. -/
def leave (srt : List Decl → List Decl) (σ : State) : Option State :=
  if σ.decls.length < 2 then some { ts := σ.ts }
  else
    match σ.after, preserve σ.ts σ.decls (srt σ.decls) with
    | some after, some ts =>
      match moveDecls ts after (srt σ.decls) with
      | none => none
      | some ts => some { ts := ts }
    | _, _ => none

/-- The inner loop of `is_forward_decl`, simple-decl-forward.c:137-145. -/
def matchTypes (end_ : Nat) : List TT → List Node → Bool
  | [], _ => false
  | _ :: _, [] => false
  | ty :: tys, tk :: tks =>
    if tk.type ≠ ty then false
    else if tk.id = end_ then true
    else matchTypes end_ tys tks

/-- The tokens from a token on. -/
def from_ (ts : List Node) (id : Nat) : List Node := ts.dropWhile fun t => t.id != id

/-- `is_forward_decl`, simple-decl-forward.c:124-149. -/
def isForwardDecl (ts : List Node) (beg end_ : Nat) : Bool :=
  matchTypes end_ [.typedef, .kStruct, .ident, .ident, .semi] (from_ ts beg) ||
  matchTypes end_ [.kStruct, .ident, .semi] (from_ ts beg)

/-- `find_ident`, simple-decl-forward.c:151-159. -/
def findIdent (ts : List Node) (tk : Nat) : Option Nat :=
  match node ts tk with
  | none => none
  | some t =>
    match (if t.type = .typedef then next ts tk else some t) with
    | none => none
    | some t => if t.type = .kStruct then (next ts t.id).map (·.id) else none

/-- The loop of `is_covered_by_diff`, simple-decl-forward.c:161-174, from a token on. -/
def covered (end_ : Nat) : List Node → Option Bool
  | [] => none
  | tk :: tks =>
    if !tk.flags.diff then some false
    else if tk.id = end_ then some true
    else covered end_ tks

/-- `simple_decl_forward`, simple-decl-forward.c:176-198. -/
def simpleDeclForward (diffparse : Bool) (srt : List Decl → List Decl) (σ : State) (beg semi : Nat) :
    Option State :=
  if !isForwardDecl σ.ts beg semi then leave srt σ
  else
    match (if diffparse then covered semi (from_ σ.ts beg) else some true) with
    | none => none
    | some false => some σ
    | some true =>
      match findIdent σ.ts beg with
      | none => none
      | some ident =>
        some { ts := σ.ts, decls := σ.decls ++ [⟨beg, ident, semi⟩], after := some (σ.after.getD semi) }

/-- The declarations of a block are reported, parser-decl.c:264-269, and
the block is left, parser-decl.c:534-563. -/
def run (diffparse : Bool) (srt : List Decl → List Decl) (σ : State) : List (Nat × Nat) → Option State
  | [] => leave srt σ
  | e :: es =>
    match simpleDeclForward diffparse srt σ e.1 e.2 with
    | none => none
    | some σ => run diffparse srt σ es

end Knfmt.Forward
