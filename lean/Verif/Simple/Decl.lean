import Verif.Simple.Forward
/-!
# simple-decl.c: grouping and sorting declarations

Tokens are named by their address, `Node.id`; `text` gives the text of a token. The parser reports the
declarations of a block: first the type, then every comma between variables, then the semicolon.
`none` stands for a failed assertion or the use of a null pointer.
-/
namespace Knfmt.SimpleDecl

open Knfmt.Lexer (TT)
open Knfmt.Stream (Node Fix)
open Knfmt.Stmt (node pos next prev isMoveable removeId)
open Knfmt.Forward (from_ moveId moveSpaces)

/-- The tokens up to and with `fin`, or all of them. -/
def upTo (fin : Nat) : List Node → List Node
  | [] => []
  | t :: ts => if t.id = fin then [t] else t :: upTo fin ts

/-- The tokens visited by `TOKEN_RANGE_FOREACH`, simple-decl.c:29-33, if the tokens are not changed. -/
def range (ts : List Node) (beg fin : Nat) : List Node := upTo fin (from_ ts beg)

/-- `struct decl_var`, simple-decl.c:52-56, of a variable that is moved. -/
structure Var where
  beg : Nat
  fin : Nat
  sort : Nat
  delim : Option Nat
deriving DecidableEq, Repr

/-- `struct decl_type_vars`, simple-decl.c:73-82. -/
structure Slot where
  vars : List Var := []
  kept : Option Nat := none
  fallback : Option Nat := none
deriving DecidableEq, Repr

/-- `struct decl_type`, simple-decl.c:61-65. -/
structure DeclType where
  beg : Nat
  fin : Nat
  slots : List Slot := []
  str : List Char
deriving DecidableEq, Repr

/-- `struct decl`, simple-decl.c:41-48. -/
structure Empty where
  slots : List Nat := []
  beg : Nat
  fin : Nat
  nkeep : Nat := 0
deriving DecidableEq, Repr

/-- `sd->dv`: a variable that is not complete, simple-decl.c:52-56. -/
structure Cur where
  beg : Nat
  delim : Option Nat := none
deriving DecidableEq, Repr

/-- `struct simple_decl`, simple-decl.c:84-103. `dt` is a position in `types`. The last of `empty` is the
one added last. -/
structure State where
  empty : List Empty := []
  types : List DeclType := []
  dt : Option Nat := none
  dv : Option Cur := none
deriving DecidableEq, Repr

/-- `token_is_decl`, token.c:354-369. -/
def isDecl (ts : List Node) (tk : Node) (ty : TT) : Bool :=
  match next ts tk.id with
  | none => false
  | some nx =>
    if nx.type ≠ .lbrace then false
    else if tk.type = .ident then
      match prev ts tk.id with
      | none => false
      | some pv => decide (pv.type = ty)
    else decide (tk.type = ty)

/-- `is_type_valid`, simple-decl.c:207-235. -/
def isTypeValid (ts : List Node) (beg fin : Nat) : Bool :=
  !(decide (beg = fin) && (match node ts beg with
    | none => false
    | some t => isDecl ts t .kStruct || isDecl ts t .kUnion)) &&
  (range ts beg fin).all fun t => isMoveable t && decide (t.type ≠ .lparen) && decide (t.type ≠ .lbrace)

/-- `token_range_str`, simple-decl.c:318-335. -/
def rangeStr (text : Nat → List Char) (tks : List Node) : List Char :=
  [' '].intercalate ((tks.filter fun t => decide (t.type ≠ .star)).map fun t => text t.id)

/-- `while (end->tk_type == TOKEN_STAR) end = token_prev(end)`, simple-decl.c:256-257. -/
def skipStars (ts : List Node) : Nat → Nat → Option Nat
  | 0, _ => none
  | fuel + 1, fin =>
    match node ts fin with
    | none => none
    | some t =>
      if t.type ≠ .star then some fin
      else
        match prev ts fin with
        | none => none
        | some pv => skipStars ts fuel pv.id

/-- `simple_decl_type_find`, simple-decl.c:406-418. -/
def typeFind (types : List DeclType) (str : List Char) : Option Nat :=
  types.findIdx? fun t => t.str == str

/-- `simple_decl_type_create`, simple-decl.c:375-404: the types and the position of the one wanted. -/
def typeCreate (ts : List Node) (types : List DeclType) (str : List Char) (beg fin : Nat) :
    Option (List DeclType × Nat) :=
  match typeFind types str with
  | some i => some (types, i)
  | none =>
    match ((range ts beg fin).filter fun t => decide (t.type ≠ .star)).getLast? with
    | none => none
    | some e => some (types ++ [{ beg := beg, fin := e.id, str := str }], types.length)

/-- `simple_decl_type`, simple-decl.c:237-266. -/
def declType (text : Nat → List Char) (ts : List Node) (σ : State) (beg fin : Nat) : Option State :=
  if !isTypeValid ts beg fin then some σ
  else
    match typeCreate ts σ.types (rangeStr text (range ts beg fin)) beg fin, skipStars ts ts.length fin with
    | some (types, i), some e =>
      match next ts e with
      | none => none
      | some nx =>
        some {
          empty := σ.empty ++ [{ beg := beg, fin := fin }]
          types := types
          dt := some i
          dv := some { beg := nx.id } }
    | _, _ => none

/-- The loop of `classify`, simple-decl.c:571-599: number of identifiers, stars and squares, and whether
something is wrong. -/
def classifyGo : List Node → Nat × Nat × Nat × Bool → Nat × Nat × Nat × Bool
  | [], a => a
  | t :: ts, (ni, ns, nq, e) =>
    let e' := e || !isMoveable t
    if t.type = .star then classifyGo ts (ni, ns + 1, nq, e')
    else if t.type = .ident then classifyGo ts (ni + 1, ns, nq, e')
    else if t.type = .lsquare then classifyGo ts (ni, ns, nq + 1, true)
    else if t.type = .equal then (ni, ns, nq, true)
    else classifyGo ts (ni, ns, nq, true)

/-- `classify`, simple-decl.c:561-614: can the variable be moved, and its slot. -/
def classify (tks : List Node) : Bool × Nat :=
  let (ni, ns, nq, e) := classifyGo tks (0, 0, 0, false)
  (!e && decide (ni > 0), if nq > 0 then 4 else ns)

/-- `decl_type_slot`, simple-decl.c:357-370. -/
def growSlots (slots : List Slot) (n : Nat) : List Slot := slots ++ List.replicate (n + 1 - slots.length) ({} : Slot)

/-- The second loop of `associate_semi`, simple-decl.c:541-558. -/
def fallBack (semi : Nat) : List Slot → List Slot
  | [] => []
  | s :: ss =>
    (if s.kept.isSome then s
     else
      match ss.findSome? (·.kept) with
      | some k => { s with kept := some k }
      | none => { s with fallback := s.fallback.or (some semi) }) :: fallBack semi ss

/-- `associate_semi`, simple-decl.c:523-559; `ns` are the slots of the declaration. -/
def associateSemi (ns : List Nat) (slots : List Slot) (semi : Nat) : List Slot :=
  fallBack semi (ns.foldr (fun n ss => ss.modify n fun s => { s with kept := some semi }) slots)

/-- `simple_decl_var_end`, simple-decl.c:458-521: the state and whether the variable is moved. `delim` is
used if the variable has no delimiter yet, as done by the caller, simple-decl.c:303-304. -/
def varEnd (ts : List Node) (σ : State) (dv : Cur) (fin : Node) (delim : Option Nat) : Option (State × Bool) :=
  match σ.empty.getLast?, σ.dt, prev ts fin.id with
  | some dc, some i, some pv =>
    match σ.types[i]? with
    | none => none
    | some dt =>
      let c := classify (range ts dv.beg pv.id)
      let keep := !c.1 || !isMoveable fin
      let slots := growSlots dt.slots c.2
      let ns := if keep then dc.slots ++ [c.2] else dc.slots
      let semi := decide (fin.type = .semi)
      let slots := if semi then associateSemi ns slots fin.id else slots
      let dc' : Empty :=
        { dc with nkeep := if keep then dc.nkeep + 1 else dc.nkeep, slots := if semi then [] else ns }
      let empty := σ.empty.dropLast ++ [dc']
      if keep then
        some ({ σ with empty := empty, types := σ.types.set i { dt with slots := slots } }, false)
      else
        match (range ts dv.beg pv.id).find? fun t => decide (t.type = .ident) with
        | none => none
        | some srt =>
          let v : Var := { beg := dv.beg, fin := pv.id, sort := srt.id, delim := dv.delim.or delim }
          let slots := slots.modify c.2 fun s => { s with vars := s.vars ++ [v] }
          some ({ σ with empty := empty, types := σ.types.set i { dt with slots := slots } }, true)
  | _, _, _ => none

/-- `simple_decl_semi`, simple-decl.c:268-291. -/
def declSemi (ts : List Node) (σ : State) (semi : Node) : Option State :=
  match σ.dv with
  | none => some σ
  | some dv =>
    match varEnd ts σ dv semi none with
    | none => none
    | some (σ, _) =>
      match σ.empty.getLast? with
      | none => none
      | some dc =>
        some { σ with
          empty := if dc.nkeep = 0 then σ.empty.dropLast ++ [{ dc with fin := semi.id }] else σ.empty.dropLast
          dv := none, dt := none }

/-- `simple_decl_comma`, simple-decl.c:293-316. -/
def declComma (ts : List Node) (σ : State) (comma : Node) : Option State :=
  match σ.dv with
  | none => some σ
  | some dv =>
    match varEnd ts σ dv comma (some comma.id), next ts comma.id with
    | some (σ, moved), some nx =>
      let delim :=
        if moved && dv.delim.isNone then none else if isMoveable comma then some comma.id else none
      some { σ with dv := some { beg := nx.id, delim := delim } }
    | _, _ => none

/-- What the parser reports, parser-decl.c:198-199, 263-264 and 304-305. -/
inductive Call where
  | type (beg fin : Nat)
  | comma (tk : Node)
  | semi (tk : Node)
deriving DecidableEq, Repr

/-- One report. -/
def call (text : Nat → List Char) (ts : List Node) (σ : State) : Call → Option State
  | .type beg fin => declType text ts σ beg fin
  | .comma tk => declComma ts σ tk
  | .semi tk => declSemi ts σ tk

/-- All reports. -/
def calls (text : Nat → List Char) (ts : List Node) : State → List Call → Option State
  | σ, [] => some σ
  | σ, c :: cs =>
    match call text ts σ c with
    | none => none
    | some σ => calls text ts σ cs

/-! ## The edits -/

/-- The tokens, their text, and the first address not in use. -/
structure Ed where
  ts : List Node
  text : Nat → List Char
  fresh : Nat

/-- `lexer_copy_after`, lexer.c:471-482. -/
def copyId (e : Ed) (after src : Nat) : Option Ed :=
  match pos e.ts after, node e.ts src with
  | some i, some s =>
    match Knfmt.Stream.copyAfter e.ts i s e.fresh with
    | none => none
    | some ts =>
      some { ts := ts, fresh := e.fresh + 1 + s.prefixes.length + s.suffixes.length
             text := fun n => if n = e.fresh then e.text src else e.text n }
  | _, _ => none

/-- `lexer_insert_after` of `clang_keyword_token`, lexer.c:484-495. -/
def insertKw (e : Ed) (after : Nat) (ty : TT) (txt : List Char) : Option Ed :=
  match pos e.ts after with
  | none => none
  | some i =>
    match Knfmt.Stream.insertAfter e.ts i { id := e.fresh, type := ty } e.fresh with
    | none => none
    | some ts =>
      some { ts := ts, fresh := e.fresh + 1, text := fun n => if n = e.fresh then txt else e.text n }

/-- The loop that makes a new type, simple-decl.c:429-430: the token added last is given back. The token
that comes next is known before, see `TOKEN_RANGE_FOREACH`, simple-decl.c:29-33. -/
def copyRange (fin : Nat) : Nat → Ed → Nat → Nat → Option (Ed × Nat)
  | 0, _, _, _ => none
  | fuel + 1, e, after, tk =>
    let nx := next e.ts tk
    match copyId e after tk with
    | none => none
    | some e' =>
      if tk = fin then some (e', e.fresh)
      else
        match nx with
        | none => some (e', e.fresh)
        | some nx => copyRange fin fuel e' e.fresh nx.id

/-- The loop that moves the tokens of a variable, simple-decl.c:444-445. -/
def moveRange (fin : Nat) : Nat → List Node → Nat → Nat → Option (List Node × Nat)
  | 0, _, _, _ => none
  | fuel + 1, ts, after, tk =>
    let nx := next ts tk
    match moveId ts after tk with
    | none => none
    | some ts =>
      if tk = fin then some (ts, tk)
      else
        match nx with
        | none => some (ts, tk)
        | some nx => moveRange fin fuel ts tk nx.id

/-- The loop that removes a declaration, simple-decl.c:174-175. -/
def removeRange (fin : Nat) : Nat → List Node → Nat → Option (List Node)
  | 0, _, _ => none
  | fuel + 1, ts, tk =>
    let nx := next ts tk
    match removeId ts none tk with
    | none => none
    | some (ts, _) =>
      if tk = fin then some ts
      else
        match nx with
        | none => some ts
        | some nx => removeRange fin fuel ts nx.id

/-- The comma of a variable is removed, simple-decl.c:437-438. -/
def dropDelim (e : Ed) : Option Nat → Option Ed
  | none => some e
  | some d => (removeId e.ts none d).map fun x => { e with ts := x.1 }

/-- The loop over the variables in `simple_decl_move_vars`, simple-decl.c:433-446. `first` tells whether
it is the first round. -/
def moveVarsGo (e : Ed) (after : Nat) (first : Bool) : List Var → Option (Ed × Nat)
  | [] => some (e, after)
  | v :: vs =>
    match dropDelim e v.delim with
    | none => none
    | some e =>
      match (if first then some (e, after)
        else (insertKw e after .comma [',']).map fun e' => (e', e.fresh)) with
      | none => none
      | some (e, after) =>
        match moveRange v.fin (e.ts.length + 1) e.ts after v.beg with
        | none => none
        | some (ts, after) => moveVarsGo { e with ts := ts } after false vs

/-- `simple_decl_move_vars`, simple-decl.c:420-449. -/
def moveVars (e : Ed) (dt : DeclType) (vars : List Var) (after : Nat) : Option (Ed × Nat) := do
  let (e, after) ← copyRange dt.fin (e.ts.length + 1) e after dt.beg
  let (e, after) ← moveVarsGo e after true vars
  let e' ← insertKw e after .semi [';']
  return (e', e.fresh)

/-- One slot in `simple_decl_leave`, simple-decl.c:149-167. `srt` is the order `qsort` gives. -/
def leaveSlot (srt : (Nat → List Char) → List Var → List Var) (dt : DeclType) (e : Ed) (s : Slot) : Option Ed :=
  if s.vars = [] then some e
  else
    match s.kept.or s.fallback with
    | none => none
    | some semi => do
      let (e, after) ← moveVars e dt (srt e.text s.vars) semi
      let ts ← moveSpaces e.ts semi after
      return { e with ts := ts }

/-- `simple_decl_leave`, simple-decl.c:137-177. -/
def leave (srt : (Nat → List Char) → List Var → List Var) (σ : State) (e : Ed) : Option Ed := do
  let e ← σ.types.foldlM (fun e dt => dt.slots.foldlM (leaveSlot srt dt) e) e
  let ts ← σ.empty.foldlM (fun ts dc => removeRange dc.fin (ts.length + 1) ts dc.beg) e.ts
  return { e with ts := ts }

/-- The simplification of a block of declarations, parser-decl.c:502-532: the parser reports them, then they
are changed. -/
def simplify (srt : (Nat → List Char) → List Var → List Var) (e : Ed) (cs : List Call) : Option Ed :=
  match calls e.text e.ts {} cs with
  | none => none
  | some σ => leave srt σ e

end Knfmt.SimpleDecl
