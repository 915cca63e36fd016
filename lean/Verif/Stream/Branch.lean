import Verif.Stream.Props
/-! # Preprocessor branches, clang.c:270-336, 436-482, 658-672, 734-752, 816-1011, 1358-1453

Tokens and directives are named by numbers in the order of the text. -/
namespace Knfmt.Branch

/-- `token_type_normalize`, token.c:236-245, of a directive: `#if`, `#ifdef` and `#ifndef` are
`cppIf`, `#else` and `#elif` are `cppElse`, all others are `cpp`. -/
inductive K where
  | cpp | cppIf | cppElse | cppEndif
deriving DecidableEq, Repr

/-- The type of a directive and `struct clang_token`, clang.h: `branch.pv`, `branch.nx` and
`branch.parent`. -/
structure Dir where
  type : K := .cpp
  pv : Option Nat := none
  nx : Option Nat := none
  parent : Option Nat := none
deriving DecidableEq, Repr

/-- The directives, `tk_prefixes` of every token without comments, `TOKEN_FLAG_BRANCH` of
every token, `cl->branches` (last element first) and `lx_tokens`. `ok` is false once a null
pointer was dereferenced or an assertion failed. -/
structure St where
  dir : Nat → Dir
  prefixes : Nat → List Nat
  flag : Nat → Bool := fun _ => false
  stack : List Nat := []
  toks : List Nat := []
  ok : Bool := true

/-- Assigns to a directive. -/
def St.set (σ : St) (i : Nat) (d : Dir) : St :=
  { σ with dir := fun j => if j = i then d else σ.dir j }

/-- `token_branch_find`, clang.c:1390-1412. -/
def find (σ : St) (t : Nat) : Option Nat :=
  (σ.prefixes t).findSome? fun i =>
    if (σ.dir i).type ≠ .cppElse then none
    else match (σ.dir i).pv with
      | none => none
      | some p => if (σ.dir i).parent ≠ (σ.dir p).parent then some p else none

/-- `token_branch_parent_update_flags`, clang.c:1432-1439. -/
def updateFlags (σ : St) (parent : Option Nat) : St :=
  match parent with
  | none => { σ with ok := false }
  | some t => { σ with flag := fun u => if u = t then (find σ t).isSome else σ.flag u }

/-- `token_branch_revert`, clang.c:1441-1453. -/
def revert (σ : St) (i : Nat) : St :=
  let σ := σ.set i { σ.dir i with type := .cpp }
  let σ := match (σ.dir i).parent with | some t => updateFlags σ (some t) | none => σ
  σ.set i {}

/-- `clang_branch_enter`, clang.c:930-942, and `token_branch_parent`, clang.c:1421-1430. -/
def enter (σ : St) (i t : Nat) : St :=
  let σ := σ.set i { σ.dir i with parent := some t }
  { σ with stack := i :: σ.stack }

/-- `clang_branch_link`, clang.c:944-965, and `token_branch_link`, clang.c:1414-1419. -/
def link (σ : St) (i t : Nat) : St :=
  match σ.stack with
  | [] => revert σ i
  | br :: rest =>
    let σ := σ.set i { σ.dir i with parent := some t }
    let σ := σ.set br { σ.dir br with nx := some i }
    let σ := σ.set i { σ.dir i with pv := some br }
    { σ with stack := i :: rest }

/-- The loop of `clang_branch_leave`, clang.c:979-983. The previous directive comes earlier in
the text, so the test is always true. -/
def walkFlags (σ : St) (i : Nat) : St :=
  let σ' := updateFlags σ (σ.dir i).parent
  match (σ.dir i).pv with
  | none => σ'
  | some p => if _h : p < i then walkFlags σ' p else σ'
termination_by i

/-- `clang_branch_leave`, clang.c:967-987. -/
def leave (σ : St) (i t : Nat) : St :=
  let σ := link σ i t
  let σ := match σ.stack with | [] => σ | br :: _ => walkFlags σ br
  { σ with stack := σ.stack.tail }

/-- The linking of a directive in `clang_read`, clang.c:658-672. -/
def step (σ : St) (i t : Nat) : St :=
  match (σ.dir i).type with
  | .cppIf => enter σ i t
  | .cppElse => link σ i t
  | .cppEndif => leave σ i t
  | .cpp => σ

/-- The inner loop of `clang_branch_purge`, clang.c:1001-1009. The previous directive comes
earlier in the text, so the test is always true. -/
def revertChain (σ : St) (i : Nat) : St :=
  let pv := (σ.dir i).pv
  let σ := revert σ i
  match pv with
  | none => σ
  | some p => if _h : p < i then revertChain σ p else σ
termination_by i

/-- `clang_branch_purge`, clang.c:992-1011. -/
def purge (σ : St) : St :=
  { σ.stack.foldl revertChain σ with stack := [] }

/-- What the lexer sees of a file: the directives in order, their types and the tokens they
are prefixes of. -/
structure File where
  /-- number of directives -/
  n : Nat
  kind : Nat → K
  owner : Nat → Nat
  /-- number of tokens -/
  ntoks : Nat

/-- Before any linking. -/
def File.init (F : File) : St where
  dir := fun i => { type := if i < F.n then F.kind i else .cpp }
  prefixes := fun t => (List.range F.n).filter (fun i => F.owner i = t)
  toks := List.range F.ntoks

/-- The directives up to the `n`-th are read. -/
def File.read (F : File) : Nat → St
  | 0 => F.init
  | n + 1 => step (F.read n) n (F.owner n)

/-- All of the file is read; `clang_after_read`, clang.c:496-505. -/
def File.final (F : File) : St := purge (F.read F.n)

/-- `token_branch_exhaust`, clang.c:1376-1388. -/
def exhaust (σ : St) (i : Nat) : St :=
  let σ := σ.set i { σ.dir i with type := .cpp, pv := none, nx := none }
  let σ := updateFlags σ (σ.dir i).parent
  σ.set i { σ.dir i with parent := none }

/-- A null pointer is dereferenced or an assertion fails. -/
def St.fail (σ : St) : St := { σ with ok := false }

/-- `clang_token_branch_unlink`, clang.c:437-482. -/
def unlink (σ : St) (i : Nat) : St :=
  let d := σ.dir i
  match d.type with
  | .cppIf =>
    if d.pv ≠ none then σ.fail
    else match d.nx with
      | none => σ.fail
      | some nx =>
        match (σ.dir nx).type with
        | .cppEndif => exhaust (exhaust σ nx) i
        | .cppElse =>
          let σ := σ.set nx { σ.dir nx with pv := none, type := .cppIf }
          exhaust (updateFlags σ (σ.dir nx).parent) i
        | _ => σ.fail
  | .cppElse =>
    match d.pv, d.nx with
    | some pv, some nx =>
      let σ := σ.set pv { σ.dir pv with nx := some nx }
      let σ := σ.set nx { σ.dir nx with pv := some pv }
      let σ := updateFlags σ (σ.dir pv).parent
      let σ := updateFlags σ (σ.dir nx).parent
      exhaust σ i
    | _, _ => σ.fail
  | .cppEndif =>
    if d.nx ≠ none then σ.fail
    else match d.pv with
      | none => σ.fail
      | some pv =>
        match (σ.dir pv).type with
        | .cppIf => exhaust (exhaust σ pv) i
        | .cppElse =>
          let σ := σ.set pv { σ.dir pv with nx := none, type := .cppEndif }
          exhaust (updateFlags σ (σ.dir pv).parent) i
        | _ => σ.fail
  | .cpp => σ

/-- `clang_end_of_branch`, clang.c:734-752, from the directive found; `none` stands for a null
pointer. The next directive comes later in the text, so the test is always true. -/
def lastOf (F : Nat) (σ : St) (i : Nat) : Option Nat :=
  match (σ.dir i).nx with
  | none => (σ.dir i).parent
  | some j => if _h : i < j ∧ j < F then lastOf F σ j else none
termination_by F - i

/-- `clang_end_of_branch`, clang.c:734-752; `none` if an assertion fails or a null pointer is
dereferenced. `F` bounds the directives. -/
def endOfBranch (F : Nat) (σ : St) (t : Nat) : Option Nat :=
  if σ.flag t = false then none
  else match find σ t with
    | none => none
    | some i => lastOf F σ i

/-- `remove_token`, clang.c:911-928. Once prefixes and suffixes are gone, `lexer_remove` only
takes the token out of the list. -/
def removeToken (σ : St) (t : Nat) : St :=
  let σ := (σ.prefixes t).foldl (fun σ i =>
    let σ := unlink σ i
    { σ with prefixes := fun u => if u = t then (σ.prefixes u).tail else σ.prefixes u }) σ
  { σ with toks := σ.toks.erase t }

/-- `token_next`: the token after the given one. -/
def nextTok : List Nat → Nat → Option Nat
  | a :: b :: ts, t => if a = t then some b else nextTok (b :: ts) t
  | _, _ => none

/-- The loop of `clang_branch`, clang.c:303-314; the list bounds the number of rounds. -/
def removeUntil (σ : St) (rm dst : Nat) : Nat → St
  | 0 => σ.fail
  | n + 1 =>
    match nextTok σ.toks rm with
    | none => σ.fail
    | some nx =>
      let σ := removeToken σ rm
      if nx = dst then σ else removeUntil σ nx dst n

/-- `clang_branch`, clang.c:273-336, on the token the lexer is at: the state and `*unmute`.
`none` if it returns zero because there is no branch. Seeking is not modelled. -/
def branch (σ : St) (back : Nat) : Option (St × Nat) :=
  match find σ back with
  | none => none
  | some src =>
    match (σ.dir src).parent, (σ.dir src).nx with
    | some s, some cppDst =>
      match (σ.dir cppDst).parent with
      | some dst => some (removeUntil (unlink σ src) s dst σ.toks.length, dst)
      | none => some (σ.fail, back)
    | _, _ => some (σ.fail, back)

/-- `token_move_prefix`, clang.c:1358-1374, and `token_branch_parent`, clang.c:1421-1430. -/
def movePrefix (σ : St) (i src dst : Nat) : St :=
  let σ := { σ with
    prefixes := fun u => if u = src then (σ.prefixes u).erase i else σ.prefixes u }
  let σ := { σ with
    prefixes := fun u => if u = dst then i :: σ.prefixes u else σ.prefixes u }
  if (σ.dir i).type = .cpp then σ
  else
    let σ := σ.set i { σ.dir i with parent := some dst }
    updateFlags (updateFlags σ (some dst)) (some src)

/-- The first loop of `clang_branch_fold`, clang.c:848-857: the prefixes of the token up to the
given one are removed. -/
def dropPrefixes (σ : St) (dst last : Nat) : List Nat → St
  | [] => σ
  | i :: l =>
    let σ := unlink σ i
    let σ := { σ with prefixes := fun u => if u = dst then (σ.prefixes u).tail else σ.prefixes u }
    if i = last then σ else dropPrefixes σ dst last l

/-- `clang_branch_fold`, clang.c:816-909; `new` is the directive made up from the text between
`cpp_src` and `cpp_dst`. Tokens that belong to a branch are never dangling, so the test of
clang.c:893 is left out. -/
def fold (σ : St) (cppSrc new : Nat) : St :=
  match (σ.dir cppSrc).parent, (σ.dir cppSrc).nx with
  | some src, some cppDst =>
    match (σ.dir cppDst).parent with
    | none => σ.fail
    | some dst =>
      let σ := dropPrefixes σ dst cppDst (σ.prefixes dst)
      let σ := { σ with prefixes := fun u => if u = dst then new :: σ.prefixes u else σ.prefixes u }
      let keep := (σ.prefixes src).takeWhile (· ≠ cppSrc)
      let σ := keep.reverse.foldl (fun σ i => movePrefix σ i src dst) σ
      if src = dst then σ else removeUntil σ src dst σ.toks.length
  | _, _ => σ.fail

end Knfmt.Branch

namespace Knfmt.Spec

open Knfmt.Branch (K File)

/-- The level of nesting after a sequence of directives; nothing if it closes, or switches
to the alternative of, something it did not open. -/
def level : Nat → List K → Option Nat
  | d, [] => some d
  | d, .cpp :: ks => level d ks
  | d, .cppIf :: ks => level (d + 1) ks
  | 0, .cppElse :: _ => none
  | d + 1, .cppElse :: ks => level (d + 1) ks
  | 0, .cppEndif :: _ => none
  | d + 1, .cppEndif :: ks => level d ks

/-- The directives strictly between two others. -/
def between (F : File) (i j : Nat) : List K := (List.range' (i + 1) (j - (i + 1))).map F.kind

/-- Every branch opened between the two directives is closed between them, and no other. -/
def Nested (F : File) (i j : Nat) : Prop := i < j ∧ level 0 (between F i j) = some 0

/-- The directives that continue the one given up to its `#endif`. -/
inductive Chain (F : File) : Nat → List Nat → Prop where
  | last {i j} : Nested F i j → j < F.n → F.kind j = .cppEndif → Chain F i [j]
  | more {i j js} : Nested F i j → F.kind j = .cppElse → Chain F j js → Chain F i (j :: js)

/-- `#if`, its alternatives and its `#endif`. -/
def Group (F : File) : List Nat → Prop
  | [] => False
  | s :: js => F.kind s = .cppIf ∧ Chain F s js

end Knfmt.Spec
