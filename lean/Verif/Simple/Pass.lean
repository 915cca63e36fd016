import Verif.Common
/-!
# simple.c: entering and leaving simplification passes
-/
namespace Knfmt.Simple

/-- `enum simple_pass`, simple.h:9-25. -/
inductive Pass where
  | braces | sortIncludes | decl | declForward | declProto | exprParens | exprPrintf | exprSizeof
  | implicitInt | static | stmt | stmtEmptyLoop | stmtSwitch
deriving DecidableEq, Repr

/-- The passes in the order of their numbers, simple.h:9-25. -/
def passes : List Pass :=
  [.braces, .sortIncludes, .decl, .declForward, .declProto, .exprParens, .exprPrintf, .exprSizeof,
   .implicitInt, .static, .stmt, .stmtEmptyLoop, .stmtSwitch]

/-- `enum simple_state`, simple.c:9-14, without `SIMPLE_STATE_NOP` which is never stored. -/
inductive State where
  | disable | enable | ignore
deriving DecidableEq, Repr

/-- The flags given to `simple_enter`, simple.h:4-7. -/
structure Flags where
  force : Bool := false
  ignore : Bool := false
deriving DecidableEq, Repr

/-- `struct simple`, simple.c:16-22. -/
structure St where
  state : Pass → State
  flags : Pass → Flags
  enable : Bool

/-- `struct simple_cookie`, simple.h:27-31; `none` once it is cleared. -/
abbrev Cookie := Option (Pass × State)

/-- `simple_alloc`, simple.c:27-35. -/
def alloc (simple : Bool) : St := { state := fun _ => .disable, flags := fun _ => {}, enable := simple }

/-- The table in `is_pass_mutually_exclusive`, simple.c:117-137: the parent and the nested pass. -/
def exceptions : List (Pass × Pass) :=
  [(.decl, .braces), (.decl, .declProto), (.decl, .implicitInt), (.decl, .static),
   (.decl, .declForward), (.exprParens, .exprSizeof), (.stmt, .stmtEmptyLoop), (.stmtEmptyLoop, .stmt)]

/-- `is_pass_mutually_exclusive`, simple.c:117-158. -/
def exclusive (si : St) (pass : Pass) : Bool :=
  !passes.any fun i =>
    (decide (si.state i = .enable) || decide (si.state i = .ignore)) &&
    exceptions.any fun e => decide (e.1 = i) && decide (e.2 = pass)

/-- Store the state of a pass. -/
def St.set (si : St) (pass : Pass) (s : State) : St :=
  { si with state := fun p => if p = pass then s else si.state p }

/-- `simple_enter`, simple.c:37-73: the state, the cookie and what is returned. -/
def enter (si : St) (pass : Pass) (flags : Flags) : St × Cookie × Bool :=
  let cookie := some (pass, si.state pass)
  if !si.enable && !flags.force then (si.set pass .ignore, cookie, false)
  else if exclusive si pass &&
      passes.any fun i => decide (i ≠ pass) && decide (si.state i ≠ .disable) then
    (si.set pass .disable, cookie, false)
  else if flags.ignore || decide (si.state pass ≠ .disable) then (si.set pass .ignore, cookie, false)
  else
    ({ si.set pass .enable with flags := fun p => if p = pass then flags else si.flags p }, cookie, true)

/-- `simple_leave`, simple.c:75-89: the state and the cookie. -/
def leave (si : St) : Cookie → St × Cookie
  | none => (si, none)
  | some (pass, s) => (si.set pass s, none)

/-- `is_simple_enabled`, simple.c:91-96. -/
def enabled (si : St) (pass : Pass) : Bool :=
  (si.enable || (si.flags pass).force) && decide (si.state pass = .enable)

/-- `simple_disable`, simple.c:98-105: the state and the value to be restored. -/
def disable (si : St) : St × Bool := ({ si with enable := false }, si.enable)

/-- `simple_enable`, simple.c:107-111. -/
def restore (si : St) (b : Bool) : St := { si with enable := b }

/-- Nested use of the interface as made by the macro `simple_cookie`, simple.h:33-35, which
leaves a pass at the end of a block, by early calls of `simple_leave`, and by
`simple_disable` and `simple_enable` around a block. -/
inductive Prog where
  | done
  | pass (p : Pass) (flags : Flags) (early : Bool) (body next : Prog)
  | off (body next : Prog)

/-- Run a program: every state passed through, and the last one. -/
def run : Prog → St → List St × St
  | .done, si => ([si], si)
  | .pass p flags early body next, si =>
    let e := enter si p flags
    let b := run body e.1
    let l := leave b.2 e.2.1
    let l := if early then leave l.1 l.2 else l
    let n := run next l.1
    (si :: b.1 ++ n.1, n.2)
  | .off body next, si =>
    let d := disable si
    let b := run body d.1
    let n := run next (restore b.2 d.2)
    (si :: b.1 ++ n.1, n.2)

end Knfmt.Simple
