import Verif.Str.Model
import Verif.Common
/-!
# cpp-include.c: sorting include directives

Lists of tokens are lists, see `Verif.Libks.List`. Tokens are identified by `id`. Maps are
lists of keys in insertion order, see `Verif.Libks.Map`. Allocation is assumed to succeed.
The outcome `none` is a null pointer that is dereferenced.
-/
namespace Knfmt.Include

/-- The token types distinguished: `TOKEN_CPP_INCLUDE`, the `TOKEN_SPACE` made by
`add_line`, and the others. -/
inductive Kind where
  | include
  | space
  | other
deriving DecidableEq, Repr

/-- What is read of a prefix, token.h:164-230. `next` is the byte after the text in the
buffer and `diff` is `TOKEN_FLAG_DIFF`. -/
structure Tok where
  id : Nat
  kind : Kind
  str : List Char
  next : Option Char := none
  diff : Bool := false
deriving DecidableEq, Repr

/-- `struct include_priority`, style.h:112-115. -/
structure Prio where
  group : Int := 0
  sort : Int := 0
deriving DecidableEq, Repr

/-- `INT_MAX`. -/
def intMax : Int := 2 ^ 31 - 1

/-- `struct include_category`, style.c:79-84: which paths the regular expression matches,
and the priority. -/
structure Category where
  isMatch : List Char → Bool
  priority : Prio

/-- `style_include_priority`, style.c:501-517. -/
def stylePriority (cs : List Category) (path : List Char) : Prio :=
  match cs with
  | [] => { group := intMax, sort := intMax }
  | c :: cs => if c.isMatch path then c.priority else stylePriority cs path

/-- `style_include_priorities`, style.c:468-499. Sorting integers has one possible result. -/
def stylePriorities (cs : List Category) : List Int :=
  Knfmt.isort (fun a b => decide (a ≤ b)) ([0, intMax] ++ cs.map (·.priority.group))

/-- One round of the loop of `cpp_include_alloc`, cpp-include.c:77-88. -/
def addGroup (gs : List Int) (p : Int) : List Int := if p ∈ gs then gs else gs ++ [p]

/-- The keys of `ci->groups`, cpp-include.c:76-88. -/
def groups (cs : List Category) : List Int := (stylePriorities cs).foldl addGroup []

/-- `strncmp` on at least `n` bytes. -/
def strncmp : Nat → List Char → List Char → Ordering
  | n + 1, a :: as, b :: bs =>
    if a ≠ b then compare a.toNat b.toNat
    else if a = '\x00' then .eq
    else strncmp n as bs
  | _, _, _ => .eq

/-- `token_memcmp`, token.c:206-219. -/
def memcmp (a b : List Char) : Ordering :=
  match strncmp (min a.length b.length) a b with
  | .eq => compare a.length b.length
  | o => o

/-- `include_cmp`, cpp-include.c:172-183. -/
def cmp (a b : Tok × Prio) : Ordering :=
  if a.2.sort < b.2.sort then .lt
  else if a.2.sort > b.2.sort then .gt
  else memcmp a.1.str b.1.str

/-- A C string ends at the first NUL. -/
def cstr (s : List Char) : List Char := s.takeWhile (· ≠ '\x00')

/-- `findpath`, cpp-include.c:342-359. The second `memchr` reads one byte too many. -/
def findpath (tk : Tok) : Option (List Char) :=
  let so := match tk.str.dropWhile (· ≠ '"') with
    | [] => tk.str.dropWhile (· ≠ '<')
    | s => s
  match so with
  | [] => none
  | c :: rest =>
    let c' := if c = '"' then '"' else '>'
    let rest := rest ++ tk.next.toList
    if c' ∈ rest then some (cstr (c :: rest.takeWhile (· ≠ c') ++ [c'])) else none

/-- `is_main_include`, cpp-include.c:185-217. -/
def isMain (inc path : List Char) : Bool :=
  let stem := fun p => ((Knfmt.Str.split ['.'] p).bind List.head?).getD []
  let file := ((Knfmt.Str.split ['/'] path).bind List.getLast?).getD []
  decide (inc = '"' :: stem path ++ ".h\"".toList) ||
    decide (inc = '"' :: stem file ++ ".h\"".toList)

/-- `token_has_verbatim_line(tk, 2)`, token.c:292-305. -/
def hasLine (tk : Tok) : Bool := decide (tk.str.reverse.take 2 = ['\n', '\n'])

/-- `token_trim_verbatim_line`, cpp-include.c:361-366. -/
def trim (tk : Tok) : Tok := if hasLine tk then { tk with str := tk.str.dropLast } else tk

/-- What `cpp_include_alloc` is given: whether the pass is enabled, `IncludeBlocks`,
`IncludeCategories`, whether only a diff is formatted, and the path of the file. -/
structure Cfg where
  enabled : Bool := true
  regroup : Bool := false
  categories : List Category := []
  diff : Bool := false
  path : List Char := []

/-- `struct cpp_include`, cpp-include.c:19-31, and the identity of the next token made. -/
structure St where
  prefixes : List Tok := []
  includes : List Tok := []
  after : Option Nat := none
  ignore : Bool := false
  fresh : Nat := 0
deriving DecidableEq, Repr

/-- The first loop of `cpp_include_exec`, cpp-include.c:239-272: the priorities of the
includes, `none` if it returns. -/
def assign (cfg : Cfg) (first : Bool) (nb nq ns : Nat) : List Tok → Option (List (Tok × Prio))
  | [] => some []
  | tk :: tks =>
    match findpath tk with
    | none => none
    | some p =>
      if cfg.regroup then
        let prio := if isMain p cfg.path then {} else stylePriority cfg.categories p
        (assign cfg false nb nq ns tks).map ((tk, prio) :: ·)
      else
        let nb := if p.head? = some '<' then nb + 1 else nb
        let nq := if p.head? = some '"' then nq + 1 else nq
        let ns := if '/' ∈ p then ns + 1 else ns
        if nb > 0 && nq > 0 || nb > 0 && ns > 0 then none
        else
          let prio : Prio := if first && isMain p cfg.path then { sort := -1 } else {}
          (assign cfg false nb nq ns tks).map ((tk, prio) :: ·)

/-- `token_list_append_after`, token.c:431-436. -/
def insertAfter (id : Nat) (tk : Tok) : List Tok → List Tok
  | [] => []
  | x :: xs => if x.id = id then x :: tk :: xs else x :: insertAfter id tk xs

/-- The body of the inner loop of `cpp_include_exec`, cpp-include.c:292-301. -/
def place (st : List Tok × Option Nat) (tk : Tok) : List Tok × Option Nat :=
  let l := st.1.filter (·.id ≠ tk.id)
  (match st.2 with
    | some id => insertAfter id (trim tk) l
    | none => trim tk :: l, some tk.id)

/-- `add_line`, cpp-include.c:328-340. -/
def addLine (fresh : Nat) (st : List Tok × Option Nat) : List Tok × Option Nat :=
  match st.2 with
  | some id => (insertAfter id { id := fresh, kind := .space, str := ['\n'] } st.1, some fresh)
  | none => st

/-- One round of the second loop of `cpp_include_exec`, cpp-include.c:274-305; `srt` is
`qsort` with `include_cmp`. -/
def execGroup (regroup : Bool) (srt : List (Tok × Prio) → List (Tok × Prio))
    (st : (List Tok × Option Nat) × Nat) (g : List (Tok × Prio)) : (List Tok × Option Nat) × Nat :=
  match g.getLast? with
  | none => st
  | some last =>
    let doline := regroup || hasLine last.1
    let pl := (srt g).foldl (fun pl x => place pl x.1) st.1
    if doline then (addLine st.2 pl, st.2 + 1) else (pl, st.2)

/-- `cpp_include_exec`, cpp-include.c:219-306. -/
def exec (cfg : Cfg) (srt : List (Tok × Prio) → List (Tok × Prio)) (st : St) : Option St :=
  if st.ignore then some st
  else if st.includes.length < 2 then some st
  else
    match assign cfg true 0 0 0 st.includes with
    | none => some st
    | some ps =>
      if ps.all fun p => decide (p.2.group ∈ groups cfg.categories) then
        let r := ((groups cfg.categories).map fun g => ps.filter (·.2.group = g)).foldl
          (execGroup cfg.regroup srt) ((st.prefixes, st.after), st.fresh)
        some { st with prefixes := r.1.1, fresh := r.2 }
      else none

/-- `cpp_include_reset`, cpp-include.c:308-326. -/
def reset (st : St) : St := { st with includes := [], after := none, ignore := false }

/-- `cpp_include_leave`, cpp-include.c:121-129. -/
def leave (cfg : Cfg) (srt : List (Tok × Prio) → List (Tok × Prio)) (st : St) : Option St :=
  if cfg.enabled then (exec cfg srt st).map reset else some st

/-- `clang_read_prefix` appends a prefix, clang.c:1014-1038, and `cpp_include_add`,
cpp-include.c:131-157. A comment that prolongs the one before it is one prefix. -/
def add (cfg : Cfg) (srt : List (Tok × Prio) → List (Tok × Prio)) (st : St) (tk : Tok) : Option St :=
  let prev := st.prefixes.getLast?.map (·.id)
  let st := { st with prefixes := st.prefixes ++ [tk] }
  if !cfg.enabled then some st
  else if tk.kind = .include then
    let st := { st with
      ignore := st.ignore || (cfg.diff && !tk.diff)
      after := if st.includes = [] then prev else st.after
      includes := st.includes ++ [tk] }
    if cfg.regroup || !hasLine tk then some st else (exec cfg srt st).map reset
  else (exec cfg srt st).map reset

/-- The loop of `clang_read` over the prefixes of a token, clang.c:552-559. -/
def run (cfg : Cfg) (srt : List (Tok × Prio) → List (Tok × Prio)) (tks : List Tok) (fresh : Nat) :
    Option St :=
  (tks.foldlM (add cfg srt) { fresh }).bind (leave cfg srt)

end Knfmt.Include
