import Verif.Stream.BranchFold
/-!
# Recovery from invalid code, clang.c:250-267, 344-412, 755-811 and parser.c:123-169 (C75)

The parser of one declaration or function, `parser_root`, is a parameter: what is proved holds whatever it
accepts and however far it gets. Tokens that start another alternative of a conditional (`BRCH`) are not part
of this: `parser_root` either succeeds or fails.
-/
namespace Knfmt.Branch

/-- `tk_lno` of tokens and of directives. -/
structure Lines where
  tok : Nat → Nat
  dir : Nat → Nat

/-- `clang_last_stamped`, clang.c:755-766. Stamps are given last one first, a token is dangling if it is not
in the list of tokens any more. -/
def lastStamped (σ : St) (stamps : List Nat) : Option Nat := stamps.find? fun s => decide (s ∈ σ.toks)

/-- The directive considered in `clang_recover_find_branch`, clang.c:783-794. -/
def candidate (σ : St) (i : Nat) : Option Nat :=
  match (σ.dir i).type with
  | .cppIf => some i
  | .cppElse => some i
  | .cppEndif => (σ.dir i).pv
  | .cpp => none

/-- The body of the inner loop, clang.c:779-801. The null pointers that might be dereferenced are not
distinguished from a directive that is of no use, there are none, see `pick_spec`. -/
def pick (σ : St) (t : Nat) : Option Nat :=
  (σ.prefixes t).reverse.findSome? fun i =>
    match candidate σ i with
    | none => none
    | some br =>
      match (σ.dir br).nx with
      | none => none
      | some nx => if (σ.dir br).parent = (σ.dir nx).parent then none else some br

/-- `clang_recover_find_branch`, clang.c:772-811, over the tokens from the given one on, forwards or
backwards. -/
def search (σ : St) (threshold : Option Nat) : List Nat → Option Nat
  | [] => none
  | t :: ts =>
    match pick σ t with
    | some br => some br
    | none => if ts.head? = none ∨ ts.head? = threshold then none else search σ threshold ts

/-- The tokens up to the given one, last one first. -/
def upTo (ts : List Nat) (t : Nat) : List Nat := (ts.takeWhile (· ≠ t) ++ [t]).reverse

/-- The tokens from the given one on. -/
def onFrom (ts : List Nat) (t : Nat) : List Nat := ts.dropWhile (· ≠ t)

/-- What is left of the tokens if the last one consumed is `pos`. -/
def after (ts : List Nat) : Option Nat → List Nat
  | none => ts
  | some p => (ts.dropWhile (· ≠ p)).tail

/-- Both loops over stamps in `clang_recover` ask whether a stamp is on a line before that of the directive,
clang.c:376 and 394. -/
def stampBefore (L : Lines) (σ : St) (cpp s : Nat) : Bool := decide (s ∈ σ.toks) && decide (L.tok s < L.dir cpp)

/-- The text of a directive: from the start of one directive of the file to the end of another one. -/
def Texts : Type := Nat → Nat × Nat

/-- The text of the directive made up in `clang_branch_fold`, clang.c:833-839: from the start of `cpp_src` to
the end of `cpp_dst`. -/
def foldText (σ : St) (x : Texts) (cpp new : Nat) : Texts := fun i =>
  if i = new then
    match (σ.dir cpp).nx with
    | some dst => ((x cpp).1, (x dst).2)
    | none => x i
  else x i

/-- `clang_recover`, clang.c:344-412: the directive that is folded, the state, the token the lexer is at and the number of documents to be
removed. `none` if it gives up. `new` is the directive made up in `clang_branch_fold`. -/
def recover (L : Lines) (σ : St) (pos : Option Nat) (stamps : List Nat) (new : Nat) :
    Option (Nat × St × Option Nat × Nat) :=
  match pos.or σ.toks.head? with
  | none => none
  | some back =>
    let stamp := lastStamped σ stamps
    match (search σ stamp (upTo σ.toks back)).or (search σ stamp (onFrom σ.toks back)) with
    | none => none
    | some cpp =>
      let ndocs := 1 + (stamps.takeWhile fun s => !stampBefore L σ cpp s).length
      let σ' := fold σ cpp new
      match stamps.find? fun s => stampBefore L σ' cpp s with
      | some s => if after σ'.toks (some s) = [] then none else some (cpp, σ', some s, ndocs)
      | none => if σ'.toks = [] then none else some (cpp, σ', none, ndocs)

/-- The state of `parser_exec`: directives and tokens, the last token consumed, the stamps and the documents,
represented by their tokens. Of the last two the last one comes first. -/
structure Run where
  σ : St
  pos : Option Nat := none
  stamps : List Nat := []
  docs : List (List Nat) := []
  /-- the next directive to be made up -/
  new : Nat
  /-- texts of directives -/
  text : Texts := fun i => (i, i)

/-- What `parser_root` does: whether it succeeds and the number of tokens consumed. -/
def Root : Type := St → Option Nat → Bool × Nat

/-- One round of `parser_exec`, parser.c:138-169. The result is `inr true` at the end of the file, the last
token, and `inr false` upon an error. With `trim` set, `clang_recover` is assumed to forget the stamps of the
documents to be removed, which it does not. -/
def round (trim : Bool) (L : Lines) (root : Root) (X : Run) : Run ⊕ Bool :=
  let rest := after X.σ.toks X.pos
  if rest.length ≤ 1 then .inr true
  else
    let r := root X.σ X.pos
    let pos := (rest.take r.2).getLast?.or X.pos
    let docs := rest.take r.2 :: X.docs
    if r.1 then .inl { X with pos := pos, stamps := pos.toList ++ X.stamps, docs := docs }
    else
      match recover L X.σ pos X.stamps X.new with
      | none => .inr false
      | some (cpp, σ, pos, n) =>
        .inl { σ := σ, pos := pos, docs := docs.drop n, new := X.new + 1, text := foldText X.σ X.text cpp X.new
               stamps := if trim then X.stamps.drop (n - 1) else X.stamps }

/-- The loop of `parser_exec`, parser.c:138-169: the state at its end and whether there was no error. -/
def exec (trim : Bool) (L : Lines) (root : Root) : Nat → Run → Option (Run × Bool)
  | 0, _ => none
  | fuel + 1, X =>
    match round trim L root X with
    | .inl X => exec trim L root fuel X
    | .inr b => some (X, b)

end Knfmt.Branch
