import Verif.Simple.DeclProps
/-!
# Grouping declarations: a case that meets the conditions, and cases that do not (C67)
-/
namespace Knfmt.SimpleDecl

open Knfmt.Lexer (TT)
open Knfmt.Stream (Node Fix)

/-- Tokens with addresses `0`, `1`, ... -/
def nodesOf (ws : List (Word × List Fix)) : List Node :=
  ws.zipIdx.map fun (w, i) => { id := i, type := w.1.1, suffixes := w.2 }

/-- The tokens with their text. -/
def edOf (ws : List (Word × List Fix)) : Ed :=
  { ts := nodesOf ws, text := fun n => ((ws[n]?).map (·.1.2)).getD [], fresh := ws.length }

/-- Words without comments. -/
abbrev bare (ws : List Word) : List (Word × List Fix) := ws.map fun w => (w, [])

/-- A variable put in its place. -/
def putVar (text : Nat → List Char) (v : Var) : List Var → List Var
  | [] => [v]
  | w :: ws => if Knfmt.Include.memcmp (text v.sort) (text w.sort) = .gt then w :: putVar text v ws else v :: w :: ws

/-- An order `qsort` may give: by the text of the name. -/
def byName (text : Nat → List Char) (vs : List Var) : List Var := vs.foldr (putVar text) []

theorem putVar_perm (text : Nat → List Char) (v : Var) (vs : List Var) : (putVar text v vs).Perm (v :: vs) := by
  induction vs with
  | nil => exact List.Perm.refl _
  | cons w ws ih =>
    unfold putVar
    split
    · exact (List.Perm.cons w ih).trans (List.Perm.swap v w ws)
    · exact List.Perm.refl _

theorem byName_perm (text : Nat → List Char) (vs : List Var) : (byName text vs).Perm vs := by
  induction vs with
  | nil => exact List.Perm.refl _
  | cons v vs ih => exact (putVar_perm text v _).trans (List.Perm.cons v ih)

/-- The words of the result. -/
def result (ws : List (Word × List Fix)) (items : List (Item Node)) : Option (List Word) :=
  (simplify byName (edOf ws) (items.flatMap Item.calls)).map fun e => e.ts.map (word e.text)

abbrev kwInt : Word := (.kInt, ['i', 'n', 't'])
abbrev kwChar : Word := (.kChar, ['c', 'h', 'a', 'r'])
abbrev kwConst : Word := (.kConst, ['c', 'o', 'n', 's', 't'])
abbrev kwEnum : Word := (.kEnum, ['e', 'n', 'u', 'm'])
abbrev star : Word := (.star, ['*'])
abbrev comma : Word := (.comma, [','])
abbrev semi : Word := (.semi, [';'])
abbrev equal : Word := (.equal, ['='])
abbrev one : Word := (.literal, ['1'])
abbrev lb : Word := (.lbrace, ['{'])
abbrev rb : Word := (.rbrace, ['}'])
abbrev eof : Word := (.eof, [])
abbrev id1 (c : Char) : Word := (.ident, [c])

/-! ## A case that meets the conditions

`int b, a; char *q, c = 1; int d;` -/

def okWords : List (Word × List Fix) :=
  bare [kwInt, id1 'b', comma, id1 'a', semi, kwChar, star, id1 'q', comma, id1 'c', equal, one, semi, kwInt, id1 'd', semi, eof]

def okItems : List (Item Node) :=
  let n := fun i j => ((nodesOf okWords).drop i).take (j - i)
  let t := fun i => (nodesOf okWords)[i]?.getD { id := 0, type := .eof }
  [.decl { spec := n 0 1, first := n 1 2, more := [(t 2, n 3 4)], semi := t 4 } 0,
   .decl { spec := n 5 6, first := n 6 8, more := [(t 8, n 9 12)], semi := t 12 } 1,
   .decl { spec := n 13 14, first := n 14 15, semi := t 15 } 0]

theorem commasHeld_of {d : Decl Node} (h : ∀ m ∈ d.more, fixed m.1 = []) : d.CommasHeld := by
  intro A c w B e hf
  exact absurd (h (c, w) (by rw [e]; simp)) hf

theorem okBlock : Block (edOf okWords) [] okItems [{ id := 16, type := .eof }] where
  eq := by decide
  nodup := by decide
  fresh := by decide
  parsed := by
    intro d k h
    simp only [okItems, List.mem_cons, Item.decl.injEq, List.not_mem_nil, or_false] at h
    rcases h with ⟨rfl, rfl⟩ | ⟨rfl, rfl⟩ | ⟨rfl, rfl⟩
    all_goals exact ⟨⟨by decide, by decide, by decide⟩, by decide, by decide, Or.inl rfl⟩
  eof := by decide
  post := by decide

theorem okSafe : Safe (edOf okWords).text okItems where
  stars := by
    intro d k d' k' h _ _ hs
    simp only [okItems, List.mem_cons, Item.decl.injEq, List.not_mem_nil, or_false] at h
    rcases h with ⟨rfl, rfl⟩ | ⟨rfl, rfl⟩ | ⟨rfl, rfl⟩
    all_goals exact absurd hs (by decide)
  commas := by
    intro d k h
    simp only [okItems, List.mem_cons, Item.decl.injEq, List.not_mem_nil, or_false] at h
    rcases h with ⟨rfl, rfl⟩ | ⟨rfl, rfl⟩ | ⟨rfl, rfl⟩
    all_goals exact commasHeld_of (by decide)
  names := by
    intro d k h hb
    simp only [okItems, List.mem_cons, Item.decl.injEq, List.not_mem_nil, or_false] at h
    rcases h with ⟨rfl, rfl⟩ | ⟨rfl, rfl⟩ | ⟨rfl, rfl⟩
    all_goals exact absurd rfl hb

/-- The result is `int a, b, d; char c = 1; char *q;`. -/
example : result okWords okItems = some [kwInt, id1 'a', comma, id1 'b', comma, id1 'd', semi,
    kwChar, id1 'c', equal, one, semi, kwChar, star, id1 'q', semi, eof] := by decide +kernel

example : ∃ e', simplify byName (edOf okWords) (okItems.flatMap Item.calls) = some e' :=
  let ⟨e', _, h, _⟩ := simplify_declared_partial okBlock byName_perm okSafe
  ⟨e', h⟩

/-! ## Cases that do not

Each of them meets `Block` and fails one of the conditions of `Safe`. The words of the result are those of
`out`, in which something else is declared. -/

/-- The words of the result are these declarations, and the tokens are a block. -/
structure Turns (ws : List (Word × List Fix)) (items : List (Item Node)) (out : List (Item Word)) : Prop where
  block : Block (edOf ws) [] items [{ id := ws.length - 1, type := .eof }]
  result : result ws items = some (out.flatMap Item.toks ++ [eof])

/-- What is declared in the source. -/
abbrev declaredIn (ws : List (Word × List Fix)) (items : List (Item Node)) : List (List Char × List Word) :=
  (items.map (Item.map (word (edOf ws).text))).flatMap Item.declared

/-- `int *const p; int const q;` -/
def starWords : List (Word × List Fix) :=
  bare [kwInt, star, kwConst, id1 'p', semi, kwInt, kwConst, id1 'q', semi, eof]

def starItems : List (Item Node) :=
  let n := fun i j => ((nodesOf starWords).drop i).take (j - i)
  let t := fun i => (nodesOf starWords)[i]?.getD { id := 0, type := .eof }
  [.decl { spec := n 0 3, first := n 3 4, semi := t 4 } 0, .decl { spec := n 5 7, first := n 7 8, semi := t 8 } 0]

/-- The constant `q` becomes a constant pointer. -/
theorem simplify_star_fails : ∃ out, Turns starWords starItems out ∧
    ((join [kwInt, kwConst], [id1 'q']) ∈ declaredIn starWords starItems) ∧
    ((join [kwInt, kwConst], [id1 'q']) ∉ out.flatMap Item.declared) ∧
    ((join [kwInt, star, kwConst], [id1 'q']) ∈ out.flatMap Item.declared) := by
  refine ⟨[.decl { spec := [kwInt, star, kwConst], first := [id1 'p'], more := [(comma, [id1 'q'])], semi := semi } 0],
    ⟨?_, by decide +kernel⟩, by decide, by decide, by decide⟩
  refine ⟨by decide, by decide, by decide, ?_, by decide, by decide⟩
  intro d k h
  simp only [starItems, List.mem_cons, Item.decl.injEq, List.not_mem_nil, or_false] at h
  rcases h with ⟨rfl, rfl⟩ | ⟨rfl, rfl⟩
  all_goals exact ⟨⟨by decide, by decide, by decide⟩, by decide, by decide, Or.inl rfl⟩

/-- `int a = 1, /* */ b;` -/
def commaWords : List (Word × List Fix) :=
  [(kwInt, []), (id1 'a', []), (equal, []), (one, []), (comma, [{ id := 100, type := .comment }]), (id1 'b', []), (semi, []), (eof, [])]

def commaItems : List (Item Node) :=
  let n := fun i j => ((nodesOf commaWords).drop i).take (j - i)
  let t := fun i => (nodesOf commaWords)[i]?.getD { id := 0, type := .eof }
  [.decl { spec := n 0 1, first := n 1 4, more := [(t 4, n 5 6)], semi := t 6 } 0]

/-- A comma is left with nothing behind it. -/
theorem simplify_comma_fails : result commaWords commaItems =
      some [kwInt, id1 'a', equal, one, comma, semi, kwInt, id1 'b', semi, eof] ∧
    ∃ out, Turns commaWords commaItems out ∧ ((join [kwInt], []) ∉ declaredIn commaWords commaItems) ∧
      ((join [kwInt], []) ∈ out.flatMap Item.declared) := by
  refine ⟨by decide +kernel, [.decl { spec := [kwInt], first := [id1 'a', equal, one], more := [(comma, [])], semi := semi } 0,
    .decl { spec := [kwInt], first := [id1 'b'], semi := semi } 0],
    ⟨?_, by decide +kernel⟩, by decide, by decide⟩
  refine ⟨by decide, by decide, by decide, ?_, by decide, by decide⟩
  intro d k h
  simp only [commaItems, List.mem_cons, Item.decl.injEq, List.not_mem_nil, or_false] at h
  rcases h with ⟨rfl, rfl⟩
  all_goals exact ⟨⟨by decide, by decide, by decide⟩, by decide, by decide, Or.inl rfl⟩

/-- `enum { A } x, y;` -/
def enumWords : List (Word × List Fix) := bare [kwEnum, lb, id1 'A', rb, id1 'x', comma, id1 'y', semi, eof]

def enumItems : List (Item Node) :=
  let n := fun i j => ((nodesOf enumWords).drop i).take (j - i)
  let t := fun i => (nodesOf enumWords)[i]?.getD { id := 0, type := .eof }
  [.decl { spec := n 0 1, body := n 1 4, first := n 4 5, more := [(t 5, n 6 7)], semi := t 7 } 0]

/-- `y` is declared with `enum` alone. -/
theorem simplify_enum_fails : ∃ out, Turns enumWords enumItems out ∧
    ((join [kwEnum, lb, id1 'A', rb], [id1 'y']) ∈ declaredIn enumWords enumItems) ∧
    ((join [kwEnum, lb, id1 'A', rb], [id1 'y']) ∉ out.flatMap Item.declared) ∧
    ((join [kwEnum], [id1 'y']) ∈ out.flatMap Item.declared) := by
  refine ⟨[.decl { spec := [kwEnum], body := [lb, id1 'A', rb], first := [id1 'x'], semi := semi } 0,
    .decl { spec := [kwEnum], first := [id1 'y'], semi := semi } 0],
    ⟨?_, by decide +kernel⟩, by decide, by decide, by decide⟩
  refine ⟨by decide, by decide, by decide, ?_, by decide, by decide⟩
  intro d k h
  simp only [enumItems, List.mem_cons, Item.decl.injEq, List.not_mem_nil, or_false] at h
  rcases h with ⟨rfl, rfl⟩
  all_goals exact ⟨⟨by decide, by decide, by decide⟩, by decide, by decide, Or.inr ⟨rfl, by decide⟩⟩

/-- `int x, *p = &x;` -/
def useWords : List (Word × List Fix) :=
  bare [kwInt, id1 'x', comma, star, id1 'p', equal, (.amp, ['&']), id1 'x', semi, eof]

def useItems : List (Item Node) :=
  let n := fun i j => ((nodesOf useWords).drop i).take (j - i)
  let t := fun i => (nodesOf useWords)[i]?.getD { id := 0, type := .eof }
  [.decl { spec := n 0 1, first := n 1 2, more := [(t 2, n 3 8)], semi := t 8 } 0]

/-- The order matters: afterwards `x` is used in front of its declaration. -/
theorem simplify_order_fails : Block (edOf useWords) [] useItems [{ id := 9, type := .eof }] ∧ Safe (edOf useWords).text useItems ∧
    result useWords useItems = some [kwInt, star, id1 'p', equal, (.amp, ['&']), id1 'x', semi, kwInt, id1 'x', semi, eof] := by
  refine ⟨⟨by decide, by decide, by decide, ?_, by decide, by decide⟩, ⟨?_, ?_, ?_⟩, by decide +kernel⟩
  · intro d k h
    simp only [useItems, List.mem_cons, Item.decl.injEq, List.not_mem_nil, or_false] at h
    rcases h with ⟨rfl, rfl⟩
    all_goals exact ⟨⟨by decide, by decide, by decide⟩, by decide, by decide, Or.inl rfl⟩
  · intro d k d' k' h _ _ hs
    simp only [useItems, List.mem_cons, Item.decl.injEq, List.not_mem_nil, or_false] at h
    rcases h with ⟨rfl, rfl⟩
    exact absurd hs (by decide)
  · intro d k h
    simp only [useItems, List.mem_cons, Item.decl.injEq, List.not_mem_nil, or_false] at h
    rcases h with ⟨rfl, rfl⟩
    exact commasHeld_of (by decide)
  · intro d k h hb
    simp only [useItems, List.mem_cons, Item.decl.injEq, List.not_mem_nil, or_false] at h
    rcases h with ⟨rfl, rfl⟩
    exact absurd rfl hb

end Knfmt.SimpleDecl
