import Verif.Simple.Decl
/-!
# Grouping declarations: the specification (C67)

A block of declarations is a list of items. A declaration is made of specifiers, maybe the body of a
structure, declarators with commas between, and a semicolon. Nothing here is about how the declarations are
grouped.
-/
namespace Knfmt.SimpleDecl

open Knfmt.Lexer (TT)
open Knfmt.Stream (Node Fix)

/-- A declaration. `body` is what is between braces, with the braces, after `struct`, `union` or `enum`. An
initializer is part of its declarator. -/
structure Decl (α : Type) where
  spec : List α
  body : List α := []
  first : List α
  more : List (α × List α) := []
  semi : α

/-- Something in a block of declarations. `stars` is the number of stars of the first declarator the parser
counts to the type. -/
inductive Item (α : Type) where
  | decl (d : Decl α) (stars : Nat)
  | other (ts : List α)

/-- All of a declaration. -/
def Decl.toks {α : Type} (d : Decl α) : List α :=
  d.spec ++ d.body ++ d.first ++ d.more.flatMap (fun m => m.1 :: m.2) ++ [d.semi]

/-- All of an item. -/
def Item.toks {α : Type} : Item α → List α
  | .decl d _ => d.toks
  | .other ts => ts

/-- The declarators. -/
def Decl.vars {α : Type} (d : Decl α) : List (List α) := d.first :: d.more.map (·.2)

/-- The commas and the semicolon. -/
def Decl.delims {α : Type} (d : Decl α) : List α := d.more.map (·.1) ++ [d.semi]

/-- Something else in place of each token. -/
def Decl.map {α β : Type} (f : α → β) (d : Decl α) : Decl β :=
  { spec := d.spec.map f, body := d.body.map f, first := d.first.map f
    more := d.more.map fun m => (f m.1, m.2.map f), semi := f d.semi }

def Item.map {α β : Type} (f : α → β) : Item α → Item β
  | .decl d n => .decl (d.map f) n
  | .other ts => .other (ts.map f)

/-- A token as it is seen in the source: what it is and its text. -/
abbrev Word := TT × List Char

/-- The word of a token. -/
def word (text : Nat → List Char) (t : Node) : Word := (t.type, text t.id)

/-- Texts with a space between. -/
def join (ws : List Word) : List Char := [' '].intercalate (ws.map (·.2))

/-- Does a structure without a name begin? -/
def unnamed (spec : List Word) : Bool :=
  match spec.getLast? with
  | some w => decide (w.1 = .kStruct) || decide (w.1 = .kUnion) || decide (w.1 = .kEnum)
  | none => false

/-- The type the declarators of a declaration are about: the specifiers, and the body if there is no
name. -/
def Decl.typeName (d : Decl Word) : List Char := join (if unnamed d.spec then d.spec ++ d.body else d.spec)

/-- What is declared: the body, if there is one, and every declarator, each with the type. -/
def Decl.declared (d : Decl Word) : List (List Char × List Word) :=
  (if d.body = [] then [] else [(d.typeName, d.body)]) ++ d.vars.map fun v => (d.typeName, v)

/-- What is declared by an item. -/
def Item.declared : Item Word → List (List Char × List Word)
  | .decl d _ => d.declared
  | .other _ => []

/-- The rest. -/
def Item.rest {α : Type} : Item α → List (List α)
  | .decl _ _ => []
  | .other ts => [ts]

/-- There are specifiers, commas are commas and the semicolon is one. -/
def Decl.Formed (d : Decl Word) : Prop :=
  d.spec ≠ [] ∧ (∀ m ∈ d.more, m.1 = (.comma, [','])) ∧ d.semi = (.semi, [';'])

def Item.Formed : Item Word → Prop
  | .decl d _ => d.Formed
  | .other _ => True

/-- Comments and directives in front of a token and comments behind it. -/
def fixed (t : Node) : List Fix :=
  (t.prefixes.filter fun p => decide (p.type = .comment) || p.flags.cpp) ++
  t.suffixes.filter fun s => decide (s.type = .comment)

/-- A name, maybe with stars, without any comment or directive. `delim` is the comma or semicolon that
follows. -/
def plain (v : List Node) (delim : Node) : Bool :=
  v.any (fun t => decide (t.type = .ident)) &&
  v.all (fun t => (decide (t.type = .star) || decide (t.type = .ident)) && decide (fixed t = [])) &&
  decide (fixed delim = [])

/-- Is any declarator plain? `v` is the first one. -/
def somePlain (v : List Node) (more : List (Node × List Node)) (semi : Node) : Bool :=
  ((v :: more.map (·.2)).zip (more.map (·.1) ++ [semi])).any fun p => plain p.1 p.2

/-- Is any declarator not plain? `v` is the first one. -/
def someOther (v : List Node) (more : List (Node × List Node)) (semi : Node) : Bool :=
  ((v :: more.map (·.2)).zip (more.map (·.1) ++ [semi])).any fun p => !plain p.1 p.2

/-- Is any declarator plain? The first one is not if there is a body in front of it. -/
def Decl.anyPlain (d : Decl Node) : Bool := somePlain (d.body ++ d.first) d.more d.semi

/-- A comma with a comment or directive has a declarator behind it that is not plain. -/
def Decl.CommasHeld (d : Decl Node) : Prop :=
  ∀ A c w B, d.more = A ++ (c, w) :: B → fixed c ≠ [] → someOther w B d.semi = true

/-- The specifiers without stars, as one text. -/
def Decl.starless (text : Nat → List Char) (d : Decl Node) : List Char :=
  join ((d.spec.filter fun t => decide (t.type ≠ .star)).map (word text))

/-- Is there a star among the specifiers, as in `char * const`? -/
def Decl.innerStar (d : Decl Node) : Bool := d.spec.any fun t => decide (t.type = .star)

/-- What the parser tells about an item: where the type begins and ends, the commas, the semicolon. -/
def Item.calls : Item Node → List Call
  | .decl d stars =>
    match d.spec.head?, (d.spec ++ d.first.take stars).getLast? with
    | some b, some e => .type b.id e.id :: d.more.map (fun m => .comma m.1) ++ [.semi d.semi]
    | _, _ => []
  | .other _ => []

/-- The shape of a declaration as the parser gives it. The last of the specifiers is no star and stars that
are counted to the type are stars. A body begins with a brace and then no stars are counted to the type. -/
structure Decl.Parsed (text : Nat → List Char) (d : Decl Node) (stars : Nat) : Prop where
  formed : (d.map (word text)).Formed
  last : ∀ t, d.spec.getLast? = some t → t.type ≠ .star
  counted : ∀ t ∈ d.first.take stars, t.type = .star
  body : d.body = [] ∨ (stars = 0 ∧ d.body.head?.map (·.type) = some .lbrace)

/-- A block of declarations with what is in front of it and behind it. Addresses are not shared, `e.fresh`
and what is above it is not in use, and the end of the file is not in the block. -/
structure Block (e : Ed) (pre : List Node) (items : List (Item Node)) (post : List Node) : Prop where
  eq : e.ts = pre ++ items.flatMap Item.toks ++ post
  nodup : (e.ts.map (·.id)).Nodup
  fresh : ∀ t ∈ e.ts, t.id < e.fresh
  parsed : ∀ d k, Item.decl d k ∈ items → d.Parsed e.text k
  eof : ∀ t ∈ items.flatMap Item.toks, t.type ≠ .eof
  post : post ≠ []

/-- What must hold for a block to keep its meaning.
* If there is a star among the specifiers, no declaration with the same specifiers but for stars has a plain
  declarator.
* A comma with a comment or directive has a declarator behind it that is not plain.
* A structure without a name has no plain declarators, but for `struct {` and `union {` alone. -/
structure Safe (text : Nat → List Char) (items : List (Item Node)) : Prop where
  stars : ∀ d k d' k', Item.decl d k ∈ items → Item.decl d' k' ∈ items → d.starless text = d'.starless text →
    d.innerStar = true → d'.anyPlain = false
  commas : ∀ d k, Item.decl d k ∈ items → d.CommasHeld
  names : ∀ d k, Item.decl d k ∈ items → d.body ≠ [] → unnamed (d.spec.map (word text)) = true →
    (∃ t, d.spec = [t] ∧ (t.type = .kStruct ∨ t.type = .kUnion)) ∨ d.anyPlain = false

end Knfmt.SimpleDecl
