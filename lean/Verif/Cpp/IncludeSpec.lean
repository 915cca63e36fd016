import Verif.Cpp.Include
/-!
# What sorting include directives is supposed to do

Written without the helpers of the model: only the shapes of its data are used.
-/
namespace Knfmt.Include.Spec

open Knfmt.Include (Tok Prio Category Cfg)

/-- The path of an include with its delimiters: from the first quote to the next one, or
from the first `<` to the next `>` if there is no quote. -/
def IsPath (s p : List Char) : Prop :=
  (∃ a x b, '"' ∉ a ∧ '"' ∉ x ∧ s = a ++ p ++ b ∧ p = '"' :: x ++ ['"']) ∨
  ('"' ∉ s ∧ ∃ a x b, '<' ∉ a ∧ '>' ∉ x ∧ s = a ++ p ++ b ∧ p = '<' :: x ++ ['>'])

/-- The part of a path before the first dot. -/
def stem (p : List Char) : List Char := p.takeWhile (· ≠ '.')

/-- The part of a path after the last slash. -/
def file (p : List Char) : List Char := (p.reverse.takeWhile (· ≠ '/')).reverse

/-- The include of the header that belongs to the source file: "a/b.h" or "b.h" for a/b.c. -/
def Main (cfg : Cfg) (p : List Char) : Prop :=
  p = '"' :: stem cfg.path ++ ".h\"".toList ∨ p = '"' :: stem (file cfg.path) ++ ".h\"".toList

/-- The priority of a path is the one of the first category that matches, the lowest one
if there is none. -/
def CategoryPrio (cs : List Category) (p : List Char) (r : Prio) : Prop :=
  (∃ a c b, cs = a ++ c :: b ∧ (∀ d ∈ a, d.isMatch p = false) ∧ c.isMatch p = true ∧ r = c.priority) ∨
  ((∀ c ∈ cs, c.isMatch p = false) ∧ r = ⟨2 ^ 31 - 1, 2 ^ 31 - 1⟩)

/-- The priority of a member of a block: when blocks are regrouped the main include has the
priority zero and the others the one of their category. Otherwise only the first include of
the block comes before the others, if it is the main include. -/
def HasPrio (cfg : Cfg) (b : List Tok) (t : Tok) (r : Prio) : Prop :=
  ∃ p, IsPath t.str p ∧
    if cfg.regroup then
      (Main cfg p ∧ r = ⟨0, 0⟩) ∨ (¬ Main cfg p ∧ CategoryPrio cfg.categories p r)
    else
      (b.head? = some t ∧ Main cfg p ∧ r = ⟨0, -1⟩) ∨
      (¬ (b.head? = some t ∧ Main cfg p) ∧ r = ⟨0, 0⟩)

/-- A directive followed by a blank line. -/
def Blank (t : Tok) : Prop := ['\n', '\n'] <:+ t.str

instance (t : Tok) : Decidable (Blank t) := inferInstanceAs (Decidable (_ <:+ _))

/-- The same directive not followed by a blank line. -/
def unblank (t : Tok) : Tok := if Blank t then { t with str := t.str.dropLast } else t

/-- A block: consecutive includes, as many as possible, with no blank line in between
unless blocks are regrouped. -/
def IsBlock (cfg : Cfg) (b rest : List Tok) : Prop :=
  b ≠ [] ∧ (∀ t ∈ b, t.kind = .include) ∧
  (∀ t ∈ b.dropLast, cfg.regroup = true ∨ ¬ Blank t) ∧
  ((∀ t ∈ rest.head?, t.kind ≠ .include) ∨ (cfg.regroup = false ∧ ∃ t ∈ b.getLast?, Blank t))

/-- Whether a block is sorted: it has several includes, all of them are to be formatted
and have a path. Unless blocks are regrouped, system includes are not mixed with others and
not with paths that have a slash. -/
def Sortable (cfg : Cfg) (b : List Tok) : Prop :=
  2 ≤ b.length ∧ (cfg.diff = true → ∀ t ∈ b, t.diff = true) ∧
  (∀ t ∈ b, ∃ p, IsPath t.str p) ∧
  (cfg.regroup = true ∨
    ¬ ((∃ t ∈ b, ∃ p, IsPath t.str p ∧ p.head? = some '<') ∧
       (∃ t ∈ b, ∃ p, IsPath t.str p ∧ (p.head? = some '"' ∨ '/' ∈ p))))

/-- The order within a group: by priority, then by text. -/
def Before (cfg : Cfg) (b : List Tok) (t u : Tok) : Prop :=
  ∃ r s, HasPrio cfg b t r ∧ HasPrio cfg b u s ∧
    (r.sort < s.sort ∨ r.sort = s.sort ∧ (t.str < u.str ∨ t.str = u.str))

/-- A group in the output: its priority, its includes, and the blank line after it if there
is one. -/
structure Group where
  key : Int
  members : List Tok
  sep : List Tok

/-- The output of a sorted block: its includes, group by group in ascending order. -/
def Arranged (cfg : Cfg) (b o : List Tok) : Prop :=
  ∃ gs : List Group,
    o = gs.flatMap (fun g => g.members.map unblank ++ g.sep) ∧
    (gs.flatMap (·.members)).Perm b ∧
    gs.Pairwise (fun g h => g.key < h.key) ∧
    ∀ g ∈ gs, g.members ≠ [] ∧
      (∀ t ∈ g.members, ∃ r, HasPrio cfg b t r ∧ r.group = g.key) ∧
      g.members.Pairwise (Before cfg b) ∧
      (cfg.regroup = true ∨ (∃ t ∈ b.getLast?, Blank t) →
        ∃ s, g.sep = [s] ∧ s.kind = .space ∧ s.str = ['\n']) ∧
      (cfg.regroup = false ∧ (∀ t ∈ b.getLast?, ¬ Blank t) → g.sep = [])

/-- The prefixes after the pass, given the ones read. -/
inductive Output (cfg : Cfg) : List Tok → List Tok → Prop
  | nil : Output cfg [] []
  | other {t rest out} : t.kind ≠ .include → Output cfg rest out → Output cfg (t :: rest) (t :: out)
  | same {b rest out} : IsBlock cfg b rest → ¬ Sortable cfg b → Output cfg rest out →
      Output cfg (b ++ rest) (b ++ out)
  | sorted {b rest o out} : IsBlock cfg b rest → Sortable cfg b → Arranged cfg b o →
      Output cfg rest out → Output cfg (b ++ rest) (o ++ out)

end Knfmt.Include.Spec
