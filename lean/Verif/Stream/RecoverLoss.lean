import Verif.Stream.RecoverExec
import Verif.Parse.Terminates
/-! # Recovery from invalid code: text that is lost (C75) -/
namespace Knfmt.Branch

open Knfmt.Spec

/-- The parser of `Verif.Parse` as `parser_root`, given the tokens of the file, numbered from one on.
Declarations end at tokens with directives, parser-decl.c:133-138; nothing else is asked. The last token is the
end of the file. -/
def parseRoot (tk : Nat → Parse.Tok) (fuel : Nat) : Root := fun σ pos =>
  let tk i : Parse.Tok := { tk i with id := i + 1 }
  let rest := (after σ.toks pos).dropLast
  let done := (σ.toks.take (σ.toks.length - (after σ.toks pos).length)).reverse
  let E : Parse.Env := ⟨fun q s => decide (q = 97) &&
    match s.rest with
    | [] => false
    | t :: _ => !(σ.prefixes (t.id - 1)).isEmpty⟩
  match (Parse.recs E fuel).root 0
      { done := done.map tk, rest := rest.map tk, L := [.opn 0 .root, .cls 0], next := 1 } with
  | some (r, s) => (decide (r = .good), rest.length - s.rest.length)
  | none => (false, 0)

/-- The parser is one the theorems are about. -/
theorem parseRoot_ok (tk : Nat → Parse.Tok) (fuel : Nat) : Root.Ok (parseRoot tk fuel) := by
  intro σ pos k h
  unfold parseRoot at h
  dsimp only at h
  split at h
  · rename_i r s hs
    obtain ⟨h1, h2⟩ := Prod.mk.inj h
    have hr : r = .good := by simpa using h1
    rw [← Parse.recsT_typeF] at hs
    have g2 : ∀ X X', Parse.RecMon X → Parse.Below none X X' → ∀ d ti, ti.Wf →
        Parse.Ref none (Parse.typeF X d ti) (Parse.typeG Parse.atEof X' d ti) :=
      fun X X' h h' d ti hw => Parse.ref_typeG X X' h h' d ti hw
    have hb := Parse.belowT (k := none) (fun X h d ti => Parse.mon_type) g2
      ⟨fun q s => decide (q = 97) &&
        match s.rest with
        | [] => false
        | t :: _ => !(σ.prefixes (t.id - 1)).isEmpty⟩ fuel fuel (Nat.le_refl _)
    have hs' := ((hb.root 0).run _ _ _ (by
      intro t ht
      rcases ht with ht | ht
      · obtain ⟨i, _, rfl⟩ := List.mem_map.1 ht; simp
      · obtain ⟨i, _, rfl⟩ := List.mem_map.1 ht; simp) hs).resolve_right (Parse.hit_none _)
    have hR := Parse.recs_fixed (G := Parse.atEof)
      ⟨fun q s => decide (q = 97) &&
        match s.rest with
        | [] => false
        | t :: _ => !(σ.prefixes (t.id - 1)).isEmpty⟩ fuel
    have hlt := (hR.str.root 0).run _ _ _ hs' hr (fun _ => (hR.ok.root 0).run _ _ _ hs' hr)
    simp only [Parse.St.len, List.length_map, List.length_dropLast] at hlt
    simp only [List.length_dropLast] at h2
    omega
  · cases h

/-- The file

    int a;
    #if A
    int b;
    #endif
    #if B
    }
    #endif
    int d;
-/
def lossTok (i : Nat) : Parse.Tok :=
  match i with
  | 0 => { id := 0, ty := .kInt, str := ['i', 'n', 't'], lno := 1 }
  | 1 => { id := 1, ty := .ident, str := ['a'], lno := 1 }
  | 2 => { id := 2, ty := .semi, str := [';'], lno := 1 }
  | 3 => { id := 3, ty := .kInt, str := ['i', 'n', 't'], lno := 3 }
  | 4 => { id := 4, ty := .ident, str := ['b'], lno := 3 }
  | 5 => { id := 5, ty := .semi, str := [';'], lno := 3 }
  | 6 => { id := 6, ty := .rbrace, str := ['}'], lno := 6 }
  | 7 => { id := 7, ty := .kInt, str := ['i', 'n', 't'], lno := 8 }
  | 8 => { id := 8, ty := .ident, str := ['d'], lno := 8 }
  | 9 => { id := 9, ty := .semi, str := [';'], lno := 8 }
  | _ => { Parse.eofTok with id := i }

def lossFile : File where
  n := 4
  kind := fun i => if i % 2 = 0 then .cppIf else .cppEndif
  owner := fun i => match i with | 0 => 3 | 1 => 6 | 2 => 6 | _ => 7
  ntoks := 11

def lossLines : Lines where
  tok := fun i => (lossTok i).lno
  dir := fun i => match i with | 0 => 2 | 1 => 4 | 2 => 5 | _ => 7

theorem lossFile_ok : FileOk lossFile where
  owner := by decide
  sorted := by
    intro i j hij hj
    have hj' : j < 4 := hj
    have : ∀ j < 4, ∀ i < j + 1, lossFile.owner i ≤ lossFile.owner j := by decide
    exact this j hj' i (by omega)
  eof := by decide

theorem lossLines_ok : Lines.Ok lossLines lossFile := by
  unfold Lines.Ok
  decide

/-- **C75 is false of the program.** The file is accepted, no error is reported, but `int a;` is not printed,
although it is not part of any directive. -/
theorem recover_loses_tokens : ∃ X, exec false lossLines (parseRoot lossTok 60) 20 (start lossFile) = some (X, true) ∧
    X.docs.reverse = [[7, 8, 9]] ∧ X.σ.toks = [0, 1, 2, 7, 8, 9, 10] ∧ ¬ AllPrinted X := by
  have h : (exec false lossLines (parseRoot lossTok 60) 20 (start lossFile)).map
      (fun r => (r.1.docs.reverse, r.1.σ.toks, r.2)) = some ([[7, 8, 9]], [0, 1, 2, 7, 8, 9, 10], true) := by
    decide +kernel
  match h2 : exec false lossLines (parseRoot lossTok 60) 20 (start lossFile), h with
  | some (X, b), h =>
    simp only [Option.map_some, Option.some.injEq, Prod.mk.injEq] at h
    obtain ⟨h3, h4, h5⟩ := h
    refine ⟨X, by rw [h5], h3, h4, ?_⟩
    unfold AllPrinted
    rw [h3, h4]
    decide

/-- The corrected program prints all there is. -/
example : (exec true lossLines (parseRoot lossTok 60) 20 (start lossFile)).map
    (fun r => (r.1.docs.reverse, r.1.σ.toks, r.2)) = some ([[0, 1, 2], [7, 8, 9]], [0, 1, 2, 7, 8, 9, 10], true) := by
  decide +kernel

/-- The file

    int a;
    #if B
    }
    #endif
    int d;

with one recovery: the hypotheses of `recovery_keeps_partial` hold. -/
def oneFile : File where
  n := 2
  kind := fun i => if i = 0 then .cppIf else .cppEndif
  owner := fun i => if i = 0 then 3 else 4
  ntoks := 8

def oneTok (i : Nat) : Parse.Tok := if i < 3 then lossTok i else if i = 3 then lossTok 6 else lossTok (i + 3)

def oneLines : Lines where
  tok := fun i => (oneTok i).lno
  dir := fun i => if i = 0 then 5 else 7

example : FileOk oneFile where
  owner := by decide
  sorted := by
    intro i j hij hj
    have hj' : j < 2 := hj
    have : ∀ j < 2, ∀ i < j + 1, oneFile.owner i ≤ oneFile.owner j := by decide
    exact this j hj' i (by omega)
  eof := by decide

example : Lines.Ok oneLines oneFile := by unfold Lines.Ok; decide

example : (exec false oneLines (parseRoot oneTok 60) 20 (start oneFile)).map
    (fun r => (r.1.docs.reverse, r.1.σ.toks, (directives r.1.σ).map r.1.text, r.1.new, r.2)) =
    some ([[0, 1, 2], [4, 5, 6]], [0, 1, 2, 4, 5, 6, 7], [(0, 1)], 3, true) := by decide +kernel

end Knfmt.Branch
