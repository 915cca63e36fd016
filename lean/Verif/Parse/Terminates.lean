import Verif.Parse.Theorems
import Verif.Parse.Ends
import Verif.Parse.Refine
/-!
# C66: the parser ends

All loops and all recursion of the model take fuel: a run that does not end is one that is out of
fuel, however much it is given. `parserRun E fuel ts` is `none` exactly in this case, errors reported
by the parser are a result.

The parser of the program does not end on all sources, see `C66_statement_false`: the loop of
`parser_type` stops at a certain token, but an expression parsed by it may go beyond this token, and
`lexer_pop` gives the end of the file again and again. With a check for the end of the file the parser
ends on all sources, and nothing else changes.
-/
namespace Knfmt.Parse
open Knfmt.Lexer (TT)

/-- The tokens of a source: they are numbered and the end of the file is not one of them. -/
structure Source (ts : List Tok) : Prop where
  ids : ∀ t ∈ ts, t.id ≠ 0
  nodup : (ts.map Tok.id).Nodup
  eof : ∀ t ∈ ts, t.ty ≠ .eof

/-- C66 as one would like to have it: the parser ends, whatever the source is and whatever is decided
about the layout. -/
def C66_statement : Prop :=
  ∀ (E : Env) (ts : List Tok), Source ts → ∃ fuel r, parserRun E fuel ts = some r

/-- `M({ int a __attribute__(x)) * y; }` -/
def exEndless : List Tok := number 1 [
  (.ident, "M"), (.lparen, "("), (.lbrace, "{"), (.kInt, "int"), (.ident, "a"),
  (.attribute, "__attribute__"), (.lparen, "("), (.ident, "x"), (.rparen, ")"), (.rparen, ")"),
  (.star, "*"), (.ident, "y"), (.semi, ";"), (.rbrace, "}")]

theorem exEndless_source : Source exEndless := ⟨by decide, by decide, by decide⟩

/-- C66 for the parser with the missing check: it ends on all sources, and its recursion is no deeper
than four times the number of tokens, plus six. No loop makes more rounds than this either. -/
theorem C66_parser_ends_partial (E : Env) (ts : List Tok) :
    ∃ r, ∀ fuel, 4 * ts.length + 6 ≤ fuel → (∀ t ∈ ts, t.id ≠ 0) → parserRunFixed E fuel ts = some r := by
  obtain ⟨r, e⟩ := parserRunFixed_ends E (4 * ts.length + 6) ts (Nat.le_refl _)
  exact ⟨r, fun fuel h hts => parserRunG_le inferInstance E h hts e⟩

/-- C66: wherever the program ends the parser with the check does the same, so the check is the only
change. -/
theorem C66_check_changes_nothing_partial (E : Env) (fuel : Nat) (ts : List Tok) (hts : ∀ t ∈ ts, t.id ≠ 0)
    (r : Bool × St) (h : parserRun E fuel ts = some r) :
    ∀ fuel', 4 * ts.length + 6 ≤ fuel' → parserRunFixed E fuel' ts = some r := by
  intro fuel' hf
  obtain ⟨r', e⟩ := C66_parser_ends_partial E ts
  have h1 := e (max fuel fuel') (Nat.le_trans hf (Nat.le_max_right _ _)) hts
  have h2 : parserRunFixed E (max fuel fuel') ts = some r :=
    parserRun_typeG atEof E (Nat.le_max_left _ _) hts h
  rw [h2] at h1
  cases h1
  exact e fuel' hf hts

instance guard_markEof (K : Nat) : Guard (markEof K) := ⟨inferInstance, fun _ => ⟨_, rfl⟩⟩

/-- C66: if the program ends at all then with recursion no deeper than four times the number of tokens,
plus six, and with loops of no more rounds. -/
theorem C66_bound_partial (E : Env) (fuel : Nat) (ts : List Tok) (hts : ∀ t ∈ ts, t.id ≠ 0) (r : Bool × St)
    (h : parserRun E fuel ts = some r) : parserRun E (4 * ts.length + 6) ts = some r := by
  have hf := C66_check_changes_nothing_partial E fuel ts hts r h _ (Nat.le_refl _)
  have hm := parserRun_typeG (markEof (r.2.next + 1)) E (Nat.le_max_left fuel (4 * ts.length + 6)) hts h
  obtain ⟨r', e'⟩ := parserRunG_ends (G := markEof (r.2.next + 1)) E (4 * ts.length + 6) ts (Nat.le_refl _)
  have h1 := parserRunG_le (mon_markEof _) E (Nat.le_max_right fuel (4 * ts.length + 6)) hts e'
  rw [hm] at h1
  cases h1
  exact parserRun_of_mark E hts e' (Nat.lt_succ_self _)

/-- C66: the program ends exactly if it does not matter what would be done at the end of the file within
the loop of `parser_type`. -/
theorem C66_ends_iff_partial (E : Env) (ts : List Tok) (hts : ∀ t ∈ ts, t.id ≠ 0) :
    (∃ fuel r, parserRun E fuel ts = some r) ↔
      ∀ G : M (Unit ⊕ Res), (∀ s, ∃ a s', G s = some (a, s')) →
        parserRunT (typeG G) E (4 * ts.length + 6) ts = parserRunFixed E (4 * ts.length + 6) ts := by
  constructor
  · rintro ⟨fuel, r, h⟩ G _
    have h := C66_bound_partial E fuel ts hts r h
    rw [parserRun_typeG G E (Nat.le_refl _) hts h, C66_check_changes_nothing_partial E _ ts hts r h _ (Nat.le_refl _)]
  · intro h
    obtain ⟨r, e⟩ := parserRunFixed_ends E (4 * ts.length + 6) ts (Nat.le_refl _)
    refine ⟨4 * ts.length + 6, r, parserRun_of_mark E (K := r.2.next + 1) hts ?_ (Nat.lt_succ_self _)⟩
    rw [h (markEof (r.2.next + 1)) fun _ => ⟨_, _, rfl⟩, e]

/-- C66: the outcome does not depend on the fuel. -/
theorem C66_outcome_unique_partial (E : Env) (fuel fuel' : Nat) (ts : List Tok) (hts : ∀ t ∈ ts, t.id ≠ 0)
    (r r' : Bool × St) (h : parserRun E fuel ts = some r) (h' : parserRun E fuel' ts = some r') : r = r' := by
  have h1 := parserRun_le E (Nat.le_max_left fuel fuel') hts h
  have h2 := parserRun_le E (Nat.le_max_right fuel fuel') hts h'
  rw [h1] at h2
  cases h2
  rfl

/-! ## The program does not always end -/

set_option maxRecDepth 100000 in
/-- Finding: on this source the parser does not end, for no amount of fuel. -/
theorem C66_endless (fuel : Nat) : parserRun envNo fuel exEndless = none := by
  have h : parserRun envNo (4 * exEndless.length + 6) exEndless = none := by decide +kernel
  cases e : parserRun envNo fuel exEndless with
  | none => rfl
  | some r =>
    rw [C66_bound_partial envNo fuel exEndless exEndless_source.ids r e] at h
    cases h

/-- The full claim is wrong. -/
theorem C66_statement_false : ¬ C66_statement := by
  intro h
  obtain ⟨fuel, r, e⟩ := h envNo exEndless exEndless_source
  rw [C66_endless] at e
  cases e

/-! ## The claims apply -/

set_option maxRecDepth 100000 in
example : Source exFile := ⟨by decide, by decide, by decide⟩

set_option maxRecDepth 100000 in
example : (parserRun envNo 60 exFile).map (fun x => (x.1, x.2.rest)) = some (true, []) := by decide +kernel

set_option maxRecDepth 100000 in
example : (parserRunFixed envNo 62 exEndless).map (fun x => (x.1, x.2.rest)) = some (false, []) := by decide +kernel

end Knfmt.Parse
