import Verif.Ruler.Stable
import Verif.Doc.Sep
/-!
# Alignments are white space (C31, C79)

The parser makes rulers with `RULER_ALIGN_SENSE`, parser-braces.c:49, parser-decl.c:106,
parser-cpp.c:172, and with `RULER_ALIGN_FIXED` and one column, parser-func.c:185. Whatever is put
into them, the text of an entry never touches the text after it.
-/
namespace Knfmt.Ruler
open Knfmt.Doc (Align St execAlign)
open Knfmt.Spec (gapChar)

theorem minFold {L n : Nat} : ∀ (l : List Datum) (m : Option Nat) (x : Nat),
    l.foldl (minStep L n) m = some x →
    (∀ y, m = some y → x ≤ y) ∧ ∀ d ∈ l, ¬ d.len < L → x ≤ n - d.nspaces
  | [], m, x, h => by
    simp only [List.foldl_nil] at h
    refine ⟨fun y hy => ?_, by simp⟩
    rw [h] at hy; cases hy; exact Nat.le_refl _
  | d :: l, m, x, h => by
    rw [List.foldl_cons] at h
    obtain ⟨h1, h2⟩ := minFold l _ x h
    unfold minStep at h1
    have key : (∀ y, m = some y → x ≤ y) ∧ (¬ d.len < L → x ≤ n - d.nspaces) := by
      by_cases hc : d.len < L
      · rw [if_pos hc] at h1
        exact ⟨h1, fun h => absurd hc h⟩
      · rw [if_neg hc] at h1
        dsimp only at h1
        cases m with
        | none => exact And.intro nofun fun _ => h1 _ rfl
        | some z =>
          dsimp only at h1
          by_cases hz : n - d.nspaces < z
          · rw [if_pos hz] at h1
            have := h1 _ rfl
            refine ⟨fun y hy => ?_, fun _ => this⟩
            cases hy; omega
          · rw [if_neg hz] at h1
            have := h1 _ rfl
            refine ⟨fun y hy => ?_, fun _ => by omega⟩
            cases hy; exact this
    refine And.intro key.1 fun e he => ?_
    rcases List.mem_cons.1 he with rfl | he
    · exact key.2
    · exact h2 e he

theorem minFold_some {L n : Nat} : ∀ (l : List Datum) (m : Option Nat), (m ≠ none ∨ ∃ d ∈ l, ¬ d.len < L) →
    ∃ x, l.foldl (minStep L n) m = some x
  | [], m, h => by
    rcases h with h | ⟨d, h, _⟩
    · cases m with
      | none => exact absurd rfl h
      | some x => exact ⟨x, rfl⟩
    · simp at h
  | d :: l, m, h => by
    rw [List.foldl_cons]
    apply minFold_some l
    unfold minStep
    by_cases hc : d.len < L
    · rw [if_pos hc]
      rcases h with h | ⟨e, he, h⟩
      · exact Or.inl h
      · rcases List.mem_cons.1 he with rfl | he
        · exact absurd hc h
        · exact Or.inr ⟨e, he, h⟩
    · left
      rw [if_neg hc]
      cases m with
      | none => simp
      | some z => dsimp only; split <;> simp

/-- A text that is as long as the column is followed by spaces if the column is minimized. -/
theorem minimize_spaces {rc : Column} (h : minimize rc = true) {d : Datum} (hd : d ∈ rc.datums)
    (hl : rc.len ≤ d.len) : 1 ≤ rc.nspaces - d.nspaces := by
  have hn := (minimize_len h).2
  unfold minimize at h
  split at h
  · cases h
  · obtain ⟨x, hx⟩ := minFold_some (L := rc.len) (n := rc.nspaces) rc.datums none (Or.inr ⟨d, hd, by omega⟩)
    have hle := (minFold _ _ _ hx).2 d hd (by omega)
    dsimp only at h
    rw [hx] at h
    have := of_decide_eq_true h
    omega

/-- The rulers of the parser. -/
def Parsers (rl : Ruler) : Prop :=
  rl.flags = { sense := true } ∨ (rl.flags = { fixed := true } ∧ 1 ≤ rl.align)

/-- No alignment made by a ruler of the parser is empty. -/
theorem alignment_not_empty {rl : Ruler} (hb : Built rl) (hf : Parsers rl)
    (hp : ∀ rc ∈ rl.columns, ∀ d ∈ rc.datums, d.Plain)
    {out : List (List Align)} {is : List Int} (he : exec rl = some (out, is))
    {k i : Nat} {d : Datum} {a : Align} (hi : Entry rl out k i d a) : 1 ≤ a.indent + a.spaces := by
  obtain ⟨rc, as, h1, h2, h3, h4⟩ := hi
  obtain ⟨rc', hc⟩ := entry_column he h1 h3
  have hmem := List.mem_of_getElem? h1
  have hle := (hb.ok rc hmem).le d (List.mem_of_getElem? h2)
  rcases execColumn_entry hc h2 h4 with ⟨_, rfl⟩ | ⟨L, hL, ha⟩
  · simp [dflt]
  · rcases hf with hf | ⟨hf, h0⟩
    · obtain ⟨hn, hm⟩ := sense_length hf (hp rc hmem) hL
      unfold execDatum at ha
      rw [hf] at ha
      simp only [Bool.false_eq_true, if_false] at ha
      split at ha
      · cases ha
      · next hgt =>
        simp only [Option.some.injEq] at ha
        subst ha
        dsimp only
        rcases hm with ⟨rfl, rfl⟩ | hm
        · unfold tabsLength at hgt ⊢
          by_cases hmin : minimize rc' = true
          · simp only [hmin, if_true] at hgt ⊢
            by_cases hlen : rc'.len ≤ d.len
            · have := minimize_spaces hmin (List.mem_of_getElem? h2) hlen
              omega
            · omega
          · simp only [hmin, Bool.false_eq_true, if_false] at hgt ⊢
            omega
        · omega
    · have hL' : columnLength rl rc = some (rc, some ⟨rl.align, false⟩) := by simp [columnLength, hf]
      rw [hL'] at hL
      simp only [Option.some.injEq, Prod.mk.injEq] at hL
      obtain ⟨rfl, rfl⟩ := hL
      simp only [execDatum, hf, if_true, Option.some.injEq] at ha
      subst ha
      simp only [dflt]
      omega

/-- C31: in the output, the text of an entry is followed by a space or a tab. -/
theorem entry_separated_partial {rl : Ruler} (hb : Built rl) (hf : Parsers rl)
    (hp : ∀ rc ∈ rl.columns, ∀ d ∈ rc.datums, d.Plain)
    {out : List (List Align)} {is : List Int} (he : exec rl = some (out, is))
    {k i : Nat} {d : Datum} {a : Align} (hi : Entry rl out k i d a) (σ : St) :
    ∃ w c rest, (execAlign a σ).buf = w ++ σ.buf ∧ w = c :: rest ∧ ∀ c ∈ w, c = ' ' ∨ c = '\t' := by
  have := alignment_not_empty hb hf hp he hi
  obtain ⟨w, c, e, hw, hne⟩ := Knfmt.Doc.execAlign_some a σ
  cases w with
  | nil => exact absurd rfl (hne (by omega))
  | cons x w =>
    refine ⟨x :: w, x, w, by rw [e], rfl, fun y hy => ?_⟩
    simpa [Knfmt.Doc.blank] using hw y hy

/-- `unsigned a; int *b;`, with tabs after the types: the alignment after the longer type consists of
the space left for the star only. -/
def starred : List (Datum × Nat) := [
  ({ tk := { str := ['u', 'n', 's', 'i', 'g', 'n', 'e', 'd'], cno := 1, suffixes := [⟨false, true, ['\t']⟩],
             next := some (1, 17) }, len := 8 }, 1),
  ({ tk := { str := ['i', 'n', 't'], cno := 1, suffixes := [⟨false, true, ['\t']⟩], next := some (2, 9), lno := 2 },
     len := 3, nspaces := 1 }, 1)]

/-- The claim applies. -/
example : exec (mk 0 { sense := true } starred) = some ([[⟨0, 1, true⟩, ⟨5, 0, true⟩]], []) ∧
    Built (mk 0 { sense := true } starred) ∧ Parsers (mk 0 { sense := true } starred) ∧
    (∀ rc ∈ (mk 0 { sense := true } starred).columns, ∀ d ∈ rc.datums, d.Plain) ∧
    Entry (mk 0 { sense := true } starred) [[⟨0, 1, true⟩, ⟨5, 0, true⟩]] 0 0
      (starred.head (by decide)).1 ⟨0, 1, true⟩ := by
  refine ⟨by decide +kernel, mk_built _ _ _, Or.inl (by decide +kernel), ?_, ?_⟩
  · intro rc hrc d hd
    have : ∀ rc ∈ (mk 0 { sense := true } starred).columns, ∀ d ∈ rc.datums,
        (∀ c ∈ d.tk.str, c ≠ '\t' ∧ c ≠ '\n') ∧ 1 ≤ d.tk.cno ∧
          (d.tk.next.all fun p => decide (d.len + p.2 < 2 ^ 32)) = true := by decide +kernel
    obtain ⟨h1, h2, h3⟩ := this rc hrc d hd
    exact ⟨h1, h2, fun l c e => by rw [e] at h3; simpa using h3⟩
  · exact ⟨{ datums := starred.map (·.1), len := 8, nspaces := 1, ntabs := 2 }, [⟨0, 1, true⟩, ⟨5, 0, true⟩], by decide +kernel,
      by decide +kernel, by decide +kernel, by decide +kernel⟩

end Knfmt.Ruler
