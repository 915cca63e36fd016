import Verif.Stream.AlternativesExec
/-!
# Alternatives and recovery, parser.c:123-169 (C75, C76)

The loop of `parser_exec` with both of them. For a parser that does not fail it is the one of
`Verif.Stream.Alternatives`. Once an alternative is taken and the parser fails later on in the same declaration,
text is lost.
-/
namespace Knfmt.Branch

open Knfmt.Spec

/-- The state of `parser_exec`: directives and tokens, the last token consumed, the stamps, `pr_token.unmute`
and the documents. Of stamps and documents the last one comes first. -/
structure CRun where
  σ : St
  pos : Option Nat := none
  stamps : List Nat := []
  um : Option Nat := none
  docs : List (List Ev) := []
  /-- the next directive to be made up -/
  new : Nat
  /-- texts of directives -/
  text : Texts := fun i => (i, i)

/-- One round of `parser_exec`, parser.c:138-169, the result being the state at the end of the file, and
`none` upon an error. -/
def cround (L : Lines) (root : BRoot) (X : CRun) : CRun ⊕ Option CRun :=
  match after X.σ.toks X.pos with
  | [] => .inr none
  | e :: tl =>
    if tl = [] ∧ X.σ.flag e = false then
      .inr (some { X with
        docs := (if X.σ.prefixes e = [] then [] else (emit false X.σ X.um [e] 1).1) :: X.docs })
    else
      match root X.σ X.pos with
      | (.fail, k) =>
        let r := emit false X.σ X.um (e :: tl) k
        let pos := ((e :: tl).take k).getLast?.or X.pos
        match recover L X.σ pos X.stamps X.new with
        | none => .inr none
        | some (cpp, σ, pos, n) =>
          .inl { σ := σ, pos := pos, stamps := X.stamps
                 um := ((X.σ.dir cpp).nx.bind fun d => (X.σ.dir d).parent).or r.2
                 docs := (r.1 :: X.docs).drop n, new := X.new + 1, text := foldText X.σ X.text cpp X.new }
      | (.good, k) =>
        let r := emit false X.σ X.um (e :: tl) k
        let pos := ((e :: tl).take k).getLast?.or X.pos
        .inl { X with pos := pos, stamps := pos.toList ++ X.stamps, um := r.2, docs := r.1 :: X.docs }
      | (.brch, k) =>
        let r := emit false X.σ X.um (e :: tl) k
        match (e :: tl)[k]? with
        | none => .inr none
        | some back =>
          match branch X.σ back with
          | none => .inr none
          | some (σ', um) =>
            let seek := lastStamped σ' X.stamps
            if after σ'.toks seek = [] then .inr none
            else .inl { X with σ := σ', pos := seek, um := some um, docs := r.1 :: X.docs }

/-- The loop of `parser_exec`, parser.c:138-169. -/
def cexec (L : Lines) (root : BRoot) : Nat → CRun → Option (Option CRun)
  | 0, _ => none
  | fuel + 1, X =>
    match cround L root X with
    | .inl X => cexec L root fuel X
    | .inr r => some r

end Knfmt.Branch

namespace Knfmt.Spec

open Knfmt.Branch

/-- At the start. -/
def cstart (F : File) : CRun := { σ := F.final, new := F.n }

end Knfmt.Spec

namespace Knfmt.Branch

open Knfmt.Spec

/-- Forgetting the bounds of documents. -/
def CRun.flat (X : CRun) : BRun :=
  { σ := X.σ, pos := X.pos, stamps := X.stamps, um := X.um, evs := X.docs.reverse.flatten }

theorem cround_flat (L : Lines) (root : BRoot) (hroot : ∀ σ pos, (root σ pos).1 ≠ .fail) (X : CRun) :
    bround false root X.flat = match cround L root X with
      | .inl X' => .inl X'.flat
      | .inr r => .inr (r.map fun X' => X'.flat.evs) := by
  unfold bround cround
  show (match after X.σ.toks X.pos with | [] => _ | e :: tl => _) = _
  cases after X.σ.toks X.pos with
  | nil => rfl
  | cons e tl =>
    dsimp only
    by_cases h : tl = [] ∧ X.σ.flag e = false
    · rw [if_pos h, if_pos (show tl = [] ∧ X.flat.σ.flag e = false from h)]
      simp only [Option.map_some, CRun.flat, List.reverse_cons, List.flatten_append, List.flatten_cons,
        List.flatten_nil, List.append_nil]
      rfl
    · rw [if_neg h, if_neg (show ¬ (tl = [] ∧ X.flat.σ.flag e = false) from h)]
      have hr := hroot X.σ X.pos
      show (match root X.σ X.pos with | (.fail, _) => _ | (.good, k) => _ | (.brch, k) => _) = _
      cases hk : root X.σ X.pos with
      | mk r k =>
        rw [hk] at hr
        cases r with
        | fail => exact absurd rfl hr
        | good =>
          dsimp only [CRun.flat]
          simp
        | brch =>
          dsimp only
          cases (e :: tl)[k]? with
          | none => rfl
          | some back =>
            dsimp only [CRun.flat]
            cases branch X.σ back with
            | none => rfl
            | some p =>
              obtain ⟨σ', um⟩ := p
              dsimp only
              by_cases ha : after σ'.toks (lastStamped σ' X.stamps) = []
              · simp only [ha, if_true]; rfl
              · simp only [ha, if_false]
                simp

/-- For a parser that does not fail this is the loop of C76. -/
theorem cexec_flat (L : Lines) (root : BRoot) (hroot : ∀ σ pos, (root σ pos).1 ≠ .fail) :
    ∀ (fuel : Nat) (X : CRun), bexec false root fuel X.flat =
      (cexec L root fuel X).map fun r => r.map fun X' => X'.flat.evs := by
  intro fuel
  induction fuel with
  | zero => intro X; rfl
  | succ fuel ih =>
    intro X
    rw [bexec, cexec, cround_flat L root hroot]
    cases cround L root X with
    | inl X' => exact ih X'
    | inr r => rfl

/-- **C76 for the whole loop (partial).** What is missing is what is missing in `alternatives_printed_partial`. -/
theorem alternatives_whole_partial (F : File) (hF : FileOk F) (hS : Single F.final) (L : Lines) (root : BRoot)
    (hroot : BRoot.Ok root) (hfail : ∀ σ pos, (root σ pos).1 ≠ .fail) : ∃ X,
      cexec L root (F.ntoks * F.ntoks + 2 * F.ntoks + 1) (cstart F) = some (some X) ∧
      shown X.docs.reverse.flatten = allOf F := by
  obtain ⟨evs, h1, h2⟩ := alternatives_printed_partial F hF hS root hroot
  have h3 := cexec_flat L root hfail (F.ntoks * F.ntoks + 2 * F.ntoks + 1) (cstart F)
  have h4 : (cstart F).flat = bstart F := rfl
  rw [h4, h1] at h3
  match h5 : cexec L root (F.ntoks * F.ntoks + 2 * F.ntoks + 1) (cstart F), h3 with
  | some (some X), h3 =>
    simp only [Option.map_some, Option.some.injEq, CRun.flat] at h3
    exact ⟨X, rfl, by rw [← h3]; exact h2⟩

/-! ## The end -/

/-- Taking an alternative keeps what recovery relies on. -/
theorem branch_base {L : Lines} {o : Nat → Nat} {σ : St} {new back : Nat} (h : Base L o σ new)
    (hback : σ.flag back = true) : ∃ σ', branch σ back = some (σ', back) ∧ Base L o σ' new ∧
      σ'.toks.length < σ.toks.length ∧ ∀ t ∈ σ'.toks, t ∈ σ.toks := by
  obtain ⟨src, σ', _, hb, _, _, _, _, g2, g3, _, g5⟩ :=
    branch_removes h.good.wf h.good.ordered h.good.toks hback
  obtain ⟨hg, hlen⟩ := branch_good h.good hb
  have hsub : ∀ t ∈ σ'.toks, t ∈ σ.toks := by
    intro t ht
    rw [g2] at ht
    exact (List.mem_filter.1 ht).1
  refine ⟨σ', hb, ⟨hg, ?_, ?_⟩, hlen, hsub⟩
  · intro i hi t ht
    exact h.lines i (fun h0 => hi (g3.plain i h0)) t (hsub t ht)
  · intro i hi
    obtain ⟨h1, h2⟩ := h.fresh i hi
    exact ⟨g3.plain i h1, fun t hm => h2 t (g5 t i hm)⟩

end Knfmt.Branch

namespace Knfmt.Spec

open Knfmt.Branch

/-- A parser that consumes at least one token if it is successful and never the end of the file, and stops
only where alternatives start. -/
def BRoot.Steps (root : BRoot) : Prop :=
  ∀ σ pos r k, (∀ e, after σ.toks pos = [e] → σ.flag e = true) → after σ.toks pos ≠ [] →
    root σ pos = (r, k) →
    (r = .good → 0 < k ∧ k < (after σ.toks pos).length) ∧
    (r = .brch → ∃ t, (after σ.toks pos)[k]? = some t ∧ σ.flag t = true)

end Knfmt.Spec

namespace Knfmt.Branch

open Knfmt.Spec

/-- **C75 and C76, the end.** Whatever the parser makes of the file and whatever alternatives there are, it
ends: each time the parser goes back, tokens were removed. -/
theorem both_end (F : File) (hF : FileOk F) (L : Lines) (hL : Lines.Ok L F) (root : BRoot)
    (hroot : BRoot.Steps root) :
    ∃ r, cexec L root (F.ntoks * F.ntoks + 2 * F.ntoks + 1) (cstart F) = some r := by
  have key : ∀ fuel {X : CRun} {o : Nat → Nat}, Base L o X.σ X.new → (∀ t ∈ X.σ.toks, t < F.ntoks) →
      X.σ.toks.length * (F.ntoks + 1) + (after X.σ.toks X.pos).length < fuel →
      ∃ r, cexec L root fuel X = some r := by
    intro fuel
    induction fuel with
    | zero => intro X o _ _ h; omega
    | succ fuel ih =>
      intro X o hB hbound hm
      -- the parser goes back
      have hback : ∀ {X' : CRun} {o' : Nat → Nat}, Base L o' X'.σ X'.new → (∀ t ∈ X'.σ.toks, t ∈ X.σ.toks) →
          X'.σ.toks.length < X.σ.toks.length → ∃ r, cexec L root fuel X' = some r := by
        intro X' o' hB' hsub hlt
        have hbound' : ∀ t ∈ X'.σ.toks, t < F.ntoks := fun t ht => hbound t (hsub t ht)
        refine ih hB' hbound' ?_
        have h1 : (after X'.σ.toks X'.pos).length ≤ X'.σ.toks.length := by
          obtain ⟨pre, hp⟩ := after_suffix X'.σ.toks X'.pos
          have := congrArg List.length hp
          rw [List.length_append] at this
          omega
        have h2 := sorted_length hB'.good.toks hbound'
        have h3 : (X'.σ.toks.length + 1) * (F.ntoks + 1) ≤ X.σ.toks.length * (F.ntoks + 1) :=
          Nat.mul_le_mul_right _ hlt
        rw [Nat.add_mul] at h3
        omega
      rw [cexec]
      unfold cround
      cases hrest : after X.σ.toks X.pos with
      | nil => exact ⟨_, rfl⟩
      | cons e tl =>
      dsimp only
      by_cases hend : tl = [] ∧ X.σ.flag e = false
      · rw [if_pos hend]
        exact ⟨_, rfl⟩
      · rw [if_neg hend]
        cases hr : root X.σ X.pos with
        | mk r k =>
        have hcall : ∀ u, after X.σ.toks X.pos = [u] → X.σ.flag u = true := by
          intro u hu
          rw [hrest] at hu
          obtain ⟨rfl, rfl⟩ := List.cons.inj hu
          cases hfu : X.σ.flag e with
          | true => rfl
          | false => exact absurd ⟨rfl, hfu⟩ hend
        obtain ⟨hgood, hbr⟩ := hroot _ _ _ _ hcall (by rw [hrest]; simp) hr
        cases r with
        | good =>
          obtain ⟨hk0, hk⟩ := hgood rfl
          obtain ⟨s, hs1, hs2⟩ := after_take hB.good.toks hk0 hk
          dsimp only
          rw [← hrest, hs1]
          refine ih (o := o) ?_ ?_ ?_
          · exact hB
          · exact hbound
          show X.σ.toks.length * (F.ntoks + 1) + (after X.σ.toks (some s)).length < _
          rw [hs2, List.length_drop]
          omega
        | brch =>
          obtain ⟨back, hb, hbf⟩ := hbr rfl
          rw [hrest] at hb
          obtain ⟨σ', h1, h2, h3, h4⟩ := branch_base hB hbf
          dsimp only
          rw [hb]
          dsimp only
          rw [h1]
          dsimp only
          by_cases ha : after σ'.toks (lastStamped σ' X.stamps) = []
          · rw [if_pos ha]
            exact ⟨_, rfl⟩
          · rw [if_neg ha]
            exact hback h2 h4 h3
        | fail =>
          dsimp only
          cases hrec : recover L X.σ (((e :: tl).take k).getLast?.or X.pos) X.stamps X.new with
          | none => exact ⟨_, rfl⟩
          | some p =>
            obtain ⟨cpp, σ', pos', n⟩ := p
            dsimp only
            obtain ⟨c, nx, h1, hc, hm, hnx, hne, _, _, _⟩ := recover_base hB hrec
            obtain ⟨o', hb, htk, hsrc, _, hlt, _⟩ := fold_base hB hc hm hnx hne
            subst h1
            refine hback (o' := o') ?_ ?_ ?_
            · exact hb
            · intro t ht
              have ht' : t ∈ (fold X.σ cpp X.new).toks := ht
              rw [htk] at ht'
              exact (List.mem_filter.1 ht').1
            · show (fold X.σ cpp X.new).toks.length < _
              rw [htk]
              refine Nat.lt_of_le_of_ne (List.length_filter_le _ _) fun he => ?_
              have := List.length_filter_eq_length_iff.mp he (o cpp) hsrc
              simp at this
              omega
  obtain ⟨h1, _⟩ := start_inv hF hL
  refine key _ (X := cstart F) h1.base h1.bound ?_
  have ht : F.final.toks = List.range F.ntoks := (read_spec F).2.2.2.1
  show F.final.toks.length * (F.ntoks + 1) + F.final.toks.length < _
  rw [ht, List.length_range, Nat.mul_add]
  omega

/-- A parser that accepts everything up to a semicolon but right parentheses. -/
def stopAtBad (σ : St) (semi bad : Nat → Bool) : List Nat → Outcome × Nat
  | [] => (.good, 0)
  | t :: ts =>
    if σ.flag t then (.brch, 0)
    else if ts = [] then (.good, 0)
    else if bad t then (.fail, 0)
    else if semi t then (.good, 1)
    else ((stopAtBad σ semi bad ts).1, (stopAtBad σ semi bad ts).2 + 1)

/-- It is one the theorem is about. -/
theorem stopAtBad_steps (semi bad : Nat → Bool) :
    BRoot.Steps (fun σ pos => stopAtBad σ semi bad (after σ.toks pos)) := by
  have key : ∀ (σ : St) (l : List Nat), l ≠ [] →
      ((stopAtBad σ semi bad l).1 = .good → (stopAtBad σ semi bad l).2 < l.length ∧
        (1 < l.length → 0 < (stopAtBad σ semi bad l).2) ∧ (∀ e, l = [e] → σ.flag e = false)) ∧
      ((stopAtBad σ semi bad l).1 = .brch → ∃ t, l[(stopAtBad σ semi bad l).2]? = some t ∧ σ.flag t = true) := by
    intro σ l
    induction l with
    | nil => intro h; exact absurd rfl h
    | cons t ts ih =>
      intro _
      unfold stopAtBad
      by_cases h1 : σ.flag t = true
      · simp [h1]
      · rw [if_neg h1]
        have h1' : σ.flag t = false := by simpa using h1
        by_cases h2 : ts = []
        · subst h2
          simp [h1']
        · rw [if_neg h2]
          have hl : 0 < ts.length := List.length_pos_iff.2 h2
          by_cases h4 : bad t = true
          · simp [h4]
          · rw [if_neg h4]
            by_cases h3 : semi t = true
            · rw [if_pos h3]
              simp [h2]
              omega
            · rw [if_neg h3]
              obtain ⟨g3, g4⟩ := ih h2
              refine ⟨?_, ?_⟩
              · intro hg
                obtain ⟨g5, _⟩ := g3 hg
                refine ⟨by simp; omega, fun _ => by simp, ?_⟩
                intro e he
                exact absurd (List.cons.inj he).2 h2
              · intro hb
                obtain ⟨u, g5, g6⟩ := g4 hb
                exact ⟨u, by simpa using g5, g6⟩
  intro σ pos r k hcall hne h
  obtain ⟨g3, g4⟩ := key σ _ hne
  dsimp only at h
  rw [h] at g3 g4
  refine ⟨?_, g4⟩
  intro hr
  obtain ⟨g5, g6, g7⟩ := g3 hr
  refine ⟨g6 ?_, g5⟩
  apply Classical.byContradiction
  intro hlt
  have hl : (after σ.toks pos).length = 1 := by
    have := List.length_pos_iff.2 hne
    omega
  obtain ⟨e, he⟩ := List.length_eq_one_iff.1 hl
  have h1 := hcall e he
  rw [g7 e he] at h1
  cases h1

/-- The file

    int x =
    #if A
    1
    #else
    2
    #endif
    + 3
    #if B
    )
    #endif
    ;
-/
def bothFile : File where
  n := 5
  kind := fun i => match i with | 0 => .cppIf | 1 => .cppElse | 2 => .cppEndif | 3 => .cppIf | _ => .cppEndif
  owner := fun i => match i with | 0 => 3 | 1 => 4 | 2 => 5 | 3 => 7 | _ => 8
  ntoks := 10

def bothLines : Lines where
  tok := fun i => match i with | 0 => 1 | 1 => 1 | 2 => 1 | 3 => 3 | 4 => 5 | 5 => 7 | 6 => 7 | 7 => 9 | 8 => 11 | _ => 12
  dir := fun i => match i with | 0 => 2 | 1 => 4 | 2 => 6 | 3 => 8 | _ => 10

/-- The hypothesis of `alternatives_whole_partial` that is not one of `alternatives_printed_partial`. -/
example (semi : Nat → Bool) (σ : St) (pos : Option Nat) : (semiRoot semi σ pos).1 ≠ .fail := by
  unfold semiRoot
  by_cases h : after σ.toks pos = []
  · rw [h]; simp [stopAt]
  · exact (stopAt_spec σ semi _ h).1

/-- **C75 and C76 are false of the program if both things happen.** No error is reported, but `+ 3` is not
printed, nor are `#else`, `2` and `#endif`: what is printed is `int x =`, `#if A`, `1`, `#if B`, `)`, `#endif`
and `;`. The token to unmute at is overwritten while documents are muted. -/
theorem both_lose : ∃ X, cexec bothLines (fun σ pos => stopAtBad σ (· = 8) (· = 7) (after σ.toks pos)) 20
      (cstart bothFile) = some (some X) ∧
    (shown X.docs.reverse.flatten).map (fun p => (p.1.map X.text, p.2)) =
      [([], 0), ([], 1), ([], 2), ([(0, 0)], 3), ([(3, 4)], 8)] := by
  have h : (cexec bothLines (fun σ pos => stopAtBad σ (· = 8) (· = 7) (after σ.toks pos)) 20
      (cstart bothFile)).map (fun r => r.map fun X =>
        (shown X.docs.reverse.flatten).map (fun p => (p.1.map X.text, p.2))) =
      some (some [([], 0), ([], 1), ([], 2), ([(0, 0)], 3), ([(3, 4)], 8)]) := by
    decide +kernel
  match h2 : cexec bothLines (fun σ pos => stopAtBad σ (· = 8) (· = 7) (after σ.toks pos)) 20
      (cstart bothFile), h with
  | some (some X), h =>
    simp only [Option.map_some, Option.some.injEq] at h
    exact ⟨X, rfl, h⟩

end Knfmt.Branch
