import Verif.Doc.Text
/-! C24: trying out candidate layouts, and the absence of failures. -/
namespace Knfmt.Doc.Spec

/-- Every choice of indentation in the document is between `n` candidates. The
documents built by knfmt have `n = 2` (expr.c:1179, expr.c:1191, parser-func.c:389). -/
def Uniform (n : Nat) : Doc → Prop
  | .seq d ds => Uniform n d ∧ Uniform n ds
  | .minimize _ ms d => ms.length = n ∧ Uniform n d
  | .group d | .indent _ d | .noindent d | .optional d | .scope d | .maxlines _ d => Uniform n d
  | _ => True

/-- The cost of a candidate that takes `lines` lines and `exceeds` columns over the
limit, the most being `ml` and `me`: `lines / ml + exceeds / me`, multiplied by
`ml * me`. A quotient with a zero divisor is left out. -/
def cost (ml me lines exceeds : Nat) : Nat :=
  (if ml = 0 then 0 else lines * (if me = 0 then 1 else me)) +
  (if me = 0 then 0 else exceeds * (if ml = 0 then 1 else ml))

/-- The index chosen among candidates with the given costs, some of which are forced:
the first forced one, otherwise the first one with the least cost. -/
def Chosen (costs : List Nat) (forced : List Bool) (best : Nat) : Prop :=
  best < costs.length ∧
  ((forced[best]? = some true ∧ ∀ i < best, forced[i]? = some false) ∨
   ((∀ b ∈ forced, b = false) ∧
     ∀ c, costs[best]? = some c →
       (∀ (i : Nat) (e : Nat), costs[i]? = some e → c ≤ e) ∧
       ∀ (i : Nat) (e : Nat), costs[i]? = some e → i < best → c < e))

end Knfmt.Doc.Spec

namespace Knfmt.Doc
open Knfmt.Util Knfmt.Doc.Spec

/-! The choice. -/

theorem bestLoop_spec (l : List (Nat × Bool)) : ∀ (i : Nat) (b : Option (Nat × Nat)),
    match bestLoop l i b with
    | none => l = [] ∧ b = none
    | some best =>
      (∃ p, i ≤ best ∧ l[best - i]? = some (p, true) ∧
        ∀ j < best - i, ∃ q, l[j]? = some (q, false)) ∨
      ((∀ x ∈ l, x.2 = false) ∧
        ((∃ p, b = some (p, best) ∧ ∀ x ∈ l, p ≤ x.1) ∨
         (∃ p, i ≤ best ∧ l[best - i]? = some (p, false) ∧ (∀ x ∈ l, p ≤ x.1) ∧
           (∀ q k, b = some (q, k) → p < q) ∧
           ∀ j < best - i, ∀ x, l[j]? = some x → p < x.1))) := by
  induction l with
  | nil =>
    intro i b
    cases b with
    | none => simp [bestLoop]
    | some x => exact Or.inr ⟨by simp, Or.inl ⟨x.1, rfl, by simp⟩⟩
  | cons x l ih =>
    obtain ⟨p, f⟩ := x
    intro i b
    cases f with
    | true =>
      simp only [bestLoop, if_true]
      exact Or.inl ⟨p, Nat.le_refl _, by simp, by simp⟩
    | false =>
      -- the rest of the loop
      have step : ∀ b' : Option (Nat × Nat),
          (b' = some (p, i) ∧ (∀ q k, b = some (q, k) → p < q)) ∨ (b' = b ∧ ∃ q k, b = some (q, k) ∧ q ≤ p) →
          match bestLoop l (i + 1) b' with
          | none => ((p, false) :: l) = [] ∧ b = none
          | some best =>
            (∃ p', i ≤ best ∧ ((p, false) :: l)[best - i]? = some (p', true) ∧
              ∀ j < best - i, ∃ q, ((p, false) :: l)[j]? = some (q, false)) ∨
            ((∀ x ∈ ((p, false) :: l), x.2 = false) ∧
              ((∃ p', b = some (p', best) ∧ ∀ x ∈ ((p, false) :: l), p' ≤ x.1) ∨
               (∃ p', i ≤ best ∧ ((p, false) :: l)[best - i]? = some (p', false) ∧
                 (∀ x ∈ ((p, false) :: l), p' ≤ x.1) ∧
                 (∀ q k, b = some (q, k) → p' < q) ∧
                 ∀ j < best - i, ∀ x, ((p, false) :: l)[j]? = some x → p' < x.1))) := by
        intro b' hb'
        have h := ih (i + 1) b'
        cases hr : bestLoop l (i + 1) b' with
        | none =>
          rw [hr] at h
          rcases hb' with ⟨e, _⟩ | ⟨e, q, k, e2, _⟩
          · rw [e] at h; simp at h
          · rw [e, e2] at h; simp at h
        | some best =>
          rw [hr] at h
          dsimp only at h ⊢
          have hsub : i + 1 ≤ best → best - i = (best - (i + 1)) + 1 := by omega
          rcases h with ⟨p', h1, h2, h3⟩ | ⟨hf, h⟩
          · left
            refine ⟨p', by omega, ?_, ?_⟩
            · rw [hsub h1, List.getElem?_cons_succ]; exact h2
            · intro j hj
              cases j with
              | zero => exact ⟨p, by simp⟩
              | succ j =>
                rw [List.getElem?_cons_succ]
                exact h3 j (by omega)
          · right
            refine ⟨by grind, ?_⟩
            rcases h with ⟨p', h1, h2⟩ | ⟨p', h1, h2, h3, h4, h5⟩
            · rcases hb' with ⟨e, hlt⟩ | ⟨e, q, k, e2, hle⟩
              · right
                rw [e] at h1
                obtain ⟨rfl, rfl⟩ : p = p' ∧ i = best := by simpa using h1
                refine ⟨p, Nat.le_refl _, by simp, by grind, hlt, by omega⟩
              · left
                rw [e, e2] at h1
                obtain ⟨rfl, rfl⟩ : q = p' ∧ k = best := by simpa using h1
                exact ⟨q, e2, by grind⟩
            · right
              rcases hb' with ⟨e, hlt⟩ | ⟨e, q, k, e2, hle⟩
              · have hp := h4 p i e
                refine ⟨p', by omega, ?_, ?_, ?_, ?_⟩
                · rw [hsub h1, List.getElem?_cons_succ]; exact h2
                · intro x hx
                  rcases List.mem_cons.mp hx with rfl | hx
                  · exact Nat.le_of_lt hp
                  · exact h3 x hx
                · intro q k e'; exact Nat.lt_trans hp (hlt q k e')
                · intro j hj x hx
                  cases j with
                  | zero => simp at hx; subst hx; exact hp
                  | succ j =>
                    rw [List.getElem?_cons_succ] at hx
                    exact h5 j (by omega) x hx
              · have hp := h4 q k (by rw [e, e2])
                refine ⟨p', by omega, ?_, ?_, ?_, ?_⟩
                · rw [hsub h1, List.getElem?_cons_succ]; exact h2
                · intro x hx
                  rcases List.mem_cons.mp hx with rfl | hx
                  · exact Nat.le_trans (Nat.le_of_lt hp) hle
                  · exact h3 x hx
                · intro q' k' e'
                  rw [e2] at e'
                  obtain ⟨rfl, rfl⟩ : q = q' ∧ k = k' := by simpa using e'
                  exact hp
                · intro j hj x hx
                  cases j with
                  | zero => simp at hx; subst hx; exact Nat.lt_of_lt_of_le hp hle
                  | succ j =>
                    rw [List.getElem?_cons_succ] at hx
                    exact h5 j (by omega) x hx
      simp only [bestLoop, Bool.false_eq_true, if_false]
      cases b with
      | none => exact step (some (p, i)) (Or.inl ⟨rfl, by simp⟩)
      | some x =>
        obtain ⟨q, k⟩ := x
        by_cases h : p < q
        · simp only [h, if_true]
          exact step (some (p, i)) (Or.inl ⟨rfl, by grind⟩)
        · simp only [h, if_false]
          exact step (some (q, k)) (Or.inr ⟨rfl, q, k, rfl, by omega⟩)

/-- The loop makes the choice described by the specification. -/
theorem bestLoop_chosen (costs : List Nat) (forced : List Bool) (hl : forced.length = costs.length) :
    match bestLoop (costs.zip forced) 0 none with
    | none => costs = []
    | some best => Chosen costs forced best := by
  have h := bestLoop_spec (costs.zip forced) 0 none
  have hz : ∀ (i p : Nat) (f : Bool), (costs.zip forced)[i]? = some (p, f) ↔ costs[i]? = some p ∧ forced[i]? = some f := by
    intro i p f; rw [List.getElem?_zip_eq_some]
  have hmem : ∀ b ∈ forced, ∃ p, (p, b) ∈ costs.zip forced := by
    intro b hb
    obtain ⟨i, hi, rfl⟩ := List.mem_iff_getElem.mp hb
    refine ⟨costs[i]'(by omega), ?_⟩
    rw [List.mem_iff_getElem?]
    exact ⟨i, by rw [hz]; simp [hi, List.getElem?_eq_getElem (show i < costs.length by omega)]⟩
  have hcost : ∀ (i : Nat) (e : Nat), costs[i]? = some e → ∃ b, (costs.zip forced)[i]? = some (e, b) := by
    intro i e he
    obtain ⟨hi, rfl⟩ := List.getElem?_eq_some_iff.mp he
    exact ⟨forced[i]'(by omega), by rw [hz]; simp [List.getElem?_eq_getElem (show i < forced.length by omega)]⟩
  cases hb : bestLoop (costs.zip forced) 0 none with
  | none =>
    rw [hb] at h
    have := h.1
    rw [List.zip_eq_nil_iff] at this
    rcases this with e | e
    · exact e
    · rw [e] at hl; exact List.length_eq_zero_iff.mp hl.symm
  | some best =>
    rw [hb] at h
    dsimp only at h ⊢
    simp only [Nat.sub_zero] at h
    rcases h with ⟨p, _, h2, h3⟩ | ⟨hf, h⟩
    · rw [hz] at h2
      refine ⟨(List.getElem?_eq_some_iff.mp h2.1).1, Or.inl ⟨h2.2, ?_⟩⟩
      intro i hi
      obtain ⟨q, hq⟩ := h3 i hi
      exact ((hz _ _ _).mp hq).2
    · rcases h with ⟨p, h1, _⟩ | ⟨p, _, h2, h3, _, h5⟩
      · simp at h1
      · rw [hz] at h2
        refine ⟨(List.getElem?_eq_some_iff.mp h2.1).1, Or.inr ⟨?_, ?_⟩⟩
        · intro b hb'
          obtain ⟨p, hp⟩ := hmem b hb'
          exact hf _ hp
        · intro c hc
          rw [h2.1] at hc
          obtain rfl : p = c := by simpa using hc
          constructor
          · intro i e he
            obtain ⟨b, hb'⟩ := hcost i e he
            exact h3 (e, b) (List.mem_of_getElem? hb')
          · intro i e he hi
            obtain ⟨b, hb'⟩ := hcost i e he
            exact h5 i hi (e, b) hb'

theorem le_maximum (l : List Nat) : ∀ x ∈ l, x ≤ maximum l := by
  have key : ∀ (l : List Nat) (a : Nat), a ≤ l.foldl max a ∧ ∀ x ∈ l, x ≤ l.foldl max a := by
    intro l
    induction l with
    | nil => intro a; simp
    | cons y l ih =>
      intro a
      have := ih (max a y)
      simp only [List.foldl_cons]
      refine ⟨by omega, ?_⟩
      intro x hx
      rcases List.mem_cons.mp hx with rfl | hx
      · have := this.1; omega
      · exact this.2 x hx
  exact (key l 0).2

theorem penalty_cost (ml me : Nat) (p : Nat × Nat) (h1 : p.1 ≤ ml) (h2 : p.2 ≤ me) :
    penalty ml me p = cost ml me p.1 p.2 := by
  unfold penalty cost
  have e1 : max 1 me = if me = 0 then 1 else me := by split <;> omega
  have e2 : max 1 ml = if ml = 0 then 1 else ml := by split <;> omega
  rw [e1, e2]
  by_cases hl : ml = 0
  · have : p.1 = 0 := by omega
    by_cases he : me = 0
    · have : p.2 = 0 := by omega
      simp [*]
    · simp [*]
  · by_cases he : me = 0
    · have : p.2 = 0 := by omega
      simp [*]
    · simp [*]

theorem zipWith_maps {α β γ δ : Type} (f : β → γ → δ) (a : α → β) (b : α → γ) (l : List α) :
    List.zipWith f (l.map a) (l.map b) = l.map fun x => f (a x) (b x) := by
  induction l with
  | nil => rfl
  | cons x l ih => simp [ih]

/-- The states in which the candidates are tried: the present one, but for flags set
on documents and the counters, which start at zero. -/
def TrialStart (σ : St) (i : Nat) (τ : St) : Prop :=
  ∃ F u, τ = { σ with statLines := 0, statExceeds := 0, force := none, idx := some i, forced := F, ub := u }

theorem trials_measure (env : Env) (id : Nat) (ms : List Minimizer) (f : St → St) (sn : St)
    (is : List Nat) : ∀ σ : St, (∃ F u, σ = { sn with forced := F, ub := u }) →
      (trials env id ms f sn σ is).2.length = is.length ∧
      ∀ (k i : Nat) (p : Nat × Nat), is[k]? = some i → (trials env id ms f sn σ is).2[k]? = some p →
        ∃ τ, TrialStart sn i τ ∧ p.1 = (minimize1 env id ms f τ i).statLines ∧
          p.2 = (minimize1 env id ms f τ i).statExceeds := by
  induction is with
  | nil => intro σ _; simp [trials]
  | cons i is ih =>
    intro σ ⟨F, u, hσ⟩
    have h := ih (trial env id ms f sn σ i).1 ⟨_, _, rfl⟩
    refine ⟨by simp [trials, h.1], ?_⟩
    intro k j p hk hp
    cases k with
    | zero =>
      simp only [List.getElem?_cons_zero, Option.some.injEq] at hk
      subst hk
      simp only [trials, List.getElem?_cons_zero, Option.some.injEq] at hp
      subst hp
      refine ⟨{ σ with statLines := 0, statExceeds := 0, force := none, idx := some i }, ⟨F, u, ?_⟩, rfl, rfl⟩
      rw [hσ]
    | succ k =>
      simp only [List.getElem?_cons_succ] at hk
      simp only [trials, List.getElem?_cons_succ] at hp
      exact h.2 k j p hk hp

/-- C24: a choice between indentations made from a state without a chosen candidate.
Every candidate is tried from the present state (`TrialStart`); after that the state
is the present one again but for flags set on documents (`F`). The candidate used is
the first forced one or, without one, the first with the least cost, where the cost
counts the lines and the columns over the limit measured in the trial. It is
then laid out, with the choice recorded while doing so. -/
theorem minimize_chooses (env : Env) (id : Nat) (ms : List Minimizer) (d : Doc) (σ : St)
    (hi : σ.idx = none) (hms : ms ≠ []) :
    ∃ (F : List (Nat × Nat)) (u : Bool) (best : Nat) (lines exceeds : List Nat),
      exec env (.minimize id ms d) σ =
        { minimize1 env id ms (exec env d) { σ with forced := F, ub := u, idx := some best } best with
          idx := none } ∧
      lines.length = ms.length ∧ exceeds.length = ms.length ∧
      (∀ (i n : Nat), lines[i]? = some n → ∃ τ, TrialStart σ i τ ∧
        n = (minimize1 env id ms (exec env d) τ i).statLines ∧
        exceeds[i]? = some (minimize1 env id ms (exec env d) τ i).statExceeds) ∧
      Chosen (List.zipWith (cost (maximum lines) (maximum exceeds)) lines exceeds)
        ((List.range ms.length).map fun i =>
          (ms[i]?.map (·.force)).getD false || decide ((id, i) ∈ F)) best := by
  obtain ⟨F, u, hc⟩ := choose_restore env id ms (exec env d) σ
  have hm := trials_measure env id ms (exec env d) σ (List.range ms.length) σ ⟨σ.forced, σ.ub, rfl⟩
  let r := trials env id ms (exec env d) σ σ (List.range ms.length)
  have hr1 : r.1 = { σ with forced := F, ub := u } := hc
  have hlen : r.2.length = ms.length := by rw [hm.1, List.length_range]
  have hpen : r.2.map (penalty (maximum (r.2.map (·.1))) (maximum (r.2.map (·.2)))) =
      List.zipWith (cost (maximum (r.2.map (·.1))) (maximum (r.2.map (·.2))))
        (r.2.map (·.1)) (r.2.map (·.2)) := by
    rw [zipWith_maps]
    apply List.map_congr_left
    intro p hp
    exact penalty_cost _ _ p (le_maximum _ _ (List.mem_map_of_mem hp))
      (le_maximum _ _ (List.mem_map_of_mem hp))
  have hb := bestLoop_chosen
    (r.2.map (penalty (maximum (r.2.map (·.1))) (maximum (r.2.map (·.2)))))
    ((List.range ms.length).map (isForced id ms r.1)) (by simp [hlen])
  have hch : (choose env id ms (exec env d) σ).2 =
      bestLoop ((r.2.map (penalty (maximum (r.2.map (·.1))) (maximum (r.2.map (·.2))))).zip
        ((List.range ms.length).map (isForced id ms r.1))) 0 none := rfl
  rw [← hch] at hb
  cases hbest : (choose env id ms (exec env d) σ).2 with
  | none =>
    rw [hbest] at hb
    exfalso
    have hb : r.2.map (penalty (maximum (r.2.map (·.1))) (maximum (r.2.map (·.2)))) = [] := hb
    rw [List.map_eq_nil_iff] at hb
    rw [hb] at hlen
    exact hms (List.length_eq_zero_iff.mp hlen.symm)
  | some best =>
    rw [hbest] at hb
    refine ⟨F, u, best, r.2.map (·.1), r.2.map (·.2), ?_, by simp [hlen], by simp [hlen], ?_, ?_⟩
    · have e : choose env id ms (exec env d) σ = ({ σ with forced := F, ub := u }, some best) := by
        rw [← hc, ← hbest]
      simp only [exec, execMinimize, hi, e]
    · intro i n hn
      rw [List.getElem?_map] at hn
      cases hp : r.2[i]? with
      | none => rw [hp] at hn; simp at hn
      | some p =>
        rw [hp] at hn
        have hn : p.1 = n := by simpa using hn
        have hil : i < ms.length := by
          rw [← hlen]; exact (List.getElem?_eq_some_iff.mp hp).1
        obtain ⟨τ, h1, h2, h3⟩ := hm.2 i i p (by rw [List.getElem?_range hil]) hp
        exact ⟨τ, h1, by rw [← hn, h2], by rw [List.getElem?_map, hp, ← h3]; rfl⟩
    · rw [← hpen]
      have e : (List.range ms.length).map (isForced id ms r.1) =
          (List.range ms.length).map fun i =>
            (ms[i]?.map (·.force)).getD false || decide ((id, i) ∈ F) := by
        apply List.map_congr_left
        intro i _
        rw [hr1]; rfl
      rw [← e]
      exact hb

/-! No failure. -/

/-- The printer has not failed, and the candidate recorded is one of `n`. -/
def Ok (n : Nat) (σ : St) : Prop := σ.ub = false ∧ ∀ i, σ.idx = some i → i < n

theorem newLine_idx (env : Env) (f : PF) (m : Bool) (σ : St) :
    (newLine env f m σ).idx = σ.idx ∨ (newLine env f m σ).idx = none := by
  show (if σ.force ≠ none then none else σ.idx) = _ ∨ (if σ.force ≠ none then none else σ.idx) = _
  split <;> simp

theorem printIndent_idx (env : Env) (σ : St) (n : Nat) : (printIndent env σ n).idx = σ.idx := by
  obtain ⟨w, c, p, e, _⟩ := printIndent_spec env σ n
  rw [e]

theorem emitLine_idx (env : Env) (f : PF) (m : Bool) (σ : St) :
    (emitLine env f m σ).idx = σ.idx ∨ (emitLine env f m σ).idx = none := by
  unfold emitLine
  split
  · exact Or.inl rfl
  · split
    · rw [printIndent_idx]; exact newLine_idx env f m σ
    · exact newLine_idx env f m σ

/-- Printing keeps the recorded candidate or drops it. -/
theorem print_idx (env : Env) (σ : St) (s : List Char) (f : PF) :
    (print env σ s f).1.idx = σ.idx ∨ (print env σ s f).1.idx = none := by
  unfold print
  dsimp only
  split
  · split
    · exact Or.inl rfl
    · split
      · exact emitLine_idx _ _ _ _
      · exact emitLine_idx _ _ _ _
  · split
    · exact emitLine_idx _ _ _ _
    · exact Or.inl rfl

theorem Ok.of {n : Nat} {σ τ : St} (h : Ok n σ) (hu : τ.ub = σ.ub)
    (hi : τ.idx = σ.idx ∨ τ.idx = none) : Ok n τ := by
  refine ⟨by rw [hu]; exact h.1, ?_⟩
  intro i e
  rcases hi with hi | hi
  · exact h.2 i (by rw [← hi]; exact e)
  · rw [hi] at e; simp at e

theorem print_ok {n : Nat} (env : Env) {σ : St} (h : Ok n σ) (s : List Char) (f : PF) :
    Ok n (print env σ s f).1 := h.of (print_frame _ _ _ _).ub (print_idx _ _ _ _)

theorem indentEnter_ok {n : Nat} (env : Env) {σ : St} (h : Ok n σ) (v : Int) :
    Ok n (indentEnter env v σ) := by
  unfold indentEnter
  split
  · exact h
  · split
    · exact h.of (printIndent_frame _ _ _).ub (Or.inl (printIndent_idx _ _ _))
    · split
      · exact h
      · split <;> exact h

theorem execIndent_ok {n : Nat} (env : Env) {f : St → St} (hf : ∀ σ, Ok n σ → Ok n (f σ)) (v : Int)
    {σ : St} (h : Ok n σ) : Ok n (execIndent env v f σ) := by
  have := hf _ (indentEnter_ok env h v)
  unfold execIndent
  split
  · exact this
  · split <;> exact this

theorem minimize1_ok {n : Nat} (env : Env) (id : Nat) {ms : List Minimizer} (hn : ms.length = n)
    {f : St → St} (hf : ∀ σ, Ok n σ → Ok n (f σ)) {σ : St} (h : Ok n σ) {i : Nat} (hi : i < n) :
    Ok n (minimize1 env id ms f σ i) := by
  unfold minimize1
  split
  · next e => rw [List.getElem?_eq_none_iff] at e; omega
  · next m _ =>
    exact execIndent_ok env hf m.indent
      (σ := { σ with force := if m.force ∨ (id, i) ∈ σ.forced then some i else σ.force }) h

theorem trials_ok {n : Nat} (env : Env) (id : Nat) {ms : List Minimizer} (hn : ms.length = n)
    {f : St → St} (hf : ∀ σ, Ok n σ → Ok n (f σ)) {sn : St} (hs : Ok n sn) (is : List Nat) :
    ∀ σ, Ok n σ → (∀ i ∈ is, i < n) → Ok n (trials env id ms f sn σ is).1 := by
  induction is with
  | nil => intro σ h _; exact h
  | cons i is ih =>
    intro σ h hi
    refine ih _ ?_ fun j hj => hi j (List.mem_cons_of_mem _ hj)
    have hi' := hi i (List.mem_cons_self ..)
    have := minimize1_ok env id hn hf
      (σ := { σ with statLines := 0, statExceeds := 0, force := none, idx := some i })
      ⟨h.1, fun j e => by simp at e; omega⟩ hi'
    exact ⟨this.1, hs.2⟩

theorem execVerbatim_idx {env : Env} (hd : env.diff = none) (s : List Char) (tk : Tok) (σ : St) :
    (execVerbatim env s tk σ).idx = σ.idx ∨ (execVerbatim env s tk σ).idx = none := by
  rw [execVerbatim_none hd]
  split
  · exact Or.inl rfl
  · dsimp only
    split
    · rw [printIndent_idx]; exact print_idx env _ s {}
    · exact print_idx env _ s {}

theorem execMute_idx {env : Env} (hd : env.diff = none) (n : Int) (b : Bool) (σ : St) :
    (execMute env n b σ).idx = σ.idx := by
  obtain ⟨df, h⟩ := execMute_none hd n b σ
  rw [h]
  by_cases h0 : (if n > 0 ∨ σ.mute ≥ -n then σ.mute + n else σ.mute) = 0
  · rw [if_pos h0]
  · rw [if_neg h0]

theorem exec_ok {env : Env} (hd : env.diff = none) {n : Nat} (hn : 0 < n) (d : Doc)
    (hu : Uniform n d) : ∀ σ, Ok n σ → Ok n (exec env d σ) := by
  induction d with
  | nil => exact fun σ h => h
  | seq d ds ih1 ih2 => exact fun σ h => ih2 hu.2 _ (ih1 hu.1 _ h)
  | group d ih =>
    intro σ h
    rw [exec_group_none hd]
    split
    · exact ih hu σ h
    · next hc =>
      refine ih hu (groupSt env σ d) ?_
      rw [groupSt, if_neg hc]; exact h
  | indent v d ih => exact fun σ h => execIndent_ok env (ih hu) v h
  | noindent d ih =>
    intro σ h
    exact ih hu { trimSpaces σ with cur := 0, pre := 0 } h
  | align a =>
    intro σ h
    obtain ⟨w, c, e, _⟩ := execAlign_spec a σ
    rw [exec, e]; exact h
  | literal s tk => intro σ h; rw [exec_literal_none hd]; exact print_ok env h _ _
  | verbatim s tk =>
    intro σ h
    exact h.of (execVerbatim_text hd s tk σ).2.2 (execVerbatim_idx hd s tk σ)
  | line =>
    intro σ h
    rw [exec]
    split
    · exact print_ok env h _ _
    · exact print_ok env h _ _
  | softline _ =>
    intro σ h
    rw [exec]
    split
    · exact print_ok env h _ _
    · exact h
  | hardline => intro σ h; exact print_ok env h _ _
  | optline => exact fun σ h => h
  | mute k => intro σ h; exact h.of (execMute_text hd k true σ).2.2 (Or.inl (execMute_idx hd k true σ))
  | unmute k => intro σ h; exact h.of (execMute_text hd k false σ).2.2 (Or.inl (execMute_idx hd k false σ))
  | optional d ih => intro σ h; exact ih hu { σ with optline := σ.optline + 1 } h
  | minimize id ms d ih =>
    intro σ h
    cases hi : σ.idx with
    | some i =>
      simp only [exec, execMinimize, hi]
      exact minimize1_ok env id hu.1 (ih hu.2) h (h.2 i hi)
    | none =>
      have hms : ms ≠ [] := by
        have := hu.1
        intro e; rw [e] at this; simp at this; omega
      simp only [exec, execMinimize, hi]
      obtain ⟨F, u, hc⟩ := choose_restore env id ms (exec env d) σ
      have hok : Ok n (choose env id ms (exec env d) σ).1 :=
        trials_ok env id hu.1 (ih hu.2) h (List.range ms.length) σ h
          (fun i hi => by rw [← hu.1]; exact List.mem_range.mp hi)
      split
      · next τ e =>
        exfalso
        have hb := bestLoop_chosen
          ((trials env id ms (exec env d) σ σ (List.range ms.length)).2.map
            (penalty (maximum ((trials env id ms (exec env d) σ σ (List.range ms.length)).2.map (·.1)))
              (maximum ((trials env id ms (exec env d) σ σ (List.range ms.length)).2.map (·.2)))))
          ((List.range ms.length).map (isForced id ms
            (trials env id ms (exec env d) σ σ (List.range ms.length)).1))
          (by simp [(trials_measure env id ms (exec env d) σ (List.range ms.length) σ
                ⟨σ.forced, σ.ub, rfl⟩).1])
        have e2 : (choose env id ms (exec env d) σ).2 = none := by rw [e]
        unfold choose at e2
        dsimp only at e2
        rw [e2] at hb
        have hb := List.map_eq_nil_iff.mp hb
        have hl := (trials_measure env id ms (exec env d) σ (List.range ms.length) σ
          ⟨σ.forced, σ.ub, rfl⟩).1
        rw [hb, List.length_range] at hl
        exact hms (List.length_eq_zero_iff.mp hl.symm)
      · next τ best e =>
        have hb := bestLoop_chosen
          ((trials env id ms (exec env d) σ σ (List.range ms.length)).2.map
            (penalty (maximum ((trials env id ms (exec env d) σ σ (List.range ms.length)).2.map (·.1)))
              (maximum ((trials env id ms (exec env d) σ σ (List.range ms.length)).2.map (·.2)))))
          ((List.range ms.length).map (isForced id ms
            (trials env id ms (exec env d) σ σ (List.range ms.length)).1))
          (by simp [(trials_measure env id ms (exec env d) σ (List.range ms.length) σ
                ⟨σ.forced, σ.ub, rfl⟩).1])
        have e2 : (choose env id ms (exec env d) σ).2 = some best := by rw [e]
        unfold choose at e2
        dsimp only at e2
        rw [e2] at hb
        have hbl : best < n := by
          have := hb.1
          rw [List.length_map, (trials_measure env id ms (exec env d) σ (List.range ms.length) σ
            ⟨σ.forced, σ.ub, rfl⟩).1, List.length_range] at this
          rw [← hu.1]; exact this
        have hτ : τ = (choose env id ms (exec env d) σ).1 := by rw [e]
        rw [← hτ] at hok
        have := minimize1_ok env id hu.1 (ih hu.2) (σ := { τ with idx := some best })
          ⟨hok.1, fun j e => by simp at e; omega⟩ hbl
        exact ⟨this.1, fun j e => by simp at e⟩
  | scope d ih => intro σ h; exact ih hu { σ with statLines := 0 } h
  | maxlines k d ih => intro σ h; exact ih hu { σ with maxlines := k } h

/-- Documents in which all choices have the same number of candidates, as those
knfmt builds have, are printed without failure: no candidate is looked up out of
bounds and no assertion fails. -/
theorem doc_exec_ok (env : Env) (hd : env.diff = none) (trim : Bool) (pre : List Char) (d : Doc)
    (n : Nat) (hn : 0 < n) (hu : Uniform n d) : (docExec env trim pre d).ub = false := by
  have := exec_ok hd hn d hu { buf := pre.reverse } ⟨rfl, by simp⟩
  simp only [docExec, diffExit, hd]
  exact this.1

/-- C20 for the documents knfmt builds. -/
theorem doc_exec_text_uniform (env : Env) (hd : env.diff = none) (trim : Bool) (pre : List Char)
    (d : Doc) (hu : Uniform 2 d) :
    nonblank (docExec env trim pre d).buf.reverse = nonblank pre ++ nonblank (text d 0).1 :=
  doc_exec_text env hd trim pre d (doc_exec_ok env hd trim pre d 2 (by omega) hu)

/-- A document with a nested choice between fewer candidates makes the printer look up
a candidate out of bounds: the index recorded for the outer choice is used for the
inner one. -/
theorem doc_exec_out_of_bounds :
    (docExec { limit := 4 } false [] (.minimize 0 [⟨8, false⟩, ⟨0, false⟩]
      (.seq .hardline (.seq (.minimize 1 [⟨0, false⟩] (.literal "abcde".toList none)) .nil)))).ub = true := by
  decide +kernel

/-- A document with a choice between indenting by eight columns and by four; the text does
not fit if it is indented by eight. -/
def choiceExample : Doc :=
  concat [.literal "f(".toList none, .minimize 0 [⟨8, false⟩, ⟨4, false⟩]
    (.group (concat [.line, .literal "abcdefgh".toList none, .line,
      .literal "ij".toList none])), .literal ");".toList none]

/-- It is uniform, and the second candidate is taken as it exceeds the limit less. -/
example : Uniform 2 choiceExample ∧
    (docExec { limit := 13, useTabs := false } false [] choiceExample).buf.reverse =
      "f(\n    abcdefgh\n    ij);".toList ∧
    (docExec { limit := 20, useTabs := false } false [] choiceExample).buf.reverse =
      "f( abcdefgh ij);".toList :=
  ⟨⟨trivial, ⟨rfl, trivial, trivial, trivial, trivial, trivial⟩, trivial, trivial⟩,
    by decide +kernel, by decide +kernel⟩

end Knfmt.Doc
