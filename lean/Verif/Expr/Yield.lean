import Verif.Expr.Model
/-!
# The expression parser loses and reorders nothing

Specification and proof for C18. `yield` reads the tokens of a tree from left to right, the way
`expr_doc` emits them.
-/
namespace Knfmt.Expr
open Knfmt.Lexer (TT)

/-- The tokens of a tree, from left to right. -/
def yield : Ex → List Tok
  | .null => []
  | .lit tk => [tk]
  | .un op e => op :: yield e
  | .pre op e => op :: yield e
  | .post e op => yield e ++ [op]
  | .bin l op r => yield l ++ op :: yield r
  | .tern c q m colon t => yield c ++ q :: (yield m ++ (colon.toList ++ yield t))
  | .parens l e r => l :: (yield e ++ r.toList)
  | .call f l a r => yield f ++ l :: (yield a ++ r.toList)
  | .squares f l i r => yield f ++ l :: (yield i ++ r.toList)
  | .field l op r => yield l ++ op :: yield r
  | .cast l ty r e => l :: (ty ++ (r.toList ++ yield e))
  | .sizeofE tk e => tk :: yield e
  | .sizeofP tk l e r => tk :: l :: (yield e ++ r.toList)
  | .concat e tk => yield e ++ [tk]
  | .recov ts => ts

/-- All the tokens of a state, in order. -/
def PS.all (σ : PS) : List Tok := σ.done.reverse ++ σ.rest

/-- `τ` is reached from `σ` by consuming tokens from the front, `n` of them. -/
def Adv (σ τ : PS) : Prop :=
  ∃ ts, σ.rest = ts ++ τ.rest ∧ τ.done = ts.reverse ++ σ.done ∧ (σ.err = true → τ.err = true)

theorem Adv.refl (σ : PS) : Adv σ σ := ⟨[], by simp⟩

theorem Adv.trans {a b c : PS} (h : Adv a b) (h' : Adv b c) : Adv a c := by
  obtain ⟨ts, h1, h2, h3⟩ := h
  obtain ⟨us, g1, g2, g3⟩ := h'
  exact ⟨ts ++ us, by simp [h1, g1], by simp [h2, g2], fun h => g3 (h3 h)⟩

theorem Adv.len {a b : PS} (h : Adv a b) : b.rest.length ≤ a.rest.length := by
  obtain ⟨ts, h1, _⟩ := h
  simp [h1]

theorem Adv.err {a b : PS} (h : Adv a b) (hb : b.err = false) : a.err = false := by
  obtain ⟨_, _, _, h3⟩ := h
  cases ha : a.err with
  | false => rfl
  | true => simp [h3 ha] at hb

theorem adv_pop {σ : PS} {tk : Tok} {rest : List Tok} (h : σ.rest = tk :: rest) :
    Adv σ { σ with done := tk :: σ.done, rest := rest } :=
  ⟨[tk], by simp [h]⟩

theorem adv_expect (ty : TT) (σ : PS) : Adv σ (expect ty σ).2 := by
  unfold expect
  cases h : σ.rest with
  | nil => exact ⟨[], by simp [h]⟩
  | cons tk rest =>
    by_cases hty : tk.ty = ty
    · simpa [hty] using adv_pop h
    · simp only [if_neg hty]
      exact ⟨[], by simp [h]⟩

theorem adv_apply (r : RecRes) (σ : PS) : Adv σ (applyRec r σ) :=
  ⟨σ.rest.take r.n, by simp [applyRec], by simp [applyRec], by intro h; simp [applyRec, h]⟩

theorem adv_callback (cb : List Tok → List Tok → RecRes) (σ : PS) :
    Adv σ (callback cb σ).2 := adv_apply _ _

/-! ## The parser only consumes tokens from the front -/

/-- `f` only consumes tokens from the front. -/
def FAdv (f : Par) : Prop := ∀ pc σ x, f pc σ = some x → Adv σ x.2

theorem adv_sizeof {f : Par} (hf : FAdv f) {r : Rule} {tk : Tok} {σ : PS} {x : Ex × PS}
    (h : execSizeof f r tk σ = some x) : Adv σ x.2 := by
  unfold execSizeof at h
  split at h
  · next l rest hr =>
    split at h
    · obtain ⟨y, hy, hx⟩ := Option.bind_eq_some_iff.1 h
      cases hx
      exact (adv_pop hr).trans ((hf _ _ y hy).trans (adv_expect _ _))
    · obtain ⟨y, hy, hx⟩ := Option.bind_eq_some_iff.1 h
      cases hx
      exact hf _ _ y hy
  · obtain ⟨y, hy, hx⟩ := Option.bind_eq_some_iff.1 h
    cases hx
    exact hf _ _ y hy

theorem adv_parens {E : Env} {f : Par} (hf : FAdv f) {r : Rule} {tk : Tok} {σ : PS} {x : Ex × PS}
    (h : execParens E f r tk σ = some x) : Adv σ x.2 := by
  unfold execParens at h
  have hc := adv_callback E.recoverCast σ
  split at h
  · next ts σ1 he =>
    rw [he] at hc
    obtain ⟨y, hy, hx⟩ := Option.bind_eq_some_iff.1 h
    cases hx
    exact hc.trans ((adv_expect _ _).trans (hf _ _ y hy))
  · next σ1 he =>
    rw [he] at hc
    obtain ⟨y, hy, hx⟩ := Option.bind_eq_some_iff.1 h
    cases hx
    exact hc.trans ((hf _ _ y hy).trans (adv_expect _ _))

theorem adv_nud {E : Env} {f : Par} (hf : FAdv f) {r : Rule} {tk : Tok} {σ : PS} {x : Ex × PS}
    (h : nud E f r tk σ = some x) : Adv σ x.2 := by
  unfold nud at h
  split at h
  · cases h; exact Adv.refl σ
  · obtain ⟨y, hy, hx⟩ := Option.bind_eq_some_iff.1 h
    cases hx; exact hf _ _ y hy
  · obtain ⟨y, hy, hx⟩ := Option.bind_eq_some_iff.1 h
    cases hx; exact hf _ _ y hy
  · exact adv_sizeof hf h
  · exact adv_parens hf h
  · cases h; exact Adv.refl σ

theorem adv_ternary {f : Par} (hf : FAdv f) {lhs : Ex} {tk : Tok} {σ : PS} {x : Ex × PS}
    (h : execTernary f lhs tk σ = some x) : Adv σ x.2 := by
  unfold execTernary at h
  obtain ⟨y, hy, hx⟩ := Option.bind_eq_some_iff.1 h
  obtain ⟨z, hz, hx⟩ := Option.bind_eq_some_iff.1 hx
  cases hx
  exact (hf _ _ y hy).trans ((adv_expect _ _).trans (hf _ _ z hz))

theorem adv_led {f : Par} (hf : FAdv f) {r : Rule} {lhs : Ex} {tk : Tok} {σ : PS} {x : Ex × PS}
    (h : led f r lhs tk σ = some x) : Adv σ x.2 := by
  unfold led at h
  split at h
  · obtain ⟨y, hy, hx⟩ := Option.bind_eq_some_iff.1 h
    cases hx; exact hf _ _ y hy
  · cases h; exact Adv.refl σ
  · obtain ⟨y, hy, hx⟩ := Option.bind_eq_some_iff.1 h
    cases hx; exact hf _ _ y hy
  · obtain ⟨y, hy, hx⟩ := Option.bind_eq_some_iff.1 h
    cases hx; exact (hf _ _ y hy).trans (adv_expect _ _)
  · cases h; exact Adv.refl σ
  · obtain ⟨y, hy, hx⟩ := Option.bind_eq_some_iff.1 h
    cases hx; exact (hf _ _ y hy).trans (adv_expect _ _)
  · exact adv_ternary hf h
  · cases h; exact Adv.refl σ

theorem adv_popNud {E : Env} {f : Par} (hf : FAdv f) {r : Rule} {σ : PS} {x : Ex × PS}
    (h : popNud E f r σ = some x) : Adv σ x.2 := by
  unfold popNud at h
  split at h
  · cases h; exact Adv.refl σ
  · next tk rest hr => exact (adv_pop hr).trans (adv_nud hf h)

theorem adv_operand {E : Env} {f : Par} (hf : FAdv f) {σ : PS} {x : Ex × PS}
    (h : operand E f σ = some x) : Adv σ x.2 := by
  unfold operand at h
  have hc := adv_callback E.recover σ
  split at h
  · cases h; exact Adv.refl σ
  · split at h
    · split at h
      · next he => rw [he] at hc; cases h; exact hc
      · next he => rw [he] at hc; cases h; exact hc
    · split at h
      · split at h
        · next he => rw [he] at hc; cases h; exact hc
        · next he => rw [he] at hc; exact hc.trans (adv_popNud hf h)
      · exact adv_popNud hf h

theorem peek_some {E : Env} {σ : PS} {tk : Tok} (h : peek E σ = some tk) :
    σ.err = false ∧ ∃ rest, σ.rest = tk :: rest := by
  unfold peek at h
  split at h
  · simp at h
  · next he =>
    refine ⟨by simpa using he, ?_⟩
    split at h
    · simp at h
    · next t rest hr =>
      split at h
      · simp at h
      · cases h; exact ⟨rest, hr⟩

theorem adv_tail {E : Env} {σ : PS} {tk : Tok} (h : peek E σ = some tk) :
    Adv σ { σ with done := tk :: σ.done, rest := σ.rest.tail } := by
  obtain ⟨_, rest, hr⟩ := peek_some h
  have := adv_pop hr
  rw [hr] at *
  exact this

theorem adv_all (E : Env) : ∀ n, (FAdv (exec1 E n)) ∧
    (∀ pc ex σ x, loop E n pc ex σ = some x → Adv σ x.2) := by
  intro n
  induction n with
  | zero => exact ⟨fun _ _ _ h => by simp [exec1] at h, fun _ _ _ _ h => by simp [loop] at h⟩
  | succ n ih =>
    constructor
    · intro pc σ x h
      rw [exec1] at h
      obtain ⟨y, hy, hx⟩ := Option.bind_eq_some_iff.1 h
      have h1 := adv_operand ih.1 hy
      split at hx
      · cases hx; exact h1
      · exact h1.trans (ih.2 _ _ _ _ hx)
    · intro pc ex σ x h
      rw [loop] at h
      split at h
      · cases h; exact Adv.refl σ
      · next tk hp =>
        split at h
        · cases h; exact Adv.refl σ
        · split at h
          · cases h; exact Adv.refl σ
          · obtain ⟨y, hy, hx⟩ := Option.bind_eq_some_iff.1 h
            have h1 := (adv_tail hp).trans (adv_led ih.1 hy)
            split at hx
            · cases hx; exact h1
            · exact h1.trans (ih.2 _ _ _ _ hx)

/-! ## The fuel of `parse` is enough -/

/-- `f` gives a result if at most `m` tokens remain. -/
def FTot (f : Par) (m : Nat) : Prop := ∀ pc σ, σ.rest.length ≤ m → ∃ x, f pc σ = some x

theorem tot_nud {E : Env} {f : Par} {m : Nat} (ht : FTot f m) (r : Rule) (tk : Tok)
    (σ : PS) (hm : σ.rest.length ≤ m) : ∃ x, nud E f r tk σ = some x := by
  unfold nud
  split
  · exact ⟨_, rfl⟩
  · obtain ⟨x, hx⟩ := ht r.pc σ hm
    exact ⟨_, by rw [hx]; rfl⟩
  · obtain ⟨x, hx⟩ := ht r.pc σ hm
    exact ⟨_, by rw [hx]; rfl⟩
  · unfold execSizeof
    split
    · next l rest hr =>
      split
      · obtain ⟨x, hx⟩ := ht 0 { σ with done := l :: σ.done, rest := rest }
          (by simp [hr] at hm; dsimp only; omega)
        exact ⟨_, by rw [hx]; rfl⟩
      · obtain ⟨x, hx⟩ := ht r.pc σ hm
        exact ⟨_, by rw [hx]; rfl⟩
    · obtain ⟨x, hx⟩ := ht r.pc σ hm
      exact ⟨_, by rw [hx]; rfl⟩
  · unfold execParens
    have hc := (adv_callback E.recoverCast σ).len
    split
    · next ts σ1 he =>
      rw [he] at hc
      obtain ⟨x, hx⟩ := ht r.pc (expect .rparen σ1).2
        (Nat.le_trans (adv_expect _ _).len (Nat.le_trans hc hm))
      exact ⟨_, by dsimp only; rw [hx]; rfl⟩
    · next σ1 he =>
      rw [he] at hc
      obtain ⟨x, hx⟩ := ht 0 σ1 (Nat.le_trans hc hm)
      exact ⟨_, by rw [hx]; rfl⟩
  · exact ⟨_, rfl⟩

theorem tot_led {f : Par} {m : Nat} (ht : FTot f m) (ha : FAdv f) (r : Rule) (lhs : Ex) (tk : Tok)
    (σ : PS) (hm : σ.rest.length ≤ m) : ∃ x, led f r lhs tk σ = some x := by
  unfold led
  split
  · obtain ⟨x, hx⟩ := ht (if r.rassoc then r.pc - 1 else r.pc) σ hm
    exact ⟨_, by rw [hx]; rfl⟩
  · exact ⟨_, rfl⟩
  · obtain ⟨x, hx⟩ := ht r.pc σ hm
    exact ⟨_, by rw [hx]; rfl⟩
  · obtain ⟨x, hx⟩ := ht 0 σ hm
    exact ⟨_, by rw [hx]; rfl⟩
  · exact ⟨_, rfl⟩
  · obtain ⟨x, hx⟩ := ht 0 σ hm
    exact ⟨_, by rw [hx]; rfl⟩
  · unfold execTernary
    obtain ⟨x, hx⟩ := ht 0 σ hm
    obtain ⟨z, hz⟩ := ht 1 (expect .colon x.2).2
      (Nat.le_trans (adv_expect _ _).len (Nat.le_trans (ha _ _ _ hx).len hm))
    exact ⟨_, by rw [hx]; dsimp only [Option.bind_some]; rw [hz]; rfl⟩
  · exact ⟨_, rfl⟩

theorem tot_popNud {E : Env} {f : Par} {m : Nat} (ht : FTot f m) (r : Rule)
    (σ : PS) (hm : σ.rest.length ≤ m + 1) : ∃ x, popNud E f r σ = some x := by
  unfold popNud
  split
  · exact ⟨_, rfl⟩
  · next tk rest hr => exact tot_nud ht _ _ _ (by simp [hr] at hm; simpa using hm)

theorem tot_operand {E : Env} {f : Par} {m : Nat} (ht : FTot f m)
    (σ : PS) (hm : σ.rest.length ≤ m + 1) : ∃ x, operand E f σ = some x := by
  unfold operand
  have hc := (adv_callback E.recover σ).len
  split
  · exact ⟨_, rfl⟩
  · split
    · split <;> exact ⟨_, rfl⟩
    · split
      · split
        · exact ⟨_, rfl⟩
        · next he => rw [he] at hc; exact tot_popNud ht _ _ (Nat.le_trans hc hm)
      · exact tot_popNud ht _ _ hm

theorem tot_operand_nil {E : Env} {f : Par} (σ : PS) (hm : σ.rest = []) :
    operand E f σ = some (.null, σ) := by
  unfold operand peek
  split <;> simp_all

theorem tot_all (E : Env) : ∀ m n, (2 * m + 2 ≤ n → FTot (exec1 E n) m) ∧
    (2 * m + 1 ≤ n → ∀ pc ex σ, σ.rest.length ≤ m → ∃ x, loop E n pc ex σ = some x) := by
  have key : ∀ n, ∀ m, (2 * m + 2 ≤ n → FTot (exec1 E n) m) ∧
    (2 * m + 1 ≤ n → ∀ pc ex σ, σ.rest.length ≤ m → ∃ x, loop E n pc ex σ = some x) := by
    intro n
    induction n with
    | zero => intro m; exact ⟨fun h => by omega, fun h => by omega⟩
    | succ n ih =>
      intro m
      have ha := (adv_all E n).1
      constructor
      · intro hn pc σ hm
        rw [exec1]
        have hop : ∃ x, operand E (exec1 E n) σ = some x := by
          cases m with
          | zero => exact ⟨_, tot_operand_nil σ (List.eq_nil_of_length_eq_zero (by omega))⟩
          | succ m => exact tot_operand ((ih m).1 (by omega)) σ hm
        obtain ⟨x, hx⟩ := hop
        rw [hx, Option.bind_some]
        split
        · exact ⟨_, rfl⟩
        · exact (ih m).2 (by omega) _ _ _ (Nat.le_trans (adv_operand ha hx).len hm)
      · intro hn pc ex σ hm
        rw [loop]
        split
        · exact ⟨_, rfl⟩
        · next tk hp =>
          split
          · exact ⟨_, rfl⟩
          · next r _ =>
            split
            · exact ⟨_, rfl⟩
            · obtain ⟨_, rest, hr⟩ := peek_some hp
              cases m with
              | zero => simp [hr] at hm
              | succ m =>
                have hl : σ.rest.tail.length ≤ m := by simp [hr] at hm ⊢; omega
                obtain ⟨x, hx⟩ := tot_led ((ih m).1 (by omega)) ha r ex tk
                  { σ with done := tk :: σ.done, rest := σ.rest.tail } hl
                rw [hx, Option.bind_some]
                split
                · exact ⟨_, rfl⟩
                · exact (ih m).2 (by omega) _ _ _
                    (Nat.le_trans (adv_led ha hx).len hl)
  intro m n
  exact key n m

/-- The parser terminates on every input, whatever the callbacks do. -/
theorem parse_total (E : Env) (σ : PS) : ∃ x, parse E σ = some x :=
  (tot_all E σ.rest.length _).1 (Nat.le_refl _) 0 σ (Nat.le_refl _)

/-! ## Nothing is invented, duplicated or reordered -/

/-- From `σ` to `τ` some tokens were consumed, and `ys` are among them, in the same order. -/
def Sub (σ τ : PS) (ys : List Tok) : Prop :=
  ∃ ts, σ.rest = ts ++ τ.rest ∧ τ.done = ts.reverse ++ σ.done ∧ List.Sublist ys ts

theorem Sub.weaken {σ τ : PS} {ys zs : List Tok} (h : Sub σ τ ys) (hs : List.Sublist zs ys) :
    Sub σ τ zs := by
  obtain ⟨ts, h1, h2, h3⟩ := h
  exact ⟨ts, h1, h2, hs.trans h3⟩

theorem Sub.trans {a b c : PS} {ys zs : List Tok} (h : Sub a b ys) (h' : Sub b c zs) :
    Sub a c (ys ++ zs) := by
  obtain ⟨ts, h1, h2, h3⟩ := h
  obtain ⟨us, g1, g2, g3⟩ := h'
  exact ⟨ts ++ us, by simp [h1, g1], by simp [h2, g2], h3.append g3⟩

theorem Sub.refl (σ : PS) : Sub σ σ [] := ⟨[], by simp, by simp, List.Sublist.refl _⟩

theorem sub_pop {σ : PS} {tk : Tok} {rest : List Tok} (h : σ.rest = tk :: rest) :
    Sub σ { σ with done := tk :: σ.done, rest := rest } [tk] :=
  ⟨[tk], by simp [h], by simp, List.Sublist.refl _⟩

theorem sub_expect (ty : TT) (σ : PS) : Sub σ (expect ty σ).2 (expect ty σ).1.toList := by
  unfold expect
  cases h : σ.rest with
  | nil => exact ⟨[], by simp [h], by simp, by simp⟩
  | cons tk rest =>
    by_cases hty : tk.ty = ty
    · simpa [hty] using sub_pop h
    · simp only [if_neg hty]
      exact ⟨[], by simp [h], by simp, by simp⟩

theorem sub_callback (cb : List Tok → List Tok → RecRes) (σ : PS) :
    Sub σ (callback cb σ).2 ((callback cb σ).1.getD []) := by
  refine ⟨σ.rest.take (cb σ.done σ.rest).n, by simp [callback, applyRec],
    by simp [callback, applyRec], ?_⟩
  unfold callback
  dsimp only
  split <;> simp

/-- `f` yields tokens it consumed. -/
def FSub (f : Par) : Prop := ∀ pc σ x, f pc σ = some x → Sub σ x.2 (yield x.1)

theorem sub_nud {E : Env} {f : Par} (hf : FSub f) {r : Rule} {tk : Tok} {σ σ0 : PS} {x : Ex × PS}
    (h0 : Sub σ0 σ [tk]) (h : nud E f r tk σ = some x) : Sub σ0 x.2 (yield x.1) := by
  unfold nud at h
  split at h
  · cases h; exact h0
  · obtain ⟨y, hy, hx⟩ := Option.bind_eq_some_iff.1 h
    cases hx; exact h0.trans (hf _ _ y hy)
  · obtain ⟨y, hy, hx⟩ := Option.bind_eq_some_iff.1 h
    cases hx; exact h0.trans (hf _ _ y hy)
  · unfold execSizeof at h
    split at h
    · next l rest hr =>
      split at h
      · obtain ⟨y, hy, hx⟩ := Option.bind_eq_some_iff.1 h
        cases hx
        exact h0.trans ((sub_pop hr).trans ((hf _ _ y hy).trans (sub_expect _ _)))
      · obtain ⟨y, hy, hx⟩ := Option.bind_eq_some_iff.1 h
        cases hx; exact h0.trans (hf _ _ y hy)
    · obtain ⟨y, hy, hx⟩ := Option.bind_eq_some_iff.1 h
      cases hx; exact h0.trans (hf _ _ y hy)
  · unfold execParens at h
    have hc := sub_callback E.recoverCast σ
    split at h
    · next ts σ1 he =>
      rw [he] at hc
      obtain ⟨y, hy, hx⟩ := Option.bind_eq_some_iff.1 h
      cases hx
      exact h0.trans (hc.trans ((sub_expect _ _).trans (hf _ _ y hy)))
    · next σ1 he =>
      rw [he] at hc
      obtain ⟨y, hy, hx⟩ := Option.bind_eq_some_iff.1 h
      cases hx
      exact h0.trans (hc.trans ((hf _ _ y hy).trans (sub_expect _ _)))
  · cases h; exact h0.weaken (by simp [yield])

theorem sub_led {f : Par} (hf : FSub f) {r : Rule} {lhs : Ex} {tk : Tok} {σ σ0 : PS} {x : Ex × PS}
    (h0 : Sub σ0 σ (yield lhs ++ [tk])) (h : led f r lhs tk σ = some x) :
    Sub σ0 x.2 (yield x.1) := by
  unfold led at h
  split at h
  · obtain ⟨y, hy, hx⟩ := Option.bind_eq_some_iff.1 h
    cases hx; simpa [yield] using h0.trans (hf _ _ y hy)
  · cases h; exact h0
  · obtain ⟨y, hy, hx⟩ := Option.bind_eq_some_iff.1 h
    cases hx; simpa [yield] using h0.trans (hf _ _ y hy)
  · obtain ⟨y, hy, hx⟩ := Option.bind_eq_some_iff.1 h
    cases hx; simpa [yield] using h0.trans ((hf _ _ y hy).trans (sub_expect _ _))
  · cases h; exact h0
  · obtain ⟨y, hy, hx⟩ := Option.bind_eq_some_iff.1 h
    cases hx; simpa [yield] using h0.trans ((hf _ _ y hy).trans (sub_expect _ _))
  · unfold execTernary at h
    obtain ⟨y, hy, hx⟩ := Option.bind_eq_some_iff.1 h
    obtain ⟨z, hz, hx⟩ := Option.bind_eq_some_iff.1 hx
    cases hx
    have := h0.trans ((hf _ _ y hy).trans ((sub_expect .colon y.2).trans (hf _ _ z hz)))
    split
    · exact this.weaken (by simp [yield])
    · simpa [yield] using this
  · cases h; exact h0.weaken (by simp [yield])

theorem sub_popNud {E : Env} {f : Par} (hf : FSub f) {r : Rule} {σ : PS} {x : Ex × PS}
    (h : popNud E f r σ = some x) : Sub σ x.2 (yield x.1) := by
  unfold popNud at h
  split at h
  · cases h; exact Sub.refl σ
  · next tk rest hr => exact sub_nud hf (sub_pop hr) h

theorem sub_operand {E : Env} {f : Par} (hf : FSub f) {σ : PS} {x : Ex × PS}
    (h : operand E f σ = some x) : Sub σ x.2 (yield x.1) := by
  unfold operand at h
  have hc := sub_callback E.recover σ
  split at h
  · cases h; exact Sub.refl σ
  · split at h
    · split at h
      · next he => rw [he] at hc; cases h; exact hc
      · next he => rw [he] at hc; cases h; exact hc
    · split at h
      · split at h
        · next he => rw [he] at hc; cases h; exact hc
        · next he => rw [he] at hc; simpa using hc.trans (sub_popNud hf h)
      · exact sub_popNud hf h

theorem sub_all (E : Env) : ∀ n, FSub (exec1 E n) ∧
    (∀ pc ex σ σ0 x, Sub σ0 σ (yield ex) → loop E n pc ex σ = some x →
      Sub σ0 x.2 (yield x.1)) := by
  intro n
  induction n with
  | zero => exact ⟨fun _ _ _ h => by simp [exec1] at h, fun _ _ _ _ _ _ h => by simp [loop] at h⟩
  | succ n ih =>
    constructor
    · intro pc σ x h
      rw [exec1] at h
      obtain ⟨y, hy, hx⟩ := Option.bind_eq_some_iff.1 h
      have h1 := sub_operand ih.1 hy
      split at hx
      · cases hx; exact h1.weaken (by simp [yield])
      · exact ih.2 _ _ _ _ _ h1 hx
    · intro pc ex σ σ0 x h0 h
      rw [loop] at h
      split at h
      · cases h; exact h0
      · next tk hp =>
        split at h
        · cases h; exact h0
        · split at h
          · cases h; exact h0
          · obtain ⟨y, hy, hx⟩ := Option.bind_eq_some_iff.1 h
            obtain ⟨_, rest, hr⟩ := peek_some hp
            have hpop := sub_pop hr
            have htl : σ.rest.tail = rest := by rw [hr]; rfl
            rw [htl] at hy
            have h1 := sub_led ih.1 (h0.trans hpop) hy
            split at hx
            · cases hx; exact h1.weaken (by simp [yield])
            · exact ih.2 _ _ _ _ _ h1 hx

/-- **Nothing is invented, duplicated or reordered**, whatever the input and the callbacks, and even
if there is an error: the tokens of the tree are, in order, among the tokens consumed. -/
theorem yield_sublist {E : Env} {σ τ : PS} {e : Ex} (h : parse E σ = some (e, τ)) :
    ∃ ts, σ.rest = ts ++ τ.rest ∧ τ.done = ts.reverse ++ σ.done ∧ List.Sublist (yield e) ts :=
  (sub_all E _).1 _ _ _ h

end Knfmt.Expr
