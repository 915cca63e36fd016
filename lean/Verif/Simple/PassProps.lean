import Verif.Simple.Pass
/-!
# Simplification passes nest safely
-/
namespace Knfmt.Simple

theorem mem_passes (p : Pass) : p ∈ passes := by cases p <;> decide

/-- All uses of a pass agree on whether it is forced. -/
def Consistent (force : Pass → Bool) : Prog → Prop
  | .done => True
  | .pass p f _ body next => f.force = force p ∧ Consistent force body ∧ Consistent force next
  | .off body next => Consistent force body ∧ Consistent force next

/-! ## Leaving restores the state -/

/-- Two states that cannot be told apart: every pass is in the same state and is enabled
in one if it is in the other, now and between `simple_disable` and `simple_enable`. -/
def Same (a b : St) : Prop :=
  a.state = b.state ∧ a.enable = b.enable ∧
  ∀ p, enabled a p = enabled b p ∧ enabled (disable a).1 p = enabled (disable b).1 p

/-- What holds in every state: the flags of an enabled pass are the ones it is used with. -/
def Sane (force : Pass → Bool) (si : St) : Prop :=
  ∀ p, si.state p = .enable → (si.flags p).force = force p

theorem enter_state {force : Pass → Bool} (si : St) (p : Pass) (f : Flags) (hf : f.force = force p) :
    (enter si p f).2.1 = some (p, si.state p) ∧ (enter si p f).1.enable = si.enable ∧
    (∀ q, q ≠ p → (enter si p f).1.state q = si.state q) ∧
    (∀ q, (enter si p f).1.flags q = si.flags q ∨ ((enter si p f).1.flags q).force = force q) ∧
    ((enter si p f).1.state p = .enable → ((enter si p f).1.flags p).force = force p) := by
  unfold enter
  dsimp only
  split
  · exact ⟨rfl, rfl, fun q hq => by simp [St.set, hq], fun q => Or.inl rfl, by simp [St.set]⟩
  · split
    · exact ⟨rfl, rfl, fun q hq => by simp [St.set, hq], fun q => Or.inl rfl, by simp [St.set]⟩
    · split
      · exact ⟨rfl, rfl, fun q hq => by simp [St.set, hq], fun q => Or.inl rfl, by simp [St.set]⟩
      · refine ⟨rfl, rfl, fun q hq => by simp [St.set, hq], fun q => ?_, by simp [St.set, hf]⟩
        by_cases hq : q = p
        · right; simp [hq, hf]
        · left; simp [hq]

theorem Sane.enter {force : Pass → Bool} {si : St} (h : Sane force si) (p : Pass) (f : Flags)
    (hf : f.force = force p) : Sane force (enter si p f).1 := by
  obtain ⟨_, _, h3, h4, h5⟩ := enter_state si p f hf
  intro q hq
  by_cases e : q = p
  · subst e; exact h5 hq
  · rcases h4 q with h4 | h4
    · rw [h4]; rw [h3 q e] at hq; exact h q hq
    · exact h4

/-- What a program preserves. -/
def Kept (force : Pass → Bool) (a b : St) : Prop :=
  a.state = b.state ∧ a.enable = b.enable ∧ ∀ p, b.flags p = a.flags p ∨ (b.flags p).force = force p

theorem Kept.trans {force : Pass → Bool} {a b c : St} (h1 : Kept force a b) (h2 : Kept force b c) :
    Kept force a c := by
  refine ⟨h1.1.trans h2.1, h1.2.1.trans h2.2.1, fun p => ?_⟩
  rcases h2.2.2 p with e2 | e2
  · rcases h1.2.2 p with e1 | e1
    · exact Or.inl (e2.trans e1)
    · right; rw [e2]; exact e1
  · exact Or.inr e2

theorem Kept.sane {force : Pass → Bool} {a b : St} (h : Kept force a b) (hs : Sane force a) :
    Sane force b := by
  intro p hp
  rcases h.2.2 p with e | e
  · rw [e]; exact hs p (by rw [h.1]; exact hp)
  · exact e

theorem Kept.same {force : Pass → Bool} {a b : St} (h : Kept force a b) (hs : Sane force a) : Same a b := by
  have key : ∀ p, a.state p = .enable → (a.flags p).force = (b.flags p).force := by
    intro p hp
    rw [hs p hp, h.sane hs p (by rw [← h.1]; exact hp)]
  refine ⟨h.1, h.2.1, fun p => ?_⟩
  have h1 := congrFun h.1 p
  unfold enabled disable
  dsimp only
  rw [← h1, h.2.1]
  by_cases hp : a.state p = .enable
  · rw [key p hp]; exact ⟨rfl, rfl⟩
  · simp [hp]

theorem early_leave (si : St) (c : Cookie) (early : Bool) :
    (if early then leave (leave si c).1 (leave si c).2 else leave si c) = leave si c := by
  cases early <;> cases c <;> rfl

theorem kept_pass {force : Pass → Bool} {si b : St} {p : Pass} {f : Flags} (hf : f.force = force p)
    (hb : Kept force (enter si p f).1 b) : Kept force si (leave b (enter si p f).2.1).1 := by
  obtain ⟨h1, h2, h3, h4, _⟩ := enter_state si p f hf
  rw [h1]
  refine ⟨?_, ?_, ?_⟩
  · funext q
    show _ = if q = p then si.state p else b.state q
    by_cases hq : q = p
    · rw [if_pos hq, hq]
    · rw [if_neg hq, ← hb.1, h3 q hq]
  · show si.enable = b.enable
    rw [← hb.2.1, h2]
  · intro q
    show b.flags q = si.flags q ∨ (b.flags q).force = force q
    rcases hb.2.2 q with e | e
    · rw [e]; exact h4 q
    · exact Or.inr e

theorem run_kept {force : Pass → Bool} (pr : Prog) (hc : Consistent force pr) :
    ∀ si, Kept force si (run pr si).2 := by
  induction pr with
  | done => intro si; exact ⟨rfl, rfl, fun _ => Or.inl rfl⟩
  | pass p f early body next ihb ihn =>
    intro si
    obtain ⟨hf, hcb, hcn⟩ := hc
    rw [run]
    dsimp only
    rw [early_leave]
    exact Kept.trans (kept_pass hf (ihb hcb _)) (ihn hcn _)
  | off body next ihb ihn =>
    intro si
    obtain ⟨hcb, hcn⟩ := hc
    rw [run]
    dsimp only
    refine Kept.trans ?_ (ihn hcn _)
    have hb := ihb hcb (disable si).1
    exact ⟨hb.1, rfl, hb.2.2⟩

theorem run_sane {force : Pass → Bool} (pr : Prog) (hc : Consistent force pr) :
    ∀ si, Sane force si → ∀ s ∈ (run pr si).1, Sane force s := by
  induction pr with
  | done => intro si h s hs; simp [run] at hs; subst hs; exact h
  | pass p f early body next ihb ihn =>
    intro si h s hs
    obtain ⟨hf, hcb, hcn⟩ := hc
    rw [run] at hs
    dsimp only at hs
    rw [early_leave] at hs
    rcases List.mem_append.mp hs with hs | hs
    · rcases List.mem_cons.mp hs with rfl | hs
      · exact h
      · exact ihb hcb _ (h.enter p f hf) s hs
    · exact ihn hcn _ ((kept_pass hf (run_kept body hcb _)).sane h) s hs
  | off body next ihb ihn =>
    intro si h s hs
    obtain ⟨hcb, hcn⟩ := hc
    rw [run] at hs
    dsimp only at hs
    have hd : Sane force (disable si).1 := h
    rcases List.mem_append.mp hs with hs | hs
    · rcases List.mem_cons.mp hs with rfl | hs
      · exact h
      · exact ihb hcb _ hd s hs
    · refine ihn hcn _ ?_ s hs
      exact (run_kept body hcb (disable si).1).sane hd

/-- In every state that is ever reached by nested use, nested use of passes restores the
state. Missing: a pass that is used both forced and not. -/
theorem nested_restores_partial {force : Pass → Bool} (simple : Bool) (outer inner : Prog)
    (ho : Consistent force outer) (hi : Consistent force inner) :
    ∀ s ∈ (run outer (alloc simple)).1, Same s (run inner s).2 := by
  intro s hs
  have hsane := run_sane outer ho (alloc simple) (by intro p hp; simp [alloc] at hp) s hs
  exact (run_kept inner hi s).same hsane

/-- Otherwise the flags of the inner use stay behind. -/
theorem nested_restores_fails : ∃ outer inner, ∃ s ∈ (run outer (alloc true)).1,
    ¬ Same s (run inner s).2 := by
  refine ⟨.pass .braces {} false .done .done,
    .off (.pass .exprPrintf {} false (.pass .braces { force := true } false (.pass .decl {} false
      (.pass .braces { force := true } false .done .done) .done) .done) .done) .done,
    (enter (alloc true) .braces {}).1, ?_, ?_⟩
  · simp [run]
  · intro h
    have := (h.2.2 .braces).2
    revert this
    decide

/-! ## Exclusive passes -/

/-- The families of passes that may be active together. -/
def families : List (List Pass) :=
  [[.decl, .braces, .declProto, .implicitInt, .static, .declForward],
   [.exprParens, .exprSizeof], [.stmt, .stmtEmptyLoop]]

/-- Passes that may be active together. -/
def Compatible (p q : Pass) : Prop := p = q ∨ ∃ f ∈ families, p ∈ f ∧ q ∈ f

instance (p q : Pass) : Decidable (Compatible p q) := inferInstanceAs (Decidable (_ ∨ _))

theorem Compatible.symm {p q : Pass} (h : Compatible p q) : Compatible q p := by
  rcases h with rfl | ⟨f, hf, a, b⟩
  · exact Or.inl rfl
  · exact Or.inr ⟨f, hf, b, a⟩

theorem Compatible.trans {p q r : Pass} (h1 : Compatible p q) (h2 : Compatible q r) : Compatible p r := by
  revert h1 h2
  cases q <;> cases p <;> first | (intro h; exact absurd h (by decide)) | (cases r <;> decide)

theorem exceptions_compatible {p q : Pass} (h : (p, q) ∈ exceptions) : Compatible p q := by
  revert h
  cases p <;> cases q <;> decide

/-- No two enabled passes exclude each other, and in simple mode no two entered ones do. -/
def Excl (si : St) : Prop :=
  (∀ p q, si.state p = .enable → si.state q = .enable → Compatible p q) ∧
  (si.enable = true → ∀ p q, si.state p ≠ .disable → si.state q ≠ .disable → Compatible p q)

theorem not_exclusive {si : St} {p : Pass} (h : exclusive si p = false) :
    ∃ i, si.state i ≠ .disable ∧ (i, p) ∈ exceptions := by
  unfold exclusive at h
  simp only [Bool.not_eq_false', List.any_eq_true, Bool.and_eq_true, Bool.or_eq_true, decide_eq_true_eq] at h
  obtain ⟨i, _, hi, ⟨a, b⟩, he, rfl, rfl⟩ := h
  refine ⟨a, ?_, he⟩
  rcases hi with h | h <;> rw [h] <;> decide

theorem set_self (si : St) (p : Pass) (s : State) : (si.set p s).state p = s := by simp [St.set]

theorem set_other (si : St) {p q : Pass} (s : State) (h : q ≠ p) : (si.set p s).state q = si.state q := by
  simp [St.set, h]

/-- Entering a pass among compatible ones. -/
theorem excl_add {si si' : St} {p : Pass} (h : Excl si) (he : si'.enable = si.enable)
    (ho : ∀ q, q ≠ p → si'.state q = si.state q)
    (h1 : si'.state p = .enable → ∀ q, q ≠ p → si.state q = .enable → Compatible p q)
    (h2 : si.enable = true → si'.state p ≠ .disable → ∀ q, q ≠ p → si.state q ≠ .disable → Compatible p q) :
    Excl si' := by
  refine ⟨?_, ?_⟩
  · intro a b ha hb
    by_cases ea : a = p
    · by_cases eb : b = p
      · left; rw [ea, eb]
      · rw [ho b eb] at hb; subst ea; exact h1 ha b eb hb
    · rw [ho a ea] at ha
      by_cases eb : b = p
      · subst eb; exact (h1 hb a ea ha).symm
      · rw [ho b eb] at hb; exact h.1 a b ha hb
  · intro hen a b ha hb
    rw [he] at hen
    by_cases ea : a = p
    · by_cases eb : b = p
      · left; rw [ea, eb]
      · rw [ho b eb] at hb; subst ea; exact h2 hen ha b eb hb
    · rw [ho a ea] at ha
      by_cases eb : b = p
      · subst eb; exact (h2 hen hb a ea ha).symm
      · rw [ho b eb] at hb; exact h.2 hen a b ha hb

theorem excl_enter {si : St} (h : Excl si) (p : Pass) (f : Flags)
    (hf : f.force = true → p = .sortIncludes) : Excl (enter si p f).1 := by
  unfold enter
  dsimp only
  split
  · next h0 =>
    simp at h0
    refine excl_add (p := p) h rfl (fun q hq => set_other si _ hq) ?_ ?_
    · rw [set_self]; simp
    · intro he; rw [h0.1] at he; simp at he
  · next h0 =>
    split
    · refine excl_add (p := p) h rfl (fun q hq => set_other si _ hq) ?_ ?_
      · rw [set_self]; simp
      · rw [set_self]; simp
    · next hx =>
      -- what is active is compatible
      have key : (∀ q, q ≠ p → si.state q = .disable) ∨
          (p ≠ .sortIncludes ∧ ∃ i, si.state i ≠ .disable ∧ Compatible i p) := by
        cases hex : exclusive si p with
        | true =>
          left
          rw [hex] at hx
          simp only [Bool.true_and, Bool.not_eq_true, List.any_eq_false, Bool.and_eq_true,
            decide_eq_true_eq, not_and] at hx
          intro q hq
          have := hx q (mem_passes q) hq
          simpa using this
        | false =>
          right
          obtain ⟨i, hi, he⟩ := not_exclusive hex
          refine ⟨?_, i, hi, exceptions_compatible he⟩
          rintro rfl
          revert he
          cases i <;> decide
      have comp : si.enable = true → ∀ q, q ≠ p → si.state q ≠ .disable → Compatible p q := by
        intro he q hq hs
        rcases key with k | ⟨_, i, hi, hc⟩
        · exact absurd (k q hq) hs
        · exact hc.symm.trans (h.2 he i q hi hs)
      split
      · refine excl_add (p := p) h rfl (fun q hq => set_other si _ hq) ?_ ?_
        · rw [set_self]; simp
        · intro he _; exact comp he
      · refine excl_add (p := p) h rfl (fun q hq => set_other si _ hq) ?_ ?_
        · intro _ q hq hs
          cases he : si.enable with
          | true => exact comp he q hq (by rw [hs]; decide)
          | false =>
            have hfo : f.force = true := by simpa [he] using h0
            have hp := hf hfo
            rcases key with k | ⟨k, _⟩
            · rw [k q hq] at hs; simp at hs
            · exact absurd hp k
        · intro he _; exact comp he

/-- Only sorting includes is forced, cpp-include.c:91-93. -/
def OnlyIncludes (force : Pass → Bool) : Prop := ∀ p, force p = true → p = .sortIncludes

theorem Excl.of_state {a b : St} (h : Excl a) (hs : a.state = b.state) (he : a.enable = b.enable) : Excl b := by
  unfold Excl at *
  rw [← hs, ← he]; exact h

theorem run_excl {force : Pass → Bool} (hfo : OnlyIncludes force) (pr : Prog) (hc : Consistent force pr) :
    ∀ si, Excl si → ∀ s ∈ (run pr si).1, Excl s := by
  induction pr with
  | done => intro si h s hs; simp [run] at hs; subst hs; exact h
  | pass p f early body next ihb ihn =>
    intro si h s hs
    obtain ⟨hf, hcb, hcn⟩ := hc
    rw [run] at hs
    dsimp only at hs
    rw [early_leave] at hs
    rcases List.mem_append.mp hs with hs | hs
    · rcases List.mem_cons.mp hs with rfl | hs
      · exact h
      · exact ihb hcb _ (excl_enter h p f (fun e => hfo p (by rw [← hf]; exact e))) s hs
    · have hk := kept_pass hf (run_kept body hcb (enter si p f).1)
      exact ihn hcn _ (h.of_state hk.1 hk.2.1) s hs
  | off body next ihb ihn =>
    intro si h s hs
    obtain ⟨hcb, hcn⟩ := hc
    rw [run] at hs
    dsimp only at hs
    have hd : Excl (disable si).1 := ⟨h.1, by simp [disable]⟩
    rcases List.mem_append.mp hs with hs | hs
    · rcases List.mem_cons.mp hs with rfl | hs
      · exact h
      · exact ihb hcb _ hd s hs
    · have hk := run_kept body hcb (disable si).1
      refine ihn hcn _ (h.of_state ?_ ?_) s hs
      · exact hk.1
      · rfl

/-- However passes are nested, two passes that are enabled at the same time are in the same
family. Missing: `exclusive_fails`. -/
theorem exclusive_partial {force : Pass → Bool} (hfo : OnlyIncludes force) (simple : Bool) (pr : Prog)
    (hc : Consistent force pr) : ∀ s ∈ (run pr (alloc simple)).1, ∀ p q,
    enabled s p = true → enabled s q = true → Compatible p q := by
  intro s hs p q hp hq
  have h := run_excl hfo pr hc (alloc simple) ⟨by simp [alloc], by simp [alloc]⟩ s hs
  unfold enabled at hp hq
  simp at hp hq
  exact h.1 p q hp.2 hq.2

/-- Two passes may be enabled at the same time although neither may be nested in the other. -/
theorem exclusive_fails : ∃ pr, Consistent (fun _ => false) pr ∧ ∃ s ∈ (run pr (alloc true)).1,
    enabled s .static = true ∧ enabled s .braces = true ∧
    (Pass.static, Pass.braces) ∉ exceptions ∧ (Pass.braces, Pass.static) ∉ exceptions := by
  refine ⟨.pass .decl {} false (.pass .static {} false (.pass .braces {} false .done .done) .done) .done,
    by simp [Consistent], (enter (enter (enter (alloc true) .decl {}).1 .static {}).1 .braces {}).1, ?_, ?_⟩
  · simp [run]
  · decide

/-- A nested pass may be enabled, and a pass that excludes it is not. -/
example : enabled (enter (enter (alloc true) .stmt {}).1 .stmtEmptyLoop {}).1 .stmtEmptyLoop = true ∧
    enabled (enter (enter (alloc true) .stmt {}).1 .decl {}).1 .decl = false := by decide

/-! ## No pass runs within itself, or unless asked for -/

/-- A pass is only entered if it is not active already. -/
theorem enter_once (si : St) (p : Pass) (f : Flags) (h : (enter si p f).2.2 = true) :
    si.state p = .disable ∧ enabled (enter si p f).1 p = true := by
  unfold enter at h ⊢
  dsimp only at h ⊢
  split at h
  · simp at h
  · next h0 =>
    split at h
    · simp at h
    · next h1 =>
      split at h
      · simp at h
      · next h2 =>
        rw [if_neg h0, if_neg h1, if_neg h2]
        simp at h0 h2
        refine ⟨h2.2, ?_⟩
        unfold enabled
        simp only [if_true, St.set, decide_true, Bool.and_true]
        cases he : si.enable with
        | true => rfl
        | false => simpa using h0 he

/-- A pass that is being run is not entered again. -/
theorem no_reentry (si : St) (p : Pass) (f : Flags) (h : enabled si p = true) :
    (enter si p f).2.2 = false := by
  cases e : (enter si p f).2.2 with
  | false => rfl
  | true =>
    have := (enter_once si p f e).1
    unfold enabled at h
    rw [this] at h
    simp at h

theorem run_off {force : Pass → Bool} (pr : Prog) (hc : Consistent force pr) :
    ∀ si, si.enable = false → Sane force si → ∀ s ∈ (run pr si).1, s.enable = false := by
  induction pr with
  | done => intro si h _ s hs; simp [run] at hs; subst hs; exact h
  | pass p f early body next ihb ihn =>
    intro si h hsa s hs
    obtain ⟨hf, hcb, hcn⟩ := hc
    rw [run] at hs
    dsimp only at hs
    rw [early_leave] at hs
    have hk := kept_pass hf (run_kept body hcb (enter si p f).1)
    rcases List.mem_append.mp hs with hs | hs
    · rcases List.mem_cons.mp hs with rfl | hs
      · exact h
      · refine ihb hcb _ ?_ (hsa.enter p f hf) s hs
        rw [(enter_state si p f hf).2.1]; exact h
    · exact ihn hcn _ (by rw [← hk.2.1]; exact h) (hk.sane hsa) s hs
  | off body next ihb ihn =>
    intro si h hsa s hs
    obtain ⟨hcb, hcn⟩ := hc
    rw [run] at hs
    dsimp only at hs
    have hd : Sane force (disable si).1 := hsa
    rcases List.mem_append.mp hs with hs | hs
    · rcases List.mem_cons.mp hs with rfl | hs
      · exact h
      · exact ihb hcb _ rfl hd s hs
    · exact ihn hcn (restore (run body (disable si).1).2 (disable si).2) h
        ((run_kept body hcb (disable si).1).sane hd) s hs

/-- Unless simplification is asked for, only forced passes are ever enabled. -/
theorem only_forced {force : Pass → Bool} (pr : Prog) (hc : Consistent force pr) :
    ∀ s ∈ (run pr (alloc false)).1, ∀ p, enabled s p = true → force p = true := by
  intro s hs p hp
  have h0 : Sane force (alloc false) := by intro q hq; simp [alloc] at hq
  have h1 := run_off pr hc (alloc false) rfl h0 s hs
  have h2 := run_sane pr hc (alloc false) h0 s hs
  unfold enabled at hp
  rw [h1] at hp
  simp at hp
  rw [← h2 p hp.2]; exact hp.1

/-- Between `simple_disable` and `simple_enable` only forced passes are enabled. -/
theorem only_forced_off {force : Pass → Bool} (si : St) (hs : Sane force si) (pr : Prog)
    (hc : Consistent force pr) : ∀ s ∈ (run pr (disable si).1).1, ∀ p, enabled s p = true → force p = true := by
  intro s h p hp
  have hd : Sane force (disable si).1 := hs
  have h1 := run_off pr hc _ rfl hd s h
  have h2 := run_sane pr hc _ hd s h
  unfold enabled at hp
  rw [h1] at hp
  simp at hp
  rw [← h2 p hp.2]; exact hp.1

end Knfmt.Simple
