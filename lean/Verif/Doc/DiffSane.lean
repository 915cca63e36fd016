import Verif.Doc.Text
/-! C48: what executing a document never changes, in diff mode or not. -/
namespace Knfmt.Doc
open Knfmt.Util

variable {env : Env} {de : DiffEnv}

/-- A failure is not forgotten, and the indentation is as before. -/
structure Sane (σ τ : St) : Prop where
  ub : τ.ub = false → σ.ub = false
  cur : τ.cur = σ.cur
  parens : τ.parens = σ.parens

theorem Sane.refl (σ : St) : Sane σ σ := ⟨id, rfl, rfl⟩

theorem Sane.trans {σ τ ρ : St} (h : Sane σ τ) (k : Sane τ ρ) : Sane σ ρ :=
  ⟨fun hu => h.ub (k.ub hu), k.cur.trans h.cur, k.parens.trans h.parens⟩

theorem Sane.of {σ τ ρ : St} (h : Sane τ ρ) (h1 : τ.ub = σ.ub) (h2 : τ.cur = σ.cur)
    (h3 : τ.parens = σ.parens) : Sane σ ρ :=
  ⟨fun hu => by rw [← h1]; exact h.ub hu, h.cur.trans h2, h.parens.trans h3⟩

theorem Frame.sane {σ τ : St} (h : Frame σ τ) : Sane σ τ :=
  ⟨fun hu => by rw [← h.ub]; exact hu, h.cur, h.parens⟩

theorem print_sane (σ : St) (s : List Char) (f : PF) : Sane σ (print env σ s f).1 :=
  (print_frame env σ s f).sane

theorem diffEmit_sane (σ : St) (b x : Nat) : Sane σ (diffEmit env de σ b x) := by
  unfold diffEmit
  split
  · exact ⟨id, rfl, rfl⟩
  · exact ⟨by simp, rfl, rfl⟩
  · next str _ =>
    have h1 : Sane σ (trimSpaces (resetLines σ)) := ⟨id, rfl, rfl⟩
    dsimp only
    exact (h1.trans (print_sane (env := env) _ str { force := true })).trans (printIndent_frame _ _ _).sane

theorem enterCovered_sane (σ : St) (g : Doc) (dd : DD) : Sane σ (enterCovered env de σ g dd) := by
  unfold enterCovered
  dsimp only
  split
  · exact ⟨id, rfl, rfl⟩
  · split
    · exact ⟨id, rfl, rfl⟩
    · exact (diffEmit_sane _ _ _).of rfl rfl rfl

theorem groupEnterNested_sane (σ : St) (g : Doc) : Sane σ (groupEnterNested env de σ g) := by
  unfold groupEnterNested
  dsimp only
  split
  · exact .refl _
  · exact ⟨id, rfl, rfl⟩
  · exact enterCovered_sane _ _ _

/-- The states `doc_diff_leave` goes through. -/
def left (σ : St) (n : Nat) : St :=
  { σ with
    ub := σ.ub || σ.df.stop = 0 || σ.df.verbatim.isSome
    mute := σ.df.mute
    df := { σ.df with beg := σ.df.stop + n, stop := 0, mute := 0 } }

def left2 (env : Env) (σ : St) (n : Nat) : St :=
  if (left σ n).newline then (print env (left σ n) ['\n'] { force := true }).1 else left σ n

theorem leave_eq (σ : St) (n : Nat) (hn : n ≠ 0) : leave env de σ n =
    if (left2 env σ n).df.many then
      match (left2 env σ n).df.group with
      | some g => groupEnterNested env de (left2 env σ n) g
      | none => { left2 env σ n with ub := true }
    else left2 env σ n := by
  unfold leave
  rw [if_neg hn]
  rfl

theorem left2_sane (σ : St) (n : Nat) : Sane σ (left2 env σ n) := by
  have h : Sane σ (left σ n) := ⟨fun h => by simp [left] at h; exact h.1.1, rfl, rfl⟩
  unfold left2
  split
  · exact h.trans (print_sane _ _ _)
  · exact h

theorem leave_sane (σ : St) (n : Nat) : Sane σ (leave env de σ n) := by
  by_cases hn : n = 0
  · subst hn; exact .refl _
  · rw [leave_eq σ n hn]
    split
    · split
      · exact (left2_sane σ n).trans (groupEnterNested_sane _ _)
      · exact (left2_sane σ n).trans ⟨by simp, rfl, rfl⟩
    · exact left2_sane σ n

theorem groupEnter_sane (σ : St) (g : Doc) : Sane σ (groupEnter env σ g).1 := by
  unfold groupEnter
  split
  · exact .refl _
  · split
    · exact .refl _
    · dsimp only
      split
      · exact .refl _
      · split
        · exact (leave_sane σ 1).trans ⟨id, rfl, rfl⟩
        · exact ⟨id, rfl, rfl⟩
      · split
        · exact (leave_sane σ 1).trans (enterCovered_sane _ _ _)
        · exact enterCovered_sane _ _ _

theorem groupLeave_sane (σ : St) (e : Bool) : Sane σ (groupLeave env σ e) := by
  unfold groupLeave
  split
  · exact ⟨fun h => by simp at h; exact h.1, rfl, rfl⟩
  · exact .refl _

theorem diffLiteral_sane (σ : St) (tk : Option Tok) : Sane σ (diffLiteral env σ tk) := by
  unfold diffLiteral
  split
  · split
    · exact .refl _
    · split
      · exact ⟨id, rfl, rfl⟩
      · split
        · exact leave_sane _ _
        · exact .refl _
  · exact .refl _

theorem diffVerbatim_sane (σ : St) (s : List Char) (tk : Tok) : Sane σ (diffVerbatim env σ s tk).1 := by
  unfold diffVerbatim
  split
  · exact .refl _
  · split
    · exact .refl _
    · split
      · dsimp only
        exact leave_sane _ _
      · dsimp only
        split <;> exact .refl _

theorem diffLeave_sane (σ : St) (n : Nat) : Sane σ (diffLeave env σ n) := by
  unfold diffLeave
  split
  · exact .refl _
  · exact leave_sane _ _

/-- The parts of `doc_exec_verbatim` after `doc_diff_verbatim`. -/
def verbatim1 (env : Env) (s : List Char) (σ : St) : St :=
  (print env { trimSpaces σ with newline := (trimSpaces σ).newline ||
    ((s.length > 1 && s.getLast? = some '\n') && (trimSpaces σ).col > 0) } s {}).1

def verbatim2 (env : Env) (tk : Tok) (σ : St) : St :=
  if env.diff.isSome ∧ σ.df.verbatim = some tk.id then
    { σ with df := { σ.df with verbatim := none } } else σ

def verbatim3 (env : Env) (s : List Char) (oldcol : Nat) (σ : St) : St :=
  if (s.length > 1 && s.getLast? = some '\n') || (s = ['\n'] : Bool) then
    printIndent env σ (if oldcol > 0 then σ.cur else σ.pre) else σ

theorem execVerbatim_eq (s : List Char) (tk : Tok) (σ : St) : execVerbatim env s tk σ =
    if isMute env σ && !(env.diff.isSome && σ.df.verbatim = some tk.id) then σ
    else
      diffLeave env (verbatim3 env s (trimSpaces (diffVerbatim env σ s tk).1).col
        (verbatim2 env tk (verbatim1 env s (diffVerbatim env σ s tk).1)))
        (diffVerbatim env σ s tk).2 := rfl

theorem execVerbatim_sane (s : List Char) (tk : Tok) (σ : St) : Sane σ (execVerbatim env s tk σ) := by
  rw [execVerbatim_eq]
  split
  · exact .refl _
  · have h1 : ∀ τ : St, Sane τ (verbatim1 env s τ) := fun τ =>
      (print_sane _ _ _).of rfl rfl rfl
    have h2 : ∀ τ : St, Sane τ (verbatim2 env tk τ) := by
      intro τ
      unfold verbatim2
      split
      · exact ⟨id, rfl, rfl⟩
      · exact .refl _
    have h3 : ∀ (τ : St) c, Sane τ (verbatim3 env s c τ) := by
      intro τ c
      unfold verbatim3
      split
      · exact (printIndent_frame _ _ _).sane
      · exact .refl _
    exact ((((diffVerbatim_sane σ s tk).trans (h1 _)).trans (h2 _)).trans (h3 _ _)).trans
      (diffLeave_sane _ _)

/-- The parts of `doc_exec_mute`. -/
def mute1 (env : Env) (n : Int) (σ : St) : St := if σ.mute = 0 ∧ n > 0 then diffMuteEnter env σ else σ

def mute2 (n : Int) (σ : St) : St :=
  { σ with mute := if n > 0 ∨ σ.mute ≥ -n then σ.mute + n else σ.mute }

def mute3 (env : Env) (b : Bool) (σ : St) : St :=
  { resetLines (diffMuteLeave env σ) with newline := b && (diffMuteLeave env σ).muteline }

theorem execMute_eq (n : Int) (b : Bool) (σ : St) : execMute env n b σ =
    if (mute2 n (mute1 env n σ)).mute = 0 then mute3 env b (mute2 n (mute1 env n σ))
    else mute2 n (mute1 env n σ) := rfl

theorem diffMuteEnter_sane (σ : St) : Sane σ (diffMuteEnter env σ) := by
  unfold diffMuteEnter
  split
  · exact .refl _
  · exact ⟨id, rfl, rfl⟩

theorem diffMuteLeave_sane (σ : St) : Sane σ (diffMuteLeave env σ) := by
  unfold diffMuteLeave
  split
  · exact .refl _
  · have h0 : Sane σ (resetLines σ) := ⟨id, rfl, rfl⟩
    dsimp only
    split
    · exact (h0.trans (print_sane (env := env) _ ['\n'] { force := true })).trans ⟨id, rfl, rfl⟩
    · exact ⟨id, rfl, rfl⟩

theorem execMute_sane (n : Int) (b : Bool) (σ : St) : Sane σ (execMute env n b σ) := by
  rw [execMute_eq]
  have h1 : Sane σ (mute2 n (mute1 env n σ)) := by
    refine Sane.trans ?_ (τ := mute1 env n σ) ⟨id, rfl, rfl⟩
    unfold mute1
    split
    · exact diffMuteEnter_sane _
    · exact .refl _
  split
  · exact (h1.trans (diffMuteLeave_sane _)).trans ⟨id, rfl, rfl⟩
  · exact h1

theorem execIndent_sane {f : St → St} (hf : ∀ σ, Sane σ (f σ)) (n : Int) (σ : St) :
    Sane σ (execIndent env n f σ) := by
  have h := hf (indentEnter env n σ)
  have hu : (indentEnter env n σ).ub = σ.ub := by
    unfold indentEnter
    split
    · rfl
    · split
      · exact (printIndent_frame _ _ _).ub
      · split
        · rfl
        · split <;> rfl
  unfold execIndent
  dsimp only
  split
  · next h30 =>
    refine ⟨fun hx => by rw [← hu]; exact h.ub hx, ?_, rfl⟩
    refine h.cur.trans ?_
    unfold indentEnter
    rw [if_pos h30]
  · next h30 =>
    split
    · next h29 =>
      refine ⟨fun hx => by rw [← hu]; exact h.ub hx, ?_, ?_⟩
      · refine h.cur.trans ?_
        unfold indentEnter
        rw [if_neg h30, if_pos h29]
        exact (printIndent_frame _ _ _).cur
      · refine h.parens.trans ?_
        unfold indentEnter
        rw [if_neg h30, if_pos h29]
        exact (printIndent_frame _ _ _).parens
    · next h29 =>
      refine ⟨fun hx => by rw [← hu]; exact h.ub hx, rfl, ?_⟩
      refine h.parens.trans ?_
      unfold indentEnter
      rw [if_neg h30, if_neg h29]
      split
      · rfl
      · split <;> rfl

theorem minimize1_sane {f : St → St} (hf : ∀ σ, Sane σ (f σ)) (id : Nat) (ms : List Minimizer) (σ : St)
    (i : Nat) : Sane σ (minimize1 env id ms f σ i) := by
  unfold minimize1
  split
  · exact ⟨by simp, rfl, rfl⟩
  · next m _ =>
    exact (execIndent_sane hf _ { σ with force := if m.force ∨ (id, i) ∈ σ.forced then some i else σ.force }).of
      rfl rfl rfl

theorem execMinimize_sane {f : St → St} (hf : ∀ σ, Sane σ (f σ)) (id : Nat) (ms : List Minimizer) (σ : St) :
    Sane σ (execMinimize env id ms f σ) := by
  refine ⟨execMinimize_ub env id ms (fun τ h => (hf τ).ub h) σ, ?_, ?_⟩
  all_goals
    unfold execMinimize
    split
    · first | exact (minimize1_sane hf id ms σ _).cur | exact (minimize1_sane hf id ms σ _).parens
    · obtain ⟨F, u, hc⟩ := choose_restore env id ms f σ
      generalize hch : choose env id ms f σ = r at *
      obtain ⟨τ, b⟩ := r
      dsimp only at hc
      subst hc
      cases b with
      | none => rfl
      | some best =>
        dsimp only
        have := minimize1_sane (env := env) hf id ms
          { σ with forced := F, ub := u, idx := some best } best
        first | exact this.cur | exact this.parens

/-- A group once entered. -/
def groupBody (env : Env) (d : Doc) (σ : St) : St :=
  if σ.mode = .munge ∧ σ.refit = false then exec env d σ
  else
    { exec env d { ({ σ with refit := false } : St) with
        mode := if fits env { σ with refit := false } (.group d) then .munge else .brk } with
      mode := σ.mode }

theorem exec_group_eq (d : Doc) (σ : St) : exec env (.group d) σ =
    groupLeave env (groupBody env d (groupEnter env σ (.group d)).1) (groupEnter env σ (.group d)).2 := by
  rw [exec]; rfl

theorem exec_sane (d : Doc) : ∀ σ : St, Sane σ (exec env d σ) := by
  induction d with
  | nil => exact fun σ => .refl _
  | seq d ds ih1 ih2 => exact fun σ => (ih1 σ).trans (ih2 _)
  | group d ih =>
    intro σ
    rw [exec_group_eq]
    refine Sane.trans ?_ (groupLeave_sane _ _)
    refine (groupEnter_sane (env := env) σ (.group d)).trans ?_
    generalize (groupEnter env σ (.group d)).1 = τ
    unfold groupBody
    split
    · exact ih τ
    · exact ⟨(ih _).ub, (ih _).cur, (ih _).parens⟩
  | indent n d ih => exact fun σ => execIndent_sane ih n σ
  | noindent d ih =>
    intro σ
    rw [exec]
    exact ⟨(ih { trimSpaces σ with cur := 0, pre := 0 }).ub, rfl,
      (ih { trimSpaces σ with cur := 0, pre := 0 }).parens⟩
  | align a =>
    intro σ
    obtain ⟨w, c, e, _⟩ := execAlign_spec a σ
    rw [exec, e]
    exact ⟨id, rfl, rfl⟩
  | literal s tk => exact fun σ => (diffLiteral_sane σ tk).trans (print_sane _ _ _)
  | verbatim s tk => exact fun σ => execVerbatim_sane s tk σ
  | line =>
    intro σ
    rw [exec]
    split
    · exact print_sane _ _ _
    · exact (print_sane (env := env) σ [' '] { indent := true }).trans ⟨id, rfl, rfl⟩
  | softline n =>
    intro σ
    rw [exec]
    split
    · exact print_sane _ _ _
    · exact .refl _
  | hardline => exact fun σ => print_sane _ _ _
  | optline => exact fun σ => ⟨id, rfl, rfl⟩
  | mute n => exact fun σ => execMute_sane _ _ σ
  | unmute n => exact fun σ => execMute_sane _ _ σ
  | optional d ih =>
    intro σ
    have := ih { σ with optline := σ.optline + 1 }
    exact ⟨this.ub, this.cur, this.parens⟩
  | minimize id ms d ih => exact fun σ => execMinimize_sane ih id ms σ
  | scope d ih =>
    intro σ
    have := ih { σ with statLines := 0 }
    exact ⟨this.ub, this.cur, this.parens⟩
  | maxlines n d ih =>
    intro σ
    have := ih { σ with maxlines := n }
    exact ⟨this.ub, this.cur, this.parens⟩

end Knfmt.Doc
