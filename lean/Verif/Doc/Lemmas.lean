import Verif.Doc.Model
import Verif.Util.Props
import Verif.Common
namespace Knfmt.Doc
open Knfmt.Util

/-! Frame lemmas: which fields the primitives leave alone. -/

/-- The fields no printing primitive changes. -/
structure Frame (σ τ : St) : Prop where
  mode : τ.mode = σ.mode
  df : τ.df = σ.df
  cur : τ.cur = σ.cur
  force : τ.force = σ.force
  parens : τ.parens = σ.parens
  maxlines : τ.maxlines = σ.maxlines
  mute : τ.mute = σ.mute
  forced : τ.forced = σ.forced
  ub : τ.ub = σ.ub

theorem Frame.refl (σ : St) : Frame σ σ := ⟨rfl, rfl, rfl, rfl, rfl, rfl, rfl, rfl, rfl⟩

theorem Frame.trans {σ τ ρ : St} (h : Frame σ τ) (k : Frame τ ρ) : Frame σ ρ :=
  ⟨k.mode.trans h.mode, k.df.trans h.df, k.cur.trans h.cur, k.force.trans h.force,
    k.parens.trans h.parens, k.maxlines.trans h.maxlines, k.mute.trans h.mute,
    k.forced.trans h.forced, k.ub.trans h.ub⟩

theorem trimSpaces_frame (σ : St) : Frame σ (trimSpaces σ) :=
  ⟨rfl, rfl, rfl, rfl, rfl, rfl, rfl, rfl, rfl⟩

theorem column_frame (env : Env) (σ : St) (s : List Char) : Frame σ (column env σ s) :=
  ⟨rfl, rfl, rfl, rfl, rfl, rfl, rfl, rfl, rfl⟩

theorem printIndent1_frame (σ : St) (n : Nat) (b : Bool) : Frame σ (printIndent1 σ n b) :=
  ⟨rfl, rfl, rfl, rfl, rfl, rfl, rfl, rfl, rfl⟩

theorem printIndent_frame (env : Env) (σ : St) (n : Nat) : Frame σ (printIndent env σ n) := by
  unfold printIndent
  split
  · exact printIndent1_frame _ _ _
  · exact ⟨rfl, rfl, rfl, rfl, rfl, rfl, rfl, rfl, rfl⟩

theorem newLine_frame (env : Env) (f : PF) (m : Bool) (σ : St) :
    Frame σ (newLine env f m σ) := ⟨rfl, rfl, rfl, rfl, rfl, rfl, rfl, rfl, rfl⟩

theorem emitLine_frame (env : Env) (f : PF) (m : Bool) (σ : St) :
    Frame σ (emitLine env f m σ) := by
  unfold emitLine
  split
  · exact .refl σ
  · split
    · exact (newLine_frame env f m σ).trans (printIndent_frame _ _ _)
    · exact newLine_frame env f m σ

theorem emitText_frame (env : Env) (m : Bool) (s : List Char) (σ : St) :
    Frame σ (emitText env m s σ) := ⟨rfl, rfl, rfl, rfl, rfl, rfl, rfl, rfl, rfl⟩

theorem emitPending_frame (env : Env) (f : PF) (m : Bool) (σ : St) :
    Frame σ (emitPending env f m σ) := by
  have h0 : Frame σ { σ with refit := true, newline := false, muteline := σ.muteline || m } :=
    ⟨rfl, rfl, rfl, rfl, rfl, rfl, rfl, rfl, rfl⟩
  exact h0.trans (emitLine_frame _ _ _ _)

theorem print_frame (env : Env) (σ : St) (s : List Char) (f : PF) :
    Frame σ (print env σ s f).1 := by
  unfold print
  have h0 : ∀ b : Bool, Frame σ { σ with muteline := b } :=
    fun b => ⟨rfl, rfl, rfl, rfl, rfl, rfl, rfl, rfl, rfl⟩
  dsimp only
  split
  · split
    · exact h0 _
    · split
      · exact (h0 _).trans (emitPending_frame _ _ _ _)
      · exact ((h0 _).trans (emitPending_frame _ _ _ _)).trans (emitText_frame _ _ _ _)
  · split
    · exact (h0 _).trans (emitLine_frame _ _ _ _)
    · exact (h0 _).trans (emitText_frame _ _ _ _)

/-! Without a diff. -/

theorem groupEnter_none {env : Env} (h : env.diff = none) (σ : St) (g : Doc) :
    groupEnter env σ g = (σ, false) := by simp [groupEnter, h]

theorem groupLeave_false (env : Env) (σ : St) : groupLeave env σ false = σ := by
  simp [groupLeave]

theorem diffLiteral_none {env : Env} (h : env.diff = none) (σ : St) (tk : Option Tok) :
    diffLiteral env σ tk = σ := by simp [diffLiteral, h]

theorem isMute_none {env : Env} (h : env.diff = none) (σ : St) :
    isMute env σ = decide (σ.mute ≠ 0) := by simp [isMute, diffIsMute, h]

/-- `doc_exec_verbatim` without a diff. -/
theorem execVerbatim_none {env : Env} (h : env.diff = none) (s : List Char) (tk : Tok) (σ : St) :
    execVerbatim env s tk σ =
      if σ.mute ≠ 0 then σ
      else
        let ρ := (print env { trimSpaces σ with
          newline := σ.newline || (decide (s.length > 1) && decide (s.getLast? = some '\n')
            && decide ((trimSpaces σ).col > 0)) } s {}).1
        if s.getLast? = some '\n' then
          printIndent env ρ (if (trimSpaces σ).col > 0 then ρ.cur else ρ.pre)
        else ρ := by
  have hb : ((decide (s.length > 1) && decide (s.getLast? = some '\n')) || decide (s = ['\n'])) =
      decide (s.getLast? = some '\n') := by
    match s with
    | [] => simp
    | [c] => simp
    | c :: d :: r => simp
  unfold execVerbatim
  rw [isMute_none h]
  simp only [h, Option.isSome_none, Bool.false_and, Bool.not_false, Bool.and_true,
    diffVerbatim, diffLeave, hb]
  by_cases hm : σ.mute = 0
  · simp [hm, trimSpaces]
  · simp [hm]

/-- `doc_exec_mute` without a diff. -/
theorem execMute_none {env : Env} (h : env.diff = none) (n : Int) (b : Bool) (σ : St) :
    ∃ df, execMute env n b σ =
      if (if n > 0 ∨ σ.mute ≥ -n then σ.mute + n else σ.mute) = 0 then
        { σ with df := df, mute := 0, nlines := 0, newline := b && σ.muteline, muteline := false }
      else
        { σ with df := df, mute := if n > 0 ∨ σ.mute ≥ -n then σ.mute + n else σ.mute } := by
  by_cases h0 : σ.mute = 0 ∧ n > 0
  · refine ⟨(diffMuteEnter env σ).df, ?_⟩
    have e : diffMuteEnter env σ = { σ with df := (diffMuteEnter env σ).df } := by
      unfold diffMuteEnter; split <;> rfl
    unfold execMute
    rw [if_pos h0, e]
    simp only [diffMuteLeave, h, resetLines]
    by_cases hz : (if n > 0 ∨ σ.mute ≥ -n then σ.mute + n else σ.mute) = 0
    · rw [if_pos hz, if_pos hz, hz]
    · rw [if_neg hz, if_neg hz]
  · refine ⟨σ.df, ?_⟩
    unfold execMute
    rw [if_neg h0]
    simp only [diffMuteLeave, h, resetLines]
    by_cases hz : (if n > 0 ∨ σ.mute ≥ -n then σ.mute + n else σ.mute) = 0
    · rw [if_pos hz, if_pos hz, hz]
    · rw [if_neg hz, if_neg hz]

/-! Trials. -/

theorem trials_restore (env : Env) (id : Nat) (ms : List Minimizer) (f : St → St) (sn : St)
    (is : List Nat) : ∀ σ : St, (∃ F u, σ = { sn with forced := F, ub := u }) →
      ∃ F u, (trials env id ms f sn σ is).1 = { sn with forced := F, ub := u } := by
  induction is with
  | nil => intro σ h; exact h
  | cons i is ih => intro σ _; exact ih _ ⟨_, _, rfl⟩

/-- The trials leave the state as it was, but for the flags set on documents. -/
theorem choose_restore (env : Env) (id : Nat) (ms : List Minimizer) (f : St → St) (σ : St) :
    ∃ F u, (choose env id ms f σ).1 = { σ with forced := F, ub := u } := by
  unfold choose
  exact trials_restore env id ms f σ _ σ ⟨σ.forced, σ.ub, rfl⟩

/-! The tab loop of alignment. -/

theorem strindent_eight (col : Nat) : strindent 8 true col = (['\t'], col + (8 - col % 8)) := by
  simp [strindent, strindentTabs, strindentSpaces]

theorem alignTabs_eq (σ : St) (n : Nat) :
    alignTabs σ n = if n = 0 then σ else
      alignTabs { σ with buf := '\t' :: σ.buf, col := σ.col + (8 - σ.col % 8) }
        (n - (8 - σ.col % 8)) := by
  rw [alignTabs]
  split
  · rfl
  · simp only [printIndent1, strindent_eight, List.reverse_cons, List.reverse_nil, List.nil_append,
      List.cons_append]
    have : σ.col + (8 - σ.col % 8) - σ.col = 8 - σ.col % 8 := by omega
    rw [this, dif_pos (by omega)]

/-- The loop writes tabs. -/
theorem alignTabs_spec (n : Nat) : ∀ σ : St, ∃ k c, alignTabs σ n =
    { σ with buf := List.replicate k '\t' ++ σ.buf, col := c } := by
  induction n using Nat.strongRecOn with
  | ind n ih =>
    intro σ
    rw [alignTabs_eq]
    split
    · exact ⟨0, σ.col, rfl⟩
    · obtain ⟨k, c, e⟩ := ih (n - (8 - σ.col % 8)) (by omega)
        { σ with buf := '\t' :: σ.buf, col := σ.col + (8 - σ.col % 8) }
      refine ⟨k + 1, c, ?_⟩
      rw [e, List.replicate_succ']
      simp

/-- Alignment writes blanks. -/
theorem execAlign_spec (a : Align) (σ : St) : ∃ w c, execAlign a σ =
    { σ with buf := w ++ σ.buf, col := c } ∧ ∀ x ∈ w, blank x := by
  have hs : ∀ (τ : St) n, ∃ w c, printIndent1 τ n false = { τ with buf := w ++ τ.buf, col := c } ∧
      ∀ x ∈ w, blank x := by
    intro τ n
    refine ⟨_, _, rfl, ?_⟩
    intro x hx
    rw [List.mem_reverse] at hx
    simp only [strindent, Bool.false_eq_true, if_false, List.nil_append, strindentSpaces_eq] at hx
    rw [List.eq_of_mem_replicate hx]; decide
  unfold execAlign
  split
  · obtain ⟨k, c, e⟩ := alignTabs_spec a.indent σ
    obtain ⟨w, c', e', hw⟩ := hs (alignTabs σ a.indent) a.spaces
    refine ⟨w ++ List.replicate k '\t', c', by rw [e', e]; simp, ?_⟩
    intro x hx
    rcases List.mem_append.mp hx with h | h
    · exact hw x h
    · rw [List.eq_of_mem_replicate h]; decide
  · exact hs σ _

/-- Indentation is blank. -/
theorem printIndent1_spec (σ : St) (n : Nat) (t : Bool) : ∃ w c, printIndent1 σ n t =
    { σ with buf := w ++ σ.buf, col := c } ∧ ∀ x ∈ w, blank x := by
  refine ⟨_, _, rfl, ?_⟩
  intro x hx
  rw [List.mem_reverse, strindent_bytes] at hx
  split at hx
  · rcases List.mem_append.mp hx with h | h <;> rw [List.eq_of_mem_replicate h] <;> decide
  · rw [List.eq_of_mem_replicate hx]; decide

theorem printIndent_spec (env : Env) (σ : St) (n : Nat) : ∃ w c p, printIndent env σ n =
    { σ with buf := w ++ σ.buf, col := c, pre := p } ∧ ∀ x ∈ w, blank x := by
  unfold printIndent
  split
  · obtain ⟨w, c, e, h⟩ := printIndent1_spec σ (σ.pre + σ.parens) env.useTabs
    exact ⟨w, c, σ.pre, e, h⟩
  · obtain ⟨w, c, e, h⟩ := printIndent1_spec { σ with pre := n } n env.useTabs
    exact ⟨w, c, n, e, h⟩

/-- Trimming drops blanks only, and leaves none at the end. -/
theorem trimLoop_spec (b : List Char) (col : Nat) : ∃ w, b = w ++ (trimLoop b col).1 ∧
    (∀ x ∈ w, blank x) ∧ ∀ x, (trimLoop b col).1.head? = some x → blank x = false := by
  induction b generalizing col with
  | nil => exact ⟨[], by simp [trimLoop]⟩
  | cons c b ih =>
    unfold trimLoop
    split
    · next h =>
      obtain ⟨w, e, hw, hh⟩ := ih (col - (if c = '\t' then 8 - col % 8 else 1))
      exact ⟨c :: w, by rw [List.cons_append, ← e], by grind, hh⟩
    · next h => exact ⟨[], rfl, by simp, by simp; simpa using h⟩

/-! `doc_exec1` without a diff. -/

/-- The state in which the child of a group is executed, and the mode restored
afterwards. -/
def groupSt (env : Env) (σ : St) (d : Doc) : St :=
  if σ.mode = .munge ∧ σ.refit = false then σ
  else { σ with refit := false, mode := if fits env σ (.group d) then .munge else .brk }

theorem exec_group_none {env : Env} (h : env.diff = none) (d : Doc) (σ : St) :
    exec env (.group d) σ =
      if σ.mode = .munge ∧ σ.refit = false then exec env d σ
      else { exec env d (groupSt env σ d) with mode := σ.mode } := by
  simp only [exec, groupEnter_none h, groupLeave_false, groupSt]
  by_cases hc : σ.mode = .munge ∧ σ.refit = false
  · rw [if_pos hc, if_pos hc]
  · rw [if_neg hc, if_neg hc, if_neg hc]
    rfl

theorem exec_literal_none {env : Env} (h : env.diff = none) (s : List Char) (tk : Option Tok)
    (σ : St) : exec env (.literal s tk) σ = (print env σ s { indent := true }).1 := by
  rw [exec, diffLiteral_none h]

end Knfmt.Doc
