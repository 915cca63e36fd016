import Verif.Parse.Total
/-!
# The repaired parser ends, continued
-/
namespace Knfmt.Parse
open Knfmt.Lexer (TT)
open Knfmt.Expr (Rule Func findRule)

/-! ## Expressions -/

/-- As `Tot`, if there is a next token. -/
def TotN {α : Type} (K : Nat) (m : M α) : Prop := ∀ s, s.len ≤ K → s.rest ≠ [] → ∃ r, m s = some r

section
variable {α β : Type} {K : Nat} {m : M α} {k : α → M β}

theorem read_bind {f : St → α} {s : St} : (read f >>= k) s = k (f s) s := rfl

theorem totN_tot [h : Tot K m] : TotN K m := fun s hs _ => h.run s hs

theorem len_pos {s : St} (h : s.rest ≠ []) : 0 < s.len := by
  cases hr : s.rest with
  | nil => exact absurd hr h
  | cons t r => simp [St.len, hr]

theorem totN_pop {k : Tok → M β} (h : ∀ t K', K = K' + 1 → Tot K' (k t)) : TotN K (pop >>= k) := by
  intro s hs hr
  obtain ⟨⟨t, s1⟩, e⟩ := (tot_pop (K := K)).run s hs
  have h1 := at_pop (b := false) s t s1 hr e trivial (by simp)
  rw [bind_of e]
  have := len_pos hr
  exact (h t (K - 1) (by omega)).run s1 (by omega)

theorem totN_skip (h : Tot K m) (hm : Mon m) (h1 : ∀ a, TotN K (k a))
    (h2 : ∀ a K', K = K' + 1 → Tot K' (k a)) : TotN K (m >>= k) := by
  intro s hs hr
  obtain ⟨⟨a, s1⟩, e⟩ := h.run s hs
  rw [bind_of e]
  have := (hm.step _ _ _ e).rest
  have := len_pos hr
  by_cases hl : s1.len = s.len
  · refine h1 a s1 (by omega) fun h0 => ?_
    have : s1.len = 0 := by simp [St.len, h0]
    omega
  · exact (h2 a (K - 1) (by omega)).run s1 (by omega)

theorem tot_exPeek {k : Option Tok → M β} {stop : Option Nat} (h0 : Tot K (k none))
    (h : ∀ t, TotN K (k (some t))) : Tot K (exPeek stop >>= k) := by
  refine ⟨fun s hs => ?_⟩
  unfold exPeek
  rw [read_bind]
  split
  · exact h0.run s hs
  · split
    · exact h0.run s hs
    · split
      · exact h0.run s hs
      · exact h _ s hs (by rw [‹s.rest = _›]; simp)
end

section
variable {X : Cx} [hX : Recs X] {d : Id} {K : Nat}

theorem Now0.mono {K' : Nat} (h : Now0 X K) (hk : K' ≤ K) : Now0 X K' :=
  ⟨fun d ti => (h.type d ti).mono hk, fun d F => (h.braces d F).mono hk,
    fun a b F => (h.block a b F).mono hk⟩

instance tot_popDoc : Tot K popDoc := by
  unfold popDoc
  tot

instance tot_recoverBraces [h : Now0 X K] : Tot K (recoverBraces X) := by
  refine ⟨fun s hs => ?_⟩
  have h1 : Tot K (withRoot fun d => X.R.braces d { dedent := true }) := inferInstance
  have h1' : Mon (withRoot fun d => X.R.braces d { dedent := true }) := inferInstance
  have h2 : Tot K (withRoot fun d => X.R.block d d { gnu := true }) := inferInstance
  obtain ⟨⟨⟨r, ts⟩, s1⟩, e1⟩ := h1.run s hs
  obtain ⟨⟨⟨⟨r', o⟩, ts'⟩, s2⟩, e2⟩ := h2.run (restore s s1)
    (Nat.le_trans (h1'.step _ _ _ e1).restore.rest hs)
  unfold recoverBraces
  rw [e1]
  dsimp only
  rw [e2]
  dsimp only
  split
  · exact ⟨_, rfl⟩
  · split
    · split <;> exact ⟨_, rfl⟩
    · exact ⟨_, rfl⟩

instance tot_recoverType [h : Now0 X K] {ti : TI} : Tot K (recoverType X ti) := by
  unfold recoverType
  tot

instance tot_recover [h : Now0 X K] : Tot K (exprRecover X) := by
  unfold exprRecover
  tot

instance tot_recoverCast [h : Now0 X K] : Tot K (exprRecoverCast X) := by
  unfold exprRecoverCast
  tot

instance tot_callback {m : M (Option (List (Option Tok)))} [h : Tot K m] [hm : Mon m] : Tot K (callback m) := by
  unfold callback
  tot

section
variable {f : Par} [hm : ∀ pc, Mon (f pc)] [hf : ∀ pc, Tot K (f pc)]

instance tot_sizeof {r : Rule} {tk : Tok} : Tot K (execSizeof f r tk) := by
  unfold execSizeof
  tot

instance tot_parens [h : Now0 X K] {r : Rule} {tk : Tok} : Tot K (execParens X f r tk) := by
  unfold execParens
  tot

instance tot_nud [h : Now0 X K] {r : Rule} {tk : Tok} : Tot K (nud X f r tk) := by
  unfold nud
  tot

instance tot_ternary {lhs : Ex} {tk : Tok} : Tot K (execTernary f lhs tk) := by
  unfold execTernary
  tot

instance tot_led {r : Rule} {tk : Tok} {lhs : Ex} : Tot K (led f r lhs tk) := by
  unfold led
  tot
end

section
variable {f : Par} [hm : ∀ pc, Mon (f pc)]

theorem tot_operand [h : Now0 X K] (hf : ∀ K' < K, ∀ pc, Tot K' (f pc)) {stop : Option Nat} :
    Tot K (operand X stop f) := by
  have hn : ∀ r K', K = K' + 1 → ∀ t, Tot K' (nud X f r t) := fun r K' hK t => by
    have := hf K' (by omega)
    have := h.mono (show K' ≤ K by omega)
    infer_instance
  unfold operand
  refine tot_exPeek ?_ fun t => ?_
  · tot
  dsimp only
  split
  · refine totN_tot (h := ?_)
    tot
  split
  · refine totN_skip inferInstance inferInstance (fun c => ?_) fun c K' hK => ?_
    · split
      · exact totN_tot
      · exact totN_pop fun t K' hK => hn _ K' hK t
    · have := fun r => hn r K' hK
      split
      · infer_instance
      · infer_instance
  · exact totN_pop fun t K' hK => hn _ K' hK t

theorem tot_exLoop (hf : ∀ K' < K, ∀ pc, Tot K' (f pc)) {stop : Option Nat} {pc : Nat} {ex : Ex} :
    Tot K (exLoop stop f pc ex) := by
  unfold exLoop
  refine tot_exPeek ?_ fun t => ?_
  · tot
  dsimp only
  split
  · exact totN_tot
  split
  · exact totN_tot
  refine totN_pop fun t K' hK => ?_
  have := hf K' (by omega)
  tot
end

theorem tot_exec1 (stop : Option Nat) : ∀ (n K pc : Nat), Now0 X K → K + 2 ≤ n → Tot K (exec1 X stop n pc)
  | 0, _, _, _, h => by omega
  | n + 1, K, pc, h0, h => by
    have hf : ∀ K' < K, ∀ pc, Tot K' (exec1 X stop n pc) := fun K' hk pc =>
      tot_exec1 stop n K' pc (h0.mono (by omega)) (by omega)
    have h1 : Tot K (operand X stop (exec1 X stop n)) := tot_operand hf
    have h2 : ∀ ex, Tot K (loop n (exLoop stop (exec1 X stop n) pc) ex) := fun ex =>
      tot_loop inferInstance inferInstance ex (by omega) fun a => tot_exLoop hf
    rw [exec1]
    tot

instance tot_exec1' [h0 : Now0 X K] [h : Late X K] {stop : Option Nat} {pc : Nat} :
    Tot K (exec1 X stop X.n pc) := tot_exec1 stop X.n K pc h0 h.fuel

instance tot_exprExec [h0 : Now0 X K] [h : Late X K] {a : EA} : Tot K (exprExec X a) := by
  unfold exprExec
  tot

instance tot_expr [h0 : Now0 X K] [h : Late X K] {a : EA} : Tot K (exprF X a) := by
  unfold exprF
  tot

instance tot_exprPeek [h0 : Now0 X K] [h : Late X K] : Tot K (exprPeek X) := by
  unfold exprPeek
  infer_instance

/-! ## Statements and the rest -/

theorem pIf_len {p : TT → Bool} {ts r : List Tok} (e : pIf p ts = some r) : r.length < ts.length := by
  cases ts with
  | nil => cases e
  | cons t ts =>
    rw [pIf] at e
    split at e
    · cases e
      simp
    · cases e

theorem pairGo_len {l r : TT} : ∀ {ts : List Tok} {n : Nat} {x : Tok × List Tok},
    pairGo l r n ts = some x → x.2.length < ts.length
  | [], _, _, e => by cases e
  | t :: ts, n, x, e => by
    rw [pairGo] at e
    by_cases h : (if t.ty = r then (if t.ty = l then n + 1 else n) - 1 else if t.ty = l then n + 1 else n) = 0
    · have e : some (t, ts) = some x := by simpa only [h, if_true] using e
      cases e
      simp
    · have e := (if_neg h).symm.trans e
      have := pairGo_len e
      simp only [List.length_cons]
      omega

theorem pair_len {l r : TT} {ts : List Tok} {x : Tok × List Tok} (e : pair l r ts = some x) :
    x.2.length < ts.length := by
  unfold pair at e
  split at e
  · exact pairGo_len e
  · cases e

/-- The tokens after a macro. -/
theorem loopRest_len {semi : Nat} {ts r : List Tok} (e : (match (pIf (is .ident) ts).bind parens with
      | some (rp, r) =>
        let nx := r.head?.getD eofTok
        if nx.id ≠ semi ∧ lineBefore rp nx then some r else none
      | none => none) = some r) : r.length < ts.length := by
  split at e
  · rename_i rp r' e'
    obtain ⟨a, h1, h2⟩ := Option.bind_eq_some_iff.mp e'
    have h1 := pIf_len h1
    have h2 := pair_len h2
    dsimp only at e h2
    split at e
    · cases e
      omega
    · cases e
  · cases e

theorem tot_after [h : All X K] {r : List Tok} {s : St} (hr : r.length ≤ K) (hl : r.length ≤ s.len) :
    ∃ x, (peeking (skip r >>= fun _ => withRoot (fun d => X.R.stmt d) >>= fun x =>
      pure (decide (x.1 = .good)))) s = some x := by
  have h1 : Tot K (withRoot (fun d => X.R.stmt d) >>= fun x => pure (decide (x.1 = .good))) := inferInstance
  obtain ⟨⟨a, s'⟩, e'⟩ := h1.run { s with
      done := (s.rest.take (s.rest.length - r.length)).reverse ++ s.done
      rest := s.rest.drop (s.rest.length - r.length) } (by
    simp only [St.len, List.length_drop] at hl ⊢
    omega)
  have e2 : (skip r >>= fun _ => withRoot (fun d => X.R.stmt d) >>= fun x => pure (decide (x.1 = .good)))
      s = some (a, s') := e'
  unfold peeking
  rw [e2]
  exact ⟨_, rfl⟩

theorem tot_loopRest (h : Late X K) {p : Option (List Tok)} {s : St} (hs : s.len ≤ K)
    (hp : ∀ r, p = some r → r.length < s.rest.length) :
    ∃ x, (match p with
      | none => (pure false : M Bool)
      | some r => peeking (skip r >>= fun _ => withRoot (fun d => X.R.stmt d) >>= fun x =>
        pure (decide (x.1 = Res.good)))) s = some x := by
  cases p with
  | none => exact ⟨_, rfl⟩
  | some r =>
    have hr := hp r rfl
    have hl : s.len = s.rest.length := rfl
    have hA := h.late r.length (by omega)
    exact tot_after (Nat.le_refl _) (by omega)

instance tot_isLoopStmt [h : Late X K] {n : Nat} : Tot K (isLoopStmt X n) := by
  refine ⟨fun s hs => ?_⟩
  unfold isLoopStmt
  rw [read_bind]
  exact tot_loopRest h hs fun r hr => loopRest_len hr

instance tot_stmtExpr [h : Late X K] [h0 : Now0 X K] [h1 : Now1 X K] : Tot K (stmtExpr X d) := by
  unfold stmtExpr
  tot

theorem tot_alts : ∀ ms : List (M Res), (∀ m ∈ ms, Mon m) → (∀ m ∈ ms, Tot K m) → Tot K (alts ms)
  | [], _, _ => inferInstanceAs (Tot K parserNone)
  | m :: ms, h, h' => by
    have := h m (by simp)
    have := h' m (by simp)
    have := mon_alts ms fun m' h1 => h m' (by simp [h1])
    have := tot_alts ms (fun m' h1 => h m' (by simp [h1])) fun m' h1 => h' m' (by simp [h1])
    unfold alts
    tot

instance tot_stmt [h : Late X K] [h0 : Now0 X K] [h1 : Now1 X K] [h2 : Now2 X K] : Tot K (stmtF X d) := by
  unfold stmtF
  refine tot_alts _ ?_ ?_
  · simp only [List.mem_cons, List.not_mem_nil, or_false, forall_eq_or_imp, forall_eq]
    refine ⟨?_, ?_, ?_, ?_, ?_, ?_, ?_, ?_, ?_, ?_, ?_, ?_, ?_, ?_, ?_, ?_, ?_⟩ <;> infer_instance
  · simp only [List.mem_cons, List.not_mem_nil, or_false, forall_eq_or_imp, forall_eq]
    refine ⟨?_, ?_, ?_, ?_, ?_, ?_, ?_, ?_, ?_, ?_, ?_, ?_, ?_, ?_, ?_, ?_, ?_⟩ <;> infer_instance

instance tot_externRound [h : All X K] {n : Nat} {u : Unit} : Tot K (externRound X d n u) := by
  unfold externRound
  tot

instance str_externRound' {n : Nat} {u : Unit} : Str false (externRound X d n u) goes := by
  unfold externRound
  str

instance [h : All X K] {n : Nat} {u : Unit} : Tot K (loop X.n (externRound X d n) u) := tot_loopX

theorem externPeek_head {ts : List Tok} {t : Tok} (e : externPeek ts = some t) :
    ∃ u r, ts = u :: r ∧ u.ty = .kExtern := by
  cases ts with
  | nil => cases e
  | cons u r =>
    refine ⟨u, r, rfl, ?_⟩
    by_cases h : u.ty = .kExtern
    · exact h
    · simp [externPeek, pIf, is, h] at e

instance tot_extern [h : Late X K] : Tot K (extern_ X d) := by
  refine ⟨fun s hs => ?_⟩
  unfold extern_
  rw [read_bind]
  cases e : externPeek s.rest with
  | none => exact ⟨_, rfl⟩
  | some rb =>
    obtain ⟨u, r, e1, e2⟩ := externPeek_head e
    have e3 : expectEmit .kExtern d s = emit u d { s with done := u :: s.done, rest := r } := by
      unfold expectEmit
      rw [bind_of (a := some u) (s1 := { s with done := u :: s.done, rest := r })]
      unfold expect
      rw [e1]
      simp only [e2, if_true]
    have hl : s.len = r.length + 1 := by simp [St.len, e1]
    have hA := h.late r.length (by omega)
    dsimp only
    rw [bind_of (a := ()) (by rw [e3]; rfl)]
    refine Tot.run (K := r.length) (self := ?_) _ (Nat.le_refl _)
    tot

instance tot_root [h : Late X K] [h0 : Now0 X K] [h1 : Now1 X K] [h2 : Now2 X K] : Tot K (rootF X d) := by
  unfold rootF
  tot

/-! ## The repaired `parser_type` -/

/-- What may be done at the end of the file: report an error. -/
class Guard (G : M (Unit ⊕ Res)) : Prop where
  mon : Mon G
  run : ∀ s, ∃ s', G s = some (.inr .fail, s')

instance mon_atEof : Mon atEof := by
  unfold atEof
  infer_instance

instance guard_atEof : Guard atEof := ⟨inferInstance, fun _ => ⟨_, rfl⟩⟩

variable {G : M (Unit ⊕ Res)} [hG : Guard G]

instance mon_typeRoundG {ti : TI} {u : Unit} : Mon (typeRoundG G X d ti u) := by
  refine ⟨fun s a s' e => ?_⟩
  unfold typeRoundG at e
  split at e
  · exact hG.mon.step _ _ _ e
  · exact mon_typeRound.step _ _ _ e

instance mon_typeG' {ti : TI} : Mon (typeG G X d ti) := by
  unfold typeG
  infer_instance

theorem at_typeRound {ti : TI} {u : Unit} : StrAt false more (typeRoundM X d ti u) any := by
  unfold typeRoundM
  exact at_first at_pop fun t => by mon

instance str_typeRoundG {ti : TI} {u : Unit} : Str false (typeRoundG G X d ti u) goes := by
  refine ⟨fun s a s' e ha he => ?_⟩
  unfold typeRoundG at e
  split at e
  · obtain ⟨s1, e1⟩ := hG.run s
    rw [e1] at e
    cases e
    cases ha
  · exact at_typeRound s a s' ‹_› e trivial he

instance str_typeG' {ti : TI} : Str false (typeG G X d ti) isGood := by
  unfold typeG
  refine str_loop (fun _ => inferInstance) (fun _ => inferInstance) _ _ ?_
  refine ⟨fun s a s' e ha he => ?_⟩
  unfold typeRoundG at e
  split at e
  · obtain ⟨s1, e1⟩ := hG.run s
    rw [e1] at e
    cases e
    obtain ⟨b, h1, h2⟩ := ha
    cases h1
    cases h2
  · exact at_typeRound s a s' ‹_› e trivial he

instance tot_typeRoundG [h : Late X K] {ti : TI} {u : Unit} : Tot K (typeRoundG G X d ti u) := by
  refine ⟨fun s hs => ?_⟩
  unfold typeRoundG
  split
  · obtain ⟨s1, e1⟩ := hG.run s
    exact ⟨_, e1⟩
  · have hN : TotN K (typeRoundM X d ti u) := by
      unfold typeRoundM
      refine totN_pop fun t K' hK => ?_
      have := h.late K' (by omega)
      tot
    exact hN s hs ‹_›

instance tot_typeG' [h : Late X K] {ti : TI} : Tot K (typeG G X d ti) := by
  unfold typeG
  exact tot_loopX

end

/-! ## All together -/

/-- What the functions of the repaired parser depend on. -/
abbrev cxG (G : M (Unit ⊕ Res)) (E : Env) (n : Nat) : Cx := { E := E, R := recsT (typeG G) E n, n := n }

instance recs_fixed {G : M (Unit ⊕ Res)} [hG : Guard G] (E : Env) : ∀ n, Recs (cxG G E n)
  | 0 => by
    refine ⟨⟨?_, ?_, ?_, ?_, ?_, ?_, ?_⟩, ⟨?_, ?_, ?_, ?_, ?_, ?_, ?_⟩, ⟨?_, ?_, ?_, ?_, ?_, ?_⟩, ?_⟩ <;>
    · intros
      refine ⟨fun s a s' e => ?_⟩
      cases e
  | n + 1 => by
    have h := recs_fixed (G := G) E n
    refine ⟨⟨fun a => ?_, fun d ti => ?_, fun d F => ?_, fun a b F => ?_, fun d => ?_, fun d F => ?_, fun d => ?_⟩,
      ⟨fun a => ?_, fun d ti => ?_, fun d F => ?_, fun a b F => ?_, fun d => ?_, fun d F => ?_, fun d => ?_⟩,
      ⟨fun a => ?_, fun d F => ?_, fun a b F => ?_, fun d => ?_, fun d F => ?_, fun d => ?_⟩, fun d ti => ?_⟩
    · exact mon_expr (X := cxG G E n)
    · exact mon_typeG' (X := cxG G E n)
    · exact mon_braces (X := cxG G E n)
    · exact mon_block (X := cxG G E n)
    · exact mon_stmt (X := cxG G E n)
    · exact mon_decl (X := cxG G E n)
    · exact mon_root (X := cxG G E n)
    · exact str_expr (X := cxG G E n)
    · exact ⟨fun s a s' e ha _ => (str_typeG' (X := cxG G E n)).run s a s' e ha (by simp)⟩
    · exact str_braces (X := cxG G E n)
    · exact str_block (X := cxG G E n)
    · exact str_stmt (X := cxG G E n)
    · exact str_decl (X := cxG G E n)
    · exact str_root (X := cxG G E n)
    · exact ok_expr (X := cxG G E n)
    · exact ok_braces (X := cxG G E n)
    · exact ok_block (X := cxG G E n)
    · exact ok_stmt (X := cxG G E n)
    · exact ok_decl (X := cxG G E n)
    · exact ok_root (X := cxG G E n)
    · exact str_typeG' (X := cxG G E n)

/-- The fuel needed for `K` tokens. -/
structure Enough (G : M (Unit ⊕ Res)) (E : Env) (n : Nat) : Prop where
  now0 : ∀ K, 4 * K + 3 ≤ n → Now0 (cxG G E n) K
  now1 : ∀ K, 4 * K + 4 ≤ n → Now1 (cxG G E n) K
  now2 : ∀ K, 4 * K + 5 ≤ n → Now2 (cxG G E n) K
  all : ∀ K, 4 * K + 6 ≤ n → All (cxG G E n) K

theorem enough {G : M (Unit ⊕ Res)} [hG : Guard G] (E : Env) : ∀ n, Enough G E n
  | 0 => ⟨fun _ h => by omega, fun _ h => by omega, fun _ h => by omega, fun _ h => by omega⟩
  | n + 1 => by
    have h := enough (G := G) E n
    have late : ∀ K, 4 * K + 3 ≤ n + 1 → Late (cxG G E n) K := fun K hK =>
      ⟨show K + 2 ≤ n by omega, fun K' hk => h.all K' (by omega)⟩
    have h0 : ∀ K, 4 * K + 3 ≤ n + 1 → Now0 (cxG G E (n + 1)) K := fun K hK => by
      have := late K hK
      exact ⟨fun d ti => tot_typeG' (X := cxG G E n), fun d F => tot_braces (X := cxG G E n),
        fun a b F => tot_block (X := cxG G E n)⟩
    have h1 : ∀ K, 4 * K + 4 ≤ n + 1 → Now1 (cxG G E (n + 1)) K := fun K hK => by
      have := late K (by omega)
      have := h.now0 K (by omega)
      exact ⟨fun a => tot_expr (X := cxG G E n)⟩
    have h2 : ∀ K, 4 * K + 5 ≤ n + 1 → Now2 (cxG G E (n + 1)) K := fun K hK => by
      have := late K (by omega)
      have := h.now0 K (by omega)
      have := h.now1 K (by omega)
      exact ⟨fun d F => tot_decl (X := cxG G E n)⟩
    refine ⟨h0, h1, h2, fun K hK => ?_⟩
    have g0 := h0 K (by omega)
    have g1 := h1 K (by omega)
    have g2 := h2 K (by omega)
    have := late K (by omega)
    have := h.now0 K (by omega)
    have := h.now1 K (by omega)
    have := h.now2 K (by omega)
    exact ⟨show K + 2 ≤ n + 1 by omega, g1.expr, g0.type, g0.braces, g0.block,
      fun d => tot_stmt (X := cxG G E n), g2.decl, fun d => tot_root (X := cxG G E n)⟩

instance mon_execRound {X : Cx} [Recs X] {d : Id} {u : Unit} : Mon (execRound X.R d u) := by
  unfold execRound
  mon

instance str_execRound {X : Cx} [Recs X] {d : Id} {u : Unit} : Str false (execRound X.R d u) goes := by
  unfold execRound
  str

instance tot_execRound {X : Cx} {K : Nat} [Recs X] [h : All X K] {d : Id} {u : Unit} :
    Tot K (execRound X.R d u) := by
  unfold execRound
  tot

/-- The repaired parser ends: with a nesting bounded by the number of tokens. -/
theorem parserRunG_ends {G : M (Unit ⊕ Res)} [hG : Guard G] (E : Env) (fuel : Nat) (ts : List Tok) (h : 4 * ts.length + 6 ≤ fuel) :
    ∃ r, parserRunT (typeG G) E fuel ts = some r := by
  have hA := (enough (G := G) E fuel).all ts.length h
  exact (tot_loop (fun _ => mon_execRound (X := cxG G E fuel)) (fun _ => str_execRound (X := cxG G E fuel))
    () (show ts.length < fuel by omega) fun _ => tot_execRound (X := cxG G E fuel)).run
      (start ts) (Nat.le_refl _)

/-- The parser that reports an error at the end of the file ends. -/
theorem parserRunFixed_ends (E : Env) (fuel : Nat) (ts : List Tok) (h : 4 * ts.length + 6 ≤ fuel) :
    ∃ r, parserRunFixed E fuel ts = some r := parserRunG_ends E fuel ts h

end Knfmt.Parse
