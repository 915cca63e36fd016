import Verif.Parse.Balance
/-!
# The parser never prints a token twice: expressions and the whole file
-/
namespace Knfmt.Parse
open Knfmt.Lexer (TT)
open Knfmt.Expr (Rule Func findRule)

section
variable {X : Cx} [hX : RecFree X] {d : Id}

/-! ## Callbacks -/

theorem bal_popDoc : Bal [] popDoc solid := by
  unfold popDoc
  exact bal_pop.bind fun t => (bal_withRoot' fun _ => bal_emit).bind fun x =>
    Bal.pure fun _ => Nat.le_refl _

/-- What a callback gives back. -/
def given (o : Option (List (Option Tok))) : List Tok := solid (o.getD [])

theorem bal_callback {m : M (Option (List (Option Tok)))} (h : Bal [] m given) : Bal [] (callback m) given := by
  unfold callback
  refine Bal.skip inferInstance fun n => ?_
  refine h.bind fun r => ?_
  cases r with
  | none => exact Bal.skip inferInstance fun _ => Bal.pure fun _ => Nat.le_refl _
  | some ts => exact Bal.pure fun _ => Nat.le_refl _

theorem bal_someDoc {m : M (List (Option Tok))} (h : Bal [] m solid) :
    Bal [] (m >>= fun ts => pure (some ts)) given :=
  h.bind fun _ => Bal.pure fun _ => Nat.le_refl _

theorem bal_typeDoc {m : Id → M Res} (h : ∀ d, Free (m d)) :
    Bal [] (withRoot m >>= fun x => if x.1 = .good then pure (some x.2) else pure none) given := by
  refine (bal_withRoot h).bind fun x => ?_
  split
  · exact Bal.pure fun _ => Nat.le_refl _
  · exact Bal.pure (by simp [given, solid])

theorem bal_recoverBraces : Bal [] (recoverBraces X) given := by
  intro s o s' e t ht
  unfold recoverBraces at e
  split at e
  · cases e
  · rename_i r ts s1 e1
    have h1 := bal_withRoot (fun d => hX.braces d { dedent := true }) _ _ _ e1 t ht
    dsimp only at h1
    split at e
    · cases e
      exact h1
    · split at e
      · split at e
        · cases e
        · rename_i r' _ ts' s2 e2
          have h2 := bal_withRoot (fun d => hX.block d d { gnu := true }) _ _ _ e2 t ht
          dsimp only [restore] at h2
          split at e
          · cases e
            exact h2
          · cases e
            simp only [given, Option.getD_none, num_nil, show solid [] = [] from rfl] at h2 ⊢
            omega
      · cases e
        simp only [given, Option.getD_none, num_nil, show solid [] = [] from rfl] at h1 ⊢
        omega

theorem bal_recoverType {ti : TI} : Bal [] (recoverType X ti) given := by
  unfold recoverType
  refine Bal.skip inferInstance fun _ => Bal.skip inferInstance fun _ => Bal.skip inferInstance fun _ => ?_
  dsimp only
  split
  · exact bal_typeDoc fun d => hX.type d ti
  · exact Bal.pure (by simp [given, solid])

theorem bal_recover : Bal [] (exprRecover X) given := by
  unfold exprRecover
  refine Bal.skip inferInstance fun _ => ?_
  split
  · exact bal_recoverType
  · refine Bal.skip inferInstance fun _ => ?_
    split
    · refine Bal.skip inferInstance fun _ => Bal.skip inferInstance fun _ => ?_
      split
      · exact bal_someDoc bal_popDoc
      · exact bal_pop.bind fun _ => Bal.pure (by simp [given, solid])
    · split
      · exact bal_recoverBraces
      · split
        · exact bal_someDoc bal_popDoc
        · exact Bal.pure (by simp [given, solid])

theorem bal_recoverCast : Bal [] (exprRecoverCast X) given := by
  unfold exprRecoverCast
  refine Bal.skip inferInstance fun _ => Bal.skip inferInstance fun _ => ?_
  split
  · exact Bal.pure (by simp [given, solid])
  · exact bal_typeDoc fun d => hX.type d _

/-! ## Parsing -/

/-- Any precedence will do. -/
def ParBal (f : Par) : Prop := ∀ pc, Bal [] (f pc) exToks

/-- How often a token occurs in a list of one. -/
def one (t x : Tok) : Nat := num t [x]

theorem num_one (t x : Tok) (a : List Tok) : num t (x :: a) = one t x + num t a := num_cons t x a

/-- Compare numbers of tokens. -/
macro "cnt" : tactic => `(tactic| (
  simp only [exToks, given, Option.toList, Option.getD, num_append, num_one, num_nil]; omega))

theorem bal_sizeof {f : Par} (hf : ParBal f) {r : Rule} {tk : Tok} :
    Bal [tk] (execSizeof f r tk) exToks := by
  unfold execSizeof
  refine Bal.give bal_lexIf fun l => ?_
  split
  · refine Bal.give (hf 0) fun e => ?_
    exact Bal.give bal_expect fun rp => Bal.pure fun t => by cnt
  · exact Bal.give (hf _) fun e => Bal.pure fun t => by cnt

theorem bal_parens {f : Par} (hf : ParBal f) {r : Rule} {tk : Tok} :
    Bal [tk] (execParens X f r tk) exToks := by
  unfold execParens
  refine Bal.give (bal_callback bal_recoverCast) fun c => ?_
  split
  · refine Bal.give bal_expect fun rp => ?_
    exact Bal.give (hf _) fun e => Bal.pure fun t => by cnt
  · refine Bal.give (hf 0) fun e => ?_
    exact Bal.give bal_expect fun rp => Bal.pure fun t => by cnt

theorem bal_nud {f : Par} (hf : ParBal f) {r : Rule} {tk : Tok} : Bal [tk] (nud X f r tk) exToks := by
  unfold nud
  split
  · exact Bal.pure fun t => by cnt
  · exact Bal.give (hf _) fun e => Bal.pure fun t => by cnt
  · exact Bal.give (hf _) fun e => Bal.pure fun t => by cnt
  · exact bal_sizeof hf
  · exact bal_parens hf
  · exact Bal.pure fun t => by cnt

theorem bal_led {f : Par} (hf : ParBal f) {r : Rule} {tk : Tok} {lhs : Ex} :
    Bal (exToks lhs ++ [tk]) (led f r lhs tk) exToks := by
  unfold led
  split
  · exact Bal.give (hf _) fun e => Bal.pure fun t => by cnt
  · exact Bal.pure fun t => by cnt
  · exact Bal.give (hf _) fun e => Bal.pure fun t => by cnt
  · refine Bal.give (hf 0) fun e => ?_
    exact Bal.give bal_expect fun rp => Bal.pure fun t => by cnt
  · exact Bal.pure fun t => by cnt
  · refine Bal.give (hf 0) fun e => ?_
    exact Bal.give bal_expect fun rp => Bal.pure fun t => by cnt
  · unfold execTernary
    refine Bal.give (hf 0) fun m => ?_
    refine Bal.give bal_expect fun c => ?_
    refine Bal.give (hf 1) fun e => ?_
    split
    · exact Bal.pure fun t => by cnt
    · exact Bal.pure fun t => by cnt
  · exact Bal.pure fun t => by cnt

instance free_exPeek {stop : Option Nat} : Free (exPeek stop) := free_read _

theorem bal_operand {f : Par} (hf : ParBal f) {stop : Option Nat} : Bal [] (operand X stop f) exToks := by
  unfold operand
  refine Bal.skip inferInstance fun tk => ?_
  split
  · exact Bal.pure fun t => by cnt
  · split
    · refine (bal_callback bal_recover).bind fun c => ?_
      split
      · exact Bal.pure fun t => by cnt
      · exact Bal.pure fun t => by cnt
    · split
      · refine (bal_callback bal_recover).bind fun c => ?_
        split
        · exact Bal.pure fun t => by cnt
        · exact bal_pop.bind fun _ => bal_nud hf
      · exact bal_pop.bind fun _ => bal_nud hf

theorem bal_exLoop {f : Par} (hf : ParBal f) {stop : Option Nat} {pc : Nat} {ex : Ex} :
    Bal (exToks ex) (exLoop stop f pc ex) (left exToks exToks) := by
  unfold exLoop
  refine Bal.skip inferInstance fun tk => ?_
  split
  · exact Bal.pure fun t => Nat.le_refl _
  · split
    · exact Bal.pure fun t => Nat.le_refl _
    · split
      · exact Bal.pure fun t => Nat.le_refl _
      · refine Bal.give bal_pop fun tk => ?_
        refine Bal.bind (G := exToks) (Bal.mono (bal_led hf) (fun t => by cnt) fun _ _ => Nat.le_refl _)
          fun x => ?_
        refine Bal.skip inferInstance fun e => ?_
        split
        · exact Bal.pure fun t => by simp [left, exToks]
        · exact Bal.pure fun t => Nat.le_refl _

theorem bal_exec1 {stop : Option Nat} : ∀ n, ParBal (exec1 X stop n)
  | 0 => fun pc => by intro s a s' e; cases e
  | n + 1 => by
    have hf := bal_exec1 (stop := stop) n
    intro pc
    rw [exec1]
    refine Bal.skip inferInstance fun p => ?_
    refine (bal_operand hf).bind fun x => ?_
    have fin : ∀ r : Ex, Bal (exToks r) (when (decide (r = .null)) (noteSwallow p) >>= fun _ => pure r)
        exToks := fun r => Bal.skip inferInstance fun _ => Bal.pure fun _ => Nat.le_refl _
    split
    · exact Bal.bind (G := exToks) (Bal.pure fun t => by cnt) fin
    · exact Bal.bind (Bal.loop (G := exToks) (fun _ => bal_exLoop hf) n x) fin

end

/-! ## Documents -/

section
variable {X : Cx} {d : Id}

/-- A document of the given tokens. -/
def DocB (m : Id → M Id) (w : List Tok) : Prop := ∀ d, Bal w (m d) fun _ => []

theorem DocB.opt {m : Id → M Id} {e : Ex} (h : DocB m (exToks e)) : DocB (docOpt e m) (exToks e) := by
  intro d
  unfold docOpt
  split
  · exact Bal.pure (by simp)
  · exact h d

theorem DocB.soft {m : Id → M Id} {w : List Tok} (h : DocB m w) : DocB (soft X m) w := by
  intro d
  unfold Parse.soft
  refine Bal.skip inferInstance fun b => ?_
  split
  · exact h d
  · refine Bal.skip inferInstance fun _ => Bal.skip inferInstance fun _ => Bal.skip inferInstance fun _ => ?_
    exact (h _).bind fun _ => Bal.drop inferInstance

theorem DocB.softIf {m : Id → M Id} {w : List Tok} (h : DocB m w) {b : Bool} : DocB (softIf X b m) w := by
  intro d
  unfold Parse.softIf
  split
  · exact h.soft d
  · exact h d

theorem docB_binary {op : Tok} {l r : Ex} {ml mr : Id → M Id} (hl : DocB ml (exToks l))
    (hr : DocB mr (exToks r)) : DocB (docBinary X op r ml mr) (exToks l ++ op :: exToks r) := by
  intro d
  unfold docBinary
  split
  · refine Bal.take (hl _) fun _ => Bal.skip inferInstance fun _ => ?_
    refine Bal.take (F := [op]) bal_emit fun _ => Bal.skip inferInstance fun _ => ?_
    split
    · exact Bal.pure (by simp)
    · refine Bal.skip inferInstance fun _ => Bal.skip inferInstance fun _ => Bal.skip inferInstance fun _ => ?_
      exact hr.softIf _
  · refine Bal.skip inferInstance fun _ => Bal.skip inferInstance fun _ => Bal.skip inferInstance fun _ => ?_
    refine Bal.take (hl _) fun _ => Bal.skip inferInstance fun _ => ?_
    split
    · refine Bal.skip inferInstance fun _ => Bal.skip inferInstance fun _ => Bal.skip inferInstance fun _ => ?_
      refine Bal.skip inferInstance fun _ => ?_
      refine Bal.take (F := [op]) bal_emit fun _ => Bal.skip inferInstance fun _ => ?_
      refine Bal.skip inferInstance fun _ => ?_
      exact hr.opt _
    · refine Bal.skip inferInstance fun _ => Bal.skip inferInstance fun _ => ?_
      refine Bal.take (F := [op]) bal_emit fun _ => Bal.skip inferInstance fun _ => ?_
      refine Bal.skip inferInstance fun _ => Bal.skip inferInstance fun _ => Bal.skip inferInstance fun _ => ?_
      refine Bal.skip inferInstance fun _ => ?_
      exact hr.soft.opt _

theorem docB_parens {l : Tok} {e : Ex} {r : Option Tok} {m : Id → M Id} (hm : DocB m (exToks e)) :
    DocB (docParens X l e r m) (l :: (exToks e ++ r.toList)) := by
  intro d
  unfold docParens
  refine Bal.take (F := [l]) bal_emit fun _ => Bal.skip inferInstance fun b => ?_
  split
  all_goals
    first
      | refine Bal.skip inferInstance fun _ => ?_
    refine Bal.take (hm.opt _) fun _ => ?_
    exact bal_emitOpt.bind fun _ => Bal.drop inferInstance

theorem docB_arg {op : Tok} {l r : Ex} {ml mr : Id → M Id} (hl : DocB ml (exToks l))
    (hr : DocB mr (exToks r)) : DocB (docArg X op l r ml mr) (exToks l ++ op :: exToks r) := by
  intro d
  unfold docArg
  refine Bal.take (hl.opt _) fun _ => ?_
  refine Bal.take (F := [op]) bal_emit fun _ => Bal.skip inferInstance fun _ => ?_
  refine Bal.skip inferInstance fun _ => Bal.skip inferInstance fun _ => ?_
  exact hr.soft.opt _

theorem docB_call {l : Tok} {f a : Ex} {r : Option Tok} {mf ma : Id → M Id}
    (hf : DocB mf (exToks f)) (ha : DocB ma (exToks a)) :
    DocB (docCall X l a r mf ma) (exToks f ++ l :: (exToks a ++ r.toList)) := by
  intro d
  unfold docCall
  refine Bal.skip inferInstance fun _ => ?_
  refine Bal.take (hf.softIf _) fun _ => ?_
  refine Bal.take (F := [l]) bal_emit fun _ => Bal.skip inferInstance fun _ => ?_
  have key : ∀ d, Bal (exToks a ++ r.toList) (do
      let d ← docOpt a (soft X ma) d
      let fold ← X.E.q 21
      let o ← if fold || r.isNone then pure d else indentIn d
      emitOpt r o
      return d) fun _ => [] := by
    intro d
    refine Bal.take (ha.soft.opt _) fun _ => Bal.skip inferInstance fun _ => ?_
    split
    all_goals
      refine Bal.skip inferInstance fun _ => ?_
      exact bal_emitOpt.bind fun _ => Bal.drop inferInstance
  split
  all_goals exact Bal.skip inferInstance key

theorem docB_ternary {q : Tok} {c m t : Ex} {colon : Option Tok} {mc mm mt : Id → M Id}
    (hc : DocB mc (exToks c)) (hm : DocB mm (exToks m)) (ht : DocB mt (exToks t)) :
    DocB (docTernary X q m colon mc mm mt)
      (exToks c ++ q :: (exToks m ++ (colon.toList ++ exToks t))) := by
  intro d
  unfold docTernary
  refine Bal.skip inferInstance fun _ => ?_
  split
  · refine Bal.take (hc _) fun _ => Bal.skip inferInstance fun _ => ?_
    refine Bal.skip inferInstance fun _ => Bal.skip inferInstance fun _ => Bal.skip inferInstance fun _ => ?_
    refine Bal.skip inferInstance fun _ => Bal.take (F := [q]) bal_emit fun _ => ?_
    refine Bal.skip inferInstance fun _ => Bal.take (hm.soft.opt _) fun _ => ?_
    refine Bal.skip inferInstance fun _ => Bal.skip inferInstance fun _ => Bal.skip inferInstance fun _ => ?_
    refine Bal.take bal_emitOpt fun _ => Bal.skip inferInstance fun _ => ?_
    exact ht _
  · refine Bal.take (hc _) fun _ => Bal.skip inferInstance fun _ => ?_
    refine Bal.take (F := [q]) bal_emit fun _ => Bal.skip inferInstance fun _ => ?_
    refine Bal.take (hm.soft.opt _) fun _ => Bal.skip inferInstance fun _ => ?_
    refine Bal.take bal_emitOpt fun _ => Bal.skip inferInstance fun _ => ?_
    exact ht.soft _

theorem docB_lit {t : Tok} : DocB (docLit t) [t] := by
  intro d
  unfold docLit
  refine Bal.skip inferInstance fun _ => ?_
  exact bal_emit.bind fun _ => Bal.drop inferInstance

theorem docB_expr (X : Cx) : ∀ (e : Ex) (inner : Bool) (d : Id),
    Bal (exToks e) (exprDoc X inner e d) fun _ => [] := by
  intro e
  have one : ∀ {e : Ex}, (∀ (inner : Bool) (d : Id), Bal (exToks e) (exprDoc X inner e d) fun _ => []) →
      DocB (fun d => exprDoc X false e d >>= fun x => pure x.1) (exToks e) :=
    fun he d => (he false d).bind fun _ => Bal.drop inferInstance
  have top : ∀ {w : List Tok} {m : Id → M Id} {d : Id}, DocB m w →
      Bal w (allocIn .group d >>= fun c => m c >>= fun r => pure (r, r)) fun _ => [] :=
    fun hm => Bal.skip inferInstance fun _ => (hm _).bind fun _ => Bal.drop inferInstance
  induction e with
  | null =>
    intro inner d
    exact top (m := fun c => pure c) fun _ => Bal.drop inferInstance
  | lit tk =>
    intro inner d
    exact top (m := fun c => emit tk c >>= fun _ => pure c)
      fun _ => bal_emit.bind fun _ => Bal.drop inferInstance
  | un op e ih =>
    intro inner d
    refine Bal.skip inferInstance fun c => ?_
    refine Bal.take (F := [op]) bal_emit fun _ => Bal.skip inferInstance fun _ => ?_
    exact ((one ih).opt _).bind fun _ => Bal.drop inferInstance
  | pre op e ih =>
    intro inner d
    refine Bal.skip inferInstance fun c => ?_
    refine Bal.take (F := [op]) bal_emit fun _ => Bal.skip inferInstance fun _ => ?_
    exact ((one ih).opt _).bind fun _ => Bal.drop inferInstance
  | post e op ih =>
    intro inner d
    refine Bal.skip inferInstance fun c => ?_
    refine Bal.take ((one ih).opt _) fun _ => Bal.skip inferInstance fun _ => ?_
    exact bal_emit.bind fun _ => Bal.drop inferInstance
  | bin l op r ihl ihr =>
    intro inner d
    by_cases hc : op.ty = .comma
    · have := top (d := d) (docB_arg (X := X) (op := op) (one ihl) (one ihr))
      unfold exprDoc
      simp only [hc, if_true]
      exact this
    · have := top (d := d) (docB_binary (X := X) (op := op) (one ihl) (one ihr))
      unfold exprDoc
      simp only [hc, if_false]
      exact this
  | tern c q m colon t ihc ihm iht =>
    intro inner d
    exact top (docB_ternary (X := X) (q := q) (colon := colon) (one ihc) (one ihm) (one iht))
  | parens l e r ih =>
    intro inner d
    exact top (docB_parens (X := X) (l := l) (r := r) (one ih))
  | call f l a r ihf iha =>
    intro inner d
    exact top (docB_call (X := X) (l := l) (r := r) (one ihf) (one iha))
  | squares f l i r ihf ihi =>
    intro inner d
    refine Bal.skip inferInstance fun c => ?_
    refine Bal.take ((one ihf).opt _) fun _ => ?_
    refine Bal.take (F := [l]) bal_emit fun _ => ?_
    refine Bal.take ((one ihi).opt _) fun _ => ?_
    exact bal_emitOpt.bind fun _ => Bal.drop inferInstance
  | field l op r ihl ihr =>
    intro inner d
    refine Bal.skip inferInstance fun c => ?_
    refine Bal.take ((one ihl) _) fun _ => Bal.skip inferInstance fun _ => ?_
    refine Bal.take (F := [op]) bal_emit fun _ => Bal.skip inferInstance fun _ => ?_
    exact ((one ihr).opt _).bind fun _ => Bal.drop inferInstance
  | cast l ts r e ih =>
    intro inner d
    refine Bal.skip inferInstance fun c => ?_
    refine Bal.take (F := [l]) bal_emit fun _ => Bal.skip inferInstance fun _ => ?_
    refine Bal.take bal_adopt fun _ => Bal.take bal_emitOpt fun _ => ?_
    exact ((one ih).opt _).bind fun _ => Bal.drop inferInstance
  | sizeofE tk e ih =>
    intro inner d
    exact top (m := fun c => emit tk c >>= fun _ => lay_ .blank c >>= fun _ =>
      docOpt e (fun d => (exprDoc X false e d) >>= fun x => pure x.1) c)
      fun _ => Bal.take (F := [tk]) bal_emit fun _ => Bal.skip inferInstance fun _ => (one ih).opt _
  | sizeofP tk l e r ih =>
    intro inner d
    refine Bal.skip inferInstance fun c => ?_
    refine Bal.take (F := [tk]) bal_emit fun _ => Bal.take (F := [l]) bal_emit fun _ => ?_
    refine Bal.take ((one ih).opt _) fun _ => ?_
    exact bal_emitOpt.bind fun _ => Bal.drop inferInstance
  | concat e tk ih =>
    intro inner d
    have key : ∀ g, Bal (exToks e ++ [tk]) (do
        let a ← X.E.q 26
        let d ← alignIf (!inner && a) g
        let x ← exprDoc X true e d
        lay_ .line x.2
        let t ← docLit tk x.1
        return (x.1, t)) fun _ => [] := by
      intro g
      refine Bal.skip inferInstance fun _ => Bal.skip inferInstance fun _ => ?_
      refine Bal.take (ih true _) fun _ => Bal.skip inferInstance fun _ => ?_
      exact (docB_lit _).bind fun _ => Bal.drop inferInstance
    unfold exprDoc
    split
    all_goals exact Bal.skip inferInstance key
  | recov ts =>
    intro inner d
    refine Bal.skip inferInstance fun c => ?_
    refine Bal.skip inferInstance fun _ => Bal.skip inferInstance fun _ => ?_
    exact bal_adopt.bind fun _ => Bal.drop inferInstance

end

section
variable {X : Cx} [hX : RecFree X]

instance free_exprExec {a : EA} : Free (exprExec X a) := by
  unfold exprExec
  refine ⟨(bal_exec1 X.n 0).bind fun ex => ?_⟩
  repeat' first
    | exact (docB_expr X ex false _).bind fun _ => Bal.drop inferInstance
    | exact Bal.drop inferInstance
    | (refine Bal.skip ?_ fun a => ?_; · infer_instance)
    | split
    | dsimp only

instance free_expr {a : EA} : Free (exprF X a) := by
  unfold exprF
  free

end

theorem free_never {α : Type} : Free (fun _ => none : M α) := ⟨fun _ _ _ e => by cases e⟩

theorem recFree (E : Env) : ∀ (n k : Nat), RecFree { E := E, R := recs E n, n := k }
  | 0, _ => ⟨fun _ => free_never, fun _ _ => free_never, fun _ _ => free_never, fun _ _ _ => free_never,
      fun _ => free_never, fun _ _ => free_never, fun _ => free_never⟩
  | n + 1, _ => by
    have := recFree E n n
    exact ⟨fun _ => free_expr (X := { E := E, R := recs E n, n := n }),
      fun _ _ => free_type (X := { E := E, R := recs E n, n := n }),
      fun _ _ => free_braces (X := { E := E, R := recs E n, n := n }),
      fun _ _ _ => free_block (X := { E := E, R := recs E n, n := n }),
      fun _ => free_stmt (X := { E := E, R := recs E n, n := n }),
      fun _ _ => free_decl (X := { E := E, R := recs E n, n := n }),
      fun _ => free_root (X := { E := E, R := recs E n, n := n })⟩

instance {E : Env} {n : Nat} {d : Id} : Free ((recs E n).root d) := (recFree E n 0).root d

/-- No token is printed more often than it occurs in the file, whatever happens. -/
theorem parserExec_count {E : Env} {fuel : Nat} {ts out : List Tok} {g : Ghost}
    (h : parserExec E fuel ts = some (out, g)) (ht : ∀ t ∈ ts, t.ty ≠ .eof) (t : Tok)
    (h' : t.ty ≠ .eof) : out.count t ≤ ts.count t := by
  obtain ⟨s', e, rfl, _, _, _, _, h6⟩ := @parserExec_run ⟨true⟩ _ _ _ _ _ h ht
  have : ∀ u, Free (execRound (recs E fuel) 0 u) := by
    intro u
    unfold execRound
    free
  have f : Free (loop fuel (execRound (recs E fuel) 0) ()) := inferInstance
  have := f.bal _ _ _ e t h'
  have h7 : toks (startSt ts).L = [] := rfl
  have h8 : (startSt ts).done = [] := rfl
  rw [h7, h8] at this
  simp only [num, List.count_nil, Nat.add_zero, Nat.zero_add] at this
  have h9 := h6.count_le t
  rw [List.count_reverse] at h9
  omega

end Knfmt.Parse
