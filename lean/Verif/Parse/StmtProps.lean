import Verif.Parse.DeclProps
/-!
# The parser: statements and the whole file
-/
namespace Knfmt.Parse
open Knfmt.Lexer (TT)
open Knfmt.Parse.Spec (ends Tidy Tidy')

variable [Mode] {s0 s : St} {p : List Tok} {xs bs : List Id} {d : Id} {β : Type} {Q : β → St → Prop}

/-! ## Blocks -/

omit [Mode] in
theorem tidy_rmSemi (i : Nat) : ∀ (q : Bool) (ts : List Tok), Tidy' q ts (rmSemi i ts)
  | _, [] => .nil _
  | _, [t] => .keep _ t (.nil _)
  | _, t :: u :: ts => by
    unfold rmSemi
    split
    · rename_i h
      split
      · rename_i hu
        refine .keep _ t ?_
        have : ends t = true := by simp [ends, h.2]
        rw [this]
        exact .after u hu (Tidy'.refl _ _)
      · exact Tidy'.refl _ _
    · exact .keep _ t (tidy_rmSemi i _ (u :: ts))

theorem wp_rest {k : Unit → M β} {f : St → List Tok} (h : Cur s0 s [] xs)
    (hf : Tidy' (ctx s.done) s.rest (f s))
    (hk : ∀ s, Cur s0 s [] xs → wp (k ()) Q s) :
    wp ((fun s => some ((), { s with rest := f s }) : M Unit) >>= k) Q s := by
  refine wp_bind (P := fun _ s' => Eat s s' []) ?_ fun _ s' h' => hk s' (h.eat h')
  intro a s' e
  cases e
  exact ⟨rfl, Nat.le_refl _, fun o => o, [], rfl, hf, fun _ => .nil _⟩

theorem spec_block {X : Cx} (hR : RecOk X.R) (hd tl : Id) (F : BF) : SpecB (blockF X hd tl F) hd tl := by
  intro s0 b1 bs hi ht
  have h := Cur.refl hi
  unfold blockF
  go
  split
  · exact wp_nn (fun _ => wp_pure ⟨h.sub ht, by simp⟩) fun _ => wp_pure ⟨h.sub ht, by simp⟩
  · rename_i rb _
    refine wp_rest h (tidy_rmSemi _ _ _) fun s h => ?_
    refine wp_xp h ?_ fun l s _ _ h => ?_
    · exact wp_fl (wp_pure ⟨(h.err [] []).err _ _, by simp⟩)
    · dsimp only
      go
      refine wp_bind (P := fun _ s => Cur s0 s [l] (hd :: b1)) (wp_when (fun _ => ?_) fun _ => h)
        fun _ s h => ?_
      · refine wp_bind (eat_peeking (wp_mono (Spec1.root (fun d s bs hi =>
          wp_mono (hR.decl d {} s bs hi) fun _ _ h => h.1) _) fun _ _ h => h.mv))
          fun _ s' h' => wp_pure (h.eat h')
      · go
        refine wp_jp (P := fun i s => On s0 s [] i tl bs) (fun _ => ?_) (fun _ => ?_) fun i s h => ?_
        · exact wp_pure (On.self h ht)
        · exact wp_mono (wp_indentIn h ht) fun _ _ h => ⟨_, h, by sub⟩
        · obtain ⟨zs, h, hz⟩ := h
          go
          refine wp_bind (wp_lc h ?_) fun n s h => ?_
          · intro v s h
            unfold blockRound
            refine wp_bind ((hR.stmt _).cur h (List.Sublist.refl _)) fun r s h => ?_
            refine wp_ite (fun _ => ?_) fun _ => ?_
            · fin
            · go
              refine wp_ite (fun _ => ?_) fun _ => ?_
              · fin
              · go
                fin
          · go
            refine wp_bind (P := fun _ s => Cur s0 s [] _) (wp_when (fun _ => ?_) fun _ => h)
              fun _ s h => ?_
            · exact wp_bind ((spec_semi _).cur h (List.Sublist.refl _)) fun _ s h => wp_pure h
            · refine wp_gd (fun _ => wp_pure ⟨h.sub (by sub), fun _ => ⟨_, rfl, ?_⟩⟩)
                fun _ => wp_pure ⟨h.sub (by sub), by simp⟩
              exact On.mk h (List.Sublist.refl _) (by sub)

/-! ## Statements -/

theorem wp_kwTail {X : Cx} (hR : RecOk X.R) {stmt : Id} {ty : TT} {F : KF} {rp : Nat}
    (h : Cur s0 s [] (stmt :: d :: bs)) :
    wp (kwTail X d stmt ty F rp) (fun _ s' => Cur s0 s' [] (d :: bs)) s := by
  unfold kwTail
  go
  refine wp_jp (P := fun o s => On s0 s [] o stmt (d :: bs)) (fun _ => ?_) (fun _ => ?_) fun o s h => ?_
  · exact wp_mono (wp_allocIn h (by sub)) fun _ _ h => ⟨_, h, by sub⟩
  · exact wp_pure (On.self h (by sub))
  · obtain ⟨zs, h, hz⟩ := h
    go
    have key : ∀ {e : Id} {s : St} {zs : List Id}, Cur s0 s [] (e :: zs) → (d :: bs).Sublist (e :: zs) →
        wp (expectEmit .rparen e >>= fun _ => if F.dowhile then parserSemi e else
          peekIf .lbrace >>= fun lb => if lb then lay_ .blank e >>= fun _ =>
            X.R.block e d { trim := true, switch := decide (ty = .switch) } >>= fun y => pure y.1
          else indentIn d >>= fun i => lay_ .hardline i >>= fun _ => X.R.stmt i)
          (fun _ s' => Cur s0 s' [] (d :: bs)) s := by
      intro e s zs h hz
      go
      refine wp_ite (fun _ => ?_) fun _ => ?_
      · exact wp_mono ((spec_semi e).cur h (List.Sublist.refl _)) fun _ _ h => h.sub (by sub)
      · go
        refine wp_ite (fun _ => ?_) fun _ => ?_
        · go
          refine wp_bl hR h (List.Sublist.refl _) hz (fun o s zs h hz => ?_)
            (fun o s h => ?_) fun o s h => ?_
          · exact wp_pure (h.sub hz)
          · exact wp_pure h
          · exact wp_pure h
        · go
          exact wp_mono ((hR.stmt _).cur h (List.Sublist.refl _)) fun _ _ h => h.sub (by sub)
    refine wp_ex hR h hz (fun o s zs h hz => ?_) (fun o s h => ?_) fun o s h => ?_
    · red
      exact key h (by sub)
    · red
      exact key h (by sub)
    · red
      fin

theorem spec_kwExpr {X : Cx} (hR : RecOk X.R) (d : Id) (ty : TT) (F : KF) : Spec1 (kwExpr X d ty F) d := by
  intro s0 bs hi
  have h := Cur.refl hi
  unfold kwExpr
  refine wp_jp (P := fun o s => Cur s0 s o.toList (d :: bs)) (fun _ => ?_) (fun _ => ?_) fun pre s h => ?_
  · exact wp_expect h
  · exact wp_pure h
  · refine wp_ite (fun _ => ?_) fun _ => ?_
    · fin
    · refine wp_bind (wp_expect h) fun kw s h => ?_
      cases kw with
      | none => fin
      | some kw =>
        dsimp only
        go
        split
        · fin
        · have h : Cur s0 s (pre.toList ++ [kw]) (d :: bs) := h
          go
          exact wp_kwTail hR h

theorem spec_if {X : Cx} (hR : RecOk X.R) (d : Id) : Spec1 (stmtIf X d) d := by
  intro s0 bs hi
  have h := Cur.refl hi
  unfold stmtIf
  go
  refine wp_ite (fun _ => ?_) fun _ => ?_
  · fin
  · refine wp_bind ((spec_kwExpr hR _ _ _).cur h (List.Sublist.refl _)) fun r s h => ?_
    refine wp_ite (fun _ => ?_) fun _ => ?_
    · fin
    · refine wp_lc h ?_
      intro _ s h
      have gd : ∀ {s : St}, Cur s0 s [] (d :: bs) → wp (parserGood >>= fun r => pure (Sum.inr r))
          (fun (_ : Unit ⊕ Res) s' => Cur s0 s' [] (d :: bs)) s :=
        fun h => wp_gd (fun _ => wp_pure h) fun _ => wp_pure h
      have fl : ∀ {s : St} {p : List Tok} {xs : List Id}, Cur s0 s p xs →
          wp (parserFail >>= fun r => pure (Sum.inr r))
          (fun (_ : Unit ⊕ Res) s' => Cur s0 s' [] (d :: bs)) s :=
        fun h => wp_fl (wp_pure (h.err _ _))
      unfold ifRound
      go
      refine wp_ite (fun _ => ?_) fun _ => ?_
      · exact gd h
      · go
        refine wp_ite (fun _ => ?_) fun _ => ?_
        · refine wp_bind ((spec_kwExpr hR _ _ _).cur h (List.Sublist.refl _)) fun r s h => ?_
          refine wp_ite (fun _ => ?_) fun _ => ?_
          · exact fl h
          · fin
        · refine wp_xp h ?_ fun l s _ _ h => ?_
          · exact fl (h.err [] [])
          · dsimp only
            go
            refine wp_ite (fun _ => ?_) fun _ => ?_
            · refine wp_bind ((hR.stmt _).cur h (List.Sublist.refl _)) fun r s h => ?_
              refine wp_ite (fun _ => ?_) fun _ => ?_
              · exact fl h
              · exact gd h
            · go
              refine wp_bind ((hR.stmt _).cur h (List.Sublist.refl _)) fun r s h => ?_
              refine wp_ite (fun _ => ?_) fun _ => ?_
              · exact fl h
              · exact gd (h.sub (by sub))

theorem spec_forPart {X : Cx} (hR : RecOk X.R) (l : Id) (b : Bool) (ty : TT) :
    Spec1 (forPart X l b ty) l := by
  intro s0 bs hi
  have h := Cur.refl hi
  unfold forPart
  refine wp_ex hR h (List.Sublist.refl _) (fun o s zs h hz => ?_) (fun o s h => ?_) fun o s h => ?_
  · red
    go
    fin
  · red
    go
    fin
  · red
    exact wp_fl (wp_pure (h.err _ _))

theorem spec_for {X : Cx} (hR : RecOk X.R) (d : Id) : Spec1 (stmtFor X d) d := by
  intro s0 bs hi
  have h := Cur.refl hi
  unfold stmtFor
  refine wp_li h ?_ fun t s _ h => ?_
  · fin
  · dsimp only
    go
    refine wp_bind (hR.decl _ _ _ _ h.inv) fun x s' h' => ?_
    have h := h.trans h'.1
    refine wp_jp (fun _ => wp_pure h)
      (fun _ => (spec_forPart hR _ _ _).cur h (List.Sublist.refl _)) fun x s h => ?_
    refine wp_ite (fun _ => ?_) fun _ => ?_
    · fin
    · refine wp_bind ((spec_forPart hR _ _ _).cur h (List.Sublist.refl _)) fun x s h => ?_
      refine wp_ite (fun _ => ?_) fun _ => ?_
      · fin
      · go
        refine wp_ite (fun _ => ?_) fun _ => ?_
        · fin
        · refine wp_bind ((spec_forPart hR _ _ _).cur h (List.Sublist.refl _)) fun x s h => ?_
          refine wp_ite (fun _ => ?_) fun _ => ?_
          · fin
          · go
            refine wp_ite (fun _ => ?_) fun _ => ?_
            · go
              exact (hR.stmt _).cur h (by sub)
            · go
              refine wp_bind ((hR.stmt _).cur h (List.Sublist.refl _)) fun r s h => ?_
              refine wp_ite (fun _ => ?_) fun _ => ?_
              · fin
              · fin

theorem spec_dowhile {X : Cx} (hR : RecOk X.R) (d : Id) : Spec1 (stmtDowhile X d) d := by
  intro s0 bs hi
  have h := Cur.refl hi
  unfold stmtDowhile
  refine wp_li h ?_ fun t s _ h => ?_
  · fin
  · dsimp only
    go
    refine wp_ite (fun _ => ?_) fun _ => ?_
    · go
      refine wp_bl hR h (List.Sublist.refl _) (List.Sublist.refl _) (fun o s zs h hz => ?_)
        (fun o s h => ?_) fun o s h => ?_
      · dsimp only
        go
        refine wp_ite (fun _ => ?_) fun _ => ?_
        · exact wp_mono ((spec_kwExpr hR _ _ _).cur h (List.Sublist.refl _)) fun _ _ h => h.sub (by sub)
        · fin
      · fin
      · fin
    · go
      refine wp_bind ((hR.stmt _).cur h (List.Sublist.refl _)) fun r s h => ?_
      go
      refine wp_ite (fun _ => ?_) fun _ => ?_
      · fin
      · go
        refine wp_ite (fun _ => ?_) fun _ => ?_
        · exact (spec_kwExpr hR _ _ _).cur h (by sub)
        · fin

theorem spec_label {X : Cx} (hR : RecOk X.R) (d : Id) : Spec1 (stmtLabel X d) d := by
  intro s0 bs hi
  have h := Cur.refl hi
  unfold stmtLabel
  go
  refine wp_ite (fun _ => ?_) fun _ => ?_
  · fin
  · go
    refine wp_xp h ?_ fun l s _ _ h => ?_
    · have h := h.err [] (d :: bs)
      fin
    · dsimp only
      go
      refine wp_ite (fun _ => ?_) fun _ => ?_
      · go
        exact wp_mono ((hR.stmt _).cur h (List.Sublist.refl _)) fun _ _ h => h.sub (by sub)
      · fin

theorem spec_case {X : Cx} (hR : RecOk X.R) (d : Id) : Spec1 (stmtCase X d) d := by
  intro s0 bs hi
  have h := Cur.refl hi
  unfold stmtCase
  refine wp_li h ?_ fun kw s _ h => ?_
  · fin
  · dsimp only
    go
    refine wp_ite (fun _ => ?_) fun _ => ?_
    · fin
    · go
      refine wp_jp (P := fun _ s => Cur s0 s [] _) (fun _ => wp_mono (hR.expr _ _ _ h.inv) fun _ _ h' => h.trans h'.1)
        (fun _ => wp_pure h) fun x s h => ?_
      refine wp_ite (fun _ => ?_) fun _ => ?_
      · fin
      · refine wp_xp h ?_ fun l s _ _ h => ?_
        · exact wp_fail ((h.err [] []).err _ _)
        · dsimp only
          go
          refine wp_jp (P := fun _ s => Cur s0 s [] (d :: bs)) (fun _ => (hR.stmt _).cur h (by sub))
            (fun _ => wp_pure (h.sub (by sub))) fun x s h => ?_
          refine wp_ite (fun _ => ?_) fun _ => ?_
          · fin
          · go
            refine wp_bind (wp_lc h ?_) fun _ s h => ?_
            · intro _ s h
              unfold caseRound
              go
              refine wp_ite (fun _ => ?_) fun _ => ?_
              · fin
              · go
                refine wp_bind ((hR.stmt _).cur h (List.Sublist.refl _)) fun r s h => ?_
                refine wp_ite (fun _ => ?_) fun _ => ?_
                · go
                  fin
                · fin
            · fin

theorem spec_goto (d : Id) : Spec1 (stmtGoto d) d := by
  intro s0 bs hi
  have h := Cur.refl hi
  unfold stmtGoto
  refine wp_li h ?_ fun kw s _ h => ?_
  · fin
  · dsimp only
    go
    exact wp_mono ((spec_semi _).cur h (List.Sublist.refl _)) fun _ _ h => h.sub (by sub)

theorem spec_kw {X : Cx} (hR : RecOk X.R) (ty : TT) (d : Id) : Spec1 (stmtKw X ty d) d := by
  intro s0 bs hi
  have h := Cur.refl hi
  unfold stmtKw
  go
  refine wp_ite (fun _ => ?_) fun _ => ?_
  · fin
  · exact spec_kwExpr hR _ _ _ _ _ hi

theorem spec_word (ty : TT) (d : Id) : Spec1 (stmtWord ty d) d := by
  intro s0 bs hi
  have h := Cur.refl hi
  unfold stmtWord
  go
  refine wp_ite (fun _ => ?_) fun _ => ?_
  · fin
  · go
    exact (spec_semi _).cur h (List.Sublist.refl _)

theorem spec_return {X : Cx} (hR : RecOk X.R) (d : Id) : Spec1 (stmtReturn X d) d := by
  intro s0 bs hi
  have h := Cur.refl hi
  unfold stmtReturn
  refine wp_li h ?_ fun kw s _ h => ?_
  · fin
  · dsimp only
    go
    refine wp_ite (fun _ => ?_) fun _ => ?_
    · exact wp_mono ((spec_semi _).cur h (List.Sublist.refl _)) fun _ _ h => h.sub (by sub)
    · go
      refine wp_ex hR h (List.Sublist.refl _) (fun o s zs h hz => ?_) (fun o s h => ?_)
        fun o s h => ?_
      · exact wp_mono ((spec_semi _).cur h (List.Sublist.refl _)) fun _ _ h => h.sub (by sub)
      · fin
      · fin

theorem spec_stmtSemi (d : Id) : Spec1 (stmtSemi d) d := by
  intro s0 bs hi
  have h := Cur.refl hi
  unfold stmtSemi
  go
  refine wp_ite (fun _ => ?_) fun _ => ?_
  · fin
  · exact (spec_semi _).cur h (List.Sublist.refl _)

theorem spec_stmtCpp {X : Cx} (hR : RecOk X.R) (d : Id) : Spec1 (stmtCpp X d) d := by
  intro s0 bs hi
  have h := Cur.refl hi
  unfold stmtCpp
  go
  refine wp_ite (fun _ => ?_) fun _ => ?_
  · fin
  · exact spec_kwExpr hR _ _ _ _ _ hi

theorem eat_exprPeek {X : Cx} (hR : RecOk X.R) (s : St) :
    wp (exprPeek X) (fun _ s' => Eat s s' []) s := by
  unfold exprPeek
  refine eat_peeking ?_
  refine wp_bind (eat_exec1 hR _ _ _ s) fun e s1 h => ?_
  refine wp_readv ?_
  refine wp_ite (fun _ => wp_pure h.mv) fun _ => ?_
  exact wp_peek fun _ => wp_pure h.mv

omit [Mode] in
theorem mv_skip (r : List Tok) : wp (skip r) (fun _ s' => Mv s s') s := by
  intro a s' e
  unfold skip at e
  cases e
  refine ⟨Nat.le_refl _, s.rest.take (s.rest.length - r.length), rfl, ?_⟩
  rw [List.take_append_drop]
  exact Tidy'.refl _ _

theorem eat_isLoopStmt {X : Cx} (hR : RecOk X.R) (semi : Nat) (s : St) :
    wp (isLoopStmt X semi) (fun _ s' => Eat s s' []) s := by
  unfold isLoopStmt
  refine wp_any fun q => ?_
  split
  · exact wp_pure (Eat.refl s)
  · refine eat_peeking ?_
    refine wp_bind (mv_skip _) fun _ s1 h => ?_
    refine wp_bind (Spec1.root (fun d => hR.stmt d) _) fun x s' h' => ?_
    exact wp_pure (h.trans h'.mv)

theorem Cur.eat0 {s' : St} (h : Cur s0 s [] xs) (h' : Eat s s' []) : Cur s0 s' [] xs := h.eat h'

theorem spec_stmtExpr {X : Cx} (hR : RecOk X.R) (d : Id) : Spec1 (stmtExpr X d) d := by
  intro s0 bs hi
  have h := Cur.refl hi
  unfold stmtExpr
  go
  refine wp_ite (fun _ => ?_) fun _ => ?_
  · fin
  · refine wp_bind (eat_exprPeek hR _) fun q s' h' => ?_
    have h := h.eat0 h'
    split
    · fin
    · refine wp_ite (fun _ => ?_) fun _ => ?_
      · fin
      · refine wp_bind (eat_isLoopStmt hR _ _) fun q s' h' => ?_
        have h := h.eat0 h'
        refine wp_ite (fun _ => ?_) fun _ => ?_
        · fin
        · refine wp_ex hR h (List.Sublist.refl _) (fun o s zs h hz => ?_) (fun o s h => ?_)
            fun o s h => ?_
          · exact wp_mono ((spec_semi _).cur h (List.Sublist.refl _)) fun _ _ h => h.sub (by sub)
          · fin
          · fin

theorem spec_alts (d : Id) : ∀ ms : List (M Res), (∀ m ∈ ms, Spec1 m d) → Spec1 (alts ms) d
  | [], _ => by
    intro s0 bs hi
    have h := Cur.refl hi
    unfold alts
    fin
  | m :: ms, hm => by
    intro s0 bs hi
    have h := Cur.refl hi
    unfold alts
    refine wp_bind ((hm m (by simp)).cur h (List.Sublist.refl _)) fun r s h => ?_
    refine wp_ite (fun _ => ?_) fun _ => ?_
    · fin
    · exact (spec_alts d ms fun m' h' => hm m' (by simp [h'])).cur h (List.Sublist.refl _)

theorem SpecD.one {m : M Res} (h : SpecD m d) : Spec1 m d :=
  fun s bs hi => wp_mono (h s bs hi) fun _ _ h => h.1

/-- `parser_stmt`. -/
theorem spec_stmt {X : Cx} (hR : RecOk X.R) (d : Id) : Spec1 (stmtF X d) d := by
  unfold stmtF
  refine spec_alts d _ ?_
  simp only [List.mem_cons, List.not_mem_nil, or_false, forall_eq_or_imp, forall_eq]
  refine ⟨?_, spec_stmtExpr hR d, spec_if hR d, spec_return hR d, (hR.decl d _).one, spec_case hR d,
    spec_word _ d, spec_goto d, spec_for hR d, spec_kw hR _ d, spec_label hR d, spec_kw hR _ d,
    spec_word _ d, spec_stmtAsm hR d, spec_dowhile hR d, spec_stmtSemi d, spec_stmtCpp hR d⟩
  intro s0 bs hi
  exact wp_bind (hR.block d d _ _ _ _ hi (List.Sublist.refl _)) fun _ _ h => wp_pure h.1

/-! ## The file -/

theorem spec_extern {X : Cx} (hR : RecOk X.R) (d : Id) : Spec1 (extern_ X d) d := by
  intro s0 bs hi
  have h := Cur.refl hi
  unfold extern_
  go
  split
  · fin
  · go
    refine wp_bind (wp_lc h ?_) fun r s h => ?_
    · intro _ s h
      unfold externRound
      go
      refine wp_ite (fun _ => ?_) fun _ => ?_
      · fin
      · refine wp_bind ((hR.root _).cur h (List.Sublist.refl _)) fun r s h => ?_
        cases r <;> exact wp_pure h
    · refine wp_ite (fun _ => ?_) fun _ => ?_
      · fin
      · go
        fin

theorem spec_root {X : Cx} (hR : RecOk X.R) (d : Id) : Spec1 (rootF X d) d := by
  intro s0 bs hi
  have h := Cur.refl hi
  unfold rootF
  refine wp_bind ((hR.decl _ _).one.cur h (List.Sublist.refl _)) fun r s h => ?_
  refine wp_ite (fun _ => ?_) fun _ => ?_
  · fin
  · refine wp_bind ((spec_funcImpl hR _).cur h (List.Sublist.refl _)) fun r s h => ?_
    refine wp_ite (fun _ => ?_) fun _ => ?_
    · fin
    · refine wp_bind ((spec_extern hR _).cur h (List.Sublist.refl _)) fun r s h => ?_
      refine wp_ite (fun _ => ?_) fun _ => ?_
      · fin
      · refine wp_bind ((spec_rootAsm hR _).cur h (List.Sublist.refl _)) fun r s h => ?_
        refine wp_ite (fun _ => ?_) fun _ => ?_
        · fin
        · fin

omit [Mode] in
theorem wp_never {α : Type} {Q : α → St → Prop} : wp (fun _ => none : M α) Q s := by
  intro a s' e
  cases e

/-- All functions called recursively do what is assumed of them. -/
theorem recs_ok (E : Env) : ∀ n, RecOk (recs E n)
  | 0 => ⟨fun _ _ _ _ => wp_never, fun _ _ _ _ _ => wp_never, fun _ _ _ _ _ => wp_never,
      fun _ _ _ _ _ _ _ _ => wp_never, fun _ _ _ _ => wp_never, fun _ _ _ _ _ => wp_never,
      fun _ _ _ _ => wp_never⟩
  | n + 1 => by
    have ih := recs_ok E n
    have hX : RecOk ({ E := E, R := recs E n, n := n } : Cx).R := ih
    exact ⟨fun a => spec_expr hX a, fun d ti => spec_type hX d ti, fun d F => spec_braces hX d F,
      fun h t F => spec_block hX h t F, fun d => spec_stmt hX d, fun d F => spec_decl hX d F,
      fun d => spec_root hX d⟩

/-! ## No error is left unnoticed -/

/-- Upon success the lexer has not reported any error. -/
def Gd (m : M Res) : Prop := ∀ s, wp m (fun r s' => r = .good → s'.err = false) s

omit [Mode] in
theorem gd_bind {α : Type} {m : M α} {k : α → M Res} (h : ∀ a, Gd (k a)) : Gd (m >>= k) :=
  fun _ => wp_bind (P := fun _ _ => True) (fun _ _ _ => trivial) fun a s _ => h a s

omit [Mode] in
theorem gd_good : Gd parserGood := by
  intro s r s' e
  simp only [parserGood, read, Option.some.injEq, Prod.mk.injEq] at e
  obtain ⟨rfl, rfl⟩ := e
  cases s.err <;> simp

omit [Mode] in
theorem gd_none : Gd parserNone := by
  intro s r s' e
  simp only [parserNone, read, Option.some.injEq, Prod.mk.injEq] at e
  obtain ⟨rfl, rfl⟩ := e
  cases s.err <;> simp

omit [Mode] in
theorem gd_fail : Gd parserFail := by
  intro s r s' e
  simp only [parserFail, Option.some.injEq, Prod.mk.injEq] at e
  obtain ⟨rfl, rfl⟩ := e
  simp

omit [Mode] in
theorem gd_ret {r : Res} (h : r ≠ .good) : Gd (pure r) := fun _ => wp_pure fun e => absurd e h

omit [Mode] in
theorem gd_ite {c : Prop} [Decidable c] {m1 m2 : M Res} (h1 : c → Gd m1) (h2 : ¬ c → Gd m2) :
    Gd (if c then m1 else m2) := by
  split
  · exact h1 ‹_›
  · exact h2 ‹_›

omit [Mode] in
theorem gd_stop {r : Res} {m : M Res} (h : Gd m) : Gd (if r ≠ .good then pure r else m) :=
  gd_ite gd_ret fun _ => h

omit [Mode] in
theorem gd_decl {X : Cx} {F : DF} : Gd (declF X d F) := by
  unfold declF
  refine gd_bind fun _ => gd_bind fun _ => gd_ite (fun _ => ?_) fun _ => ?_
  · exact gd_bind fun _ => gd_none
  · exact gd_bind fun _ => gd_good

omit [Mode] in
theorem gd_funcImpl {X : Cx} : Gd (funcImpl X d) := by
  unfold funcImpl
  refine gd_bind fun _ => ?_
  split
  · refine gd_bind fun _ => gd_ite (fun _ => gd_fail) fun _ => gd_bind fun _ =>
      gd_ite (fun _ => gd_fail) fun _ => gd_bind fun _ => gd_bind fun _ => gd_bind fun _ =>
      gd_ite (fun _ => gd_fail) fun _ => gd_bind fun _ => gd_bind fun _ => gd_bind fun _ => gd_good
  · exact gd_none

omit [Mode] in
theorem gd_extern {X : Cx} : Gd (extern_ X d) := by
  unfold extern_
  refine gd_bind fun _ => ?_
  split
  · exact gd_none
  · exact gd_bind fun _ => gd_bind fun _ => gd_bind fun _ => gd_bind fun _ => gd_bind fun _ =>
      gd_bind fun _ => gd_bind fun _ => gd_stop <| gd_bind fun _ => gd_bind fun _ =>
      gd_bind fun _ => gd_good

omit [Mode] in
theorem gd_rootAsm {X : Cx} : Gd (rootAsm X d) := by
  unfold rootAsm
  exact gd_bind fun _ => gd_stop <| gd_bind fun _ => gd_good

omit [Mode] in
theorem gd_next {m k : M Res} (hm : Gd m) (hk : Gd k) :
    Gd (m >>= fun r => if r ≠ .non then pure r else k) := by
  intro s
  refine wp_bind (hm s) fun r s' h => wp_ite (fun _ => wp_pure h) fun _ => hk s'

omit [Mode] in
theorem gd_root {X : Cx} (h : ∀ F, Gd (X.R.decl d F)) : Gd (rootF X d) := by
  unfold rootF
  exact gd_next (h _) <| gd_next gd_funcImpl <| gd_next gd_extern <| gd_next gd_rootAsm gd_fail

omit [Mode] in
theorem gd_recs (E : Env) : ∀ n, Gd ((recs E n).root d)
  | 0 => fun _ => wp_never
  | 1 => gd_root fun _ _ => wp_never
  | _ + 2 => gd_root fun _ => gd_decl

/-- The state of the parser before it starts. -/
def startSt (ts : List Tok) : St :=
  { done := [], rest := ts, L := [.opn 0 .root, .cls 0], next := 1 }

theorem inv_start (ts : List Tok) : Inv (startSt ts) [0] :=
  fun _ => ⟨⟨by simp [startSt, closes], by simp [startSt, closes], by simp [startSt, opens]⟩,
    [.opn 0 .root], [.cls 0], rfl, rfl, by simp⟩

/-- What is known about a run that ends well. -/
theorem parserExec_run {E : Env} {fuel : Nat} {ts out : List Tok} {g : Ghost}
    (h : parserExec E fuel ts = some (out, g)) (ht : ∀ t ∈ ts, t.ty ≠ .eof) :
    ∃ s', loop fuel (execRound (recs E fuel) 0) () (startSt ts) = some (true, s') ∧
      out = toks s'.L ∧ g = s'.gh ∧ Cur (startSt ts) s' [] [0] ∧ s'.err = false ∧ s'.rest = [] ∧
      s'.done.reverse.Sublist ts := by
  have hR := recs_ok E fuel
  have key : wp (loop fuel (execRound (recs E fuel) 0) ()) (fun b s => b = true →
      Cur (startSt ts) s [] [0] ∧ s.err = false ∧ (nxt s).ty = .eof) (startSt ts) := by
    refine wp_loop (fun _ s => Cur (startSt ts) s [] [0] ∧ s.err = false) ?_ _ _ _
      ⟨Cur.refl (inv_start ts), rfl⟩
    intro _ s h
    unfold execRound peek
    refine wp_readv ?_
    refine wp_ite (fun he => wp_pure ?_) fun _ => ?_
    · exact ⟨(fun _ e => by cases e), fun b e _ => ⟨h.1, h.2, he⟩⟩
    · refine wp_bind (wp_alloc h.1 (List.Sublist.refl _)) fun c s h => ?_
      refine wp_bind (P := fun r s => Cur (startSt ts) s [] [0] ∧ (r = .good → s.err = false)) ?_
        fun r s h => ?_
      · intro r s' e
        exact ⟨((hR.root c).cur h (List.Sublist.refl _) r s' e).sub (by sub),
          gd_recs E fuel s r s' e⟩
      · refine wp_ite (fun hr => wp_pure ?_) fun _ => wp_pure ?_
        · exact ⟨fun _ _ => ⟨h.1, h.2 hr⟩, (fun _ e => by cases e)⟩
        · exact ⟨(fun _ e => by cases e), (fun b e hb => by cases e; cases hb)⟩
  unfold parserExec at h
  dsimp only at h
  split at h
  · rename_i s' e
    simp only [Option.some.injEq, Prod.mk.injEq] at h
    obtain ⟨rfl, rfl⟩ := h
    obtain ⟨h0, h4, h5⟩ := key _ _ e rfl
    have h0' := h0
    obtain ⟨_, _, c, h1, h2, _⟩ := h0
    have h2 : Tidy' false ts (c ++ s'.rest) := h2
    have h7 : s'.rest = [] := by
      cases hr : s'.rest with
      | nil => rfl
      | cons t r =>
        refine absurd h5 ?_
        simp only [nxt, hr, List.head?_cons, Option.getD_some]
        exact ht t (h2.sublist.subset (by simp [hr]))
    refine ⟨s', e, rfl, rfl, h0', h4, h7, ?_⟩
    rw [h1]
    rw [h7, List.append_nil] at h2
    simpa [startSt] using h2.sublist
  · cases h

/-- What has been printed. -/
theorem parserExec_rel {E : Env} {fuel : Nat} {ts out : List Tok} {g : Ghost}
    (h : parserExec E fuel ts = some (out, g)) (ht : ∀ t ∈ ts, t.ty ≠ .eof) (hg : okGh g) :
    Rel false ts out := by
  obtain ⟨s', _, rfl, rfl, ⟨_, _, c, h1, h2, h3⟩, h4, h5, h6⟩ := parserExec_run h ht
  have o : ok s' := ⟨h4, hg, fun t hm => ht t (h6.subset (by simpa using hm))⟩
  obtain ⟨_, _, y, h8, h9⟩ := h3 o
  have h2 : Tidy' false ts (c ++ s'.rest) := h2
  have h9 : Rel false c (y ++ []) := h9
  rw [h5, List.append_nil] at h2
  rw [List.append_nil] at h9
  have h10 : Rel false ts y := (Rel.of h2).trans h9
  have h8 : kf (toks s'.L) = kf y := h8
  by_cases hm : Mode.strict = true
  · rw [kf_strict hm, kf_strict hm] at h8
    rw [h8]
    exact h10
  · rw [kf_loose hm, kf_loose hm] at h8
    exact ⟨fun m => absurd m hm, Eq.trans h8 h10.2⟩

omit [Mode] in
/-- The document holds all tokens but redundant semicolons, in order. -/
theorem parserExec_tidy {E : Env} {fuel : Nat} {ts out : List Tok} {g : Ghost}
    (h : parserExec E fuel ts = some (out, g)) (ht : ∀ t ∈ ts, t.ty ≠ .eof)
    (hs : g.swallowed = false) (hl : g.lost = false) (hm : g.misplaced = false) : Tidy ts out := by
  letI : Mode := ⟨true⟩
  exact (parserExec_rel h ht ⟨hs, hl, fun _ => hm⟩).1 rfl

omit [Mode] in
/-- The document holds all tokens but semicolons in order, even if a semicolon has been misplaced. -/
theorem parserExec_noSemi {E : Env} {fuel : Nat} {ts out : List Tok} {g : Ghost}
    (h : parserExec E fuel ts = some (out, g)) (ht : ∀ t ∈ ts, t.ty ≠ .eof)
    (hs : g.swallowed = false) (hl : g.lost = false) :
    out.filter (fun t => decide (t.ty ≠ .semi)) = ts.filter (fun t => decide (t.ty ≠ .semi)) := by
  letI : Mode := ⟨false⟩
  exact (parserExec_rel h ht ⟨hs, hl, fun e => by cases e⟩).2

end Knfmt.Parse
