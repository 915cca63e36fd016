import Verif.Parse.SepDecl
/-!
# The parser: white space between tokens, statements and the whole file
-/
namespace Knfmt.Parse.Sep
open Knfmt.Lexer (TT)
open Knfmt.Parse.Spec (near loose opHead opNexts)

attribute [local instance] strictM

variable {G : Prop} {s s' : St} {xs ys bs : List Id} {d : Id} {F F' : Nx} {α β : Type}
  {Q : β → St → Prop} {X : Cx}

theorem kp_peeking {m : M α} (h : wp m (fun _ s' => Mv s s') s) : wp (peeking m) (fun _ s' => Kp s s') s := by
  intro a s' e
  unfold peeking at e
  split at e
  · cases e
  · rename_i b s1 hm
    cases e
    exact kp_restore (h _ _ hm)

/-- Outcome of a statement. -/
def SP (G : Prop) (s' : St) (d : Id) (bs : List Id) (r : Res) : Prop :=
  (r = .good → D G s' (d :: bs) nope) ∧ (r ≠ .good → D G s' (d :: bs) all)

theorem SP.all {r : Res} (h : D G s (d :: bs) Sep.all) : SP G s d bs r := ⟨fun _ => h.no, fun _ => h⟩
theorem SP.err {r : Res} (e : s.err = true) : SP G s d bs r := SP.all (D.err e)

theorem SP.no {r : Res} (h : SP G s d bs r) : D G s (d :: bs) nope := by
  by_cases e : r = .good
  · exact h.1 e
  · exact (h.2 e).no

theorem SP.sub {r : Res} {c : Id} {ys : List Id} (h : SP G s c ys r) (hs : (d :: bs).Sublist (c :: ys)) :
    SP G s d bs r := ⟨fun e => (h.1 e).sub hs, fun e => (h.2 e).sub hs⟩

theorem sp_good (h : D G s xs F) (hs : (d :: bs).Sublist xs) :
    wp parserGood (fun r s' => SP G s' d bs r) s :=
  end_good ⟨fun _ => (h.sub hs).no, fun e => absurd rfl e⟩ fun e => SP.err e

theorem sp_fail : wp parserFail (fun r s' => SP G s' d bs r) s := wp_fail (SP.err rfl)

theorem sp_none (h : D G s xs all) (hs : (d :: bs).Sublist xs) :
    wp parserNone (fun r s' => SP G s' d bs r) s :=
  end_none (SP.all (h.sub hs)) fun e => SP.err e

theorem sp_semi {o : Id} (h : D G s xs F) (hs : (o :: ys).Sublist xs) (ho : (d :: bs).Sublist (o :: ys)) :
    wp (parserSemi o) (fun r s' => SP G s' d bs r) s :=
  wp_mono (sep_semi o _ _ _ _ _ h hs) fun _ _ h => SP.all (h.sub ho)

theorem sp_stmt (hS : RecSep X.R) {o : Id} (h : D G s xs all) (hs : (o :: ys).Sublist xs)
    (ho : (d :: bs).Sublist (o :: ys)) : wp (X.R.stmt o) (fun r s' => SP G s' d bs r) s :=
  wp_mono (hS.stmt o _ _ _ _ h hs) fun _ _ h => SP.sub h ho

/-! ## Blocks -/

theorem sep_block (hR : RecOk X.R) (hS : RecSep X.R) (hd tl : Id) (B : BF) : SBl (blockF X hd tl B) hd tl := by
  intro G s xs b1 bs F h hs ht
  unfold blockF
  refine wp_any fun p => ?_
  split
  · exact wp_nn (fun _ => wp_pure (.inr (.inl ⟨rfl, Kp.refl s⟩))) fun e => wp_pure (.inr (.inr ⟨rfl, e⟩))
  · rename_i rb _ _
    refine wp_bind (P := fun _ s' => D G s' xs F) ?_ fun _ s h => ?_
    · intro a s' e
      cases e
      exact h.kp ⟨rfl, Nat.le_refl _, fun o => o⟩
    refine g_xp h (fun s e => wp_fl (wp_pure (.inr (.inr ⟨rfl, rfl⟩)))) fun l s h hl _ _ => ?_
    dsimp only
    refine wp_q fun _ => ?_
    refine wp_bind (P := fun _ s' => D G s' xs F) (wp_when (fun _ => ?_) fun _ => h) fun _ s h => ?_
    · refine wp_bind (kp_peeking (wp_mono (Spec1.root (fun d => (hR.decl d {}).one) _) fun _ _ h => h.mv)) fun _ s' h' => wp_pure (h.kp h')
    refine wp_bind (h.emitC hs fun _ => cl_of hl rfl) fun _ s ⟨h, _⟩ => ?_
    refine wp_jp (P := fun i s' => ∃ ys, D G s' (i :: ys) all ∧ (tl :: bs).Sublist (i :: ys))
      (fun _ => wp_pure ⟨_, h.sub ht, List.Sublist.refl _⟩)
      (fun _ => wp_mono (g_indentIn h ht) fun _ _ h => ⟨_, h.1, by sub⟩) fun i s ⟨ys, h, hy⟩ => ?_
    refine wp_bind (g_lay h (by wh) (List.Sublist.refl _)) fun ln s ⟨h, _⟩ => ?_
    refine wp_peek fun pv => ?_
    refine wp_bind (P := fun _ s => D G s (i :: ys) nope) (wp_loop (fun _ s => D G s (i :: ys) all) ?_ _ _ _ h) fun n s h => ?_
    · intro v s h
      unfold blockRound
      refine wp_bind (hS.stmt _ _ _ _ _ h (List.Sublist.refl _)) fun r s hh => ?_
      refine wp_ite (fun _ => wp_inr (SP.no hh)) fun e => ?_
      have h := SP.no hh
      refine wp_peek fun nx => ?_
      refine wp_ite (fun _ => wp_inr h) fun _ => ?_
      refine wp_any fun _ => ?_
      refine wp_bind (g_layIf h (by wh) (by wh) (List.Sublist.refl _)) fun _ s ⟨h, _⟩ => ?_
      refine wp_peek fun _ => ?_
      exact wp_inl h
    · refine wp_bind (P := fun _ s => D G s (i :: ys) nope) (wp_when (fun _ => wp_mono (g_rmWhite h) fun _ _ h => h.1) fun _ => h) fun _ s h => ?_
      refine wp_bind (g_lay_ h (by wh) hy) fun _ s ⟨h, _⟩ => ?_
      refine wp_bind (g_allocIn h (List.Sublist.refl _)) fun c s ⟨h, _⟩ => ?_
      refine wp_bind (g_xeC h rfl (List.Sublist.refl _)) fun _ s ⟨h, _⟩ => ?_
      refine wp_peekIf fun _ => ?_
      refine wp_bind (P := fun _ s => D G s (c :: tl :: bs) all) (wp_when (fun _ => ?_) fun _ => h) fun _ s h => ?_
      · exact wp_bind (sep_semi _ _ _ _ _ _ h (List.Sublist.refl _)) fun _ s h => wp_pure h
      · exact wp_gd (fun _ => wp_pure (.inl ⟨_, _, rfl, h, List.Sublist.refl _⟩)) fun e => wp_pure (.inr (.inr ⟨rfl, e⟩))

/-! ## Statements -/

theorem sep_kwTail (hS : RecSep X.R) {stmt : Id} {ty : TT} {V : KF} {rp : Nat}
    (h : D G s (stmt :: d :: bs) F) : wp (kwTail X d stmt ty V rp) (fun r s' => SP G s' d bs r) s := by
  unfold kwTail
  refine wp_q fun _ => ?_
  refine wp_jp (P := fun o s => ∃ ys, D G s (o :: ys) F ∧ (stmt :: d :: bs).Sublist (o :: ys))
    (fun _ => wp_mono (g_allocIn h (List.Sublist.refl _)) fun _ _ h => ⟨_, h.1, by sub⟩)
    (fun _ => wp_pure ⟨_, h, List.Sublist.refl _⟩) fun o s ⟨ys, h, hy⟩ => ?_
  refine wp_bind (g_xeC h rfl (List.Sublist.refl _)) fun _ s ⟨h, _⟩ => ?_
  have key : ∀ {e : Id} {s : St} {zs : List Id} {F : Nx}, D G s (e :: zs) F → (d :: bs).Sublist (e :: zs) →
      wp (expectEmit .rparen e >>= fun _ => if V.dowhile then parserSemi e else
        peekIf .lbrace >>= fun lb => if lb then lay_ .blank e >>= fun _ =>
          X.R.block e d { trim := true, switch := decide (ty = .switch) } >>= fun y => pure y.1
        else indentIn d >>= fun i => lay_ .hardline i >>= fun _ => X.R.stmt i)
        (fun r s' => SP G s' d bs r) s := by
    intro e s zs F h hz
    refine wp_bind (g_xeC h rfl (List.Sublist.refl _)) fun _ s ⟨h, _⟩ => ?_
    refine wp_ite (fun _ => sp_semi h (List.Sublist.refl _) hz) fun _ => ?_
    refine wp_peekIf fun _ => ?_
    refine wp_ite (fun _ => ?_) fun _ => ?_
    · refine wp_bind (g_lay_ h (by wh) (List.Sublist.refl _)) fun _ s ⟨h, _⟩ => ?_
      refine wp_bind (hS.block _ _ _ _ _ _ _ _ _ h (List.Sublist.refl _) hz) fun y s hy => ?_
      rcases hy with ⟨c, ys, rfl, h, hy⟩ | ⟨rfl, k⟩ | ⟨e, e'⟩
      · exact wp_pure (SP.all (h.sub (hy.trans (List.sublist_cons_self _ _))))
      · exact wp_pure (SP.all ((h.kp k).sub hz))
      · exact wp_pure (SP.err e')
    · refine wp_bind (g_indentIn h hz) fun i s ⟨h, _⟩ => ?_
      refine wp_bind (g_lay_ h (by wh) (List.Sublist.refl _)) fun _ s ⟨h, _⟩ => ?_
      exact sp_stmt hS h (List.Sublist.refl _) (by sub)
  refine g_ex hS h hy (fun o s zs h hz => ?_) (fun s h _ => ?_) fun o s e => ?_
  · red
    exact key h ((List.sublist_cons_self _ _).trans (hz.trans (List.sublist_cons_self _ _)))
  · red
    exact key (h.sub hy) (List.sublist_cons_self _ _)
  · red
    exact sp_fail

theorem sep_kwExpr (hS : RecSep X.R) {ty : TT} {V : KF} (h : D G s xs all) (hs : (d :: bs).Sublist xs) :
    wp (kwExpr X d ty V) (fun r s' => SP G s' d bs r) s := by
  unfold kwExpr
  refine wp_jp (P := fun pre s => (pre = none ∧ V.elseif = true) ∨
    (V.elseif = true ∧ D G s xs all) ∨ (V.elseif = false ∧ pre = none ∧ D G s xs all)) (fun e => ?_) (fun e => ?_) fun pre s hp => ?_
  · refine wp_mono (expect_cases _ s) fun o s' ho => ?_
    rcases ho with ⟨rfl, _⟩ | ⟨t, rfl, e1, _⟩
    · exact .inl ⟨rfl, e⟩
    · exact .inr (.inl ⟨e, h.kp e1⟩)
  · exact wp_pure (.inr (.inr ⟨by simpa using e, rfl, h⟩))
  · refine wp_ite (fun _ => sp_fail) fun hn => ?_
    have h : D G s xs all ∧ (V.elseif = true ∨ pre = none) := by
      rcases hp with ⟨rfl, e⟩ | ⟨e, h⟩ | ⟨e, e', h⟩
      · exact absurd (by simp [e]) hn
      · exact ⟨h, .inl e⟩
      · exact ⟨h, .inr e'⟩
    obtain ⟨h, hv⟩ := h
    refine g_xp h (fun _ _ => sp_fail) fun kw s h _ _ _ => ?_
    dsimp only
    refine wp_any fun p => ?_
    split
    · exact sp_fail
    · refine wp_bind (g_allocIn h hs) fun stmt s ⟨h, _⟩ => ?_
      refine wp_bind (P := fun _ s => D G s (stmt :: d :: bs) nope ∧ (pre = none → D G s (stmt :: d :: bs) all)) ?_ fun _ s h => ?_
      · unfold emitOpt
        split
        · exact wp_mono (h.emit (List.Sublist.refl _) fun _ => .inl rfl) fun _ _ h => ⟨h.1.no, nofun⟩
        · exact wp_pure ⟨h.no, fun _ => h⟩
      refine wp_bind (P := fun _ s => D G s (stmt :: d :: bs) all) ?_ fun _ s h => ?_
      · refine wp_when (fun _ => ?_) fun e => ?_
        · exact wp_mono (g_lay_ h.1 (by wh) (List.Sublist.refl _)) fun _ _ h => h.1
        · refine h.2 (hv.resolve_left ?_)
          rw [e]
          nofun
      refine wp_bind (h.emit (List.Sublist.refl _) fun _ => .inl rfl) fun _ s ⟨h, _⟩ => ?_
      refine wp_bind (g_when_lay h (by wh) (List.Sublist.refl _)) fun _ s ⟨h, _⟩ => ?_
      exact sep_kwTail hS h

theorem sep_if (hS : RecSep X.R) (d : Id) : SS (stmtIf X d) d := by
  intro G s xs bs h hs
  unfold stmtIf
  refine wp_peekIf fun _ => ?_
  refine wp_ite (fun _ => sp_none h hs) fun _ => ?_
  refine wp_bind (sep_kwExpr hS h hs) fun r s h => ?_
  refine wp_ite (fun _ => sp_fail) fun _ => ?_
  refine wp_loop (fun _ s => D G s (d :: bs) nope) ?_ _ _ _ h.no
  intro _ s h
  unfold ifRound
  have gd : ∀ {s : St} {xs : List Id} {F : Nx}, D G s xs F → (d :: bs).Sublist xs →
      wp (parserGood >>= fun r => pure (Sum.inr r)) (fun (x : Unit ⊕ Res) s' =>
        (∀ n, x = .inl n → D G s' (d :: bs) nope) ∧ (∀ r, x = .inr r → SP G s' d bs r)) s :=
    fun h hs => wp_gd (fun _ => wp_inr ⟨fun _ => (h.sub hs).no, fun e => absurd rfl e⟩) fun e => wp_inr (SP.err e)
  have fl : ∀ {s : St}, wp (parserFail >>= fun r => pure (Sum.inr r)) (fun (x : Unit ⊕ Res) s' =>
        (∀ n, x = .inl n → D G s' (d :: bs) nope) ∧ (∀ r, x = .inr r → SP G s' d bs r)) s :=
    wp_fl (wp_inr (SP.err rfl))
  refine wp_peekIf fun _ => ?_
  refine wp_ite (fun _ => gd h (List.Sublist.refl _)) fun _ => ?_
  refine wp_q fun _ => ?_
  refine wp_bind (g_layIf h (by wh) (by wh) (List.Sublist.refl _)) fun _ s ⟨h, _⟩ => ?_
  refine wp_any fun _ => ?_
  refine wp_ite (fun _ => ?_) fun _ => ?_
  · refine wp_bind (sep_kwExpr hS h (List.Sublist.refl _)) fun r s h => ?_
    exact wp_ite (fun _ => fl) fun _ => wp_inl h.no
  · refine g_xp h (fun _ _ => fl) fun t s h _ _ _ => ?_
    dsimp only
    refine wp_bind (h.emit (List.Sublist.refl _) fun _ => .inl rfl) fun _ s ⟨h, _⟩ => ?_
    refine wp_bind (g_lay_ h (by wh) (List.Sublist.refl _)) fun _ s ⟨h, _⟩ => ?_
    refine wp_peekIf fun _ => ?_
    refine wp_ite (fun _ => ?_) fun _ => ?_
    · refine wp_bind (sp_stmt hS h (List.Sublist.refl _) (List.Sublist.refl _)) fun r s h => ?_
      exact wp_ite (fun _ => fl) fun _ => gd h.no (List.Sublist.refl _)
    · refine wp_bind (g_indentIn h (List.Sublist.refl _)) fun i s ⟨h, _⟩ => ?_
      refine wp_bind (g_lay_ h (by wh) (List.Sublist.refl _)) fun _ s ⟨h, _⟩ => ?_
      refine wp_bind (sp_stmt hS h (List.Sublist.refl _) (List.Sublist.refl _)) fun r s h => ?_
      exact wp_ite (fun _ => fl) fun _ => gd h.no (by sub)

theorem sep_forPart (hS : RecSep X.R) {b : Bool} {ty : TT} (hc : cl ty = true) (h : D G s xs F)
    (hF : b = true ∨ F = all) (hs : (d :: bs).Sublist xs) :
    wp (forPart X d b ty) (fun x s' => ∃ ys, D G s' (x.2 :: ys) all ∧ (d :: bs).Sublist (x.2 :: ys)) s := by
  unfold forPart
  refine g_exL hS hF h hs (fun o s zs h hz => ?_) (fun s h _ => ?_) fun o s e => ?_
  · red
    refine wp_bind (g_xeC h hc (List.Sublist.refl _)) fun _ s ⟨h, _⟩ => ?_
    exact wp_pure ⟨_, h, hz.trans (List.sublist_cons_self _ _)⟩
  · red
    refine wp_bind (g_xeC h hc hs) fun _ s ⟨h, _⟩ => ?_
    exact wp_pure ⟨_, h, List.Sublist.refl _⟩
  · red
    exact wp_fl (wp_pure ⟨_, D.err rfl, List.Sublist.refl _⟩)

theorem sep_for (hS : RecSep X.R) (d : Id) : SS (stmtFor X d) d := by
  intro G s xs bs h hs
  unfold stmtFor
  refine g_li h (fun _ => sp_none h hs) fun t s h _ _ _ => ?_
  dsimp only
  refine wp_bind (g_allocIn h hs) fun l s ⟨h, _⟩ => ?_
  refine wp_bind (h.emit (List.Sublist.refl _) fun _ => .inl rfl) fun _ s ⟨h, _⟩ => ?_
  refine wp_bind (g_lay_ h (by wh) (List.Sublist.refl _)) fun _ s ⟨h, _⟩ => ?_
  refine wp_bind (g_xeC h rfl (List.Sublist.refl _)) fun _ s ⟨h, _⟩ => ?_
  refine wp_bind (hS.decl _ _ _ _ _ _ h (List.Sublist.refl _)) fun r s hh => ?_
  refine wp_jp (P := fun _ s => D G s (l :: d :: bs) nope) (fun _ => wp_pure (SP.no hh))
    (fun e => wp_mono (sep_forPart hS rfl (hh.2 e) (.inr rfl) (List.Sublist.refl _)) fun _ _ ⟨_, h, hy⟩ => (h.sub hy).no)
    fun x s h => ?_
  refine wp_ite (fun _ => sp_fail) fun _ => ?_
  refine wp_bind (sep_forPart hS rfl h (.inl rfl) (List.Sublist.refl _)) fun x s ⟨ys, h, hy⟩ => ?_
  refine wp_ite (fun _ => sp_fail) fun _ => ?_
  refine wp_any fun _ => ?_
  refine wp_ite (fun _ => sp_fail) fun _ => ?_
  refine wp_bind (sep_forPart hS rfl h (.inl rfl) hy) fun x s ⟨ys, h, hy⟩ => ?_
  refine wp_ite (fun _ => sp_fail) fun _ => ?_
  refine wp_peekIf fun _ => ?_
  have hy : (d :: bs).Sublist (x.2 :: ys) := (List.sublist_cons_self _ _).trans hy
  refine wp_ite (fun _ => ?_) fun _ => ?_
  · refine wp_bind (g_lay_ h (by wh) (List.Sublist.refl _)) fun _ s ⟨h, _⟩ => ?_
    exact sp_stmt hS h hy (List.Sublist.refl _)
  · refine wp_bind (g_indentIn h hy) fun i s ⟨h, _⟩ => ?_
    refine wp_bind (g_lay_ h (by wh) (List.Sublist.refl _)) fun _ s ⟨h, _⟩ => ?_
    refine wp_bind (sp_stmt hS h (List.Sublist.refl _) (List.Sublist.refl _)) fun r s h => ?_
    exact wp_ite (fun _ => sp_fail) fun _ => sp_good h.no (by sub)

theorem sep_dowhile (hS : RecSep X.R) (d : Id) : SS (stmtDowhile X d) d := by
  intro G s xs bs h hs
  unfold stmtDowhile
  refine g_li h (fun _ => sp_none h hs) fun t s h _ _ _ => ?_
  dsimp only
  refine wp_bind (h.emit hs fun _ => .inl rfl) fun _ s ⟨h, _⟩ => ?_
  refine wp_peekIf fun _ => ?_
  refine wp_ite (fun _ => ?_) fun _ => ?_
  · refine wp_bind (g_lay_ h (by wh) (List.Sublist.refl _)) fun _ s ⟨h, _⟩ => ?_
    refine wp_bind (hS.block _ _ _ _ _ _ _ _ _ h (List.Sublist.refl _) (List.Sublist.refl _)) fun y s hy => ?_
    rcases hy with ⟨c, ys, rfl, h, hy⟩ | ⟨rfl, k⟩ | ⟨e, e'⟩
    · dsimp only
      refine wp_bind (g_lay_ h (by wh) (List.Sublist.refl _)) fun _ s ⟨h, _⟩ => ?_
      refine wp_peekIf fun _ => ?_
      refine wp_ite (fun _ => ?_) fun _ => sp_fail
      exact wp_mono (sep_kwExpr hS h (List.Sublist.refl _)) fun _ _ h => h.sub (hy.trans (List.sublist_cons_self _ _))
    · exact sp_fail
    · obtain ⟨r, o⟩ := y
      cases e
      exact sp_fail
  · refine wp_bind (g_indentIn h (List.Sublist.refl _)) fun i s ⟨h, _⟩ => ?_
    refine wp_bind (g_lay_ h (by wh) (List.Sublist.refl _)) fun _ s ⟨h, _⟩ => ?_
    refine wp_bind (sp_stmt hS h (List.Sublist.refl _) (List.Sublist.refl _)) fun r s h => ?_
    refine wp_bind (g_lay_ h.no (by wh) (bs := bs) (by sub)) fun _ s ⟨h, _⟩ => ?_
    refine wp_ite (fun _ => sp_fail) fun _ => ?_
    refine wp_peekIf fun _ => ?_
    exact wp_ite (fun _ => sep_kwExpr hS h (List.Sublist.refl _)) fun _ => sp_fail

theorem sep_label (hS : RecSep X.R) (d : Id) : SS (stmtLabel X d) d := by
  intro G s xs bs h hs
  unfold stmtLabel
  refine wp_any fun _ => ?_
  refine wp_ite (fun _ => sp_none h hs) fun _ => ?_
  refine wp_bind (g_allocIn h hs) fun ni s ⟨h, _⟩ => ?_
  refine wp_q fun _ => ?_
  refine wp_bind (g_when_lay h (by wh) (List.Sublist.refl _)) fun _ s ⟨h, _⟩ => ?_
  refine wp_bind (g_xe h (fun _ => .inl rfl) (List.Sublist.refl _)) fun _ s ⟨h, _⟩ => ?_
  refine g_xp h (fun s e => sp_good (F := all) (D.err e) (List.Sublist.refl _)) fun c s h hc _ _ => ?_
  dsimp only
  refine wp_bind (h.emitC (List.Sublist.refl _) fun _ => cl_of hc rfl) fun _ s ⟨h, _⟩ => ?_
  refine wp_peek fun _ => ?_
  refine wp_ite (fun _ => ?_) fun _ => sp_good h (by sub)
  refine wp_bind (g_indentIn h (bs := bs) (by sub)) fun i s ⟨h, _⟩ => ?_
  exact sp_stmt hS h (List.Sublist.refl _) (by sub)

theorem sep_case (hS : RecSep X.R) (d : Id) : SS (stmtCase X d) d := by
  intro G s xs bs h hs
  unfold stmtCase
  refine g_li h (fun _ => sp_none h hs) fun kw s h _ _ _ => ?_
  dsimp only
  refine wp_bind (g_allocIn h hs) fun lhs s ⟨h, _⟩ => ?_
  refine wp_bind (h.emit (List.Sublist.refl _) fun _ => .inl rfl) fun _ s ⟨h, _⟩ => ?_
  refine wp_any fun _ => ?_
  refine wp_ite (fun _ => sp_fail) fun _ => ?_
  refine wp_bind (P := fun _ s => D G s (lhs :: d :: bs) nope ∧ (kw.ty = .kCase → D G s (lhs :: d :: bs) all)) ?_ fun _ s h => ?_
  · refine wp_when (fun _ => ?_) fun e => ⟨h.no, fun e' => ?_⟩
    · exact wp_mono (g_lay_ h (by wh) (List.Sublist.refl _)) fun _ _ h => ⟨h.1.no, fun _ => h.1⟩
    · exact absurd e' (by simpa using e)
  refine wp_jp (P := fun _ s => D G s (lhs :: d :: bs) nope) (fun e => ?_) (fun _ => wp_pure h.1) fun x s h => ?_
  · refine wp_mono (hS.expr _ _ _ _ _ (h.2 e) (List.Sublist.refl _)) fun x s hx => ?_
    rcases hx with ⟨o, ys, _, e1, e2⟩ | ⟨_, e1⟩ | ⟨_, e2⟩
    · exact e1.sub (e2.trans (List.sublist_cons_self _ _))
    · exact h.1.kp e1
    · exact D.err e2
  refine wp_ite (fun _ => sp_fail) fun _ => ?_
  refine g_xp h (fun s e => sp_fail) fun c s h hc _ _ => ?_
  dsimp only
  refine wp_bind (h.emitC (List.Sublist.refl _) fun _ => cl_of hc rfl) fun _ s ⟨h, _⟩ => ?_
  refine wp_peekIf fun _ => ?_
  refine wp_bind (g_when_lay h (by wh) (List.Sublist.refl _)) fun _ s ⟨h, _⟩ => ?_
  refine wp_jp (P := fun _ s => D G s (d :: bs) nope) (fun _ => ?_)
    (fun _ => wp_pure ((h.sub (List.sublist_cons_self _ _)).no)) fun r s h => ?_
  · exact wp_mono (hS.stmt _ _ _ _ _ h (List.sublist_cons_self _ _)) fun _ _ h => SP.no h
  refine wp_ite (fun _ => sp_fail) fun _ => ?_
  refine wp_bind (g_indentIn h (List.Sublist.refl _)) fun i s ⟨h, _⟩ => ?_
  refine wp_bind (P := fun _ s => D G s (i :: d :: bs) nope) (wp_loop (fun _ s => D G s (i :: d :: bs) nope) ?_ _ _ _ h)
    fun _ s h => sp_good h (by sub)
  intro _ s h
  unfold caseRound
  refine wp_peekIf fun _ => wp_peekIf fun _ => ?_
  refine wp_ite (fun _ => wp_inr h) fun _ => ?_
  refine wp_peek fun _ => ?_
  refine wp_bind (g_lay h (by wh) (List.Sublist.refl _)) fun ln s ⟨h, _⟩ => ?_
  refine wp_bind (hS.stmt _ _ _ _ _ h (List.Sublist.refl _)) fun r s h => ?_
  refine wp_ite (fun _ => ?_) fun _ => wp_inl (SP.no h)
  exact wp_bind (g_rmWhite (SP.no h)) fun _ s h => wp_inr h.1

theorem sep_goto (d : Id) : SS (stmtGoto d) d := by
  intro G s xs bs h hs
  unfold stmtGoto
  refine g_li h (fun _ => sp_none h hs) fun kw s h _ _ _ => ?_
  dsimp only
  refine wp_bind (g_allocIn h hs) fun c s ⟨h, _⟩ => ?_
  refine wp_bind (h.emit (List.Sublist.refl _) fun _ => .inl rfl) fun _ s ⟨h, _⟩ => ?_
  refine wp_bind (g_lay_ h (by wh) (List.Sublist.refl _)) fun _ s ⟨h, _⟩ => ?_
  refine wp_bind (g_xe h (fun _ => .inl rfl) (List.Sublist.refl _)) fun _ s ⟨h, _⟩ => ?_
  exact sp_semi h (List.Sublist.refl _) (by sub)

theorem sep_kw (hS : RecSep X.R) (ty : TT) (d : Id) : SS (stmtKw X ty d) d := by
  intro G s xs bs h hs
  unfold stmtKw
  refine wp_peekIf fun _ => ?_
  exact wp_ite (fun _ => sp_none h hs) fun _ => sep_kwExpr hS h hs

theorem sep_word (ty : TT) (d : Id) : SS (stmtWord ty d) d := by
  intro G s xs bs h hs
  unfold stmtWord
  refine wp_peekIf fun _ => ?_
  refine wp_ite (fun _ => sp_none h hs) fun _ => ?_
  refine wp_bind (g_xe h (fun _ => .inl rfl) hs) fun _ s ⟨h, _⟩ => ?_
  exact sp_semi h (List.Sublist.refl _) (List.Sublist.refl _)

theorem sep_return (hS : RecSep X.R) (d : Id) : SS (stmtReturn X d) d := by
  intro G s xs bs h hs
  unfold stmtReturn
  refine g_li h (fun _ => sp_none h hs) fun kw s h _ _ _ => ?_
  dsimp only
  refine wp_bind (g_allocIn h hs) fun c s ⟨h, _⟩ => ?_
  refine wp_bind (h.emit (List.Sublist.refl _) fun _ => .inl rfl) fun _ s ⟨h, _⟩ => ?_
  refine wp_peekIf fun _ => ?_
  refine wp_ite (fun _ => sp_semi h (List.Sublist.refl _) (by sub)) fun _ => ?_
  refine wp_bind (g_lay_ h (by wh) (List.Sublist.refl _)) fun _ s ⟨h, _⟩ => ?_
  refine g_ex hS h (List.Sublist.refl _) (fun o s zs h hz => ?_) (fun s h _ => sp_fail) fun o s e => sp_fail
  exact sp_semi h (List.Sublist.refl _) (by sub)

theorem sep_stmtSemi (d : Id) : SS (stmtSemi d) d := by
  intro G s xs bs h hs
  unfold stmtSemi
  refine wp_peekIf fun _ => ?_
  exact wp_ite (fun _ => sp_none h hs) fun _ => sp_semi h hs (List.Sublist.refl _)

theorem sep_stmtCpp (hS : RecSep X.R) (d : Id) : SS (stmtCpp X d) d := by
  intro G s xs bs h hs
  unfold stmtCpp
  refine wp_any fun _ => ?_
  exact wp_ite (fun _ => sp_none h hs) fun _ => sep_kwExpr hS h hs

theorem kp_exprPeek (hR : RecOk X.R) (s : St) : wp (exprPeek X) (fun _ s' => Kp s s') s := by
  unfold exprPeek
  refine kp_peeking ?_
  refine wp_bind (eat_exec1 hR _ _ _ s) fun e s1 h => ?_
  refine wp_readv ?_
  refine wp_ite (fun _ => wp_pure h.mv) fun _ => ?_
  exact wp_peek fun _ => wp_pure h.mv

theorem kp_isLoopStmt (hR : RecOk X.R) (semi : Nat) (s : St) :
    wp (isLoopStmt X semi) (fun _ s' => Kp s s') s := by
  unfold isLoopStmt
  refine wp_any fun q => ?_
  split
  · exact wp_pure (Kp.refl s)
  · refine kp_peeking ?_
    refine wp_bind (mv_skip _) fun _ s1 h => ?_
    refine wp_bind (Spec1.root (fun d => hR.stmt d) _) fun x s' h' => ?_
    exact wp_pure (h.trans h'.mv)

theorem sep_stmtExpr (hR : RecOk X.R) (hS : RecSep X.R) (d : Id) : SS (stmtExpr X d) d := by
  intro G s xs bs h hs
  unfold stmtExpr
  refine wp_any fun _ => ?_
  refine wp_ite (fun _ => sp_none h hs) fun _ => ?_
  refine wp_bind (kp_exprPeek hR _) fun q s k => ?_
  have h := h.kp k
  split
  · exact sp_none h hs
  · refine wp_ite (fun _ => sp_none h hs) fun _ => ?_
    refine wp_bind (kp_isLoopStmt hR _ _) fun q s k => ?_
    have h := h.kp k
    refine wp_ite (fun _ => sp_none h hs) fun _ => ?_
    refine g_ex hS h hs (fun o s zs h hz => ?_) (fun s h _ => sp_fail) fun o s e => sp_fail
    exact sp_semi h (List.Sublist.refl _) (by sub)

theorem sep_alts (d : Id) : ∀ ms : List (M Res), (∀ m ∈ ms, SS m d) → SS (alts ms) d
  | [], _ => fun _ _ _ _ h hs => sp_none h hs
  | m :: ms, hm => by
    intro G s xs bs h hs
    unfold alts
    refine wp_bind (hm m (by simp) _ _ _ _ h hs) fun r s hh => ?_
    refine wp_ite (fun e => sp_good (hh.1 e) (List.Sublist.refl _)) fun e => ?_
    exact sep_alts d ms (fun m' h' => hm m' (by simp [h'])) _ _ _ _ (hh.2 e) (List.Sublist.refl _)

/-- `parser_stmt`. -/
theorem sep_stmt (hR : RecOk X.R) (hS : RecSep X.R) (d : Id) : SS (stmtF X d) d := by
  unfold stmtF
  refine sep_alts d _ ?_
  simp only [List.mem_cons, List.not_mem_nil, or_false, forall_eq_or_imp, forall_eq]
  refine ⟨?_, sep_stmtExpr hR hS d, sep_if hS d, sep_return hS d, hS.decl d _, sep_case hS d,
    sep_word _ d, sep_goto d, sep_for hS d, sep_kw hS _ d, sep_label hS d, sep_kw hS _ d,
    sep_word _ d, (sep_stmtAsm hS d).ss, sep_dowhile hS d, sep_stmtSemi d, sep_stmtCpp hS d⟩
  intro G s xs bs h hs
  refine wp_bind (hS.block d d _ _ _ _ _ _ _ h hs (List.Sublist.refl _)) fun y s hy => wp_pure ?_
  rcases hy with ⟨c, ys, rfl, h, hy⟩ | ⟨rfl, k⟩ | ⟨e, e'⟩
  · exact SP.all (h.sub (hy.trans (List.sublist_cons_self _ _)))
  · exact SP.all ((h.kp k).sub hs)
  · exact SP.err e'

/-! ## The file -/

theorem sep_extern (hS : RecSep X.R) (d : Id) : SW (extern_ X d) d := by
  intro G s xs bs h hs
  unfold extern_
  refine wp_any fun _ => ?_
  split
  · exact end_none (h.sub hs) fun _ => h.sub hs
  · refine wp_bind (g_xe h (fun _ => .inl rfl) hs) fun _ s ⟨h, _⟩ => ?_
    refine wp_bind (g_lay_ h (by wh) (List.Sublist.refl _)) fun _ s ⟨h, _⟩ => ?_
    refine wp_bind (g_xe h (fun _ => .inl rfl) (List.Sublist.refl _)) fun _ s ⟨h, _⟩ => ?_
    refine wp_bind (g_lay_ h (by wh) (List.Sublist.refl _)) fun _ s ⟨h, _⟩ => ?_
    refine wp_bind (g_xeC h rfl (List.Sublist.refl _)) fun _ s ⟨h, _⟩ => ?_
    refine wp_bind (g_lay_ h (by wh) (List.Sublist.refl _)) fun _ s ⟨h, _⟩ => ?_
    refine wp_bind (P := fun _ s => D G s (d :: bs) all) (wp_loop (fun _ s => D G s (d :: bs) all) ?_ _ _ _ h) fun r s h => ?_
    · intro _ s h
      unfold externRound
      refine wp_peek fun _ => ?_
      refine wp_ite (fun _ => wp_inr h) fun _ => ?_
      refine wp_bind (hS.root _ _ _ _ _ h (List.Sublist.refl _)) fun r s h => ?_
      cases r
      · exact wp_inl h
      · exact wp_inr h
      · exact wp_inr h
    · refine wp_ite (fun _ => wp_pure h) fun _ => ?_
      refine wp_bind (g_xeC h rfl (List.Sublist.refl _)) fun _ s ⟨h, _⟩ => ?_
      refine wp_bind (g_ie h rfl (List.Sublist.refl _)) fun _ s h => ?_
      refine wp_bind (g_lay_ h (by wh) (List.Sublist.refl _)) fun _ s ⟨h, _⟩ => ?_
      exact end_good h fun _ => h

/-- `parser_root`. -/
theorem sep_root (hS : RecSep X.R) (d : Id) : SW (rootF X d) d := by
  intro G s xs bs h hs
  unfold rootF
  refine wp_bind (hS.declLine _ _ rfl _ _ _ _ h hs) fun r s h => ?_
  refine wp_ite (fun _ => wp_pure h) fun _ => ?_
  refine wp_bind (sep_funcImpl hS _ _ _ _ _ h (List.Sublist.refl _)) fun r s h => ?_
  refine wp_ite (fun _ => wp_pure h) fun _ => ?_
  refine wp_bind (sep_extern hS _ _ _ _ _ h (List.Sublist.refl _)) fun r s h => ?_
  refine wp_ite (fun _ => wp_pure h) fun _ => ?_
  refine wp_bind (sep_rootAsm hS _ _ _ _ _ h (List.Sublist.refl _)) fun r s h => ?_
  exact wp_ite (fun _ => wp_pure h) fun _ => wp_fail (D.err rfl)

/-- All functions called recursively leave tokens apart. -/
theorem recs_sep (E : Env) : ∀ n, RecSep (recs E n)
  | 0 => ⟨fun _ _ _ _ _ _ _ => wp_never, fun _ _ _ _ _ _ _ _ _ => wp_never, fun _ _ _ _ _ _ _ _ => wp_never,
      fun _ _ _ _ _ _ _ _ _ => wp_never, fun _ _ _ _ _ _ _ _ _ _ _ _ => wp_never, fun _ _ _ _ _ _ _ => wp_never,
      fun _ _ _ _ _ _ _ _ => wp_never, fun _ _ _ _ _ _ _ _ _ => wp_never, fun _ _ _ _ _ _ _ => wp_never⟩
  | n + 1 => by
    have hR : RecOk ({ E := E, R := recs E n, n := n } : Cx).R := recs_ok E n
    have hS : RecSep ({ E := E, R := recs E n, n := n } : Cx).R := recs_sep E n
    exact ⟨fun a => sep_exprF hR hS a, fun a e => sep_exprL hR hS a e, fun d ti => sep_type hS d ti,
      fun d F => sep_braces hS d F, fun h t F => sep_block hR hS h t F, fun d => sep_stmt hR hS d,
      fun d F _ _ _ _ h hs => wp_mono (sep_declF hS d F h hs) fun _ _ h => h.2,
      fun d F e _ _ _ _ h hs => wp_mono (sep_declF hS d F h hs) fun _ _ h => h.1 e,
      fun d => sep_root hS d⟩

end Knfmt.Parse.Sep
