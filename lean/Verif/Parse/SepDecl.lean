import Verif.Parse.SepPart
/-!
# The parser: white space between tokens, braces, functions and declarations
-/
namespace Knfmt.Parse.Sep
open Knfmt.Lexer (TT)
open Knfmt.Parse.Spec (near loose opHead opNexts)

attribute [local instance] strictM

variable {G : Prop} {s s' : St} {xs ys bs : List Id} {d : Id} {F F' : Nx} {α β : Type}
  {Q : β → St → Prop} {X : Cx}

theorem ty_is {t : Tok} {ty : TT} (h : is ty t.ty = true) : t.ty = ty := by simpa [is] using h

/-! ## parser-braces.c -/

/-- What one part of the name of a field does. -/
def Fd (G : Prop) (s s' : St) (d : Id) (bs : List Id) (r : Res) : Prop :=
  (r = .good → ∃ F, F .period = true ∧ D G s' (d :: bs) F) ∧ (r = .non → s' = s) ∧
  (r = .fail → s'.err = true)

theorem fd_good {s0 : St} (h : D G s xs F) (hs : (d :: bs).Sublist xs) (hF : F .period = true) :
    wp parserGood (fun r s' => Fd G s0 s' d bs r) s :=
  end_good ⟨fun _ => ⟨F, hF, h.sub hs⟩, nofun, nofun⟩ fun e => ⟨nofun, nofun, fun _ => e⟩

theorem fd_fail {s0 : St} : wp parserFail (fun r s' => Fd G s0 s' d bs r) s :=
  wp_fail ⟨nofun, nofun, fun _ => rfl⟩

theorem sep_bracesField1 (hS : RecSep X.R) {enum : Bool} (h : D G s xs F) (hs : (d :: bs).Sublist xs)
    (hF : F .period = true) : wp (bracesField1 X enum d) (fun r s' => Fd G s s' d bs r) s := by
  unfold bracesField1
  refine g_li h (fun _ => ?_) fun t s1 h ht _ _ => ?_
  · refine g_li h (fun _ => ?_) fun t s1 h ht _ _ => ?_
    · refine g_li h (fun _ => ?_) fun t s1 h ht _ _ => ?_
      · exact end_none ⟨nofun, fun _ => rfl, nofun⟩ fun e => ⟨nofun, nofun, fun _ => e⟩
      · have ht := ty_is ht
        dsimp only
        refine wp_bind (g_glue h hs) fun _ s ⟨h, _⟩ => ?_
        refine wp_bind (h.emit (List.Sublist.refl _) fun _ => .inl (by simp [ht])) fun _ s ⟨h, _⟩ => ?_
        rw [ht] at h
        refine wp_ite (fun _ => ?_) fun _ => ?_
        · refine g_li h (fun _ => ?_) fun t s1 h ht _ _ => ?_
          · exact fd_good h (List.Sublist.refl _) rfl
          · have ht := ty_is ht
            dsimp only
            refine wp_bind (h.emitC (List.Sublist.refl _) fun _ => cl_of ht rfl) fun _ s ⟨h, _⟩ => ?_
            refine g_ex hS h (List.Sublist.refl _) (fun o s ys h hy => ?_) (fun s h _ => ?_) fun o s e => ?_
            · red
              refine wp_bind (g_xeC h rfl (List.Sublist.refl _)) fun _ s ⟨h, _⟩ => ?_
              exact fd_good h (by sub) rfl
            · red
              refine wp_bind (g_xeC h rfl (List.Sublist.refl _)) fun _ s ⟨h, _⟩ => ?_
              exact fd_good h (by sub) rfl
            · red
              exact fd_fail
        · exact fd_good h (List.Sublist.refl _) rfl
    · have ht := ty_is ht
      dsimp only
      refine wp_bind (h.emit hs fun _ => .inl (by rw [ht]; exact hF)) fun _ s ⟨h, _⟩ => ?_
      rw [ht] at h
      refine wp_bind (g_xe h (fun _ => .inl rfl) (List.Sublist.refl _)) fun _ s ⟨h, _⟩ => ?_
      exact fd_good h (List.Sublist.refl _) rfl
  · have ht := ty_is ht
    dsimp only
    refine wp_bind (h.emitC hs fun _ => cl_of ht rfl) fun _ s ⟨h, _⟩ => ?_
    refine g_ex hS h (List.Sublist.refl _) (fun o s ys h hy => ?_) (fun s h _ => ?_) fun o s e => ?_
    · dsimp only
      refine wp_bind (g_xeC h rfl (List.Sublist.refl _)) fun _ s ⟨h, _⟩ => ?_
      exact fd_good h (by sub) rfl
    · exact fd_fail
    · exact fd_fail

theorem sep_bracesField (hS : RecSep X.R) {enum : Bool} {rb : Nat} (h : D G s xs all)
    (hs : (d :: bs).Sublist xs) : wp (bracesField X enum rb d) (fun r s' =>
      (r = .good → D G s' (d :: bs) nope) ∧ (r ≠ .good → s'.err = true)) s := by
  unfold bracesField
  refine wp_bind (P := fun r s => D G s (d :: bs) nope) (wp_loop (fun _ s => ∃ F, F .period = true ∧
    D G s (d :: bs) F) ?_ _ _ _ ⟨all, rfl, h.sub hs⟩) fun r s h => ?_
  · intro n s ⟨F, hF, h⟩
    refine wp_bind (sep_bracesField1 hS h (List.Sublist.refl _) hF) fun r s1 ⟨h1, h2, h3⟩ => ?_
    cases r
    · exact wp_inl (h1 rfl)
    · exact wp_inr (D.err (h3 rfl))
    · cases h2 rfl
      exact wp_inr h.no
  · have good : ∀ {s : St} {F : Nx}, D G s (d :: bs) F → wp parserGood (fun r s' =>
        (r = .good → D G s' (d :: bs) nope) ∧ (r ≠ .good → s'.err = true)) s := fun h =>
      end_good ⟨fun _ => h.no, fun e => absurd rfl e⟩ fun e => ⟨nofun, fun _ => e⟩
    have bad : ∀ {s : St}, wp parserFail (fun r s' =>
        (r = .good → D G s' (d :: bs) nope) ∧ (r ≠ .good → s'.err = true)) s :=
      wp_fail ⟨nofun, fun _ => rfl⟩
    refine wp_ite (fun _ => bad) fun _ => ?_
    refine g_li h (fun _ => good h) fun t s1 h ht _ _ => ?_
    dsimp only
    st
    refine wp_bind (h.emit (List.Sublist.refl _) fun _ => .inl rfl) fun _ s ⟨h, _⟩ => ?_
    st
    refine wp_any fun _ => ?_
    st
    refine g_ex hS h (List.Sublist.refl _) (fun o s ys h hy => ?_) (fun s h _ => ?_) fun o s e => ?_
    · red
      exact good (h.sub (by sub))
    · red; exact bad
    · red; exact bad

theorem sep_bracesElem (hS : RecSep X.R) {B : CF} {rb : Nat} {ca : Option (Option Nat)} {c : Id}
    (h : D G s (c :: bs) all) : wp (bracesElem X B rb ca c) (fun x s' =>
      x.1 = .good → OnD G s' x.2.1 c bs) s := by
  unfold bracesElem
  refine wp_peekIf fun _ => wp_peekIf fun _ => wp_peekIf fun _ => ?_
  refine wp_ite (fun _ => ?_) fun _ => ?_
  · refine wp_bind (sep_bracesField hS h (List.Sublist.refl _)) fun r s h => ?_
    exact wp_pure fun e => ⟨bs, h.1 e, List.Sublist.refl _⟩
  · refine wp_ite (fun _ => ?_) fun _ => ?_
    · refine wp_bind (hS.braces _ _ _ _ _ _ _ h (List.Sublist.refl _)) fun r s h => ?_
      exact wp_pure fun e => ⟨bs, h.no, List.Sublist.refl _⟩
    · refine wp_any fun _ => ?_
      refine g_ex hS h (List.Sublist.refl _) (fun o s ys h hy => ?_) (fun s h _ => ?_) fun o s e => ?_
      · exact wp_pure fun _ => ⟨ys, h, by sub⟩
      · exact wp_pure nofun
      · exact wp_pure nofun

/-- The documents in use while parsing braces: a new one is made for the right brace only. -/
def BI (G : Prop) (s : St) (rb : Nat) (i b : Id) (bs : List Id) : Prop :=
  ((nxt s).id = rb ∧ D G s (b :: bs) nope) ∨ D G s (i :: b :: bs) all

theorem sep_bracesSpace {B : CF} {rb : Nat} {i b c : Id} (h : D G s (c :: i :: b :: bs) F) :
    wp (bracesSpace X B rb i b c) (fun r s' => BI G s' rb i r bs) s := by
  unfold bracesSpace
  refine wp_back fun pv => wp_peekv ?_
  refine wp_q fun sp => wp_q fun ln => ?_
  refine wp_ite (fun _ => ?_) fun _ => ?_
  · refine wp_bind (g_lay_ h (by wh) (List.Sublist.refl _)) fun _ s ⟨h, _⟩ => ?_
    exact wp_pure (.inr (h.sub (by sub)))
  · refine wp_ite (fun _ => ?_) fun _ => ?_
    · refine wp_bind (g_lay_ (d := i) (bs := b :: bs) h (by wh) (by sub)) fun _ s ⟨h, _⟩ => ?_
      exact wp_pure (.inr h)
    · refine wp_ite (fun hn => ?_) fun _ => ?_
      · have nx : ∀ {s' : St}, s'.rest = s.rest → (nxt s').id = rb := by
          intro s' e
          unfold nxt at hn ⊢
          rw [e]
          exact hn
        refine wp_ite (fun _ => ?_) fun _ => ?_
        · refine wp_bind (g_indentIn (d := b) (bs := bs) h (by sub)) fun b' s1 ⟨h, h1, _⟩ => ?_
          refine wp_bind (g_lay_ h (by wh) (List.Sublist.refl _)) fun _ s2 ⟨h, h2, _⟩ => ?_
          exact wp_pure (.inl ⟨nx (h2.trans h1), h.no.sub (by sub)⟩)
        · refine wp_bind (g_when_lay (d := b) (bs := bs) h (by wh) (by sub)) fun _ s2 ⟨h, h2, _⟩ => ?_
          exact wp_pure (.inl ⟨nx h2, h.no⟩)
      · generalize decide (pv.map Tok.ty = some .rparen) = rp
        refine wp_bind (P := fun _ s => D G s (i :: b :: bs) (fun _ => ln || !rp)) ?_ fun _ s h => ?_
        · refine wp_when (fun e => ?_) fun e => ?_
          · rw [e]
            exact wp_mono (g_lay_ (d := i) (bs := b :: bs) h (by wh) (by sub)) fun _ _ h => h.1
          · rw [e]
            exact (h.sub (by sub)).no
        refine wp_bind (P := fun _ s => D G s (i :: b :: bs) all) ?_ fun _ s h => wp_pure (.inr h)
        refine wp_when (fun e => ?_) fun e => ?_
        · exact wp_mono (g_free h (List.Sublist.refl _)) fun _ _ h => h.1
        · refine h.mono fun _ _ => ?_
          cases ln <;> cases rp <;> first | rfl | cases e

theorem sep_bracesEnd {b : Id} (h : D G s (b :: bs) F) :
    wp (bracesEnd b) (fun _ s' => D G s' (b :: bs) all) s := by
  unfold bracesEnd
  st
  refine wp_any fun _ => ?_
  st
  exact end_good h fun _ => h

theorem sep_bracesRound (hS : RecSep X.R) {B : CF} {rb : Nat} {i : Id} {v : Id × Option (Option Nat)}
    (h : BI G s rb i v.1 bs) : wp (bracesRound X B rb i v) (fun r s' =>
      (∀ a', r = .inl a' → BI G s' rb i a'.1 bs) ∧
      (∀ b, r = .inr b → D G s' (b.2 :: bs) nope ∧ (b.1 ≠ .good → s'.err = true))) s := by
  unfold bracesRound
  refine wp_peekv ?_
  have hv : D G s (v.1 :: bs) nope := by
    rcases h with h | h
    · exact h.2
    · exact h.no.sub (by sub)
  refine wp_ite (fun _ => ?_) fun _ => ?_
  · exact wp_fl (wp_inr ⟨D.err rfl, fun _ => rfl⟩)
  · refine wp_ite (fun _ => ?_) fun hn => ?_
    · exact wp_inr ⟨hv, fun e => absurd rfl e⟩
    · have h : D G s (i :: v.1 :: bs) all := h.resolve_left fun e => hn e.1
      refine wp_bind (g_allocIn h (List.Sublist.refl _)) fun c s ⟨h, _⟩ => ?_
      refine wp_bind (sep_bracesElem hS h) fun x s h => ?_
      refine wp_ite (fun _ => ?_) fun hx => ?_
      · exact wp_fl (wp_inr ⟨D.err rfl, fun _ => rfl⟩)
      · obtain ⟨ys, h, hy⟩ := h (Decidable.not_not.1 hx)
        refine wp_bind (P := fun co s => D G s (x.2.1 :: ys) nope ∧ ∀ t, co = some t → cl t.ty = true) ?_
          fun co s ⟨h, hc⟩ => ?_
        · refine wp_mono (lexIf_cases _ s) fun co s' hc => ?_
          rcases hc with ⟨rfl, rfl, _⟩ | ⟨t, rfl, e1, e2, _⟩
          · exact ⟨h, nofun⟩
          · exact ⟨h.kp e1, fun t e => by cases e; exact cl_of (ty_is e2) rfl⟩
        refine wp_bind (g_emitOpt h (List.Sublist.refl _) fun _ => hc) fun _ s ⟨h, _⟩ => ?_
        refine wp_q fun al => ?_
        have h : D G s (c :: i :: v.1 :: bs) nope := h.sub hy
        refine wp_ite (fun _ => ?_) fun _ => ?_
        · refine wp_bind (g_lay_ h (by wh) (List.Sublist.refl _)) fun _ s ⟨h, _⟩ => ?_
          exact wp_inl (.inr (h.sub (by sub)))
        · refine wp_bind (sep_bracesSpace h) fun b s h => ?_
          exact wp_inl h

theorem sep_braces (hS : RecSep X.R) (d : Id) (B : CF) : SBr (bracesF X d B) d := by
  intro G s xs bs F h hs
  unfold bracesF
  refine wp_any fun p => ?_
  split
  · exact wp_fail (D.err rfl)
  · rename_i rb _
    refine wp_bind (g_alloc h hs) fun b s ⟨h, _⟩ => ?_
    refine g_xp h (fun s e => wp_fail (D.err rfl)) fun t s h ht _ _ => ?_
    dsimp only
    refine wp_bind (h.emitC (List.Sublist.refl _) fun _ => cl_of ht rfl) fun _ s ⟨h, _⟩ => ?_
    refine wp_peekIf fun _ => wp_q fun _ => ?_
    refine wp_ite (fun _ => ?_) fun _ => ?_
    · st
      exact wp_mono (sep_bracesEnd h) fun _ _ h => h.sub (by sub)
    · refine wp_bind (g_when_lay h (by wh) (List.Sublist.refl _)) fun _ s ⟨h, _⟩ => ?_
      refine wp_bind (g_indentIn h (List.Sublist.refl _)) fun i s ⟨h, _⟩ => ?_
      refine wp_q fun _ => ?_
      refine wp_bind (g_when_lay h (by wh) (List.Sublist.refl _)) fun _ s ⟨h, _⟩ => ?_
      refine wp_bind (P := fun x s => D G s (x.2 :: d :: bs) nope ∧ (x.1 ≠ .good → s.err = true))
        (wp_loop (fun v s => BI G s rb.id i v.1 (d :: bs)) (fun v s h => sep_bracesRound hS h) _ _ _ (.inr h))
        fun x s ⟨h, he⟩ => ?_
      refine wp_ite (fun e => ?_) fun _ => ?_
      · exact wp_pure (D.err (he e))
      · exact wp_mono (sep_bracesEnd h) fun _ _ h => h.sub (by sub)

/-! ## parser-func.c -/

theorem sep_protoFuncPtr (hS : RecSep X.R) {c : Id} (h : D G s xs F) (hs : (c :: bs).Sublist xs) :
    wp (protoFuncPtr X c) (fun _ s' => D G s' (c :: bs) nope) s := by
  unfold protoFuncPtr
  refine wp_bind (g_xeC h rfl hs) fun _ s ⟨h, _⟩ => ?_
  refine wp_bind (g_xe h (fun _ => .inl rfl) (List.Sublist.refl _)) fun _ s ⟨h, _⟩ => ?_
  refine wp_bind (g_xe h (fun _ => .inl rfl) (List.Sublist.refl _)) fun _ s ⟨h, _⟩ => ?_
  refine wp_any fun p => ?_
  split
  · exact wp_fail (D.err rfl)
  · refine wp_bind (g_xeC h rfl (List.Sublist.refl _)) fun _ s ⟨h, _⟩ => ?_
    refine wp_bind (sep_funcArgs hS h (List.Sublist.refl _)) fun o s' h' => ?_
    have h : D G s' (c :: bs) nope := by
      rcases h' with e | ⟨_, rfl⟩ | ⟨c', ys, _, h, hy⟩
      · exact D.err e
      · exact h.no
      · exact h.sub (by sub)
    st
    exact wp_pure h.no

theorem sep_protoName {g c : Id} (h : D G s xs (af .star)) (hs : (c :: bs).Sublist xs) :
    wp (protoName g c) (fun _ s' => D G s' (c :: bs) nope) s := by
  unfold protoName
  refine g_xp h (fun s e => ?_) fun t s h ht _ _ => ?_
  · dsimp only
    refine wp_bind (P := fun _ _ => True) (fun _ _ _ => trivial) fun _ s _ => ?_
    exact wp_fail (D.err rfl)
  · dsimp only
    refine wp_bind (h.emit hs fun _ => .inl (by rw [ht]; rfl)) fun _ s ⟨h, _⟩ => ?_
    exact wp_pure h.no

theorem sep_krArgs (hS : RecSep X.R) (h : D G s xs F) (hs : (d :: bs).Sublist xs) :
    wp (krArgs X d) (fun _ s' => D G s' (d :: bs) nope) s := by
  unfold krArgs
  refine wp_bind (g_alloc h hs) fun kr s ⟨h, _⟩ => ?_
  refine wp_bind (g_indentIn h (List.Sublist.refl _)) fun i s ⟨h, _⟩ => ?_
  refine wp_bind (g_lay_ h (by wh) (List.Sublist.refl _)) fun _ s ⟨h, _⟩ => ?_
  refine wp_bind (hS.decl _ _ _ _ _ _ h (List.Sublist.refl _)) fun r s ⟨h1, h2⟩ => ?_
  refine wp_when (fun e => ?_) fun e => ?_
  · exact g_rmDoc (h2 (of_decide_eq_true e)) (by sub)
  · exact (h1 (Decidable.not_not.1 (of_decide_eq_false e))).sub (by sub)

theorem sep_protoAttrs (hS : RecSep X.R) (h : D G s xs F) (hs : (d :: bs).Sublist xs) :
    wp (protoAttrs X d) (fun _ s' => D G s' (d :: bs) nope) s := by
  unfold protoAttrs
  refine wp_bind (g_alloc h hs) fun at_ s ⟨h, _⟩ => ?_
  refine wp_bind (g_indentIn h (List.Sublist.refl _)) fun i s ⟨h, _⟩ => ?_
  refine wp_bind (sep_attributes hS h (List.Sublist.refl _) fun _ => .inl rfl) fun x s1 ⟨hx, _⟩ => ?_
  have h : D G s1 (at_ :: d :: bs) nope := by
    rcases hx with e | ⟨_, _, h, _⟩ | ⟨o, ys, _, h, hy⟩
    · exact D.err e
    · exact h.no.sub (by sub)
    · exact h.no.sub (by sub)
  refine wp_bind (P := fun _ s => D G s (d :: bs) nope) ?_ fun _ s h => wp_pure h
  exact wp_when (fun _ => g_rmDoc h (List.Sublist.refl _)) fun _ => h.sub (by sub)

theorem sep_protoTail (hS : RecSep X.R) {o : Id} (h : D G s xs F) (hs : (d :: bs).Sublist xs) :
    wp (protoTail X d o) (fun _ s' => D G s' (d :: bs) nope) s := by
  unfold protoTail
  refine wp_bind (sep_krArgs hS h hs) fun _ s h => ?_
  refine wp_bind (sep_protoAttrs hS h (List.Sublist.refl _)) fun _ s h => ?_
  exact wp_gd (fun _ => wp_pure h) fun _ => wp_pure h

theorem sep_protoArgs (hS : RecSep X.R) {c : Id} (h : D G s (c :: d :: bs) F) :
    wp (protoArgs X d c) (fun _ s' => D G s' (d :: bs) nope) s := by
  unfold protoArgs
  refine wp_any fun p => ?_
  split
  · exact wp_fl (wp_pure (D.err rfl))
  · refine wp_bind (g_xeC h rfl (List.Sublist.refl _)) fun _ s ⟨h, _⟩ => ?_
    refine wp_q fun b => ?_
    refine wp_jp (P := fun i s => ∃ ys, D G s (i :: ys) all ∧ (d :: bs).Sublist (i :: ys) ∧
      D G s (c :: d :: bs) nope) (fun _ => ?_) (fun _ => ?_) fun i s hi => ?_
    · refine wp_mono (g_allocIn' (pre := [c]) h (List.Sublist.refl _)) fun i s h => ?_
      exact ⟨d :: bs, h.1.sub (List.sublist_cons_self c _), by sub, h.2.1.no⟩
    · refine wp_mono (g_indentIn h (List.Sublist.refl _)) fun i s h => ?_
      exact ⟨_, h.1, by sub, h.1.no.sub (by sub)⟩
    · obtain ⟨ys, h, hy, hc⟩ := hi
      refine wp_bind (sep_funcArgs hS h (List.Sublist.refl _)) fun o s' h' => ?_
      have ho : OnD G s' (o.getD c) d bs := by
        rcases h' with e | ⟨rfl, rfl⟩ | ⟨c', zs, rfl, h, hz⟩
        · exact OnD.err e
        · exact ⟨_, hc, by sub⟩
        · exact ⟨zs, h, by sub⟩
      dsimp only
      obtain ⟨zs, h, hz⟩ := ho
      refine wp_bind (g_xeC h rfl (List.Sublist.refl _)) fun _ s ⟨h, _⟩ => ?_
      exact sep_protoTail hS h hz

theorem sep_funcProto (hS : RecSep X.R) {ti : TI} {f impl : Bool} (h : D G s xs all)
    (hs : (d :: bs).Sublist xs) :
    wp (funcProto X d ti f impl) (fun _ s' => D G s' (d :: bs) nope) s := by
  unfold funcProto
  refine wp_bind (sep_attributes hS h hs fun _ => .inr ⟨rfl, rfl⟩) fun x s1 ⟨hx, _⟩ => ?_
  refine wp_ite (fun _ => wp_fl (wp_pure (D.err rfl))) fun _ => ?_
  refine wp_bind (g_layOn hx fun _ => rfl) fun _ s h => ?_
  refine wp_bind (hS.type _ _ _ _ _ _ h (List.Sublist.refl _)) fun r s ⟨h, h1⟩ => ?_
  refine wp_ite (fun _ => wp_fl (wp_pure (D.err rfl))) fun hg => ?_
  have h1 := h1 (Decidable.not_not.1 hg) rfl
  refine wp_peekIfv ?_
  refine wp_bind (P := fun _ s => D G s (d :: bs) (af .star)) ?_ fun _ s h => ?_
  · refine wp_when (fun _ => ?_) fun e => h1 (of_decide_eq_false e)
    exact wp_mono (g_free h (List.Sublist.refl _)) fun _ _ h => h.1.mono fun _ _ => rfl
  refine wp_bind (sep_attributes hS h (List.Sublist.refl _) fun _ => .inr ⟨rfl, rfl⟩) fun x s1 ⟨hx, _⟩ => ?_
  refine wp_ite (fun _ => wp_fl (wp_pure (D.err rfl))) fun _ => ?_
  have h : D G s1 (d :: bs) (af .star) := by
    rcases hx with e | ⟨_, _, h, _⟩ | ⟨o, ys, _, h, hy⟩
    · exact D.err e
    · exact h
    · exact (h.mono fun _ _ => rfl).sub (by sub)
  refine wp_bind (g_when_lay h (by wh) (List.Sublist.refl _)) fun _ s ⟨h, _⟩ => ?_
  refine wp_q fun b => ?_
  refine wp_bind (g_when_lay h (by wh) (List.Sublist.refl _)) fun _ s ⟨h, _⟩ => ?_
  refine wp_bind (g_alloc h (List.Sublist.refl _)) fun g s ⟨h, _⟩ => ?_
  refine wp_bind (g_alloc h (List.Sublist.refl _)) fun c s ⟨h, _⟩ => ?_
  refine wp_jp (P := fun _ s => D G s (c :: g :: d :: bs) nope)
    (fun _ => sep_protoFuncPtr hS h (List.Sublist.refl _))
    (fun _ => sep_protoName h (List.Sublist.refl _)) fun r s h => ?_
  refine wp_ite (fun _ => wp_fl (wp_pure (D.err rfl))) fun _ => ?_
  exact sep_protoArgs hS (h.sub (by sub))

theorem sep_funcDecl (hS : RecSep X.R) (d : Id) : SN (funcDecl X d) d := by
  intro G s xs bs h hs
  unfold funcDecl
  refine wp_any fun p => ?_
  split
  · refine wp_bind (g_allocIn h hs) fun c s ⟨h, _⟩ => ?_
    refine wp_bind (sep_funcProto hS h (List.Sublist.refl _)) fun x s h => ?_
    split
    · refine g_xp h (fun s e => sn_good (xs := d :: bs) (F := all) (D.err e) (List.Sublist.refl _)) fun t s h ht _ _ => ?_
      dsimp only
      refine wp_bind (g_emitChk h ht (by sub)) fun _ s h => ?_
      exact sn_good h (List.Sublist.refl _)
    · exact sn_fail
  · exact sn_none

theorem sep_funcImpl (hS : RecSep X.R) (d : Id) : SW (funcImpl X d) d := by
  intro G s xs bs h hs
  unfold funcImpl
  refine wp_any fun p => ?_
  split
  · refine wp_bind (sep_funcProto hS h hs) fun x s h => ?_
    refine wp_ite (fun _ => wp_fail (D.err rfl)) fun _ => ?_
    refine wp_peekIf fun _ => ?_
    refine wp_ite (fun _ => wp_fail (D.err rfl)) fun _ => ?_
    refine wp_q fun _ => ?_
    refine wp_bind (g_layIf h (by wh) (by wh) (List.Sublist.refl _)) fun _ s ⟨h, _⟩ => ?_
    refine wp_bind (hS.block _ _ _ _ _ _ _ _ _ h (List.Sublist.refl _) (List.Sublist.refl _)) fun y s hy => ?_
    rcases hy with ⟨c, ys, rfl, h, hy⟩ | ⟨rfl, _⟩ | ⟨e, _⟩
    · red
      have h : D G s (d :: bs) _ := h.sub (by sub)
      st
      exact end_good h fun _ => h
    · red; exact wp_fail (D.err rfl)
    · rw [if_pos (by rw [e]; simp)]
      exact wp_fail (D.err rfl)
  · exact end_none (h.sub hs) fun _ => h.sub hs

/-! ## parser-decl.c -/

/-- The type of the last token. -/
def lst (s : St) : Option TT := s.done.head?.map Tok.ty

/-- What may come next in a list of variables. -/
def OkN (s : St) (F : Nx) : Prop :=
  ((nxt s).ty = .ident → lst s ≠ some .literal → F .ident = true) ∧
  (isQS (nxt s).ty = true → lst s ≠ some .ident → lst s ≠ some .literal → F (nxt s).ty = true) ∧
  ((nxt s).ty = .star → F .star = true)

/-- The state in a list of variables. -/
def Vr (G : Prop) (s : St) (xs : List Id) : Prop := ∃ F, D G s xs F ∧ OkN s F

theorem Vr.all (h : D G s xs Sep.all) : Vr G s xs := ⟨_, h, fun _ _ => rfl, fun _ _ _ => rfl, fun _ => rfl⟩
theorem Vr.err (h : s.err = true) : Vr G s xs := Vr.all (D.err h)

theorem qs_word : ∀ ty, isQS ty = true → af .star ty = true := by
  intro ty
  cases ty <;> decide

theorem Vr.star (h : D G s xs (af .star)) : Vr G s xs := ⟨_, h, fun _ _ => rfl, fun e _ _ => qs_word _ e, fun _ => rfl⟩

theorem Vr.kept (h : OkN s F) (h' : D G s' xs F) (hr : s'.rest = s.rest) (hd : s'.done = s.done) : Vr G s' xs := by
  refine ⟨F, h', ?_⟩
  unfold OkN lst nxt at h ⊢
  rw [hr, hd]
  exact h

theorem Vr.no (h : Vr G s xs) : D G s xs nope := by
  obtain ⟨F, h, _⟩ := h
  exact h.no

theorem sep_bitfield (h : D G s xs F) (hs : (d :: bs).Sublist xs) :
    wp (declBitfield X d) (fun r s' => (r = .good → D G s' (d :: bs) (af .literal) ∧ lst s' = some .literal) ∧
      (r ≠ .good → s'.err = true ∨ s' = s)) s := by
  unfold declBitfield
  refine g_li h (fun _ => end_none ⟨nofun, fun _ => .inr rfl⟩ fun e => ⟨nofun, fun _ => .inl e⟩) fun t s1 h ht _ _ => ?_
  dsimp only
  refine wp_q fun _ => ?_
  refine wp_bind (g_when_lay h (by wh) hs) fun _ s ⟨h, _⟩ => ?_
  refine wp_bind (h.emitC (List.Sublist.refl _) fun _ => cl_of (ty_is ht) rfl) fun _ s ⟨h, _⟩ => ?_
  refine wp_q fun _ => ?_
  refine wp_bind (g_when_lay h (by wh) (List.Sublist.refl _)) fun _ s ⟨h, _⟩ => ?_
  refine wp_bind (g_xe h (fun _ => .inl rfl) (List.Sublist.refl _)) fun _ s ⟨h, hb⟩ => ?_
  refine wp_good (fun e => ⟨fun _ => ⟨h, ?_⟩, fun e => absurd rfl e⟩) fun e => ⟨nofun, fun _ => .inl e⟩
  rcases hb with e' | e'
  · rw [e'] at e; cases e
  · exact e'

theorem sep_initParens (hS : RecSep X.R) {l r : TT} (hl : cl l = true) (hr : cl r = true) (h : D G s xs F)
    (hs : (d :: bs).Sublist xs) : wp (initParens X l r d) (fun _ s' => D G s' (d :: bs) all) s := by
  unfold initParens
  refine wp_bind (g_xeC h hl hs) fun _ s ⟨h, _⟩ => ?_
  have fin : ∀ {s : St}, D G s (d :: bs) all → wp (peekIf .ident >>= fun b => when b (lay_ .blank d) >>= fun _ => parserGood)
      (fun _ s' => D G s' (d :: bs) all) s := by
    intro s h
    refine wp_peekIf fun _ => ?_
    refine wp_bind (g_when_lay h (by wh) (List.Sublist.refl _)) fun _ s ⟨h, _⟩ => ?_
    exact end_good h fun _ => h
  refine g_ex hS h (List.Sublist.refl _) (fun o s ys h hy => ?_) (fun s h _ => ?_) fun o s e => ?_
  · red
    refine wp_bind (g_xeC h hr (List.Sublist.refl _)) fun _ s ⟨h, _⟩ => ?_
    exact fin (h.sub (by sub))
  · red
    refine wp_bind (g_xeC h hr (List.Sublist.refl _)) fun _ s ⟨h, _⟩ => ?_
    exact fin h
  · red
    refine wp_bind (g_xeC (xs := d :: bs) (F := all) (G := G) (D.err e) hr (List.Sublist.refl _)) fun _ s ⟨h, _⟩ => ?_
    exact fin h

theorem sep_declInit1 (hS : RecSep X.R) {out : Option Id} (hv : Vr G s (d :: bs)) :
    wp (declInit1 X d out) (fun _ s' => Vr G s' (d :: bs)) s := by
  obtain ⟨F, h, ho⟩ := hv
  have one : ∀ {α : Type} {f : Res → α} {s : St}, Vr G s (d :: bs) →
      wp (parserGood >>= fun r => pure (f r)) (fun _ s' => Vr G s' (d :: bs)) s :=
    fun h => wp_gd (fun _ => wp_pure h) fun _ => wp_pure h
  unfold declInit1 backIf
  refine wp_readv (wp_readv ?_)
  refine g_li h (fun _ => ?_) fun t s1 h ht hn hd => ?_
  · dsimp only
    refine wp_any fun _ => wp_any fun _ => ?_
    refine wp_ite (fun _ => ?_) fun _ => ?_
    · exact wp_bind (sep_initParens hS rfl rfl h (List.Sublist.refl _)) fun _ s h => wp_pure (Vr.all h)
    · refine wp_ite (fun _ => ?_) fun _ => ?_
      · exact wp_bind (sep_initParens hS rfl rfl h (List.Sublist.refl _)) fun _ s h => wp_pure (Vr.all h)
      · refine wp_bind (sep_bitfield h (List.Sublist.refl _)) fun b s1 ⟨h1, h2⟩ => ?_
        refine wp_ite (fun e => ?_) fun e => ?_
        · obtain ⟨h, hl⟩ := h1 e
          refine one ⟨_, h, fun _ e => absurd hl e, fun _ _ e => absurd hl e, fun _ => rfl⟩
        · have hs : ∃ F, D G s1 (d :: bs) F ∧ ((s1.err = true ∧ F = all) ∨ s1 = s) ∧ OkN s1 F := by
            rcases h2 e with e | rfl
            · exact ⟨all, D.err e, .inl ⟨e, rfl⟩, fun _ _ => rfl, fun _ _ _ => rfl, fun _ => rfl⟩
            · exact ⟨F, h, .inr rfl, ho⟩
          clear h ho
          obtain ⟨F, h, hs1, ho⟩ := hs
          refine g_li h (fun _ => ?_) fun t s2 h ht hn hd => ?_
          · refine g_li h (fun _ => ?_) fun t s2 h ht hn hd => ?_
            · dsimp only
              refine wp_bind (sep_attributes hS h (List.Sublist.refl _) fun _ => .inl rfl) fun x s2 ⟨hx, _⟩ => ?_
              have hv : Vr G s2 (d :: bs) := by
                rcases hx with e | ⟨_, _, h, e1, e2⟩ | ⟨o, ys, _, h, hy⟩
                · exact Vr.err e
                · exact Vr.kept ho h e1 e2
                · exact Vr.all (h.sub (by sub))
              refine wp_ite (fun _ => ?_) fun _ => ?_
              · refine wp_peekIf fun _ => wp_peekIf fun _ => ?_
                obtain ⟨F, h, ho⟩ := hv
                refine wp_bind (g_when_lay h (by wh) (List.Sublist.refl _)) fun _ s ⟨h, e1, e2⟩ => ?_
                exact one (Vr.kept ho h e1 e2)
              · refine wp_peekIf fun _ => ?_
                refine wp_ite (fun _ => ?_) fun _ => ?_
                · refine wp_bind (g_lay_ hv.no (by wh) (List.Sublist.refl _)) fun _ s ⟨h, _⟩ => ?_
                  exact wp_bind (sep_asm hS _ _ _ _ _ h (List.Sublist.refl _)) fun _ s h => wp_pure (Vr.all h)
                · exact wp_nn (fun _ => wp_pure hv) fun _ => wp_pure hv
            · have ht := ty_is ht
              dsimp only
              refine wp_bind (h.emit (List.Sublist.refl _) fun _ => .inl (by rw [ht]; exact ho.2.2 (by rw [hn, ht])))
                fun _ s ⟨h, _⟩ => ?_
              rw [ht] at h
              exact one (Vr.star h)
          · dsimp only
            refine wp_bind (P := fun _ s => ∃ F, D G s (d :: bs) F ∧ (G → F t.ty = true)) ?_ fun _ s h => ?_
            · refine wp_when (fun _ => ?_) fun e => ⟨F, h, fun _ => ?_⟩
              · exact wp_mono (g_glue h (List.Sublist.refl _)) fun _ _ h => ⟨_, h.1, fun _ => by simp⟩
              · rcases hs1 with ⟨_, rfl⟩ | rfl
                · rfl
                · simp only [Bool.or_eq_false_iff, decide_eq_false_iff_not] at e
                  rw [← hn]
                  exact ho.2.1 (by rw [hn]; exact ht) e.2 e.1
            · obtain ⟨F, h, hF⟩ := h
              refine wp_bind (h.emit (List.Sublist.refl _) fun g => .inl (hF g)) fun _ s ⟨h, _⟩ => ?_
              refine wp_bind (g_lay_ h (by wh) (List.Sublist.refl _)) fun _ s ⟨h, _⟩ => ?_
              exact one (Vr.all h)
  · have ht := ty_is ht
    dsimp only
    refine wp_bind (P := fun _ s => (∃ F, D G s (d :: bs) F ∧ F t.ty = true) ∧ s.done = s1.done) ?_ fun _ s h => ?_
    · refine wp_when (fun _ => ?_) fun e => ⟨⟨F, h, ?_⟩, rfl⟩
      · exact wp_mono (g_glue (ty := .ident) h (List.Sublist.refl _)) fun _ _ h => ⟨⟨_, h.1, by simp [ht]⟩, h.2.2⟩
      · rw [ht]
        exact ho.1 (by rw [hn, ht]) (of_decide_eq_false e)
    · obtain ⟨⟨F, h, hF⟩, hd1⟩ := h
      refine wp_bind (h.emit (List.Sublist.refl _) fun g => .inl hF) fun _ s ⟨h, _, hd2⟩ => ?_
      rw [ht] at h
      have hl : lst s = some .ident := by
        unfold lst
        rw [hd2, hd1, hd, Option.map_some, ht]
      refine wp_peekIfv ?_
      refine wp_bind (P := fun _ s => Vr G s (d :: bs)) ?_ fun _ s h => one h
      refine wp_when (fun _ => ?_) fun e => ?_
      · exact wp_mono (g_lay_ h (by wh) (List.Sublist.refl _)) fun _ _ h => Vr.all h.1
      · exact ⟨_, h, fun e' => absurd e' (of_decide_eq_false e), fun _ e => absurd hl e, fun _ => rfl⟩

theorem sep_declInitAssign (hS : RecSep X.R) {out : Option Id} {semi : Nat} (hv : Vr G s (d :: bs)) :
    wp (declInitAssign X d out semi) (fun _ s' => Vr G s' (d :: bs)) s := by
  unfold declInitAssign
  refine g_li hv.no (fun _ => ?_) fun t s1 h ht hn hd => ?_
  · exact wp_nn (fun _ => wp_pure hv) fun _ => wp_pure hv
  · clear hv
    dsimp only
    refine wp_q fun _ => ?_
    refine wp_bind (g_when_lay h (by wh) (List.Sublist.refl _)) fun _ s ⟨h, _⟩ => ?_
    refine wp_bind (g_glue h (List.Sublist.refl _)) fun _ s ⟨h, _⟩ => ?_
    refine wp_bind (h.emit (List.Sublist.refl _) fun _ => .inl (by simp [ty_is ht])) fun _ s ⟨h, _⟩ => ?_
    refine wp_bind (g_lay_ h (by wh) (List.Sublist.refl _)) fun _ s ⟨h, _⟩ => ?_
    refine wp_bind (g_allocIn h (List.Sublist.refl _)) fun de s ⟨h, _⟩ => ?_
    refine wp_peekIf fun _ => ?_
    refine wp_ite (fun _ => ?_) fun _ => ?_
    · refine wp_bind (hS.braces _ _ _ _ _ _ _ h (List.Sublist.refl _)) fun r s h => ?_
      refine wp_ite (fun _ => wp_fl (wp_pure (Vr.err rfl))) fun _ => ?_
      have h := Vr.all (h.sub (List.sublist_cons_self _ _))
      exact wp_gd (fun _ => wp_pure h) fun _ => wp_pure h
    · refine wp_q fun _ => wp_any fun _ => ?_
      refine g_ex hS h (List.Sublist.refl _) (fun o s ys h hy => ?_) (fun s h _ => ?_) fun o s e => ?_
      · red
        have h : D G s (d :: bs) nope := h.sub (by sub)
        refine wp_peekv ?_
        refine wp_bind (P := fun _ s => Vr G s (d :: bs)) ?_
          fun _ s h => wp_gd (fun _ => wp_pure h) fun _ => wp_pure h
        refine wp_when (fun _ => ?_) fun e => ?_
        · exact wp_mono (g_free h (List.Sublist.refl _)) fun _ _ h => Vr.all h.1
        · simp only [Bool.and_eq_false_iff, decide_eq_false_iff_not, ne_eq, Decidable.not_not] at e
          refine ⟨_, h, ?_⟩
          unfold OkN
          rcases e with e | e <;> rw [e] <;> exact ⟨nofun, fun e => absurd e (by decide), nofun⟩
      · red; exact wp_fl (wp_pure (Vr.err rfl))
      · red; exact wp_fl (wp_pure (Vr.err rfl))

theorem sep_declInit (hS : RecSep X.R) {semi : Nat} (h : D G s xs (af .star)) (hs : (d :: bs).Sublist xs) :
    wp (declInit X d semi) (fun _ s' => D G s' (d :: bs) nope) s := by
  unfold declInit
  refine wp_bind (g_alloc h hs) fun i s ⟨h, _⟩ => ?_
  refine wp_bind (g_alloc h (List.Sublist.refl _)) fun dc s ⟨h, _⟩ => ?_
  refine wp_bind (g_allocIn h (List.Sublist.refl _)) fun c s ⟨h, _⟩ => ?_
  refine wp_bind (P := fun _ s => D G s (i :: d :: bs) nope) (wp_loop (fun v s =>
    Vr G s (v.1 :: dc :: i :: d :: bs)) ?_ _ _ _ (Vr.star h)) fun x s h => ?_
  · intro v s hv
    unfold declInitRound
    refine wp_peek fun _ => ?_
    refine wp_ite (fun _ => ?_) fun _ => ?_
    · exact wp_inr (hv.no.sub (by sub))
    · refine wp_bind (P := fun co s => (co = none ∧ Vr G s (v.1 :: dc :: i :: d :: bs)) ∨
          ∃ t, co = some t ∧ cl t.ty = true ∧ D G s (v.1 :: dc :: i :: d :: bs) nope) ?_ fun co s hc => ?_
      · refine wp_mono (lexIf_cases _ s) fun co s' hc => ?_
        rcases hc with ⟨rfl, rfl, _⟩ | ⟨t, rfl, e1, e2, _⟩
        · exact .inl ⟨rfl, hv⟩
        · exact .inr ⟨t, rfl, cl_of (ty_is e2) rfl, hv.no.kp e1⟩
      clear hv
      refine wp_bind (P := fun c s => Vr G s (c :: dc :: i :: d :: bs)) ?_ fun c s hv => ?_
      · unfold declComma
        rcases hc with ⟨rfl, hv⟩ | ⟨t, rfl, ht, h⟩
        · exact wp_pure hv
        · dsimp only
          refine wp_bind (h.emitC (List.Sublist.refl _) fun _ => ht) fun _ s ⟨h, _⟩ => ?_
          refine wp_q fun _ => ?_
          refine wp_bind (g_layIf h (by wh) (by wh) (List.Sublist.refl _)) fun _ s ⟨h, _⟩ => ?_
          refine wp_bind (g_allocIn (d := dc) (bs := i :: d :: bs) h (by sub)) fun c s ⟨h, _⟩ => ?_
          refine wp_bind (g_layk h) fun _ s ⟨h, _⟩ => ?_
          exact wp_mono (g_allocIn h (List.Sublist.refl _)) fun _ _ h => Vr.all (h.1.sub (by sub))
      refine wp_bind (sep_declInit1 hS hv) fun x s hv => ?_
      refine wp_jp (fun _ => sep_declInitAssign hS hv) (fun _ => wp_pure hv) fun x s hv => ?_
      refine wp_ite (fun _ => ?_) fun _ => ?_
      · exact wp_inr (hv.no.sub (by sub))
      · exact wp_inl hv
  · refine wp_bind (P := fun _ s => D G s (d :: bs) nope) (wp_when (fun _ => g_rmDocChk h (List.Sublist.refl _))
      fun _ => h.sub (by sub)) fun _ s h => wp_gd (fun _ => wp_pure h) fun _ => wp_pure h

theorem sep_declBraces (hS : RecSep X.R) (d : Id) : SBr (declBraces X d) d := by
  intro G s xs bs F h hs
  unfold declBraces
  refine wp_any fun _ => ?_
  refine wp_ite (fun _ => wp_fail (D.err rfl)) fun _ => ?_
  refine wp_q fun _ => ?_
  refine wp_bind (g_when_lay h (by wh) hs) fun _ s ⟨h, _⟩ => ?_
  refine wp_bind (g_xeC h rfl (List.Sublist.refl _)) fun _ s ⟨h, _⟩ => ?_
  refine wp_bind (g_indentIn h (List.Sublist.refl _)) fun i s ⟨h, _⟩ => ?_
  refine wp_bind (g_lay_ h (by wh) (List.Sublist.refl _)) fun _ s ⟨h, _⟩ => ?_
  refine wp_bind (hS.decl _ _ _ _ _ _ h (List.Sublist.refl _)) fun r s ⟨h1, h2⟩ => ?_
  have h : D G s (d :: bs) nope := by
    by_cases e : r = .good
    · exact (h1 e).sub (by sub)
    · exact (h2 e).no.sub (by sub)
  refine wp_ite (fun _ => wp_fail (D.err rfl)) fun _ => ?_
  refine wp_bind (g_lay_ h (by wh) (List.Sublist.refl _)) fun _ s ⟨h, _⟩ => ?_
  refine wp_bind (g_xeC h rfl (List.Sublist.refl _)) fun _ s ⟨h, _⟩ => ?_
  refine wp_peekIf fun _ => wp_peekIf fun _ => ?_
  refine wp_bind (g_when_lay h (by wh) (List.Sublist.refl _)) fun _ s ⟨h, _⟩ => ?_
  exact end_good h fun _ => h

theorem sep_aggregate (hS : RecSep X.R) {c : Id} (h : D G s (c :: bs) F) :
    wp (declAggregate X c) (fun r s' => D G s' (c :: bs) F ∧ (r ≠ .good → s'.err = true)) s := by
  unfold declAggregate
  refine wp_any fun _ => wp_any fun _ => wp_any fun _ => ?_
  have up : ∀ {s : St}, D G s (c :: bs) all → D G s (c :: bs) F := fun h => h.mono fun _ _ => rfl
  refine wp_ite (fun _ => ?_) fun _ => ?_
  · refine wp_bind (sep_declBraces hS c _ _ _ _ _ h (List.Sublist.refl _)) fun r s h => ?_
    refine wp_ite (fun _ => wp_fail ⟨D.err rfl, fun _ => rfl⟩) fun _ => ?_
    exact wp_pure ⟨up h, fun e => absurd rfl e⟩
  · refine wp_ite (fun _ => ?_) fun _ => wp_pure ⟨h, fun e => absurd rfl e⟩
    refine wp_any fun _ => ?_
    refine wp_ite (fun _ => wp_fail ⟨D.err rfl, fun _ => rfl⟩) fun _ => ?_
    refine wp_q fun _ => ?_
    refine wp_bind (g_when_lay h (by wh) (List.Sublist.refl _)) fun _ s ⟨h, _⟩ => ?_
    refine wp_bind (hS.braces _ _ _ _ _ _ _ h (List.Sublist.refl _)) fun r s h => ?_
    refine wp_ite (fun _ => wp_fail ⟨D.err rfl, fun _ => rfl⟩) fun _ => ?_
    exact wp_pure ⟨up h, fun e => absurd rfl e⟩

theorem sep_declSemi {V : DF} {o : Id} {s0 : St} (h : D G s xs F) (hs : (d :: bs).Sublist xs) :
    wp (declSemi V o d) (fun r s' => NP G s0 s' d bs r) s := by
  unfold declSemi
  refine g_xp h (fun s e => sn_good (xs := d :: bs) (F := all) (D.err e) (List.Sublist.refl _)) fun t s h ht _ _ => ?_
  dsimp only
  refine wp_bind (P := fun _ s => D G s xs F) (wp_when (fun _ => ?_) fun _ => h) fun _ s h => ?_
  · intro a s' e
    unfold trimSemis at e
    cases e
    exact h.kp ⟨rfl, Nat.le_refl _, fun o => o⟩
  refine wp_bind (g_emitChk h ht hs) fun _ s h => ?_
  exact sn_good h (List.Sublist.refl _)

/-- One after the other. -/
theorem SN.seq {m : M Res} {k : M Res} {d : Id} (hm : SN m d) (hk : SN k d) :
    SN (m >>= fun a => if a = .good then parserGood else k) d := by
  intro G s0 xs bs h hs
  refine wp_bind (hm G s0 xs bs h hs) fun r s hr => ?_
  refine wp_ite (fun e => ?_) fun e => ?_
  · exact sn_good (hr.1 e) (List.Sublist.refl _)
  · have h' : D G s xs all := fun o => by
      cases hr.2 e o
      exact h o
    refine wp_mono (hk G s xs bs h' hs) fun r' s' hk => ⟨hk.1, fun e' o => ?_⟩
    cases hk.2 e' o
    exact hr.2 e o

theorem SN.ite {c : Prop} [Decidable c] {a b : M Res} {d : Id} (h1 : SN a d) (h2 : SN b d) :
    SN (if c then a else b) d := by
  split
  · exact h1
  · exact h2

theorem SN.non {d : Id} : SN (pure .non) d := fun _ _ _ _ _ _ => wp_pure ⟨nofun, fun _ _ => rfl⟩

theorem sep_decl2 (hS : RecSep X.R) (d : Id) (V : DF) : SN (decl2 X d V) d := by
  unfold decl2
  refine (sep_cdefs d).seq ?_
  refine (fun hk => SN.ite ((sep_declRoot d).seq hk) (SN.non.seq hk)) ?_
  intro G s xs bs h hs
  refine wp_any fun ti => ?_
  split
  · exact sep_cppX hS d _ _ _ _ h hs
  · refine wp_any fun p => ?_
    split
    · exact sep_funcDecl hS d _ _ _ _ h hs
    · exact sn_none
    · refine wp_bind (g_allocIn h hs) fun c s ⟨h, _⟩ => ?_
      refine wp_bind (hS.type _ _ _ _ _ _ h (List.Sublist.refl _)) fun r s ⟨h, h1⟩ => ?_
      refine wp_ite (fun _ => sn_fail) fun hg => ?_
      have h1 := h1 (Decidable.not_not.1 hg) rfl
      refine wp_peekIfv ?_
      refine wp_ite (fun _ => sep_declSemi h (by sub)) fun hn => ?_
      have h := h1 fun e => hn (decide_eq_true e)
      refine wp_bind (sep_aggregate hS h) fun g s ⟨h, he⟩ => ?_
      refine wp_ite (fun e => ?_) fun _ => ?_
      · exact wp_pure ⟨fun e' => absurd e' e, fun _ o => absurd o (not_okG (he e))⟩
      · refine wp_any fun semi => ?_
        split
        · exact sn_fail
        · refine wp_bind (sep_declInit hS h (List.Sublist.refl _)) fun x s h => ?_
          refine wp_ite (fun _ => sn_fail) fun _ => ?_
          exact sep_declSemi h (by sub)

/-- White space added last is removed. -/
theorem D.unlay {k : DK} {dc : Id} (h : D G s xs F) : D G { s with
    L := (ins dc [.lay s.next k] s.L).filter (notLay s.next)
    next := s.next + 1 } xs F := fun o => by
  obtain ⟨g, h⟩ := h ⟨o.1, o.2.1, o.2.2⟩
  exact ⟨g, h.kp ⟨filter_ins h.lay, Nat.le_succ _, fun o => o⟩⟩

/-- A document made last is removed. -/
theorem D.unalloc {k : DK} (h : D G s xs F) : D G { s with
    L := cut s.next (ins d [.opn s.next k, .cls s.next] s.L)
    next := s.next + 1 } xs F := fun o => by
  obtain ⟨g, h⟩ := h ⟨o.1, o.2.1, o.2.2⟩
  refine ⟨g, h.kp ⟨?_, Nat.le_succ _, fun o => o⟩⟩
  exact cut_ins (c := s.next) (d := d) (k := k) (X := []) (L := s.L)
    (fun h' => absurd (h.wf.opn _ h') (Nat.lt_irrefl _)) (by simp)

/-- `parser_decl`. -/
theorem sep_declF (hS : RecSep X.R) (d : Id) (V : DF) (h0 : D G s xs all) (hs : (d :: bs).Sublist xs) :
    wp (declF X d V) (fun r s' => (V.line = true → D G s' (d :: bs) all) ∧ (r = .good → D G s' (d :: bs) nope) ∧
      (r ≠ .good → D G s' (d :: bs) all)) s := by
  have h0 := h0.sub hs
  have h1 := (g_alloc (k := .concat) h0 (List.Sublist.refl _) _ _ rfl).1
  unfold declF
  refine wp_allocb ?_
  refine wp_bind (wp_loop (Q := fun n s1 => D G s1 (s.next :: d :: bs) nope ∧ (n = 0 → okG s1 →
      s1 = { s with L := ins d [.opn s.next .concat, .cls s.next] s.L, next := s.next + 1 }))
    (fun n s1 => D G s1 (s.next :: d :: bs) nope ∧ (n = 0 →
      s1 = { s with L := ins d [.opn s.next .concat, .cls s.next] s.L, next := s.next + 1 }))
    ?_ _ _ _ ⟨h1.no, fun _ => rfl⟩) fun n s1 h => ?_
  · intro n s1 ⟨h, hn⟩
    unfold declRound
    refine wp_jp (P := fun l s2 => (n = 0 ∧ l = none ∧ s2 = s1) ∨ (n ≠ 0 ∧ l = some s1.next ∧
      s2 = { s1 with L := ins s.next [.lay s1.next .hardline] s1.L, next := s1.next + 1 }))
      (fun hn => ?_) (fun hn => ?_) fun l s2 h2 => ?_
    · intro l s2 e
      have e : some (some s1.next, _) = some (l, s2) := e
      cases e
      exact .inr ⟨by omega, rfl, rfl⟩
    · exact wp_pure (.inl ⟨by omega, rfl, rfl⟩)
    · have hall : D G s2 (s.next :: d :: bs) all := by
        rcases h2 with ⟨e, _, rfl⟩ | ⟨_, _, rfl⟩
        · cases hn e
          exact h1
        · exact (g_lay h (k := .hardline) rfl (List.Sublist.refl _) _ _ rfl).1
      refine wp_bind (sep_decl2 hS _ V _ _ _ _ hall (List.Sublist.refl _)) fun r s3 h3 => ?_
      refine wp_ite (fun hr => ?_) fun hr => ?_
      · rcases h2 with ⟨e, rfl, rfl⟩ | ⟨e, rfl, rfl⟩
        · refine wp_pb (wp_inr ⟨fun o => ?_, fun _ o => ?_⟩)
          · cases h3.2 hr o
            exact h o
          · cases h3.2 hr o
            exact hn e
        · refine wp_bind (P := fun _ s3' => D G s3' (s.next :: d :: bs) nope) ?_ fun _ s4 h4 =>
            wp_inr ⟨h4, fun e' => absurd e' e⟩
          intro a s4 e4
          have e4 : some ((), _) = some (a, s4) := e4
          cases e4
          intro o
          have e5 := h3.2 hr ⟨o.1, o.2.1, o.2.2⟩
          subst e5
          exact h.unlay o
      · have h := h3.1 (Decidable.not_not.1 hr)
        refine wp_q fun _ => ?_
        refine wp_ite (fun _ => ?_) fun _ => ?_
        · exact wp_inr ⟨h, fun e => absurd e (Nat.succ_ne_zero _)⟩
        · exact wp_inl ⟨h, fun e => absurd e (Nat.succ_ne_zero _)⟩
  · obtain ⟨h, hn⟩ := h
    refine wp_ite (fun e => ?_) fun _ => ?_
    · refine wp_bind (P := fun _ s' => D G s' (d :: bs) all) (wp_rmDoc ?_) fun _ s h => ?_
      · intro o
        have e5 := hn e ⟨o.1, o.2.1, o.2.2⟩
        subst e5
        exact h0.unalloc o
      · exact wp_none (fun _ => ⟨fun _ => h, fun _ => h.no, fun _ => h⟩) fun _ => ⟨fun _ => h, fun _ => h.no, fun _ => h⟩
    · refine wp_bind (P := fun _ s' => D G s' (d :: bs) nope ∧ (V.line = true → D G s' (d :: bs) all)) ?_ fun _ s h => ?_
      · refine wp_when (fun e => ?_) fun e => ?_
        · refine wp_mono (g_lay_ h (by wh) (List.Sublist.refl _)) fun _ _ h => ?_
          have h := h.1.sub (List.sublist_cons_self _ _)
          exact ⟨h.no, fun _ => h⟩
        · exact ⟨h.sub (List.sublist_cons_self _ _), fun e' => by rw [e] at e'; cases e'⟩
      · exact wp_good (fun _ => ⟨h.2, fun _ => h.1, fun e => absurd rfl e⟩) fun e => ⟨h.2, nofun, fun _ => D.err e⟩

end Knfmt.Parse.Sep
