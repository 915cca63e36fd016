import Verif.Parse.SepExpr
/-!
# The parser: white space between tokens, the document of an expression
-/
namespace Knfmt.Parse.Sep
open Knfmt.Lexer (TT)
open Knfmt.Parse.Spec (near loose opHead opNexts)

attribute [local instance] strictM

variable {G : Prop} {s s' : St} {xs ys bs : List Id} {d : Id} {F F' : Nx} {α β : Type}
  {Q : β → St → Prop} {X : Cx}

theorem when_true {m : M Unit} : when true m = m := rfl
theorem when_false {m : M Unit} : when false m = pure () := rfl

/-- Like `DM`, but what the caller goes on with is a new document. -/
def DMS (G : Prop) (P : Nx → Prop) (m : Id → M Id) : Prop :=
  ∀ d s xs bs F, D G s xs F → (d :: bs).Sublist xs → (G → P F) →
    wp (m d) (fun r s' => ∃ ys, D G s' (r :: ys) nope ∧ (d :: bs).Sublist ys) s

theorem DMS.dm {P : Nx → Prop} {m : Id → M Id} (h : DMS G P m) : DM G P m :=
  fun d s xs bs F h1 h2 h3 => wp_mono (h d s xs bs F h1 h2 h3) fun _ _ ⟨ys, h, hy⟩ => ⟨ys, h, hy.cons _⟩

theorem sub_tail {a b : Id} {l m : List Id} (h : (a :: l).Sublist (b :: m)) : l.Sublist m := by
  cases h with
  | cons _ h => exact (List.sublist_cons_self _ _).trans h
  | cons_cons _ h => exact h

theorem wp_asc {γ : Type} {m : M α} {k : α → M β} {l : β → M γ} {Q : γ → St → Prop}
    (h : wp (m >>= fun a => k a >>= l) Q s) : wp ((m >>= k) >>= l) Q s := by
  unfold wp at h ⊢
  simp only [bind] at h ⊢
  cases e : m s with
  | none => rw [e] at h; exact h
  | some r => rw [e] at h; exact h

theorem g_emitO {o : Option Tok} (h : D G s xs F) (hs : (d :: bs).Sublist xs)
    (ho : G → ∃ k, o = some k ∧ cl k.ty = true) :
    wp (emitOpt o d) (fun _ s' => D G s' (d :: bs) all ∧ s'.rest = s.rest ∧ s'.done = s.done) s := by
  unfold emitOpt
  split
  · refine h.emitC hs fun g => ?_
    obtain ⟨k, e1, e2⟩ := ho g
    cases e1
    exact e2
  · refine wp_pure ⟨(h.sub hs).monoG fun g => ?_, rfl, rfl⟩
    obtain ⟨k, e1, e2⟩ := ho g
    cases e1

theorem cl_of {a b : TT} (h : a = b) (hb : cl b = true) : cl a = true := h ▸ hb

theorem sep_binary {op : Tok} {l r : Ex} {ml mr : Id → M Id} (hl : DMS G (Pre l) ml)
    (hmr : DM G (Pre r) mr) : DM G (Pre l) (docBinary X op r ml mr) := by
  intro d s xs bs F h hs hP
  unfold docBinary
  split
  · refine wp_bind (hl _ _ _ _ _ h hs hP) fun lhs s ⟨zs, h, hz⟩ => ?_
    st
    refine wp_bind (h.emit (List.Sublist.refl _) fun _ => .inl rfl) fun _ s ⟨h, _⟩ => ?_
    st
    split
    · exact wp_pure ⟨bs, h.no.sub (by sub), List.Sublist.refl _⟩
    · st
      refine wp_bind (g_alignIf h (hz.cons _)) fun d' s ⟨ws, h, hw, _⟩ => ?_
      st
      exact wp_mono (hmr.softIf _ _ _ _ _ h (List.Sublist.refl _) fun _ => Pre.all r)
        fun _ _ ⟨ys, h, hy⟩ => ⟨ys, h, hw.trans hy⟩
  · st
    rename_i bf al
    refine wp_bind (g_alignIf h hs) fun d' s ⟨ws, h, hw, _⟩ => ?_
    refine wp_bind (hl _ _ _ _ _ h (List.Sublist.refl _) hP) fun lhs s ⟨zs, h, hz⟩ => ?_
    refine wp_q fun sp => ?_
    dsimp only
    generalize (!spaceFlag op.ty || sp) = sp
    have out : ∀ {r : Id} {s : St} {ys : List Id}, D G s (r :: ys) nope → (d' :: ws).Sublist (r :: ys) →
        ∃ ys, D G s (r :: ys) nope ∧ (d :: bs).Sublist (r :: ys) := fun h hy => ⟨_, h, hw.trans hy⟩
    cases sp
    · simp only [when_false, when_true, Bool.not_false, Bool.true_and, Bool.and_true, Bool.and_false, pure_bind]
      have bef : ∀ {c : Id} {cs : List Id} {s : St} {F : Nx} {k : Unit → M Id} {Q : Id → St → Prop},
          D G s (c :: cs) F → (∀ s F, D G s (c :: cs) F → (r ≠ .null → Pre r F) → wp (k ()) Q s) →
          wp (when (decide (r ≠ .null)) (noteBefore r c) >>= k) Q s := by
        intro c cs s F k Q h hk
        by_cases hr0 : r = .null
        · simp only [hr0, ne_eq, not_true_eq_false, decide_false, when_false]
          exact wp_pb (hk s F h fun e => absurd hr0 e)
        · simp only [ne_eq, hr0, not_false_eq_true, decide_true, when_true]
          exact wp_bind (g_before h (List.Sublist.refl _)) fun _ s ⟨F', hF, h, _⟩ => hk s F' h fun _ => hF
      split
      · st
        refine wp_bind (h.emit (bs := d' :: ws) (by sub) fun _ => .inl (by simp)) fun _ s ⟨h, _⟩ => ?_
        refine bef h fun s F h hF => ?_
        exact wp_mono (hmr.opt h (List.Sublist.refl _) fun _ => hF) fun _ _ ⟨ys, h, hy⟩ => out h (by sub)
      · st
        refine wp_bind (h.emit (List.Sublist.refl _) fun _ => .inl (by simp)) fun _ s ⟨h, _⟩ => ?_
        refine wp_bind (g_allocIn' (pre := [lhs]) h (hz.cons_cons _)) fun g s ⟨h, _⟩ => ?_
        replace h : D G s (lhs :: g :: d' :: ws) _ := h
        refine wp_q fun hh => ?_
        cases hh
        · simp only [when_false, when_true, Bool.not_false, Bool.true_and, pure_bind]
          have h := h.sub (List.sublist_cons_self _ _)
          refine bef h fun s F h hF => ?_
          exact wp_mono (hmr.soft.opt h (List.Sublist.refl _) fun _ => hF) fun _ _ ⟨ys, h, hy⟩ => out h (by sub)
        · simp only [when_false, when_true, Bool.not_true, Bool.false_and, pure_bind]
          refine wp_bind (g_lay_ h (by wh) (List.Sublist.refl _)) fun _ s ⟨h, _⟩ => ?_
          exact wp_mono (hmr.soft.optA h (d := g) (bs := d' :: ws) (by sub)) fun _ _ ⟨ys, h, hy⟩ => out h (by sub)
    · simp only [when_false, when_true, Bool.not_true, Bool.false_and, Bool.and_true, Bool.and_false, pure_bind]
      split
      · st
        refine wp_bind (h.emit (bs := d' :: ws) (by sub) fun _ => .inl (by simp)) fun _ s ⟨h, _⟩ => ?_
        st
        exact wp_mono (hmr.optA h (List.Sublist.refl _)) fun _ _ ⟨ys, h, hy⟩ => out h (by sub)
      · st
        refine wp_bind (h.emit (List.Sublist.refl _) fun _ => .inl (by simp)) fun _ s ⟨h, _⟩ => ?_
        refine wp_bind (g_allocIn' (pre := [lhs]) h (hz.cons_cons _)) fun g s ⟨h, _⟩ => ?_
        replace h : D G s (lhs :: g :: d' :: ws) _ := h
        refine wp_q fun hh => ?_
        cases hh
        · simp only [when_false, when_true, Bool.not_false, Bool.true_and, pure_bind]
          refine wp_pb ?_
          refine wp_bind (g_lay_ (bs := d' :: ws) h (by wh) (by sub)) fun _ s ⟨h, _⟩ => ?_
          exact wp_mono (hmr.soft.optA h (List.Sublist.refl _)) fun _ _ ⟨ys, h, hy⟩ => out h (by sub)
        · simp only [when_false, when_true, Bool.not_true, Bool.false_and, pure_bind]
          refine wp_bind (g_lay_ h (by wh) (List.Sublist.refl _)) fun _ s ⟨h, _⟩ => ?_
          exact wp_mono (hmr.soft.optA h (d := g) (bs := d' :: ws) (by sub)) fun _ _ ⟨ys, h, hy⟩ => out h (by sub)

theorem sep_parens {l : Tok} {e : Ex} {r : Option Tok} {m : Id → M Id} (hm : DM G (Pre e) m)
    (hl : G → l.ty = .lparen) (hmr : G → ∃ k, r = some k ∧ k.ty = .rparen) :
    DM G (fun _ => True) (docParens X l e r m) := by
  intro d s xs bs F h hs hP
  unfold docParens
  refine wp_bind (h.emitC hs fun g => cl_of (hl g) rfl) fun _ s ⟨h, _⟩ => ?_
  refine wp_q fun _ => ?_
  refine wp_jp (P := fun c s' => ∃ ys, D G s' (c :: ys) all ∧ (d :: bs).Sublist (c :: ys))
    (fun _ => wp_mono (g_indentIn h (List.Sublist.refl _)) fun _ _ h => ⟨_, h.1, by sub⟩)
    (fun _ => wp_pure ⟨_, h, by sub⟩) fun d' s ⟨zs, h, hz⟩ => ?_
  refine wp_bind (hm.optA h (List.Sublist.refl _)) fun d' s ⟨ys, h, hy⟩ => ?_
  refine wp_bind (g_emitOpt h (List.Sublist.refl _) fun g t e => ?_) fun _ s ⟨h, _⟩ => ?_
  · obtain ⟨k, e1, e2⟩ := hmr g
    rw [e1] at e
    cases e
    exact cl_of e2 rfl
  exact wp_pure ⟨_, h, by sub⟩

theorem sep_call {l : Tok} {f a : Ex} {r : Option Tok} {mf ma : Id → M Id} (hf : DM G (Pre f) mf)
    (ha : DM G (Pre a) ma) (hl : G → l.ty = .lparen) (hmr : G → ∃ k, r = some k ∧ k.ty = .rparen) :
    DM G (Pre f) (docCall X l a r mf ma) := by
  intro d s xs bs F h hs hP
  unfold docCall
  refine wp_q fun _ => ?_
  refine wp_bind (hf.softIf _ _ _ _ _ h hs hP) fun d1 s ⟨ys, h, hy⟩ => ?_
  refine wp_bind (h.emitC (List.Sublist.refl _) fun g => cl_of (hl g) rfl) fun _ s ⟨h, _⟩ => ?_
  refine wp_q fun _ => ?_
  refine wp_jp (P := fun c s' => ∃ zs, D G s' (c :: zs) all ∧ (d1 :: ys).Sublist (c :: zs))
    (fun _ => wp_pure ⟨_, h, by sub⟩)
    (fun _ => wp_mono (g_alignIf h (List.Sublist.refl _)) fun _ _ ⟨zs, h, hz, _⟩ => ⟨zs, h, hz⟩)
    fun d2 s ⟨zs, h, hz⟩ => ?_
  refine wp_bind (ha.soft.optA h (List.Sublist.refl _)) fun d3 s ⟨ws, h, hw⟩ => ?_
  refine wp_q fun _ => ?_
  refine wp_jp (P := fun c s' => ∃ vs, D G s' (c :: vs) nope ∧ (d3 :: ws).Sublist (c :: vs))
    (fun _ => wp_pure ⟨_, h, by sub⟩)
    (fun _ => wp_mono (g_indentIn h (List.Sublist.refl _)) fun _ _ h => ⟨_, h.1, by sub⟩)
    fun d4 s ⟨vs, h, hv⟩ => ?_
  refine wp_bind (g_emitOpt h (List.Sublist.refl _) fun g t e => ?_) fun _ s ⟨h, _⟩ => ?_
  · obtain ⟨k, e1, e2⟩ := hmr g
    rw [e1] at e
    cases e
    exact cl_of e2 rfl
  exact wp_pure ⟨ws, h.sub hv, hy.trans (hz.trans hw)⟩

theorem sep_arg {op : Tok} {l r : Ex} {ml mr : Id → M Id} (hl : DM G (Pre l) ml)
    (hmr : DM G (Pre r) mr) (ho : op.ty = .comma) : DM G (Pre l) (docArg X op l r ml mr) := by
  intro d s xs bs F h hs hP
  unfold docArg
  refine wp_bind (hl.opt h hs fun g _ => hP g) fun d1 s ⟨ys, h, hy⟩ => ?_
  refine wp_bind (h.emitC (List.Sublist.refl _) fun _ => cl_of ho rfl) fun _ s ⟨h, _⟩ => ?_
  st
  exact hmr.soft.optA h hy

theorem sep_ternary {q : Tok} {c m t : Ex} {colon : Option Tok} {mc mm mt : Id → M Id}
    (hc : DM G (Pre c) mc) (hm : DM G (Pre m) mm) (ht : DM G (Pre t) mt)
    (hk : G → ∃ k, colon = some k ∧ k.ty = .colon) :
    DM G (Pre c) (docTernary X q m colon mc mm mt) := by
  intro d s xs bs F h hs hP
  have hk : G → ∃ k, colon = some k ∧ cl k.ty = true := fun g => by
    obtain ⟨k, e1, e2⟩ := hk g
    exact ⟨k, e1, cl_of e2 rfl⟩
  unfold docTernary
  refine wp_q fun _ => ?_
  split
  · refine wp_bind (hc _ _ _ _ _ h hs hP) fun cond s ⟨zs, h, hz⟩ => ?_
    st
    refine wp_bind (g_alignIf h hz) fun d' s ⟨ws, h, hw, _⟩ => ?_
    refine wp_bind (g_allocIn h (List.Sublist.refl _)) fun lhs s ⟨h, _⟩ => ?_
    st
    refine wp_bind (h.emit (List.Sublist.refl _) fun _ => .inl rfl) fun _ s ⟨h, _⟩ => ?_
    refine wp_bind (P := fun _ s => ∃ F, D G s (lhs :: d' :: ws) F ∧ (m ≠ .null → Pre m F)) ?_ fun _ s ⟨F, h, hF⟩ => ?_
    · refine wp_when (fun _ => wp_mono (g_lay_ h (by wh) (List.Sublist.refl _)) fun _ _ h => ⟨_, h.1, fun _ => Pre.all m⟩)
        fun e => ⟨_, h, fun hm => ?_⟩
      simp [hm] at e
    refine wp_bind (hm.soft.opt h (List.Sublist.refl _) fun _ => hF) fun l' s ⟨vs, h, hv⟩ => ?_
    st
    refine wp_bind (g_emitO h (List.Sublist.refl _) hk) fun _ s ⟨h, _⟩ => ?_
    st
    exact wp_mono (ht _ _ _ _ _ h (List.Sublist.refl _) fun _ => Pre.all t) fun _ _ ⟨ys, h, hy⟩ => ⟨ys, h, by sub⟩
  · refine wp_bind (hc _ _ _ _ _ h hs hP) fun t1 s ⟨zs, h, hz⟩ => ?_
    st
    refine wp_bind (h.emit (List.Sublist.refl _) fun _ => .inl rfl) fun _ s ⟨h, _⟩ => ?_
    refine wp_bind (P := fun _ s => ∃ F, D G s (t1 :: zs) F ∧ (m ≠ .null → Pre m F)) ?_ fun _ s ⟨F, h, hF⟩ => ?_
    · refine wp_when (fun _ => wp_mono (g_lay_ h (by wh) (List.Sublist.refl _)) fun _ _ h => ⟨_, h.1, fun _ => Pre.all m⟩)
        fun e => ⟨_, h, fun hm => ?_⟩
      simp [hm] at e
    refine wp_bind (hm.soft.opt h hz fun _ => hF) fun t2 s ⟨vs, h, hv⟩ => ?_
    st
    refine wp_bind (g_emitO h (List.Sublist.refl _) hk) fun _ s ⟨h, _⟩ => ?_
    st
    exact ht.soft _ _ _ _ _ h hv fun _ => Pre.all t

/-- What `exprDoc` gives back. -/
def EO (G : Prop) (s' : St) (d : Id) (bs : List Id) (r : Id × Id) : Prop :=
  ∃ zs ys, D G s' (r.2 :: zs) nope ∧ (r.1 :: ys).Sublist (r.2 :: zs) ∧ (d :: bs).Sublist ys

/-- The document of an expression. -/
theorem sep_expr (X : Cx) (G : Prop) : ∀ (e : Ex), (G → ExOK e) → ∀ (inner : Bool) (d : Id) (s : St)
    (xs bs : List Id) (F : Nx), D G s xs F → (d :: bs).Sublist xs → (G → Pre e F) →
    wp (exprDoc X inner e d) (fun r s' => EO G s' d bs r) s := by
  intro e
  have one : ∀ {e : Ex}, (∀ (inner : Bool) (d : Id) (s : St)
      (xs bs : List Id) (F : Nx), D G s xs F → (d :: bs).Sublist xs → (G → Pre e F) →
      wp (exprDoc X inner e d) (fun r s' => EO G s' d bs r) s) →
      DMS G (Pre e) (fun d => exprDoc X false e d >>= fun x => pure x.1) := by
    intro e he d s xs bs F h hs hP
    exact wp_bind (he false d s xs bs F h hs hP) fun x s' ⟨zs, ys, h1, h2, h3⟩ => wp_pure ⟨ys, h1.sub h2, h3⟩
  have top : ∀ {P : Nx → Prop} {m : Id → M Id} {d : Id} {s : St}
      {xs bs : List Id} {F : Nx}, DM G P m → D G s xs F → (d :: bs).Sublist xs → (G → P F) →
      wp (allocIn .group d >>= fun c => m c >>= fun r => pure (r, r))
        (fun r s' => EO G s' d bs r) s := by
    intro P m d s xs bs F hm h hs hP
    refine wp_bind (g_allocIn h hs) fun c s ⟨h, _⟩ => ?_
    exact wp_bind (hm _ _ _ _ _ h (List.Sublist.refl _) hP) fun r s ⟨ys, h, hy⟩ =>
      wp_pure ⟨ys, ys, h, List.Sublist.refl _, sub_tail hy⟩
  have fin : ∀ {r c d : Id} {s : St} {F : Nx} {ys bs : List Id}, D G s (r :: ys) F → (c :: d :: bs).Sublist (r :: ys) →
      EO G s d bs (r, r) := fun h hy => ⟨_, _, h.no, List.Sublist.refl _, sub_tail hy⟩
  have bef : ∀ {c : Id} {cs : List Id} {s : St} {F : Nx} {r : Ex} {k : Unit → M (Id × Id)} {Q : Id × Id → St → Prop},
      D G s (c :: cs) F → (∀ s F, D G s (c :: cs) F → (r ≠ .null → Pre r F) → wp (k ()) Q s) →
      wp (when (decide (r ≠ .null)) (noteBefore r c) >>= k) Q s := by
    intro c cs s F r k Q h hk
    by_cases hr0 : r = .null
    · simp only [hr0, ne_eq, not_true_eq_false, decide_false, when_false]
      exact wp_pb (hk s F h fun e => absurd hr0 e)
    · simp only [ne_eq, hr0, not_false_eq_true, decide_true, when_true]
      exact wp_bind (g_before h (List.Sublist.refl _)) fun _ s ⟨F', hF, h, _⟩ => hk s F' h fun _ => hF
  induction e with
  | null =>
    intro hE inner d s xs bs F h hs hP
    refine top (P := fun _ => True) (m := fun c => pure c) ?_ h hs fun _ => trivial
    exact fun d s xs bs F h hs _ => wp_pure ⟨bs, (h.sub hs).no, List.Sublist.refl _⟩
  | lit tk =>
    intro hE inner d s xs bs F h hs hP
    refine top (P := Pre (.lit tk)) (m := fun c => emit tk c >>= fun _ => pure c) ?_ h hs hP
    intro d s xs bs F h hs hP
    exact wp_bind (h.emit hs fun g => .inl (hP g)) fun _ s h => wp_pure ⟨bs, h.1.no, List.Sublist.refl _⟩
  | un op e ih =>
    intro hE inner d s xs bs F h hs hP
    unfold exprDoc
    st
    refine wp_bind (h.emit (List.Sublist.refl _) fun g => .inl (hP g)) fun _ s ⟨h, _⟩ => ?_
    refine bef h fun s F h hF => ?_
    refine wp_bind ((one (ih hE)).dm.opt h (List.Sublist.refl _) fun _ => hF) fun r s ⟨ys, h, hy⟩ => ?_
    exact wp_pure (fin h hy)
  | pre op e ih =>
    intro hE inner d s xs bs F h hs hP
    unfold exprDoc
    st
    refine wp_bind (h.emit (List.Sublist.refl _) fun g => .inl (hP g)) fun _ s ⟨h, _⟩ => ?_
    refine bef h fun s F h hF => ?_
    refine wp_bind ((one (ih hE)).dm.opt h (List.Sublist.refl _) fun _ => hF) fun r s ⟨ys, h, hy⟩ => ?_
    st
    exact wp_pure (fin (h.sub hy) (List.Sublist.refl _))
  | post e op ih =>
    intro hE inner d s xs bs F h hs hP
    unfold exprDoc
    st
    refine wp_bind ((one (ih hE)).dm.opt h (List.Sublist.refl _) fun g _ => hP g) fun r s ⟨ys, h, hy⟩ => ?_
    refine wp_bind (g_glue h hy) fun _ s ⟨h, _⟩ => ?_
    refine wp_bind (h.emit (List.Sublist.refl _) fun g => .inl (by simp)) fun _ s ⟨h, _⟩ => ?_
    exact wp_pure (fin h (List.Sublist.refl _))
  | bin l op r ihl ihr =>
    intro hE inner d s xs bs F h hs hP
    by_cases hc : op.ty = .comma
    · have := top (sep_arg (X := X) (op := op) (one (ihl fun g => (hE g).1)).dm
        (one (ihr fun g => (hE g).2)).dm hc) h hs hP
      unfold exprDoc
      simp only [hc, if_true]
      exact this
    · have := top (sep_binary (X := X) (op := op) (one (ihl fun g => (hE g).1))
        (one (ihr fun g => (hE g).2)).dm) h hs hP
      unfold exprDoc
      simp only [hc, if_false]
      exact this
  | tern c q m colon t ihc ihm iht =>
    intro hE inner d s xs bs F h hs hP
    exact top (sep_ternary (X := X) (q := q) (colon := colon) (one (ihc fun g => (hE g).1)).dm
      (one (ihm fun g => (hE g).2.1)).dm (one (iht fun g => (hE g).2.2.2)).dm fun g => (hE g).2.2.1) h hs hP
  | parens l e r ih =>
    intro hE inner d s xs bs F h hs hP
    exact top (sep_parens (X := X) (one (ih fun g => (hE g).2.1)).dm (fun g => (hE g).1) fun g => (hE g).2.2) h hs
      fun _ => trivial
  | call f l a r ihf iha =>
    intro hE inner d s xs bs F h hs hP
    exact top (sep_call (X := X) (one (ihf fun g => (hE g).1)).dm (one (iha fun g => (hE g).2.2.1)).dm
      (fun g => (hE g).2.1) fun g => (hE g).2.2.2) h hs hP
  | squares f l i r ihf ihi =>
    intro hE inner d s xs bs F h hs hP
    unfold exprDoc
    st
    refine wp_bind ((one (ihf fun g => (hE g).1)).dm.opt h (List.Sublist.refl _) fun g _ => hP g)
      fun r s ⟨ys, h, hy⟩ => ?_
    refine wp_bind (h.emitC (List.Sublist.refl _) fun g => cl_of (hE g).2.1 rfl) fun _ s ⟨h, _⟩ => ?_
    refine wp_bind ((one (ihi fun g => (hE g).2.2.1)).dm.optA h (List.Sublist.refl _)) fun r s ⟨zs, h, hz⟩ => ?_
    refine wp_bind (g_emitO h (List.Sublist.refl _) fun g => ?_) fun _ s ⟨h, _⟩ => ?_
    · obtain ⟨k, e1, e2⟩ := (hE g).2.2.2
      exact ⟨k, e1, cl_of e2 rfl⟩
    exact wp_pure (fin h (hy.trans hz))
  | field l op r ihl ihr =>
    intro hE inner d s xs bs F h hs hP
    unfold exprDoc
    st
    refine wp_bind ((one (ihl fun g => (hE g).1)) _ _ _ _ _ h (List.Sublist.refl _) hP)
      fun r s ⟨ys, h, hy⟩ => ?_
    st
    refine wp_bind (h.emit (List.Sublist.refl _) fun g => .inl (by simp)) fun _ s ⟨h, _⟩ => ?_
    refine bef h fun s F h hF => ?_
    refine wp_bind ((one (ihr fun g => (hE g).2)).dm.opt h (List.Sublist.refl _) fun _ => hF)
      fun r s ⟨zs, h, hz⟩ => ?_
    exact wp_pure (fin h ((hy.cons _).trans hz))
  | cast l ts r e ih =>
    intro hE inner d s xs bs F h hs hP
    unfold exprDoc
    st
    refine wp_bind (h.emitC (List.Sublist.refl _) fun g => cl_of (hE g).1 rfl) fun _ s ⟨h, _⟩ => ?_
    st
    refine wp_bind (h.adopt (List.Sublist.refl _) (fun g => (hE g).2.1) fun _ _ _ => .inl rfl) fun _ s h => ?_
    refine wp_bind (g_emitO (bs := d :: bs) h (by sub) fun g => ?_) fun _ s ⟨h, _⟩ => ?_
    · obtain ⟨k, e1, e2⟩ := (hE g).2.2.1
      exact ⟨k, e1, cl_of e2 rfl⟩
    refine wp_bind ((one (ih fun g => (hE g).2.2.2)).dm.optA h (List.Sublist.refl _)) fun r s ⟨ys, h, hy⟩ => ?_
    st
    exact wp_pure (fin (h.sub hy) (List.Sublist.refl _))
  | sizeofE tk e ih =>
    intro hE inner d s xs bs F h hs hP
    unfold exprDoc
    st
    refine wp_bind (h.emit (List.Sublist.refl _) fun g => .inl (hP g)) fun _ s ⟨h, _⟩ => ?_
    st
    refine wp_bind ((one (ih hE)).dm.optA h (List.Sublist.refl _)) fun r s ⟨ys, h, hy⟩ => ?_
    exact wp_pure (fin h hy)
  | sizeofP tk l e r ih =>
    intro hE inner d s xs bs F h hs hP
    unfold exprDoc
    st
    refine wp_bind (h.emit (List.Sublist.refl _) fun g => .inl (hP g)) fun _ s ⟨h, _⟩ => ?_
    refine wp_bind (h.emitC (List.Sublist.refl _) fun g => cl_of (hE g).1 rfl) fun _ s ⟨h, _⟩ => ?_
    refine wp_bind ((one (ih fun g => (hE g).2.1)).dm.optA h (List.Sublist.refl _)) fun r s ⟨ys, h, hy⟩ => ?_
    refine wp_bind (g_emitO h (List.Sublist.refl _) fun g => ?_) fun _ s ⟨h, _⟩ => ?_
    · obtain ⟨k, e1, e2⟩ := (hE g).2.2
      exact ⟨k, e1, cl_of e2 rfl⟩
    st
    exact wp_pure (fin h hy)
  | concat e tk ih =>
    intro hE inner d s xs bs F h hs hP
    unfold exprDoc
    refine wp_jp (P := fun c s' => ∃ ys, D G s' (c :: ys) F ∧ (d :: bs).Sublist (c :: ys))
      (fun _ => wp_pure ⟨_, h.sub hs, by sub⟩)
      (fun _ => wp_mono (g_allocIn h (by sub)) fun _ _ h => ⟨_, h.1, by sub⟩) fun g s ⟨zs, h, hz⟩ => ?_
    st
    refine wp_bind (g_alignIf h (List.Sublist.refl _)) fun g' s ⟨ws, h, hw, _⟩ => ?_
    refine wp_bind (ih hE true _ _ _ _ _ h (List.Sublist.refl _) hP) fun x s ⟨us, vs, h, hu, hv⟩ => ?_
    st
    unfold docLit
    refine wp_asc ?_
    refine wp_bind (g_allocIn h hu) fun c s ⟨h, _⟩ => ?_
    refine wp_asc ?_
    refine wp_bind (h.emit (List.Sublist.refl _) fun g => .inl rfl) fun _ s ⟨h, _⟩ => ?_
    st
    exact wp_pure ⟨_, vs, h.no, by sub, hz.trans (hw.trans hv)⟩
  | recov ts =>
    intro hE inner d s xs bs F h hs hP
    unfold exprDoc
    st
    refine wp_bind (g_alignIf h (List.Sublist.refl _)) fun g' s ⟨ws, h, hw, _⟩ => ?_
    refine wp_bind (h.adopt (List.Sublist.refl _) hE fun g t ht => ?_) fun _ s h => ?_
    · left
      have := hP g
      unfold Pre first at this
      rw [ht] at this
      exact this
    st
    exact wp_pure (fin h hw)

/-- `parser_expr`: unless a line comes first, any token must be allowed. -/
theorem sep_exprA (hR : RecOk X.R) (hS : RecSep X.R) (a : EA) (h : D G s xs F) (hF : a.line = true ∨ F = all)
    (hs : (a.dc :: bs).Sublist xs) : wp (exprF X a) (fun x s' => Ex3 G s s' a.dc bs x) s := by
  unfold exprF exprExec
  refine wp_bind (P := fun r s' => (r = none ∧ Kp s s') ∨
    ∃ o ys, r = some o ∧ D G s' (o :: ys) nope ∧ (a.dc :: bs).Sublist ys) ?_ fun r s1 h1 => ?_
  · refine wp_bind (kp_exec1 hR hS a.stop X.n 0 s) fun ex s1 h1 => ?_
    have h0 := h.kp h1.1
    refine wp_any fun _ => ?_
    split
    · exact wp_pure (.inl ⟨rfl, h1.1⟩)
    · have h : D (G ∧ ExOK ex) s1 xs F := h0.fact fun o g => ⟨g, h1.2 o⟩
      st
      refine wp_jp (P := fun c s' => ∃ ys, D (G ∧ ExOK ex) s' (c :: ys) F ∧ (a.dc :: bs).Sublist ys)
        (fun _ => wp_mono (g_indentIn h (List.Sublist.refl _)) fun _ _ h => ⟨_, h.1, by sub⟩)
        (fun _ => wp_mono (g_alloc h (List.Sublist.refl _)) fun _ _ h => ⟨_, h.1, by sub⟩) fun d s ⟨ys, h, hy⟩ => ?_
      refine wp_bind (P := fun _ s' => D (G ∧ ExOK ex) s' (d :: ys) all) ?_ fun _ s h => ?_
      · rcases hF with e | rfl
        · rw [e, when_true]
          exact wp_mono (g_lay_ h (by wh) (List.Sublist.refl _)) fun _ _ h => h.1
        · exact wp_mono (g_when_lay h (by wh) (List.Sublist.refl _)) fun _ _ h => h.1
      st
      refine wp_jp (P := fun c s' => ∃ zs, D (G ∧ ExOK ex) s' (c :: zs) all ∧ (a.dc :: bs).Sublist zs)
        (fun _ => wp_mono (g_alloc h (List.Sublist.refl _)) fun _ _ h => ⟨_, h.1, by sub⟩)
        (fun _ => wp_pure ⟨_, h, hy⟩) fun d s ⟨zs, h, hz⟩ => ?_
      refine wp_bind (sep_expr X _ ex (fun g => g.2) false _ _ _ _ _ h (List.Sublist.refl _) fun _ => Pre.all ex)
        fun x s ⟨us, vs, h, hu, hv⟩ => ?_
      refine wp_pure (.inr ⟨_, vs, rfl, (h.sub hu).fact fun _ g => g.1, ?_⟩)
      exact hz.trans ((List.sublist_cons_self _ _).trans hv)
  · rcases h1 with ⟨rfl, k⟩ | ⟨o, ys, rfl, h, hy⟩
    · exact wp_nn (fun _ => wp_pure (.inr (.inl ⟨rfl, k⟩))) fun e => wp_pure (.inr (.inr ⟨rfl, e⟩))
    · exact wp_gd (fun _ => wp_pure (.inl ⟨o, ys, rfl, h, hy⟩)) fun e => wp_pure (.inr (.inr ⟨rfl, e⟩))

theorem sep_exprF (hR : RecOk X.R) (hS : RecSep X.R) (a : EA) : SE (exprF X a) a.dc :=
  fun _ _ _ _ h hs => sep_exprA hR hS a h (.inr rfl) hs

theorem sep_exprL (hR : RecOk X.R) (hS : RecSep X.R) (a : EA) (e : a.line = true) : SEL (exprF X a) a.dc :=
  fun _ _ _ _ _ h hs => sep_exprA hR hS a h (.inl e) hs

end Knfmt.Parse.Sep
