import Verif.Parse.ExprProps
/-!
# The parser: the document of an expression
-/
namespace Knfmt.Parse
open Knfmt.Lexer (TT)
open Knfmt.Parse.Spec (ends Tidy Tidy')

variable [Mode] {s0 s : St} {p : List Tok} {xs bs : List Id} {d : Id}

/-- Show that documents are still open. -/
syntax "sub" : tactic
macro_rules
  | `(tactic| sub) => `(tactic| with_reducible first
    | exact List.Sublist.refl _
    | assumption
    | (refine List.Sublist.cons_cons _ ?_; sub)
    | (refine List.Sublist.cons _ ?_; sub)
    | (refine List.Sublist.trans ?_ ‹List.Sublist _ _›; sub))

/-- Nothing was added after `d` was looked at. -/
theorem On.self (h : Cur s0 s p xs) (hs : (d :: bs).Sublist xs) : On s0 s p d d bs :=
  ⟨bs, h.sub hs, List.Sublist.refl _⟩

theorem On.sub {o d' : Id} {bs' : List Id} (h : On s0 s p o d bs) (hs : (d' :: bs').Sublist (d :: bs)) :
    On s0 s p o d' bs' := by
  obtain ⟨zs, h1, h2⟩ := h
  exact ⟨zs, h1, hs.trans h2⟩

theorem On.mk {o : Id} (h : Cur s0 s p xs) {zs : List Id} (hs : (o :: zs).Sublist xs)
    (hd : (d :: bs).Sublist (o :: zs)) : On s0 s p o d bs := ⟨zs, h.sub hs, hd⟩

theorem Cur.cast {q : List Tok} (h : Cur s0 s p xs) (e : p = q) : Cur s0 s q xs := e ▸ h

/-- A function documenting the tokens `w`. -/
def Doc1 (m : Id → M Id) (w : List Tok) : Prop :=
  ∀ d s0 s p xs bs, Cur s0 s (w ++ p) xs → (d :: bs).Sublist xs →
    wp (m d) (fun r s' => On s0 s' p r d bs) s

omit [Mode] in
theorem wp_pb {α β : Type} {a : α} {k : α → M β} {Q : β → St → Prop} (h : wp (k a) Q s) :
    wp (pure a >>= k) Q s := h

omit [Mode] in
/-- A choice in the middle. -/
theorem wp_jp {α β : Type} {c : Prop} [Decidable c] {m1 m2 : M α} {k : α → M β}
    {P : α → St → Prop} {Q : β → St → Prop} (h1 : c → wp m1 P s) (h2 : ¬ c → wp m2 P s)
    (hk : ∀ a s', P a s' → wp (k a) Q s') :
    wp (if c then m1 >>= k else m2 >>= k) Q s := by
  split
  · exact wp_bind (h1 ‹_›) hk
  · exact wp_bind (h2 ‹_›) hk

/-- Straight-line code. -/
macro "go1" : tactic => set_option hygiene false in `(tactic| with_reducible first
  | refine wp_bind (wp_lay_ h) fun _ s h => ?_
  | refine wp_bind (wp_layIf h) fun _ s h => ?_
  | refine wp_bind (wp_lay h) fun _ s h => ?_
  | refine wp_bind (wp_when_lay h) fun _ s h => ?_
  | refine wp_bind (wp_when_layIf h) fun _ s h => ?_
  | refine wp_bind (wp_when_rmLay h) fun _ s h => ?_
  | refine wp_bind h.rmLay fun _ s h => ?_
  | refine wp_bind (wp_when_rmSoft h) fun _ s h => ?_
  | refine wp_bind (wp_when_rmWhite h) fun _ s h => ?_
  | refine wp_bind h.rmWhite fun _ s h => ?_
  | refine wp_bind (wp_note h) fun _ s h => ?_
  | refine wp_bind (wp_when_note h) fun _ s h => ?_
  | refine wp_bind (wp_alloc h (by sub)) fun _ s h => ?_
  | refine wp_bind (wp_allocIn h (by sub)) fun _ s h => ?_
  | refine wp_bind (wp_indentIn h (by sub)) fun _ s h => ?_
  | refine wp_bind (wp_alignIn h (by sub)) fun _ s h => ?_
  | refine wp_bind (Cur.emit h (by sub)) fun _ s h => ?_
  | refine wp_bind (Cur.emitOpt h (by sub)) fun _ s h => ?_
  | refine wp_bind (Cur.adopt h (by sub)) fun _ s h => ?_
  | refine wp_bind (Cur.expectEmit h (by sub)) fun _ s h => ?_
  | refine wp_bind (Cur.ifEmit h (by sub)) fun _ s h => ?_
  | refine wp_pb ?_
  | refine wp_q fun _ => ?_
  | refine wp_any fun _ => ?_
  | refine wp_peekIf fun _ => ?_
  | refine wp_peek fun _ => ?_
  | refine wp_backIf fun _ => ?_
  | refine wp_back fun _ => ?_)

/-- Straight-line code. -/
macro "go" : tactic => `(tactic| repeat go1)

theorem wp_alignIf {b : Bool} (h : Cur s0 s p xs) (hs : (d :: bs).Sublist xs) :
    wp (alignIf b d) (fun c s' => On s0 s' p c d bs) s := by
  unfold alignIf
  split
  · exact wp_mono (wp_alignIn h hs) fun _ _ h => ⟨_, h, by sub⟩
  · exact wp_pure (On.self h hs)

theorem Doc1.opt {e : Ex} {m : Id → M Id} (hm : Doc1 m (exToks e)) : Doc1 (docOpt e m) (exToks e) := by
  intro d s0 s p xs bs h hs
  unfold docOpt
  split
  · rename_i he
    subst he
    exact wp_pure (On.self h hs)
  · exact hm d s0 s p xs bs h hs

theorem Doc1.soft {X : Cx} {m : Id → M Id} {w : List Tok} (hm : Doc1 m w) : Doc1 (soft X m) w := by
  intro d s0 s p xs bs h hs
  unfold Parse.soft
  go
  split
  · exact hm _ _ _ _ _ _ h hs
  · go
    refine wp_bind (hm _ _ _ _ _ _ h (List.Sublist.refl _)) fun r s h1 => ?_
    obtain ⟨zs, h, hz⟩ := h1
    go
    exact wp_pure ⟨zs, h, by sub⟩

theorem Doc1.softIf {X : Cx} {b : Bool} {m : Id → M Id} {w : List Tok} (hm : Doc1 m w) :
    Doc1 (softIf X b m) w := by
  intro d s0 s p xs bs h hs
  unfold Parse.softIf
  split
  · exact hm.soft d s0 s p xs bs h hs
  · exact hm d s0 s p xs bs h hs

theorem doc_binary {X : Cx} {op : Tok} {l r : Ex} {ml mr : Id → M Id} (hl : Doc1 ml (exToks l))
    (hr : Doc1 mr (exToks r)) : Doc1 (docBinary X op r ml mr) (exToks l ++ op :: exToks r) := by
  intro d s0 s p xs bs h hs
  rw [List.append_assoc] at h
  unfold docBinary
  split
  · refine wp_bind (hl _ _ _ _ _ _ h hs) fun lhs s h1 => ?_
    obtain ⟨zs, h, hz⟩ := h1
    go
    split
    · rename_i he
      subst he
      exact wp_pure (On.self h hz)
    go
    refine wp_bind (wp_alignIf h hz) fun d' s h1 => ?_
    obtain ⟨zs', h, hz'⟩ := h1
    go
    exact wp_mono (hr.softIf _ _ _ _ _ _ h (List.Sublist.refl _)) fun _ _ h => h.sub hz'
  · go
    refine wp_bind (wp_alignIf h hs) fun d' s h1 => ?_
    obtain ⟨zs', h, hz'⟩ := h1
    refine wp_bind (hl _ _ _ _ _ _ h (List.Sublist.refl _)) fun lhs s h1 => ?_
    obtain ⟨zs, h, hz⟩ := h1
    go
    split
    · go
      exact wp_mono (hr.opt _ _ _ _ _ _ h (List.Sublist.refl _)) fun _ _ h => h.sub (by sub)
    · go
      exact wp_mono (hr.soft.opt _ _ _ _ _ _ h (List.Sublist.refl _)) fun _ _ h => h.sub (by sub)

theorem doc_parens {X : Cx} {l : Tok} {e : Ex} {r : Option Tok} {m : Id → M Id}
    (hm : Doc1 m (exToks e)) : Doc1 (docParens X l e r m) (l :: (exToks e ++ r.toList)) := by
  intro d s0 s p xs bs h hs
  rw [List.cons_append, List.append_assoc] at h
  unfold docParens
  go
  refine wp_jp (P := fun c s' => On s0 s' (exToks e ++ (r.toList ++ p)) c d bs)
    (fun _ => wp_mono (wp_indentIn h (by sub)) fun _ _ h => ⟨_, h, by sub⟩)
    (fun _ => wp_pure (On.self h (by sub))) fun d' s h1 => ?_
  obtain ⟨zs, h, hz⟩ := h1
  refine wp_bind (hm.opt _ _ _ _ _ _ h (List.Sublist.refl _)) fun d' s h1 => ?_
  obtain ⟨zs, h, hz⟩ := h1
  go
  exact wp_pure (On.mk h (List.Sublist.refl _) (by sub))

theorem doc_call {X : Cx} {l : Tok} {f a : Ex} {r : Option Tok} {mf ma : Id → M Id}
    (hf : Doc1 mf (exToks f)) (ha : Doc1 ma (exToks a)) :
    Doc1 (docCall X l a r mf ma) (exToks f ++ l :: (exToks a ++ r.toList)) := by
  intro d s0 s p xs bs h hs
  rw [List.append_assoc, List.cons_append, List.append_assoc] at h
  unfold docCall
  go
  refine wp_bind (hf.softIf _ _ _ _ _ _ h hs) fun d' s h1 => ?_
  obtain ⟨zs, h, hz⟩ := h1
  go
  refine wp_jp (P := fun c s' => On s0 s' (exToks a ++ (r.toList ++ p)) c d' zs)
    (fun _ => wp_pure (On.self h (by sub))) (fun _ => wp_alignIf h (by sub)) fun d' s h1 => ?_
  obtain ⟨zs', h, hz'⟩ := h1
  refine wp_bind (ha.soft.opt _ _ _ _ _ _ h (List.Sublist.refl _)) fun d2 s h1 => ?_
  obtain ⟨zs2, h, hz2⟩ := h1
  go
  refine wp_jp (P := fun c s' => On s0 s' (r.toList ++ p) c d2 zs2)
    (fun _ => wp_pure (On.self h (by sub)))
    (fun _ => wp_mono (wp_indentIn h (by sub)) fun _ _ h => ⟨_, h, by sub⟩) fun d3 s h1 => ?_
  obtain ⟨zs3, h, hz3⟩ := h1
  go
  exact wp_pure (On.mk (h.sub hz3) (List.Sublist.refl _) (by sub))

theorem doc_arg {X : Cx} {op : Tok} {l r : Ex} {ml mr : Id → M Id} (hl : Doc1 ml (exToks l))
    (hr : Doc1 mr (exToks r)) : Doc1 (docArg X op l r ml mr) (exToks l ++ op :: exToks r) := by
  intro d s0 s p xs bs h hs
  rw [List.append_assoc, List.cons_append] at h
  unfold docArg
  refine wp_bind (hl.opt _ _ _ _ _ _ h hs) fun d' s h1 => ?_
  obtain ⟨zs, h, hz⟩ := h1
  go
  exact hr.soft.opt _ _ _ _ _ _ h hz

theorem doc_ternary {X : Cx} {q : Tok} {c m t : Ex} {colon : Option Tok} {mc mm mt : Id → M Id}
    (hc : Doc1 mc (exToks c)) (hm : Doc1 mm (exToks m)) (ht : Doc1 mt (exToks t)) :
    Doc1 (docTernary X q m colon mc mm mt)
      (exToks c ++ q :: (exToks m ++ (colon.toList ++ exToks t))) := by
  intro d s0 s p xs bs h hs
  rw [List.append_assoc, List.cons_append, List.append_assoc, List.append_assoc] at h
  unfold docTernary
  go
  split
  · refine wp_bind (hc _ _ _ _ _ _ h hs) fun cond s h1 => ?_
    obtain ⟨zs, h, hz⟩ := h1
    go
    refine wp_bind (wp_alignIf h hz) fun d' s h1 => ?_
    obtain ⟨zs', h, hz'⟩ := h1
    go
    refine wp_bind (hm.soft.opt _ _ _ _ _ _ h (List.Sublist.refl _)) fun l' s h1 => ?_
    obtain ⟨zs2, h, hz2⟩ := h1
    go
    exact wp_mono (ht _ _ _ _ _ _ h (List.Sublist.refl _)) fun _ _ h => h.sub (by sub)
  · refine wp_bind (hc _ _ _ _ _ _ h hs) fun t1 s h1 => ?_
    obtain ⟨zs, h, hz⟩ := h1
    go
    refine wp_bind (hm.soft.opt _ _ _ _ _ _ h hz) fun t2 s h1 => ?_
    obtain ⟨zs2, h, hz2⟩ := h1
    go
    exact ht.soft _ _ _ _ _ _ h hz2

theorem doc_lit {t : Tok} : Doc1 (docLit t) [t] := by
  intro d s0 s p xs bs h hs
  unfold docLit
  have h : Cur s0 s (t :: p) xs := h
  go
  exact wp_pure (On.mk h (List.Sublist.refl _) (by sub))

/-- The document of an expression has its tokens in order. -/
theorem doc_expr (X : Cx) : ∀ (e : Ex) (inner : Bool) (d : Id) (s0 s : St) (p : List Tok)
    (xs bs : List Id), Cur s0 s (exToks e ++ p) xs → (d :: bs).Sublist xs →
    wp (exprDoc X inner e d) (fun r s' => On s0 s' p r.1 d bs) s := by
  intro e
  have one : ∀ {e : Ex}, (∀ (inner : Bool) (d : Id) (s0 s : St) (p : List Tok)
      (xs bs : List Id), Cur s0 s (exToks e ++ p) xs → (d :: bs).Sublist xs →
      wp (exprDoc X inner e d) (fun r s' => On s0 s' p r.1 d bs) s) →
      Doc1 (fun d => exprDoc X false e d >>= fun x => pure x.1) (exToks e) := by
    intro e he d s0 s p xs bs h hs
    exact wp_bind (he false d s0 s p xs bs h hs) fun x s' h => wp_pure h
  have top : ∀ {w : List Tok} {m : Id → M Id} {d : Id} {s0 s : St} {p : List Tok}
      {xs bs : List Id}, Doc1 m w → Cur s0 s (w ++ p) xs → (d :: bs).Sublist xs →
      wp (allocIn .group d >>= fun c => m c >>= fun r => pure (r, r))
        (fun r s' => On s0 s' p r.1 d bs) s := by
    intro w m d s0 s p xs bs hm h hs
    go
    exact wp_bind (hm _ _ _ _ _ _ h (List.Sublist.refl _)) fun r s h => wp_pure (h.sub (by sub))
  induction e with
  | null =>
    intro inner d s0 s p xs bs h hs
    refine top (w := []) (m := fun c => pure c) ?_ h hs
    exact fun d s0 s p xs bs h hs => wp_pure (On.self h hs)
  | lit tk =>
    intro inner d s0 s p xs bs h hs
    refine top (m := fun c => emit tk c >>= fun _ => pure c) ?_ h hs
    intro d s0 s p xs bs h hs
    have h : Cur s0 s (tk :: p) xs := h
    go
    exact wp_pure (On.self h (by sub))
  | un op e ih =>
    intro inner d s0 s p xs bs h hs
    simp only [exToks, List.cons_append] at h
    unfold exprDoc
    go
    refine wp_bind ((one ih).opt _ _ _ _ _ _ h (List.Sublist.refl _)) fun r s h1 => ?_
    exact wp_pure (h1.sub (by sub))
  | pre op e ih =>
    intro inner d s0 s p xs bs h hs
    simp only [exToks, List.cons_append] at h
    unfold exprDoc
    go
    refine wp_bind ((one ih).opt _ _ _ _ _ _ h (List.Sublist.refl _)) fun r s h1 => ?_
    obtain ⟨zs, h, hz⟩ := h1
    go
    exact wp_pure (On.mk h hz (by sub))
  | post e op ih =>
    intro inner d s0 s p xs bs h hs
    simp only [exToks, List.append_assoc, List.cons_append, List.nil_append] at h
    unfold exprDoc
    go
    refine wp_bind ((one ih).opt _ _ _ _ _ _ h (List.Sublist.refl _)) fun r s h1 => ?_
    obtain ⟨zs, h, hz⟩ := h1
    go
    exact wp_pure (On.mk h (List.Sublist.refl _) (by sub))
  | bin l op r ihl ihr =>
    intro inner d s0 s p xs bs h hs
    by_cases hc : op.ty = .comma
    · have := top (doc_arg (X := X) (op := op) (one ihl) (one ihr)) h hs
      unfold exprDoc
      simp only [hc, if_true]
      exact this
    · have := top (doc_binary (X := X) (op := op) (one ihl) (one ihr)) h hs
      unfold exprDoc
      simp only [hc, if_false]
      exact this
  | tern c q m colon t ihc ihm iht =>
    intro inner d s0 s p xs bs h hs
    exact top (doc_ternary (X := X) (q := q) (colon := colon) (one ihc) (one ihm) (one iht)) h hs
  | parens l e r ih =>
    intro inner d s0 s p xs bs h hs
    exact top (doc_parens (X := X) (l := l) (r := r) (one ih)) h hs
  | call f l a r ihf iha =>
    intro inner d s0 s p xs bs h hs
    exact top (doc_call (X := X) (l := l) (r := r) (one ihf) (one iha)) h hs
  | squares f l i r ihf ihi =>
    intro inner d s0 s p xs bs h hs
    simp only [exToks, List.append_assoc, List.cons_append, List.nil_append] at h
    unfold exprDoc
    go
    refine wp_bind ((one ihf).opt _ _ _ _ _ _ h (List.Sublist.refl _)) fun r s h1 => ?_
    obtain ⟨zs, h, hz⟩ := h1
    go
    refine wp_bind ((one ihi).opt _ _ _ _ _ _ h (List.Sublist.refl _)) fun r s h1 => ?_
    obtain ⟨zs2, h, hz2⟩ := h1
    go
    exact wp_pure (On.mk h (List.Sublist.refl _) (by sub))
  | field l op r ihl ihr =>
    intro inner d s0 s p xs bs h hs
    simp only [exToks, List.append_assoc, List.cons_append, List.nil_append] at h
    unfold exprDoc
    go
    refine wp_bind ((one ihl) _ _ _ _ _ _ h (List.Sublist.refl _)) fun r s h1 => ?_
    obtain ⟨zs, h, hz⟩ := h1
    go
    refine wp_bind ((one ihr).opt _ _ _ _ _ _ h (List.Sublist.refl _)) fun r s h1 => ?_
    exact wp_pure (h1.sub (by sub))
  | cast l ts r e ih =>
    intro inner d s0 s p xs bs h hs
    simp only [exToks, List.append_assoc, List.cons_append, List.nil_append] at h
    unfold exprDoc
    go
    refine wp_bind ((one ih).opt _ _ _ _ _ _ h (List.Sublist.refl _)) fun r s h1 => ?_
    obtain ⟨zs, h, hz⟩ := h1
    go
    exact wp_pure (On.mk h hz (by sub))
  | sizeofE tk e ih =>
    intro inner d s0 s p xs bs h hs
    refine top (m := fun c => emit tk c >>= fun _ => lay_ .blank c >>= fun _ =>
      docOpt e (fun d => (exprDoc X false e d) >>= fun x => pure x.1) c) ?_ h hs
    intro d s0 s p xs bs h hs
    simp only [exToks, List.append_assoc, List.cons_append, List.nil_append] at h
    go
    exact (one ih).opt _ _ _ _ _ _ h (by sub)
  | sizeofP tk l e r ih =>
    intro inner d s0 s p xs bs h hs
    simp only [exToks, List.append_assoc, List.cons_append, List.nil_append] at h
    unfold exprDoc
    go
    refine wp_bind ((one ih).opt _ _ _ _ _ _ h (List.Sublist.refl _)) fun r s h1 => ?_
    obtain ⟨zs, h, hz⟩ := h1
    go
    exact wp_pure (On.mk h (List.Sublist.refl _) (by sub))
  | concat e tk ih =>
    intro inner d s0 s p xs bs h hs
    simp only [exToks, List.append_assoc, List.cons_append, List.nil_append] at h
    unfold exprDoc
    refine wp_jp (P := fun c s' => On s0 s' (exToks e ++ tk :: p) c d bs)
      (fun _ => wp_pure (On.self h (by sub)))
      (fun _ => wp_mono (wp_allocIn h (by sub)) fun _ _ h => ⟨_, h, by sub⟩) fun g s h1 => ?_
    obtain ⟨zs, h, hz⟩ := h1
    go
    refine wp_bind (wp_alignIf h (List.Sublist.refl _)) fun g' s h1 => ?_
    obtain ⟨zs2, h, hz2⟩ := h1
    refine wp_bind (ih true _ _ _ _ _ _ h (List.Sublist.refl _)) fun x s h1 => ?_
    obtain ⟨zs3, h, hz3⟩ := h1
    go
    refine wp_bind (doc_lit _ _ _ _ _ _ h (List.Sublist.refl _)) fun t s h1 => ?_
    obtain ⟨zs4, h, hz4⟩ := h1
    exact wp_pure (On.mk h hz4 (by sub))
  | recov ts =>
    intro inner d s0 s p xs bs h hs
    simp only [exToks] at h
    unfold exprDoc
    go
    refine wp_bind (wp_alignIf h (List.Sublist.refl _)) fun g' s h1 => ?_
    obtain ⟨zs2, h, hz2⟩ := h1
    go
    exact wp_pure (On.mk h (List.Sublist.refl _) (by sub))

/-- `parser_expr`. -/
theorem spec_expr {X : Cx} (hR : RecOk X.R) (a : EA) : SpecE (exprF X a) a.dc := by
  intro s bs hi
  unfold exprF
  refine wp_bind (P := fun r s' => Cur s s' [] (a.dc :: bs) ∧
    ∀ o, r = some o → On s s' [] o a.dc bs) ?_ fun r s1 h1 => ?_
  · unfold exprExec
    refine wp_bind (eat_exec1 hR a.stop X.n 0 s) fun ex s1 h1 => ?_
    have h : Cur s s1 (exToks ex) (a.dc :: bs) := (Cur.refl hi).eat h1
    refine wp_readv ?_
    split
    · rename_i hx
      refine wp_pure ⟨?_, fun _ e => ?_⟩
      · rcases hx with hx | hx
        · subst hx; exact h
        · exact Cur.bad h.mv (not_ok_err hx) _ _
      · cases e
    · have h := h.cast (List.append_nil _).symm
      go
      refine wp_jp (P := fun c s' => On _ s' (exToks ex ++ []) c a.dc bs)
        (fun _ => wp_mono (wp_indentIn h (by sub)) fun _ _ h => ⟨_, h, by sub⟩)
        (fun _ => wp_mono (wp_alloc h (by sub)) fun _ _ h => ⟨_, h, by sub⟩) fun d s h1 => ?_
      obtain ⟨zs, h, hz⟩ := h1
      go
      refine wp_jp (P := fun c s' => On _ s' (exToks ex ++ []) c d zs)
        (fun _ => wp_mono (wp_alloc h (by sub)) fun _ _ h => ⟨_, h, by sub⟩)
        (fun _ => wp_pure (On.self h (by sub))) fun d' s h1 => ?_
      obtain ⟨zs2, h, hz2⟩ := h1
      refine wp_bind (doc_expr X ex false _ _ _ _ _ _ h (List.Sublist.refl _)) fun x s h1 => ?_
      refine wp_pure ⟨?_, fun o e => ?_⟩
      · obtain ⟨zs3, h, hz3⟩ := h1
        exact h.sub (by sub)
      · cases e
        exact h1.sub (by sub)
  · obtain ⟨h, h2⟩ := h1
    split
    · refine wp_bind (P := fun r s' => r ≠ .good ∧ s' = s1) (wp_none (fun _ => ⟨by simp, rfl⟩)
        fun _ => ⟨by simp, rfl⟩) fun r s2 h3 => ?_
      obtain ⟨h3, h4⟩ := h3
      subst h4
      exact wp_pure ⟨h, fun e => absurd e h3⟩
    · rename_i o
      refine wp_bind (P := fun r s' => s' = s1) (wp_good (fun _ => rfl)
        fun _ => rfl) fun r s2 h4 => ?_
      subst h4
      exact wp_pure ⟨h, fun e => ⟨o, rfl, h2 o rfl⟩⟩

end Knfmt.Parse
