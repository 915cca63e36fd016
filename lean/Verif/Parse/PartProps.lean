import Verif.Parse.DocProps
/-!
# The parser: functions that make up declarations and statements
-/
namespace Knfmt.Parse
open Knfmt.Lexer (TT)
open Knfmt.Parse.Spec (ends Tidy Tidy')

variable [Mode] {s0 s : St} {p : List Tok} {xs bs : List Id} {d : Id} {β : Type} {Q : β → St → Prop}

/-! ## Calls -/

theorem Spec1.cur {α : Type} {m : M α} (hm : Spec1 m d) (h : Cur s0 s [] xs)
    (hs : (d :: bs).Sublist xs) : wp m (fun _ s' => Cur s0 s' [] (d :: bs)) s :=
  wp_mono (hm s bs (h.sub hs).inv) fun _ _ h' => h.trans h'

theorem On.bad {o : Id} (h : Mv s0 s) (hs : ¬ ok s) : On s0 s p o d bs :=
  ⟨d :: bs, Cur.bad h hs _ _, List.Sublist.cons _ (List.Sublist.refl _)⟩

theorem On.of {s1 : St} {o : Id} (h : Cur s0 s1 [] xs) (h' : On s1 s p o d bs) : On s0 s p o d bs := by
  obtain ⟨zs, h1, h2⟩ := h'
  exact ⟨zs, h.trans h1, h2⟩

theorem On.cur {o : Id} (h : On s0 s p o d bs) : Cur s0 s p (d :: bs) := by
  obtain ⟨zs, h1, h2⟩ := h
  exact h1.sub h2

/-- An expression: either it is there, or not. -/
theorem wp_ex {X : Cx} (hR : RecOk X.R) {a : EA} {k : Res × Option Id → M β}
    (h : Cur s0 s [] xs) (hs : (a.dc :: bs).Sublist xs)
    (hg : ∀ o s zs, Cur s0 s [] (o :: zs) → (a.dc :: bs).Sublist (o :: zs) →
      wp (k (.good, some o)) Q s)
    (hn : ∀ o s, Cur s0 s [] (a.dc :: bs) → wp (k (.non, o)) Q s)
    (hf : ∀ o s, Cur s0 s [] (a.dc :: bs) → wp (k (.fail, o)) Q s) :
    wp (X.R.expr a >>= k) Q s := by
  refine wp_bind (hR.expr a s bs (h.sub hs).inv) fun x s' h' => ?_
  obtain ⟨r, o⟩ := x
  obtain ⟨h1, h2⟩ := h'
  cases r with
  | good =>
    obtain ⟨o', e, zs, h3, h4⟩ := h2 rfl
    dsimp only at e
    subst e
    exact hg o' s' zs (h.trans h3) h4
  | non => exact hn o s' (h.trans h1)
  | fail => exact hf o s' (h.trans h1)

/-- A block: either it is there, or not. -/
theorem wp_bl {X : Cx} (hR : RecOk X.R) {hd tl : Id} {F : BF} {b1 : List Id}
    {k : Res × Option Id → M β}
    (h : Cur s0 s [] xs) (hs : (hd :: b1).Sublist xs) (ht : (tl :: bs).Sublist (hd :: b1))
    (hg : ∀ o s zs, Cur s0 s [] (o :: zs) → (tl :: bs).Sublist (o :: zs) →
      wp (k (.good, some o)) Q s)
    (hn : ∀ o s, Cur s0 s [] (tl :: bs) → wp (k (.non, o)) Q s)
    (hf : ∀ o s, Cur s0 s [] (tl :: bs) → wp (k (.fail, o)) Q s) :
    wp (X.R.block hd tl F >>= k) Q s := by
  refine wp_bind (hR.block hd tl F s b1 bs (h.sub hs).inv ht) fun x s' h' => ?_
  obtain ⟨r, o⟩ := x
  obtain ⟨h1, h2⟩ := h'
  cases r with
  | good =>
    obtain ⟨o', e, zs, h3, h4⟩ := h2 rfl
    dsimp only at e
    subst e
    exact hg o' s' zs (h.trans h3) h4
  | non => exact hn o s' (h.trans h1)
  | fail => exact hf o s' (h.trans h1)

/-- A token that may be there. -/
theorem wp_li {f : TT → Bool} {k : Option Tok → M β} (h : Cur s0 s [] xs)
    (hn : wp (k none) Q s)
    (hs : ∀ t s', f t.ty = true → Cur s0 s' [t] xs → wp (k (some t)) Q s') :
    wp (lexIf f >>= k) Q s := by
  refine wp_bind (P := fun o s' => (o = none → s' = s) ∧
    ∀ t, o = some t → f t.ty = true ∧ Cur s0 s' [t] xs) ?_ fun o s' h' => ?_
  · intro o s' e
    have he := wp_lexIf (f := f) h o s' e
    unfold lexIf at e
    split at e
    · cases e
      exact ⟨fun _ => rfl, fun t e => by cases e⟩
    · split at e
      · rename_i hf
        cases e
        refine ⟨(fun e => by cases e), fun t e => ?_⟩
        cases e
        exact ⟨hf, he⟩
      · cases e
        exact ⟨fun _ => rfl, fun t e => by cases e⟩
  · cases o with
    | none => rw [h'.1 rfl]; exact hn
    | some t => exact hs t s' (h'.2 t rfl).1 (h'.2 t rfl).2

/-- A token that should be there. -/
theorem wp_xp {ty : TT} {k : Option Tok → M β} (h : Cur s0 s [] xs)
    (hn : wp (k none) Q { s with err := true })
    (hs : ∀ t s', t.ty = ty → s'.done.head? = some t → Cur s0 s' [t] xs → wp (k (some t)) Q s') :
    wp (expect ty >>= k) Q s := by
  refine wp_bind (P := fun o s' => (o = none → s' = { s with err := true }) ∧
    ∀ t, o = some t → t.ty = ty ∧ s'.done.head? = some t ∧ Cur s0 s' [t] xs) ?_ fun o s' h' => ?_
  · intro o s' e
    have he := wp_expect (ty := ty) h o s' e
    unfold expect at e
    split at e
    · cases e
      exact ⟨fun _ => rfl, fun t e => by cases e⟩
    · split at e
      · rename_i hf
        cases e
        refine ⟨(fun e => by cases e), fun t e => ?_⟩
        cases e
        exact ⟨hf, rfl, he⟩
      · cases e
        exact ⟨fun _ => rfl, fun t e => by cases e⟩
  · cases o with
    | none => rw [h'.1 rfl]; exact hn
    | some t => exact hs t s' (h'.2 t rfl).1 (h'.2 t rfl).2.1 (h'.2 t rfl).2.2

/-- The next token. -/
theorem wp_po {k : Tok → M β} (h : Cur s0 s [] xs)
    (hk : ∀ t s', Cur s0 s' (sig t ++ []) xs → wp (k t) Q s') : wp (pop >>= k) Q s := by
  refine wp_bind (wp_pop h) fun t s' h' => hk t s' ?_
  rw [List.append_nil]
  exact h'

omit [Mode] in
theorem wp_gd {k : Res → M β} (h : s.err = false → wp (k .good) Q s)
    (h' : s.err = true → wp (k .fail) Q s) : wp (parserGood >>= k) Q s := by
  refine wp_bind (P := fun r s' => s' = s ∧ ((r = .good ∧ s.err = false) ∨ (r = .fail ∧ s.err = true)))
    (wp_good (fun e => ⟨rfl, .inl ⟨rfl, e⟩⟩) fun e => ⟨rfl, .inr ⟨rfl, e⟩⟩) fun r s' hr => ?_
  obtain ⟨rfl, ⟨rfl, e⟩ | ⟨rfl, e⟩⟩ := hr
  · exact h e
  · exact h' e

omit [Mode] in
theorem wp_nn {k : Res → M β} (h : s.err = false → wp (k .non) Q s)
    (h' : s.err = true → wp (k .fail) Q s) : wp (parserNone >>= k) Q s := by
  refine wp_bind (P := fun r s' => s' = s ∧ ((r = .non ∧ s.err = false) ∨ (r = .fail ∧ s.err = true)))
    (wp_none (fun e => ⟨rfl, .inl ⟨rfl, e⟩⟩) fun e => ⟨rfl, .inr ⟨rfl, e⟩⟩) fun r s' hr => ?_
  obtain ⟨rfl, ⟨rfl, e⟩ | ⟨rfl, e⟩⟩ := hr
  · exact h e
  · exact h' e

omit [Mode] in
theorem wp_fl {k : Res → M β} (h : wp (k .fail) Q { s with err := true }) :
    wp (parserFail >>= k) Q s := by
  refine wp_bind (P := fun r s' => r = .fail ∧ s' = { s with err := true }) (wp_fail ⟨rfl, rfl⟩)
    fun r s' hr => ?_
  obtain ⟨rfl, rfl⟩ := hr
  exact h

/-- The end of a function. -/
macro "fin" : tactic => set_option hygiene false in `(tactic| with_reducible first
  | exact wp_pure (h.sub (by sub))
  | exact wp_good (fun _ => h.sub (by sub)) fun _ => h.sub (by sub)
  | exact wp_none (fun _ => h.sub (by sub)) fun _ => h.sub (by sub)
  | exact wp_fail (h.err _ _)
  | exact h.sub (by sub))

/-- Simplify choices. -/
macro "red" : tactic => `(tactic| simp only [ne_eq, reduceCtorEq, not_true_eq_false,
  not_false_eq_true, if_true, if_false, decide_true, decide_false, Option.getD_some,
  Bool.false_eq_true, Bool.not_true, Bool.not_false])

/-! ## parser.c -/

omit [Mode] in
theorem semisOn_eq {semi : Tok} : ∀ {ts a b : List Tok}, semisOn semi ts = (a, b) →
    ts = a ++ b ∧ ∀ t ∈ a, t.ty = .semi
  | [], a, b, h => by cases h; simp
  | t :: ts, a, b, h => by
    unfold semisOn at h
    split at h
    · rename_i ht
      cases h
      obtain ⟨h1, h2⟩ := semisOn_eq (ts := ts) rfl
      refine ⟨by rw [List.cons_append, ← h1], ?_⟩
      intro x hx
      simp only [List.mem_cons] at hx
      rcases hx with hx | hx
      · exact hx ▸ ht.1
      · exact h2 x hx
    · cases h; simp

theorem spec_semi (d : Id) : Spec1 (parserSemi d) d := by
  intro s0 bs hi
  have h := Cur.refl hi
  unfold parserSemi
  refine wp_xp h (wp_fail ((h.err [] []).err _ _)) fun semi s ht hd h => ?_
  dsimp only
  refine wp_bind (P := fun l s' => Cur s0 s' [l] (d :: bs)) ?_ fun l s h => ?_
  · intro l s' e
    dsimp only at e
    split at e
    · cases e; exact h
    · rename_i t ts r hr
      obtain ⟨h1, h2⟩ := semisOn_eq hr
      injection e with e
      injection e with e1 e
      rw [e1] at e
      subst e
      obtain ⟨hn, ho, c, hc, htd, hk⟩ := h
      have hl : ∃ ss, t :: ts = ss ++ [l] := by
        refine ⟨(t :: ts).dropLast, ?_⟩
        rw [← e1]
        exact (List.dropLast_concat_getLast _).symm
      obtain ⟨ss, hss⟩ := hl
      have hls : l.ty = .semi := h2 l (by rw [hss]; simp)
      have hr2 : s.rest = ss ++ (l :: r) := by rw [h1, hss]; simp
      refine ⟨hn, fun o => ho ⟨o.1, o.2.1, fun x hx => o.2.2 x (List.mem_cons_of_mem _ hx)⟩,
        c ++ [l], by simp [hc], ?_, ?_⟩
      · refine htd.trans ?_
        rw [List.append_assoc]
        refine (Tidy'.refl _ c).append ?_
        rw [hr2]
        exact Tidy'.semis_before hls (Tidy'.refl _ _) ss fun x hx => h2 x (by rw [hss]; simp [hx])
      · intro o
        obtain ⟨w, k, y, hy, t1⟩ := hk ⟨o.1, o.2.1, fun x hx => o.2.2 x (List.mem_cons_of_mem _ hx)⟩
        refine ⟨w, k, y, hy, ?_⟩
        refine (t1.append (Rel.refl _ [l])).trans ?_
        rw [List.append_assoc]
        refine (Rel.refl _ y).append ?_
        exact .of (Tidy'.before _ semi l ht hls (Tidy'.refl _ _))
  · refine wp_bind (Cur.emit h (List.Sublist.refl _)) fun _ s h => ?_
    fin

/-! ## parser-attributes.c -/

/-- What attributes do. -/
def SpecA (m : M (Res × Option Id)) (d : Id) : Prop :=
  ∀ s bs, Inv s (d :: bs) → wp m (fun x s' => Cur s s' [] (d :: bs) ∧
    (∀ o, x.2 = some o → On s s' [] o d bs) ∧ (x.1 = .non → s' = s) ∧
    (x.1 = .fail → s'.err = true)) s

theorem spec_attributes {X : Cx} (hR : RecOk X.R) (d : Id) (line func : Bool) :
    SpecA (attributes X d line func) d := by
  intro s0 bs hi
  have h := Cur.refl hi
  unfold attributes
  refine wp_any fun q => ?_
  split
  · refine wp_nn (fun e => wp_pure ?_) fun e => wp_pure ?_
    · exact ⟨h, by simp, fun _ => rfl, by simp⟩
    · exact ⟨h, by simp, fun _ => rfl, fun _ => e⟩
  · rename_i fin _
    refine wp_bind (wp_allocIn h (List.Sublist.refl _)) fun opt s h => ?_
    refine wp_loop (fun v s => Cur s0 s [] (opt :: d :: bs) ∧
      ∀ o, v.2 = some o → On s0 s [] o opt (d :: bs)) ?_ _ _ _ ⟨h, by simp⟩
    intro v s hv
    obtain ⟨h, ho⟩ := hv
    have hv : On s0 s [] (v.2.getD opt) opt (d :: bs) := by
      cases hv : v.2 with
      | none => exact On.self h (List.Sublist.refl _)
      | some o => exact ho o hv
    have fin : ∀ {r : Res} {o : Option Id} {s : St}, Cur s0 s [] (opt :: d :: bs) →
        (∀ x, o = some x → On s0 s [] x opt (d :: bs)) → r ≠ .non →
        (r = .fail → s.err = true) →
        (∀ a', (Sum.inr (r, o) : (Nat × Option Id) ⊕ (Res × Option Id)) = .inl a' →
          Cur s0 s [] (opt :: d :: bs) ∧ ∀ o, a'.2 = some o → On s0 s [] o opt (d :: bs)) ∧
        (∀ b, (Sum.inr (r, o) : (Nat × Option Id) ⊕ (Res × Option Id)) = .inr b →
          Cur s0 s [] (d :: bs) ∧ (∀ o, b.2 = some o → On s0 s [] o d bs) ∧
          (b.1 = .non → s = s0) ∧ (b.1 = .fail → s.err = true)) := by
      intro r o s h1 h2 h3 h4
      refine ⟨(fun _ e => by cases e), fun b e => ?_⟩
      cases e
      exact ⟨h1.sub (by sub), fun x hx => (h2 x hx).sub (by sub), fun e => absurd e h3, h4⟩
    unfold attrRound
    refine wp_li h ?_ fun t s _ h => ?_
    · refine wp_gd (fun _ => wp_pure ?_) fun e => wp_pure ?_
      · exact fin h ho (by simp) (by simp)
      · exact fin h ho (by simp) fun _ => e
    · dsimp only
      go
      refine wp_ex hR h (List.Sublist.refl _) (fun o s zs h hz => ?_) (fun o s h => ?_)
        fun o s h => ?_
      · dsimp only
        refine wp_bind (wp_expect h) fun rp s h => ?_
        refine wp_bind (Cur.emitOpt (p := []) (by simpa using h) (List.Sublist.refl _)) fun _ s h => ?_
        refine wp_bind (wp_lexIf h) fun rp2 s h => ?_
        refine wp_bind (Cur.emitOpt (p := []) (by simpa using h) (List.Sublist.refl _)) fun _ s h => ?_
        split
        · refine wp_gd (fun _ => wp_pure ?_) fun e => wp_pure ?_
          · refine fin (h.sub (by sub)) (fun x hx => ?_) (by simp) (by simp)
            cases hx
            exact On.mk h (List.Sublist.refl _) (by sub)
          · refine fin (h.sub (by sub)) (fun x hx => ?_) (by simp) (fun _ => e)
            cases hx
            exact On.mk h (List.Sublist.refl _) (by sub)
        · refine wp_pure ⟨fun a e => ?_, fun _ e => by cases e⟩
          cases e
          refine ⟨h.sub (by sub), fun x hx => ?_⟩
          cases hx
          exact On.mk h (List.Sublist.refl _) (by sub)
      · refine wp_fl (wp_pure (fin (h.err _ _) (fun _ _ => On.bad h.mv.err (not_ok_err rfl))
          (by simp) fun _ => rfl))
      · refine wp_fl (wp_pure (fin (h.err _ _) (fun _ _ => On.bad h.mv.err (not_ok_err rfl))
          (by simp) fun _ => rfl))

/-! ## Loops -/

section
variable {α : Type} {I : α → St → Prop} {R : β → St → Prop}

omit [Mode] in
theorem lo_inl {a : α} (h : I a s) : (∀ a', (Sum.inl a : α ⊕ β) = .inl a' → I a' s) ∧
    (∀ b, (Sum.inl a : α ⊕ β) = .inr b → R b s) :=
  ⟨(fun _ e => by cases e; exact h), fun _ e => by cases e⟩

omit [Mode] in
theorem lo_inr {b : β} (h : R b s) : (∀ a', (Sum.inr b : α ⊕ β) = .inl a' → I a' s) ∧
    (∀ b', (Sum.inr b : α ⊕ β) = .inr b' → R b' s) :=
  ⟨(fun _ e => by cases e), fun _ e => by cases e; exact h⟩

omit [Mode] in
/-- The next round. -/
theorem wp_inl {a : α} (h : I a s) : wp (pure (Sum.inl a : α ⊕ β)) (fun r s' =>
      (∀ a', r = .inl a' → I a' s') ∧ (∀ b, r = .inr b → R b s')) s := wp_pure (lo_inl h)

omit [Mode] in
/-- The end of a loop. -/
theorem wp_inr {b : β} (h : R b s) : wp (pure (Sum.inr b : α ⊕ β)) (fun r s' =>
      (∀ a', r = .inl a' → I a' s') ∧ (∀ b, r = .inr b → R b s')) s := wp_pure (lo_inr h)

/-- Loops that emit what they consume. -/
theorem wp_lc {f : α → M (α ⊕ β)} (h : Cur s0 s [] xs)
    (hf : ∀ a s, Cur s0 s [] xs → wp (f a) (fun _ s' => Cur s0 s' [] xs) s) {n : Nat} {a : α} :
    wp (loop n f a) (fun _ s' => Cur s0 s' [] xs) s :=
  wp_loop (fun _ s => Cur s0 s [] xs)
    (fun a s h => wp_mono (hf a s h) fun _ _ h => ⟨fun _ _ => h, fun _ _ => h⟩) n a s h

end

omit [Mode] in
theorem wp_ite {c : Prop} [Decidable c] {m1 m2 : M β} (h1 : c → wp m1 Q s) (h2 : ¬ c → wp m2 Q s) :
    wp (if c then m1 else m2) Q s := by
  split
  · exact h1 ‹_›
  · exact h2 ‹_›

/-! ## parser-func.c, arguments -/

theorem wp_layOn {x : Res × Option Id} (h : Cur s0 s p xs) :
    wp (layOn x) (fun _ s' => Cur s0 s' p xs) s := by
  unfold layOn
  split
  · exact wp_lay_ h
  · exact wp_pure h

theorem wp_attr {X : Cx} (hR : RecOk X.R) {line func : Bool} {k : Res × Option Id → M β}
    (h : Cur s0 s [] xs) (hs : (d :: bs).Sublist xs)
    (hk : ∀ x s, Cur s0 s [] (d :: bs) → (x.1 = .fail → s.err = true) → wp (k x) Q s) :
    wp (attributes X d line func >>= k) Q s :=
  wp_bind (spec_attributes hR d line func s bs (h.sub hs).inv) fun x s' h' =>
    hk x s' (h.trans h'.1) h'.2.2.2

theorem funcArgRound_ok {X : Cx} (hR : RecOk X.R) {rp : Nat} {c : Id} (v : Option Tok)
    (h : Cur s0 s [] (c :: bs)) :
    wp (funcArgRound X rp c v) (fun r s' =>
      (∀ a' : Option Tok, r = .inl a' → Cur s0 s' [] (c :: bs)) ∧
      (∀ b : Res, r = .inr b → Cur s0 s' [] (c :: bs))) s := by
  unfold funcArgRound
  go
  split
  · exact wp_fl (wp_inr (h.err _ _))
  · refine wp_attr hR h (List.Sublist.refl _) fun x s h _ => ?_
    split
    · exact wp_fl (wp_inr (h.err _ _))
    · refine wp_li h ?_ fun t s _ h => ?_
      · dsimp only
        go
        split
        · exact wp_gd (fun _ => wp_inr h) fun _ => wp_inr h
        · refine wp_po h fun t s h => ?_
          go
          refine wp_bind (Cur.emitSig h (List.Sublist.refl _)) fun _ s h => ?_
          exact wp_inl h
      · dsimp only
        go
        exact wp_gd (fun _ => wp_inr h) fun _ => wp_inr h

/-- What `parser_func_arg` does. -/
theorem spec_funcArg {X : Cx} (hR : RecOk X.R) (d : Id) (rp : Nat) (s0 : St) (bs : List Id)
    (hi : Inv s0 (d :: bs)) : wp (funcArg X d rp) (fun x s' => Cur s0 s' [] (d :: bs) ∧
      (∀ o, x.2 = some o → On s0 s' [] o d bs) ∧
      (x.2 = none → x.1 ≠ .good ∧ (s' = s0 ∨ s'.err = true))) s0 := by
  have h := Cur.refl hi
  unfold funcArg
  go
  split
  · exact wp_nn (fun _ => wp_pure ⟨h, by simp, fun _ => ⟨by simp, .inl rfl⟩⟩)
      fun _ => wp_pure ⟨h, by simp, fun _ => ⟨by simp, .inl rfl⟩⟩
  · rename_i ti
    go
    refine wp_attr hR h (List.Sublist.refl _) fun x s h _ => ?_
    refine wp_bind (wp_layOn h) fun _ s h => ?_
    refine wp_bind ((hR.type _ _).cur h (List.Sublist.refl _)) fun t s h => ?_
    split
    · exact wp_fl (wp_pure ⟨h.err _ _, by simp, fun _ => ⟨by simp, .inr rfl⟩⟩)
    · go
      refine wp_bind (P := fun _ s => Cur s0 s [] _) (wp_loop (fun _ s => Cur s0 s [] _)
        (fun v s h => funcArgRound_ok hR v h) _ _ _ h) fun r s h => ?_
      refine wp_pure ⟨h.sub (by sub), fun o e => ?_, by simp⟩
      cases e
      exact On.mk h (List.Sublist.refl _) (by sub)

/-- What a number of arguments do. -/
theorem spec_funcArgs {X : Cx} (hR : RecOk X.R) (d : Id) (rp : Nat) (s0 : St) (bs : List Id)
    (hi : Inv s0 (d :: bs)) : wp (funcArgs X d rp) (fun o s' => Cur s0 s' [] (d :: bs) ∧
      (∀ x, o = some x → On s0 s' [] x d bs) ∧ (o = none → s' = s0 ∨ s'.err = true)) s0 := by
  unfold funcArgs
  refine wp_loop (fun o s => Cur s0 s [] (d :: bs) ∧
      (∀ x, o = some x → On s0 s [] x d bs) ∧ (o = none → s = s0)) ?_ _ _ _
      ⟨Cur.refl hi, by simp, fun _ => rfl⟩
  intro o s ⟨h, ho, hn⟩
  refine wp_bind (spec_funcArg hR d rp s bs h.inv) fun x s' h' => ?_
  obtain ⟨r, o'⟩ := x
  obtain ⟨h1, h2, h3⟩ := h'
  have hc := h.trans h1
  cases o' with
  | some x =>
    have hx : ∀ y, some x = some y → On s0 s' [] y d bs := fun y e => (h2 y e).of h
    cases r with
    | good => exact wp_inl ⟨hc, hx, by simp⟩
    | non => exact wp_inr ⟨hc, hx, by simp⟩
    | fail => exact wp_inr ⟨hc, hx, by simp⟩
  | none =>
    obtain ⟨h4, h5⟩ := h3 rfl
    have key : Cur s0 s' [] (d :: bs) ∧
      (∀ x, o = some x → On s0 s' [] x d bs) ∧ (o = none → s' = s0 ∨ s'.err = true) := by
      rcases h5 with h5 | h5
      · subst h5
        exact ⟨hc, ho, fun e => .inl (hn e)⟩
      · exact ⟨hc, fun _ _ => On.bad hc.mv (not_ok_err h5), fun _ => .inr h5⟩
    cases r with
    | good => exact absurd rfl h4
    | non => exact wp_inr key
    | fail => exact wp_inr key

/-! ## parser-type.c -/

theorem spec_type {X : Cx} (hR : RecOk X.R) (d : Id) (ti : TI) : Spec1 (typeF X d ti) d := by
  intro s0 bs hi
  unfold typeF
  refine wp_loop (fun _ s => Cur s0 s [] (d :: bs)) ?_ _ _ _ (Cur.refl hi)
  intro _ s h
  unfold typeRoundM
  refine wp_po h fun t s h => ?_
  split
  · refine wp_bind (Cur.emitSig h (List.Sublist.refl _)) fun _ s h => ?_
    go
    refine wp_bind (spec_funcArgs hR _ _ _ _ h.inv) fun o s' h' => ?_
    have h := h.trans h'.1
    go
    exact wp_gd (fun _ => wp_inr h) fun _ => wp_inr h
  · go
    refine wp_bind (Cur.emitSig h (List.Sublist.refl _)) fun _ s h => ?_
    refine wp_jp (P := fun x s => Cur s0 s [] (d :: bs)) (fun _ => ?_) (fun _ => ?_)
      fun x s h => ?_
    · exact wp_mono (hR.expr _ _ _ h.inv) fun _ _ h' => (h.trans h'.1).sub (by sub)
    · exact wp_pure (h.sub (by sub))
    · obtain ⟨r, o⟩ := x
      have hn : wp (pure (Sum.inr r)) (fun r s' => (∀ a' : Unit, r = .inl a' → Cur s0 s' [] (d :: bs)) ∧
        ∀ b : Res, r = .inr b → Cur s0 s' [] (d :: bs)) s := wp_inr h
      cases o with
      | none => cases r <;> exact hn
      | some o =>
        cases r with
        | good =>
          dsimp only
          go
          refine wp_ite (fun _ => ?_) fun _ => ?_
          · go
            exact wp_gd (fun _ => wp_inr h) fun _ => wp_inr h
          · go
            exact wp_inl h
        | non => exact hn
        | fail => exact hn

/-! ## parser-cpp.c -/

/-- Functions that do nothing unless they are good, or there is an error. -/
def SpecN (m : M Res) (d : Id) : Prop :=
  ∀ s bs, Inv s (d :: bs) → wp m (fun r s' => Cur s s' [] (d :: bs) ∧
    (r ≠ .good → ok s' → s' = s)) s

theorem SpecN.one {m : M Res} (h : SpecN m d) : Spec1 m d :=
  fun s bs hi => wp_mono (h s bs hi) fun _ _ h => h.1

/-- Good, or an error. -/
theorem fin_good {s1 : St} (h : Cur s0 s [] xs) : wp parserGood (fun r s' => Cur s0 s' [] xs ∧
    (r ≠ .good → ok s' → s' = s1)) s :=
  wp_good (fun _ => ⟨h, fun e => absurd rfl e⟩) fun e => ⟨h, fun _ o => absurd o (not_ok_err e)⟩

theorem fin_fail {s1 : St} (h : Cur s0 s p bs) : wp parserFail (fun r s' => Cur s0 s' [] xs ∧
    (r ≠ .good → ok s' → s' = s1)) s :=
  wp_fail ⟨h.err _ _, fun _ o => absurd o (not_ok_err rfl)⟩

theorem fin_none (h : Cur s0 s0 [] xs) : wp parserNone (fun r s' => Cur s0 s' [] xs ∧
    (r ≠ .good → ok s' → s' = s0)) s0 :=
  wp_none (fun _ => ⟨h, fun _ _ => rfl⟩) fun _ => ⟨h, fun _ _ => rfl⟩

theorem spec_cppX {X : Cx} (hR : RecOk X.R) (d : Id) : SpecN (cppX X d) d := by
  intro s0 bs hi
  have h := Cur.refl hi
  unfold cppX
  go
  split
  · exact fin_none h
  · go
    refine wp_bind (wp_lc h ?_) fun _ s h => ?_
    · intro _ s h
      refine wp_li h ?_ fun t s _ h => ?_
      · exact wp_pure h
      · dsimp only
        go
        exact wp_pure h
    · refine wp_ex hR h (List.Sublist.refl _) (fun o s zs h hz => ?_) (fun o s h => ?_)
        fun o s h => ?_
      · red
        go
        exact fin_good (h.sub (by sub))
      · red; exact fin_fail h
      · red; exact fin_fail h

theorem spec_cdefs (d : Id) : SpecN (cppCdefs d) d := by
  intro s0 bs hi
  have h := Cur.refl hi
  unfold cppCdefs
  go
  split
  · exact fin_none h
  · go
    exact fin_good h

theorem spec_declRoot (d : Id) : SpecN (cppDeclRoot d) d := by
  intro s0 bs hi
  have h := Cur.refl hi
  unfold cppDeclRoot
  go
  split
  · exact fin_none h
  · go
    exact fin_good h

/-! ## parser-stmt-asm.c -/

theorem wp_asmOperand (h : Cur s0 s p xs) (hs : (d :: bs).Sublist xs) :
    wp (docAsmOperand d) (fun c s' => Cur s0 s' p (c :: d :: bs)) s := by
  unfold docAsmOperand
  go
  exact wp_mono (wp_allocIn h (List.Sublist.refl _)) fun _ _ h => h.sub (by sub)

theorem spec_asmOperandCpp {X : Cx} (hR : RecOk X.R) (d : Id) : Spec1 (asmOperandCpp X d) d := by
  intro s0 bs hi
  have h := Cur.refl hi
  unfold asmOperandCpp
  refine wp_bind (wp_asmOperand h (List.Sublist.refl _)) fun c s h => ?_
  go
  refine wp_ex hR h (List.Sublist.refl _) (fun o s zs h hz => ?_) (fun o s h => ?_)
    fun o s h => ?_
  · refine wp_li h ?_ fun t s _ h => ?_
    · fin
    · dsimp only
      go
      fin
  · fin
  · fin

theorem spec_asmName (d : Id) : Spec1 (asmName d) d := by
  intro s0 bs hi
  have h := Cur.refl hi
  unfold asmName
  refine wp_li h ?_ fun t s _ h => ?_
  · fin
  · dsimp only
    go
    exact wp_lay_ h

theorem spec_asmTemplate (d : Id) : Spec1 (asmTemplate d) d := by
  intro s0 bs hi
  have h := Cur.refl hi
  unfold asmTemplate
  refine wp_xp h ?_ fun t s _ _ h => ?_
  · exact wp_pure (h.err _ _)
  · dsimp only
    go
    exact wp_lay_ h

theorem spec_asmOperand {X : Cx} (hR : RecOk X.R) (d : Id) : Spec1 (asmOperand X d) d := by
  intro s0 bs hi
  have h := Cur.refl hi
  unfold asmOperand
  go
  split
  · go
    split
    · exact spec_asmOperandCpp hR d _ _ hi
    · fin
  · refine wp_bind (wp_asmOperand h (List.Sublist.refl _)) fun c s h => ?_
    refine wp_bind ((spec_asmName c).cur h (List.Sublist.refl _)) fun _ s h => ?_
    refine wp_bind ((spec_asmTemplate c).cur h (List.Sublist.refl _)) fun _ s h => ?_
    refine wp_xp h ?_ fun t s _ _ h => ?_
    · have h := h.err [] (d :: bs)
      fin
    · dsimp only
      go
      refine wp_ex hR h (List.Sublist.refl _) (fun o s zs h hz => ?_) (fun o s h => ?_)
        fun o s h => ?_
      · dsimp only
        go
        refine wp_li h ?_ fun t s _ h => ?_
        · fin
        · dsimp only
          go
          fin
      · fin
      · fin

theorem spec_asmOperands {X : Cx} (hR : RecOk X.R) (d : Id) : Spec1 (asmOperands X d) d := by
  intro s0 bs hi
  unfold asmOperands
  refine wp_loop (fun _ s => Cur s0 s [] (d :: bs)) ?_ _ _ _ (Cur.refl hi)
  intro _ s h
  refine wp_bind ((spec_asmOperand hR d).cur h (List.Sublist.refl _)) fun r s h => ?_
  split
  · exact wp_inl h
  · exact wp_inr h

theorem wp_asmOperandList {X : Cx} (hR : RecOk X.R) {opt c : Id} {bs : List Id}
    (h : Cur s0 s [] (opt :: bs)) (hc : On s0 s [] c opt bs) :
    wp (asmOperandList X opt c) (fun r s' => On s0 s' [] r opt bs) s := by
  unfold asmOperandList
  refine wp_li h ?_ fun t s _ h => ?_
  · exact wp_pure hc
  · dsimp only
    go
    refine wp_bind ((spec_asmOperands hR _).cur h (List.Sublist.refl _)) fun r s h => ?_
    exact wp_pure (On.mk h (List.Sublist.refl _) (by sub))

theorem wp_asmExprList {X : Cx} (hR : RecOk X.R) {opt c : Id} {bs : List Id}
    (h : Cur s0 s [] (opt :: bs)) (hc : On s0 s [] c opt bs) :
    wp (asmExprList X opt c) (fun r s' => On s0 s' [] r.2 opt bs) s := by
  unfold asmExprList
  refine wp_li h ?_ fun t s _ h => ?_
  · exact wp_pure hc
  · dsimp only
    go
    refine wp_bind (hR.expr _ _ _ h.inv) fun x s' h' => ?_
    have h := h.trans h'.1
    split
    · exact wp_fl (wp_pure (On.bad h.mv.err (not_ok_err rfl)))
    · exact wp_pure (On.mk h (List.Sublist.refl _) (by sub))

theorem spec_asm {X : Cx} (hR : RecOk X.R) (d : Id) : Spec1 (asm_ X d) d := by
  intro s0 bs hi
  have h := Cur.refl hi
  unfold asm_
  go
  split
  · fin
  · go
    refine wp_bind (wp_lc h ?_) fun _ s h => ?_
    · intro _ s h
      refine wp_li h ?_ fun t s _ h => ?_
      · exact wp_pure h
      · dsimp only
        go
        exact wp_pure h
    · go
      refine wp_ex hR h (List.Sublist.refl _) (fun o s zs h hz => ?_) (fun o s h => ?_)
        fun o s h => ?_
      · red
        have h := h.sub hz
        refine wp_bind (wp_asmOperandList hR h (On.self h (by sub))) fun c s h => ?_
        refine wp_bind (wp_asmOperandList hR h.cur h) fun c s h => ?_
        refine wp_bind (wp_asmExprList hR h.cur h) fun c s h => ?_
        split
        · exact wp_pure (h.cur.sub (by sub))
        · refine wp_bind (wp_asmExprList hR h.cur h) fun c s h => ?_
          split
          · exact wp_pure (h.cur.sub (by sub))
          · obtain ⟨zs, h, hz⟩ := h
            go
            fin
      · red; fin
      · red; fin

theorem spec_stmtAsm {X : Cx} (hR : RecOk X.R) (d : Id) : Spec1 (stmtAsm X d) d := by
  intro s0 bs hi
  have h := Cur.refl hi
  unfold stmtAsm
  refine wp_bind ((spec_asm hR d).cur h (List.Sublist.refl _)) fun r s h => ?_
  split
  · fin
  · go
    fin

theorem spec_rootAsm {X : Cx} (hR : RecOk X.R) (d : Id) : Spec1 (rootAsm X d) d := by
  intro s0 bs hi
  have h := Cur.refl hi
  unfold rootAsm
  refine wp_bind ((spec_stmtAsm hR d).cur h (List.Sublist.refl _)) fun r s h => ?_
  split
  · fin
  · go
    fin

end Knfmt.Parse
