import Verif.Parse.PartProps
/-!
# The parser: braces, functions and declarations
-/
namespace Knfmt.Parse
open Knfmt.Lexer (TT)
open Knfmt.Parse.Spec (ends Tidy Tidy')

variable [Mode] {s0 s : St} {p : List Tok} {xs bs : List Id} {d : Id} {β : Type} {Q : β → St → Prop}

/-! ## parser-braces.c -/

theorem spec_bracesField1 {X : Cx} (hR : RecOk X.R) (e : Bool) (d : Id) :
    Spec1 (bracesField1 X e d) d := by
  intro s0 bs hi
  have h := Cur.refl hi
  unfold bracesField1
  refine wp_li h ?_ fun t s _ h => ?_
  · refine wp_li h ?_ fun t s _ h => ?_
    · refine wp_li h ?_ fun t s _ h => ?_
      · fin
      · dsimp only
        go
        refine wp_ite (fun _ => ?_) fun _ => ?_
        · refine wp_li h ?_ fun t s _ h => ?_
          · fin
          · dsimp only
            go
            refine wp_ex hR h (List.Sublist.refl _) (fun o s zs h hz => ?_) (fun o s h => ?_)
              fun o s h => ?_
            · red
              go
              fin
            · red
              go
              fin
            · red
              fin
        · fin
    · dsimp only
      go
      fin
  · dsimp only
    go
    refine wp_ex hR h (List.Sublist.refl _) (fun o s zs h hz => ?_) (fun o s h => ?_)
      fun o s h => ?_
    · dsimp only
      go
      fin
    · fin
    · fin

theorem spec_bracesField {X : Cx} (hR : RecOk X.R) (e : Bool) (rb : Nat) (d : Id) :
    Spec1 (bracesField X e rb d) d := by
  intro s0 bs hi
  have h := Cur.refl hi
  unfold bracesField
  refine wp_bind (wp_lc h ?_) fun r s h => ?_
  · intro n s h
    refine wp_bind ((spec_bracesField1 hR e d).cur h (List.Sublist.refl _)) fun r s h => ?_
    cases r <;> exact wp_pure h
  · refine wp_ite (fun _ => ?_) fun _ => ?_
    · fin
    · refine wp_li h ?_ fun t s _ h => ?_
      · fin
      · dsimp only
        go
        refine wp_ex hR h (List.Sublist.refl _) (fun o s zs h hz => ?_) (fun o s h => ?_)
          fun o s h => ?_
        · red; fin
        · red; fin
        · red; fin

theorem wp_bracesElem {X : Cx} (hR : RecOk X.R) {F : CF} {rb : Nat} {ca : Option (Option Nat)} {c : Id}
    (h : Cur s0 s [] (c :: bs)) :
    wp (bracesElem X F rb ca c) (fun x s' => Cur s0 s' [] (c :: bs) ∧
      (x.1 = .good → On s0 s' [] x.2.1 c bs)) s := by
  unfold bracesElem
  go
  refine wp_ite (fun _ => ?_) fun _ => ?_
  · refine wp_bind ((spec_bracesField hR _ _ _).cur h (List.Sublist.refl _)) fun r s h => ?_
    exact wp_pure ⟨h, fun _ => On.self h (List.Sublist.refl _)⟩
  · refine wp_ite (fun _ => ?_) fun _ => ?_
    · refine wp_bind ((hR.braces _ _).cur h (List.Sublist.refl _)) fun r s h => ?_
      exact wp_pure ⟨h, fun _ => On.self h (List.Sublist.refl _)⟩
    · go
      refine wp_ex hR h (List.Sublist.refl _) (fun o s zs h hz => ?_) (fun o s h => ?_)
        fun o s h => ?_
      · exact wp_pure ⟨h.sub hz, fun _ => ⟨_, h, hz⟩⟩
      · exact wp_pure ⟨h, by simp⟩
      · exact wp_pure ⟨h, by simp⟩

/-- The documents in use while parsing braces: a new one is made for the right brace only. -/
def BrI (s0 s : St) (rb : Nat) (i b : Id) (bs : List Id) : Prop :=
  Cur s0 s [] (i :: b :: bs) ∨ ((nxt s).id = rb ∧ Cur s0 s [] (b :: bs))

theorem wp_bracesSpace {X : Cx} {F : CF} {rb : Nat} {i b c : Id}
    (h : Cur s0 s [] (c :: i :: b :: bs)) :
    wp (bracesSpace X F rb i b c) (fun r s' => BrI s0 s' rb i r bs) s := by
  unfold bracesSpace peek
  refine wp_back fun pv => wp_readv ?_
  go
  refine wp_ite (fun _ => ?_) fun _ => ?_
  · go
    exact wp_pure (.inl (h.sub (by sub)))
  · refine wp_ite (fun _ => ?_) fun _ => ?_
    · go
      exact wp_pure (.inl (h.sub (by sub)))
    · refine wp_ite (fun hn => ?_) fun _ => ?_
      · refine wp_ite (fun _ => ?_) fun _ => ?_
        · have hr : s.rest = s.rest := rfl
          have go1 : ∀ {k : DK} {d : Id} {s : St}, (nxt s).id = rb →
              wp (alloc k d) (fun _ s' => (nxt s').id = rb) s := by
            intro k d s hn a s' e
            unfold alloc at e
            cases e
            exact hn
          have go2 : ∀ {k : DK} {d : Id} {s : St}, (nxt s).id = rb →
              wp (lay_ k d) (fun _ s' => (nxt s').id = rb) s := by
            intro k d s hn a s' e
            unfold lay_ at e
            cases e
            exact hn
          have both : ∀ {α : Type} {m : M α} {P P' : α → St → Prop} {s : St}, wp m P s → wp m P' s →
              wp m (fun a s => P a s ∧ P' a s) s := fun h1 h2 a s e => ⟨h1 a s e, h2 a s e⟩
          refine wp_bind (both (wp_indentIn h (by sub)) (P' := fun _ s' => (nxt s').id = rb) ?_)
            fun b' s h => ?_
          · exact wp_bind (go1 hn) fun _ _ h => go1 h
          · refine wp_bind (both (wp_lay_ h.1) (go2 h.2)) fun _ s h => ?_
            exact wp_pure (.inr ⟨h.2, h.1.sub (by sub)⟩)
        · go
          exact wp_pure (.inl (h.sub (by sub)))
      · go
        exact wp_pure (.inl (h.sub (by sub)))

theorem wp_bracesEnd {b : Id} (h : Cur s0 s [] (b :: bs)) :
    wp (bracesEnd b) (fun _ s' => Cur s0 s' [] (b :: bs)) s := by
  unfold bracesEnd
  go
  fin

theorem spec_braces {X : Cx} (hR : RecOk X.R) (d : Id) (F : CF) : Spec1 (bracesF X d F) d := by
  intro s0 bs hi
  have h := Cur.refl hi
  unfold bracesF
  go
  split
  · fin
  · rename_i rb _
    go
    refine wp_xp h ?_ fun t s _ _ h => ?_
    · have h := h.err [] (d :: bs)
      fin
    · dsimp only
      go
      refine wp_ite (fun _ => ?_) fun _ => ?_
      · go
        exact wp_mono (wp_bracesEnd h) fun _ _ h => h.sub (by sub)
      · go
        refine wp_bind (P := fun x s => Cur s0 s [] (x.2 :: d :: bs)) (wp_loop (fun v s =>
          BrI s0 s rb.id _ v.1 (d :: bs)) ?_ _ _ _ (.inl h)) fun x s h => ?_
        · intro v s h
          have hv : Cur s0 s [] (v.1 :: d :: bs) := by
            rcases h with h | h
            · exact h.sub (by sub)
            · exact h.2
          unfold bracesRound peek
          refine wp_readv ?_
          refine wp_ite (fun _ => ?_) fun _ => ?_
          · exact wp_fl (wp_inr (hv.err _ _))
          · refine wp_ite (fun _ => ?_) fun hn => ?_
            · exact wp_inr hv
            · have h : Cur s0 s [] _ := h.resolve_right fun e => hn e.1
              go
              refine wp_bind (wp_bracesElem hR h) fun x s h => ?_
              obtain ⟨h, h1⟩ := h
              refine wp_ite (fun _ => ?_) fun hx => ?_
              · exact wp_fl (wp_inr (h.err _ _))
              · simp only [ne_eq, Decidable.not_not] at hx
                obtain ⟨zs, h, hz⟩ := h1 hx
                refine wp_bind (wp_lexIf h) fun co s h => ?_
                refine wp_bind (Cur.emitOpt (p := []) (by simpa using h) (List.Sublist.refl _))
                  fun _ s h => ?_
                go
                refine wp_ite (fun _ => ?_) fun _ => ?_
                · go
                  exact wp_inl (.inl (h.sub (by sub)))
                · refine wp_bind (wp_bracesSpace (h.sub hz)) fun b s h => ?_
                  exact wp_inl h
        · refine wp_ite (fun _ => ?_) fun _ => ?_
          · fin
          · exact wp_mono (wp_bracesEnd h) fun _ _ h => h.sub (by sub)

/-! ## parser-func.c -/

theorem spec_protoFuncPtr {X : Cx} (hR : RecOk X.R) (c : Id) : Spec1 (protoFuncPtr X c) c := by
  intro s0 bs hi
  have h := Cur.refl hi
  unfold protoFuncPtr
  go
  split
  · fin
  · go
    refine wp_bind (spec_funcArgs hR _ _ _ _ h.inv) fun o s' h' => ?_
    have h := h.trans h'.1
    go
    fin

/-- A document is removed again. -/
theorem Cur.undo {s4 s5 : St} {c : Id} {ys : List Id} (h : Cur s0 s [] xs) (hm : Cur s4 s5 [] ys)
    (hL : ok s5 → s5.L = s4.L) (hd : s4.done = s.done) (hr : s4.rest = s.rest) (he : s4.err = s.err)
    (hg : s4.gh = s.gh) (hn : s.next ≤ s4.next) (hc : WF s.L s.next → cut c s4.L = s.L) :
    Cur s0 { s5 with L := cut c s5.L } [] xs := by
  obtain ⟨h1, h2, e, h3, h4, h5⟩ := hm
  have hmv : Mv s s5 := ⟨Nat.le_trans hn h1, e, by rw [h3, hd], by rw [← hd, ← hr]; exact h4⟩
  by_cases o : ok s5
  · obtain ⟨_, _, y, hy, t⟩ := h5 o
    have o4 := h2 o
    have os : ok s := ⟨by rw [← he]; exact o4.1, by rw [← hg]; exact o4.2.1, by rw [← hd]; exact o4.2.2⟩
    have hy0 : kf y = [] := by
      have := congrArg List.length hy
      rw [hL o] at this
      simp at this
      exact this
    have t := Rel.kf_nil (b := y) (by simpa using t) hy0
    have : Eat s { s5 with L := cut c s5.L } [] := by
      refine ⟨?_, Nat.le_trans hn h1, fun _ => os, e, by rw [← hd]; exact h3,
        by rw [← hd, ← hr]; exact h4, fun _ => by rw [← hd]; exact t⟩
      rw [hL o]
      exact hc (h.inv os).1
    exact h.eat this
  · have hm2 : Mv s0 s5 := h.mv.trans hmv
    exact Cur.bad (s := { s5 with L := cut c s5.L }) hm2 o _ _

omit [Mode] in
theorem ins_three {L : List Ev} {n d : Id} (w : WF L n) {a b c : DK} (X : List Ev)
    (hX : Ev.cls n ∉ X) :
    cut n (ins (n + 2) X (ins (n + 1) [.opn (n + 2) c, .cls (n + 2)]
      (ins n [.opn (n + 1) b, .cls (n + 1)] (ins d [.opn n a, .cls n] L)))) = L := by
  have f : ∀ m, n ≤ m → Ev.cls m ∉ L := fun m hm hc =>
    absurd (w.cls m (mem_closes.2 hc)) (Nat.not_lt.2 hm)
  have e1 := ins_ins (c := n) (d := d) (E := [.opn (n + 1) b, .cls (n + 1)]) (P := [.opn n a]) (Q := [])
    (L := L) (f n (Nat.le_refl _)) (by simp)
  have e2 := ins_ins (c := n + 1) (d := d) (E := [.opn (n + 2) c, .cls (n + 2)])
    (P := [.opn n a, .opn (n + 1) b]) (Q := [.cls n]) (L := L) (f (n + 1) (Nat.le_add_right _ _)) (by simp)
  have e3 := ins_ins (c := n + 2) (d := d) (E := X)
    (P := [.opn n a, .opn (n + 1) b, .opn (n + 2) c]) (Q := [.cls (n + 1), .cls n]) (L := L)
    (f (n + 2) (Nat.le_add_right _ _)) (by simp)
  simp only [List.cons_append, List.nil_append] at e1 e2 e3
  rw [e1, e2, e3]
  have e4 := cut_ins (c := n) (d := d) (k := a)
    (X := [.opn (n + 1) b, .opn (n + 2) c] ++ X ++ [.cls (n + 2), .cls (n + 1)]) (L := L)
    (fun h => absurd (w.opn n h) (Nat.lt_irrefl _)) (by simp [hX])
  simp only [List.cons_append, List.nil_append, List.append_assoc] at e4
  exact e4

omit [Mode] in
theorem ins_nil (d : Id) : ∀ L : List Ev, ins d [] L = L
  | [] => rfl
  | x :: L => by
    rw [ins]
    split
    · rfl
    · rw [ins_nil d L]

omit [Mode] in
theorem wp_allocb {k : DK} {f : Id → M β} (h : wp (f s.next)
    Q { s with L := ins d [.opn s.next k, .cls s.next] s.L, next := s.next + 1 }) :
    wp (alloc k d >>= f) Q s := h

omit [Mode] in
theorem wp_allocInb {k : DK} {f : Id → M β} (h : wp (f (s.next + 1))
    Q { s with L := ins s.next [.opn (s.next + 1) .concat, .cls (s.next + 1)]
                      (ins d [.opn s.next k, .cls s.next] s.L)
               next := s.next + 1 + 1 }) :
    wp (allocIn k d >>= f) Q s := h

omit [Mode] in
theorem wp_lay_b {k : DK} {f : Unit → M β} (h : wp (f ())
    Q { s with L := ins d [.lay s.next k] s.L, next := s.next + 1 }) :
    wp (lay_ k d >>= f) Q s := h

omit [Mode] in
theorem wp_rmDoc {c : Id} {Q : Unit → St → Prop} (h : Q () { s with L := cut c s.L }) :
    wp (rmDoc c) Q s := by
  intro a s' e
  unfold rmDoc at e
  cases e
  exact h

theorem spec_krArgs {X : Cx} (hR : RecOk X.R) (d : Id) : Spec1 (krArgs X d) d := by
  intro s bs hi
  have h := Cur.refl hi
  have h1 := wp_alloc (k := .group) h (List.Sublist.refl _) _ _ rfl
  have h2 := wp_indentIn h1 (List.Sublist.refl _) _ _ rfl
  have h3 := wp_lay_ (k := .hardline) (d := s.next + 2) h2 _ _ rfl
  unfold krArgs indentIn
  refine wp_allocb (wp_allocInb (wp_lay_b ?_))
  refine wp_bind (hR.decl _ {} _ _ h3.inv) fun r s' hr => ?_
  refine wp_when (fun hb => wp_rmDoc ?_) fun hb => ?_
  · refine Cur.undo h hr.1 (hr.2 (of_decide_eq_true hb)) rfl rfl rfl rfl (Nat.le_add_right _ 4) ?_
    intro w
    exact ins_three w _ (by simp)
  · exact (h3.trans hr.1).sub (by sub)

theorem spec_protoAttrs {X : Cx} (hR : RecOk X.R) (d : Id) : Spec1 (protoAttrs X d) d := by
  intro s bs hi
  have h := Cur.refl hi
  have h1 := wp_alloc (k := .group) h (List.Sublist.refl _) _ _ rfl
  have h2 := wp_indentIn h1 (List.Sublist.refl _) _ _ rfl
  unfold protoAttrs indentIn
  refine wp_allocb (wp_allocInb ?_)
  refine wp_bind (spec_attributes hR _ _ _ _ _ h2.inv) fun x s' hr => ?_
  refine wp_bind (P := fun _ s' => Cur s s' [] (d :: bs)) (wp_when (fun hb => wp_rmDoc ?_) fun hb => ?_)
    fun _ _ h => wp_pure h
  · refine Cur.undo h hr.1 (fun o => ?_) rfl rfl rfl rfl (Nat.le_add_right _ 3) ?_
    · have hb : x.1 ≠ .good := of_decide_eq_true hb
      cases hx : x.1 with
      | good => exact absurd hx hb
      | non => rw [hr.2.2.1 hx]
      | fail => exact absurd o (not_ok_err (hr.2.2.2 hx))
    · intro w
      have := ins_three (d := d) (a := .group) (b := .indent) (c := .concat) w [] (by simp)
      rw [ins_nil] at this
      exact this
  · exact (h2.trans hr.1).sub (by sub)

theorem spec_protoTail {X : Cx} (hR : RecOk X.R) (d o : Id) : Spec1 (protoTail X d o) d := by
  intro s0 bs hi
  have h := Cur.refl hi
  unfold protoTail
  refine wp_bind ((spec_krArgs hR d).cur h (List.Sublist.refl _)) fun _ s h => ?_
  refine wp_bind ((spec_protoAttrs hR d).cur h (List.Sublist.refl _)) fun _ s h => ?_
  exact wp_gd (fun _ => wp_pure h) fun _ => wp_pure h

theorem wp_protoArgs {X : Cx} (hR : RecOk X.R) {c : Id} (h : Cur s0 s [] (c :: d :: bs)) :
    wp (protoArgs X d c) (fun _ s' => Cur s0 s' [] (d :: bs)) s := by
  unfold protoArgs
  go
  split
  · exact wp_fl (wp_pure (h.err _ _))
  · go
    refine wp_jp (P := fun i s => ∃ ys, Cur s0 s [] (i :: ys) ∧ (d :: bs).Sublist (i :: ys) ∧
      Cur s0 s [] (c :: d :: bs)) (fun _ => ?_) (fun _ => ?_) fun i s hi => ?_
    · refine wp_mono (wp_allocIn' h (by sub)) fun i s h => ?_
      exact ⟨_, h.1, by sub, h.2⟩
    · refine wp_mono (wp_indentIn h (by sub)) fun i s h => ?_
      exact ⟨_, h, by sub, h.sub (by sub)⟩
    · obtain ⟨ys, h, hy, hc⟩ := hi
      refine wp_bind (spec_funcArgs hR _ _ _ _ h.inv) fun o s' h' => ?_
      have ho : On s0 s' [] (o.getD c) d bs := by
        cases o with
        | none =>
          rcases h'.2.2 rfl with e | e
          · subst e
            exact ⟨_, hc, by sub⟩
          · exact On.bad (h.trans h'.1).mv (not_ok_err e)
        | some x =>
          exact ((h'.2.1 x rfl).of h).sub hy
      obtain ⟨zs, h, hz⟩ := ho
      go
      exact (spec_protoTail hR _ _).cur h hz

omit [Mode] in
theorem Mv.cut (h : Mv s0 s) (L : List Ev) : Mv s0 { s with L := L } := h

theorem wp_protoName {g c : Id} (h : Cur s0 s [] (c :: bs)) :
    wp (protoName g c) (fun _ s' => Cur s0 s' [] (c :: bs)) s := by
  unfold protoName
  refine wp_xp h ?_ fun t s _ _ h => ?_
  · dsimp only
    refine wp_bind (P := fun _ s => Mv s0 s) (wp_rmDoc (h.mv.err.cut _)) fun _ s h => ?_
    exact wp_fail (Cur.bad h.err (not_ok_err rfl) _ _)
  · dsimp only
    go
    fin

theorem spec_funcProto {X : Cx} (hR : RecOk X.R) (d : Id) (ti : TI) (f impl : Bool) :
    Spec1 (funcProto X d ti f impl) d := by
  intro s0 bs hi
  have h := Cur.refl hi
  unfold funcProto
  refine wp_attr hR h (List.Sublist.refl _) fun x s h _ => ?_
  refine wp_ite (fun _ => ?_) fun _ => ?_
  · exact wp_fl (wp_pure (h.err _ _))
  · refine wp_bind (wp_layOn h) fun _ s h => ?_
    refine wp_bind ((hR.type _ _).cur h (List.Sublist.refl _)) fun t s h => ?_
    refine wp_ite (fun _ => ?_) fun _ => ?_
    · exact wp_fl (wp_pure (h.err _ _))
    · go
      refine wp_attr hR h (List.Sublist.refl _) fun x s h _ => ?_
      refine wp_ite (fun _ => ?_) fun _ => ?_
      · exact wp_fl (wp_pure (h.err _ _))
      · go
        refine wp_jp (fun _ => (spec_protoFuncPtr hR _).cur h (List.Sublist.refl _))
          (fun _ => wp_protoName h) fun r s h => ?_
        refine wp_ite (fun _ => ?_) fun _ => ?_
        · exact wp_fl (wp_pure (h.err _ _))
        · exact wp_protoArgs hR (h.sub (by sub))

theorem spec_funcDecl {X : Cx} (hR : RecOk X.R) (d : Id) : SpecN (funcDecl X d) d := by
  intro s0 bs hi
  have h := Cur.refl hi
  unfold funcDecl
  go
  split
  · go
    refine wp_bind ((spec_funcProto hR _ _ _ _).cur h (List.Sublist.refl _)) fun x s h => ?_
    split
    · refine wp_xp h ?_ fun t s ht _ h => ?_
      · exact fin_good (h.err _ _)
      · dsimp only
        refine wp_bind (Cur.emitChk h ht (by sub)) fun _ s h => ?_
        exact fin_good h
    · exact fin_fail h
  · exact fin_none h

theorem spec_funcImpl {X : Cx} (hR : RecOk X.R) (d : Id) : Spec1 (funcImpl X d) d := by
  intro s0 bs hi
  have h := Cur.refl hi
  unfold funcImpl
  go
  split
  · refine wp_bind ((spec_funcProto hR _ _ _ _).cur h (List.Sublist.refl _)) fun x s h => ?_
    refine wp_ite (fun _ => ?_) fun _ => ?_
    · fin
    · go
      refine wp_ite (fun _ => ?_) fun _ => ?_
      · fin
      · go
        refine wp_bl hR h (List.Sublist.refl _) (List.Sublist.refl _) (fun o s zs h hz => ?_)
          (fun o s h => ?_) fun o s h => ?_
        · red
          go
          fin
        · red; fin
        · red; fin
  · fin

/-! ## parser-decl.c -/

theorem spec_bitfield {X : Cx} (d : Id) : Spec1 (declBitfield X d) d := by
  intro s0 bs hi
  have h := Cur.refl hi
  unfold declBitfield
  refine wp_li h ?_ fun t s _ h => ?_
  · fin
  · dsimp only
    go
    fin

theorem spec_initParens {X : Cx} (hR : RecOk X.R) (l r : TT) (d : Id) :
    Spec1 (initParens X l r d) d := by
  intro s0 bs hi
  have h := Cur.refl hi
  unfold initParens
  go
  refine wp_ex hR h (List.Sublist.refl _) (fun o s zs h hz => ?_) (fun o s h => ?_) fun o s h => ?_
  · red
    go
    fin
  · red
    go
    fin
  · red
    go
    fin

theorem spec_declInit1 {X : Cx} (hR : RecOk X.R) (d : Id) (out : Option Id) :
    Spec1 (declInit1 X d out) d := by
  intro s0 bs hi
  have h := Cur.refl hi
  have one : ∀ {α : Type} {f : Res → α} {s : St}, Cur s0 s [] (d :: bs) →
      wp (parserGood >>= fun r => pure (f r)) (fun _ s' => Cur s0 s' [] (d :: bs)) s :=
    fun h => wp_gd (fun _ => wp_pure h) fun _ => wp_pure h
  unfold declInit1
  refine wp_li h ?_ fun t s _ h => ?_
  · dsimp only
    go
    refine wp_ite (fun _ => ?_) fun _ => ?_
    · exact wp_bind ((spec_initParens hR _ _ _).cur h (List.Sublist.refl _)) fun _ s h => wp_pure h
    · refine wp_ite (fun _ => ?_) fun _ => ?_
      · exact wp_bind ((spec_initParens hR _ _ _).cur h (List.Sublist.refl _)) fun _ s h => wp_pure h
      · refine wp_bind ((spec_bitfield _).cur h (List.Sublist.refl _)) fun _ s h => ?_
        refine wp_ite (fun _ => ?_) fun _ => ?_
        · exact one h
        · refine wp_li h ?_ fun t s _ h => ?_
          · refine wp_li h ?_ fun t s _ h => ?_
            · dsimp only
              refine wp_attr hR h (List.Sublist.refl _) fun x s h _ => ?_
              refine wp_ite (fun _ => ?_) fun _ => ?_
              · go
                exact one h
              · go
                refine wp_ite (fun _ => ?_) fun _ => ?_
                · go
                  exact wp_bind ((spec_asm hR _).cur h (List.Sublist.refl _)) fun _ s h => wp_pure h
                · exact wp_nn (fun _ => wp_pure h) fun _ => wp_pure h
            · dsimp only
              go
              exact one h
          · dsimp only
            go
            exact one h
  · dsimp only
    go
    exact one h

theorem spec_declInitAssign {X : Cx} (hR : RecOk X.R) (d : Id) (out : Option Id) (semi : Nat) :
    Spec1 (declInitAssign X d out semi) d := by
  intro s0 bs hi
  have h := Cur.refl hi
  unfold declInitAssign
  refine wp_li h ?_ fun t s _ h => ?_
  · exact wp_nn (fun _ => wp_pure h) fun _ => wp_pure h
  · dsimp only
    go
    refine wp_ite (fun _ => ?_) fun _ => ?_
    · refine wp_bind ((hR.braces _ _).cur h (List.Sublist.refl _)) fun _ s h => ?_
      refine wp_ite (fun _ => ?_) fun _ => ?_
      · exact wp_fl (wp_pure (h.err _ _))
      · have h := h.sub (List.sublist_cons_self _ _)
        exact wp_gd (fun _ => wp_pure h) fun _ => wp_pure h
    · go
      refine wp_bind (hR.expr _ _ _ h.inv) fun x s' h' => ?_
      have h := (h.trans h'.1).sub (List.sublist_cons_self _ _)
      refine wp_ite (fun _ => ?_) fun _ => ?_
      · exact wp_fl (wp_pure (h.err _ _))
      · go
        exact wp_gd (fun _ => wp_pure h) fun _ => wp_pure h

theorem wp_declComma {X : Cx} {dc c : Id} {co : Option Tok} {bs : List Id}
    (h : Cur s0 s co.toList (c :: dc :: bs)) :
    wp (declComma X dc c co) (fun c' s' => Cur s0 s' [] (c' :: dc :: bs)) s := by
  unfold declComma
  split
  · exact wp_pure h
  · have h : Cur s0 s [_] (c :: dc :: bs) := h
    go
    exact wp_mono (wp_allocIn h (List.Sublist.refl _)) fun _ _ h => h.sub (by sub)

theorem spec_declInit {X : Cx} (hR : RecOk X.R) (d : Id) (semi : Nat) :
    Spec1 (declInit X d semi) d := by
  intro s0 bs hi
  have h := Cur.refl hi
  unfold declInit
  refine wp_bind (wp_alloc h (by sub)) fun i s h => ?_
  refine wp_bind (wp_alloc h (by sub)) fun dc s h => ?_
  refine wp_bind (wp_allocIn h (by sub)) fun c s h => ?_
  refine wp_bind (P := fun _ s => Cur s0 s [] (i :: d :: bs)) (wp_loop (fun v s =>
    Cur s0 s [] (v.1 :: dc :: i :: d :: bs)) ?_ _ _ _ h) fun x s h => ?_
  · intro v s h
    unfold declInitRound
    go
    refine wp_ite (fun _ => ?_) fun _ => ?_
    · exact wp_inr (h.sub (by sub))
    · refine wp_bind (wp_lexIf h) fun co s h => ?_
      refine wp_bind (wp_declComma h) fun c s h => ?_
      refine wp_bind ((spec_declInit1 hR _ _).cur h (List.Sublist.refl _)) fun x s h => ?_
      refine wp_jp (fun _ => (spec_declInitAssign hR _ _ _).cur h (List.Sublist.refl _))
        (fun _ => wp_pure h) fun x s h => ?_
      refine wp_ite (fun _ => ?_) fun _ => ?_
      · exact wp_inr (h.sub (by sub))
      · exact wp_inl h
  · refine wp_bind (P := fun _ s => Cur s0 s [] (d :: bs)) (wp_when (fun _ => ?_) fun _ => ?_)
      fun _ s h => wp_gd (fun _ => wp_pure h) fun _ => wp_pure h
    · exact Cur.rmDocChk h (List.Sublist.refl _)
    · exact h.sub (by sub)

theorem spec_declBraces {X : Cx} (hR : RecOk X.R) (d : Id) : Spec1 (declBraces X d) d := by
  intro s0 bs hi
  have h := Cur.refl hi
  unfold declBraces
  go
  refine wp_ite (fun _ => ?_) fun _ => ?_
  · fin
  · go
    refine wp_bind (hR.decl _ _ _ _ h.inv) fun x s' h' => ?_
    have h := h.trans h'.1
    refine wp_ite (fun _ => ?_) fun _ => ?_
    · fin
    · go
      fin

/-- What the braces of a structure, union or enumeration do. -/
theorem spec_aggregate {X : Cx} (hR : RecOk X.R) (d : Id) (s0 : St) (bs : List Id)
    (hi : Inv s0 (d :: bs)) : wp (declAggregate X d) (fun r s' => Cur s0 s' [] (d :: bs) ∧
      (r ≠ .good → s'.err = true)) s0 := by
  have h := Cur.refl hi
  unfold declAggregate
  go
  refine wp_ite (fun _ => ?_) fun _ => ?_
  · refine wp_bind ((spec_declBraces hR _).cur h (List.Sublist.refl _)) fun r s h => ?_
    refine wp_ite (fun _ => ?_) fun _ => ?_
    · exact wp_fail ⟨h.err _ _, fun _ => rfl⟩
    · exact wp_pure ⟨h, fun e => absurd rfl e⟩
  · refine wp_ite (fun _ => ?_) fun _ => ?_
    · go
      refine wp_ite (fun _ => ?_) fun _ => ?_
      · exact wp_fail ⟨h.err _ _, fun _ => rfl⟩
      · go
        refine wp_bind ((hR.braces _ _).cur h (List.Sublist.refl _)) fun r s h => ?_
        refine wp_ite (fun _ => ?_) fun _ => ?_
        · exact wp_fail ⟨h.err _ _, fun _ => rfl⟩
        · exact wp_pure ⟨h, fun e => absurd rfl e⟩
    · exact wp_pure ⟨h, fun e => absurd rfl e⟩

omit [Mode] in
theorem tidy_while : ∀ ts : List Tok, Tidy' true ts (pWhile (is .semi) ts)
  | [] => .nil _
  | t :: ts => by
    unfold pWhile
    split
    · rename_i h
      exact .after t (of_decide_eq_true h) (tidy_while ts)
    · exact Tidy'.refl _ _

theorem eat_trimSemis (hc : ctx s.done = true) : wp trimSemis (fun _ s' => Eat s s' []) s := by
  intro a s' e
  unfold trimSemis at e
  cases e
  refine ⟨rfl, Nat.le_refl _, fun o => o, [], rfl, ?_, fun _ => .nil _⟩
  rw [hc]
  exact tidy_while _

theorem wp_declSemi {F : DF} {o : Id} {s1 : St} (h : Cur s0 s [] xs) (hs : (d :: bs).Sublist xs) :
    wp (declSemi F o d) (fun r s' => Cur s0 s' [] (d :: bs) ∧ (r ≠ .good → ok s' → s' = s1)) s := by
  unfold declSemi
  refine wp_xp h ?_ fun t s ht hd h => ?_
  · exact fin_good (h.err _ _)
  · dsimp only
    refine wp_bind (P := fun _ s => Cur s0 s [t] xs) (wp_when (fun _ => ?_) fun _ => h) fun _ s h => ?_
    · refine wp_mono (eat_trimSemis ?_) fun _ _ h' => h.eat h'
      cases hd' : s.done with
      | nil => rw [hd'] at hd; cases hd
      | cons x l =>
        rw [hd'] at hd
        cases hd
        exact Tidy'.ends_semi ht
    · refine wp_bind (Cur.emitChk h ht hs) fun _ s h => ?_
      exact fin_good h

/-- One after the other. -/
theorem SpecN.seq {m : M Res} {k : M Res} {d : Id} (hm : SpecN m d) (hk : SpecN k d) :
    SpecN (m >>= fun a => if a = .good then parserGood else k) d := by
  intro s0 bs hi
  refine wp_bind (hm s0 bs hi) fun r s h => ?_
  refine wp_ite (fun _ => ?_) fun hr => ?_
  · exact fin_good h.1
  · refine wp_mono (hk s bs h.1.inv) fun r' s' h' => ⟨h.1.trans h'.1, fun hr' o => ?_⟩
    have e := h'.2 hr' o
    subst e
    exact h.2 hr o

theorem SpecN.ite {c : Prop} [Decidable c] {a b : M Res} {d : Id} (h1 : SpecN a d) (h2 : SpecN b d) :
    SpecN (if c then a else b) d := by
  split
  · exact h1
  · exact h2

theorem SpecN.non {d : Id} : SpecN (pure .non) d :=
  fun _ _ hi => wp_pure ⟨Cur.refl hi, fun _ _ => rfl⟩

theorem spec_decl2 {X : Cx} (hR : RecOk X.R) (d : Id) (F : DF) : SpecN (decl2 X d F) d := by
  unfold decl2
  refine (spec_cdefs d).seq ?_
  refine (fun hk => SpecN.ite ((spec_declRoot d).seq hk) (SpecN.non.seq hk)) ?_
  · intro s0 bs hi
    have h := Cur.refl hi
    go
    split
    · exact spec_cppX hR d _ _ hi
    · go
      split
      · exact spec_funcDecl hR d _ _ hi
      · exact fin_none h
      · go
        refine wp_bind ((hR.type _ _).cur h (List.Sublist.refl _)) fun t s h => ?_
        refine wp_ite (fun _ => ?_) fun _ => ?_
        · exact fin_fail h
        · go
          refine wp_ite (fun _ => ?_) fun _ => ?_
          · exact wp_declSemi h (by sub)
          · refine wp_bind (spec_aggregate hR _ _ _ h.inv) fun g s' h' => ?_
            have h := h.trans h'.1
            refine wp_ite (fun hg => ?_) fun _ => ?_
            · exact wp_pure ⟨h.sub (by sub), fun _ o => absurd o (not_ok_err (h'.2 hg))⟩
            · go
              split
              · exact fin_fail h
              · refine wp_bind ((spec_declInit hR _ _).cur h (List.Sublist.refl _)) fun x s h => ?_
                refine wp_ite (fun hg => ?_) fun _ => ?_
                · exact fin_fail h
                · exact wp_declSemi h (by sub)

theorem wp_rmOpt {l : Option Id} (h : Cur s0 s p xs) :
    wp (rmOpt l) (fun _ s' => Cur s0 s' p xs) s := by
  unfold rmOpt
  split
  · exact h.rmLay
  · exact wp_pure h

/-- `parser_decl`. -/
theorem spec_decl {X : Cx} (hR : RecOk X.R) (d : Id) (F : DF) : SpecD (declF X d F) d := by
  intro s0 bs hi
  have h0 := Cur.refl hi
  have h := wp_alloc (k := .concat) h0 (List.Sublist.refl _) _ _ rfl
  unfold declF
  refine wp_allocb ?_
  refine wp_bind (wp_loop (Q := fun n s => Cur s0 s [] (s0.next :: d :: bs) ∧ (n = 0 → ok s →
      s = { s0 with L := ins d [.opn s0.next .concat, .cls s0.next] s0.L, next := s0.next + 1 }))
    (fun n s => Cur s0 s [] (s0.next :: d :: bs) ∧ (n = 0 →
      s = { s0 with L := ins d [.opn s0.next .concat, .cls s0.next] s0.L, next := s0.next + 1 }))
    ?_ _ _ _ ⟨h, fun _ => rfl⟩) fun n s h => ?_
  · intro n s ⟨h, hn⟩
    unfold declRound
    refine wp_jp (P := fun l s' => Cur s0 s' [] (s0.next :: d :: bs) ∧ (n = 0 → l = none ∧ s' = s))
      (fun hn => ?_) (fun _ => ?_) fun l s1 h1 => ?_
    · refine wp_bind (wp_lay h) fun l s h => wp_pure ⟨h, fun e => ?_⟩
      rw [e] at hn
      exact absurd hn (by simp)
    · exact wp_pure ⟨h, fun _ => ⟨rfl, rfl⟩⟩
    · obtain ⟨h, h1⟩ := h1
      refine wp_bind (spec_decl2 hR _ F _ _ h.inv) fun r s2 h2 => ?_
      have hc := h.trans h2.1
      refine wp_ite (fun hr => ?_) fun _ => ?_
      · by_cases e : n = 0
        · obtain ⟨rfl, rfl⟩ := h1 e
          exact wp_inr ⟨hc, fun e o => (h2.2 hr o).trans (hn e)⟩
        · refine wp_bind (wp_rmOpt hc) fun _ s h => ?_
          exact wp_inr ⟨h, fun e' => absurd e' e⟩
      · go
        refine wp_ite (fun _ => ?_) fun _ => ?_
        · exact wp_inr ⟨hc, fun e => absurd e (by simp)⟩
        · exact wp_inl ⟨hc, fun e => absurd e (by simp)⟩
  · obtain ⟨h, hn⟩ := h
    refine wp_ite (fun e => ?_) fun _ => ?_
    · refine wp_bind (P := fun _ s' => Cur s0 s' [] (d :: bs) ∧ (ok s' → s'.L = s0.L))
        (wp_rmDoc ?_) fun _ s h => ?_
      · by_cases o : ok s
        · have hs := hn e o
          subst hs
          have hc : cut s0.next (ins d [.opn s0.next .concat, .cls s0.next] s0.L) = s0.L := by
            have w := (h0.inv o).1
            have := cut_ins (c := s0.next) (d := d) (k := .concat) (X := []) (L := s0.L)
              (fun h => absurd (w.opn _ h) (Nat.lt_irrefl _)) (by simp)
            exact this
          constructor
          · dsimp only
            rw [hc]
            exact h0.doc (Nat.le_succ _) fun _ w k _ =>
              ⟨w.mono (Nat.le_succ _), k, [], by simp, rfl⟩
          · exact fun _ => hc
        · exact ⟨Cur.bad (s := { s with L := cut s0.next s.L }) h.mv o _ _, fun o' => absurd o' o⟩
      · exact wp_none (fun _ => ⟨h.1, fun _ => h.2⟩) fun _ => ⟨h.1, fun _ => h.2⟩
    · go
      refine wp_good (fun _ => ⟨h.sub (by sub), fun e => absurd rfl e⟩)
        fun e => ⟨h.sub (by sub), fun _ o => absurd o (not_ok_err e)⟩

end Knfmt.Parse
