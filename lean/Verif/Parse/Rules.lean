import Verif.Parse.Wp
/-!
# The parser: rules for the primitives
-/
namespace Knfmt.Parse
open Knfmt.Lexer (TT)
open Knfmt.Parse.Spec (ends Tidy Tidy')

variable [Mode] {s0 s : St} {p : List Tok} {xs bs : List Id} {d : Id}

/-! ## Documents -/

theorem Cur.lay (h : Cur s0 s p xs) (d : Id) (i : Id) (k : DK) :
    Cur s0 { s with L := ins d [.lay i k] s.L, next := s.next + 1 } p xs := by
  refine h.doc (Nat.le_succ _) ?_
  intro _ w k' _
  refine ⟨w.ins d (Nat.le_succ _) (by simp [closes]) (by simp [closes]) (by simp [opens]),
    k'.ins d rfl, [], by rw [ktoks_ins rfl]; simp, rfl⟩

theorem wp_lay {k : DK} (h : Cur s0 s p xs) : wp (lay k d) (fun _ s' => Cur s0 s' p xs) s := by
  intro a s' e
  unfold Parse.lay at e
  cases e
  exact h.lay _ _ _

theorem wp_lay_ {k : DK} (h : Cur s0 s p xs) : wp (lay_ k d) (fun _ s' => Cur s0 s' p xs) s := by
  intro a s' e
  unfold lay_ at e
  cases e
  exact h.lay _ _ _

theorem wp_layIf {b : Bool} {k k' : DK} (h : Cur s0 s p xs) :
    wp (layIf b k k' d) (fun _ s' => Cur s0 s' p xs) s := wp_lay_ h

omit [Mode] in
theorem wp_when {b : Bool} {m : M Unit} {Q : Unit → St → Prop} (h : b = true → wp m Q s)
    (h' : b = false → Q () s) : wp (when b m) Q s := by
  cases b with
  | true => exact h rfl
  | false => exact wp_pure (h' rfl)

theorem wp_when_lay {b : Bool} {k : DK} (h : Cur s0 s p xs) :
    wp (when b (lay_ k d)) (fun _ s' => Cur s0 s' p xs) s := wp_when (fun _ => wp_lay_ h) fun _ => h

theorem wp_when_layIf {b c : Bool} {k k' : DK} (h : Cur s0 s p xs) :
    wp (when b (layIf c k k' d)) (fun _ s' => Cur s0 s' p xs) s :=
  wp_when (fun _ => wp_layIf h) fun _ => h

omit [Mode] in
theorem toks_filter {f : Ev → Bool} (hf : ∀ x, f x = false → x.toks = []) :
    ∀ L : List Ev, toks (L.filter f) = toks L
  | [] => rfl
  | x :: L => by
    rw [toks_cons, ← toks_filter hf L, List.filter_cons]
    cases hx : f x with
    | true => rw [if_pos rfl, toks_cons]
    | false => rw [if_neg (by simp), hf x hx]; rfl

theorem Cur.rmLay (h : Cur s0 s p xs) {i : Id} : wp (rmLay i) (fun _ s' => Cur s0 s' p xs) s := by
  intro a s' e
  unfold Parse.rmLay at e
  injection e with e
  injection e with _ e
  subst e
  have hf : ∀ x, notLay i x = false → x.toks = [] := by
    intro x hx
    cases x <;> first | rfl | cases hx
  refine h.doc (Nat.le_refl _) ?_
  intro _ w k' _
  refine ⟨w.of_sublist List.filter_sublist, ?_, [], by simp [ktoks, toks_filter hf], rfl⟩
  obtain ⟨H, T, h1, h2, h3⟩ := k'
  rw [h1, List.filter_append]
  refine ⟨_, _, rfl, by rw [ktoks, toks_filter hf]; exact h2, ?_⟩
  have h4 := h3.filter (notLay i)
  rwa [List.filter_eq_self.2] at h4
  intro x hx
  simp only [List.mem_map] at hx
  obtain ⟨_, _, rfl⟩ := hx
  rfl

theorem Cur.rmSoft (h : Cur s0 s p xs) {i : Id} : wp (rmSoft i) (fun _ s' => Cur s0 s' p xs) s := by
  intro a s' e
  unfold Parse.rmSoft at e
  injection e with e
  injection e with _ e
  subst e
  have hf : ∀ x, notSoft i x = false → x.toks = [] := by
    intro x hx
    cases x <;> first | rfl | cases hx
  refine h.doc (Nat.le_refl _) ?_
  intro _ w k' _
  refine ⟨w.of_sublist List.filter_sublist, ?_, [], by simp [ktoks, toks_filter hf], rfl⟩
  obtain ⟨H, T, h1, h2, h3⟩ := k'
  rw [h1, List.filter_append]
  refine ⟨_, _, rfl, by rw [ktoks, toks_filter hf]; exact h2, ?_⟩
  have h4 := h3.filter (notSoft i)
  rwa [List.filter_eq_self.2] at h4
  intro x hx
  simp only [List.mem_map] at hx
  obtain ⟨_, _, rfl⟩ := hx
  rfl

theorem wp_when_rmSoft {b : Bool} {i : Id} (h : Cur s0 s p xs) :
    wp (when b (rmSoft i)) (fun _ s' => Cur s0 s' p xs) s := wp_when (fun _ => h.rmSoft) fun _ => h

/-- Notes about tokens glued together do not matter here. -/
theorem wp_note {f : List Ev → Bool} (h : Cur s0 s p xs) :
    wp (note f) (fun _ s' => Cur s0 s' p xs) s := by
  intro a s' e
  cases e
  exact h

theorem wp_when_note {b : Bool} {f : List Ev → Bool} (h : Cur s0 s p xs) :
    wp (when b (note f)) (fun _ s' => Cur s0 s' p xs) s := wp_when (fun _ => wp_note h) fun _ => h

theorem Cur.rmWhite (h : Cur s0 s p xs) {i : Id} : wp (rmWhite i) (fun _ s' => Cur s0 s' p xs) s :=
  wp_bind h.rmLay fun _ _ h => wp_note h

theorem wp_when_rmWhite {b : Bool} {i : Id} (h : Cur s0 s p xs) :
    wp (when b (rmWhite i)) (fun _ s' => Cur s0 s' p xs) s := wp_when (fun _ => h.rmWhite) fun _ => h

theorem wp_when_rmLay {b : Bool} {i : Id} (h : Cur s0 s p xs) :
    wp (when b (rmLay i)) (fun _ s' => Cur s0 s' p xs) s := wp_when (fun _ => h.rmLay) fun _ => h

/-- A new container within `d`; what was open before stays open. -/
theorem wp_alloc' {k : DK} (h : Cur s0 s p xs) (hs : (d :: bs).Sublist xs) :
    wp (alloc k d) (fun c s' => Cur s0 s' p (c :: d :: bs) ∧ Cur s0 s' p xs) s := by
  intro a s' e
  unfold alloc at e
  injection e with e
  injection e with e1 e
  subst e e1
  have hw : ∀ (w : WF s.L s.next), WF (ins d [.opn s.next k, .cls s.next] s.L) (s.next + 1) :=
    fun w => w.ins d (Nat.le_succ _) (by simp [closes]) (by simp [closes]) (by simp [opens])
  constructor
  · refine h.doc (Nat.le_succ _) ?_
    intro _ w k' _
    refine ⟨hw w, ?_, [], by rw [ktoks_ins rfl]; simp, rfl⟩
    obtain ⟨A, B, e1, e2, e3, e4⟩ := (k'.sub hs).split w.nodup
    rw [e1, ins_at e2]
    have : A ++ ([Ev.opn s.next k, Ev.cls s.next] ++ Ev.cls d :: B) =
        (A ++ [.opn s.next k]) ++ .cls s.next :: .cls d :: B := by simp
    rw [this]
    exact Stk.of_split (by rw [ktoks_cons, e3]; rfl) (e4.cons_cons _)
  · refine h.doc (Nat.le_succ _) ?_
    intro _ w k' _
    exact ⟨hw w, k'.ins d rfl, [], by rw [ktoks_ins rfl]; simp, rfl⟩

theorem wp_alloc {k : DK} (h : Cur s0 s p xs) (hs : (d :: bs).Sublist xs) :
    wp (alloc k d) (fun c s' => Cur s0 s' p (c :: d :: bs)) s :=
  wp_mono (wp_alloc' h hs) fun _ _ h => h.1

theorem wp_allocIn {k : DK} (h : Cur s0 s p xs) (hs : (d :: bs).Sublist xs) :
    wp (allocIn k d) (fun c s' => Cur s0 s' p (c :: d :: bs)) s := by
  unfold allocIn
  refine wp_bind (wp_alloc h hs) fun g s' h => ?_
  refine wp_mono (wp_alloc h (List.Sublist.refl _)) fun _ _ h => h.sub ?_
  exact ((List.sublist_cons_self _ _)).cons_cons _

theorem wp_allocIn' {k : DK} (h : Cur s0 s p xs) (hs : (d :: bs).Sublist xs) :
    wp (allocIn k d) (fun c s' => Cur s0 s' p (c :: d :: bs) ∧ Cur s0 s' p xs) s := by
  unfold allocIn
  refine wp_bind (wp_alloc' h hs) fun g s' h => ?_
  intro a s'' e
  exact ⟨(wp_alloc h.1 (List.Sublist.refl _) a s'' e).sub
    ((List.sublist_cons_self _ _).cons_cons _), by
    unfold alloc at e
    cases e
    refine h.2.doc (Nat.le_succ _) ?_
    intro _ w k' _
    exact ⟨w.ins g (Nat.le_succ _) (by simp [closes]) (by simp [closes]) (by simp [opens]),
      k'.ins _ rfl, [], by rw [ktoks_ins rfl]; simp, rfl⟩⟩

theorem wp_indentIn (h : Cur s0 s p xs) (hs : (d :: bs).Sublist xs) :
    wp (indentIn d) (fun c s' => Cur s0 s' p (c :: d :: bs)) s := wp_allocIn h hs

theorem wp_alignIn (h : Cur s0 s p xs) (hs : (d :: bs).Sublist xs) :
    wp (alignIn d) (fun c s' => Cur s0 s' p (c :: d :: bs)) s := wp_allocIn h hs

/-- Insert tokens. -/
theorem Cur.put {w : List Tok} {x : Ev} (h : Cur s0 s (w ++ p) xs) (hs : (d :: bs).Sublist xs)
    (hx : toks [x] = w) (hc : closes [x] = []) (ho : opens [x] = []) :
    Cur s0 { s with L := ins d [x] s.L } p (d :: bs) := by
  refine h.doc (Nat.le_refl _) ?_
  intro _ wf k' _
  refine ⟨wf.ins d (Nat.le_refl _) (by simp [hc]) (by simp [hc]) (by simp [ho]), ?_⟩
  obtain ⟨A, B, e1, e2, e3, e4⟩ := (k'.sub hs).split wf.nodup
  rw [e1, ins_at e2]
  have : A ++ ([x] ++ Ev.cls d :: B) = (A ++ [x]) ++ .cls d :: B := by simp
  rw [this]
  refine ⟨Stk.of_split e3 e4, w, ?_, rfl⟩
  have hB : ktoks (Ev.cls d :: B) = [] := by rw [ktoks_cons, e3]; rfl
  have hx : ktoks [x] = kf w := by rw [ktoks, hx]
  rw [ktoks_append, ktoks_append, ktoks_append, hB, hx]
  simp

theorem Cur.emit {t : Tok} (h : Cur s0 s (t :: p) xs) (hs : (d :: bs).Sublist xs) :
    wp (emit t d) (fun _ s' => Cur s0 s' p (d :: bs)) s := by
  intro a s' e
  unfold Parse.emit at e
  injection e with e
  injection e with _ e
  subst e
  by_cases ht : t.ty = .eof
  · refine h.doc (Nat.le_refl _) ?_
    intro _ _ _ hp
    exact absurd ht (hp t (by simp))
  · rw [if_neg ht]
    exact Cur.put (w := [t]) h hs rfl rfl rfl

/-- What a token adds when emitted. -/
def sig (t : Tok) : List Tok := if t.ty = .eof then [] else [t]

theorem Cur.emitSig {t : Tok} (h : Cur s0 s (sig t ++ p) xs) (hs : (d :: bs).Sublist xs) :
    wp (Parse.emit t d) (fun _ s' => Cur s0 s' p (d :: bs)) s := by
  unfold sig at h
  by_cases ht : t.ty = .eof
  · rw [if_pos ht] at h
    intro a s' e
    unfold Parse.emit at e
    rw [if_pos ht] at e
    cases e
    exact h.sub hs
  · rw [if_neg ht] at h
    exact Cur.emit h hs

theorem Cur.emitOpt {o : Option Tok} (h : Cur s0 s (o.toList ++ p) xs) (hs : (d :: bs).Sublist xs) :
    wp (emitOpt o d) (fun _ s' => Cur s0 s' p (d :: bs)) s := by
  cases o with
  | none => exact wp_pure (h.sub hs)
  | some t => exact Cur.emit h hs

theorem Cur.adopt {ts : List (Option Tok)} (h : Cur s0 s (solid ts ++ p) xs) (hs : (d :: bs).Sublist xs) :
    wp (adopt ts d) (fun _ s' => Cur s0 s' p (d :: bs)) s := by
  intro a s' e
  unfold Parse.adopt at e
  cases e
  exact h.put hs (by simp [toks, Ev.toks]) rfl rfl

omit [Mode] in
theorem afterCls_eq {o : Id} : ∀ {L T : List Ev}, afterCls o L = some T →
    ∃ A, L = A ++ .cls o :: T ∧ Ev.cls o ∉ A
  | [], _, h => by cases h
  | x :: L, T, h => by
    rw [afterCls] at h
    by_cases hx : x = .cls o
    · rw [if_pos hx] at h
      injection h with h
      exact ⟨[], by simp [hx, h], by simp⟩
    · rw [if_neg hx] at h
      obtain ⟨A, h1, h2⟩ := afterCls_eq h
      refine ⟨x :: A, by simp [h1], ?_⟩
      simp only [List.mem_cons, not_or]
      exact ⟨fun e => hx e.symm, h2⟩

omit [Mode] in
theorem Mv.doc (h : Mv s0 s) (L : List Ev) (g : Ghost) : Mv s0 { s with L := L, gh := g } := h

/-- The check made when emitting into a document that may not be the last one. -/
theorem Cur.emitChk {t : Tok} {o : Id} (h : Cur s0 s (t :: p) xs) (ht : t.ty = .semi)
    (hs : (d :: bs).Sublist xs) :
    wp (emitChk t o d) (fun _ s' => Cur s0 s' p (d :: bs)) s := by
  intro a s' e
  unfold Parse.emitChk at e
  injection e with e
  injection e with _ e
  by_cases hc : endsIn o d s.L = true
  · have hg : ({ s.gh with misplaced := s.gh.misplaced || !endsIn o d s.L } : Ghost) = s.gh := by
      simp [hc]
    rw [hg] at e
    subst e
    rw [if_neg (by simp [ht])]
    refine h.doc (Nat.le_refl _) ?_
    intro _ wf k' _
    refine ⟨wf.ins o (Nat.le_refl _) (by simp [closes]) (by simp [closes]) (by simp [opens]), ?_⟩
    unfold endsIn at hc
    cases hT : afterCls o s.L with
    | none => rw [hT] at hc; cases hc
    | some T =>
      rw [hT] at hc
      simp only [Bool.and_eq_true, List.isEmpty_iff, List.any_eq_true, decide_eq_true_eq,
        exists_eq_right] at hc
      obtain ⟨A, h1, h2⟩ := afterCls_eq hT
      have hd : Stk s.L (d :: bs) := k'.sub hs
      obtain ⟨A', B, e1, e2, e3, e4⟩ := hd.split wf.nodup
      have hTs : ktoks (Ev.cls o :: T) = [] := ktoks_of (by rw [toks_cons, hc.1]; rfl)
      refine ⟨?_, [t], ?_, rfl⟩
      · rw [h1, ins_at h2]
        have : A ++ ([Ev.tok t] ++ Ev.cls o :: T) = (A ++ [.tok t]) ++ .cls o :: T := by simp
        rw [this]
        refine ⟨_, _, rfl, hTs, ?_⟩
        -- the close of `d` comes after the one of `o`
        obtain ⟨A2, B2, f1, f2⟩ := split_at hc.2
        have hA : Ev.cls d ∉ A ++ Ev.cls o :: A2 := by
          refine not_mem_of_nodup (T := .cls d :: B2) ?_ (by simp)
          have := wf.nodup
          rw [h1, f1] at this
          simpa using this
        have hB : B = B2 := by
          have hh : A' ++ Ev.cls d :: B = (A ++ Ev.cls o :: A2) ++ Ev.cls d :: B2 := by
            rw [← e1, h1, f1]; simp
          have := congrArg (afterCls d) hh
          have ha : ∀ (X Y : List Ev), Ev.cls d ∉ X → afterCls d (X ++ Ev.cls d :: Y) = some Y := by
            intro X Y hX
            induction X with
            | nil => simp [afterCls]
            | cons x X ih =>
              simp only [List.mem_cons, not_or] at hX
              rw [List.cons_append, afterCls, if_neg (fun e => hX.1 e.symm), ih hX.2]
          rw [ha _ _ e2, ha _ _ hA] at this
          exact Option.some.inj this
        subst hB
        rw [f1, List.map_cons]
        refine List.Sublist.cons _ ?_
        exact (e4.cons_cons _).trans (List.sublist_append_right _ _)
      · rw [h1, ins_at h2, ktoks_append, ktoks_append, ktoks_append, hTs]
        simp [ktoks, toks, Ev.toks]
  · by_cases hm : Mode.strict = true
    · subst e
      refine Cur.bad (h.mv.doc _ _) ?_ _ _
      intro o'
      have := o'.2.1.2.2 hm
      simp only [Bool.not_eq_true] at hc
      simp [hc] at this
    · subst e
      rw [if_neg (by simp [ht])]
      have he : ktoks [Ev.tok t] = [] := by simp [ktoks, toks, Ev.toks, kf, ht, hm]
      have h' : Cur s0 { s with L := ins o [.tok t] s.L } p (d :: bs) := by
        refine h.doc (Nat.le_refl _) ?_
        intro _ wf k' _
        refine ⟨wf.ins o (Nat.le_refl _) (by simp [closes]) (by simp [closes]) (by simp [opens]),
          (k'.sub hs).ins o he, [t], ?_, rfl⟩
        rw [ktoks_ins he]
        simp [kf, ht, hm]
      obtain ⟨h1, h2, c, h3, h4, h5⟩ := h'
      have ho : ∀ x, ok { s with L := ins o [.tok t] s.L, gh := { s.gh with misplaced := x } } →
          ok { s with L := ins o [.tok t] s.L } := by
        intro x ho
        exact ⟨ho.1, ⟨ho.2.1.1, ho.2.1.2.1, fun m => absurd m hm⟩, ho.2.2⟩
      exact ⟨h1, fun x => h2 (ho _ x), c, h3, h4, fun x => h5 (ho _ x)⟩

/-! ## The lexer -/

theorem Eat.step {t : Tok} {r : List Tok} (h : s.rest = t :: r) :
    Eat s { s with done := t :: s.done, rest := r } [t] := by
  refine ⟨rfl, Nat.le_refl _, ?_, [t], by simp, ?_, fun _ => Rel.refl _ _⟩
  · intro o
    exact ⟨o.1, o.2.1, fun x hx => o.2.2 x (List.mem_cons_of_mem _ hx)⟩
  · rw [h]; exact Tidy'.refl _ _

theorem eat_lexIf {f : TT → Bool} : wp (lexIf f) (fun o s' => Eat s s' o.toList) s := by
  intro o s' e
  unfold lexIf at e
  split at e
  · cases e; exact Eat.refl _
  · rename_i t r hr
    split at e
    · cases e; exact Eat.step hr
    · cases e; exact Eat.refl _

theorem Eat.err {s s' : St} (h : Eat s s' p) (q : List Tok) : Eat s { s' with err := true } q :=
  Eat.bad (s := { s' with err := true })
    (by obtain ⟨_, h1, _, c, h3, h4, _⟩ := h; exact ⟨h1, c, h3, h4⟩) h.1 (not_ok_err rfl) _

theorem eat_expect {ty : TT} : wp (expect ty) (fun o s' => Eat s s' o.toList) s := by
  intro o s' e
  unfold expect at e
  split at e
  · cases e; exact (Eat.refl s).err _
  · rename_i t r hr
    split at e
    · cases e; exact Eat.step hr
    · cases e; exact (Eat.refl s).err _

theorem eat_pop : wp pop (fun t s' => Eat s s' (sig t)) s := by
  intro o s' e
  unfold pop at e
  split at e
  · cases e
    exact Eat.refl _
  · rename_i t r hr
    cases e
    obtain ⟨h1, h2, h3, c, h4, h5, h6⟩ := Eat.step hr
    refine ⟨h1, h2, h3, c, h4, h5, fun ok' => ?_⟩
    unfold sig
    rw [if_neg]
    · exact h6 ok'
    · exact ok'.2.2 o (by simp)

theorem eat_pop' (hr : s.rest ≠ []) : wp pop (fun t s' => Eat s s' [t]) s := by
  intro o s' e
  unfold pop at e
  split at e
  · rename_i h; exact absurd h hr
  · rename_i t r hr
    cases e
    exact Eat.step hr

theorem wp_lexIf {f : TT → Bool} (h : Cur s0 s p xs) :
    wp (lexIf f) (fun o s' => Cur s0 s' (p ++ o.toList) xs) s := wp_mono eat_lexIf fun _ _ e => h.eat e

theorem wp_expect {ty : TT} (h : Cur s0 s p xs) :
    wp (expect ty) (fun o s' => Cur s0 s' (p ++ o.toList) xs) s := wp_mono eat_expect fun _ _ e => h.eat e

theorem wp_pop (h : Cur s0 s p xs) :
    wp pop (fun t s' => Cur s0 s' (p ++ sig t) xs) s := wp_mono eat_pop fun _ _ e => h.eat e

theorem Cur.expectEmit {ty : TT} (h : Cur s0 s [] xs) (hs : (d :: bs).Sublist xs) :
    wp (expectEmit ty d) (fun _ s' => Cur s0 s' [] (d :: bs)) s := by
  unfold Parse.expectEmit
  refine wp_bind (wp_expect h) fun o s' h => ?_
  cases o with
  | none => exact wp_pure (h.sub hs)
  | some t => exact Cur.emit h hs

theorem Cur.ifEmit {ty : TT} (h : Cur s0 s [] xs) (hs : (d :: bs).Sublist xs) :
    wp (ifEmit ty d) (fun _ s' => Cur s0 s' [] (d :: bs)) s := by
  unfold Parse.ifEmit
  refine wp_bind (wp_lexIf h) fun o s' h => ?_
  cases o with
  | none => exact wp_pure (h.sub hs)
  | some t => exact Cur.emit h hs

/-! ## Outcomes -/

omit [Mode] in
theorem wp_good {Q : Res → St → Prop} (h : s.err = false → Q .good s) (h' : s.err = true → Q .fail s) :
    wp parserGood Q s := by
  refine wp_read ?_
  cases he : s.err with
  | true => simpa using h' he
  | false => simpa using h he

omit [Mode] in
theorem wp_none {Q : Res → St → Prop} (h : s.err = false → Q .non s) (h' : s.err = true → Q .fail s) :
    wp parserNone Q s := by
  refine wp_read ?_
  cases he : s.err with
  | true => simpa using h' he
  | false => simpa using h he

omit [Mode] in
theorem wp_fail {Q : Res → St → Prop} (h : Q .fail { s with err := true }) : wp parserFail Q s := by
  intro a s' e
  unfold parserFail at e
  cases e
  exact h

omit [Mode] in
theorem Mv.err (h : Mv s0 s) : Mv s0 { s with err := true } := h

theorem Cur.err {p : List Tok} {xs : List Id} (h : Cur s0 s p xs) (q : List Tok) (ys : List Id) :
    Cur s0 { s with err := true } q ys := Cur.bad h.mv.err (not_ok_err rfl) _ _

/-! ## Nested uses -/

omit [Mode] in
theorem restore_rest {s s' : St} {c : List Tok} (h : s'.done = c.reverse ++ s.done) :
    (s'.done.reverse ++ s'.rest).drop s.done.length = c ++ s'.rest := by
  rw [h]
  simp

theorem Mv.restore {s s' : St} (h : Mv s s') : Eat s (restore s s') [] := by
  obtain ⟨h1, c, h2, h3⟩ := h
  refine ⟨rfl, h1, fun o => o, [], rfl, ?_, fun _ => .nil _⟩
  unfold Parse.restore
  simp only [restore_rest h2]
  exact h3

theorem eat_peeking {α : Type} {m : M α} (h : wp m (fun _ s' => Mv s s') s) :
    wp (peeking m) (fun _ s' => Eat s s' []) s := by
  intro a s' e
  unfold peeking at e
  split at e
  · cases e
  · rename_i b s1 hm
    injection e with e
    injection e with _ e
    subst e
    exact (h b s1 hm).restore

/-- The beginning of another document. -/
def rootSt (s : St) : St := { s with L := [.opn s.next .root, .cls s.next], next := s.next + 1 }

theorem inv_root : Inv (rootSt s) [s.next] := by
  intro _
  refine ⟨⟨by simp [rootSt, closes], by simp [rootSt, closes], by simp [rootSt, opens]⟩, ?_⟩
  exact ⟨[.opn s.next .root], [.cls s.next], rfl, rfl, by simp⟩

/-- A document built separately. -/
theorem eat_withRoot {α : Type} {m : Id → M α} {P : α → St → Prop}
    (h : wp (m s.next) (fun a s' => Cur (rootSt s) s' [] [s.next] ∧ P a s') (rootSt s)) :
    wp (withRoot m) (fun x s' => Eat s s' (solid x.2)) s := by
  intro x s' e
  unfold withRoot at e
  split at e
  · cases e
  · rename_i a s1 hm
    cases e
    obtain ⟨⟨h1, h2, c, h3, h4, h5⟩, _⟩ := h a s1 hm
    refine ⟨rfl, Nat.le_trans (Nat.le_succ _) h1, fun o => h2 o, c, h3, h4, fun o => ?_⟩
    obtain ⟨_, _, y, hy, t⟩ := h5 o
    have e : kf (toks s1.L) = kf y := hy
    have t : Rel (ctx s.done) c y := by simpa [rootSt] using t
    show Rel _ c (solid (items s1.L))
    rw [solid_items]
    by_cases hm : Mode.strict = true
    · rw [kf_strict hm, kf_strict hm] at e
      rw [e]
      exact t
    · rw [kf_loose hm, kf_loose hm] at e
      exact ⟨fun m => absurd m hm, Eq.trans e t.2⟩

/-! ## Removal of documents -/

omit [Mode] in
theorem cut_not_mem {c : Id} : ∀ {L : List Ev}, c ∉ opens L → cut c L = L
  | [], _ => rfl
  | .opn d k :: L, h => by
    have h1 : d ≠ c := fun e => h (by simp [opens, e])
    have h2 : c ∉ opens L := fun e => h (by simp only [opens] at e ⊢; simp [e])
    rw [cut, if_neg h1, cut_not_mem h2]
  | .cls d :: L, h => by rw [cut, cut_not_mem (L := L) h]; simp
  | .tok d :: L, h => by rw [cut, cut_not_mem (L := L) h]; simp
  | .lay d _ :: L, h => by rw [cut, cut_not_mem (L := L) h]; simp
  | .sub d :: L, h => by rw [cut, cut_not_mem (L := L) h]; simp

omit [Mode] in
theorem cut_append {c : Id} {T : List Ev} : ∀ {H : List Ev}, c ∉ opens H →
    cut c (H ++ T) = H ++ cut c T
  | [], _ => rfl
  | .opn d k :: L, h => by
    have h1 : d ≠ c := fun e => h (by simp [opens, e])
    have h2 : c ∉ opens L := fun e => h (by simp only [opens] at e ⊢; simp [e])
    rw [List.cons_append, cut, if_neg h1, cut_append h2, List.cons_append]
  | .cls d :: L, h => by rw [List.cons_append, cut, cut_append (H := L) h, List.cons_append]; simp
  | .tok d :: L, h => by rw [List.cons_append, cut, cut_append (H := L) h, List.cons_append]; simp
  | .lay d _ :: L, h => by rw [List.cons_append, cut, cut_append (H := L) h, List.cons_append]; simp
  | .sub d :: L, h => by rw [List.cons_append, cut, cut_append (H := L) h, List.cons_append]; simp

omit [Mode] in
theorem afterCls_at {d : Id} {Y : List Ev} : ∀ {X : List Ev}, Ev.cls d ∉ X →
    afterCls d (X ++ Ev.cls d :: Y) = some Y
  | [], _ => by simp [afterCls]
  | x :: X, hX => by
    simp only [List.mem_cons, not_or] at hX
    rw [List.cons_append, afterCls, if_neg (fun e => hX.1 e.symm), afterCls_at hX.2]

omit [Mode] in
/-- Removing a new document leaves what was there before. -/
theorem cut_ins {c d : Id} {k : DK} {X L : List Ev} (ho : c ∉ opens L) (hX : Ev.cls c ∉ X) :
    cut c (ins d (.opn c k :: X ++ [.cls c]) L) = L := by
  by_cases hd : Ev.cls d ∈ L
  · obtain ⟨A, B, h1, h2⟩ := split_at hd
    subst h1
    rw [opens_append, List.mem_append, not_or] at ho
    rw [ins_at h2, cut_append ho.1]
    congr 1
    have : Ev.opn c k :: X ++ [.cls c] ++ .cls d :: B = .opn c k :: (X ++ .cls c :: .cls d :: B) := by
      simp
    rw [this, cut, if_pos rfl, afterCls_at hX]
  · rw [ins_not_mem hd, cut_not_mem ho]

omit [Mode] in
/-- Adding to a new document. -/
theorem ins_ins {c d : Id} {E P Q L : List Ev} (hc : Ev.cls c ∉ L) (hP : Ev.cls c ∉ P) :
    ins c E (ins d (P ++ .cls c :: Q) L) = ins d (P ++ E ++ .cls c :: Q) L := by
  by_cases hd : Ev.cls d ∈ L
  · obtain ⟨A, B, h1, h2⟩ := split_at hd
    subst h1
    simp only [List.mem_append, not_or] at hc
    have hAP : Ev.cls c ∉ A ++ P := by simp [hc.1, hP]
    rw [ins_at h2, ins_at h2]
    have e1 : A ++ (P ++ Ev.cls c :: Q ++ Ev.cls d :: B) =
        (A ++ P) ++ Ev.cls c :: (Q ++ Ev.cls d :: B) := by simp
    rw [e1, ins_at hAP]
    simp
  · rw [ins_not_mem hd, ins_not_mem hd, ins_not_mem hc]

omit [Mode] in
theorem cut_sublist {c : Id} : ∀ {L : List Ev}, (cut c L).Sublist L
  | [] => .slnil
  | .opn d k :: L => by
    rw [cut]
    split
    · split
      · exact List.Sublist.refl _
      · rename_i l hl
        obtain ⟨A, h, _⟩ := afterCls_eq hl
        rw [h]
        refine List.Sublist.cons _ ?_
        exact (List.sublist_cons_self _ _).trans (List.sublist_append_right _ _)
    · exact cut_sublist.cons_cons _
  | .cls d :: L => by rw [cut]; exact cut_sublist.cons_cons _; simp
  | .tok d :: L => by rw [cut]; exact cut_sublist.cons_cons _; simp
  | .lay d _ :: L => by rw [cut]; exact cut_sublist.cons_cons _; simp
  | .sub d :: L => by rw [cut]; exact cut_sublist.cons_cons _; simp

omit [Mode] in
theorem untilCls_at {d : Id} {Y : List Ev} : ∀ {X : List Ev}, Ev.cls d ∉ X →
    untilCls d (X ++ Ev.cls d :: Y) = X
  | [], _ => by simp [untilCls]
  | x :: X, hX => by
    simp only [List.mem_cons, not_or] at hX
    rw [List.cons_append, untilCls, if_neg (fun e => hX.1 e.symm), untilCls_at hX.2]

omit [Mode] in
/-- How removal works: either nothing is removed or everything from the opening to the close. -/
theorem cut_cases {c : Id} : ∀ (L : List Ev), cut c L = L ∨
    ∃ A k B C, L = A ++ .opn c k :: (B ++ .cls c :: C) ∧ Ev.cls c ∉ B ∧ cut c L = A ++ C ∧
      inside c L = B
  | [] => .inl rfl
  | .opn d k :: L => by
    by_cases hd : d = c
    · subst hd
      rw [cut, if_pos rfl, inside, if_pos rfl]
      cases h : afterCls d L with
      | none => exact .inl rfl
      | some l =>
        obtain ⟨A, h1, h2⟩ := afterCls_eq h
        subst h1
        exact .inr ⟨[], k, A, l, rfl, h2, rfl, untilCls_at h2⟩
    · rw [cut, if_neg hd, inside, if_neg hd]
      rcases cut_cases L with h | ⟨A, k', B, C, h1, h2, h3, h4⟩
      · exact .inl (by rw [h])
      · exact .inr ⟨.opn d k :: A, k', B, C, by simp [h1], h2, by simp [h3], h4⟩
  | .cls d :: L => by
    rw [cut, inside]
    · rcases cut_cases L with h | ⟨A, k', B, C, h1, h2, h3, h4⟩
      · exact .inl (by rw [h])
      · exact .inr ⟨.cls d :: A, k', B, C, by simp [h1], h2, by simp [h3], h4⟩
    all_goals simp
  | .tok d :: L => by
    rw [cut, inside]
    · rcases cut_cases L with h | ⟨A, k', B, C, h1, h2, h3, h4⟩
      · exact .inl (by rw [h])
      · exact .inr ⟨.tok d :: A, k', B, C, by simp [h1], h2, by simp [h3], h4⟩
    all_goals simp
  | .lay d k :: L => by
    rw [cut, inside]
    · rcases cut_cases L with h | ⟨A, k', B, C, h1, h2, h3, h4⟩
      · exact .inl (by rw [h])
      · exact .inr ⟨.lay d k :: A, k', B, C, by simp [h1], h2, by simp [h3], h4⟩
    all_goals simp
  | .sub d :: L => by
    rw [cut, inside]
    · rcases cut_cases L with h | ⟨A, k', B, C, h1, h2, h3, h4⟩
      · exact .inl (by rw [h])
      · exact .inr ⟨.sub d :: A, k', B, C, by simp [h1], h2, by simp [h3], h4⟩
    all_goals simp

/-- The check made when removing a document. -/
theorem Cur.rmDocChk {c : Id} (h : Cur s0 s p xs) (hs : (c :: bs).Sublist xs) :
    wp (rmDocChk c) (fun _ s' => Cur s0 s' p bs) s := by
  intro a s' e
  unfold Parse.rmDocChk at e
  injection e with e
  injection e with _ e
  by_cases hc : cnt c s.L = 0
  · have hg : ({ s.gh with lost := s.gh.lost || decide (cnt c s.L ≠ 0) } : Ghost) = s.gh := by
      simp [hc]
    rw [hg] at e
    subst e
    refine h.doc (Nat.le_refl _) ?_
    intro _ wf k' _
    refine ⟨wf.of_sublist cut_sublist, ?_⟩
    have k2 := k'.sub hs
    rcases cut_cases (c := c) s.L with h1 | ⟨A, k, B, C, h1, h2, h3, h4⟩
    · rw [h1]
      exact ⟨k2.sub (List.sublist_cons_self _ _), [], by simp, rfl⟩
    · have hB : toks B = [] := by
        unfold cnt at hc
        rw [h4] at hc
        exact List.eq_nil_of_length_eq_zero hc
      rw [h3]
      obtain ⟨A', B', e1, e2, e3, e4⟩ := k2.split wf.nodup
      have hn : Ev.cls c ∉ A ++ .opn c k :: B := by
        refine not_mem_of_nodup (T := .cls c :: C) ?_ (by simp)
        have := wf.nodup
        rw [h1] at this
        simpa using this
      have hC : C = B' := by
        have hh : A' ++ Ev.cls c :: B' = (A ++ Ev.opn c k :: B) ++ Ev.cls c :: C := by
          rw [← e1, h1]; simp
        have := congrArg (afterCls c) hh
        rw [afterCls_at e2, afterCls_at hn] at this
        exact (Option.some.inj this).symm
      subst hC
      refine ⟨⟨A, C, rfl, e3, e4⟩, [], ?_, rfl⟩
      rw [h1, ktoks_append, ktoks_append, ktoks_cons, ktoks_append, ktoks_cons, ktoks_of hB]
      simp [Ev.toks]
  · subst e
    refine Cur.bad (h.mv.doc _ _) ?_ _ _
    intro o'
    have := o'.2.1.2.1
    simp [hc] at this

end Knfmt.Parse
