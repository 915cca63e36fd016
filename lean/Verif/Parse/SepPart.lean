import Verif.Parse.SepDoc
/-!
# The parser: white space between tokens, parts of declarations and statements
-/
namespace Knfmt.Parse.Sep
open Knfmt.Lexer (TT)
open Knfmt.Parse.Spec (near loose opHead opNexts)

attribute [local instance] strictM

variable {G : Prop} {s s' : St} {xs ys bs : List Id} {d : Id} {F F' : Nx} {α β : Type}
  {Q : β → St → Prop} {X : Cx}

theorem wp_peekv {k : Tok → M β} (h : wp (k (nxt s)) Q s) : wp (peek >>= k) Q s := wp_readv h
theorem wp_peekIfv {ty : TT} {k : Bool → M β} (h : wp (k (decide ((nxt s).ty = ty))) Q s) :
    wp (peekIf ty >>= k) Q s := wp_readv h
theorem wp_backv {k : Option Tok → M β} (h : wp (k s.done.head?) Q s) : wp (back >>= k) Q s := wp_readv h

/-- The end of a function. -/
theorem end_good {P : Res → St → Prop} (h : P .good s) (h' : s.err = true → P .fail s) :
    wp parserGood P s := wp_good (fun _ => h) h'

theorem end_none {P : Res → St → Prop} (h : P .non s) (h' : s.err = true → P .fail s) :
    wp parserNone P s := wp_none (fun _ => h) h'

/-! ## parser.c -/

theorem sep_semi (d : Id) : SBr (parserSemi d) d := by
  intro G s xs bs F h hs
  unfold parserSemi
  refine g_xp h (fun s e => wp_fail (D.err rfl)) fun semi s h ht _ _ => ?_
  dsimp only
  refine wp_bind (P := fun l s' => D G s' xs F ∧ l.ty = .semi) ?_ fun l s h => ?_
  · intro l s' e
    dsimp only at e
    split at e
    · cases e; exact ⟨h, ht⟩
    · rename_i t ts r hr
      obtain ⟨h1, h2⟩ := semisOn_eq hr
      injection e with e
      injection e with e1 e
      rw [e1] at e
      subst e
      refine ⟨h.kp ⟨rfl, Nat.le_refl _, fun o => ⟨o.1, o.2.1, fun x hx => o.2.2 x (List.mem_cons_of_mem _ hx)⟩⟩, ?_⟩
      rw [← e1]
      exact h2 _ (List.getLast_mem _)
  · refine wp_bind (h.1.emitC hs fun _ => cl_of h.2 rfl) fun _ s h => ?_
    exact end_good h.1 fun _ => h.1

/-! ## parser-attributes.c -/

/-- What attributes do. -/
def At3 (G : Prop) (s s' : St) (d : Id) (bs : List Id) (F : Nx) (x : Res × Option Id) : Prop :=
  (s'.err = true) ∨
  (x.2 = none ∧ x.1 ≠ .fail ∧ D G s' (d :: bs) F ∧ s'.rest = s.rest ∧ s'.done = s.done) ∨
  (∃ o ys, x = (.good, some o) ∧ D G s' (o :: ys) all ∧ (d :: bs).Sublist ys)

theorem sep_attributes (hS : RecSep X.R) {line func : Bool} (h : D G s xs F)
    (hs : (d :: bs).Sublist xs) (hF : G → line = true ∨ (F .attribute = true ∧ F .ident = true)) :
    wp (attributes X d line func) (fun x s' => At3 G s s' d bs F x ∧ (x.1 = .fail → s'.err = true)) s := by
  unfold attributes
  refine wp_any fun q => ?_
  split
  · refine wp_nn (fun e => wp_pure ?_) fun e => wp_pure ?_
    · exact ⟨.inr (.inl ⟨rfl, by simp, h.sub hs, rfl, rfl⟩), by simp⟩
    · exact ⟨.inl e, fun _ => e⟩
  · rename_i fin _
    refine wp_bind (g_allocIn h hs) fun opt s1 ⟨h, hr0, hd0⟩ => ?_
    refine wp_loop (fun v s' => (v.2 = none ∧ v.1 = 0 ∧ D G s' (opt :: d :: bs) F ∧
        s'.rest = s.rest ∧ s'.done = s.done) ∨
      (s'.err = true) ∨ (v.1 > 0 ∧ ∃ o ys, v.2 = some o ∧ D G s' (o :: ys) all ∧ (opt :: d :: bs).Sublist ys))
      ?_ _ _ _ (.inl ⟨rfl, rfl, h, hr0, hd0⟩)
    intro v s2 hv
    have hx : ∃ xs F', D G s2 xs F' ∧ (opt :: d :: bs).Sublist xs ∧
        (G → (line || decide (v.1 > 0)) = true ∨ F' .attribute = true ∧ F' .ident = true) := by
      rcases hv with ⟨_, _, h, _⟩ | e | ⟨hv, o, ys, _, h, hy⟩
      · refine ⟨_, F, h, List.Sublist.refl _, fun g => ?_⟩
        rcases hF g with e | e
        · left; simp [e]
        · exact .inr e
      · exact ⟨_, all, D.err e, List.Sublist.refl _, fun _ => .inr ⟨rfl, rfl⟩⟩
      · exact ⟨_, all, h, hy.cons _, fun _ => .inr ⟨rfl, rfl⟩⟩
    have hfl : ∀ {s : St} {r : Res × Option Id}, s.err = true → At3 G s1 s d bs F r ∧ (r.1 = .fail → s.err = true) :=
      fun e => ⟨.inl e, fun _ => e⟩
    obtain ⟨zs, F2, h, hz, hF2⟩ := hx
    unfold attrRound
    refine g_li h (fun _ => ?_) fun t s h ht _ _ => ?_
    · refine wp_gd (fun _ => wp_inr ?_) fun e => wp_inr ⟨.inl e, fun _ => e⟩
      rcases hv with ⟨e1, _, h, h1, h2⟩ | e | ⟨hv, o, ys, e1, h, hy⟩
      · exact ⟨.inr (.inl ⟨e1, by simp, h.sub (by sub), h1, h2⟩), by simp⟩
      · exact ⟨.inl e, fun _ => e⟩
      · refine ⟨.inr (.inr ⟨o, ys, by rw [e1], h, ?_⟩), by simp⟩
        exact (List.sublist_cons_self _ _).trans hy
    · dsimp only
      refine wp_q fun b => ?_
      refine wp_bind (P := fun _ s => ∃ F3, D G s (opt :: d :: bs) F3 ∧ (G → F3 t.ty = true)) ?_ fun _ s ⟨F3, h, hF3⟩ => ?_
      · refine wp_when (fun _ => wp_mono (g_layIf h (by wh) (by wh) hz) fun _ _ h => ⟨_, h.1, fun _ => rfl⟩)
          fun e => ⟨F2, h.sub hz, fun g => ?_⟩
        rcases hF2 g with e' | ⟨e1, e2⟩
        · rw [e'] at e; cases e
        · simp only [Bool.or_eq_true, decide_eq_true_eq] at ht
          rcases ht with e | e <;> rw [e] <;> assumption
      refine wp_bind (g_allocIn h (List.Sublist.refl _)) fun c s ⟨h, _⟩ => ?_
      refine wp_bind (h.emit (List.Sublist.refl _) fun g => .inl (hF3 g)) fun _ s ⟨h, _⟩ => ?_
      st
      refine g_ex hS h (List.Sublist.refl _) (fun o s ys h hy => ?_) (fun s h _ => ?_) fun o s e => ?_
      · dsimp only
        refine wp_bind (P := fun rp s => D G s (o :: ys) nope ∧ (∃ k, rp = some k ∧ cl k.ty = true ∨ s.err = true)) ?_
          fun rp s ⟨h, k, hk⟩ => ?_
        · refine wp_mono (expect_cases _ s) fun rp s' hc => ?_
          rcases hc with ⟨_, e⟩ | ⟨t, e1, e2, e3, _⟩
          · exact ⟨D.err e, eofTok, .inr e⟩
          · exact ⟨h.kp e2, t, .inl ⟨e1, cl_of e3 rfl⟩⟩
        refine wp_bind (P := fun _ s => D G s (o :: ys) all) ?_ fun _ s h => ?_
        · rcases hk with ⟨e1, e2⟩ | e
          · exact wp_mono (g_emitO h (List.Sublist.refl _) fun _ => ⟨k, e1, e2⟩) fun _ _ h => h.1
          · exact wp_mono (g_emitOpt (F := all) (xs := o :: ys) (G := False) (D.err e) (List.Sublist.refl _) fun g => g.elim)
              fun _ _ h => h.1.fact fun _ g => g.elim
        refine wp_bind (P := fun rp2 s => D G s (o :: ys) all ∧ ∀ k, rp2 = some k → cl k.ty = true) ?_ fun rp2 s ⟨h, hk⟩ => ?_
        · refine wp_mono (lexIf_cases _ s) fun rp s' hc => ?_
          rcases hc with ⟨e1, e2, _⟩ | ⟨t, e1, e2, e3, _⟩
          · subst e2; exact ⟨h, fun k e => by rw [e1] at e; cases e⟩
          · refine ⟨h.kp e2, fun k e => ?_⟩
            rw [e1] at e
            cases e
            exact cl_of (b := .rparen) (by simpa [is] using e3) rfl
        refine wp_bind (g_emitOpt h (List.Sublist.refl _) fun _ => hk) fun _ s ⟨h, _⟩ => ?_
        split
        · refine wp_gd (fun _ => wp_inr ?_) fun e => wp_inr ⟨.inl e, fun _ => e⟩
          exact ⟨.inr (.inr ⟨o, ys, rfl, h, by sub⟩), by simp⟩
        · exact wp_inl (.inr (.inr ⟨by simp, o, ys, rfl, h, by sub⟩))
      · exact wp_fl (wp_inr ⟨.inl rfl, fun _ => rfl⟩)
      · exact wp_fl (wp_inr ⟨.inl rfl, fun _ => rfl⟩)

/-! ## parser-func.c, arguments -/

theorem g_layOn {s0 : St} {x : Res × Option Id} (h : At3 G s0 s d bs F x) (hF : ∀ b, F b = true) :
    wp (layOn x) (fun _ s' => D G s' (d :: bs) all) s := by
  unfold layOn
  rcases h with e | ⟨e1, _, h, _⟩ | ⟨o, ys, rfl, h, hy⟩
  · split
    · exact wp_mono (g_layk (xs := d :: bs) (G := G) (F := all) (D.err e)) fun _ _ h => h.1
    · exact wp_pure (D.err e)
  · obtain ⟨r, o⟩ := x
    cases e1
    have h := h.mono (F' := all) fun b _ => hF b
    cases r <;> exact wp_pure h
  · exact wp_mono (g_lay_ h (by wh) (List.Sublist.refl _)) fun _ _ h => h.1.sub (hy.cons _)

theorem sep_funcArgRound (hS : RecSep X.R) {rp : Nat} {c : Id} (v : Option Tok) (h : D G s (c :: bs) F)
    (hF : v = none → (nxt s).ty = .ident → F .ident = true) :
    wp (funcArgRound X rp c v) (fun r s' =>
      (∀ a' : Option Tok, r = .inl a' → ∃ F, D G s' (c :: bs) F ∧ (a' = none → (nxt s').ty = .ident → F .ident = true)) ∧
      (∀ b : Res, r = .inr b → D G s' (c :: bs) nope)) s := by
  unfold funcArgRound
  refine wp_peek fun nx => ?_
  split
  · exact wp_fl (wp_inr (D.err rfl))
  · refine wp_bind (sep_attributes hS h (List.Sublist.refl _) fun _ => .inl rfl) fun x s1 ⟨hx, hf⟩ => ?_
    split
    · exact wp_fl (wp_inr (D.err rfl))
    · have hx : ∃ F, D G s1 (c :: bs) F ∧ (v = none → (nxt s1).ty = .ident → F .ident = true) := by
        rcases hx with e | ⟨_, _, h, e, _⟩ | ⟨o, ys, _, h, hy⟩
        · exact ⟨all, D.err e, fun _ _ => rfl⟩
        · exact ⟨F, h, by unfold nxt; rw [e]; exact hF⟩
        · exact ⟨all, h.sub (hy.cons _), fun _ _ => rfl⟩
      clear h hF hf
      obtain ⟨F, h, hF⟩ := hx
      refine g_li h (fun _ => ?_) fun t s h ht _ _ => ?_
      · dsimp only
        refine wp_peek fun _ => ?_
        split
        · exact wp_gd (fun _ => wp_inr h.no) fun _ => wp_inr h.no
        · refine g_po h fun t s h ht _ => ?_
          refine wp_bind (P := fun _ s => D G s (c :: bs) F) ?_ fun _ s h => ?_
          · exact wp_when (fun _ => wp_mono (g_lay_ h (by wh) (List.Sublist.refl _)) fun _ _ h => h.1.mono fun _ _ => rfl)
              fun _ => h
          refine wp_bind (P := fun _ s => ∃ F, D G s (c :: bs) F ∧ F t.ty = true) ?_ fun _ s ⟨F, h, hF⟩ => ?_
          · refine wp_when (fun _ => wp_mono (g_glue h (List.Sublist.refl _)) fun _ _ h => ⟨_, h.1, by simp⟩) fun e => ?_
            simp only [Bool.or_eq_false_iff, decide_eq_false_iff_not, ne_eq, Decidable.not_not, Option.isSome_eq_false_iff,
              Option.isNone_iff_eq_none] at e
            exact ⟨F, h, by rw [e.2]; exact hF e.1 (by rw [← ht]; exact e.2)⟩
          refine wp_bind (h.emit (List.Sublist.refl _) fun _ => .inl hF) fun _ s ⟨h, _⟩ => ?_
          exact wp_inl ⟨_, h, by simp⟩
      · dsimp only
        have ht : t.ty = .comma := by simpa [is] using ht
        refine wp_bind (h.emitC (List.Sublist.refl _) fun _ => cl_of ht rfl) fun _ s ⟨h, _⟩ => ?_
        st
        exact wp_gd (fun _ => wp_inr h.no) fun _ => wp_inr h.no

theorem sep_funcArg (hS : RecSep X.R) {rp : Nat} (h : D G s xs F) (hs : (d :: bs).Sublist xs) :
    wp (funcArg X d rp) (fun x s' => s'.err = true ∨ (x = (.non, none) ∧ s' = s) ∨
      ∃ o ys, x.2 = some o ∧ D G s' (o :: ys) nope ∧ (d :: bs).Sublist ys) s := by
  unfold funcArg
  refine wp_any fun ti => ?_
  split
  · exact wp_nn (fun _ => wp_pure (.inr (.inl ⟨rfl, rfl⟩))) fun e => wp_pure (.inl e)
  · rename_i ti
    st
    refine wp_bind (sep_attributes hS h (List.Sublist.refl _) fun _ => .inr ⟨rfl, rfl⟩) fun x s1 ⟨hx, hf⟩ => ?_
    refine wp_bind (g_layOn hx fun _ => rfl) fun _ s h => ?_
    refine wp_bind (hS.type _ _ _ _ _ _ h (List.Sublist.refl _)) fun r s ⟨h, _⟩ => ?_
    split
    · exact wp_fl (wp_pure (.inl rfl))
    · refine wp_bind (g_allocIn h (List.Sublist.refl _)) fun c s ⟨h, _⟩ => ?_
      refine wp_peekIfv (wp_peekIfv (wp_peekIfv ?_))
      have h1 := h
      generalize hc : (decide (ti.fin.ty ≠ .star) && !decide ((nxt s).ty = .comma) && !decide ((nxt s).ty = .rparen) &&
        !decide ((nxt s).ty = .attribute)) = cnd
      have hn : (nxt s).ty = .ident → cnd = true ∨ ti.fin.ty = .star := by
        intro e
        rw [← hc, e]
        by_cases e : ti.fin.ty = .star
        · exact .inr e
        · left; simp [e]
      generalize hbs : _ :: _ :: d :: bs = bs' at h
      have hb' : (d :: bs).Sublist bs' := by rw [← hbs]; sub
      refine wp_bind (P := fun _ s' => D G s' (c :: bs') nope ∧ s'.rest = s.rest ∧ (cnd = true → D G s' (c :: bs') all)) ?_
        fun _ s2 ⟨h, hr, h2⟩ => ?_
      · exact wp_when (fun _ => wp_mono (g_lay_ h (by wh) (List.Sublist.refl _)) fun _ _ h => ⟨h.1.no, h.2.1, fun _ => h.1⟩)
          fun e => ⟨h.no, rfl, fun e' => by rw [e] at e'; cases e'⟩
      refine wp_peekv ?_
      refine wp_bind (P := fun _ s' => s'.rest = s.rest ∧ ∃ F, D G s' (c :: bs') F ∧ ((nxt s').ty = .ident → F .ident = true)) ?_
        fun _ s3 ⟨hr3, F, h, h3⟩ => ?_
      · have hx : nxt s2 = nxt s := by unfold nxt; rw [hr]
        refine wp_when (fun e => wp_mono (g_glue h (List.Sublist.refl _)) fun _ s3 h => ?_) fun e => ?_
        · refine ⟨h.2.1.trans hr, _, h.1, fun e => ?_⟩
          have : nxt s3 = nxt s2 := by unfold nxt; rw [h.2.1]
          simp [← this, e]
        · simp only [decide_eq_false_iff_not] at e
          refine ⟨hr, ?_⟩
          by_cases hc : cnd = true
          · exact ⟨all, h2 hc, fun _ => rfl⟩
          · refine ⟨nope, h, fun e' => ?_⟩
            rw [hx] at e'
            rcases hn e' with h' | h'
            · exact absurd h' hc
            · exact absurd h' e
      refine wp_bind (P := fun _ s => D G s (c :: bs') nope) (wp_loop (fun v s =>
        ∃ F, D G s (c :: bs') F ∧ (v = none → (nxt s).ty = .ident → F .ident = true))
        (fun v s ⟨F, h, hF⟩ => sep_funcArgRound hS v h hF) _ _ _ ⟨F, h, fun _ => h3⟩) fun r s h => ?_
      exact wp_pure (.inr (.inr ⟨c, bs', rfl, h, hb'⟩))

theorem sep_funcArgs (hS : RecSep X.R) {rp : Nat} (h : D G s xs F) (hs : (d :: bs).Sublist xs) :
    wp (funcArgs X d rp) (fun o s' => s'.err = true ∨ (o = none ∧ s' = s) ∨
      ∃ c ys, o = some c ∧ D G s' (c :: ys) nope ∧ (d :: bs).Sublist ys) s := by
  unfold funcArgs
  refine wp_loop (fun o s' => s'.err = true ∨ (o = none ∧ s' = s) ∨
      ∃ c ys, o = some c ∧ D G s' (c :: ys) nope ∧ (d :: bs).Sublist ys) ?_ _ _ _ (.inr (.inl ⟨rfl, rfl⟩))
  intro o s1 ho
  have hx : ∃ F, D G s1 (d :: bs) F := by
    rcases ho with e | ⟨_, rfl⟩ | ⟨c, ys, _, h, hy⟩
    · exact ⟨all, D.err e⟩
    · exact ⟨_, h.sub hs⟩
    · exact ⟨_, h.sub (hy.cons _)⟩
  obtain ⟨F', h'⟩ := hx
  refine wp_bind (sep_funcArg hS h' (List.Sublist.refl _)) fun x s2 hx => ?_
  obtain ⟨r, o'⟩ := x
  rcases hx with e | ⟨e, rfl⟩ | ⟨c, ys, e, h2, hy⟩
  · cases r
    · exact wp_inl (.inl e)
    · exact wp_inr (.inl e)
    · exact wp_inr (.inl e)
  · cases e
    exact wp_inr ho
  · cases e
    cases r
    · exact wp_inl (.inr (.inr ⟨c, ys, rfl, h2, hy⟩))
    · exact wp_inr (.inr (.inr ⟨c, ys, rfl, h2, hy⟩))
    · exact wp_inr (.inr (.inr ⟨c, ys, rfl, h2, hy⟩))

/-! ## parser-type.c -/

theorem sep_type (hS : RecSep X.R) (d : Id) (ti : TI) : STy (typeF X d ti) d ti := by
  intro G s0 xs bs h hs
  unfold typeF
  refine wp_loop (fun _ s => ∃ F, D G s (d :: bs) F ∧ (F (nxt s).ty = true ∨ cl (nxt s).ty = true)) ?_ _ _ _
    ⟨all, h.sub hs, .inl rfl⟩
  intro _ s ⟨F, h, hF⟩
  clear hs
  have kal : ∀ {r : Res} {s : St}, D G s (d :: bs) all → D G s (d :: bs) nope ∧
    (r = .good → ti.ruled = true → (nxt s).ty ≠ .semi → D G s (d :: bs) (af .star)) :=
    fun h => ⟨h.no, fun _ _ _ => h.mono fun _ _ => rfl⟩
  have ker : ∀ {r : Res} {s : St}, s.err = true → D G s (d :: bs) nope ∧
    (r = .good → ti.ruled = true → (nxt s).ty ≠ .semi → D G s (d :: bs) (af .star)) :=
    fun e => kal (D.err e)
  unfold typeRoundM
  refine g_po h fun t s1 h ht _ => ?_
  rw [← ht] at hF
  split
  · refine wp_bind (h.emit (List.Sublist.refl _) fun _ => hF) fun _ s ⟨h, _⟩ => ?_
    refine wp_bind (g_indentIn h (List.Sublist.refl _)) fun i s ⟨h, _⟩ => ?_
    refine wp_bind (sep_funcArgs hS h (List.Sublist.refl _)) fun o s' h' => ?_
    have h : D G s' (d :: bs) nope := by
      rcases h' with e | ⟨_, rfl⟩ | ⟨c, ys, _, h, hy⟩
      · exact D.err e
      · exact (h.sub (by sub)).no
      · exact h.sub (by sub)
    st
    exact wp_gd (fun _ => wp_inr (kal h)) fun e => wp_inr (kal h)
  · refine wp_bind (g_allocIn h (List.Sublist.refl _)) fun c s ⟨h, _⟩ => ?_
    refine wp_bind (h.emit (List.Sublist.refl _) fun _ => hF) fun _ s ⟨h, _⟩ => ?_
    refine wp_jp (P := fun x s => s.err = true ∨ (x.1 ≠ .good ∧ D G s (d :: bs) nope) ∨
        ∃ o ys F, x = (.good, some o) ∧ D G s (o :: ys) F ∧ (d :: bs).Sublist ys ∧ (t.ty ≠ .lparen → F = af t.ty))
      (fun e => ?_) (fun e => wp_pure (.inr (.inr ⟨c, _, _, rfl, h, List.Sublist.refl _, fun _ => rfl⟩))) fun x s hx => ?_
    · have h := h.cl (by rw [e]; rfl)
      refine wp_mono (hS.expr _ _ _ _ _ h (List.Sublist.refl _)) fun x s' hx => ?_
      rcases hx with ⟨o, ys, e1, h1, h2⟩ | ⟨e1, k⟩ | ⟨_, e1⟩
      · exact .inr (.inr ⟨o, ys, nope, e1, h1, by sub, fun e' => absurd e e'⟩)
      · exact .inr (.inl ⟨by rw [e1]; simp, ((h.kp k).sub (by sub)).no⟩)
      · exact .inl e1
    · have bad : ∀ {r : Res}, (s.err = true ∨ (r ≠ .good ∧ D G s (d :: bs) nope)) →
          D G s (d :: bs) nope ∧
          (r = .good → ti.ruled = true → (nxt s).ty ≠ .semi → D G s (d :: bs) (af .star)) := by
        intro r hb
        rcases hb with e | ⟨e, h⟩
        · exact ker e
        · exact ⟨h, fun e' => absurd e' e⟩
      obtain ⟨r, o⟩ := x
      have hx' : o = none ∨ r ≠ .good → s.err = true ∨ (r ≠ .good ∧ D G s (d :: bs) nope) := by
        intro e0
        rcases hx with e | h | ⟨o', ys, F, e, h, hy, hF⟩
        · exact .inl e
        · exact .inr h
        · cases e
          rcases e0 with e0 | e0
          · cases e0
          · exact absurd rfl e0
      cases o with
      | none => cases r <;> exact wp_inr (bad (hx' (.inl rfl)))
      | some o =>
        cases r with
        | non => exact wp_inr (bad (hx' (.inr (by simp))))
        | fail => exact wp_inr (bad (hx' (.inr (by simp))))
        | good =>
          have hx : ∃ ys F, D G s (o :: ys) F ∧ (d :: bs).Sublist ys ∧ (t.ty ≠ .lparen → F = af t.ty) := by
            rcases hx with e | h | ⟨o', ys, F, e, h, hy, hF⟩
            · exact ⟨d :: bs, af t.ty, D.err e, List.Sublist.refl _, fun _ => rfl⟩
            · exact absurd rfl h.1
            · cases e
              exact ⟨ys, F, h, hy, hF⟩
          clear h hF hx' bad
          obtain ⟨ys, F, h, hy, hF⟩ := hx
          refine wp_any fun b => ?_
          dsimp only
          have ht' : t.ty ≠ .lparen → (if t.ty = .lparen then b.getD eofTok else t) = t := fun e => if_neg e
          generalize (if t.ty = .lparen then b.getD eofTok else t) = t' at ht' ⊢
          refine wp_q fun al => wp_readv (wp_q fun br => ?_)
          have hta : ti.ruled = true → (ti.ruled && (al || typeAlign ti t' s)) = false → typeAlign ti t' s = false := by
            intro e1 e2
            rw [e1] at e2
            simp at e2
            exact e2.2
          generalize (ti.ruled && (al || typeAlign ti t' s)) = al at hta ⊢
          refine wp_bind (P := fun _ s' => D G s' (o :: ys) F ∧ s'.rest = s.rest ∧ (al = true → D G s' (o :: ys) all)) ?_
            fun _ s1 ⟨h, hr, h1⟩ => ?_
          · exact wp_when (fun _ => wp_mono (g_layIf h (by wh) (by wh) (List.Sublist.refl _)) fun _ _ h => ⟨h.1.mono fun _ _ => rfl, h.2.1, fun _ => h.1⟩)
              fun e => ⟨h, rfl, fun e' => by rw [e] at e'; cases e'⟩
          have hx : nxt s1 = nxt s := by unfold nxt; rw [hr]
          refine wp_ite (fun hid => ?_) fun hid => ?_
          · refine wp_bind (P := fun _ s' => D G s' (o :: ys) nope ∧
              (ti.ruled = true → (nxt s').ty ≠ .semi → D G s' (o :: ys) (af .star))) ?_ fun _ s2 ⟨h, h2⟩ => ?_
            · refine wp_when (fun e => wp_mono (g_free h (List.Sublist.refl _)) fun _ s3 h => ?_) fun e => ?_
              · exact ⟨h.1.no, fun _ _ => h.1.mono fun _ _ => rfl⟩
              · refine ⟨h.no, fun e1 e2 => ?_⟩
                cases hal : al with
                | true => exact (h1 hal).mono fun _ _ => rfl
                | false =>
                  rw [hal] at e
                  have e : t.ty ≠ .lparen := by simpa using e
                  rw [hF e] at h
                  rw [ht' e] at hid hta
                  have := hta e1 hal
                  unfold typeAlign at this
                  rw [hx] at e2
                  simp only [hid, e2, ne_eq, not_false_eq_true, decide_true, Bool.true_and, Bool.and_true, Bool.and_eq_false_iff,
                    decide_eq_false_iff_not, Decidable.not_not] at this
                  rcases this with (e | e) | e
                  · rw [e] at h; exact h
                  · rw [e] at h; exact (h.cl rfl).mono fun _ _ => rfl
                  · rw [e] at h; exact (h.cl rfl).mono fun _ _ => rfl
            · exact wp_gd (fun _ => wp_inr ⟨h.sub (by sub), fun _ a b => (h2 a b).sub (by sub)⟩)
                fun e => wp_inr (ker e)
          · refine wp_readv ?_
            refine wp_bind (P := fun _ s' => D G s' (o :: ys) F ∧ s'.rest = s.rest ∧
              ((al || typeLine t' s1) = true → D G s' (o :: ys) all)) ?_ fun _ s2 ⟨h, hr2, h2⟩ => ?_
            · refine wp_when (fun _ => wp_mono (g_lay_ h (by wh) (List.Sublist.refl _)) fun _ _ h =>
                ⟨h.1.mono fun _ _ => rfl, h.2.1.trans hr, fun _ => h.1⟩) fun e => ⟨h, hr, fun e' => ?_⟩
              cases hal : al with
              | true => exact h1 hal
              | false => rw [hal] at e e'; simp at e e'; rw [e] at e'; cases e'
            have hx2 : nxt s2 = nxt s := by unfold nxt; rw [hr2]
            refine wp_peekv ?_
            refine wp_bind (P := fun _ s' => ∃ F, D G s' (d :: bs) F ∧ (F (nxt s').ty = true ∨ cl (nxt s').ty = true)) ?_
              fun _ s3 h => wp_inl h
            refine wp_when (fun _ => wp_mono (g_glue h (List.Sublist.refl _)) fun _ s3 h => ?_) fun e => ?_
            · refine ⟨_, h.1.sub (by sub), .inl ?_⟩
              have : nxt s3 = nxt s2 := by unfold nxt; rw [h.2.1]
              simp [← this]
            · by_cases hl : (al || typeLine t' s1) = true
              · exact ⟨all, (h2 hl).sub (by sub), .inl rfl⟩
              · refine ⟨F, h.sub (by sub), .inr ?_⟩
                rw [hx2, ← hx]
                simp only [Bool.not_eq_true, Bool.or_eq_false_iff] at hl
                rw [hl.1] at e
                have e : typeOpen t'.ty = false := by simpa using e
                have hl := hl.2
                unfold typeLine at hl
                rw [e] at hl
                simp only [Bool.not_false, Bool.true_and, Bool.and_eq_false_iff, Bool.or_eq_false_iff, decide_eq_false_iff_not, ne_eq,
                  Decidable.not_not] at hl
                rcases hl with (((e | e) | e) | e) | e
                · rw [e.1]; rfl
                all_goals (rw [e]; rfl)

/-! ## parser-cpp.c -/

theorem not_okG (e : s.err = true) : ¬ okG s := fun o => by
  rw [o.1] at e
  cases e

/-- Something is added, or nothing is done, or there is an error. -/
def NP (G : Prop) (s s' : St) (d : Id) (bs : List Id) (r : Res) : Prop :=
  (r = .good → D G s' (d :: bs) nope) ∧ (r ≠ .good → okG s' → s' = s)

def SN (m : M Res) (d : Id) : Prop :=
  ∀ G s xs bs, D G s xs all → (d :: bs).Sublist xs → wp m (fun r s' => NP G s s' d bs r) s

theorem SN.ss {m : M Res} (h : SN m d) : SS m d := fun G s xs bs h1 h2 =>
  wp_mono (h G s xs bs h1 h2) fun r s' h => ⟨h.1, fun e o => by
    cases h.2 e o
    exact h1.sub h2 o⟩

/-- The ends of functions. -/
theorem sn_good {s0 : St} (h : D G s xs F) (hs : (d :: bs).Sublist xs) :
    wp parserGood (fun r s' => NP G s0 s' d bs r) s :=
  end_good ⟨fun _ => (h.sub hs).no, fun e => absurd rfl e⟩ fun e => ⟨nofun, fun _ o => absurd o (not_okG e)⟩

theorem sn_fail {s0 : St} : wp parserFail (fun r s' => NP G s0 s' d bs r) s :=
  wp_fail ⟨nofun, fun _ o => absurd o (not_okG rfl)⟩

theorem sn_none : wp parserNone (fun r s' => NP G s s' d bs r) s :=
  end_none ⟨nofun, fun _ _ => rfl⟩ fun _ => ⟨nofun, fun _ _ => rfl⟩

theorem SW.ss {m : M Res} (h : SW m d) : SS m d := fun G s xs bs h1 h2 =>
  wp_mono (h G s xs bs h1 h2) fun _ _ h => ⟨fun _ => h.no, fun _ => h⟩

theorem SBr.sw {m : M Res} (h : SBr m d) : SW m d := fun G s xs bs h1 h2 => h G s xs bs all h1 h2

theorem sep_cppX (hS : RecSep X.R) (d : Id) : SN (cppX X d) d := by
  intro G s xs bs h hs
  unfold cppX
  refine wp_any fun p => ?_
  split
  · exact sn_none
  · refine wp_bind (g_allocIn h hs) fun c s ⟨h, _⟩ => ?_
    refine wp_bind (P := fun _ s => D G s (c :: d :: bs) all) (wp_loop (fun _ s => D G s (c :: d :: bs) all) ?_ _ _ _ h)
      fun _ s h => ?_
    · intro _ s h
      refine g_li h (fun _ => wp_inr h) fun t s h _ _ _ => ?_
      refine wp_bind (h.emit (List.Sublist.refl _) fun _ => .inl rfl) fun _ s ⟨h, _⟩ => ?_
      st
      exact wp_inl h
    · refine g_ex hS h (List.Sublist.refl _) (fun o s ys h hy => ?_) (fun s h _ => ?_) fun o s e => ?_
      · red
        have h : D G s (c :: d :: bs) _ := h.sub (by sub)
        st
        exact sn_good h (by sub)
      · red; exact sn_fail
      · red; exact sn_fail

theorem sep_cdefs (d : Id) : SN (cppCdefs d) d := by
  intro G s xs bs h hs
  unfold cppCdefs
  refine wp_any fun p => ?_
  split
  · exact sn_none
  · refine wp_bind (g_xe h (fun _ => .inl rfl) hs) fun _ s h => ?_
    exact sn_good h.1 (List.Sublist.refl _)

theorem sep_declRoot (d : Id) : SN (cppDeclRoot d) d := by
  intro G s xs bs h hs
  unfold cppDeclRoot
  refine wp_any fun p => ?_
  split
  · exact sn_none
  · refine wp_bind (g_xe h (fun _ => .inl rfl) hs) fun _ s ⟨h, _⟩ => ?_
    st
    exact sn_good h (List.Sublist.refl _)

/-! ## parser-stmt-asm.c -/

theorem g_asmOperand (h : D G s xs F) (hs : (d :: bs).Sublist xs) :
    wp (docAsmOperand d) (fun c s' => ∃ ys, D G s' (c :: ys) all ∧ (d :: bs).Sublist ys) s := by
  unfold docAsmOperand
  refine wp_bind (g_allocIn h hs) fun c s ⟨h, _⟩ => ?_
  st
  refine wp_backIf fun _ => ?_
  refine wp_bind (P := fun _ s => D G s (c :: d :: bs) all) ?_ fun _ s h => ?_
  · unfold layIf
    exact wp_mono (g_layk h) fun _ _ h => h.1
  exact wp_mono (g_allocIn h (List.Sublist.refl _)) fun _ _ h => ⟨_, h.1, by sub⟩

/-- Whatever comes before. -/
def S0 (m : M α) (d : Id) : Prop :=
  ∀ G s xs bs F, D G s xs F → (d :: bs).Sublist xs → wp m (fun _ s' => D G s' (d :: bs) nope) s

theorem s0_good (h : D G s xs F) (hs : (d :: bs).Sublist xs) :
    wp parserGood (fun _ s' => D G s' (d :: bs) nope) s :=
  end_good (h.sub hs).no fun _ => (h.sub hs).no

/-- A comma and a line. -/
theorem s0_comma {o : Id} (h : D G s (o :: ys) F) (hs : (d :: bs).Sublist (o :: ys)) :
    wp (lexIf (is .comma) >>= fun t => match t with
      | none => parserGood
      | some t => emit t o >>= fun _ => lay_ .line o >>= fun _ => parserGood)
      (fun _ s' => D G s' (d :: bs) nope) s := by
  refine g_li h (fun _ => s0_good h hs) fun t s h ht _ _ => ?_
  have ht : t.ty = .comma := by simpa [is] using ht
  dsimp only
  refine wp_bind (h.emitC (List.Sublist.refl _) fun _ => cl_of ht rfl) fun _ s ⟨h, _⟩ => ?_
  st
  exact s0_good h hs

theorem sep_asmOperandCpp (hS : RecSep X.R) (d : Id) : S0 (asmOperandCpp X d) d := by
  intro G s xs bs F h hs
  unfold asmOperandCpp
  refine wp_bind (g_asmOperand h hs) fun c s ⟨ys, h, hy⟩ => ?_
  refine wp_any fun _ => ?_
  refine g_ex hS h (List.Sublist.refl _) (fun o s zs h hz => ?_) (fun s h _ => ?_) fun o s e => ?_
  · exact s0_comma h (by sub)
  · exact wp_fail (D.err rfl)
  · exact wp_fail (D.err rfl)

theorem sep_asmName (h : D G s xs all) (hs : (d :: bs).Sublist xs) :
    wp (asmName d) (fun _ s' => D G s' (d :: bs) all) s := by
  unfold asmName
  refine g_li h (fun _ => wp_pure (h.sub hs)) fun t s h ht _ _ => ?_
  have ht : t.ty = .lsquare := by simpa [is] using ht
  dsimp only
  refine wp_bind (h.emitC hs fun _ => cl_of ht rfl) fun _ s ⟨h, _⟩ => ?_
  refine wp_bind (g_xe h (fun _ => .inl rfl) (List.Sublist.refl _)) fun _ s ⟨h, _⟩ => ?_
  st
  exact wp_mono (g_lay_ h (by wh) (List.Sublist.refl _)) fun _ _ h => h.1

theorem sep_asmTemplate (h : D G s xs all) (hs : (d :: bs).Sublist xs) :
    wp (asmTemplate d) (fun _ s' => D G s' (d :: bs) all) s := by
  unfold asmTemplate
  refine g_xp h (fun s e => wp_pure (D.err e)) fun t s h ht _ _ => ?_
  dsimp only
  refine wp_bind (h.emit hs fun _ => .inl rfl) fun _ s ⟨h, _⟩ => ?_
  exact wp_mono (g_lay_ h (by wh) (List.Sublist.refl _)) fun _ _ h => h.1

theorem sep_asmOperand (hS : RecSep X.R) (d : Id) : S0 (asmOperand X d) d := by
  intro G s xs bs F h hs
  unfold asmOperand
  refine wp_peekIf fun _ => wp_peekIf fun _ => ?_
  split
  · refine wp_peekIf fun _ => ?_
    split
    · exact sep_asmOperandCpp hS d _ _ _ _ _ h hs
    · exact end_none (h.sub hs).no fun _ => (h.sub hs).no
  · refine wp_bind (g_asmOperand h hs) fun c s ⟨ys, h, hy⟩ => ?_
    refine wp_bind (sep_asmName h (List.Sublist.refl _)) fun _ s h => ?_
    refine wp_bind (sep_asmTemplate h (List.Sublist.refl _)) fun _ s h => ?_
    refine g_xp h (fun s e => end_good (D.err e) fun _ => D.err e) fun t s h ht _ _ => ?_
    dsimp only
    refine wp_bind (h.emitC (List.Sublist.refl _) fun _ => cl_of ht rfl) fun _ s ⟨h, _⟩ => ?_
    refine g_ex hS h (List.Sublist.refl _) (fun o s zs h hz => ?_) (fun s h _ => ?_) fun o s e => ?_
    · dsimp only
      st
      exact s0_comma h (by sub)
    · exact wp_fail (D.err rfl)
    · exact wp_fail (D.err rfl)

theorem sep_asmOperands (hS : RecSep X.R) (d : Id) : S0 (asmOperands X d) d := by
  intro G s xs bs F h hs
  unfold asmOperands
  refine wp_loop (fun _ s => D G s (d :: bs) nope) ?_ _ _ _ (h.sub hs).no
  intro _ s h
  refine wp_bind (sep_asmOperand hS d _ _ _ _ _ h (List.Sublist.refl _)) fun r s h => ?_
  split
  · exact wp_inl h
  · exact wp_inr h

/-- The document to go on with. -/
def OnD (G : Prop) (s : St) (o d : Id) (bs : List Id) : Prop :=
  ∃ ys, D G s (o :: ys) nope ∧ (d :: bs).Sublist (o :: ys)

theorem OnD.err {o : Id} (e : s.err = true) : OnD G s o d bs := ⟨d :: bs, D.err e, by sub⟩

theorem OnD.dd {o : Id} (h : OnD G s o d bs) : D G s (d :: bs) nope := by
  obtain ⟨ys, h, hy⟩ := h
  exact h.sub hy

theorem sep_asmOperandList (hS : RecSep X.R) {opt c : Id} (hc : OnD G s c opt bs) :
    wp (asmOperandList X opt c) (fun r s' => OnD G s' r opt bs) s := by
  unfold asmOperandList
  refine g_li hc.dd (fun _ => wp_pure hc) fun t s h ht _ _ => ?_
  have ht : t.ty = .colon := by simpa [is] using ht
  dsimp only
  refine wp_bind (g_allocIn h (List.Sublist.refl _)) fun c s ⟨h, _⟩ => ?_
  st
  refine wp_bind (h.emitC (List.Sublist.refl _) fun _ => cl_of ht rfl) fun _ s ⟨h, _⟩ => ?_
  refine wp_bind (g_indentIn h (List.Sublist.refl _)) fun i s ⟨h, _⟩ => ?_
  refine wp_bind (sep_asmOperands hS _ _ _ _ _ _ h (List.Sublist.refl _)) fun r s h => ?_
  exact wp_pure ⟨_, h, by sub⟩

theorem sep_asmExprList (hS : RecSep X.R) {opt c : Id} (hc : OnD G s c opt bs) :
    wp (asmExprList X opt c) (fun r s' => OnD G s' r.2 opt bs ∧ (r.1 = .fail → s'.err = true)) s := by
  unfold asmExprList
  refine g_li hc.dd (fun _ => wp_pure ⟨hc, by simp⟩) fun t s h ht _ _ => ?_
  have ht : t.ty = .colon := by simpa [is] using ht
  dsimp only
  refine wp_bind (g_allocIn h (List.Sublist.refl _)) fun c s ⟨h, _⟩ => ?_
  st
  refine wp_bind (h.emitC (List.Sublist.refl _) fun _ => cl_of ht rfl) fun _ s ⟨h, _⟩ => ?_
  refine wp_peekIf fun _ => ?_
  st
  refine g_ex hS h (List.Sublist.refl _) (fun o s zs h hz => ?_) (fun s h _ => ?_) fun o s e => ?_
  · red
    exact wp_pure ⟨⟨_, h.sub (hz.cons _), by sub⟩, by simp⟩
  · red
    exact wp_pure ⟨⟨_, h.no, by sub⟩, by simp⟩
  · red
    exact wp_fl (wp_pure ⟨OnD.err rfl, fun _ => rfl⟩)

/-- `parser_asm`. -/
theorem sep_asm (hS : RecSep X.R) (d : Id) : SW (asm_ X d) d := by
  intro G s xs bs h hs
  unfold asm_
  refine wp_peekIf fun _ => ?_
  split
  · exact end_none (h.sub hs) fun _ => h.sub hs
  · refine wp_bind (g_allocIn h hs) fun c s ⟨h, _⟩ => ?_
    refine wp_bind (g_xe h (fun _ => .inl rfl) (List.Sublist.refl _)) fun _ s ⟨h, _⟩ => ?_
    refine wp_bind (P := fun _ s => D G s (c :: d :: bs) nope) (wp_loop (fun _ s => D G s (c :: d :: bs) nope) ?_ _ _ _ h.no)
      fun _ s h => ?_
    · intro _ s h
      refine g_li h (fun _ => wp_inr h) fun t s h _ _ _ => ?_
      dsimp only
      st
      refine wp_bind (h.emit (List.Sublist.refl _) fun _ => .inl rfl) fun _ s ⟨h, _⟩ => ?_
      exact wp_inl h.no
    · refine wp_q fun _ => ?_
      refine wp_bind (g_when_lay h (by wh) (List.Sublist.refl _)) fun _ s ⟨h, _⟩ => ?_
      refine wp_bind (g_alloc h (bs := bs) (by sub)) fun o s ⟨h, _⟩ => ?_
      refine wp_bind (g_indentIn h (List.Sublist.refl _)) fun opt s ⟨h, _⟩ => ?_
      st
      refine wp_any fun _ => ?_
      refine g_ex hS h (List.Sublist.refl _) (fun o' s zs h hz => ?_) (fun s h _ => ?_) fun o s e => ?_
      · red
        have h : OnD G s opt opt (o :: d :: bs) := ⟨_, h.sub (by sub), List.Sublist.refl _⟩
        refine wp_bind (sep_asmOperandList hS h) fun c s h => ?_
        refine wp_bind (sep_asmOperandList hS h) fun c s h => ?_
        refine wp_bind (sep_asmExprList hS h) fun c s ⟨h, he⟩ => ?_
        split
        · exact wp_pure (D.err (he ‹_›))
        · refine wp_bind (sep_asmExprList hS h) fun c s ⟨h, he⟩ => ?_
          split
          · exact wp_pure (D.err (he ‹_›))
          · obtain ⟨ys, h, hy⟩ := h
            st
            exact end_good (h.sub (by sub)) fun _ => h.sub (by sub)
      · red
        exact wp_fail (D.err rfl)
      · red
        exact wp_fail (D.err rfl)

theorem sep_stmtAsm (hS : RecSep X.R) (d : Id) : SW (stmtAsm X d) d := by
  intro G s xs bs h hs
  unfold stmtAsm
  refine wp_bind (sep_asm hS d _ _ _ _ h hs) fun r s h => ?_
  split
  · exact wp_pure h
  · st
    exact end_good h fun _ => h

theorem sep_rootAsm (hS : RecSep X.R) (d : Id) : SW (rootAsm X d) d := by
  intro G s xs bs h hs
  unfold rootAsm
  refine wp_bind (sep_stmtAsm hS d _ _ _ _ h hs) fun r s h => ?_
  split
  · exact wp_pure h
  · st
    exact end_good h fun _ => h

end Knfmt.Parse.Sep
