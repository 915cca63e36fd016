import Verif.Parse.Rules
/-!
# The parser: expressions

The expression parser takes tokens and gives back an expression holding them, `Eat`; the document of
an expression has its tokens in order.
-/
namespace Knfmt.Parse
open Knfmt.Lexer (TT)
open Knfmt.Parse.Spec (ends Tidy Tidy')
open Knfmt.Expr (Rule Func findRule)

variable [Mode] {s0 s : St} {p : List Tok} {xs bs : List Id} {d : Id}

/-- Document `o` within `d` can be added to. -/
def On (s0 s : St) (p : List Tok) (o d : Id) (bs : List Id) : Prop :=
  ∃ zs, Cur s0 s p (o :: zs) ∧ (d :: bs).Sublist (o :: zs)

/-- A function adding to document `d` emits what it consumes. -/
def Spec1 {α : Type} (m : M α) (d : Id) : Prop :=
  ∀ s bs, Inv s (d :: bs) → wp m (fun _ s' => Cur s s' [] (d :: bs)) s

/-- The same for functions giving back a document to continue with. -/
def SpecE (m : M (Res × Option Id)) (d : Id) : Prop :=
  ∀ s bs, Inv s (d :: bs) → wp m (fun x s' => Cur s s' [] (d :: bs) ∧
    (x.1 = .good → ∃ o, x.2 = some o ∧ On s s' [] o d bs)) s

/-- The same for functions that leave the document alone unless they succeed. -/
def SpecD (m : M Res) (d : Id) : Prop :=
  ∀ s bs, Inv s (d :: bs) → wp m (fun r s' => Cur s s' [] (d :: bs) ∧
    (r ≠ .good → ok s' → s'.L = s.L)) s

/-- The same for blocks: the left brace is added to `head`. -/
def SpecB (m : M (Res × Option Id)) (head tail : Id) : Prop :=
  ∀ s b1 bs, Inv s (head :: b1) → (tail :: bs).Sublist (head :: b1) →
    wp m (fun x s' => Cur s s' [] (tail :: bs) ∧
      (x.1 = .good → ∃ o, x.2 = some o ∧ On s s' [] o tail bs)) s

/-- What is assumed of the functions called recursively. -/
structure RecOk (R : Rec) : Prop where
  expr : ∀ a, SpecE (R.expr a) a.dc
  type : ∀ d ti, Spec1 (R.type d ti) d
  braces : ∀ d F, Spec1 (R.braces d F) d
  block : ∀ h t F, SpecB (R.block h t F) h t
  stmt : ∀ d, Spec1 (R.stmt d) d
  decl : ∀ d F, SpecD (R.decl d F) d
  root : ∀ d, Spec1 (R.root d) d

/-! ## Callbacks -/

/-- What a callback gives back is what it has consumed. -/
def EatO (s s' : St) (r : Option (List (Option Tok))) : Prop :=
  ∃ q, Eat s s' q ∧ ∀ ts, r = some ts → solid ts = q

theorem EatO.some {s s' : St} {ts : List (Option Tok)} (h : Eat s s' (solid ts)) :
    EatO s s' (some ts) :=
  ⟨solid ts, h, fun _ e => by rw [Option.some.inj e]⟩

theorem EatO.none {s s' : St} {ts : List Tok} (h : Eat s s' ts) : EatO s s' none :=
  ⟨ts, h, fun _ e => by cases e⟩

theorem Spec1.root {α : Type} {m : Id → M α} (h : ∀ d, Spec1 (m d) d) (s : St) :
    wp (withRoot m) (fun x s' => Eat s s' (solid x.2)) s :=
  eat_withRoot (P := fun _ _ => True) (wp_mono (h s.next (rootSt s) [] inv_root)
    fun _ _ h => ⟨h, trivial⟩)

theorem eat_popDoc (s : St) : wp popDoc (fun ts s' => Eat s s' (solid ts)) s := by
  unfold popDoc
  refine wp_bind eat_pop fun t s1 h => ?_
  intro ts s' e
  have e : (match withRoot (fun d => emit t d) s1 with
    | none => none
    | some (x, s2) => some (x.2, s2)) = some (ts, s') := e
  unfold withRoot emit at e
  simp only [Option.some.injEq, Prod.mk.injEq] at e
  obtain ⟨e1, e2⟩ := e
  have : solid ts = sig t := by
    rw [← e1, solid_items]
    unfold sig
    split
    · rfl
    · simp [ins, toks, Ev.toks]
  rw [this, ← e2]
  obtain ⟨h0, h1, h2, c, h3, h4, h5⟩ := h
  exact ⟨h0, Nat.le_trans h1 (Nat.le_succ _), h2, c, h3, h4, h5⟩

omit [Mode] in
theorem wp_iff {α : Type} {m : M α} {Q : α → St → Prop} : wp m Q s ↔
    ∀ a s', m s = some (a, s') → Q a s' := Iff.rfl

theorem eat_recoverBraces {X : Cx} (hR : RecOk X.R) (s : St) :
    wp (recoverBraces X) (fun r s' => EatO s s' r) s := by
  intro r s' e
  unfold recoverBraces at e
  split at e
  · cases e
  · rename_i r1 ts s1 h1
    have e1 := Spec1.root (fun d => hR.braces d { dedent := true }) s _ _ h1
    split at e
    · cases e; exact EatO.some e1
    · split at e
      · split at e
        · cases e
        · rename_i r2 o ts2 s2 h2
          have e2 : Eat (restore s s1) s2 (solid ts2) := by
            refine eat_withRoot (P := fun _ _ => True) ?_ _ _ h2
            refine wp_mono (hR.block _ _ _ _ [] [] inv_root (List.Sublist.refl _)) ?_
            exact fun _ _ h => ⟨h.1, trivial⟩
          have e3 : Eat s s2 (solid ts2) := e1.mv.restore.trans e2
          split at e
          · cases e; exact EatO.some e3
          · cases e; exact EatO.none e3
      · cases e; exact EatO.none e1

omit [Mode] in
theorem wp_any {α β : Type} {f : St → α} {k : α → M β} {Q : β → St → Prop}
    (h : ∀ a, wp (k a) Q s) : wp (read f >>= k) Q s :=
  wp_bind (P := fun _ s' => s' = s) (wp_read rfl) fun a s' e => by subst e; exact h a

omit [Mode] in
theorem wp_peek {β : Type} {k : Tok → M β} {Q : β → St → Prop}
    (h : ∀ a, wp (k a) Q s) : wp (peek >>= k) Q s := wp_any h
omit [Mode] in
theorem wp_peekIf {β : Type} {ty : TT} {k : Bool → M β} {Q : β → St → Prop}
    (h : ∀ a, wp (k a) Q s) : wp (peekIf ty >>= k) Q s := wp_any h
omit [Mode] in
theorem wp_back {β : Type} {k : Option Tok → M β} {Q : β → St → Prop}
    (h : ∀ a, wp (k a) Q s) : wp (back >>= k) Q s := wp_any h
omit [Mode] in
theorem wp_backIf {β : Type} {ty : TT} {k : Bool → M β} {Q : β → St → Prop}
    (h : ∀ a, wp (k a) Q s) : wp (backIf ty >>= k) Q s := wp_any h
omit [Mode] in
theorem wp_q {β : Type} {E : Env} {n : Nat} {k : Bool → M β} {Q : β → St → Prop}
    (h : ∀ a, wp (k a) Q s) : wp (E.q n >>= k) Q s := wp_any h

omit [Mode] in
theorem wp_readv {α β : Type} {f : St → α} {k : α → M β} {Q : β → St → Prop}
    (h : wp (k (f s)) Q s) : wp (read f >>= k) Q s :=
  wp_bind (P := fun a s' => a = f s ∧ s' = s) (wp_read ⟨rfl, rfl⟩) fun a s' e => by
    obtain ⟨e1, e2⟩ := e
    subst e1 e2
    exact h

theorem eat_recoverType {X : Cx} (hR : RecOk X.R) (ti : TI) (s : St) :
    wp (recoverType X ti) (fun r s' => EatO s s' r) s := by
  unfold recoverType
  refine wp_backIf fun _ => wp_backIf fun _ => wp_backIf fun _ => ?_
  dsimp only
  split
  · refine wp_bind (Spec1.root (fun d => hR.type d ti) s) fun x s' h => ?_
    split
    · exact wp_pure (EatO.some h)
    · exact wp_pure (EatO.none h)
  · exact wp_pure (EatO.none (Eat.refl s))

theorem eat_exprRecover {X : Cx} (hR : RecOk X.R) (s : St) :
    wp (exprRecover X) (fun r s' => EatO s s' r) s := by
  unfold exprRecover
  refine wp_any fun ti => ?_
  split
  · exact eat_recoverType hR _ s
  · refine wp_peek fun nx => ?_
    split
    · refine wp_backIf fun _ => wp_backIf fun _ => ?_
      split
      · exact wp_bind (eat_popDoc s) fun _ _ h => wp_pure (EatO.some h)
      · exact wp_bind eat_pop fun _ _ h => wp_pure (EatO.none h)
    · split
      · exact eat_recoverBraces hR s
      · split
        · exact wp_bind (eat_popDoc s) fun _ _ h => wp_pure (EatO.some h)
        · exact wp_pure (EatO.none (Eat.refl s))

theorem eat_exprRecoverCast {X : Cx} (hR : RecOk X.R) (s : St) :
    wp (exprRecoverCast X) (fun r s' => EatO s s' r) s := by
  unfold exprRecoverCast
  refine wp_q fun _ => wp_any fun ti => ?_
  split
  · exact wp_pure (EatO.none (Eat.refl s))
  · rename_i ti
    refine wp_bind (Spec1.root (fun d => hR.type d ti) s) fun x s' h => ?_
    split
    · exact wp_pure (EatO.some h)
    · exact wp_pure (EatO.none h)

theorem eat_noteSwallow {s s' : St} {q : List Tok} (h : Eat s s' q) :
    wp (noteSwallow s.done.length) (fun _ s'' => Eat s s'' []) s' := by
  intro a s'' e
  unfold noteSwallow at e
  injection e with e
  injection e with _ e
  obtain ⟨h0, h1, h2, c, h3, h4, h5⟩ := h
  by_cases hl : s'.done.length = s.done.length
  · have hg : ({ s'.gh with swallowed :=
        s'.gh.swallowed || decide (s'.done.length ≠ s.done.length) } : Ghost) = s'.gh := by
      simp [hl]
    rw [hg] at e
    subst e
    have hc : c = [] := by
      rw [h3] at hl
      simp at hl
      exact hl
    subst hc
    exact ⟨h0, h1, h2, [], h3, h4, fun _ => .nil _⟩
  · have hn : ¬ ok s'' := by
      intro o'
      have := o'.2.1.1
      rw [← e] at this
      simp [hl] at this
    have : Mv s s'' := by rw [← e]; exact ⟨h1, c, h3, h4⟩
    exact Eat.bad this (by rw [← e]; exact h0) hn _

/-- Either what was consumed is given back, or nothing was consumed. -/
theorem eat_callback {m : M (Option (List (Option Tok)))} (hm : ∀ s, wp m (fun r s' => EatO s s' r) s)
    (s : St) : wp (callback m) (fun r s' => Eat s s' (solid (r.getD []))) s := by
  unfold callback pos
  refine wp_readv ?_
  refine wp_bind (hm s) fun r s' h => ?_
  obtain ⟨q, h1, h2⟩ := h
  split
  · rename_i ts
    refine wp_pure ?_
    rw [← h2 ts rfl] at h1
    exact h1
  · exact wp_bind (eat_noteSwallow h1) fun _ _ h => wp_pure h

/-! ## Parsing -/

/-- The tokens of an expression. -/
def exToks : Ex → List Tok
  | .null => []
  | .lit tk => [tk]
  | .un op e => op :: exToks e
  | .pre op e => op :: exToks e
  | .post e op => exToks e ++ [op]
  | .bin l op r => exToks l ++ op :: exToks r
  | .tern c q m colon t => exToks c ++ q :: (exToks m ++ (colon.toList ++ exToks t))
  | .parens l e r => l :: (exToks e ++ r.toList)
  | .call f l args r => exToks f ++ l :: (exToks args ++ r.toList)
  | .squares f l i r => exToks f ++ l :: (exToks i ++ r.toList)
  | .field l op r => exToks l ++ op :: exToks r
  | .cast l ty r e => l :: (solid ty ++ (r.toList ++ exToks e))
  | .sizeofE tk e => tk :: exToks e
  | .sizeofP tk l e r => tk :: l :: (exToks e ++ r.toList)
  | .concat e tk => exToks e ++ [tk]
  | .recov ts => solid ts

/-- Unless given up, an expression holds what was consumed. -/
def EatN (s s' : St) (e : Ex) : Prop := ∃ q, Eat s s' q ∧ (e ≠ .null → q = exToks e)

theorem EatN.mk {s s' : St} {e : Ex} (h : Eat s s' (exToks e)) : EatN s s' e := ⟨_, h, fun _ => rfl⟩

theorem EatN.null {s s' : St} {q : List Tok} (h : Eat s s' q) : EatN s s' .null :=
  ⟨_, h, fun h => absurd rfl h⟩

/-- Any precedence will do. -/
def ParOk (f : Par) : Prop := ∀ pc s, wp (f pc) (fun e s' => Eat s s' (exToks e)) s

theorem Eat.cast {s s' : St} {p q : List Tok} (h : Eat s s' p) (e : p = q) : Eat s s' q := e ▸ h

theorem wp_par {f : Par} (hf : ParOk f) {pc : Nat} {p : List Tok} (h : Eat s0 s p) :
    wp (f pc) (fun e s' => Eat s0 s' (p ++ exToks e)) s := wp_mono (hf pc s) fun _ _ e => h.trans e

theorem wpe_expect {ty : TT} (h : Eat s0 s p) :
    wp (expect ty) (fun o s' => Eat s0 s' (p ++ o.toList)) s := wp_mono eat_expect fun _ _ e => h.trans e

theorem wpe_lexIf {f : TT → Bool} (h : Eat s0 s p) :
    wp (lexIf f) (fun o s' => Eat s0 s' (p ++ o.toList)) s := wp_mono eat_lexIf fun _ _ e => h.trans e

theorem eat_nud {X : Cx} (hR : RecOk X.R) {f : Par} (hf : ParOk f) {r : Rule} {tk : Tok}
    (h : Eat s0 s [tk]) : wp (nud X f r tk) (fun e s' => EatN s0 s' e) s := by
  unfold nud
  split
  · exact wp_pure (EatN.mk h)
  · exact wp_bind (wp_par hf h) fun e _ h => wp_pure (EatN.mk h)
  · exact wp_bind (wp_par hf h) fun e _ h => wp_pure (EatN.mk h)
  · unfold execSizeof
    refine wp_bind (wpe_lexIf h) fun l s h => ?_
    split
    · refine wp_bind (wp_par hf h) fun e _ h => ?_
      refine wp_bind (wpe_expect h) fun rp _ h => ?_
      exact wp_pure (EatN.mk (h.cast (by simp [exToks])))
    · refine wp_bind (wp_par hf h) fun e _ h => ?_
      exact wp_pure (EatN.mk (h.cast (by simp [exToks])))
  · unfold execParens
    refine wp_bind (eat_callback (eat_exprRecoverCast hR) s) fun c s' h' => ?_
    have h := h.trans h'
    split
    · refine wp_bind (wpe_expect h) fun rp _ h => ?_
      refine wp_bind (wp_par hf h) fun e _ h => ?_
      exact wp_pure (EatN.mk (h.cast (by simp [exToks])))
    · refine wp_bind (wp_par hf h) fun e _ h => ?_
      refine wp_bind (wpe_expect h) fun rp _ h => ?_
      exact wp_pure (EatN.mk (h.cast (by simp [exToks, solid])))
  · exact wp_pure (EatN.null h)

theorem eat_led {f : Par} (hf : ParOk f) {r : Rule} {tk : Tok} {lhs : Ex}
    (h : Eat s0 s (exToks lhs ++ [tk])) : wp (led f r lhs tk) (fun e s' => EatN s0 s' e) s := by
  unfold led
  split
  · exact wp_bind (wp_par hf h) fun e _ h => wp_pure (EatN.mk (h.cast (by simp [exToks])))
  · exact wp_pure (EatN.mk h)
  · exact wp_bind (wp_par hf h) fun e _ h => wp_pure (EatN.mk (h.cast (by simp [exToks])))
  · refine wp_bind (wp_par hf h) fun e _ h => ?_
    refine wp_bind (wpe_expect h) fun rp _ h => ?_
    exact wp_pure (EatN.mk (h.cast (by simp [exToks])))
  · exact wp_pure (EatN.mk h)
  · refine wp_bind (wp_par hf h) fun e _ h => ?_
    refine wp_bind (wpe_expect h) fun rp _ h => ?_
    exact wp_pure (EatN.mk (h.cast (by simp [exToks])))
  · unfold execTernary
    refine wp_bind (wp_par hf h) fun e _ h => ?_
    refine wp_bind (wpe_expect h) fun rp _ h => ?_
    refine wp_bind (wp_par hf h) fun e _ h => ?_
    split
    · exact wp_pure (EatN.null h)
    · exact wp_pure (EatN.mk (h.cast (by simp [exToks])))
  · exact wp_pure (EatN.null h)

/-- A token that is not a semicolon is not removed. -/
theorem Rel.head_semi {q : Bool} {t : Tok} {r : List Tok} (h : Rel q (t :: r) []) :
    t.ty = .semi := by
  have := h.2.symm
  simp only [noSemi, List.filter_nil, List.filter_eq_nil_iff] at this
  simpa using this t (by simp)

theorem eat_operand {X : Cx} (hR : RecOk X.R) {f : Par} (hf : ParOk f) (stop : Option Nat) (s : St) :
    wp (operand X stop f) (fun e s' => EatN s s' e) s := by
  unfold operand exPeek
  refine wp_readv ?_
  split
  · exact wp_pure (EatN.null (Eat.refl s))
  · rename_i tk htk
    obtain ⟨r, hr⟩ : ∃ r, s.rest = tk :: r := by
      split at htk
      · cases htk
      · split at htk
        · cases htk
        · rename_i t r hr
          split at htk
          · cases htk
          · injection htk with htk
            exact ⟨r, by rw [hr, htk]⟩
    split
    · refine wp_bind (eat_callback (eat_exprRecover hR) s) fun c s' h => ?_
      split
      · exact wp_pure (EatN.mk h)
      · exact wp_pure (EatN.null h)
    · rename_i r _
      split
      · rename_i hid
        refine wp_bind (eat_callback (eat_exprRecover hR) s) fun c s' h => ?_
        split
        · exact wp_pure (EatN.mk h)
        · have h : Eat s s' [] := h
          by_cases he : s'.rest = []
          · -- the identifier is still there
            have hn : ¬ ok s' := by
              intro o
              obtain ⟨_, _, _, c, _, h4, h5⟩ := h
              rw [he, List.append_nil, hr] at h4
              have := Rel.head_semi ((Rel.of h4).trans (h5 o))
              rw [hid] at this
              cases this
            refine wp_bind (P := fun _ s2 => s2 = s') ?_ fun t s2 h2 => ?_
            · intro t s2 e
              unfold pop at e
              rw [he] at e
              cases e
              rfl
            · subst h2
              exact eat_nud hR hf (Eat.bad h.mv h.1 hn _)
          · refine wp_bind (eat_pop' he) fun t s2 h2 => ?_
            exact eat_nud hR hf (h.trans h2)
      · refine wp_bind (eat_pop' (by rw [hr]; simp)) fun t s2 h2 => ?_
        exact eat_nud hR hf h2

theorem eat_exLoop {f : Par} (hf : ParOk f) (stop : Option Nat) (pc : Nat) {ex : Ex}
    (h : Eat s0 s (exToks ex)) : wp (exLoop stop f pc ex) (fun r s' =>
      (∀ a', r = .inl a' → a' ≠ .null ∧ Eat s0 s' (exToks a')) ∧
      (∀ b, r = .inr b → EatN s0 s' b)) s := by
  unfold exLoop exPeek
  refine wp_readv ?_
  have done : ∀ (s' : St) (e : Ex), EatN s0 s' e → 
      (∀ a', (.inr e : Ex ⊕ Ex) = .inl a' → a' ≠ .null ∧ Eat s0 s' (exToks a')) ∧
      (∀ b, (.inr e : Ex ⊕ Ex) = .inr b → EatN s0 s' b) := by
    intro s' e he
    refine ⟨fun _ h => ?_, fun b hb => ?_⟩
    · cases h
    · cases hb; exact he
  split
  · exact wp_pure (done _ _ (EatN.mk h))
  · rename_i tk htk
    have hr : s.rest ≠ [] := by
      split at htk
      · cases htk
      · split at htk
        · cases htk
        · rename_i hr; rw [hr]; simp
    split
    · exact wp_pure (done _ _ (EatN.mk h))
    · split
      · exact wp_pure (done _ _ (EatN.mk h))
      · refine wp_bind (eat_pop' hr) fun t s1 h1 => ?_
        refine wp_bind (eat_led hf (h.trans h1)) fun x s2 h2 => ?_
        refine wp_any fun e => ?_
        obtain ⟨q, h3, h4⟩ := h2
        split
        · exact wp_pure (done _ _ (EatN.null h3))
        · rename_i hx
          refine wp_pure ⟨fun a' e => ?_, fun _ e => ?_⟩
          case refine_2 => cases e
          cases e
          have hx : x ≠ .null := fun e => hx (.inl e)
          rw [h4 hx] at h3
          exact ⟨hx, h3⟩

theorem eat_exec1 {X : Cx} (hR : RecOk X.R) (stop : Option Nat) : ∀ n, ParOk (exec1 X stop n)
  | 0 => fun pc s => by intro a s' e; cases e
  | n + 1 => by
    have hf := eat_exec1 hR stop n
    intro pc s
    rw [exec1]
    unfold pos
    refine wp_readv ?_
    refine wp_bind (eat_operand hR hf stop s) fun x s1 h1 => ?_
    obtain ⟨q, h2, h3⟩ := h1
    have fin : ∀ (r : Ex) (s2 : St), EatN s s2 r →
        wp (when (decide (r = .null)) (noteSwallow s.done.length) >>= fun _ => pure r)
          (fun e s' => Eat s s' (exToks e)) s2 := by
      intro r s2 h
      obtain ⟨q, h4, h5⟩ := h
      by_cases hr : r = .null
      · refine wp_bind (P := fun _ s3 => Eat s s3 []) ?_ fun _ s3 h6 => wp_pure (by rw [hr]; exact h6)
        refine wp_when (fun _ => eat_noteSwallow h4) fun e => ?_
        simp [hr] at e
      · refine wp_bind (P := fun _ s3 => Eat s s3 (exToks r)) ?_ fun _ s3 h6 => wp_pure h6
        refine wp_when (fun e => ?_) fun _ => h5 hr ▸ h4
        simp [hr] at e
    split
    · refine wp_bind (P := fun r s2 => EatN s s2 r) (wp_pure (EatN.null h2)) fin
    · rename_i hx
      refine wp_bind (P := fun r s2 => EatN s s2 r) ?_ fin
      refine wp_loop (fun e s2 => e ≠ .null ∧ Eat s s2 (exToks e)) ?_ n x s1 ⟨hx, h3 hx ▸ h2⟩
      intro e s2 h
      exact eat_exLoop hf stop pc h.2

end Knfmt.Parse
