import Verif.Parse.SepRules
/-!
# The parser: white space between tokens, expressions
-/
namespace Knfmt.Parse.Sep
open Knfmt.Lexer (TT)
open Knfmt.Parse.Spec (near loose opHead opNexts)
open Knfmt.Expr (Rule Func findRule)

/-- All tokens are kept track of. -/
@[reducible] def strictM : Mode := ⟨true⟩

attribute [local instance] strictM

variable {G : Prop} {s s' : St} {xs ys bs : List Id} {d : Id} {F F' : Nx} {α β : Type} {Q : β → St → Prop}

theorem wp_and {m : M α} {P P' : α → St → Prop} (h : wp m P s) (h' : wp m P' s) :
    wp m (fun a s' => P a s' ∧ P' a s') s := fun a s' e => ⟨h a s' e, h' a s' e⟩

/-- White space. -/
macro "wh" : tactic => `(tactic| with_unfolding_all first | rfl | (split <;> rfl))

/-! ## Rules -/

theorem okG.ok (h : okG s) : ok s := by
  refine ⟨h.1, ?_, h.2.2⟩
  rw [h.2.1]
  exact ⟨rfl, rfl, fun _ => rfl⟩

theorem D.inv (h : D G s xs F) (o : okG s) : Inv s xs := fun _ => by
  obtain ⟨_, h1, _, ⟨H, T, h2, h3, h4, _⟩, _⟩ := h o
  exact ⟨h1, H, T, h2, ktoks_of h3, h4⟩

theorem g_layIf {b : Bool} {k k' : DK} (h : D G s xs F) (hw : k.white = true) (hw' : k'.white = true)
    (hs : (d :: bs).Sublist xs) :
    wp (layIf b k k' d) (fun _ s' => D G s' (d :: bs) all ∧ s'.rest = s.rest ∧ s'.done = s.done) s := by
  unfold layIf
  exact g_lay_ h (by split <;> assumption) hs

theorem g_when_lay {b : Bool} {k : DK} (h : D G s xs F) (hw : k.white = true)
    (hs : (d :: bs).Sublist xs) :
    wp (when b (lay_ k d)) (fun _ s' => D G s' (d :: bs) F ∧ s'.rest = s.rest ∧ s'.done = s.done) s :=
  wp_when (fun _ => wp_mono (g_lay_ h hw hs) fun _ _ h => ⟨h.1.mono fun _ _ => rfl, h.2⟩)
    fun _ => ⟨h.sub hs, rfl, rfl⟩

theorem g_when_layIf {b c : Bool} {k k' : DK} (h : D G s xs F) (hw : k.white = true)
    (hw' : k'.white = true) (hs : (d :: bs).Sublist xs) :
    wp (when b (layIf c k k' d)) (fun _ s' => D G s' (d :: bs) F ∧ s'.rest = s.rest ∧
      s'.done = s.done) s :=
  wp_when (fun _ => wp_mono (g_layIf h hw hw' hs) fun _ _ h => ⟨h.1.mono fun _ _ => rfl, h.2⟩)
    fun _ => ⟨h.sub hs, rfl, rfl⟩

theorem g_when_layk {b : Bool} {k : DK} (h : D G s xs F) :
    wp (when b (lay_ k d)) (fun _ s' => D G s' xs F ∧ s'.rest = s.rest ∧ s'.done = s.done) s :=
  wp_when (fun _ => g_layk h) fun _ => ⟨h, rfl, rfl⟩

theorem g_when_rmSoft {b : Bool} {i : Id} (h : D G s xs F) :
    wp (when b (rmSoft i)) (fun _ s' => D G s' xs F) s := wp_when (fun _ => g_rmSoft h) fun _ => h

theorem g_when_glue {b : Bool} {ty : TT} (h : D G s xs F) (hs : (d :: bs).Sublist xs) :
    wp (when b (noteGlue ty d)) (fun _ s' => D G s' (d :: bs) (fun x => F x || (b && decide (x = ty))) ∧
      s'.rest = s.rest ∧ s'.done = s.done) s :=
  wp_when (fun e => wp_mono (g_glue h hs) fun _ _ h => ⟨by rw [e]; simpa using h.1, h.2⟩)
    fun e => ⟨by rw [e]; simpa using h.sub hs, rfl, rfl⟩

theorem g_when_free {b : Bool} (h : D G s xs F) (hs : (d :: bs).Sublist xs) :
    wp (when b (noteFree d)) (fun _ s' => D G s' (d :: bs) (fun x => F x || b) ∧
      s'.rest = s.rest ∧ s'.done = s.done) s :=
  wp_when (fun e => wp_mono (g_free h hs) fun _ _ h => ⟨by rw [e]; simpa using h.1, h.2⟩)
    fun e => ⟨by rw [e]; simpa using h.sub hs, rfl, rfl⟩

theorem g_indentIn (h : D G s xs F) (hs : (d :: bs).Sublist xs) :
    wp (indentIn d) (fun c s' => D G s' (c :: d :: bs) F ∧ s'.rest = s.rest ∧ s'.done = s.done) s :=
  g_allocIn h hs

theorem g_alignIn (h : D G s xs F) (hs : (d :: bs).Sublist xs) :
    wp (alignIn d) (fun c s' => D G s' (c :: d :: bs) F ∧ s'.rest = s.rest ∧ s'.done = s.done) s :=
  g_allocIn h hs

theorem g_alignIf {b : Bool} (h : D G s xs F) (hs : (d :: bs).Sublist xs) :
    wp (alignIf b d) (fun c s' => ∃ ys, D G s' (c :: ys) F ∧ (d :: bs).Sublist (c :: ys) ∧
      s'.rest = s.rest ∧ s'.done = s.done) s := by
  unfold alignIf
  split
  · exact wp_mono (g_alignIn h hs) fun _ _ h => ⟨_, h.1, by sub, h.2⟩
  · exact wp_pure ⟨_, h.sub hs, by sub, rfl, rfl⟩

theorem g_emitOpt {o : Option Tok} (h : D G s xs F) (hs : (d :: bs).Sublist xs)
    (ho : G → ∀ t, o = some t → cl t.ty = true) :
    wp (emitOpt o d) (fun _ s' => D G s' (d :: bs) F ∧ s'.rest = s.rest ∧ s'.done = s.done) s := by
  unfold emitOpt
  split
  · rename_i t
    exact wp_mono (h.emitC hs fun g => ho g t rfl) fun _ _ h => ⟨h.1.mono fun _ _ => rfl, h.2⟩
  · exact wp_pure ⟨h.sub hs, rfl, rfl⟩

/-! ## The lexer -/

theorem okG_pop {t : Tok} {r : List Tok} : Kp s { s with done := t :: s.done, rest := r } :=
  ⟨rfl, Nat.le_refl _, fun o => ⟨o.1, o.2.1, fun x hx => o.2.2 x (by simp [hx])⟩⟩

theorem lexIf_cases (f : TT → Bool) (s : St) : wp (lexIf f) (fun o s' =>
    (o = none ∧ s' = s ∧ (s.rest = [] ∨ f (nxt s).ty = false)) ∨
    ∃ t, o = some t ∧ Kp s s' ∧ f t.ty = true ∧ nxt s = t ∧ s'.done.head? = some t) s := by
  intro o s' e
  unfold lexIf at e
  split at e
  · rename_i hr
    cases e
    exact .inl ⟨rfl, rfl, .inl hr⟩
  · rename_i t r hr
    split at e
    · rename_i hf
      cases e
      exact .inr ⟨t, rfl, okG_pop, hf, by simp [nxt, hr], rfl⟩
    · rename_i hf
      cases e
      exact .inl ⟨rfl, rfl, .inr (by simpa [nxt, hr] using hf)⟩

theorem expect_cases (ty : TT) (s : St) : wp (expect ty) (fun o s' =>
    (o = none ∧ s'.err = true) ∨
    ∃ t, o = some t ∧ Kp s s' ∧ t.ty = ty ∧ nxt s = t ∧ s'.done.head? = some t) s := by
  intro o s' e
  unfold expect at e
  split at e
  · cases e
    exact .inl ⟨rfl, rfl⟩
  · rename_i t r hr
    split at e
    · rename_i hf
      cases e
      exact .inr ⟨t, rfl, okG_pop, hf, by simp [nxt, hr], rfl⟩
    · cases e
      exact .inl ⟨rfl, rfl⟩

theorem pop_cases (s : St) : wp pop (fun t s' => t = nxt s ∧ Kp s s' ∧
    (s'.done.head? = some t ∨ t = eofTok)) s := by
  intro t s' e
  unfold pop at e
  split at e
  · rename_i hr
    cases e
    exact ⟨by simp [nxt, hr], Kp.refl s, .inr rfl⟩
  · rename_i t r hr
    cases e
    exact ⟨by simp [nxt, hr], okG_pop, .inl rfl⟩

theorem g_li {f : TT → Bool} {k : Option Tok → M β} (h : D G s xs F)
    (h0 : s.rest = [] ∨ f (nxt s).ty = false → wp (k none) Q s)
    (h1 : ∀ t s', D G s' xs F → f t.ty = true → nxt s = t → s'.done.head? = some t →
      wp (k (some t)) Q s') : wp (lexIf f >>= k) Q s := by
  refine wp_bind (lexIf_cases f s) fun o s' ho => ?_
  rcases ho with ⟨rfl, rfl, e⟩ | ⟨t, rfl, e1, e2, e3, e4⟩
  · exact h0 e
  · exact h1 t s' (h.kp e1) e2 e3 e4

theorem g_xp {ty : TT} {k : Option Tok → M β} (h : D G s xs F)
    (h0 : ∀ s', s'.err = true → wp (k none) Q s')
    (h1 : ∀ t s', D G s' xs F → t.ty = ty → nxt s = t → s'.done.head? = some t →
      wp (k (some t)) Q s') : wp (expect ty >>= k) Q s := by
  refine wp_bind (expect_cases ty s) fun o s' ho => ?_
  rcases ho with ⟨rfl, e⟩ | ⟨t, rfl, e1, e2, e3, e4⟩
  · exact h0 s' e
  · exact h1 t s' (h.kp e1) e2 e3 e4

theorem g_po {k : Tok → M β} (h : D G s xs F)
    (h1 : ∀ t s', D G s' xs F → t = nxt s → s'.done.head? = some t ∨ t = eofTok → wp (k t) Q s') :
    wp (pop >>= k) Q s := by
  refine wp_bind (pop_cases s) fun t s' ho => ?_
  exact h1 t s' (h.kp ho.2.1) ho.1 ho.2.2

theorem g_xe {ty : TT} (h : D G s xs F) (hF : G → F ty = true ∨ cl ty = true)
    (hs : (d :: bs).Sublist xs) :
    wp (expectEmit ty d) (fun _ s' => D G s' (d :: bs) (af ty) ∧
      (s'.err = true ∨ s'.done.head?.map Tok.ty = some ty)) s := by
  unfold expectEmit
  refine g_xp h (fun s' e => wp_pure ⟨D.err e, .inl e⟩) fun t s' h ht _ hd => ?_
  subst ht
  exact wp_mono (h.emit hs hF) fun _ _ h => ⟨h.1, .inr (by rw [h.2.2, hd]; rfl)⟩

theorem g_xeC {ty : TT} (h : D G s xs F) (hc : cl ty = true) (hs : (d :: bs).Sublist xs) :
    wp (expectEmit ty d) (fun _ s' => D G s' (d :: bs) all ∧
      (s'.err = true ∨ s'.done.head?.map Tok.ty = some ty)) s :=
  wp_mono (g_xe h (fun _ => .inr hc) hs) fun _ _ h => ⟨h.1.cl hc, h.2⟩

theorem g_ie {ty : TT} (h : D G s xs F) (hc : cl ty = true) (hs : (d :: bs).Sublist xs) :
    wp (ifEmit ty d) (fun _ s' => D G s' (d :: bs) F) s := by
  unfold ifEmit
  refine g_li h (fun _ => wp_pure (h.sub hs)) fun t s' h ht _ _ => ?_
  have : t.ty = ty := by simpa [is] using ht
  exact wp_mono (h.emitC hs fun _ => by rw [this]; exact hc) fun _ _ h => h.1.mono fun _ _ => rfl

/-- Straight-line code. -/
macro "st1" : tactic => set_option hygiene false in `(tactic| with_reducible first
  | (refine wp_bind (g_lay_ h (by wh) (by sub)) fun _ s h => ?_; obtain ⟨h, hr, hd⟩ := h)
  | (refine wp_bind (g_layIf h (by wh) (by wh) (by sub)) fun _ s h => ?_; obtain ⟨h, hr, hd⟩ := h)
  | (refine wp_bind (g_layk h) fun _ s h => ?_; obtain ⟨h, hr, hd⟩ := h)
  | (refine wp_bind (g_when_lay h (by wh) (by sub)) fun _ s h => ?_; obtain ⟨h, hr, hd⟩ := h)
  | (refine wp_bind (g_when_layIf h (by wh) (by wh) (by sub)) fun _ s h => ?_; obtain ⟨h, hr, hd⟩ := h)
  | (refine wp_bind (g_when_layk h) fun _ s h => ?_; obtain ⟨h, hr, hd⟩ := h)
  | refine wp_bind (g_when_rmSoft h) fun _ s h => ?_
  | (refine wp_bind (g_free h (by sub)) fun _ s h => ?_; obtain ⟨h, hr, hd⟩ := h)
  | (refine wp_bind (g_when_free h (by sub)) fun _ s h => ?_; obtain ⟨h, hr, hd⟩ := h)
  | (refine wp_bind (g_glue h (by sub)) fun _ s h => ?_; obtain ⟨h, hr, hd⟩ := h)
  | (refine wp_bind (g_when_glue h (by sub)) fun _ s h => ?_; obtain ⟨h, hr, hd⟩ := h)
  | (refine wp_bind (g_alloc h (by sub)) fun _ s h => ?_; obtain ⟨h, hr, hd⟩ := h)
  | (refine wp_bind (g_allocIn h (by sub)) fun _ s h => ?_; obtain ⟨h, hr, hd⟩ := h)
  | (refine wp_bind (g_indentIn h (by sub)) fun _ s h => ?_; obtain ⟨h, hr, hd⟩ := h)
  | (refine wp_bind (g_alignIn h (by sub)) fun _ s h => ?_; obtain ⟨h, hr, hd⟩ := h)
  | (refine wp_bind (g_xeC h (by with_unfolding_all rfl) (by sub)) fun _ s h => ?_; obtain ⟨h, hb⟩ := h)
  | refine wp_bind (g_ie h (by with_unfolding_all rfl) (by sub)) fun _ s h => ?_
  | refine wp_pb ?_
  | refine wp_q fun _ => ?_)

/-- Straight-line code. -/
macro "st" : tactic => `(tactic| repeat st1)

/-! ## Specifications -/

/-- Outcome of `parser_expr`. -/
def Ex3 (G : Prop) (s s' : St) (d : Id) (bs : List Id) (x : Res × Option Id) : Prop :=
  (∃ o ys, x = (.good, some o) ∧ D G s' (o :: ys) nope ∧ (d :: bs).Sublist ys) ∨
  (x = (.non, none) ∧ Kp s s') ∨ (x.1 = .fail ∧ s'.err = true)

def SE (m : M (Res × Option Id)) (d : Id) : Prop :=
  ∀ G s xs bs, D G s xs all → (d :: bs).Sublist xs → wp m (fun x s' => Ex3 G s s' d bs x) s

/-- White space comes first. -/
def SEL (m : M (Res × Option Id)) (d : Id) : Prop :=
  ∀ G s xs bs F, D G s xs F → (d :: bs).Sublist xs → wp m (fun x s' => Ex3 G s s' d bs x) s

def STy (m : M Res) (d : Id) (ti : TI) : Prop :=
  ∀ G s xs bs, D G s xs all → (d :: bs).Sublist xs → wp m (fun r s' => D G s' (d :: bs) nope ∧
    (r = .good → ti.ruled = true → (nxt s').ty ≠ .semi → D G s' (d :: bs) (af .star))) s

def SBr (m : M Res) (d : Id) : Prop :=
  ∀ G s xs bs F, D G s xs F → (d :: bs).Sublist xs → wp m (fun _ s' => D G s' (d :: bs) all) s

def SBl (m : M (Res × Option Id)) (hd tl : Id) : Prop :=
  ∀ G s xs b1 bs F, D G s xs F → (hd :: b1).Sublist xs → (tl :: bs).Sublist (hd :: b1) →
    wp m (fun x s' => (∃ c ys, x = (.good, some c) ∧ D G s' (c :: ys) all ∧ (tl :: bs).Sublist ys) ∨
      (x = (.non, none) ∧ Kp s s') ∨ (x.1 = .fail ∧ s'.err = true)) s

/-- Something is added, or nothing. -/
def SS (m : M Res) (d : Id) : Prop :=
  ∀ G s xs bs, D G s xs all → (d :: bs).Sublist xs → wp m (fun r s' =>
    (r = .good → D G s' (d :: bs) nope) ∧ (r ≠ .good → D G s' (d :: bs) all)) s

/-- White space before and after. -/
def SW (m : M Res) (d : Id) : Prop :=
  ∀ G s xs bs, D G s xs all → (d :: bs).Sublist xs → wp m (fun _ s' => D G s' (d :: bs) all) s

/-- The functions called recursively. -/
structure RecSep (R : Rec) : Prop where
  expr : ∀ a, SE (R.expr a) a.dc
  exprLine : ∀ a, a.line = true → SEL (R.expr a) a.dc
  type : ∀ d ti, STy (R.type d ti) d ti
  braces : ∀ d F, SBr (R.braces d F) d
  block : ∀ hd tl F, SBl (R.block hd tl F) hd tl
  stmt : ∀ d, SS (R.stmt d) d
  decl : ∀ d F, SS (R.decl d F) d
  declLine : ∀ d F, F.line = true → SW (R.decl d F) d
  root : ∀ d, SW (R.root d) d

/-- A call of `parser_expr`. -/
theorem g_ex {X : Cx} (hS : RecSep X.R) {a : EA} {k : Res × Option Id → M β} (h : D G s xs all)
    (hs : (a.dc :: bs).Sublist xs)
    (h1 : ∀ o s' ys, D G s' (o :: ys) nope → (a.dc :: bs).Sublist ys → wp (k (.good, some o)) Q s')
    (h2 : ∀ s', D G s' xs all → Kp s s' → wp (k (.non, none)) Q s')
    (h3 : ∀ o s', s'.err = true → wp (k (.fail, o)) Q s') : wp (X.R.expr a >>= k) Q s := by
  refine wp_bind (hS.expr a G s xs bs h hs) fun x s' hx => ?_
  rcases hx with ⟨o, ys, rfl, e1, e2⟩ | ⟨rfl, e1⟩ | ⟨e1, e2⟩
  · exact h1 o s' ys e1 e2
  · exact h2 s' (h.kp e1) e1
  · obtain ⟨r, o⟩ := x
    cases e1
    exact h3 o s' e2

theorem g_exL {X : Cx} (hS : RecSep X.R) {a : EA} {k : Res × Option Id → M β} (e : a.line = true ∨ F = all)
    (h : D G s xs F) (hs : (a.dc :: bs).Sublist xs)
    (h1 : ∀ o s' ys, D G s' (o :: ys) nope → (a.dc :: bs).Sublist ys → wp (k (.good, some o)) Q s')
    (h2 : ∀ s', D G s' xs F → Kp s s' → wp (k (.non, none)) Q s')
    (h3 : ∀ o s', s'.err = true → wp (k (.fail, o)) Q s') : wp (X.R.expr a >>= k) Q s := by
  refine wp_bind (P := fun x s' => Ex3 G s s' a.dc bs x) ?_ fun x s' hx => ?_
  · rcases e with e | rfl
    · exact hS.exprLine a e G s xs bs F h hs
    · exact hS.expr a G s xs bs h hs
  rcases hx with ⟨o, ys, rfl, e1, e2⟩ | ⟨rfl, e1⟩ | ⟨e1, e2⟩
  · exact h1 o s' ys e1 e2
  · exact h2 s' (h.kp e1) e1
  · obtain ⟨r, o⟩ := x
    cases e1
    exact h3 o s' e2

/-! ## Callbacks -/

theorem root_D (s : St) : D (okG s) (rootSt s) [s.next] all := fun o => by
  refine ⟨o, ⟨by simp [rootSt, closes], by simp [rootSt, closes], by simp [rootSt, opens]⟩,
    by simp [rootSt], ?_, rfl⟩
  exact ⟨[.opn s.next .root], [.cls s.next], rfl, rfl, by simp, fun _ _ e => by simp [items, Ev.items] at e⟩

/-- A document made separately. -/
theorem kp_root {m : Id → M α} {w : List Tok → α → List (Option Tok) → Prop} {q : List (Option Tok) → List Tok}
    (he : wp (withRoot m) (fun x s' => Eat s s' (q x.2)) s)
    (h : wp (m s.next) (fun _ s' => ∃ xs F, D (okG s) s' xs F) (rootSt s)) :
    wp (withRoot m) (fun x s' => Kp s s' ∧ (okG s' → apart x.2 = true)) s := by
  intro x s' e
  have h1 := he x s' e
  unfold withRoot at e
  split at e
  · cases e
  · rename_i a s1 hm
    cases e
    obtain ⟨xs, F, hD⟩ := h a s1 hm
    refine ⟨⟨rfl, h1.2.1, fun o => (hD o).1⟩, fun o => (hD o).2.good⟩

/-- What a callback gives back. -/
def KC (s s' : St) (r : Option (List (Option Tok))) : Prop :=
  Kp s s' ∧ (okG s' → ∀ ts, r = some ts → apart ts = true)

theorem KC.none (h : Kp s s') : KC s s' none := ⟨h, fun _ _ e => by cases e⟩

theorem KC.some {ts : List (Option Tok)} (h : Kp s s' ∧ (okG s' → apart ts = true)) :
    KC s s' (some ts) := ⟨h.1, fun o _ e => by cases e; exact h.2 o⟩

theorem kp_pop : wp pop (fun t s' => Kp s s' ∧ t = nxt s) s := by
  intro t s' e
  unfold pop at e
  split at e
  · rename_i hr
    cases e
    exact ⟨Kp.refl s, by simp [nxt, hr]⟩
  · rename_i t r hr
    cases e
    exact ⟨okG_pop, by simp [nxt, hr]⟩

theorem kp_popDoc (s : St) : wp popDoc (fun ts s' => Kp s s' ∧ (okG s' → apart ts = true)) s := by
  unfold popDoc
  refine wp_bind kp_pop fun t s1 h => ?_
  intro ts s' e
  have e : (match withRoot (fun d => emit t d) s1 with
    | none => none
    | some (x, s2) => some (x.2, s2)) = some (ts, s') := e
  unfold withRoot emit at e
  simp only [Option.some.injEq, Prod.mk.injEq] at e
  obtain ⟨e1, e2⟩ := e
  refine ⟨h.1.trans ?_, fun _ => ?_⟩
  · rw [← e2]
    exact ⟨rfl, Nat.le_succ _, fun o => o⟩
  · rw [← e1]
    split
    · rfl
    · simp [ins, items, Ev.items, apart]

variable {X : Cx}

theorem kp_typeRoot (hR : RecOk X.R) (hS : RecSep X.R) (ti : TI) (s : St) :
    wp (withRoot fun d => X.R.type d ti) (fun x s' => Kp s s' ∧ (okG s' → apart x.2 = true)) s :=
  kp_root (w := fun _ _ _ => True) (Spec1.root (fun d => hR.type d ti) s)
    (wp_mono (hS.type s.next ti _ _ _ [] (root_D s) (List.Sublist.refl _)) fun _ _ h => ⟨_, _, h.1⟩)

theorem kp_restore {s1 : St} (h : Mv s s1) : Kp s (restore s s1) :=
  ⟨rfl, h.1, fun o => o⟩

theorem kp_recoverBraces (hR : RecOk X.R) (hS : RecSep X.R) (s : St) :
    wp (recoverBraces X) (fun r s' => KC s s' r) s := by
  intro r s' e
  unfold recoverBraces at e
  split at e
  · cases e
  · rename_i r1 ts s1 h1
    have e0 := Spec1.root (fun d => hR.braces d { dedent := true }) s
    have e1 := kp_root (w := fun _ _ _ => True) e0
      (wp_mono (hS.braces s.next _ _ _ _ [] _ (root_D s) (List.Sublist.refl _)) fun _ _ h => ⟨_, _, h⟩) _ _ h1
    split at e
    · cases e; exact KC.some e1
    · split at e
      · split at e
        · cases e
        · rename_i r2 o ts2 s2 h2
          have k := kp_restore (e0 _ _ h1).mv
          have e2 : wp (withRoot fun d => X.R.block d d { gnu := true })
              (fun x s' => Eat (restore s s1) s' (solid x.2)) (restore s s1) := by
            refine eat_withRoot (P := fun _ _ => True) ?_
            refine wp_mono (hR.block _ _ _ _ [] [] inv_root (List.Sublist.refl _)) ?_
            exact fun _ _ h => ⟨h.1, trivial⟩
          have e3 := kp_root (w := fun _ _ _ => True) e2
            (wp_mono (hS.block _ _ { gnu := true } _ _ _ [] [] _ (root_D (restore s s1)) (List.Sublist.refl _)
              (List.Sublist.refl _)) fun x s' hx => (by
                rcases hx with ⟨c, ys, _, e1, _⟩ | ⟨_, e1⟩ | ⟨_, e1⟩
                · exact ⟨_, _, e1⟩
                · exact ⟨_, _, (root_D _).kp e1⟩
                · exact ⟨[], nope, D.err e1⟩)) _ _ h2
          split at e
          · cases e; exact KC.some ⟨k.trans e3.1, e3.2⟩
          · cases e; exact KC.none (k.trans e3.1)
      · cases e; exact KC.none e1.1

theorem kp_exprRecover (hR : RecOk X.R) (hS : RecSep X.R) (s : St) :
    wp (exprRecover X) (fun r s' => KC s s' r) s := by
  unfold exprRecover
  refine wp_any fun ti => ?_
  split
  · unfold recoverType
    refine wp_backIf fun _ => wp_backIf fun _ => wp_backIf fun _ => ?_
    dsimp only
    split
    · refine wp_bind (kp_typeRoot hR hS _ s) fun x s' h => ?_
      split
      · exact wp_pure (KC.some h)
      · exact wp_pure (KC.none h.1)
    · exact wp_pure (KC.none (Kp.refl s))
  · refine wp_peek fun nx => ?_
    split
    · refine wp_backIf fun _ => wp_backIf fun _ => ?_
      split
      · exact wp_bind (kp_popDoc s) fun _ _ h => wp_pure (KC.some h)
      · exact wp_bind kp_pop fun _ _ h => wp_pure (KC.none h.1)
    · split
      · exact kp_recoverBraces hR hS s
      · split
        · exact wp_bind (kp_popDoc s) fun _ _ h => wp_pure (KC.some h)
        · exact wp_pure (KC.none (Kp.refl s))

theorem kp_exprRecoverCast (hR : RecOk X.R) (hS : RecSep X.R) (s : St) :
    wp (exprRecoverCast X) (fun r s' => KC s s' r) s := by
  unfold exprRecoverCast
  refine wp_q fun _ => wp_any fun ti => ?_
  split
  · exact wp_pure (KC.none (Kp.refl s))
  · refine wp_bind (kp_typeRoot hR hS _ s) fun x s' h => ?_
    split
    · exact wp_pure (KC.some h)
    · exact wp_pure (KC.none h.1)

theorem kp_noteSwallow {n : Nat} : wp (noteSwallow n) (fun _ s' => Kp s s') s := by
  intro a s' e
  unfold noteSwallow at e
  cases e
  refine ⟨rfl, Nat.le_refl _, fun o => ⟨o.1, ?_, o.2.2⟩⟩
  have := o.2.1
  generalize s.gh = g at *
  cases g
  simp only [Ghost.mk.injEq, Bool.or_eq_false_iff] at this
  obtain ⟨⟨a, _⟩, b, c, d⟩ := this
  subst a b c d
  rfl

theorem kp_callback {m : M (Option (List (Option Tok)))} (hm : ∀ s, wp m (fun r s' => KC s s' r) s)
    (s : St) : wp (callback m) (fun r s' => KC s s' r) s := by
  unfold callback pos
  refine wp_readv ?_
  refine wp_bind (hm s) fun r s' h => ?_
  split
  · exact wp_pure h
  · exact wp_bind kp_noteSwallow fun _ _ h' => wp_pure (KC.none (h.1.trans h'))

/-! ## Parsing -/

/-- The parentheses of an expression are parentheses, what callbacks made is set apart. -/
def ExOK : Ex → Prop
  | .null => True
  | .lit _ => True
  | .un _ e => ExOK e
  | .pre _ e => ExOK e
  | .post e _ => ExOK e
  | .bin l _ r => ExOK l ∧ ExOK r
  | .tern c _ m colon t => ExOK c ∧ ExOK m ∧ (∃ k, colon = some k ∧ k.ty = .colon) ∧ ExOK t
  | .parens l e r => l.ty = .lparen ∧ ExOK e ∧ ∃ k, r = some k ∧ k.ty = .rparen
  | .call f l a r => ExOK f ∧ l.ty = .lparen ∧ ExOK a ∧ ∃ k, r = some k ∧ k.ty = .rparen
  | .squares f l i r => ExOK f ∧ l.ty = .lsquare ∧ ExOK i ∧ ∃ k, r = some k ∧ k.ty = .rsquare
  | .field l _ r => ExOK l ∧ ExOK r
  | .cast l ts r e => l.ty = .lparen ∧ apart ts = true ∧ (∃ k, r = some k ∧ k.ty = .rparen) ∧ ExOK e
  | .sizeofE _ e => ExOK e
  | .sizeofP _ l e r => l.ty = .lparen ∧ ExOK e ∧ ∃ k, r = some k ∧ k.ty = .rparen
  | .concat e _ => ExOK e
  | .recov ts => apart ts = true

/-- An expression was parsed. -/
def KX (s s' : St) (e : Ex) : Prop := Kp s s' ∧ (okG s' → ExOK e)

def ParK (f : Par) : Prop := ∀ pc s, wp (f pc) (fun e s' => KX s s' e) s

theorem KX.null (h : Kp s s') : KX s s' .null := ⟨h, fun _ => trivial⟩

theorem kp_lexIf {f : TT → Bool} : wp (lexIf f) (fun o s' => Kp s s' ∧ ∀ t, o = some t → f t.ty = true) s := by
  intro o s' e
  unfold lexIf at e
  split at e
  · cases e; exact ⟨Kp.refl s, fun _ e => by cases e⟩
  · split at e
    · rename_i hf
      cases e; exact ⟨okG_pop, fun _ e => by cases e; exact hf⟩
    · cases e; exact ⟨Kp.refl s, fun _ e => by cases e⟩

theorem kp_expect {ty : TT} : wp (expect ty) (fun o s' => Kp s s' ∧
    (okG s' → ∃ t, o = some t ∧ t.ty = ty)) s := by
  intro o s' e
  have bad : ∀ s : St, Kp s { s with err := true } := fun s => (Kp.refl s).err
  unfold expect at e
  split at e
  · cases e; exact ⟨bad s, fun o => by cases o.1⟩
  · split at e
    · rename_i hf
      cases e; exact ⟨okG_pop, fun _ => ⟨_, rfl, hf⟩⟩
    · cases e; exact ⟨bad s, fun o => by cases o.1⟩

theorem rules_ty : ∀ r ∈ Knfmt.Expr.rules, (r.func = .parens → r.ty = .lparen) ∧
    (r.func = .squares → r.ty = .lsquare) ∧ (r.ty = .ident → r.unary = true → r.func = .literal) := by decide

theorem find_ty {ty : TT} {u : Bool} {r : Rule} (h : findRule ty u = some r) :
    (r.func = .parens → ty = .lparen) ∧ (r.func = .squares → ty = .lsquare) ∧
    (ty = .ident → u = true → r.func = .literal) := by
  unfold findRule at h
  have h1 := List.mem_filter.1 (List.mem_of_getLast? h)
  have h2 := rules_ty r h1.1
  have h3 := h1.2
  simp only [decide_eq_true_eq] at h3
  obtain ⟨rfl, rfl⟩ := h3
  exact h2

theorem kp_nud (hR : RecOk X.R) (hS : RecSep X.R) {f : Par} (hf : ParK f) {r : Rule} {tk : Tok}
    (hr : r.func = .parens → tk.ty = .lparen) : wp (nud X f r tk) (fun e s' => KX s s' e) s := by
  unfold nud
  split
  · exact wp_pure ⟨Kp.refl s, fun _ => trivial⟩
  · exact wp_bind (hf _ _) fun e _ h => wp_pure h
  · exact wp_bind (hf _ _) fun e _ h => wp_pure h
  · unfold execSizeof
    refine wp_bind kp_lexIf fun l s1 h1 => ?_
    split
    · refine wp_bind (hf _ _) fun e s2 h2 => ?_
      refine wp_bind kp_expect fun rp s3 h3 => ?_
      refine wp_pure ⟨h1.1.trans (h2.1.trans h3.1), fun o => ⟨?_, h2.2 (h3.1.2.2 o), h3.2 o⟩⟩
      simpa [is] using h1.2 _ rfl
    · exact wp_bind (hf _ _) fun e _ h => wp_pure ⟨h1.1.trans h.1, h.2⟩
  · rename_i hp
    unfold execParens
    refine wp_bind (kp_callback (kp_exprRecoverCast hR hS) s) fun c s1 h1 => ?_
    split
    · refine wp_bind kp_expect fun rp s3 h3 => ?_
      refine wp_bind (hf _ _) fun e s2 h2 => ?_
      exact wp_pure ⟨h1.1.trans (h3.1.trans h2.1), fun o => ⟨hr hp, h1.2 (h3.1.2.2 (h2.1.2.2 o)) _ rfl,
        h3.2 (h2.1.2.2 o), h2.2 o⟩⟩
    · refine wp_bind (hf _ _) fun e s2 h2 => ?_
      refine wp_bind kp_expect fun rp s3 h3 => ?_
      exact wp_pure ⟨h1.1.trans (h2.1.trans h3.1), fun o => ⟨hr hp, h2.2 (h3.1.2.2 o), h3.2 o⟩⟩
  · exact wp_pure (KX.null (Kp.refl s))

theorem kp_led {f : Par} (hf : ParK f) {r : Rule} {tk : Tok} {lhs : Ex} (hl : okG s → ExOK lhs)
    (hr : r.func = .parens → tk.ty = .lparen) (hr' : r.func = .squares → tk.ty = .lsquare) :
    wp (led f r lhs tk) (fun e s' => KX s s' e) s := by
  unfold led
  split
  · exact wp_bind (hf _ _) fun e _ h => wp_pure ⟨h.1, fun o => ⟨hl (h.1.2.2 o), h.2 o⟩⟩
  · exact wp_pure ⟨Kp.refl s, hl⟩
  · exact wp_bind (hf _ _) fun e _ h => wp_pure ⟨h.1, fun o => ⟨hl (h.1.2.2 o), h.2 o⟩⟩
  · rename_i hp
    refine wp_bind (hf _ _) fun e s2 h2 => ?_
    refine wp_bind kp_expect fun rp s3 h3 => ?_
    exact wp_pure ⟨h2.1.trans h3.1, fun o => ⟨hl ((h2.1.trans h3.1).2.2 o), hr hp, h2.2 (h3.1.2.2 o), h3.2 o⟩⟩
  · exact wp_pure ⟨Kp.refl s, hl⟩
  · rename_i hp
    refine wp_bind (hf _ _) fun e s2 h2 => ?_
    refine wp_bind kp_expect fun rp s3 h3 => ?_
    exact wp_pure ⟨h2.1.trans h3.1, fun o => ⟨hl ((h2.1.trans h3.1).2.2 o), hr' hp, h2.2 (h3.1.2.2 o), h3.2 o⟩⟩
  · unfold execTernary
    refine wp_bind (hf _ _) fun e s2 h2 => ?_
    refine wp_bind kp_expect fun rp s3 h3 => ?_
    refine wp_bind (hf _ _) fun e s4 h4 => ?_
    split
    · exact wp_pure (KX.null (h2.1.trans (h3.1.trans h4.1)))
    · refine wp_pure ⟨h2.1.trans (h3.1.trans h4.1), fun o => ?_⟩
      have o3 := h4.1.2.2 o
      exact ⟨hl ((h2.1.trans h3.1).2.2 o3), h2.2 (h3.1.2.2 o3), h3.2 o3, h4.2 o⟩
  · exact wp_pure (KX.null (Kp.refl s))

theorem exPeek_nxt {stop : Option Nat} {tk : Tok} (h : (if s.err then none else
    match s.rest with
    | [] => none
    | t :: _ => if some t.id = stop then none else some t) = some tk) : nxt s = tk := by
  split at h
  · cases h
  · split at h
    · cases h
    · rename_i t r hr
      split at h
      · cases h
      · injection h with h
        simp [nxt, hr, h]

theorem kp_operand (hR : RecOk X.R) (hS : RecSep X.R) {f : Par} (hf : ParK f) (stop : Option Nat)
    (s : St) : wp (operand X stop f) (fun e s' => KX s s' e) s := by
  unfold operand exPeek
  refine wp_readv ?_
  split
  · exact wp_pure (KX.null (Kp.refl s))
  · rename_i tk htk
    have hn := exPeek_nxt htk
    split
    · refine wp_bind (kp_callback (kp_exprRecover hR hS) s) fun c s' h => ?_
      split
      · exact wp_pure ⟨h.1, fun o => h.2 o _ rfl⟩
      · exact wp_pure (KX.null h.1)
    · rename_i r hr
      have hr := find_ty hr
      split
      · rename_i hid
        refine wp_bind (kp_callback (kp_exprRecover hR hS) s) fun c s' h => ?_
        split
        · exact wp_pure ⟨h.1, fun o => h.2 o _ rfl⟩
        · refine wp_bind (pop_cases s') fun t s2 h2 => ?_
          refine wp_mono (kp_nud hR hS hf fun hp => ?_) fun _ _ h3 => ⟨h.1.trans (h2.2.1.trans h3.1), h3.2⟩
          rw [hr.2.2 hid rfl] at hp
          cases hp
      · refine wp_bind (pop_cases s) fun t s2 h2 => ?_
        refine wp_mono (kp_nud hR hS hf fun hp => ?_) fun _ _ h3 => ⟨h2.2.1.trans h3.1, h3.2⟩
        rw [h2.1, hn]
        exact hr.1 hp

theorem kp_exLoop {s0 : St} {f : Par} (hf : ParK f) (stop : Option Nat) (pc : Nat) {ex : Ex}
    (h : KX s0 s ex) : wp (exLoop stop f pc ex) (fun r s' =>
      (∀ a', r = .inl a' → KX s0 s' a') ∧ (∀ b, r = .inr b → KX s0 s' b)) s := by
  unfold exLoop exPeek
  refine wp_readv ?_
  split
  · exact wp_inr h
  · rename_i tk htk
    have hn := exPeek_nxt htk
    split
    · exact wp_inr h
    · rename_i r hr
      have hr := find_ty hr
      split
      · exact wp_inr h
      · refine wp_bind (pop_cases s) fun t s1 h1 => ?_
        refine wp_bind (kp_led hf (fun o => h.2 (h1.2.1.2.2 o)) (fun hp => ?_) (fun hp => ?_)) fun x s2 h2 => ?_
        · rw [h1.1, hn]; exact hr.1 hp
        · rw [h1.1, hn]; exact hr.2.1 hp
        refine wp_any fun e => ?_
        have k := h.1.trans (h1.2.1.trans h2.1)
        split
        · exact wp_inr (KX.null k)
        · exact wp_inl ⟨k, h2.2⟩

theorem kp_exec1 (hR : RecOk X.R) (hS : RecSep X.R) (stop : Option Nat) : ∀ n, ParK (exec1 X stop n)
  | 0 => fun pc s => by intro a s' e; cases e
  | n + 1 => by
    have hf := kp_exec1 hR hS stop n
    intro pc s
    rw [exec1]
    unfold pos
    refine wp_readv ?_
    refine wp_bind (kp_operand hR hS hf stop s) fun x s1 h1 => ?_
    have fin : ∀ (r : Ex) (s2 : St), KX s s2 r →
        wp (when (decide (r = .null)) (noteSwallow s.done.length) >>= fun _ => pure r)
          (fun e s' => KX s s' e) s2 := by
      intro r s2 h
      refine wp_bind (P := fun _ s3 => Kp s2 s3) (wp_when (fun _ => kp_noteSwallow) fun _ => Kp.refl _) fun _ s3 h3 => ?_
      exact wp_pure ⟨h.1.trans h3, fun o => h.2 (h3.2.2 o)⟩
    split
    · exact wp_bind (P := fun r s2 => KX s s2 r) (wp_pure (KX.null h1.1)) fin
    · refine wp_bind (P := fun r s2 => KX s s2 r) ?_ fin
      refine wp_loop (fun e s2 => KX s s2 e) ?_ n x s1 h1
      intro e s2 h
      exact kp_exLoop hf stop pc h

/-! ## Documents -/

/-- A function documenting an expression: what the caller may go on with, and what is needed to begin
with. -/
def DM (G : Prop) (P : Nx → Prop) (m : Id → M Id) : Prop :=
  ∀ d s xs bs F, D G s xs F → (d :: bs).Sublist xs → (G → P F) →
    wp (m d) (fun r s' => ∃ ys, D G s' (r :: ys) nope ∧ (d :: bs).Sublist (r :: ys)) s

theorem DM.soft {P : Nx → Prop} {m : Id → M Id} (hm : DM G P m) : DM G P (soft X m) := by
  intro d s xs bs F h hs hP
  unfold Parse.soft
  st
  split
  · exact hm d s xs bs F h hs hP
  · st
    refine wp_bind (g_layk' h) fun l s h => ?_
    st
    refine wp_bind (hm _ _ _ _ _ h (List.Sublist.refl _) hP) fun r s ⟨ys, h, hy⟩ => ?_
    st
    exact wp_pure ⟨ys, h, by sub⟩

theorem DM.softIf {P : Nx → Prop} {b : Bool} {m : Id → M Id} (hm : DM G P m) : DM G P (softIf X b m) := by
  intro d s xs bs F h hs hP
  unfold Parse.softIf
  split
  · exact hm.soft d s xs bs F h hs hP
  · exact hm d s xs bs F h hs hP

/-- Nothing, or a document. -/
theorem DM.opt {e : Ex} {m : Id → M Id} (hm : DM G (Pre e) m) (h : D G s xs F)
    (hs : (d :: bs).Sublist xs) (hP : G → e ≠ .null → Pre e F) :
    wp (docOpt e m d) (fun r s' => ∃ ys, D G s' (r :: ys) nope ∧ (d :: bs).Sublist (r :: ys)) s := by
  unfold docOpt
  split
  · exact wp_pure ⟨bs, (h.sub hs).no, List.Sublist.refl _⟩
  · rename_i he
    exact hm d s xs bs F h hs fun g => hP g he

/-- The same after white space, or after a token that needs none. -/
theorem DM.optA {e : Ex} {m : Id → M Id} (hm : DM G (Pre e) m) (h : D G s xs all)
    (hs : (d :: bs).Sublist xs) :
    wp (docOpt e m d) (fun r s' => ∃ ys, D G s' (r :: ys) nope ∧ (d :: bs).Sublist (r :: ys)) s :=
  hm.opt h hs fun _ _ => Pre.all e

end Knfmt.Parse.Sep
