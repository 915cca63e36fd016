import Verif.Parse.Consume
import Verif.Parse.Repair
/-!
# The repaired parser ends

`Tot K m`: with at most `K` tokens left, `m` does not run out of fuel.
-/
namespace Knfmt.Parse
open Knfmt.Lexer (TT)
open Knfmt.Expr (Rule Func findRule)

/-! ## No error after success -/

/-- Success of the functions called recursively. -/
class RecFine (X : Cx) : Prop where
  expr : ∀ a, Ok (X.R.expr a) good1
  braces : ∀ d F, Ok (X.R.braces d F) isGood
  block : ∀ h t F, Ok (X.R.block h t F) good1
  stmt : ∀ d, Ok (X.R.stmt d) isGood
  decl : ∀ d F, Ok (X.R.decl d F) isGood
  root : ∀ d, Ok (X.R.root d) isGood

theorem ok_case {α β : Type} {m : M α} {k : α → M β} {g : β → Prop} {g1 : α → Prop} (h : Ok m g1)
    (h1 : ∀ a, g1 a → ∃ b, k a = pure b) (h2 : ∀ a, ¬ g1 a → Ok (k a) g) : Ok (m >>= k) g := by
  refine ⟨fun s b s' e hb => ?_⟩
  obtain ⟨a, s1, e1, e2⟩ := bind_some e
  by_cases ha : g1 a
  · obtain ⟨c, hc⟩ := h1 a ha
    rw [hc] at e2
    cases e2
    exact h.run _ _ _ e1 ha
  · exact (h2 a ha).run _ _ _ e2 hb

/-- A result made from another one. -/
theorem ok_map {α β : Type} {m : M α} {f : α → β} {g : β → Prop} {g1 : α → Prop} (h : Ok m g1)
    (h1 : ∀ a, g (f a) → g1 a) : Ok (m >>= fun a => pure (f a)) g :=
  ok_case h (fun a _ => ⟨_, rfl⟩) fun a ha => ⟨fun s b s' e hb => by cases e; exact absurd (h1 a hb) ha⟩

/-- Another function if there is nothing to parse. -/
theorem ok_or {m k : M Res} (h : Ok m isGood) (h' : Ok k isGood) :
    Ok (m >>= fun r => if r ≠ .non then pure r else k) isGood :=
  ok_case h (fun a ha => ⟨a, by rw [if_pos (by rw [ha]; simp)]⟩) fun a ha => by
    split
    · exact ⟨fun s b s' e hb => by cases e; exact absurd hb ha⟩
    · exact h'

/-- Go through the body of a function. -/
syntax "okay" : tactic
macro_rules
  | `(tactic| okay) => `(tactic|
    repeat' first
      | infer_instance
      | (refine @ok_nev _ _ _ ?_; vac)
      | (with_reducible refine ok_map (g1 := isGood) ?_ fun a h => ?_
         · infer_instance
         · exact h)
      | (with_reducible refine ok_map (g1 := good1) ?_ fun a h => ?_
         · infer_instance
         · exact h)
      | refine ok_right fun a => ?_
      | split
      | dsimp only)

section
variable {X : Cx} [h : RecFine X] {d : Id}

instance {a : EA} : Ok (X.R.expr a) good1 := h.expr a
instance {F : CF} : Ok (X.R.braces d F) isGood := h.braces d F
instance {b : Id} {F : BF} : Ok (X.R.block d b F) good1 := h.block d b F
instance : Ok (X.R.stmt d) isGood := h.stmt d
instance {F : DF} : Ok (X.R.decl d F) isGood := h.decl d F
instance : Ok (X.R.root d) isGood := h.root d

instance ok_semi : Ok (parserSemi d) isGood := by
  unfold parserSemi
  okay

theorem ok_funcArgRound {rp : Nat} {pv : Option Tok} :
    Ok (funcArgRound X rp d pv) fun x => x = .inr .good := by
  have h1 : Ok (parserGood >>= fun r => (pure (.inr r) : M (Option Tok ⊕ Res))) fun x => x = .inr .good :=
    ok_map (g1 := isGood) inferInstance fun a h => by cases h; rfl
  have h2 : Nev (parserFail >>= fun r => (pure (.inr r) : M (Option Tok ⊕ Res))) fun x => x = .inr .good :=
    nev_case (g1 := isGood) inferInstance fun a h => nev_pure fun h' => h (by cases h'; rfl)
  have h3 : ∀ o, Nev (pure (.inl o) : M (Option Tok ⊕ Res)) fun x => x = .inr .good :=
    fun o => nev_pure (by simp)
  unfold funcArgRound
  okay

theorem ok_loop {α β : Type} {f : α → M (α ⊕ β)} {g : β → Prop}
    (h : ∀ a, Ok (f a) fun x => ∃ b, x = .inr b ∧ g b) : ∀ (n : Nat) (a : α), Ok (loop n f a) g
  | 0, _ => ⟨fun _ _ _ e => by cases e⟩
  | n + 1, a => by
    refine ⟨fun s b s' e hb => ?_⟩
    obtain ⟨x, s1, e1, e2⟩ := bind_some e
    cases x with
    | inl a' => exact (ok_loop h n a').run _ _ _ e2 hb
    | inr b' =>
      cases e2
      exact (h a).run _ _ _ e1 ⟨_, rfl, hb⟩

instance ok_funcArg {rp : Nat} : Ok (funcArg X d rp) good1 := by
  unfold funcArg
  refine ok_right fun ti => ?_
  split
  · okay
  refine ok_right fun c => ?_
  refine ok_right fun _ => ?_
  refine ok_right fun c => ?_
  refine ok_right fun a => ?_
  refine ok_right fun _ => ?_
  refine ok_right fun _ => ?_
  refine ok_right fun t => ?_
  split
  · okay
  refine ok_right fun c => ?_
  refine ok_right fun _ => ?_
  refine ok_right fun _ => ?_
  refine ok_right fun _ => ?_
  refine ok_right fun _ => ?_
  refine ok_right fun _ => ?_
  refine ok_right fun _ => ?_
  refine ok_map (g1 := isGood) (ok_loop (fun a => ?_) _ _) fun a h => h
  exact ⟨fun s x s' e hx => by
    obtain ⟨b, h1, h2⟩ := hx
    exact ok_funcArgRound.run s x s' e (by rw [h1, h2])⟩

instance ok_cppX : Ok (cppX X d) isGood := by
  unfold cppX
  okay

instance ok_cdefs : Ok (cppCdefs d) isGood := by
  unfold cppCdefs
  okay

instance ok_declRoot : Ok (cppDeclRoot d) isGood := by
  unfold cppDeclRoot
  okay

instance ok_asmOperandCpp : Ok (asmOperandCpp X d) isGood := by
  unfold asmOperandCpp
  okay

instance ok_asmOperand : Ok (asmOperand X d) isGood := by
  unfold asmOperand
  okay

instance ok_asm : Ok (asm_ X d) isGood := by
  unfold asm_
  okay

instance ok_stmtAsm : Ok (stmtAsm X d) isGood := by
  unfold stmtAsm
  okay

instance ok_rootAsm : Ok (rootAsm X d) isGood := by
  unfold rootAsm
  okay

instance ok_bracesField1 {e : Bool} : Ok (bracesField1 X e d) isGood := by
  unfold bracesField1
  okay

instance ok_bracesField {e : Bool} {r : Nat} : Ok (bracesField X e r d) isGood := by
  unfold bracesField
  okay

instance ok_bracesElem {F : CF} {r : Nat} {c : Option (Option Nat)} : Ok (bracesElem X F r c d) good1 := by
  unfold bracesElem
  okay

instance ok_bracesEnd : Ok (bracesEnd d) isGood := by
  unfold bracesEnd
  okay

instance ok_braces {F : CF} : Ok (bracesF X d F) isGood := by
  unfold bracesF
  okay

instance ok_funcDecl : Ok (funcDecl X d) isGood := by
  unfold funcDecl
  okay

instance ok_funcImpl : Ok (funcImpl X d) isGood := by
  unfold funcImpl
  okay

instance ok_initParens {l r : TT} : Ok (initParens X l r d) isGood := by
  unfold initParens
  okay

instance ok_declInit1 {o : Option Id} : Ok (declInit1 X d o) good1 := by
  unfold declInit1
  okay

instance ok_declInitAssign {o : Option Id} {n : Nat} : Ok (declInitAssign X d o n) good1 := by
  unfold declInitAssign
  okay

instance ok_declSemi {F : DF} {o : Id} : Ok (declSemi F d o) isGood := by
  unfold declSemi
  okay

instance ok_decl2 {F : DF} : Ok (decl2 X d F) isGood := by
  unfold decl2
  okay

instance ok_decl {F : DF} : Ok (declF X d F) isGood := by
  unfold declF
  okay

instance ok_block {t : Id} {F : BF} : Ok (blockF X d t F) good1 := by
  unfold blockF
  okay

instance ok_kwTail {c : Id} {ty : TT} {F : KF} {r : Nat} : Ok (kwTail X d c ty F r) isGood := by
  unfold kwTail
  okay

instance ok_kwExpr {ty : TT} {F : KF} : Ok (kwExpr X d ty F) isGood := by
  unfold kwExpr
  okay

theorem ok_alts : ∀ ms : List (M Res), Ok (alts ms) isGood
  | [] => inferInstanceAs (Ok parserNone isGood)
  | m :: ms => by
    have := ok_alts ms
    unfold alts
    okay

instance ok_stmt : Ok (stmtF X d) isGood := ok_alts _

instance ok_extern : Ok (extern_ X d) isGood := by
  unfold extern_
  okay

instance ok_root : Ok (rootF X d) isGood := by
  unfold rootF
  exact ok_or inferInstance (ok_or inferInstance (ok_or inferInstance (ok_or inferInstance inferInstance)))

instance ok_expr {a : EA} : Ok (exprF X a) good1 := by
  unfold exprF
  okay

end

/-! ## Enough fuel -/

/-- See above. -/
class Tot {α : Type} (K : Nat) (m : M α) : Prop where
  run : ∀ s, s.len ≤ K → ∃ r, m s = some r

section
variable {α β : Type} {K : Nat} {m : M α} {k : α → M β}

theorem Tot.mono {K' : Nat} (h : Tot K m) (hk : K' ≤ K) : Tot K' m :=
  ⟨fun s hs => h.run s (Nat.le_trans hs hk)⟩

instance (priority := low) tot_easy [h : Easy m] : Tot K m :=
  ⟨fun s _ => by obtain ⟨a, s', e, -⟩ := h.run s; exact ⟨_, e⟩⟩

instance tot_bind [h : Tot K m] [hm : Mon m] [hk : ∀ a, Tot K (k a)] : Tot K (m >>= k) := by
  refine ⟨fun s hs => ?_⟩
  obtain ⟨⟨a, s1⟩, e⟩ := h.run s hs
  rw [bind_of e]
  exact (hk a).run s1 (Nat.le_trans (hm.step _ _ _ e).rest hs)

instance tot_ite {c : Prop} [Decidable c] {m1 m2 : M α} [h1 : Tot K m1] [h2 : Tot K m2] :
    Tot K (if c then m1 else m2) := by
  split
  · exact h1
  · exact h2

instance tot_when {b : Bool} {m : M Unit} [h : Tot K m] : Tot K (when b m) := by
  unfold when
  infer_instance

/-- Fewer tokens are left afterwards. -/
theorem tot_case {g : α → Prop} (h : Tot K m) (hm : Mon m) (hs : Str false m g)
    (h1 : ∀ a, ¬ g a → Tot K (k a)) (h2 : ∀ a K', g a → K = K' + 1 → Tot K' (k a)) :
    Tot K (m >>= k) := by
  refine ⟨fun s hl => ?_⟩
  obtain ⟨⟨a, s1⟩, e⟩ := h.run s hl
  rw [bind_of e]
  by_cases ha : g a
  · have := hs.run _ _ _ e ha (by simp)
    obtain ⟨K', hK⟩ : ∃ K', K = K' + 1 := ⟨K - 1, by omega⟩
    exact (h2 a K' ha hK).run s1 (by omega)
  · exact (h1 a ha).run s1 (Nat.le_trans (hm.step _ _ _ e).rest hl)

instance tot_lexIf {p : TT → Bool} : Tot K (lexIf p) := by
  refine ⟨fun s _ => ?_⟩
  unfold lexIf
  split
  · exact ⟨_, rfl⟩
  · split <;> exact ⟨_, rfl⟩

instance tot_expect {ty : TT} : Tot K (expect ty) := by
  refine ⟨fun s _ => ?_⟩
  unfold expect
  split
  · exact ⟨_, rfl⟩
  · split <;> exact ⟨_, rfl⟩

instance tot_pop : Tot K pop := by
  refine ⟨fun s _ => ?_⟩
  unfold pop
  split <;> exact ⟨_, rfl⟩

instance tot_fail : Tot K parserFail := ⟨fun _ _ => ⟨_, rfl⟩⟩
instance tot_trimSemis : Tot K trimSemis := ⟨fun _ _ => ⟨_, rfl⟩⟩
instance tot_rmSemi {i : Nat} : Tot K (fun s => some ((), { s with rest := rmSemi i s.rest }) : M Unit) :=
  ⟨fun _ _ => ⟨_, rfl⟩⟩
instance tot_skip {r : List Tok} : Tot K (skip r) := ⟨fun _ _ => ⟨_, rfl⟩⟩

instance tot_expectEmit {ty : TT} {d : Id} : Tot K (expectEmit ty d) := by
  unfold expectEmit
  refine @tot_bind _ _ _ _ _ _ _ fun o => ?_
  split <;> infer_instance

instance tot_ifEmit {ty : TT} {d : Id} : Tot K (ifEmit ty d) := by
  unfold ifEmit
  refine @tot_bind _ _ _ _ _ _ _ fun o => ?_
  split <;> infer_instance

instance tot_peeking [h : Tot K m] : Tot K (peeking m) := by
  refine ⟨fun s hs => ?_⟩
  obtain ⟨⟨a, s'⟩, e⟩ := h.run s hs
  unfold peeking
  rw [e]
  exact ⟨_, rfl⟩

instance tot_withRoot {m : Id → M α} [h : ∀ d, Tot K (m d)] : Tot K (withRoot m) := by
  refine ⟨fun s hs => ?_⟩
  obtain ⟨⟨a, s'⟩, e⟩ := (h s.next).run
    { s with L := [.opn s.next .root, .cls s.next], next := s.next + 1 } hs
  unfold withRoot
  rw [e]
  exact ⟨_, rfl⟩

theorem tot_loop {f : α → M (α ⊕ β)} (hm : ∀ a, Mon (f a)) (hs : ∀ a, Str false (f a) goes) :
    ∀ {n K : Nat} (a : α), K < n → (∀ a, Tot K (f a)) → Tot K (loop n f a) := by
  intro n
  induction n with
  | zero => intro K a h; exact absurd h (Nat.not_lt_zero _)
  | succ n ih =>
    intro K a hn h
    refine tot_case (g := goes) (h a) (hm a) (hs a) (fun x hx => ?_) fun x K' hx hK => ?_
    · cases x with
      | inl a' => exact absurd rfl hx
      | inr b => infer_instance
    · cases x with
      | inl a' => exact ih a' (by omega) fun a => (h a).mono (by omega)
      | inr b => infer_instance

/-- Loops that call something that only ends after consumption. -/
theorem tot_loop1 {f : α → M (α ⊕ β)} (hm : ∀ a, Mon (f a)) (hs : ∀ a, Str false (f a) goes)
    {n : Nat} (a : α) (hn : K < n) (h0 : Tot K (f a)) (h : ∀ a, ∀ K' < K, Tot K' (f a)) :
    Tot K (loop n f a) := by
  cases n with
  | zero => exact absurd hn (Nat.not_lt_zero _)
  | succ n =>
    refine tot_case (g := goes) h0 (hm a) (hs a) (fun x hx => ?_) fun x K' hx hK => ?_
    · cases x with
      | inl a' => exact absurd rfl hx
      | inr b => infer_instance
    · cases x with
      | inl a' => exact tot_loop hm hs a' (by omega) fun a => h a K' (by omega)
      | inr b => infer_instance
end

/-- All functions called recursively end. -/
class All (X : Cx) (K : Nat) : Prop where
  fuel : K + 2 ≤ X.n
  expr : ∀ a, Tot K (X.R.expr a)
  type : ∀ d ti, Tot K (X.R.type d ti)
  braces : ∀ d F, Tot K (X.R.braces d F)
  block : ∀ h t F, Tot K (X.R.block h t F)
  stmt : ∀ d, Tot K (X.R.stmt d)
  decl : ∀ d F, Tot K (X.R.decl d F)
  root : ∀ d, Tot K (X.R.root d)

/-- They end once a token has been consumed. -/
class Late (X : Cx) (K : Nat) : Prop where
  fuel : K + 2 ≤ X.n
  late : ∀ K' < K, All X K'

/-- Those called before a token has been consumed. -/
class Now0 (X : Cx) (K : Nat) : Prop where
  type : ∀ d ti, Tot K (X.R.type d ti)
  braces : ∀ d F, Tot K (X.R.braces d F)
  block : ∀ h t F, Tot K (X.R.block h t F)
/-- The same. -/
class Now1 (X : Cx) (K : Nat) : Prop where
  expr : ∀ a, Tot K (X.R.expr a)
/-- The same. -/
class Now2 (X : Cx) (K : Nat) : Prop where
  decl : ∀ d F, Tot K (X.R.decl d F)

/-- What is needed to know about the functions called recursively: `parser_type` always consumes a
token. -/
class Recs (X : Cx) : Prop where
  mon : RecMon X
  str : RecStr X
  ok : RecFine X
  type : ∀ d ti, Str false (X.R.type d ti) isGood

section
variable {X : Cx} {K : Nat}

theorem All.mono {K' : Nat} (h : All X K) (hk : K' ≤ K) : All X K' :=
  ⟨by have := h.fuel; omega, fun a => (h.expr a).mono hk, fun d ti => (h.type d ti).mono hk,
    fun d F => (h.braces d F).mono hk, fun a b F => (h.block a b F).mono hk,
    fun d => (h.stmt d).mono hk, fun d F => (h.decl d F).mono hk, fun d => (h.root d).mono hk⟩

instance [h : All X K] : Late X K := ⟨h.fuel, fun _ hk => h.mono (Nat.le_of_lt hk)⟩
instance [h : All X K] : Now0 X K := ⟨h.type, h.braces, h.block⟩
instance [h : All X K] : Now1 X K := ⟨h.expr⟩
instance [h : All X K] : Now2 X K := ⟨h.decl⟩

/-- Fewer tokens are left afterwards. -/
theorem tot_late (hL : Late X K) {α β : Type} {m : M α} {k : α → M β} {g : α → Prop} (h : Tot K m)
    (hm : Mon m) (hs : Str false m g) (h1 : ∀ a, ¬ g a → Tot K (k a))
    (h2 : ∀ a K', g a → All X K' → Tot K' (k a)) : Tot K (m >>= k) :=
  tot_case h hm hs h1 fun a K' ha hK => h2 a K' ha (hL.late K' (by omega))

/-- The same for a token. -/
theorem tot_in (hL : Late X K) {α β : Type} {m : M (Option α)} {k : Option α → M β} (hs : Str false m isIn)
    (h : Tot K m) (hm : Mon m) (h1 : Tot K (k none)) (h2 : ∀ t K', All X K' → Tot K' (k (some t))) :
    Tot K (m >>= k) :=
  tot_late hL h hm hs
    (fun a ha => by
      cases a with
      | none => exact h1
      | some t => exact absurd (by simp [isIn]) ha)
    fun a K' ha hA => by
      cases a with
      | none => exact absurd rfl ha
      | some t => exact h2 t K' hA

/-- The same for a function. -/
theorem tot_good (hL : Late X K) {β : Type} {m : M Res} {k : Res → M β} (hs : Str false m isGood)
    (h : Tot K m) (hm : Mon m) (h1 : ∀ r, r ≠ .good → Tot K (k r)) (h2 : ∀ K', All X K' → Tot K' (k .good)) :
    Tot K (m >>= k) :=
  tot_late hL h hm hs (fun a ha => h1 a ha) fun a K' ha hA => by cases ha; exact h2 K' hA

variable {d : Id}
instance [h : Recs X] : RecMon X := h.mon
instance [h : Recs X] : RecStr X := h.str
instance [h : Recs X] : RecFine X := h.ok
instance [h : Now1 X K] {a : EA} : Tot K (X.R.expr a) := h.expr a
instance [h : Now0 X K] {ti : TI} : Tot K (X.R.type d ti) := h.type d ti
instance [h : Now0 X K] {F : CF} : Tot K (X.R.braces d F) := h.braces d F
instance [h : Now0 X K] {b : Id} {F : BF} : Tot K (X.R.block d b F) := h.block d b F
instance [h : All X K] : Tot K (X.R.stmt d) := h.stmt d
instance [h : Now2 X K] {F : DF} : Tot K (X.R.decl d F) := h.decl d F
instance [h : All X K] : Tot K (X.R.root d) := h.root d
instance [h : Recs X] {ti : TI} : Str false (X.R.type d ti) isGood := h.type d ti
end

instance str_expect' {ty : TT} : Str false (expect ty) isIn := by
  refine ⟨fun s a s' e ha _ => ?_⟩
  unfold expect at e
  split at e
  · cases e
    exact absurd rfl ha
  · split at e
    · cases e
      simp [St.len, ‹s.rest = _›]
    · cases e
      exact absurd rfl ha

/-- Go through the body of a function. -/
syntax "tot" : tactic
macro_rules
  | `(tactic| tot) => `(tactic|
    repeat' first
      | infer_instance
      | (refine tot_in ‹_› ?_ ?_ ?_ ?_ fun a K' all => ?_
         · infer_instance
         · infer_instance
         · infer_instance)
      | (refine tot_good ‹_› ?_ ?_ ?_ (fun a h => ?_) fun K' all => ?_
         · infer_instance
         · infer_instance
         · infer_instance)
      | (refine @tot_bind _ _ _ _ _ ?_ ?_ fun a => ?_
         · infer_instance
         · infer_instance)
      | (simp_all; done)
      | split
      | dsimp only)

section
variable {X : Cx} [hX : Recs X] {d : Id} {K : Nat}

theorem tot_semiLast {semi : Tok} : Tot K (fun s =>
      match semisOn semi s.rest with
      | ([], _) => some (semi, s)
      | (t :: ts, r) =>
        let l := (t :: ts).getLast (by simp)
        some (l, { s with done := l :: s.done, rest := r }) : M Tok) := by
  refine ⟨fun s _ => ?_⟩
  dsimp only
  split <;> exact ⟨_, rfl⟩

instance tot_semi : Tot K (parserSemi d) := by
  unfold parserSemi
  have := @tot_semiLast K
  have := mon_semiLast
  tot

theorem Late.lt (h : Late X K) : K < X.n := by
  have := h.fuel
  omega

/-- Loops of functions. -/
theorem tot_loopX {α β : Type} {f : α → M (α ⊕ β)} [hL : Late X K] {a : α} [hm : ∀ a, Mon (f a)]
    [hs : ∀ a, Str false (f a) goes] [h : ∀ a, Tot K (f a)] : Tot K (loop X.n f a) :=
  tot_loop hm hs a hL.lt h

instance tot_attrRound [h : Late X K] {l : Bool} {fin : Tok} {o : Id} {v : Nat × Option Id} :
    Tot K (attrRound X l fin o v) := by
  unfold attrRound
  tot

instance [h : Late X K] {l : Bool} {fin : Tok} {o : Id} {v : Nat × Option Id} :
    Tot K (loop X.n (attrRound X l fin o) v) := tot_loopX

instance tot_attributes [h : Late X K] {l f : Bool} : Tot K (attributes X d l f) := by
  unfold attributes
  tot

instance tot_funcArgRound [h : Late X K] {rp : Nat} {pv : Option Tok} : Tot K (funcArgRound X rp d pv) := by
  unfold funcArgRound
  tot

instance [h : Late X K] {rp : Nat} {pv : Option Tok} : Tot K (loop X.n (funcArgRound X rp d) pv) := tot_loopX

instance tot_funcArg [h : Late X K] [h0 : Now0 X K] {rp : Nat} : Tot K (funcArg X d rp) := by
  unfold funcArg
  tot

instance tot_funcArgs [h : Late X K] [h0 : Now0 X K] {rp : Nat} : Tot K (funcArgs X d rp) := by
  unfold funcArgs
  refine tot_loop (fun a => by mon) (fun a => by str) _ h.lt fun a => ?_
  tot

instance tot_cppX [h : Late X K] [h1 : Now1 X K] : Tot K (cppX X d) := by
  unfold cppX
  refine @tot_bind _ _ _ _ _ _ _ fun p => ?_
  split
  · tot
  · refine @tot_bind _ _ _ _ _ _ _ fun c => ?_
    refine @tot_bind _ _ _ _ _ ?_ ?_ fun _ => ?_
    · refine tot_loop (fun a => by mon) (fun a => by str) _ h.lt fun a => ?_
      tot
    · refine @mon_loop _ _ _ (fun a => ?_) _ _
      mon
    · tot

instance tot_cdefs : Tot K (cppCdefs d) := by
  unfold cppCdefs
  tot

instance tot_declRoot : Tot K (cppDeclRoot d) := by
  unfold cppDeclRoot
  tot

instance tot_docAsmOperand : Tot K (docAsmOperand d) := by
  unfold docAsmOperand
  tot

instance tot_asmOperandCpp [h1 : Now1 X K] : Tot K (asmOperandCpp X d) := by
  unfold asmOperandCpp
  tot

instance tot_asmName : Tot K (asmName d) := by
  unfold asmName
  tot

instance tot_asmTemplate : Tot K (asmTemplate d) := by
  unfold asmTemplate
  tot

instance tot_asmOperand [h1 : Now1 X K] : Tot K (asmOperand X d) := by
  unfold asmOperand
  tot

instance tot_asmOperands [h : Late X K] [h1 : Now1 X K] : Tot K (asmOperands X d) := by
  unfold asmOperands
  refine tot_loop (fun a => by mon) (fun a => by str) _ h.lt fun a => ?_
  tot

instance tot_asmOperandList [h : Late X K] [h1 : Now1 X K] {c : Id} : Tot K (asmOperandList X d c) := by
  unfold asmOperandList
  tot

instance tot_asmExprList [h1 : Now1 X K] {c : Id} : Tot K (asmExprList X d c) := by
  unfold asmExprList
  tot

instance tot_asm [h : Late X K] [h1 : Now1 X K] : Tot K (asm_ X d) := by
  unfold asm_
  refine @tot_bind _ _ _ _ _ _ _ fun p => ?_
  split
  · tot
  · refine @tot_bind _ _ _ _ _ _ _ fun c => ?_
    refine @tot_bind _ _ _ _ _ _ _ fun _ => ?_
    refine @tot_bind _ _ _ _ _ ?_ ?_ fun _ => ?_
    · refine tot_loop (fun a => by mon) (fun a => by str) _ h.lt fun a => ?_
      tot
    · refine @mon_loop _ _ _ (fun a => ?_) _ _
      mon
    · tot

instance tot_stmtAsm [h : Late X K] [h1 : Now1 X K] : Tot K (stmtAsm X d) := by
  unfold stmtAsm
  tot

instance tot_rootAsm [h : Late X K] [h1 : Now1 X K] : Tot K (rootAsm X d) := by
  unfold rootAsm
  tot

instance tot_bracesField1 [h1 : Now1 X K] {e : Bool} : Tot K (bracesField1 X e d) := by
  unfold bracesField1
  tot

instance tot_bracesField [h : Late X K] [h1 : Now1 X K] {e : Bool} {r : Nat} :
    Tot K (bracesField X e r d) := by
  unfold bracesField
  refine @tot_bind _ _ _ _ _ ?_ ?_ fun _ => ?_
  · refine tot_loop (fun a => by mon) (fun a => by str) _ h.lt fun a => ?_
    tot
  · refine @mon_loop _ _ _ (fun a => ?_) _ _
    mon
  · tot

instance tot_bracesElem [h : All X K] {F : CF} {r : Nat} {c : Option (Option Nat)} :
    Tot K (bracesElem X F r c d) := by
  unfold bracesElem
  tot

instance tot_bracesSpace {F : CF} {r : Nat} {b c : Id} : Tot K (bracesSpace X F r d b c) := by
  unfold bracesSpace
  tot

instance tot_bracesRound [h : All X K] {F : CF} {r : Nat} {v : Id × Option (Option Nat)} :
    Tot K (bracesRound X F r d v) := by
  unfold bracesRound
  tot

instance str_bracesRound' {F : CF} {r : Nat} {v : Id × Option (Option Nat)} :
    Str false (bracesRound X F r d v) goes := by
  unfold bracesRound
  str

instance [h : All X K] {F : CF} {r : Nat} {v : Id × Option (Option Nat)} :
    Tot K (loop X.n (bracesRound X F r d) v) := tot_loopX

instance tot_bracesEnd : Tot K (bracesEnd d) := by
  unfold bracesEnd
  tot

instance tot_braces [h : Late X K] {F : CF} : Tot K (bracesF X d F) := by
  unfold bracesF
  tot

instance tot_protoFuncPtr [h : All X K] : Tot K (protoFuncPtr X d) := by
  unfold protoFuncPtr
  tot

instance tot_protoName {c : Id} : Tot K (protoName d c) := by
  unfold protoName
  tot

instance tot_krArgs [h : All X K] : Tot K (krArgs X d) := by
  unfold krArgs
  tot

instance tot_protoAttrs [h : Late X K] : Tot K (protoAttrs X d) := by
  unfold protoAttrs
  tot

instance tot_protoTail [h : All X K] {c : Id} : Tot K (protoTail X d c) := by
  unfold protoTail
  tot

instance tot_protoArgs [h : All X K] {c : Id} : Tot K (protoArgs X d c) := by
  unfold protoArgs
  tot

instance tot_funcProto [h : Late X K] [h0 : Now0 X K] {ti : TI} {f i : Bool} :
    Tot K (funcProto X d ti f i) := by
  unfold funcProto
  tot

/-- A function has a type, hence it has consumed a token. -/
instance str_funcProto' {ti : TI} {f i : Bool} : Str false (funcProto X d ti f i) good1 := by
  unfold funcProto
  str

instance tot_funcDecl [h : Late X K] [h0 : Now0 X K] : Tot K (funcDecl X d) := by
  unfold funcDecl
  tot

instance tot_funcImpl [h : Late X K] [h0 : Now0 X K] : Tot K (funcImpl X d) := by
  unfold funcImpl
  refine @tot_bind _ _ _ _ _ _ _ fun p => ?_
  split
  · refine tot_late h inferInstance inferInstance str_funcProto' (fun a ha => ?_) fun a K' ha all => ?_
    · have ha : a.1 ≠ .good := ha
      rw [if_pos ha]
      infer_instance
    · tot
  · tot

instance tot_bitfield : Tot K (declBitfield X d) := by
  unfold declBitfield
  tot

instance tot_initParens [h1 : Now1 X K] {l r : TT} : Tot K (initParens X l r d) := by
  unfold initParens
  tot

instance tot_declInit1 [h : Late X K] [h1 : Now1 X K] {o : Option Id} : Tot K (declInit1 X d o) := by
  unfold declInit1
  tot

instance tot_declInitAssign [h0 : Now0 X K] [h1 : Now1 X K] {o : Option Id} {n : Nat} :
    Tot K (declInitAssign X d o n) := by
  unfold declInitAssign
  tot

instance tot_declComma {c : Id} {o : Option Tok} : Tot K (declComma X d c o) := by
  unfold declComma
  tot

instance tot_declInitRound [h : All X K] {n : Nat} {v : Id × Option Id × Nat} :
    Tot K (declInitRound X d n v) := by
  unfold declInitRound
  tot

instance str_declInitRound' {n : Nat} {v : Id × Option Id × Nat} :
    Str false (declInitRound X d n v) goes := by
  unfold declInitRound
  str

instance [h : All X K] {n : Nat} {v : Id × Option Id × Nat} :
    Tot K (loop X.n (declInitRound X d n) v) := tot_loopX

instance tot_declInit [h : All X K] {n : Nat} : Tot K (declInit X d n) := by
  unfold declInit
  tot

instance tot_declBraces [h : All X K] : Tot K (declBraces X d) := by
  unfold declBraces
  tot

instance tot_aggregate [h : All X K] : Tot K (declAggregate X d) := by
  unfold declAggregate
  tot

instance tot_declSemi {F : DF} {o : Id} : Tot K (declSemi F d o) := by
  unfold declSemi
  tot

instance tot_decl2 [h : Late X K] [h0 : Now0 X K] [h1 : Now1 X K] {F : DF} : Tot K (decl2 X d F) := by
  unfold decl2
  tot

instance tot_declRound [h : Late X K] [h0 : Now0 X K] [h1 : Now1 X K] {F : DF} {n : Nat} :
    Tot K (declRound X d F n) := by
  unfold declRound
  tot

instance str_declRound' {F : DF} {n : Nat} : Str false (declRound X d F n) goes := by
  unfold declRound
  str

instance [h : Late X K] [h0 : Now0 X K] [h1 : Now1 X K] {F : DF} {n : Nat} :
    Tot K (loop X.n (declRound X d F) n) := tot_loopX

instance tot_decl [h : Late X K] [h0 : Now0 X K] [h1 : Now1 X K] {F : DF} : Tot K (declF X d F) := by
  unfold declF
  tot

instance tot_blockRound [h : All X K] {s : Bool} {r : Nat} {v : Tok × Nat} : Tot K (blockRound X s r d v) := by
  unfold blockRound
  tot

instance str_blockRound' {s : Bool} {r : Nat} {v : Tok × Nat} : Str false (blockRound X s r d v) goes := by
  unfold blockRound
  str

instance [h : All X K] {s : Bool} {r : Nat} {v : Tok × Nat} :
    Tot K (loop X.n (blockRound X s r d) v) := tot_loopX

instance tot_block [h : Late X K] {t : Id} {F : BF} : Tot K (blockF X d t F) := by
  unfold blockF
  tot

instance tot_kwTail [h : All X K] {c : Id} {ty : TT} {F : KF} {r : Nat} : Tot K (kwTail X d c ty F r) := by
  unfold kwTail
  tot

instance tot_kwExpr [h : Late X K] {ty : TT} {F : KF} : Tot K (kwExpr X d ty F) := by
  unfold kwExpr
  tot

instance tot_ifRound [h : Late X K] {u : Unit} : Tot K (ifRound X d u) := by
  unfold ifRound
  tot

instance str_ifRound' {u : Unit} : Str false (ifRound X d u) goes := by
  unfold ifRound
  str

instance [h : Late X K] {u : Unit} : Tot K (loop X.n (ifRound X d) u) := tot_loopX

instance tot_if [h : Late X K] : Tot K (stmtIf X d) := by
  unfold stmtIf
  tot

instance tot_forPart [h1 : Now1 X K] {l : Bool} {ty : TT} : Tot K (forPart X d l ty) := by
  unfold forPart
  tot

instance tot_for [h : Late X K] : Tot K (stmtFor X d) := by
  unfold stmtFor
  tot

instance tot_dowhile [h : Late X K] : Tot K (stmtDowhile X d) := by
  unfold stmtDowhile
  tot

instance tot_label [h : Late X K] : Tot K (stmtLabel X d) := by
  unfold stmtLabel
  tot

instance tot_caseRound [h : All X K] {t : Tok} {u : Unit} : Tot K (caseRound X d t u) := by
  unfold caseRound
  tot

instance str_caseRound' {t : Tok} {u : Unit} : Str false (caseRound X d t u) goes := by
  unfold caseRound
  str

instance [h : All X K] {t : Tok} {u : Unit} : Tot K (loop X.n (caseRound X d t) u) := tot_loopX

instance tot_stmtCase [h : Late X K] : Tot K (stmtCase X d) := by
  unfold stmtCase
  tot

instance tot_goto : Tot K (stmtGoto d) := by
  unfold stmtGoto
  tot

instance tot_stmtKw [h : Late X K] {ty : TT} : Tot K (stmtKw X ty d) := by
  unfold stmtKw
  tot

instance tot_stmtWord {ty : TT} : Tot K (stmtWord ty d) := by
  unfold stmtWord
  tot

instance tot_return [h : Late X K] : Tot K (stmtReturn X d) := by
  unfold stmtReturn
  tot

instance tot_stmtSemi : Tot K (stmtSemi d) := by
  unfold stmtSemi
  tot

instance tot_stmtCpp [h : Late X K] : Tot K (stmtCpp X d) := by
  unfold stmtCpp
  tot

end
end Knfmt.Parse
