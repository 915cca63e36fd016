import Verif.Parse.Progress
import Verif.Parse.Repair
import Verif.Parse.PeekProps
/-!
# More fuel, or another `parser_type`, gives the same result
-/
namespace Knfmt.Parse
open Knfmt.Lexer (TT)
open Knfmt.Expr (Rule Func findRule)

/-- All tokens have an identity. -/
def St.Wf (s : St) : Prop := ∀ t, s.has t → t.id ≠ 0

theorem St.Wf.rest {s : St} (h : s.Wf) : Nz s.rest := fun t ht => h t (.inr ht)

theorem St.Wf.step {s s' : St} (h : s.Wf) (h' : Step s s') : s'.Wf := fun t ht => h t (h'.sub t ht)

/-- `k` is reached. -/
def hit (k : Option Nat) (n : Nat) : Prop := ∃ K, k = some K ∧ K ≤ n

theorem hit_none (n : Nat) : ¬ hit none n := fun ⟨_, h, _⟩ => by cases h

theorem hit.le {k : Option Nat} {n n' : Nat} (h : hit k n) (h' : n ≤ n') : hit k n' :=
  h.imp fun _ h => ⟨h.1, Nat.le_trans h.2 h'⟩

/-- If `m` ends, then `m'` ends as well and does the same, unless there are `k` documents. -/
class Ref (k : Option Nat) {α : Type} (m m' : M α) : Prop where
  mon : ∀ s a s', m s = some (a, s') → s.next ≤ s'.next
  run : ∀ s a s', s.Wf → m s = some (a, s') → m' s = some (a, s') ∨ hit k s'.next

section
variable {k : Option Nat} {α β : Type} {m m' : M α} {c c' : α → M β}

theorem ref_refl (m : M α) [h : Mon m] : Ref k m m :=
  ⟨fun s a s' e => (h.step s a s' e).next, fun _ _ _ _ e => .inl e⟩

theorem ref_bind (hm : Mon m) (h : Ref k m m') (hk : ∀ a, Ref k (c a) (c' a)) : Ref k (m >>= c) (m' >>= c') := by
  refine ⟨fun s b s' e => ?_, fun s b s' hs e => ?_⟩
  · obtain ⟨a, s1, e1, e2⟩ := bind_some e
    exact Nat.le_trans (h.mon _ _ _ e1) ((hk a).mon _ _ _ e2)
  · obtain ⟨a, s1, e1, e2⟩ := bind_some e
    rcases h.run _ _ _ hs e1 with e1' | h1
    · rw [bind_of e1']
      exact (hk a).run _ _ _ (hs.step (hm.step _ _ _ e1)) e2
    · exact .inr (h1.le ((hk a).mon _ _ _ e2))

/-- The same with something known about the value read. -/
theorem ref_read {f : St → α} {p : α → Prop} (h : ∀ s, s.Wf → p (f s)) (hm : Mon (read f >>= c))
    (hk : ∀ a, p a → Ref k (c a) (c' a)) : Ref k (read f >>= c) (read f >>= c') := by
  refine ⟨fun s b s' e => (hm.step _ _ _ e).next, fun s b s' hs e => ?_⟩
  obtain ⟨a, s1, e1, e2⟩ := bind_some e
  rw [bind_of e1]
  cases e1
  exact (hk _ (h _ hs)).run _ _ _ hs e2

theorem ref_ite {c : Prop} [Decidable c] {m1 m2 m1' m2' : M α} (h1 : c → Ref k m1 m1') (h2 : ¬ c → Ref k m2 m2') :
    Ref k (if c then m1 else m2) (if c then m1' else m2') := by
  split
  · exact h1 ‹_›
  · exact h2 ‹_›

theorem ref_when {b : Bool} {m m' : M Unit} (h : Ref k m m') : Ref k (when b m) (when b m') := by
  unfold when
  exact ref_ite (fun _ => h) (fun _ => ref_refl _)

theorem ref_none : Ref k (fun _ => none : M α) m' := ⟨(fun _ _ _ e => by cases e), (fun _ _ _ _ e => by cases e)⟩

theorem ref_loop {f f' : α → M (α ⊕ β)} (hm : ∀ a, Mon (f a)) (h : ∀ a, Ref k (f a) (f' a)) :
    ∀ {n n' : Nat} (a : α), n ≤ n' → Ref k (loop n f a) (loop n' f' a)
  | 0, _, a, _ => ref_none
  | n + 1, 0, a, hn => by omega
  | n + 1, n' + 1, a, hn => by
    rw [loop, loop]
    refine ref_bind (hm a) (h a) fun r => ?_
    cases r with
    | inl a' => exact ref_loop hm h a' (by omega)
    | inr b => exact ref_refl _

instance ref_rmSemi {i : Nat} : Ref k (fun s => some ((), { s with rest := rmSemi i s.rest }) : M Unit)
    (fun s => some ((), { s with rest := rmSemi i s.rest }) : M Unit) := ref_refl _

instance ref_peeking [h : Ref k m m'] : Ref k (peeking m) (peeking m') := by
  refine ⟨fun s a s' e => ?_, fun s a s' hs e => ?_⟩
  · unfold peeking at e
    split at e
    · cases e
    · rename_i a s1 e1
      cases e
      exact (h.mon _ _ _ e1 : s.next ≤ s1.next)
  · unfold peeking at e ⊢
    split at e
    · cases e
    · rename_i a s1 e1
      cases e
      rcases h.run _ _ _ hs e1 with e1' | h1
      · rw [e1']
        exact .inl rfl
      · exact .inr h1

theorem ref_withRoot {m m' : Id → M α} (h : ∀ d, Ref k (m d) (m' d)) : Ref k (withRoot m) (withRoot m') := by
  refine ⟨fun s a s' e => ?_, fun s r s' hs e => ?_⟩
  · unfold withRoot at e
    split at e
    · cases e
    · cases e
      exact Nat.le_trans (Nat.le_succ _) ((h _).mon _ _ _ ‹_›)
  · unfold withRoot at e ⊢
    split at e
    · cases e
    · rename_i a s1 e1
      have hs' : St.Wf { done := s.done, rest := s.rest, err := s.err, L := [.opn s.next .root, .cls s.next], next := s.next + 1, gh := s.gh } := hs
      cases e
      rcases (h s.next).run _ _ _ hs' e1 with e1' | h1
      · rw [e1']
        exact .inl rfl
      · exact .inr h1
end

/-- `X'` has the same oracle, no less fuel, and its functions do the same as those of `X`. -/
class Below (k : Option Nat) (X X' : Cx) : Prop where
  env : X'.E = X.E
  n : X.n ≤ X'.n
  expr : ∀ a, Ref k (X.R.expr a) (X'.R.expr a)
  type : ∀ d ti, ti.Wf → Ref k (X.R.type d ti) (X'.R.type d ti)
  braces : ∀ d F, Ref k (X.R.braces d F) (X'.R.braces d F)
  block : ∀ h t F, Ref k (X.R.block h t F) (X'.R.block h t F)
  stmt : ∀ d, Ref k (X.R.stmt d) (X'.R.stmt d)
  decl : ∀ d F, Ref k (X.R.decl d F) (X'.R.decl d F)
  root : ∀ d, Ref k (X.R.root d) (X'.R.root d)

instance {k : Option Nat} {X X' : Cx} [h : Below k X X'] {a : EA} : Ref k (X.R.expr a) (X'.R.expr a) := h.expr a
instance {k : Option Nat} {X X' : Cx} [h : Below k X X'] {d : Id} {ti : TI} [hw : ti.Wf] : Ref k (X.R.type d ti) (X'.R.type d ti) := h.type d ti hw
instance {k : Option Nat} {X X' : Cx} [h : Below k X X'] {d : Id} {F : CF} : Ref k (X.R.braces d F) (X'.R.braces d F) := h.braces d F
instance {k : Option Nat} {X X' : Cx} [h : Below k X X'] {a b : Id} {F : BF} : Ref k (X.R.block a b F) (X'.R.block a b F) := h.block a b F
instance {k : Option Nat} {X X' : Cx} [h : Below k X X'] {d : Id} : Ref k (X.R.stmt d) (X'.R.stmt d) := h.stmt d
instance {k : Option Nat} {X X' : Cx} [h : Below k X X'] {d : Id} {F : DF} : Ref k (X.R.decl d F) (X'.R.decl d F) := h.decl d F
instance {k : Option Nat} {X X' : Cx} [h : Below k X X'] {d : Id} : Ref k (X.R.root d) (X'.R.root d) := h.root d
instance {k : Option Nat} {X X' : Cx} [h : Below k X X'] {n : Nat} : Ref k (X.E.q n) (X'.E.q n) := by
  rw [h.env]
  exact ref_refl _

theorem ref_loopX {k : Option Nat} {X X' : Cx} [h : Below k X X'] {α β : Type} {f f' : α → M (α ⊕ β)} {a : α}
    (hm : ∀ a, Mon (f a)) (hf : ∀ a, Ref k (f a) (f' a)) : Ref k (loop X.n f a) (loop X'.n f' a) :=
  ref_loop hm hf a h.n

/-- Go through the body of a function. -/
syntax "ref" : tactic
macro_rules
  | `(tactic| ref) => `(tactic|
    repeat' first
      | with_reducible exact ref_refl _
      | infer_instance
      | (refine ref_when ?_)
      | (refine ref_bind ?_ ?_ fun a => ?_
         · first
            | infer_instance
            | (mon; done)
            | (refine @mon_loop _ _ _ (fun a => ?_) _ _; mon; done))
      | (refine ref_loopX ?_ fun a => ?_
         · intro a; first | infer_instance | (mon; done))
      | (refine ref_withRoot fun d => ?_)
      | (refine @ref_peeking _ _ _ _ ?_)
      | (refine ref_ite (fun h => ?_) fun h => ?_)
      | split
      | dsimp only)

section
variable {k : Option Nat} {X X' : Cx} [hM : RecMon X] [hX : Below k X X'] {d : Id}

instance ref_attrRound {l : Bool} {fin : Tok} {o : Id} {v : Nat × Option Id} :
    Ref k (attrRound X l fin o v) (attrRound X' l fin o v) := by
  unfold attrRound
  ref

instance ref_attributes {l f : Bool} :
    Ref k (attributes X d l f) (attributes X' d l f) := by
  unfold attributes
  ref

instance ref_funcArgRound {rp : Nat} {pv : Option Tok} :
    Ref k (funcArgRound X rp d pv) (funcArgRound X' rp d pv) := by
  unfold funcArgRound
  ref

instance ref_funcArg {rp : Nat} :
    Ref k (funcArg X d rp) (funcArg X' d rp) := by
  unfold funcArg
  refine ref_read (p := fun o => ∀ ti, o = some ti → ti.Wf) (fun s hs ti e => wf_funcArgPeek hs.rest e) (by mon) fun o ho => ?_
  split
  · ref
  · have := ho _ rfl
    ref

instance ref_funcArgs {rp : Nat} :
    Ref k (funcArgs X d rp) (funcArgs X' d rp) := by
  unfold funcArgs
  ref

instance ref_typeRound {ti : TI} {u : Unit} :
    Ref k (typeRoundM X d ti u) (typeRoundM X' d ti u) := by
  unfold typeRoundM
  ref

instance ref_type {ti : TI} :
    Ref k (typeF X d ti) (typeF X' d ti) := by
  unfold typeF
  ref

instance ref_cppX :
    Ref k (cppX X d) (cppX X' d) := by
  unfold cppX
  ref

instance ref_asmOperandCpp :
    Ref k (asmOperandCpp X d) (asmOperandCpp X' d) := by
  unfold asmOperandCpp
  ref

instance ref_asmOperand :
    Ref k (asmOperand X d) (asmOperand X' d) := by
  unfold asmOperand
  ref

instance ref_asmOperands :
    Ref k (asmOperands X d) (asmOperands X' d) := by
  unfold asmOperands
  ref

instance ref_asmOperandList {c : Id} :
    Ref k (asmOperandList X d c) (asmOperandList X' d c) := by
  unfold asmOperandList
  ref

instance ref_asmExprList {c : Id} :
    Ref k (asmExprList X d c) (asmExprList X' d c) := by
  unfold asmExprList
  ref

instance ref_asm :
    Ref k (asm_ X d) (asm_ X' d) := by
  unfold asm_
  ref

instance ref_stmtAsm :
    Ref k (stmtAsm X d) (stmtAsm X' d) := by
  unfold stmtAsm
  ref

instance ref_rootAsm :
    Ref k (rootAsm X d) (rootAsm X' d) := by
  unfold rootAsm
  ref

instance ref_bracesField1 {e : Bool} :
    Ref k (bracesField1 X e d) (bracesField1 X' e d) := by
  unfold bracesField1
  ref

instance ref_bracesField {e : Bool} {r : Nat} :
    Ref k (bracesField X e r d) (bracesField X' e r d) := by
  unfold bracesField
  ref

instance ref_bracesElem {F : CF} {r : Nat} {c : Option (Option Nat)} :
    Ref k (bracesElem X F r c d) (bracesElem X' F r c d) := by
  unfold bracesElem
  ref

instance ref_bracesSpace {F : CF} {r : Nat} {b c : Id} :
    Ref k (bracesSpace X F r d b c) (bracesSpace X' F r d b c) := by
  unfold bracesSpace
  ref

instance ref_bracesRound {F : CF} {r : Nat} {v : Id × Option (Option Nat)} :
    Ref k (bracesRound X F r d v) (bracesRound X' F r d v) := by
  unfold bracesRound
  ref

instance ref_braces {F : CF} :
    Ref k (bracesF X d F) (bracesF X' d F) := by
  unfold bracesF
  ref

instance ref_protoFuncPtr :
    Ref k (protoFuncPtr X d) (protoFuncPtr X' d) := by
  unfold protoFuncPtr
  ref

instance ref_krArgs :
    Ref k (krArgs X d) (krArgs X' d) := by
  unfold krArgs
  ref

instance ref_protoAttrs :
    Ref k (protoAttrs X d) (protoAttrs X' d) := by
  unfold protoAttrs
  ref

instance ref_protoTail {c : Id} :
    Ref k (protoTail X d c) (protoTail X' d c) := by
  unfold protoTail
  ref

instance ref_protoArgs {c : Id} :
    Ref k (protoArgs X d c) (protoArgs X' d c) := by
  unfold protoArgs
  ref

instance ref_funcProto {ti : TI} [ti.Wf] {f i : Bool} :
    Ref k (funcProto X d ti f i) (funcProto X' d ti f i) := by
  unfold funcProto
  ref

instance ref_funcDecl :
    Ref k (funcDecl X d) (funcDecl X' d) := by
  unfold funcDecl
  refine ref_read (p := fun o => ∀ ti, o.2.1 = some ti → ti.Wf) (fun s hs ti e => wf_funcPeek hs.rest e) (by mon) fun o ho => ?_
  split
  · have := ho _ rfl
    ref
  · ref

instance ref_funcImpl :
    Ref k (funcImpl X d) (funcImpl X' d) := by
  unfold funcImpl
  refine ref_read (p := fun o => ∀ ti, o.2.1 = some ti → ti.Wf) (fun s hs ti e => wf_funcPeek hs.rest e) (by mon) fun o ho => ?_
  split
  · have := ho _ rfl
    ref
  · ref

instance ref_bitfield :
    Ref k (declBitfield X d) (declBitfield X' d) := by
  unfold declBitfield
  ref

instance ref_initParens {l r : TT} :
    Ref k (initParens X l r d) (initParens X' l r d) := by
  unfold initParens
  ref

instance ref_declInit1 {o : Option Id} :
    Ref k (declInit1 X d o) (declInit1 X' d o) := by
  unfold declInit1
  ref

instance ref_declInitAssign {o : Option Id} {n : Nat} :
    Ref k (declInitAssign X d o n) (declInitAssign X' d o n) := by
  unfold declInitAssign
  ref

instance ref_declComma {c : Id} {o : Option Tok} :
    Ref k (declComma X d c o) (declComma X' d c o) := by
  unfold declComma
  ref

instance ref_declInitRound {n : Nat} {v : Id × Option Id × Nat} :
    Ref k (declInitRound X d n v) (declInitRound X' d n v) := by
  unfold declInitRound
  ref

instance ref_declInit {n : Nat} :
    Ref k (declInit X d n) (declInit X' d n) := by
  unfold declInit
  ref

instance ref_declBraces :
    Ref k (declBraces X d) (declBraces X' d) := by
  unfold declBraces
  ref

instance ref_aggregate :
    Ref k (declAggregate X d) (declAggregate X' d) := by
  unfold declAggregate
  ref

instance ref_decl2 {F : DF} :
    Ref k (decl2 X d F) (decl2 X' d F) := by
  unfold decl2
  refine ref_bind ?_ ?_ fun a => ?_
  · mon
  · ref
  refine ref_ite (fun h => ?_) fun h => ?_
  · ref
  dsimp only
  refine ref_ite (fun _ => ref_bind inferInstance (ref_refl _) fun b => ?_) fun _ =>
    ref_bind inferInstance (ref_refl _) fun b => ?_
  all_goals
    refine ref_ite (fun h => ?_) fun h => ?_
    · ref
    refine ref_read (p := fun o => ∀ ti, o = some ti → ti.Wf) (fun s hs ti e => ?_) (by mon) fun o ho => ?_
    · cases e1 : typePeek {} s.done.head? s.rest with
      | none => rw [e1] at e; exact wf_cppPeekDecl hs.rest e
      | some y => rw [e1] at e; cases e; exact wf_typePeek hs.rest e1
    split
    · ref
    · have := ho _ rfl
      ref

instance ref_declRound {F : DF} {n : Nat} :
    Ref k (declRound X d F n) (declRound X' d F n) := by
  unfold declRound
  ref

instance ref_decl {F : DF} :
    Ref k (declF X d F) (declF X' d F) := by
  unfold declF
  ref

instance ref_blockRound {s : Bool} {r : Nat} {v : Tok × Nat} :
    Ref k (blockRound X s r d v) (blockRound X' s r d v) := by
  unfold blockRound
  ref

instance ref_block {t : Id} {F : BF} :
    Ref k (blockF X d t F) (blockF X' d t F) := by
  unfold blockF
  ref

instance ref_kwTail {c : Id} {ty : TT} {F : KF} {r : Nat} :
    Ref k (kwTail X d c ty F r) (kwTail X' d c ty F r) := by
  unfold kwTail
  ref

instance ref_kwExpr {ty : TT} {F : KF} :
    Ref k (kwExpr X d ty F) (kwExpr X' d ty F) := by
  unfold kwExpr
  ref

instance ref_ifRound {u : Unit} :
    Ref k (ifRound X d u) (ifRound X' d u) := by
  unfold ifRound
  ref

instance ref_if :
    Ref k (stmtIf X d) (stmtIf X' d) := by
  unfold stmtIf
  ref

instance ref_forPart {l : Bool} {ty : TT} :
    Ref k (forPart X d l ty) (forPart X' d l ty) := by
  unfold forPart
  ref

instance ref_for :
    Ref k (stmtFor X d) (stmtFor X' d) := by
  unfold stmtFor
  ref

instance ref_dowhile :
    Ref k (stmtDowhile X d) (stmtDowhile X' d) := by
  unfold stmtDowhile
  ref

instance ref_label :
    Ref k (stmtLabel X d) (stmtLabel X' d) := by
  unfold stmtLabel
  ref

instance ref_caseRound {t : Tok} {u : Unit} :
    Ref k (caseRound X d t u) (caseRound X' d t u) := by
  unfold caseRound
  ref

instance ref_case :
    Ref k (stmtCase X d) (stmtCase X' d) := by
  unfold stmtCase
  ref

instance ref_stmtKw {ty : TT} :
    Ref k (stmtKw X ty d) (stmtKw X' ty d) := by
  unfold stmtKw
  ref

instance ref_return :
    Ref k (stmtReturn X d) (stmtReturn X' d) := by
  unfold stmtReturn
  ref

instance ref_stmtCpp :
    Ref k (stmtCpp X d) (stmtCpp X' d) := by
  unfold stmtCpp
  ref

/-! ## Expressions -/

theorem ref_callback {m m' : M (Option (List (Option Tok)))} (hm : Mon m) (h : Ref k m m') :
    Ref k (callback m) (callback m') := by
  unfold callback
  ref

instance ref_recoverBraces : Ref k (recoverBraces X) (recoverBraces X') := by
  refine ⟨fun s a s' e => (mon_recoverBraces.step _ _ _ e).next, fun s r s' hs e => ?_⟩
  have hb : Ref k (withRoot fun d => X.R.braces d { dedent := true }) (withRoot fun d => X'.R.braces d { dedent := true }) :=
    ref_withRoot fun d => inferInstance
  have hk : Ref k (withRoot fun d => X.R.block d d { gnu := true }) (withRoot fun d => X'.R.block d d { gnu := true }) :=
    ref_withRoot fun d => inferInstance
  unfold recoverBraces at e ⊢
  split at e
  · cases e
  · rename_i r ts s1 e1
    have h1 := (mon_withRoot (h := fun d => hM.braces d { dedent := true })).step _ _ _ e1
    rcases hb.run _ _ _ hs e1 with e1' | hh
    · rw [e1']
      dsimp only
      split at e
      · rw [if_pos ‹_›]
        exact .inl e
      · rw [if_neg ‹_›]
        split at e
        · rw [if_pos ‹_›]
          split at e
          · cases e
          · rename_i e2
            rcases hk.run _ _ _ (hs.step h1.restore) e2 with e2' | hh
            · rw [e2']
              exact .inl e
            · right
              split at e <;> cases e <;> exact hh
        · rw [if_neg ‹_›]
          exact .inl e
    · right
      split at e
      · cases e
        exact hh
      · split at e
        · split at e
          · cases e
          · rename_i e2
            have h2 := hk.mon _ _ _ e2
            split at e <;> cases e <;> exact hh.le h2
        · cases e
          exact hh

instance ref_recoverType {ti : TI} [ti.Wf] : Ref k (recoverType X ti) (recoverType X' ti) := by
  unfold recoverType
  ref

instance ref_recover : Ref k (exprRecover X) (exprRecover X') := by
  unfold exprRecover
  refine ref_read (p := fun o => ∀ ti, o = some ti → ti.Wf) (fun s hs ti e => wf_typePeek hs.rest e) (by mon) fun o ho => ?_
  split
  · have := ho _ rfl
    ref
  · ref

instance ref_recoverCast : Ref k (exprRecoverCast X) (exprRecoverCast X') := by
  unfold exprRecoverCast
  refine ref_bind inferInstance inferInstance fun sp => ?_
  refine ref_read (p := fun o => ∀ ti, o = some ti → ti.Wf) (fun s hs ti e => wf_castPeek hs.rest e) (by mon) fun o ho => ?_
  split
  · ref
  · have := ho _ rfl
    ref

instance ref_recover' : Ref k (callback (exprRecover X)) (callback (exprRecover X')) :=
  ref_callback inferInstance inferInstance
instance ref_recoverCast' : Ref k (callback (exprRecoverCast X)) (callback (exprRecoverCast X')) :=
  ref_callback inferInstance inferInstance

section
variable {f f' : Par} [hf : ∀ pc, Mon (f pc)] [hf' : ∀ pc, Ref k (f pc) (f' pc)]

omit hM hX in
instance ref_sizeof {r : Rule} {tk : Tok} : Ref k (execSizeof f r tk) (execSizeof f' r tk) := by
  unfold execSizeof
  ref

instance ref_parens {r : Rule} {tk : Tok} : Ref k (execParens X f r tk) (execParens X' f' r tk) := by
  unfold execParens
  ref

instance ref_nud {r : Rule} {tk : Tok} : Ref k (nud X f r tk) (nud X' f' r tk) := by
  unfold nud
  ref

omit hM hX in
instance ref_ternary {lhs : Ex} {tk : Tok} : Ref k (execTernary f lhs tk) (execTernary f' lhs tk) := by
  unfold execTernary
  ref

omit hM hX in
instance ref_led {r : Rule} {tk : Tok} {lhs : Ex} : Ref k (led f r lhs tk) (led f' r lhs tk) := by
  unfold led
  ref

instance ref_operand {stop : Option Nat} : Ref k (operand X stop f) (operand X' stop f') := by
  unfold operand
  ref

omit hM hX in
instance ref_exLoop {stop : Option Nat} {pc : Nat} {ex : Ex} : Ref k (exLoop stop f pc ex) (exLoop stop f' pc ex) := by
  unfold exLoop
  ref
end

theorem ref_exec1 {stop : Option Nat} : ∀ {n n' pc}, n ≤ n' → Ref k (exec1 X stop n pc) (exec1 X' stop n' pc)
  | 0, _, _, _ => ref_none
  | n + 1, 0, pc, h => by omega
  | n + 1, n' + 1, pc, h => by
    have hf : ∀ pc, Mon (exec1 X stop n pc) := fun pc => mon_exec1
    have hf' : ∀ pc, Ref k (exec1 X stop n pc) (exec1 X' stop n' pc) := fun pc => ref_exec1 (by omega)
    have hl : ∀ x, Ref k (loop n (exLoop stop (exec1 X stop n) pc) x) (loop n' (exLoop stop (exec1 X' stop n') pc) x) :=
      fun x => ref_loop inferInstance inferInstance x (by omega)
    rw [exec1, exec1]
    ref

instance : Ref k (exec1 X none X.n 0) (exec1 X' none X'.n 0) := ref_exec1 hX.n
instance {s : Option Nat} : Ref k (exec1 X s X.n 0) (exec1 X' s X'.n 0) := ref_exec1 hX.n

omit hM hX in
theorem soft_eq (hE : X'.E = X.E) : soft X' = soft X := by
  funext m d
  unfold soft
  rw [hE]

omit hM hX in
theorem exprDoc_eq (h2 : X'.E = X.E) : ∀ (e : Ex) (i : Bool) (d : Id), exprDoc X' i e d = exprDoc X i e d := by
  have h1 := soft_eq h2
  intro e
  induction e with
  | concat e tk ih =>
    intro i d
    unfold exprDoc
    simp only [ih, h2]
  | _ =>
    intro i d
    unfold exprDoc
    simp only [docBinary, docTernary, docCall, docArg, docParens, softIf, *]

instance {e : Ex} {i : Bool} : Ref k (exprDoc X i e d) (exprDoc X' i e d) := by
  rw [exprDoc_eq hX.env]
  exact ref_refl _

instance ref_exprExec {a : EA} : Ref k (exprExec X a) (exprExec X' a) := by
  unfold exprExec
  ref

instance ref_expr {a : EA} : Ref k (exprF X a) (exprF X' a) := by
  unfold exprF
  ref

instance ref_exprPeek : Ref k (exprPeek X) (exprPeek X') := by
  unfold exprPeek
  ref

instance ref_isLoopStmt {n : Nat} : Ref k (isLoopStmt X n) (isLoopStmt X' n) := by
  unfold isLoopStmt
  ref

instance ref_stmtExpr : Ref k (stmtExpr X d) (stmtExpr X' d) := by
  unfold stmtExpr
  ref

omit hM hX in
theorem ref_alts_cons {m m' : M Res} {ms ms' : List (M Res)} (hm : Mon m) (h : Ref k m m')
    (hs : Ref k (alts ms) (alts ms')) : Ref k (alts (m :: ms)) (alts (m' :: ms')) := by
  unfold alts
  ref

instance ref_stmt : Ref k (stmtF X d) (stmtF X' d) := by
  unfold stmtF
  repeat (refine ref_alts_cons inferInstance ?_ ?_; · ref)
  unfold alts
  exact ref_refl _

instance ref_externRound {n : Nat} {u : Unit} : Ref k (externRound X d n u) (externRound X' d n u) := by
  unfold externRound
  ref

instance ref_extern : Ref k (extern_ X d) (extern_ X' d) := by
  unfold extern_
  ref

instance ref_root : Ref k (rootF X d) (rootF X' d) := by
  unfold rootF
  ref

end

/-! ## All together -/

/-- What the functions of the parser depend on. -/
abbrev cxT (T : Cx → Id → TI → M Res) (E : Env) (n : Nat) : Cx := { E := E, R := recsT T E n, n := n }

theorem recMonT {T : Cx → Id → TI → M Res} (hT : ∀ X, RecMon X → ∀ d ti, Mon (T X d ti)) (E : Env) :
    ∀ n, RecMon (cxT T E n)
  | 0 => by
    refine ⟨?_, ?_, ?_, ?_, ?_, ?_, ?_⟩ <;>
    · intros
      refine ⟨fun s a s' e => ?_⟩
      cases e
  | n + 1 => by
    have h := recMonT hT E n
    exact ⟨fun a => mon_expr (X := cxT T E n), fun d ti => hT _ h d ti, fun d F => mon_braces (X := cxT T E n),
      fun a b F => mon_block (X := cxT T E n), fun d => mon_stmt (X := cxT T E n),
      fun d F => mon_decl (X := cxT T E n), fun d => mon_root (X := cxT T E n)⟩

theorem belowT {k : Option Nat} {T T' : Cx → Id → TI → M Res} (hM : ∀ X, RecMon X → ∀ d ti, Mon (T X d ti))
    (hT : ∀ X X', RecMon X → Below k X X' → ∀ d ti, ti.Wf → Ref k (T X d ti) (T' X' d ti)) (E : Env) :
    ∀ n n', n ≤ n' → Below k (cxT T E n) (cxT T' E n')
  | 0, n', _ => by
    refine ⟨rfl, Nat.zero_le _, ?_, ?_, ?_, ?_, ?_, ?_, ?_⟩ <;>
    · intros
      exact ref_none
  | n + 1, 0, h => by omega
  | n + 1, n' + 1, h => by
    have hm := recMonT hM E n
    have hb := belowT hM hT E n n' (by omega)
    exact ⟨rfl, h, fun a => ref_expr (X := cxT T E n) (X' := cxT T' E n'), fun d ti hw => hT _ _ hm hb d ti hw,
      fun d F => ref_braces (X := cxT T E n) (X' := cxT T' E n'),
      fun a b F => ref_block (X := cxT T E n) (X' := cxT T' E n'),
      fun d => ref_stmt (X := cxT T E n) (X' := cxT T' E n'),
      fun d F => ref_decl (X := cxT T E n) (X' := cxT T' E n'),
      fun d => ref_root (X := cxT T E n) (X' := cxT T' E n')⟩

section
variable {k : Option Nat} {X X' : Cx} [hM : RecMon X] [hX : Below k X X'] {d : Id}

instance mon_execRound' {u : Unit} : Mon (execRound X.R d u) := by
  unfold execRound
  mon

instance ref_execRound {u : Unit} : Ref k (execRound X.R d u) (execRound X'.R d u) := by
  unfold execRound
  ref
end

/-- The run of the parser with another `parser_type` and more fuel. -/
theorem parserRunT_le {k : Option Nat} {T T' : Cx → Id → TI → M Res} (hM : ∀ X, RecMon X → ∀ d ti, Mon (T X d ti))
    (hT : ∀ X X', RecMon X → Below k X X' → ∀ d ti, ti.Wf → Ref k (T X d ti) (T' X' d ti)) (E : Env)
    {n n' : Nat} {ts : List Tok} {r : Bool × St} (hn : n ≤ n') (hts : ∀ t ∈ ts, t.id ≠ 0)
    (e : parserRunT T E n ts = some r) : parserRunT T' E n' ts = some r ∨ hit k r.2.next := by
  have hm := recMonT hM E n
  have hb := belowT hM hT E n n' hn
  have h : Ref k (loop n (execRound (cxT T E n).R 0) ()) (loop n' (execRound (cxT T' E n').R 0) ()) :=
    ref_loop (fun _ => mon_execRound' (X := cxT T E n)) (fun _ => ref_execRound (X := cxT T E n) (X' := cxT T' E n')) () hn
  refine h.run _ _ _ ?_ e
  intro t ht
  rcases ht with ht | ht
  · cases ht
  · exact hts t ht

/-! ## `parser_type` at the end of the file -/

/-- The program goes on and on. -/
theorem typeRoundM_eof {X : Cx} {d : Id} {ti : TI} (hw : ti.Wf) {u : Unit} {s s' : St} {r : Unit ⊕ Res}
    (hs : s.rest = []) (e : typeRoundM X d ti u s = some (r, s')) : r = .inl () := by
  have h1 : some eofTok.id ≠ ti.args := fun h => hw.args h.symm
  have h2 : eofTok.id ≠ ti.fin.id := fun h => hw.fin h.symm
  unfold typeRoundM at e
  obtain ⟨t, s1, e1, e⟩ := bind_some e
  have ht : t = eofTok := by
    unfold pop at e1
    rw [hs] at e1
    cases e1
    rfl
  subst ht
  rw [if_neg h1] at e
  obtain ⟨c, s2, e2, e⟩ := bind_some e
  obtain ⟨_, s3, e3, e⟩ := bind_some e
  dsimp only at e
  rw [if_neg (by decide)] at e
  obtain ⟨x, s4, e4, e⟩ := bind_some e
  cases e4
  dsimp only at e
  obtain ⟨b, s5, e5, e⟩ := bind_some e
  obtain ⟨al, s6, e6, e⟩ := bind_some e
  obtain ⟨af, s61, e61, e⟩ := bind_some e
  obtain ⟨br, s7, e7, e⟩ := bind_some e
  obtain ⟨_, s8, e8, e⟩ := bind_some e
  rw [if_neg (by rw [if_neg (by decide)]; exact h2)] at e
  obtain ⟨ln, s9, e9, e⟩ := bind_some e
  obtain ⟨_, s10, e10, e⟩ := bind_some e
  obtain ⟨_, s11, e11, e⟩ := bind_some e
  obtain ⟨_, s12, e12, e⟩ := bind_some e
  cases e
  rfl

theorem typeF_eof {X : Cx} [RecMon X] {d : Id} {ti : TI} (hw : ti.Wf) : ∀ (n : Nat) (s : St), s.rest = [] →
    loop n (typeRoundM X d ti) () s = none
  | 0, _, _ => rfl
  | n + 1, s, hs => by
    cases e : loop (n + 1) (typeRoundM X d ti) () s with
    | none => rfl
    | some r =>
      exfalso
      obtain ⟨b, s'⟩ := r
      rw [loop] at e
      obtain ⟨a, s1, e1, e2⟩ := bind_some e
      cases typeRoundM_eof hw hs e1
      have := (mon_typeRound.step _ _ _ e1).rest
      have hs1 : s1.rest = [] := by
        simp only [St.len, hs, List.length_nil] at this
        exact List.length_eq_zero_iff.mp (by omega)
      have e2 : loop n (typeRoundM X d ti) () s1 = some (b, s') := e2
      rw [typeF_eof hw n s1 hs1] at e2
      cases e2

/-- Where `parser_type` ends, something else at the end of the file makes no difference. -/
theorem ref_typeG {k : Option Nat} {G : M (Unit ⊕ Res)} (X X' : Cx) (hM : RecMon X) (hX : Below k X X') (d : Id)
    (ti : TI) (hw : ti.Wf) : Ref k (typeF X d ti) (typeG G X' d ti) := by
  have hr : Ref k (typeRoundM X d ti ()) (typeRoundM X' d ti ()) := inferInstance
  have key : ∀ (n n' : Nat), n ≤ n' → Ref k (loop n (typeRoundM X d ti) ()) (loop n' (typeRoundG G X' d ti) ()) := by
    intro n
    induction n with
    | zero => intro n' _; exact ref_none
    | succ n ih =>
      intro n' hn
      refine ⟨fun s b s' e => ((Mon.loop (fun u => mon_typeRound) _ _).step _ _ _ e).next, fun s b s' hs e => ?_⟩
      by_cases he : s.rest = []
      · rw [typeF_eof hw _ s he] at e
        cases e
      · obtain ⟨n', rfl⟩ : ∃ m, n' = m + 1 := ⟨n' - 1, by omega⟩
        rw [loop] at e ⊢
        obtain ⟨a, s1, e1, e2⟩ := bind_some e
        rcases hr.run _ _ _ hs e1 with e1' | hh
        · have e1' : typeRoundG G X' d ti () s = some (a, s1) := by
            unfold typeRoundG
            rw [if_neg he]
            exact e1'
          rw [bind_of e1']
          cases a with
          | inr b => exact .inl e2
          | inl u => exact (ih n' (by omega)).run _ _ _ (hs.step (mon_typeRound.step _ _ _ e1)) e2
        · right
          cases a with
          | inr b => cases e2; exact hh
          | inl u => exact hh.le ((ih n (Nat.le_refl _)).mon _ _ _ e2)
  exact key _ _ hX.n

theorem mon_typeRoundG' {G : M (Unit ⊕ Res)} (hG : Mon G) (X : Cx) (hM : RecMon X) (d : Id) (ti : TI) (u : Unit) :
    Mon (typeRoundG G X d ti u) := by
  refine ⟨fun s a s' e => ?_⟩
  unfold typeRoundG at e
  split at e
  · exact hG.step _ _ _ e
  · exact mon_typeRound.step _ _ _ e

theorem mon_typeG {G : M (Unit ⊕ Res)} (hG : Mon G) (X : Cx) (hM : RecMon X) (d : Id) (ti : TI) :
    Mon (typeG G X d ti) := by
  unfold typeG
  exact Mon.loop (fun u => mon_typeRoundG' hG X hM d ti u) _ _

/-- More fuel for `typeG`. -/
theorem ref_typeG_typeG {k : Option Nat} {G : M (Unit ⊕ Res)} (hG : Mon G) (X X' : Cx) (hM : RecMon X)
    (hX : Below k X X') (d : Id) (ti : TI) : Ref k (typeG G X d ti) (typeG G X' d ti) := by
  unfold typeG
  refine ref_loop (fun u => mon_typeRoundG' hG X hM d ti u) (fun u => ?_) () hX.n
  refine ⟨fun s a s' e => ((mon_typeRoundG' hG X hM d ti u).step _ _ _ e).next, fun s a s' hs e => ?_⟩
  unfold typeRoundG at e ⊢
  split at e
  · rw [if_pos ‹_›]
    exact .inl e
  · rw [if_neg ‹_›]
    exact (ref_typeRound (X := X) (X' := X')).run _ _ _ hs e

/-- Make the end of the file visible in the number of documents. -/
def markEof (K : Nat) : M (Unit ⊕ Res) := fun s => some (.inr .fail, { s with err := true, next := s.next + K })

instance mon_markEof (K : Nat) : Mon (markEof K) := by
  refine ⟨fun s a s' e => ?_⟩
  cases e
  exact ⟨Nat.le_refl _, Nat.le_refl _, fun _ => rfl, fun _ => id, Nat.le_add_right _ _⟩

/-- The program does the same unless the mark is met. -/
theorem ref_markEof {K : Nat} (X X' : Cx) (hM : RecMon X) (hX : Below (some K) X X') (d : Id) (ti : TI) :
    Ref (some K) (typeG (markEof K) X d ti) (typeF X' d ti) := by
  unfold typeG typeF
  refine ref_loop (fun u => mon_typeRoundG' inferInstance X hM d ti u) (fun u => ?_) () hX.n
  refine ⟨fun s a s' e => ((mon_typeRoundG' inferInstance X hM d ti u).step _ _ _ e).next, fun s a s' hs e => ?_⟩
  unfold typeRoundG at e
  split at e
  · cases e
    exact .inr ⟨K, rfl, Nat.le_add_left _ _⟩
  · exact (ref_typeRound (X := X) (X' := X')).run _ _ _ hs e

theorem parserRun_eqT (E : Env) (n : Nat) (ts : List Tok) : parserRun E n ts = parserRunT typeF E n ts := by
  unfold parserRun parserRunT
  rw [recsT_typeF]

/-- The result of the program does not depend on the fuel. -/
theorem parserRun_le (E : Env) {n n' : Nat} {ts : List Tok} {r : Bool × St} (hn : n ≤ n')
    (hts : ∀ t ∈ ts, t.id ≠ 0) (e : parserRun E n ts = some r) : parserRun E n' ts = some r := by
  rw [parserRun_eqT] at e ⊢
  have h2 : ∀ X X', RecMon X → Below none X X' → ∀ d ti, ti.Wf → Ref none (typeF X d ti) (typeF X' d ti) :=
    fun X X' h h' d ti _ => ref_type
  exact (parserRunT_le (fun X h d ti => mon_type) h2 E hn hts e).resolve_right (hit_none _)

/-- Where the program ends, the repaired one does the same. -/
theorem parserRun_typeG (G : M (Unit ⊕ Res)) (E : Env) {n n' : Nat} {ts : List Tok} {r : Bool × St} (hn : n ≤ n')
    (hts : ∀ t ∈ ts, t.id ≠ 0) (e : parserRun E n ts = some r) : parserRunT (typeG G) E n' ts = some r := by
  rw [parserRun_eqT] at e
  have h2 : ∀ X X', RecMon X → Below none X X' → ∀ d ti, ti.Wf → Ref none (typeF X d ti) (typeG G X' d ti) :=
    fun X X' h h' d ti hw => ref_typeG X X' h h' d ti hw
  exact (parserRunT_le (fun X h d ti => mon_type) h2 E hn hts e).resolve_right (hit_none _)

/-- The result of the repaired program does not depend on the fuel. -/
theorem parserRunG_le {G : M (Unit ⊕ Res)} (hG : Mon G) (E : Env) {n n' : Nat} {ts : List Tok} {r : Bool × St}
    (hn : n ≤ n') (hts : ∀ t ∈ ts, t.id ≠ 0) (e : parserRunT (typeG G) E n ts = some r) :
    parserRunT (typeG G) E n' ts = some r := by
  have h2 : ∀ X X', RecMon X → Below none X X' → ∀ d ti, ti.Wf → Ref none (typeG G X d ti) (typeG G X' d ti) :=
    fun X X' h h' d ti _ => ref_typeG_typeG hG X X' h h' d ti
  exact (parserRunT_le (fun X h d ti => mon_typeG hG X h d ti) h2 E hn hts e).resolve_right (hit_none _)

/-- Where the repaired program does not meet the end of the file, the program ends as well. -/
theorem parserRun_of_mark (E : Env) {K n : Nat} {ts : List Tok} {r : Bool × St} (hts : ∀ t ∈ ts, t.id ≠ 0)
    (e : parserRunT (typeG (markEof K)) E n ts = some r) (h : r.2.next < K) : parserRun E n ts = some r := by
  rw [parserRun_eqT]
  have h2 : ∀ X X', RecMon X → Below (some K) X X' → ∀ d ti, ti.Wf → Ref (some K) (typeG (markEof K) X d ti) (typeF X' d ti) :=
    fun X X' h h' d ti _ => ref_markEof X X' h h' d ti
  refine (parserRunT_le (fun X h d ti => mon_typeG inferInstance X h d ti) h2 E (Nat.le_refl n) hts e).resolve_right ?_
  rintro ⟨K', hk, hle⟩
  cases hk
  exact absurd h (Nat.not_lt.mpr hle)

end Knfmt.Parse
