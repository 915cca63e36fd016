import Verif.Parse.Model
/-!
# The parser moves forward

`Step s s'`: no token reappears and no error is forgotten. All functions of the parser take such a
step (`Mon`), and a function that reports success has consumed a token (`Str`).
-/
namespace Knfmt.Parse
open Knfmt.Lexer (TT)
open Knfmt.Expr (Rule Func findRule)

/-- Number of tokens left. -/
abbrev St.len (s : St) : Nat := s.rest.length

/-- The token has not been removed. -/
def St.has (s : St) (t : Tok) : Prop := t ∈ s.done ∨ t ∈ s.rest

/-- See above. -/
structure Step (s s' : St) : Prop where
  rest : s'.len ≤ s.len
  all : s'.done.length + s'.len ≤ s.done.length + s.len
  err : s.err = true → s'.err = true
  sub : ∀ t, s'.has t → s.has t
  next : s.next ≤ s'.next

theorem Step.refl (s : St) : Step s s := ⟨Nat.le_refl _, Nat.le_refl _, id, fun _ => id, Nat.le_refl _⟩

theorem Step.trans {s s1 s' : St} (h : Step s s1) (h' : Step s1 s') : Step s s' :=
  ⟨Nat.le_trans h'.rest h.rest, Nat.le_trans h'.all h.all, fun e => h'.err (h.err e),
    fun t e => h.sub t (h'.sub t e), Nat.le_trans h.next h'.next⟩

/-- A step without consumption. -/
theorem Step.of_eq {s s' : St} (h1 : s'.rest = s.rest) (h2 : s'.done = s.done) (h3 : s'.err = s.err)
    (h4 : s.next ≤ s'.next) : Step s s' := by
  refine ⟨?_, ?_, ?_, ?_, h4⟩
  · simp [St.len, h1]
  · simp [St.len, h1, h2]
  · rw [h3]; exact id
  · simp [St.has, h1, h2]

/-- Leaving a nested use of the lexer is a step from where it was entered. -/
theorem Step.restore {s s' : St} (h : Step s s') : Step s (restore s s') := by
  have hl : (Parse.restore s s').len = s'.done.length + s'.len - s.done.length := by
    simp [Parse.restore, St.len]
  have := h.all
  refine ⟨by omega, ?_, id, ?_, h.next⟩
  · rw [hl]
    show s.done.length + _ ≤ _
    omega
  · intro t ht
    rcases ht with ht | ht
    · exact .inl ht
    · have := List.mem_of_mem_drop ht
      rw [List.mem_append, List.mem_reverse] at this
      exact h.sub t this

/-- Functions that always end and neither consume tokens nor report errors. -/
class Easy {α : Type} (m : M α) : Prop where
  run : ∀ s, ∃ a s', m s = some (a, s') ∧ s'.rest = s.rest ∧ s'.done = s.done ∧ s'.err = s.err ∧
    s.next ≤ s'.next

/-- Functions that take steps. -/
class Mon {α : Type} (m : M α) : Prop where
  step : ∀ s a s', m s = some (a, s') → Step s s'

section
variable {α β : Type} {m : M α} {k : α → M β}

theorem bind_some {s s' : St} {b : β} (e : (m >>= k) s = some (b, s')) :
    ∃ a s1, m s = some (a, s1) ∧ k a s1 = some (b, s') := by
  have e : (match m s with | none => none | some (a, s1) => k a s1) = some (b, s') := e
  cases e1 : m s with
  | none => rw [e1] at e; cases e
  | some x => exact ⟨x.1, x.2, rfl, by rw [e1] at e; exact e⟩

theorem bind_of {s s1 : St} {a : α} (e : m s = some (a, s1)) : (m >>= k) s = k a s1 := by
  show (match m s with | none => none | some (a, s1) => k a s1) = _
  rw [e]

instance easy_bind [h : Easy m] [hk : ∀ a, Easy (k a)] : Easy (m >>= k) := by
  refine ⟨fun s => ?_⟩
  obtain ⟨a, s1, e, h1, h2, h3, h4⟩ := h.run s
  obtain ⟨b, s', e', h1', h2', h3', h4'⟩ := (hk a).run s1
  exact ⟨b, s', by rw [bind_of e, e'], h1'.trans h1, h2'.trans h2, h3'.trans h3, Nat.le_trans h4 h4'⟩

instance easy_pure (a : α) : Easy (pure a : M α) := ⟨fun s => ⟨a, s, rfl, rfl, rfl, rfl, Nat.le_refl _⟩⟩

instance easy_ite {c : Prop} [Decidable c] {m1 m2 : M α} [h1 : Easy m1] [h2 : Easy m2] :
    Easy (if c then m1 else m2) := by
  split
  · exact h1
  · exact h2

instance easy_when {b : Bool} {m : M Unit} [h : Easy m] : Easy (when b m) := by
  unfold when
  infer_instance

instance easy_read (f : St → α) : Easy (read f) := ⟨fun s => ⟨f s, s, rfl, rfl, rfl, rfl, Nat.le_refl _⟩⟩
instance easy_q (E : Env) (n : Nat) : Easy (E.q n) := easy_read _
instance easy_peek : Easy peek := easy_read _
instance easy_peekIf {ty : TT} : Easy (peekIf ty) := easy_read _
instance easy_back : Easy back := easy_read _
instance easy_backIf {ty : TT} : Easy (backIf ty) := easy_read _
instance easy_good : Easy parserGood := easy_read _
instance easy_none : Easy parserNone := easy_read _
instance easy_pos : Easy pos := easy_read _
instance easy_exPeek {stop : Option Nat} : Easy (exPeek stop) := easy_read _
instance easy_swallow {n : Nat} : Easy (noteSwallow n) := ⟨fun _ => ⟨_, _, rfl, rfl, rfl, rfl, Nat.le_refl _⟩⟩
instance easy_alloc {k : DK} {d : Id} : Easy (alloc k d) := ⟨fun _ => ⟨_, _, rfl, rfl, rfl, rfl, Nat.le_succ _⟩⟩
instance easy_lay {k : DK} {d : Id} : Easy (lay k d) := ⟨fun _ => ⟨_, _, rfl, rfl, rfl, rfl, Nat.le_succ _⟩⟩
instance easy_lay_ {k : DK} {d : Id} : Easy (lay_ k d) := ⟨fun _ => ⟨_, _, rfl, rfl, rfl, rfl, Nat.le_succ _⟩⟩
instance easy_layIf {b : Bool} {k k' : DK} {d : Id} : Easy (layIf b k k' d) := easy_lay_
instance easy_allocIn {k : DK} {d : Id} : Easy (allocIn k d) := easy_bind
instance easy_indentIn {d : Id} : Easy (indentIn d) := easy_allocIn
instance easy_alignIn {d : Id} : Easy (alignIn d) := easy_allocIn
instance easy_alignIf {b : Bool} {d : Id} : Easy (alignIf b d) := by
  unfold alignIf
  infer_instance
instance easy_rmLay {i : Id} : Easy (rmLay i) := ⟨fun _ => ⟨_, _, rfl, rfl, rfl, rfl, Nat.le_refl _⟩⟩
instance easy_rmSoft {i : Id} : Easy (rmSoft i) := ⟨fun _ => ⟨_, _, rfl, rfl, rfl, rfl, Nat.le_refl _⟩⟩
instance easy_note {f : List Ev → Bool} : Easy (note f) := ⟨fun _ => ⟨_, _, rfl, rfl, rfl, rfl, Nat.le_refl _⟩⟩
instance easy_rmWhite {i : Id} : Easy (rmWhite i) := easy_bind
instance easy_rmDoc {d : Id} : Easy (rmDoc d) := ⟨fun _ => ⟨_, _, rfl, rfl, rfl, rfl, Nat.le_refl _⟩⟩
instance easy_rmDocChk {d : Id} : Easy (rmDocChk d) := ⟨fun _ => ⟨_, _, rfl, rfl, rfl, rfl, Nat.le_refl _⟩⟩
instance easy_emit {t : Tok} {d : Id} : Easy (emit t d) := ⟨fun _ => ⟨_, _, rfl, rfl, rfl, rfl, Nat.le_refl _⟩⟩
instance easy_emitChk {t : Tok} {o d : Id} : Easy (emitChk t o d) :=
  ⟨fun _ => ⟨_, _, rfl, rfl, rfl, rfl, Nat.le_refl _⟩⟩
instance easy_adopt {ts : List (Option Tok)} {d : Id} : Easy (adopt ts d) :=
  ⟨fun _ => ⟨_, _, rfl, rfl, rfl, rfl, Nat.le_refl _⟩⟩
instance easy_emitOpt {o : Option Tok} {d : Id} : Easy (emitOpt o d) := by
  unfold emitOpt
  split <;> infer_instance
instance easy_rmOpt {l : Option Id} : Easy (rmOpt l) := by
  unfold rmOpt
  split <;> infer_instance
instance easy_layOn {x : Res × Option Id} : Easy (layOn x) := by
  unfold layOn
  split <;> infer_instance

/-! ## Steps -/

instance (priority := low) mon_of_easy [h : Easy m] : Mon m := by
  refine ⟨fun s a s' e => ?_⟩
  obtain ⟨b, s1, e1, h1, h2, h3, h4⟩ := h.run s
  rw [e] at e1
  cases e1
  exact .of_eq h1 h2 h3 h4

instance mon_bind [h : Mon m] [hk : ∀ a, Mon (k a)] : Mon (m >>= k) := by
  refine ⟨fun s b s' e => ?_⟩
  obtain ⟨a, s1, e1, e2⟩ := bind_some e
  exact (h.step _ _ _ e1).trans ((hk a).step _ _ _ e2)

instance mon_ite {c : Prop} [Decidable c] {m1 m2 : M α} [h1 : Mon m1] [h2 : Mon m2] :
    Mon (if c then m1 else m2) := by
  split
  · exact h1
  · exact h2

instance mon_when {b : Bool} {m : M Unit} [h : Mon m] : Mon (when b m) := by
  unfold when
  infer_instance

instance mon_fail : Mon parserFail := by
  refine ⟨fun s a s' e => ?_⟩
  cases e
  exact ⟨Nat.le_refl _, Nat.le_refl _, fun _ => rfl, fun _ => id, Nat.le_refl _⟩

theorem step_pop {s : St} {t : Tok} {r : List Tok} (h : s.rest = t :: r) :
    Step s { s with done := t :: s.done, rest := r } := by
  refine ⟨?_, ?_, id, ?_, Nat.le_refl _⟩
  · simp only [St.len, h, List.length_cons]
    omega
  · simp only [St.len, h, List.length_cons]
    omega
  · intro u hu
    simp only [St.has, h, List.mem_cons] at hu ⊢
    rcases hu with (hu | hu) | hu
    · exact .inr (.inl hu)
    · exact .inl hu
    · exact .inr (.inr hu)

instance mon_pop : Mon pop := by
  refine ⟨fun s a s' e => ?_⟩
  unfold pop at e
  split at e
  · cases e
    exact .refl _
  · cases e
    exact step_pop ‹_›

instance mon_lexIf {p : TT → Bool} : Mon (lexIf p) := by
  refine ⟨fun s a s' e => ?_⟩
  unfold lexIf at e
  split at e
  · cases e
    exact .refl _
  · split at e
    · cases e
      exact step_pop ‹_›
    · cases e
      exact .refl _

instance mon_expect {ty : TT} : Mon (expect ty) := by
  refine ⟨fun s a s' e => ?_⟩
  unfold expect at e
  split at e
  · cases e
    exact ⟨Nat.le_refl _, Nat.le_refl _, fun _ => rfl, fun _ => id, Nat.le_refl _⟩
  · split at e
    · cases e
      exact step_pop ‹_›
    · cases e
      exact ⟨Nat.le_refl _, Nat.le_refl _, fun _ => rfl, fun _ => id, Nat.le_refl _⟩

instance mon_expectEmit {ty : TT} {d : Id} : Mon (expectEmit ty d) := by
  unfold expectEmit
  refine @mon_bind _ _ _ _ _ fun o => ?_
  split <;> infer_instance

instance mon_ifEmit {ty : TT} {d : Id} : Mon (ifEmit ty d) := by
  unfold ifEmit
  refine @mon_bind _ _ _ _ _ fun o => ?_
  split <;> infer_instance

theorem pWhile_len (p : TT → Bool) : ∀ ts, (pWhile p ts).length ≤ ts.length
  | [] => Nat.le_refl _
  | t :: ts => by
    rw [pWhile]
    split
    · exact Nat.le_succ_of_le (pWhile_len p ts)
    · exact Nat.le_refl _

theorem rmSemi_len (i : Nat) : ∀ ts, (rmSemi i ts).length ≤ ts.length
  | [] => Nat.le_refl _
  | [_] => Nat.le_refl _
  | t :: u :: ts => by
    rw [rmSemi]
    split
    · split
      · simp
      · exact Nat.le_refl _
    · simpa using rmSemi_len i (u :: ts)

theorem pWhile_sub (p : TT → Bool) : ∀ ts, ∀ t ∈ pWhile p ts, t ∈ ts
  | [], _, h => h
  | u :: ts, t, h => by
    rw [pWhile] at h
    split at h
    · exact List.mem_cons_of_mem _ (pWhile_sub p ts t h)
    · exact h

theorem rmSemi_sub (i : Nat) : ∀ ts, ∀ t ∈ rmSemi i ts, t ∈ ts
  | [], _, h => h
  | [_], _, h => h
  | v :: u :: ts, t, h => by
    rw [rmSemi] at h
    split at h
    · split at h
      · rcases List.mem_cons.mp h with h | h
        · rw [h]; exact List.mem_cons_self
        · exact List.mem_cons_of_mem _ (List.mem_cons_of_mem _ h)
      · exact h
    · rcases List.mem_cons.mp h with h | h
      · rw [h]; exact List.mem_cons_self
      · exact List.mem_cons_of_mem _ (rmSemi_sub i (u :: ts) t h)

theorem mon_rest {f : St → List Tok} (h : ∀ s, (f s).length ≤ s.len) (h' : ∀ s, ∀ t ∈ f s, t ∈ s.rest) :
    Mon (fun s => some ((), { s with rest := f s }) : M Unit) := by
  refine ⟨fun s a s' e => ?_⟩
  cases e
  exact ⟨h s, Nat.add_le_add_left (h s) _, id, fun t ht => ht.imp id (h' s t), Nat.le_refl _⟩

instance mon_trimSemis : Mon trimSemis := mon_rest (fun _ => pWhile_len _ _) fun _ => pWhile_sub _ _

instance mon_rmSemi {i : Nat} : Mon (fun s => some ((), { s with rest := rmSemi i s.rest }) : M Unit) :=
  mon_rest (fun _ => rmSemi_len _ _) fun _ => rmSemi_sub _ _

instance mon_peeking [h : Mon m] : Mon (peeking m) := by
  refine ⟨fun s a s' e => ?_⟩
  unfold peeking at e
  split at e
  · cases e
  · cases e
    exact (h.step _ _ _ ‹_›).restore

instance mon_withRoot {m : Id → M α} [h : ∀ d, Mon (m d)] : Mon (withRoot m) := by
  refine ⟨fun s a s' e => ?_⟩
  unfold withRoot at e
  split at e
  · cases e
  · cases e
    have := (h _).step _ _ _ ‹_›
    exact ⟨this.rest, this.all, this.err, this.sub, Nat.le_trans (Nat.le_succ _) this.next⟩

theorem Mon.loop {f : α → M (α ⊕ β)} (h : ∀ a, Mon (f a)) : ∀ (n : Nat) (a : α), Mon (loop n f a)
  | 0, _ => ⟨fun _ _ _ e => by cases e⟩
  | n + 1, a => by
    rw [Parse.loop]
    have := h a
    refine @mon_bind _ _ _ _ _ fun r => ?_
    cases r with
    | inl a' => exact Mon.loop h n a'
    | inr b => infer_instance

instance mon_loop {f : α → M (α ⊕ β)} [h : ∀ a, Mon (f a)] {n : Nat} {a : α} : Mon (loop n f a) :=
  Mon.loop h n a
end

/-- Go through the body of a function. -/
syntax "mon" : tactic
macro_rules
  | `(tactic| mon) => `(tactic|
    repeat' first
      | infer_instance
      | (refine @mon_bind _ _ _ _ ?_ fun a => ?_; · infer_instance)
      | (refine @mon_bind _ _ _ _ ?_ fun a => ?_; · (split <;> infer_instance))
      | split
      | dsimp only)

/-- Steps of the functions called recursively. -/
class RecMon (X : Cx) : Prop where
  expr : ∀ a, Mon (X.R.expr a)
  type : ∀ d ti, Mon (X.R.type d ti)
  braces : ∀ d F, Mon (X.R.braces d F)
  block : ∀ h t F, Mon (X.R.block h t F)
  stmt : ∀ d, Mon (X.R.stmt d)
  decl : ∀ d F, Mon (X.R.decl d F)
  root : ∀ d, Mon (X.R.root d)

instance {X : Cx} [h : RecMon X] {a : EA} : Mon (X.R.expr a) := h.expr a
instance {X : Cx} [h : RecMon X] {d : Id} {ti : TI} : Mon (X.R.type d ti) := h.type d ti
instance {X : Cx} [h : RecMon X] {d : Id} {F : CF} : Mon (X.R.braces d F) := h.braces d F
instance {X : Cx} [h : RecMon X] {a b : Id} {F : BF} : Mon (X.R.block a b F) := h.block a b F
instance {X : Cx} [h : RecMon X] {d : Id} : Mon (X.R.stmt d) := h.stmt d
instance {X : Cx} [h : RecMon X] {d : Id} {F : DF} : Mon (X.R.decl d F) := h.decl d F
instance {X : Cx} [h : RecMon X] {d : Id} : Mon (X.R.root d) := h.root d

section
variable {X : Cx} [hX : RecMon X] {d : Id}

theorem semisOn_len (semi : Tok) : ∀ ts, (semisOn semi ts).1.length + (semisOn semi ts).2.length = ts.length
  | [] => rfl
  | t :: ts => by
    rw [semisOn]
    split
    · simp only [List.length_cons]
      have := semisOn_len semi ts
      omega
    · simp

theorem semisOn_app (semi : Tok) : ∀ ts, (semisOn semi ts).1 ++ (semisOn semi ts).2 = ts
  | [] => rfl
  | t :: ts => by
    rw [semisOn]
    split
    · simp only [List.cons_append]
      rw [semisOn_app semi ts]
    · simp

theorem mon_semiLast (semi : Tok) : Mon (fun s =>
      match semisOn semi s.rest with
      | ([], _) => some (semi, s)
      | (t :: ts, r) =>
        let l := (t :: ts).getLast (by simp)
        some (l, { s with done := l :: s.done, rest := r }) : M Tok) := by
  refine ⟨fun s a s' e => ?_⟩
  dsimp only at e
  have hl := semisOn_len semi s.rest
  split at e
  · cases e
    exact .refl _
  · rename_i t ts r h
    rw [h] at hl
    cases e
    simp only [List.length_cons] at hl
    refine ⟨?_, ?_, id, ?_, Nat.le_refl _⟩
    · simp only [St.len]
      omega
    · simp only [St.len, List.length_cons]
      omega
    · intro u hu
      have ha := semisOn_app semi s.rest
      rw [h] at ha
      simp only [St.has, List.mem_cons] at hu ⊢
      rw [← ha]
      rcases hu with (hu | hu) | hu
      · right
        rw [hu]
        exact List.mem_append_left _ (List.getLast_mem _)
      · exact .inl hu
      · exact .inr (List.mem_append_right _ hu)

instance mon_semi : Mon (parserSemi d) := by
  unfold parserSemi
  have := mon_semiLast
  mon

instance mon_attrRound {l : Bool} {fin : Tok} {o : Id} {v : Nat × Option Id} :
    Mon (attrRound X l fin o v) := by
  unfold attrRound
  mon

instance mon_attributes {l f : Bool} : Mon (attributes X d l f) := by
  unfold attributes
  mon

instance mon_funcArgRound {rp : Nat} {pv : Option Tok} : Mon (funcArgRound X rp d pv) := by
  unfold funcArgRound
  mon

instance mon_funcArg {rp : Nat} : Mon (funcArg X d rp) := by
  unfold funcArg
  mon

instance mon_funcArgs {rp : Nat} : Mon (funcArgs X d rp) := by
  unfold funcArgs
  refine @mon_loop _ _ _ (fun a => ?_) _ _
  mon

instance mon_typeRound {ti : TI} {u : Unit} : Mon (typeRoundM X d ti u) := by
  unfold typeRoundM
  mon

instance mon_type {ti : TI} : Mon (typeF X d ti) := by
  unfold typeF
  infer_instance

instance mon_cppX : Mon (cppX X d) := by
  unfold cppX
  refine @mon_bind _ _ _ _ _ fun p => ?_
  split
  · mon
  · refine @mon_bind _ _ _ _ _ fun c => ?_
    refine @mon_bind _ _ _ _ ?_ fun _ => ?_
    · refine @mon_loop _ _ _ (fun a => ?_) _ _
      mon
    · mon

instance mon_cdefs : Mon (cppCdefs d) := by
  unfold cppCdefs
  mon

instance mon_declRoot : Mon (cppDeclRoot d) := by
  unfold cppDeclRoot
  mon

instance mon_docAsmOperand : Mon (docAsmOperand d) := by
  unfold docAsmOperand
  mon

instance mon_asmOperandCpp : Mon (asmOperandCpp X d) := by
  unfold asmOperandCpp
  mon

instance mon_asmName : Mon (asmName d) := by
  unfold asmName
  mon

instance mon_asmTemplate : Mon (asmTemplate d) := by
  unfold asmTemplate
  mon

instance mon_asmOperand : Mon (asmOperand X d) := by
  unfold asmOperand
  mon

instance mon_asmOperands : Mon (asmOperands X d) := by
  unfold asmOperands
  mon

instance mon_asmOperandList {c : Id} : Mon (asmOperandList X d c) := by
  unfold asmOperandList
  mon

instance mon_asmExprList {c : Id} : Mon (asmExprList X d c) := by
  unfold asmExprList
  mon

instance mon_asm : Mon (asm_ X d) := by
  unfold asm_
  refine @mon_bind _ _ _ _ _ fun p => ?_
  split
  · mon
  · refine @mon_bind _ _ _ _ _ fun c => ?_
    refine @mon_bind _ _ _ _ _ fun _ => ?_
    refine @mon_bind _ _ _ _ ?_ fun _ => ?_
    · refine @mon_loop _ _ _ (fun a => ?_) _ _
      mon
    · mon

instance mon_stmtAsm : Mon (stmtAsm X d) := by
  unfold stmtAsm
  mon

instance mon_rootAsm : Mon (rootAsm X d) := by
  unfold rootAsm
  mon

instance mon_bracesField1 {e : Bool} : Mon (bracesField1 X e d) := by
  unfold bracesField1
  mon

instance mon_bracesField {e : Bool} {r : Nat} : Mon (bracesField X e r d) := by
  unfold bracesField
  refine @mon_bind _ _ _ _ ?_ fun _ => ?_
  · refine @mon_loop _ _ _ (fun a => ?_) _ _
    mon
  · mon

instance mon_bracesElem {F : CF} {r : Nat} {c : Option (Option Nat)} : Mon (bracesElem X F r c d) := by
  unfold bracesElem
  mon

instance mon_bracesSpace {F : CF} {r : Nat} {b c : Id} : Mon (bracesSpace X F r d b c) := by
  unfold bracesSpace
  mon

instance mon_bracesRound {F : CF} {r : Nat} {v : Id × Option (Option Nat)} :
    Mon (bracesRound X F r d v) := by
  unfold bracesRound
  mon

instance mon_bracesEnd : Mon (bracesEnd d) := by
  unfold bracesEnd
  mon

instance mon_braces {F : CF} : Mon (bracesF X d F) := by
  unfold bracesF
  mon

instance mon_protoFuncPtr : Mon (protoFuncPtr X d) := by
  unfold protoFuncPtr
  mon

instance mon_protoName {c : Id} : Mon (protoName d c) := by
  unfold protoName
  mon

instance mon_krArgs : Mon (krArgs X d) := by
  unfold krArgs
  mon

instance mon_protoAttrs : Mon (protoAttrs X d) := by
  unfold protoAttrs
  mon

instance mon_protoTail {c : Id} : Mon (protoTail X d c) := by
  unfold protoTail
  mon

instance mon_protoArgs {c : Id} : Mon (protoArgs X d c) := by
  unfold protoArgs
  mon

instance mon_funcProto {ti : TI} {f i : Bool} : Mon (funcProto X d ti f i) := by
  unfold funcProto
  mon

instance mon_funcDecl : Mon (funcDecl X d) := by
  unfold funcDecl
  mon

instance mon_funcImpl : Mon (funcImpl X d) := by
  unfold funcImpl
  mon

instance mon_bitfield : Mon (declBitfield X d) := by
  unfold declBitfield
  mon

instance mon_initParens {l r : TT} : Mon (initParens X l r d) := by
  unfold initParens
  mon

instance mon_declInit1 {o : Option Id} : Mon (declInit1 X d o) := by
  unfold declInit1
  mon

instance mon_declInitAssign {o : Option Id} {n : Nat} : Mon (declInitAssign X d o n) := by
  unfold declInitAssign
  mon

instance mon_declComma {c : Id} {o : Option Tok} : Mon (declComma X d c o) := by
  unfold declComma
  mon

instance mon_declInitRound {n : Nat} {v : Id × Option Id × Nat} : Mon (declInitRound X d n v) := by
  unfold declInitRound
  mon

instance mon_declInit {n : Nat} : Mon (declInit X d n) := by
  unfold declInit
  mon

instance mon_declBraces : Mon (declBraces X d) := by
  unfold declBraces
  mon

instance mon_aggregate : Mon (declAggregate X d) := by
  unfold declAggregate
  mon

instance mon_declSemi {F : DF} {o : Id} : Mon (declSemi F d o) := by
  unfold declSemi
  mon

instance mon_decl2 {F : DF} : Mon (decl2 X d F) := by
  unfold decl2
  mon

instance mon_declRound {F : DF} {n : Nat} : Mon (declRound X d F n) := by
  unfold declRound
  mon

instance mon_decl {F : DF} : Mon (declF X d F) := by
  unfold declF
  mon

instance mon_blockRound {s : Bool} {r : Nat} {v : Tok × Nat} : Mon (blockRound X s r d v) := by
  unfold blockRound
  mon

instance mon_block {t : Id} {F : BF} : Mon (blockF X d t F) := by
  unfold blockF
  mon

instance mon_kwTail {c : Id} {ty : TT} {F : KF} {r : Nat} : Mon (kwTail X d c ty F r) := by
  unfold kwTail
  mon

instance mon_kwExpr {ty : TT} {F : KF} : Mon (kwExpr X d ty F) := by
  unfold kwExpr
  mon

instance mon_ifRound {u : Unit} : Mon (ifRound X d u) := by
  unfold ifRound
  mon

instance mon_if : Mon (stmtIf X d) := by
  unfold stmtIf
  mon

instance mon_forPart {l : Bool} {ty : TT} : Mon (forPart X d l ty) := by
  unfold forPart
  mon

instance mon_for : Mon (stmtFor X d) := by
  unfold stmtFor
  mon

instance mon_dowhile : Mon (stmtDowhile X d) := by
  unfold stmtDowhile
  mon

instance mon_label : Mon (stmtLabel X d) := by
  unfold stmtLabel
  mon

instance mon_caseRound {t : Tok} {u : Unit} : Mon (caseRound X d t u) := by
  unfold caseRound
  mon

instance mon_case : Mon (stmtCase X d) := by
  unfold stmtCase
  mon

instance mon_goto : Mon (stmtGoto d) := by
  unfold stmtGoto
  mon

instance mon_stmtKw {ty : TT} : Mon (stmtKw X ty d) := by
  unfold stmtKw
  mon

instance mon_stmtWord {ty : TT} : Mon (stmtWord ty d) := by
  unfold stmtWord
  mon

instance mon_return : Mon (stmtReturn X d) := by
  unfold stmtReturn
  mon

instance mon_stmtSemi : Mon (stmtSemi d) := by
  unfold stmtSemi
  mon

instance mon_stmtCpp : Mon (stmtCpp X d) := by
  unfold stmtCpp
  mon

instance mon_skip {r : List Tok} : Mon (skip r) := by
  refine ⟨fun s a s' e => ?_⟩
  unfold skip at e
  cases e
  refine ⟨?_, ?_, id, ?_, Nat.le_refl _⟩
  · simp [St.len]
  · simp only [St.len, List.length_append, List.length_reverse, List.length_take, List.length_drop]
    omega
  · intro t ht
    simp only [St.has, List.mem_append, List.mem_reverse] at ht ⊢
    rcases ht with (ht | ht) | ht
    · exact .inr (List.mem_of_mem_take ht)
    · exact .inl ht
    · exact .inr (List.mem_of_mem_drop ht)

/-! ## Expressions -/

instance mon_popDoc : Mon popDoc := by
  unfold popDoc
  mon

theorem mon_callback {m : M (Option (List (Option Tok)))} [Mon m] : Mon (callback m) := by
  unfold callback
  mon

instance mon_recoverBraces : Mon (recoverBraces X) := by
  refine ⟨fun s o s' e => ?_⟩
  unfold recoverBraces at e
  split at e
  · cases e
  · rename_i r ts s1 e1
    have h1 := (mon_withRoot (h := fun d => hX.braces d { dedent := true })).step _ _ _ e1
    split at e
    · cases e
      exact h1
    · split at e
      · split at e
        · cases e
        · rename_i r' _ ts' s2 e2
          have h2 := (mon_withRoot (h := fun d => hX.block d d { gnu := true })).step _ _ _ e2
          split at e <;> cases e <;> exact h1.restore.trans h2
      · cases e
        exact h1

instance mon_recoverType {ti : TI} : Mon (recoverType X ti) := by
  unfold recoverType
  mon

instance mon_recover : Mon (exprRecover X) := by
  unfold exprRecover
  mon

instance mon_recoverCast : Mon (exprRecoverCast X) := by
  unfold exprRecoverCast
  mon

instance mon_recover' : Mon (callback (exprRecover X)) := mon_callback
instance mon_recoverCast' : Mon (callback (exprRecoverCast X)) := mon_callback

section
variable {f : Par} [hf : ∀ pc, Mon (f pc)]

instance mon_sizeof {r : Rule} {tk : Tok} : Mon (execSizeof f r tk) := by
  unfold execSizeof
  mon

instance mon_parens {r : Rule} {tk : Tok} : Mon (execParens X f r tk) := by
  unfold execParens
  mon

instance mon_nud {r : Rule} {tk : Tok} : Mon (nud X f r tk) := by
  unfold nud
  mon

instance mon_ternary {lhs : Ex} {tk : Tok} : Mon (execTernary f lhs tk) := by
  unfold execTernary
  mon

instance mon_led {r : Rule} {tk : Tok} {lhs : Ex} : Mon (led f r lhs tk) := by
  unfold led
  mon

instance mon_operand {stop : Option Nat} : Mon (operand X stop f) := by
  unfold operand
  mon

instance mon_exLoop {stop : Option Nat} {pc : Nat} {ex : Ex} : Mon (exLoop stop f pc ex) := by
  unfold exLoop
  mon
end

instance mon_exec1 {stop : Option Nat} : ∀ {n pc}, Mon (exec1 X stop n pc)
  | 0, _ => ⟨fun _ _ _ e => by cases e⟩
  | n + 1, pc => by
    have hf : ∀ pc, Mon (exec1 X stop n pc) := fun pc => mon_exec1
    rw [exec1]
    mon

end

/-! ## Documents of expressions -/

section
variable {X : Cx} {d : Id}

instance easy_docOpt {m : Id → M Id} {e : Ex} [h : ∀ d, Easy (m d)] : Easy (docOpt e m d) := by
  unfold docOpt
  infer_instance

instance easy_soft {m : Id → M Id} [h : ∀ d, Easy (m d)] : Easy (soft X m d) := by
  unfold soft
  infer_instance

instance easy_softIf {m : Id → M Id} [h : ∀ d, Easy (m d)] {b : Bool} : Easy (softIf X b m d) := by
  unfold softIf
  infer_instance

/-- Go through the body of a function on documents. -/
syntax "easy" : tactic
macro_rules
  | `(tactic| easy) => `(tactic|
    repeat' first
      | infer_instance
      | (refine @easy_bind _ _ _ _ ?_ fun a => ?_; · infer_instance)
      | split
      | dsimp only)

section
variable {ml mr mt : Id → M Id} [hl : ∀ d, Easy (ml d)] [hr : ∀ d, Easy (mr d)] [ht : ∀ d, Easy (mt d)]

instance easy_binary {op : Tok} {r : Ex} : Easy (docBinary X op r ml mr d) := by
  unfold docBinary
  easy

instance easy_parens {l : Tok} {e : Ex} {r : Option Tok} : Easy (docParens X l e r ml d) := by
  unfold docParens
  easy

instance easy_call {l : Tok} {a : Ex} {r : Option Tok} : Easy (docCall X l a r ml mr d) := by
  unfold docCall
  easy

instance easy_arg {op : Tok} {l r : Ex} : Easy (docArg X op l r ml mr d) := by
  unfold docArg
  easy

instance easy_ternary {q : Tok} {m : Ex} {colon : Option Tok} :
    Easy (docTernary X q m colon ml mr mt d) := by
  unfold docTernary
  easy

instance easy_docLit {t : Tok} : Easy (docLit t d) := by
  unfold docLit
  easy
end

theorem easy_exprDoc (X : Cx) : ∀ (e : Ex) (inner : Bool) (d : Id), Easy (exprDoc X inner e d) := by
  intro e
  induction e with
  | concat e tk ih =>
    intro inner d
    unfold exprDoc
    easy
  | _ =>
    intro inner d
    unfold exprDoc
    dsimp only
    easy

instance {X : Cx} {e : Ex} {inner : Bool} : Easy (exprDoc X inner e d) := easy_exprDoc X e inner d

end

section
variable {X : Cx} [hX : RecMon X] {d : Id}

instance mon_exprExec {a : EA} : Mon (exprExec X a) := by
  unfold exprExec
  mon

instance mon_expr {a : EA} : Mon (exprF X a) := by
  unfold exprF
  mon

instance mon_exprPeek : Mon (exprPeek X) := by
  unfold exprPeek
  infer_instance

instance mon_isLoopStmt {n : Nat} : Mon (isLoopStmt X n) := by
  unfold isLoopStmt
  mon

instance mon_stmtExpr : Mon (stmtExpr X d) := by
  unfold stmtExpr
  mon

theorem mon_alts : ∀ ms : List (M Res), (∀ m ∈ ms, Mon m) → Mon (alts ms)
  | [], _ => inferInstanceAs (Mon parserNone)
  | m :: ms, h => by
    have := h m (by simp)
    have := mon_alts ms fun m' h' => h m' (by simp [h'])
    unfold alts
    infer_instance

instance mon_stmt : Mon (stmtF X d) := by
  unfold stmtF
  refine mon_alts _ ?_
  simp only [List.mem_cons, List.not_mem_nil, or_false, forall_eq_or_imp, forall_eq]
  refine ⟨?_, ?_, ?_, ?_, ?_, ?_, ?_, ?_, ?_, ?_, ?_, ?_, ?_, ?_, ?_, ?_, ?_⟩ <;> infer_instance

instance mon_externRound {n : Nat} {u : Unit} : Mon (externRound X d n u) := by
  unfold externRound
  mon

instance mon_extern : Mon (extern_ X d) := by
  unfold extern_
  mon

instance mon_root : Mon (rootF X d) := by
  unfold rootF
  mon

end
end Knfmt.Parse
