import Verif.Parse.StmtProps
/-!
# The parser never prints a token twice

`Bal H m G` is the balance of a step that is given the tokens `H` (consumed, not yet part of a
document) and leaves the tokens `G a` to its caller: what is added to the document was given or has
been consumed in the meantime. Nothing is assumed: this holds for every run, including those in which
the parser loses or misplaces tokens.
-/
namespace Knfmt.Parse
open Knfmt.Lexer (TT)
open Knfmt.Expr (Rule Func findRule)

theorem toks_ins {d : Id} {e : List Ev} (he : toks e = []) : ∀ (L : List Ev), toks (ins d e L) = toks L
  | [] => rfl
  | x :: L => by
    rw [ins]
    split
    · rw [toks_append, he]; rfl
    · rw [toks_cons, toks_cons, toks_ins he L]

/-- How often a token occurs. -/
def num (t : Tok) (l : List Tok) : Nat := l.count t

@[simp] theorem num_nil (t : Tok) : num t [] = 0 := rfl
theorem num_append (t : Tok) (a b : List Tok) : num t (a ++ b) = num t a + num t b := List.count_append
theorem num_cons (t x : Tok) (a : List Tok) : num t (x :: a) = num t [x] + num t a := by
  unfold num
  rw [← List.count_append]
  rfl
theorem num_sub {t : Tok} {a b : List Tok} (h : a.Sublist b) : num t a ≤ num t b := h.count_le t

/-- See above. -/
def Bal {α : Type} (H : List Tok) (m : M α) (G : α → List Tok) : Prop :=
  ∀ s a s', m s = some (a, s') → ∀ t : Tok, t.ty ≠ .eof →
    num t (toks s'.L) + num t (G a) + num t s.done ≤ num t (toks s.L) + num t H + num t s'.done

/-- Nothing is given and nothing is left. -/
class Free {α : Type} (m : M α) : Prop where
  bal : Bal [] m fun _ => []

section
variable {α β : Type} {H : List Tok} {m : M α} {k : α → M β}

theorem Bal.bind {G : α → List Tok} {G' : β → List Tok} (h : Bal H m G)
    (hk : ∀ a, Bal (G a) (k a) G') : Bal H (m >>= k) G' := by
  intro s b s' e t ht
  have e : (match m s with | none => none | some (a, s1) => k a s1) = some (b, s') := e
  cases e1 : m s with
  | none => rw [e1] at e; cases e
  | some x =>
    obtain ⟨a, s1⟩ := x
    rw [e1] at e
    have h1 := h s a s1 e1 t ht
    have h2 := hk a s1 b s' e t ht
    omega

theorem Bal.mono {G : α → List Tok} {H' : List Tok} {G' : α → List Tok} (h : Bal H m G)
    (h1 : ∀ t, num t H ≤ num t H') (h2 : ∀ a t, num t (G' a) ≤ num t (G a)) : Bal H' m G' := by
  intro s a s' e t ht
  have := h s a s' e t ht
  have := h1 t
  have := h2 a t
  omega

theorem Bal.frame {G : α → List Tok} (h : Bal H m G) (F : List Tok) :
    Bal (H ++ F) m fun a => G a ++ F := by
  intro s a s' e t ht
  have := h s a s' e t ht
  simp only [num_append]
  omega

/-- A step that has nothing to do with the tokens at hand. -/
theorem Bal.skip (h : Free m) {G' : β → List Tok} (hk : ∀ a, Bal H (k a) G') : Bal H (m >>= k) G' :=
  Bal.bind (by simpa using h.bal.frame H) hk

theorem Bal.pure {G : α → List Tok} {a : α} (h : ∀ t, num t (G a) ≤ num t H) :
    Bal H (pure a : M α) G := by
  intro s b s' e t _
  cases e
  have := h t
  omega

/-- Tokens may be forgotten. -/
theorem Bal.drop (h : Free m) : Bal H m fun _ => [] :=
  h.bal.mono (by simp) (by simp)

theorem free_of_same (h : ∀ s a s', m s = some (a, s') → toks s'.L = toks s.L ∧ s'.done = s.done) :
    Free m := by
  refine ⟨fun s a s' e t _ => ?_⟩
  obtain ⟨h1, h2⟩ := h s a s' e
  rw [h1, h2]
  simp

instance free_bind [h : Free m] [hk : ∀ a, Free (k a)] : Free (m >>= k) :=
  ⟨h.bal.bind fun a => (hk a).bal⟩

instance free_pure (a : α) : Free (pure a : M α) := ⟨Bal.pure (by simp)⟩

instance free_ite {c : Prop} [Decidable c] {m1 m2 : M α} [h1 : Free m1] [h2 : Free m2] :
    Free (if c then m1 else m2) := by
  split
  · exact h1
  · exact h2

instance free_when {b : Bool} {m : M Unit} [h : Free m] : Free (when b m) := by
  unfold when
  infer_instance

instance free_read (f : St → α) : Free (read f) :=
  free_of_same fun _ _ _ e => by cases e; exact ⟨rfl, rfl⟩

instance free_q (E : Env) (n : Nat) : Free (E.q n) := free_read _
instance free_peek : Free peek := free_read _
instance free_peekIf {ty : TT} : Free (peekIf ty) := free_read _
instance free_back : Free back := free_read _
instance free_backIf {ty : TT} : Free (backIf ty) := free_read _
instance free_good : Free parserGood := free_read _
instance free_none : Free parserNone := free_read _
instance free_pos : Free pos := free_read _
instance free_fail : Free parserFail :=
  free_of_same fun _ _ _ e => by cases e; exact ⟨rfl, rfl⟩
instance free_swallow {n : Nat} : Free (noteSwallow n) :=
  free_of_same fun _ _ _ e => by cases e; exact ⟨rfl, rfl⟩
instance free_trimSemis : Free trimSemis :=
  free_of_same fun _ _ _ e => by cases e; exact ⟨rfl, rfl⟩
theorem free_rest (f : St → List Tok) :
    Free (fun s => some ((), { s with rest := f s }) : M Unit) :=
  free_of_same fun _ _ _ e => by cases e; exact ⟨rfl, rfl⟩

/-- Whatever is done between `lexer_peek_enter` and `lexer_peek_leave`. -/
instance free_peeking : Free (peeking m) := by
  refine free_of_same fun s a s' e => ?_
  unfold peeking at e
  split at e
  · cases e
  · cases e
    exact ⟨rfl, rfl⟩

theorem toks_ins_le (d : Id) (e : List Ev) (t : Tok) :
    ∀ L : List Ev, num t (toks (ins d e L)) ≤ num t (toks e) + num t (toks L)
  | [] => by simp [ins]
  | x :: L => by
    rw [ins]
    split
    · rw [toks_append, num_append]
      omega
    · have := toks_ins_le d e t L
      rw [toks_cons, toks_cons, num_append, num_append]
      omega

instance free_alloc {k : DK} {d : Id} : Free (alloc k d) :=
  free_of_same fun _ _ _ e => by cases e; exact ⟨toks_ins rfl _, rfl⟩
instance free_lay {k : DK} {d : Id} : Free (lay k d) :=
  free_of_same fun _ _ _ e => by cases e; exact ⟨toks_ins rfl _, rfl⟩
instance free_lay_ {k : DK} {d : Id} : Free (lay_ k d) :=
  free_of_same fun _ _ _ e => by cases e; exact ⟨toks_ins rfl _, rfl⟩
instance free_layIf {b : Bool} {k k' : DK} {d : Id} : Free (layIf b k k' d) := free_lay_
instance free_allocIn {k : DK} {d : Id} : Free (allocIn k d) := free_bind
instance free_indentIn {d : Id} : Free (indentIn d) := free_allocIn
instance free_alignIn {d : Id} : Free (alignIn d) := free_allocIn
instance free_alignIf {b : Bool} {d : Id} : Free (alignIf b d) := by
  unfold alignIf
  infer_instance

theorem toks_sub : ∀ {a b : List Ev}, a.Sublist b → (toks a).Sublist (toks b)
  | _, _, .slnil => .slnil
  | _, _, .cons x h => by
    rw [toks_cons]
    exact (toks_sub h).trans (List.sublist_append_right _ _)
  | _, _, .cons_cons x h => by
    rw [toks_cons, toks_cons]
    exact (List.Sublist.refl _).append (toks_sub h)

theorem free_sub (h : ∀ s a s', m s = some (a, s') → s'.L.Sublist s.L ∧ s'.done = s.done) : Free m := by
  refine ⟨fun s a s' e t _ => ?_⟩
  obtain ⟨h1, h2⟩ := h s a s' e
  have : (toks s'.L).Sublist (toks s.L) := toks_sub h1
  have := num_sub (t := t) this
  rw [h2]
  simp only [num_nil]
  omega

theorem afterCls_sub {d : Id} : ∀ {L l : List Ev}, afterCls d L = some l → l.Sublist L
  | [], _, e => by cases e
  | x :: L, l, e => by
    rw [afterCls] at e
    split at e
    · cases e
      exact List.sublist_cons_self _ _
    · exact (afterCls_sub e).cons _

theorem cut_sub (d : Id) : ∀ L : List Ev, (cut d L).Sublist L
  | [] => .slnil
  | .opn d' k :: l => by
    rw [cut]
    split
    · split
      · exact List.Sublist.refl _
      · exact (afterCls_sub ‹_›).cons _
    · exact (cut_sub d l).cons_cons _
  | .cls _ :: l => (cut_sub d l).cons_cons _
  | .tok _ :: l => (cut_sub d l).cons_cons _
  | .lay _ _ :: l => (cut_sub d l).cons_cons _
  | .sub _ :: l => (cut_sub d l).cons_cons _

instance free_rmLay {i : Id} : Free (rmLay i) :=
  free_sub fun _ _ _ e => by cases e; exact ⟨List.filter_sublist, rfl⟩
instance free_rmSoft {i : Id} : Free (rmSoft i) :=
  free_sub fun _ _ _ e => by cases e; exact ⟨List.filter_sublist, rfl⟩
instance free_note {f : List Ev → Bool} : Free (note f) :=
  free_sub fun _ _ _ e => by cases e; exact ⟨List.Sublist.refl _, rfl⟩
instance free_rmWhite {i : Id} : Free (rmWhite i) := free_bind
instance free_rmDoc {d : Id} : Free (rmDoc d) :=
  free_sub fun _ _ _ e => by cases e; exact ⟨cut_sub _ _, rfl⟩
instance free_rmDocChk {d : Id} : Free (rmDocChk d) :=
  free_sub fun _ _ _ e => by cases e; exact ⟨cut_sub _ _, rfl⟩

/-! ## Tokens -/

theorem bal_emit {t : Tok} {d : Id} : Bal [t] (emit t d) fun _ => [] := by
  intro s a s' e u _
  cases e
  dsimp only
  split
  · simp
  · have := toks_ins_le d [.tok t] u s.L
    have h : toks [.tok t] = [t] := rfl
    rw [h] at this
    simp only [num_nil]
    omega

theorem bal_emitChk {t : Tok} {o d : Id} : Bal [t] (emitChk t o d) fun _ => [] := by
  intro s a s' e u _
  cases e
  dsimp only
  split
  · simp
  · have := toks_ins_le o [.tok t] u s.L
    have h : toks [.tok t] = [t] := rfl
    rw [h] at this
    simp only [num_nil]
    omega

theorem bal_adopt {ts : List (Option Tok)} {d : Id} :
    Bal (solid ts) (adopt ts d) fun _ => [] := by
  intro s a s' e u _
  cases e
  dsimp only
  have := toks_ins_le d [.sub ts] u s.L
  have h : toks [.sub ts] = solid ts := by simp [toks, Ev.toks]
  rw [h] at this
  simp only [num_nil]
  omega

theorem bal_pop : Bal [] pop fun t => [t] := by
  intro s a s' e u hu
  unfold pop at e
  split at e
  · cases e
    have : num u [eofTok] = 0 := by
      unfold num
      rw [List.count_eq_zero]
      simp only [List.mem_singleton]
      intro h
      exact hu (by rw [h]; rfl)
    simp only [num_nil, this]
    omega
  · cases e
    rw [num_cons (a := s.done)]
    simp only [num_nil]
    omega

theorem bal_lexIf {p : TT → Bool} : Bal [] (lexIf p) Option.toList := by
  intro s a s' e u _
  unfold lexIf at e
  split at e
  · cases e
    simp
  · split at e
    · cases e
      rw [num_cons (a := s.done)]
      simp only [num_nil, Option.toList]
      omega
    · cases e
      simp

theorem bal_expect {ty : TT} : Bal [] (expect ty) Option.toList := by
  intro s a s' e u _
  unfold expect at e
  split at e
  · cases e
    simp
  · split at e
    · cases e
      rw [num_cons (a := s.done)]
      simp only [num_nil, Option.toList]
      omega
    · cases e
      simp

theorem bal_emitOpt {o : Option Tok} {d : Id} : Bal o.toList (emitOpt o d) fun _ => [] := by
  cases o
  · exact Bal.pure (by simp)
  · exact bal_emit

theorem Bal.give {G : α → List Tok} {G' : β → List Tok} (h : Bal [] m G)
    (hk : ∀ a, Bal (G a ++ H) (k a) G') : Bal H (m >>= k) G' :=
  Bal.bind (by simpa using h.frame H) hk

theorem Bal.take {F : List Tok} {m : M α} {k : α → M β} {G' : β → List Tok} (h : Bal F m fun _ => [])
    (hk : ∀ a, Bal H (k a) G') : Bal (F ++ H) (m >>= k) G' :=
  Bal.bind (by simpa using h.frame H) hk

instance free_expectEmit {ty : TT} {d : Id} : Free (expectEmit ty d) := by
  refine ⟨bal_expect.bind fun o => ?_⟩
  cases o
  · exact Bal.pure (by simp)
  · exact bal_emit

instance free_ifEmit {ty : TT} {d : Id} : Free (ifEmit ty d) := by
  refine ⟨bal_lexIf.bind fun o => ?_⟩
  cases o
  · exact Bal.pure (by simp)
  · exact bal_emit

theorem bal_withRoot' {m : Id → M α} (h : ∀ d, Bal H (m d) fun _ => []) :
    Bal H (withRoot m) fun x => solid x.2 := by
  intro s x s' e u hu
  unfold withRoot at e
  split at e
  · cases e
  · rename_i a s1 e1
    cases e
    have := h _ _ _ _ e1 u hu
    dsimp only at this ⊢
    have h0 : toks [Ev.opn s.next .root, .cls s.next] = [] := rfl
    rw [h0] at this
    simp only [num_nil, solid_items] at this ⊢
    omega

theorem bal_withRoot {m : Id → M α} (h : ∀ d, Free (m d)) : Bal [] (withRoot m) fun x => solid x.2 :=
  bal_withRoot' fun d => (h d).bal

/-- What is left after one round of a loop. -/
def left (G : α → List Tok) (G' : β → List Tok) : α ⊕ β → List Tok
  | .inl a => G a
  | .inr b => G' b

theorem Bal.loop {f : α → M (α ⊕ β)} {G : α → List Tok} {G' : β → List Tok}
    (h : ∀ a, Bal (G a) (f a) (left G G')) :
    ∀ (n : Nat) (a : α), Bal (G a) (loop n f a) G'
  | 0, _ => by intro s b s' e; cases e
  | n + 1, a => by
    rw [Parse.loop]
    refine (h a).bind fun r => ?_
    cases r with
    | inl a' => exact Bal.loop h n a'
    | inr b => exact Bal.pure fun _ => Nat.le_refl _

instance free_loop {f : α → M (α ⊕ β)} [h : ∀ a, Free (f a)] {n : Nat} {a : α} : Free (loop n f a) := by
  refine ⟨Bal.loop (G := fun _ => []) (fun a => ?_) n a⟩
  refine (h a).bal.mono (by simp) fun r t => ?_
  cases r <;> simp [left]
end

/-! ## Proof search -/

/-- Go through the body of a function. -/
syntax "bal" : tactic
macro_rules
  | `(tactic| bal) => `(tactic|
    repeat' first
      | (refine Bal.drop ?_; · infer_instance)
      | refine Bal.take bal_emit fun _ => ?_
      | refine Bal.take bal_emitChk fun _ => ?_
      | refine Bal.take bal_emitOpt fun _ => ?_
      | refine Bal.give bal_lexIf fun o => ?_
      | refine Bal.give bal_expect fun o => ?_
      | refine Bal.give bal_pop fun t => ?_
      | (refine Bal.skip ?_ fun a => ?_; · infer_instance)
      | split
      | dsimp only)

macro "free" : tactic => `(tactic| (refine ⟨?_⟩; bal))

/-- Balance of the functions called recursively. -/
class RecFree (X : Cx) : Prop where
  expr : ∀ a, Free (X.R.expr a)
  type : ∀ d ti, Free (X.R.type d ti)
  braces : ∀ d F, Free (X.R.braces d F)
  block : ∀ h t F, Free (X.R.block h t F)
  stmt : ∀ d, Free (X.R.stmt d)
  decl : ∀ d F, Free (X.R.decl d F)
  root : ∀ d, Free (X.R.root d)

instance {X : Cx} [h : RecFree X] {a : EA} : Free (X.R.expr a) := h.expr a
instance {X : Cx} [h : RecFree X] {d : Id} {ti : TI} : Free (X.R.type d ti) := h.type d ti
instance {X : Cx} [h : RecFree X] {d : Id} {F : CF} : Free (X.R.braces d F) := h.braces d F
instance {X : Cx} [h : RecFree X] {a b : Id} {F : BF} : Free (X.R.block a b F) := h.block a b F
instance {X : Cx} [h : RecFree X] {d : Id} : Free (X.R.stmt d) := h.stmt d
instance {X : Cx} [h : RecFree X] {d : Id} {F : DF} : Free (X.R.decl d F) := h.decl d F
instance {X : Cx} [h : RecFree X] {d : Id} : Free (X.R.root d) := h.root d

section
variable {X : Cx} [hX : RecFree X] {d : Id}

/-! ## Statements and declarations -/

theorem bal_semiLast (semi : Tok) : Bal [semi] (fun s =>
      match semisOn semi s.rest with
      | ([], _) => some (semi, s)
      | (t :: ts, r) =>
        let l := (t :: ts).getLast (by simp)
        some (l, { s with done := l :: s.done, rest := r }) : M Tok) fun l => [l] := by
  intro s a s' e t _
  dsimp only at e
  split at e
  · cases e
    simp
  · cases e
    dsimp only
    rw [num_cons (a := s.done)]
    omega

instance free_semi : Free (parserSemi d) := by
  unfold parserSemi
  free
  refine Bal.bind (bal_semiLast _) fun _ => ?_
  bal

instance free_attributes {l f : Bool} : Free (attributes X d l f) := by
  have : ∀ fin opt v, Free (attrRound X l fin opt v) := by
    intro fin opt v
    unfold attrRound
    free
  unfold attributes
  free

instance free_layOn {x : Res × Option Id} : Free (layOn x) := by
  unfold layOn
  free

instance free_funcArg {rp : Nat} : Free (funcArg X d rp) := by
  have : ∀ c pv, Free (funcArgRound X rp c pv) := by
    intro c pv
    unfold funcArgRound
    free
  unfold funcArg
  free

instance free_funcArgs {rp : Nat} : Free (funcArgs X d rp) := by
  unfold funcArgs
  refine @free_loop _ _ _ (fun a => ?_) _ _
  free

theorem free_typeRound {ti : TI} : Free (typeRoundM X d ti ()) := by
  unfold typeRoundM
  free

instance free_type {ti : TI} : Free (typeF X d ti) := by
  have : ∀ u, Free (typeRoundM X d ti u) := fun _ => free_typeRound
  unfold typeF
  infer_instance

theorem free_run {p : TT → Bool} {c : Id} {k : Id → M Unit} (hk : ∀ d, Free (k d)) {n : Nat} : Free (loop n (fun (_ : Unit) => do
      let t ← lexIf p
      match t with
      | none => return .inr ()
      | some t =>
        emit t c
        k c
        return .inl ()) () : M Unit) := by
  refine @free_loop _ _ _ (fun a => ?_) _ _
  free

instance free_cppX : Free (cppX X d) := by
  unfold cppX
  refine ⟨Bal.skip inferInstance fun p => ?_⟩
  split
  · bal
  · refine Bal.skip inferInstance fun c => ?_
    refine Bal.skip ?_ fun _ => ?_
    · refine @free_loop _ _ _ (fun a => ?_) _ _
      free
    · bal

instance free_cdefs : Free (cppCdefs d) := by
  unfold cppCdefs
  free

instance free_declRoot : Free (cppDeclRoot d) := by
  unfold cppDeclRoot
  free

instance free_docAsmOperand : Free (docAsmOperand d) := by
  unfold docAsmOperand
  free

instance free_asmOperandCpp : Free (asmOperandCpp X d) := by
  unfold asmOperandCpp
  free

instance free_asmName : Free (asmName d) := by
  unfold asmName
  free

instance free_asmTemplate : Free (asmTemplate d) := by
  unfold asmTemplate
  free

instance free_asmOperand : Free (asmOperand X d) := by
  unfold asmOperand
  free

instance free_asmOperands : Free (asmOperands X d) := by
  unfold asmOperands
  free

instance free_asmOperandList {c : Id} : Free (asmOperandList X d c) := by
  unfold asmOperandList
  free

instance free_asmExprList {c : Id} : Free (asmExprList X d c) := by
  unfold asmExprList
  free

instance free_asm : Free (asm_ X d) := by
  unfold asm_
  refine ⟨Bal.skip inferInstance fun p => ?_⟩
  split
  · bal
  · refine Bal.skip inferInstance fun c => ?_
    refine Bal.skip inferInstance fun _ => ?_
    refine Bal.skip ?_ fun _ => ?_
    · refine @free_loop _ _ _ (fun a => ?_) _ _
      free
    · bal

instance free_stmtAsm : Free (stmtAsm X d) := by
  unfold stmtAsm
  free

instance free_rootAsm : Free (rootAsm X d) := by
  unfold rootAsm
  free

instance free_bracesField1 {e : Bool} : Free (bracesField1 X e d) := by
  unfold bracesField1
  free

instance free_bracesField {e : Bool} {r : Nat} : Free (bracesField X e r d) := by
  unfold bracesField
  refine ⟨Bal.skip ?_ fun _ => ?_⟩
  · refine @free_loop _ _ _ (fun a => ?_) _ _
    free
  · bal

instance free_bracesElem {F : CF} {r : Nat} {c : Option (Option Nat)} : Free (bracesElem X F r c d) := by
  unfold bracesElem
  free

instance free_bracesSpace {F : CF} {r : Nat} {b c : Id} : Free (bracesSpace X F r d b c) := by
  unfold bracesSpace
  free

theorem free_bracesRound {F : CF} {r : Nat} {v : Id × Option (Option Nat)} :
    Free (bracesRound X F r d v) := by
  unfold bracesRound
  free

instance free_bracesEnd : Free (bracesEnd d) := by
  unfold bracesEnd
  free

instance free_braces {F : CF} : Free (bracesF X d F) := by
  have : ∀ r i v, Free (bracesRound X F r i v) := fun _ _ _ => free_bracesRound
  unfold bracesF
  free

instance free_protoFuncPtr : Free (protoFuncPtr X d) := by
  unfold protoFuncPtr
  free

instance free_protoName {c : Id} : Free (protoName d c) := by
  unfold protoName
  free

instance free_krArgs : Free (krArgs X d) := by
  unfold krArgs
  free

instance free_protoAttrs : Free (protoAttrs X d) := by
  unfold protoAttrs
  free

instance free_protoTail {c : Id} : Free (protoTail X d c) := by
  unfold protoTail
  free

instance free_protoArgs {c : Id} : Free (protoArgs X d c) := by
  unfold protoArgs
  free

instance free_funcProto {ti : TI} {f i : Bool} : Free (funcProto X d ti f i) := by
  unfold funcProto
  free

instance free_funcDecl : Free (funcDecl X d) := by
  unfold funcDecl
  free

instance free_funcImpl : Free (funcImpl X d) := by
  unfold funcImpl
  free

instance free_bitfield : Free (declBitfield X d) := by
  unfold declBitfield
  free

instance free_initParens {l r : TT} : Free (initParens X l r d) := by
  unfold initParens
  free

instance free_declInit1 {o : Option Id} : Free (declInit1 X d o) := by
  unfold declInit1
  free

instance free_declInitAssign {o : Option Id} {n : Nat} : Free (declInitAssign X d o n) := by
  unfold declInitAssign
  free

theorem bal_declComma {c : Id} {o : Option Tok} : Bal o.toList (declComma X d c o) fun _ => [] := by
  unfold declComma
  split
  · exact Bal.pure (by simp)
  · exact Bal.take (H := []) bal_emit fun _ => Bal.drop inferInstance

theorem free_declInitRound {n : Nat} {v : Id × Option Id × Nat} : Free (declInitRound X d n v) := by
  unfold declInitRound
  refine ⟨?_⟩
  refine Bal.skip inferInstance fun nx => ?_
  split
  · bal
  · refine Bal.give bal_lexIf fun o => ?_
    refine Bal.take bal_declComma fun _ => ?_
    bal

instance free_declInit {n : Nat} : Free (declInit X d n) := by
  have : ∀ d v, Free (declInitRound X d n v) := fun _ _ => free_declInitRound
  unfold declInit
  free

instance free_declBraces : Free (declBraces X d) := by
  unfold declBraces
  free

instance free_aggregate : Free (declAggregate X d) := by
  unfold declAggregate
  free

instance free_declSemi {F : DF} {o : Id} : Free (declSemi F d o) := by
  unfold declSemi
  free

instance free_decl2 {F : DF} : Free (decl2 X d F) := by
  unfold decl2
  free

instance free_rmOpt {l : Option Id} : Free (rmOpt l) := by
  unfold rmOpt
  free

theorem free_declRound {F : DF} {n : Nat} : Free (declRound X d F n) := by
  unfold declRound
  free

instance free_decl {F : DF} : Free (declF X d F) := by
  have : ∀ d n, Free (declRound X d F n) := fun _ _ => free_declRound
  unfold declF
  free

theorem free_blockRound {s : Bool} {r : Nat} {v : Tok × Nat} : Free (blockRound X s r d v) := by
  unfold blockRound
  free

instance free_block {t : Id} {F : BF} : Free (blockF X d t F) := by
  have : ∀ s r i v, Free (blockRound X s r i v) := fun _ _ _ _ => free_blockRound
  have : ∀ r, Free (fun s => some ((), { s with rest := rmSemi r s.rest }) : M Unit) :=
    fun r => free_rest fun s => rmSemi r s.rest
  unfold blockF
  free

instance free_kwTail {c : Id} {ty : TT} {F : KF} {r : Nat} : Free (kwTail X d c ty F r) := by
  unfold kwTail
  free

instance free_kwExpr {ty : TT} {F : KF} : Free (kwExpr X d ty F) := by
  unfold kwExpr
  have key : ∀ pre : Option Tok, Bal pre.toList (do
      if F.elseif && pre.isNone then parserFail else
      let kw ← expect ty
      match kw with
      | none => parserFail
      | some kw =>
        let p ← read fun s => parens s.rest
        match p with
        | none => parserFail
        | some (rp, _) =>
          let stmt ← allocIn .group d
          emitOpt pre stmt
          when F.elseif (lay_ .blank stmt)
          emit kw stmt
          when (decide (ty ≠ .ident)) (lay_ .blank stmt)
          kwTail X d stmt ty F rp.id) fun _ => [] := by
    intro pre
    split
    · bal
    · refine Bal.give bal_expect fun kw => ?_
      split
      · bal
      · refine Bal.skip inferInstance fun p => ?_
        split
        · bal
        · refine Bal.skip inferInstance fun c => ?_
          rename_i kw _ _ _
          refine Bal.mono (H := pre.toList ++ ([kw] ++ [])) (G := fun _ => [])
            (Bal.take bal_emitOpt fun _ => ?_) ?_ (by simp)
          · bal
          · intro t
            simp only [num_append, Option.toList, num_nil]
            omega
  refine ⟨?_⟩
  split
  · exact Bal.bind bal_expect key
  · exact Bal.bind (G := Option.toList) (Bal.pure (by simp)) key

theorem free_ifRound : Free (ifRound X d ()) := by
  unfold ifRound
  free

instance free_if : Free (stmtIf X d) := by
  have : ∀ u, Free (ifRound X d u) := fun _ => free_ifRound
  unfold stmtIf
  free

instance free_forPart {l : Bool} {ty : TT} : Free (forPart X d l ty) := by
  unfold forPart
  free

instance free_for : Free (stmtFor X d) := by
  unfold stmtFor
  free

instance free_dowhile : Free (stmtDowhile X d) := by
  unfold stmtDowhile
  free

instance free_label : Free (stmtLabel X d) := by
  unfold stmtLabel
  free

theorem free_caseRound {t : Tok} : Free (caseRound X d t ()) := by
  unfold caseRound
  free

instance free_case : Free (stmtCase X d) := by
  have : ∀ i t u, Free (caseRound X i t u) := fun _ _ _ => free_caseRound
  unfold stmtCase
  free

instance free_goto : Free (stmtGoto d) := by
  unfold stmtGoto
  free

instance free_stmtKw {ty : TT} : Free (stmtKw X ty d) := by
  unfold stmtKw
  free

instance free_stmtWord {ty : TT} : Free (stmtWord ty d) := by
  unfold stmtWord
  free

instance free_return : Free (stmtReturn X d) := by
  unfold stmtReturn
  free

instance free_stmtSemi : Free (stmtSemi d) := by
  unfold stmtSemi
  free

instance free_stmtCpp : Free (stmtCpp X d) := by
  unfold stmtCpp
  free

instance free_exprPeek : Free (exprPeek X) := by
  unfold exprPeek
  infer_instance

instance free_isLoopStmt {n : Nat} : Free (isLoopStmt X n) := by
  unfold isLoopStmt
  free

instance free_stmtExpr : Free (stmtExpr X d) := by
  unfold stmtExpr
  free

theorem free_alts : ∀ ms : List (M Res), (∀ m ∈ ms, Free m) → Free (alts ms)
  | [], _ => free_none
  | m :: ms, h => by
    have := h m (by simp)
    have := free_alts ms fun m' h' => h m' (by simp [h'])
    unfold alts
    infer_instance

instance free_stmt : Free (stmtF X d) := by
  unfold stmtF
  refine free_alts _ ?_
  simp only [List.mem_cons, List.not_mem_nil, or_false, forall_eq_or_imp, forall_eq]
  refine ⟨?_, ?_, ?_, ?_, ?_, ?_, ?_, ?_, ?_, ?_, ?_, ?_, ?_, ?_, ?_, ?_, ?_⟩ <;> infer_instance

theorem free_externRound {n : Nat} : Free (externRound X d n ()) := by
  unfold externRound
  free

instance free_extern : Free (extern_ X d) := by
  have : ∀ n u, Free (externRound X d n u) := fun _ _ => free_externRound
  unfold extern_
  free

instance free_root : Free (rootF X d) := by
  unfold rootF
  free

end
end Knfmt.Parse
