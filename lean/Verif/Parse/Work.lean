import Verif.Parse.Terminates
/-!
# C84: the work of the parser

The state counts the documents made, `St.next`: it is the only counter that is not set back when the
parser leaves a nested use of the lexer. It is a lower bound of the work done by the parser.
-/
namespace Knfmt.Parse
open Knfmt.Lexer (TT)
open Knfmt.Expr (Rule Func findRule)

/-! ## The source -/

namespace Spec

/-- Nested loops without braces, one per line and each one column further to the right than the one
around it:

    A()
     A()
      A();

`i` is the number of the first token and `k` its line. -/
def nest : Nat → Nat → Nat → List Tok
  | 0, i, k => [
    { id := i, ty := .ident, str := ['A'], lno := k, cno := k + 8 },
    { id := i + 1, ty := .lparen, str := ['('], lno := k, cno := k + 9 },
    { id := i + 2, ty := .rparen, str := [')'], lno := k, cno := k + 10 },
    { id := i + 3, ty := .semi, str := [';'], lno := k, cno := k + 11 }]
  | n + 1, i, k =>
    { id := i, ty := .ident, str := ['A'], lno := k, cno := k + 8 } ::
    { id := i + 1, ty := .lparen, str := ['('], lno := k, cno := k + 9 } ::
    { id := i + 2, ty := .rparen, str := [')'], lno := k, cno := k + 10 } :: nest n (i + 3) (k + 1)

/-- `void f() {`, `n` loops around a call, and `}`. -/
def loops (n : Nat) : List Tok :=
  [ { id := 1, ty := .void, str := ['v', 'o', 'i', 'd'], lno := 1, cno := 1 },
    { id := 2, ty := .ident, str := ['f'], lno := 1, cno := 6 },
    { id := 3, ty := .lparen, str := ['('], lno := 1, cno := 7 },
    { id := 4, ty := .rparen, str := [')'], lno := 1, cno := 8 },
    { id := 5, ty := .lbrace, str := ['{'], lno := 1, cno := 10 } ] ++ nest n 6 2 ++
  [ { id := 3 * n + 10, ty := .rbrace, str := ['}'], lno := n + 3, cno := 1 } ]

end Spec
open Spec

/-! ## Runs -/

/-- The tokens consumed and left, no error, and at least so many documents. -/
def At (p r : List Tok) (n : Nat) (s : St) : Prop :=
  s.done = p ∧ s.rest = r ∧ s.err = false ∧ n ≤ s.next

/-- From such a state `m` ends as told by `Q`. -/
def W {α : Type} (p r : List Tok) (n : Nat) (m : M α) (Q : α → St → Prop) : Prop :=
  ∀ s, At p r n s → ∃ a s', m s = some (a, s') ∧ Q a s'

section
variable {α β : Type} {p r : List Tok} {n : Nat} {m : M α} {k : α → M β} {Q : β → St → Prop}

theorem w_easy [h : Easy m] : W p r n m fun _ => At p r n := by
  intro s ⟨h1, h2, h3, h4⟩
  obtain ⟨a, s', e, e1, e2, e3, e4⟩ := h.run s
  exact ⟨a, s', e, by rw [e2, h1], by rw [e1, h2], by rw [e3, h3], Nat.le_trans h4 e4⟩

theorem w_weak {Q' : α → St → Prop} (h : W p r n m Q') {Q : α → St → Prop} (hq : ∀ a s, Q' a s → Q a s) :
    W p r n m Q := by
  intro s hs
  obtain ⟨a, s', e, q⟩ := h s hs
  exact ⟨a, s', e, hq _ _ q⟩

/-- The result does not matter. -/
theorem w_skip (h : Easy m) (hk : ∀ a, W p r n (k a) Q) : W p r n (m >>= k) Q := by
  intro s hs
  obtain ⟨a, s1, e, h1⟩ := w_easy (m := m) s hs
  obtain ⟨b, s2, e', q⟩ := hk a s1 h1
  exact ⟨b, s2, by rw [bind_of e, e'], q⟩

/-- The result is known. -/
theorem w_val {p' r' : List Tok} {n' : Nat} (v : α) (h : W p r n m fun a s => a = v ∧ At p' r' n' s)
    (hk : W p' r' n' (k v) Q) : W p r n (m >>= k) Q := by
  intro s hs
  obtain ⟨a, s1, e, rfl, h1⟩ := h s hs
  obtain ⟨b, s2, e', q⟩ := hk s1 h1
  exact ⟨b, s2, by rw [bind_of e, e'], q⟩

/-- The same when nothing is consumed. -/
theorem w_same (v : α) (h : W p r n m fun a s => a = v ∧ At p r n s) (hk : W p r n (k v) Q) : W p r n (m >>= k) Q :=
  w_val v h hk

/-- Something is known about the result. -/
theorem w_some {p' r' : List Tok} {n' : Nat} {g : α → Prop} (h : W p r n m fun a s => g a ∧ At p' r' n' s)
    (hk : ∀ v, g v → W p' r' n' (k v) Q) : W p r n (m >>= k) Q := by
  intro s hs
  obtain ⟨a, s1, e, g1, h1⟩ := h s hs
  obtain ⟨b, s2, e', q⟩ := hk a g1 s1 h1
  exact ⟨b, s2, by rw [bind_of e, e'], q⟩

/-- Two ways that are the same here. -/
theorem w_jp {m1 m2 : M α} {b : Prop} [Decidable b] [Easy m1] [Easy m2] (hk : ∀ a, W p r n (k a) Q) :
    W p r n (have j := k; if b then m1 >>= j else m2 >>= j) Q := by
  dsimp only
  split
  · exact w_skip inferInstance hk
  · exact w_skip inferInstance hk

theorem w_pure {α : Type} {p r : List Tok} {n : Nat} (a : α) : W p r n (pure a) fun b s => b = a ∧ At p r n s :=
  fun s hs => ⟨a, s, rfl, rfl, hs⟩

theorem w_pure' {α : Type} {p r : List Tok} {n : Nat} {g : α → Prop} {a : α} (h : g a) :
    W p r n (pure a) fun b s => g b ∧ At p r n s :=
  fun s hs => ⟨a, s, rfl, h, hs⟩

/-- Looking at the state. -/
theorem w_read {f : St → α} (v : α) (h : ∀ s, At p r n s → f s = v) (hk : W p r n (k v) Q) :
    W p r n (read f >>= k) Q :=
  w_val v (fun s hs => ⟨_, s, rfl, h s hs, hs⟩) hk

theorem w_readv {f : St → α} (v : α) (h : ∀ s, At p r n s → f s = v) :
    W p r n (read f) fun a s => a = v ∧ At p r n s :=
  fun s hs => ⟨_, s, rfl, h s hs, hs⟩

theorem w_none : W p r n parserNone fun a s => a = .non ∧ At p r n s :=
  w_readv _ fun s hs => by simp [hs.2.2.1]

theorem w_good : W p r n parserGood fun a s => a = .good ∧ At p r n s :=
  w_readv _ fun s hs => by simp [hs.2.2.1]

theorem w_lexIf {t : Tok} {f : TT → Bool} (h : f t.ty = true) :
    W p (t :: r) n (lexIf f) fun a s => a = some t ∧ At (t :: p) r n s := by
  rintro s ⟨h1, h2, h3, h4⟩
  refine ⟨some t, { s with done := t :: s.done, rest := r }, ?_, rfl, ?_, rfl, h3, h4⟩
  · unfold lexIf
    rw [h2]
    simp only [h, if_true]
  · simp [h1]

theorem w_lexIf_no {f : TT → Bool} (h : f (r.head?.getD eofTok).ty = false) :
    W p r n (lexIf f) fun a s => a = none ∧ At p r n s := by
  rintro s ⟨h1, h2, h3, h4⟩
  refine ⟨none, s, ?_, rfl, h1, h2, h3, h4⟩
  unfold lexIf
  rw [h2]
  cases r with
  | nil => rfl
  | cons t r => simp at h; simp [h]

theorem w_expect {t : Tok} {ty : TT} (h : t.ty = ty) :
    W p (t :: r) n (expect ty) fun a s => a = some t ∧ At (t :: p) r n s := by
  rintro s ⟨h1, h2, h3, h4⟩
  refine ⟨some t, { s with done := t :: s.done, rest := r }, ?_, rfl, ?_, rfl, h3, h4⟩
  · unfold expect
    rw [h2]
    simp only [h, if_true]
  · simp [h1]

theorem w_expectEmit {t : Tok} {ty : TT} {d : Id} (h : t.ty = ty) :
    W p (t :: r) n (expectEmit ty d) fun a s => a = () ∧ At (t :: p) r n s := by
  unfold expectEmit
  exact w_val _ (w_expect h) (w_weak w_easy fun _ _ h => ⟨rfl, h⟩)

theorem w_pop {t : Tok} : W p (t :: r) n pop fun a s => a = t ∧ At (t :: p) r n s := by
  rintro s ⟨h1, h2, h3, h4⟩
  refine ⟨t, { s with done := t :: s.done, rest := r }, ?_, rfl, ?_, rfl, h3, h4⟩
  · unfold pop
    rw [h2]
  · simp [h1]

theorem w_peekIf {ty : TT} (b : Bool) (h : decide ((r.head?.getD eofTok).ty = ty) = b) :
    W p r n (peekIf ty) fun a s => a = b ∧ At p r n s :=
  w_readv _ fun s hs => by rw [← h]; simp [nxt, hs.2.1]

theorem w_peek : W p r n peek fun a s => a = r.head?.getD eofTok ∧ At p r n s :=
  w_readv _ fun s hs => by simp [nxt, hs.2.1]

/-- A document is made. -/
theorem w_alloc {d : Id} {k' : DK} {k : Id → M β} (hk : ∀ a, W p r (n + 1) (k a) Q) :
    W p r n (alloc k' d >>= k) Q := by
  rintro s ⟨h1, h2, h3, h4⟩
  exact hk _ _ ⟨h1, h2, h3, Nat.succ_le_succ h4⟩

theorem w_lay {d : Id} {k' : DK} {k : Unit → M β} (hk : W p r (n + 1) (k ()) Q) :
    W p r n (lay_ k' d >>= k) Q := by
  rintro s ⟨h1, h2, h3, h4⟩
  exact hk _ ⟨h1, h2, h3, Nat.succ_le_succ h4⟩

/-- Looking ahead. -/
theorem w_peeking {c r' : List Tok} {n' : Nat} {g : α → Prop} (hr : r = c ++ r')
    (h : W p r n m fun a s => g a ∧ At (c.reverse ++ p) r' n' s) :
    W p r n (peeking m) fun a s => g a ∧ At p r n' s := by
  rintro s ⟨h1, h2, h3, h4⟩
  obtain ⟨a, s', e, g1, e1, e2, e3, e4⟩ := h s ⟨h1, h2, h3, h4⟩
  refine ⟨a, restore s s', by unfold peeking; rw [e], g1, h1, ?_, h3, e4⟩
  simp [restore, e1, e2, h1, hr]

theorem w_withRoot {p' r' : List Tok} {n' : Nat} {f : Id → M α} {g : α → Prop}
    (h : ∀ d, W p r n (f d) fun a s => g a ∧ At p' r' n' s) :
    W p r n (withRoot f) fun a s => g a.1 ∧ At p' r' n' s := by
  rintro s ⟨h1, h2, h3, h4⟩
  obtain ⟨a, s', e, g1, e1, e2, e3, e4⟩ :=
    h s.next { s with L := [.opn s.next .root, .cls s.next], next := s.next + 1 } ⟨h1, h2, h3, Nat.le_succ_of_le h4⟩
  exact ⟨(a, items s'.L), { s' with L := s.L }, by unfold withRoot; rw [e], g1, e1, e2, e3, e4⟩

theorem w_alts {p' r' : List Tok} {n' : Nat} {m : M Res} {ms : List (M Res)} {Q : Res → St → Prop}
    (h : W p r n m fun a s => a = .non ∧ At p' r' n' s) (hk : W p' r' n' (alts ms) Q) :
    W p r n (alts (m :: ms)) Q := by
  unfold alts
  exact w_val _ h hk

theorem w_alts_good {p' r' : List Tok} {n' : Nat} {m : M Res} {ms : List (M Res)}
    (h : W p r n m fun a s => a = .good ∧ At p' r' n' s) :
    W p r n (alts (m :: ms)) fun a s => a = .good ∧ At p' r' n' s := by
  unfold alts
  exact w_val _ h w_good

end

/-- Go over what consumes nothing. -/
macro "skips" : tactic => `(tactic|
  repeat' first
    | with_reducible refine w_skip inferInstance fun _ => ?_
    | split
    | dsimp only)

/-! ## What is seen ahead -/

section
variable {a l c : Tok} {r : List Tok} {pv : Option Tok}

theorem findRule_ident : findRule .ident true = some ⟨0, true, false, .ident, .literal⟩ := by decide
theorem findRule_concat : findRule .ident false = some ⟨12, false, false, .ident, .concat⟩ := by decide
theorem findRule_call : findRule .lparen false = some ⟨15, false, false, .lparen, .parens⟩ := by decide
theorem findRule_rparen : findRule .rparen true = none := by decide
theorem findRule_rparen' : findRule .rparen false = none := by decide
theorem findRule_semi : findRule .semi false = none := by decide

theorem qs_ident : isQS .ident = false := by decide
theorem qs_rparen : isQS .rparen = false := by decide
theorem qs_lparen : isQS .lparen = false := by decide
theorem type_ident : isType .ident = false := by decide
theorem type_rparen : isType .rparen = false := by decide
theorem type_lparen : isType .lparen = false := by decide

theorem cppPeekType_no (ha : a.ty ≠ .ident) : cppPeekType (a :: r) = none := by
  unfold cppPeekType
  split
  · rename_i i x y z w e
    cases e
    simp only [ha, false_and, if_false]
    split <;> rfl
  · rfl

theorem cppPeekType_call (hc : c.ty = .rparen) : cppPeekType (a :: l :: c :: r) = none := by
  unfold cppPeekType
  split
  · rename_i i x y z w e
    cases e
    simp only [hc, reduceCtorEq, false_and, and_false, if_false]
    split <;> rfl
  · rfl

theorem typePeek_call (ha : a.ty = .ident) (hl : l.ty = .lparen) (hc : c.ty = .rparen) :
    typePeek {} pv (a :: l :: c :: r) = none := by
  have h : cppPeekType (a :: l :: c :: r) = none := cppPeekType_call hc
  simp [typePeek, typeLoop, typeRound, unknownBitfield, ha, hl, hc, h, qs_ident, type_ident, identAfterType, pAt]

theorem typePeek_call_expr (ha : a.ty = .ident) (hl : l.ty = .lparen) (hc : c.ty = .rparen)
    (hp : pv.map Tok.ty ≠ some .sizeof) : typePeek { expr := true } pv (a :: l :: c :: r) = none := by
  have h : cppPeekType (a :: l :: c :: r) = none := cppPeekType_call hc
  have h' : cppPeekType (l :: c :: r) = none := cppPeekType_no (by simp [hl])
  have hp' : ¬ (∃ a, pv = some a ∧ a.ty = TT.sizeof) := by simpa using hp
  simp [typePeek, typeLoop, typeRound, unknownBitfield, ha, hl, hc, h, h', qs_ident, type_ident, qs_lparen,
    type_lparen, funcPtr, ptrArray, pIf, is, hp']

theorem typePeek_rparen {F : TF} (hc : c.ty = .rparen) : typePeek F pv (c :: r) = none := by
  have h : cppPeekType (c :: r) = none := cppPeekType_no (by simp [hc])
  have h1 : unknownBitfield (c :: r) = none := by
    unfold unknownBitfield
    split
    · rename_i e
      cases e
      simp [hc]
    · rfl
  simp [typePeek, typeLoop, typeRound, h1, hc, h, qs_rparen, type_rparen, noIdent, unknownArray, pIf, is]

theorem parens_call (hl : l.ty = .lparen) (hc : c.ty = .rparen) : parens (l :: c :: r) = some (c, r) := by
  simp [parens, pair, pAt, pairGo, hl, hc]

end

/-! ## Expressions -/

section
variable {X : Cx} {a l c : Tok} {p r : List Tok} {n : Nat} {stop : Option Nat}

/-- The last token is not `sizeof`. -/
def NoSizeof (p : List Tok) : Prop := p.head?.map Tok.ty ≠ some .sizeof

theorem w_recover_call (ha : a.ty = .ident) (hl : l.ty = .lparen) (hc : c.ty = .rparen) (hp : NoSizeof p) :
    W p (a :: l :: c :: r) n (callback (exprRecover X)) fun x s => x = none ∧ At p (a :: l :: c :: r) n s := by
  unfold callback
  refine w_skip inferInstance fun _ => ?_
  refine w_same none ?_ ?_
  · unfold exprRecover
    refine w_read none (fun s hs => ?_) ?_
    · rw [hs.1, hs.2.1]
      exact typePeek_call_expr ha hl hc hp
    refine w_val _ w_peek ?_
    simp only [List.head?_cons, Option.getD_some, ha]
    rw [if_neg (by decide), if_neg (by decide), if_neg (by decide)]
    exact w_pure _
  · refine w_skip inferInstance fun _ => ?_
    exact w_pure _

theorem w_recover_rparen (hc : c.ty = .rparen) :
    W p (c :: r) n (callback (exprRecover X)) fun x s => x = none ∧ At p (c :: r) n s := by
  unfold callback
  refine w_skip inferInstance fun _ => ?_
  refine w_same none ?_ ?_
  · unfold exprRecover
    refine w_read none (fun s hs => ?_) ?_
    · rw [hs.1, hs.2.1]
      exact typePeek_rparen hc
    refine w_val _ w_peek ?_
    simp only [List.head?_cons, Option.getD_some, hc]
    rw [if_neg (by decide), if_neg (by decide), if_neg (by decide)]
    exact w_pure _
  · refine w_skip inferInstance fun _ => ?_
    exact w_pure _

theorem w_exPeek : W p (a :: r) n (exPeek none) fun x s => x = some a ∧ At p (a :: r) n s :=
  w_readv _ fun s hs => by simp [hs.2.1, hs.2.2.1]

/-- There is no expression in front of a right parenthesis. -/
theorem w_exec1_rparen (hc : c.ty = .rparen) {m pc : Nat} :
    W p (c :: r) n (exec1 X stop (m + 1) pc) fun x s => x = .null ∧ At p (c :: r) n s := by
  unfold exec1
  refine w_skip inferInstance fun _ => ?_
  refine w_same .null ?_ ?_
  · unfold operand
    by_cases hs : some c.id = stop
    · refine w_val none (w_readv _ fun s h => by simp [h.2.1, h.2.2.1, hs]) ?_
      exact w_pure _
    · refine w_val (some c) (w_readv _ fun s h => by simp [h.2.1, h.2.2.1, hs]) ?_
      simp only [hc, findRule_rparen]
      refine w_val _ (w_recover_rparen hc) ?_
      exact w_pure _
  · refine w_val .null (w_pure _) ?_
    refine w_skip inferInstance fun _ => ?_
    exact w_pure _

theorem w_operand (ha : a.ty = .ident) (hl : l.ty = .lparen) (hc : c.ty = .rparen) (hp : NoSizeof p) {f : Par} :
    W p (a :: l :: c :: r) n (operand X none f) fun x s => x = .lit a ∧ At (a :: p) (l :: c :: r) n s := by
  unfold operand
  refine w_val _ w_exPeek ?_
  simp only [ha, findRule_ident]
  refine w_val _ (w_recover_call ha hl hc hp) ?_
  refine w_val _ w_pop ?_
  exact w_pure _

/-- A call. -/
theorem w_exLoop_call (hl : l.ty = .lparen) (hc : c.ty = .rparen) {m : Nat} {ex : Ex} :
    W p (l :: c :: r) n (exLoop none (exec1 X none (m + 1)) 0 ex) fun x s =>
      x = .inl (.call ex l .null (some c)) ∧ At (c :: l :: p) r n s := by
  unfold exLoop
  refine w_val _ w_exPeek ?_
  simp only [hl, findRule_call]
  rw [if_neg (by decide)]
  refine w_val _ w_pop ?_
  refine w_val (p' := c :: l :: p) (r' := r) (n' := n) (.call ex l .null (some c)) ?_ ?_
  · unfold led
    refine w_val _ (w_exec1_rparen hc) ?_
    refine w_val _ (w_expect hc) ?_
    exact w_pure _
  · refine w_read false (fun s hs => hs.2.2.1) ?_
    rw [if_neg (by simp)]
    exact w_pure _

/-- One after another. -/
theorem w_exLoop_concat (ha : a.ty = .ident) {f : Par} {ex : Ex} :
    W p (a :: r) n (exLoop none f 0 ex) fun x s => x = .inl (.concat ex a) ∧ At (a :: p) r n s := by
  unfold exLoop
  refine w_val _ w_exPeek ?_
  simp only [ha, findRule_concat]
  rw [if_neg (by decide)]
  refine w_val _ w_pop ?_
  refine w_val (.concat ex a) (w_pure _) ?_
  refine w_read false (fun s hs => hs.2.2.1) ?_
  rw [if_neg (by simp)]
  exact w_pure _

/-- The end. -/
theorem w_exLoop_semi (ha : a.ty = .semi) {f : Par} {ex : Ex} :
    W p (a :: r) n (exLoop none f 0 ex) fun x s => x = .inr ex ∧ At p (a :: r) n s := by
  unfold exLoop
  refine w_val _ w_exPeek ?_
  simp only [ha, findRule_semi]
  exact w_pure _

theorem w_loop_inl {α β : Type} {f : α → M (α ⊕ β)} {p p' r r' : List Tok} {n n' m : Nat} {a : α} (a' : α)
    {Q : β → St → Prop} (h : W p r n (f a) fun x s => x = .inl a' ∧ At p' r' n' s)
    (hk : W p' r' n' (loop m f a') Q) : W p r n (loop (m + 1) f a) Q := by
  unfold loop
  exact w_val _ h hk

theorem w_loop_inr {α β : Type} {f : α → M (α ⊕ β)} {p p' r r' : List Tok} {n n' m : Nat} {a : α} (b : β)
    (h : W p r n (f a) fun x s => x = .inr b ∧ At p' r' n' s) :
    W p r n (loop (m + 1) f a) fun x s => x = b ∧ At p' r' n' s := by
  unfold loop
  exact w_val _ h (w_pure _)

/-- The calls without the semicolon. -/
def calls : Nat → Nat → Nat → List Tok
  | 0, i, k => [
    { id := i, ty := .ident, str := ['A'], lno := k, cno := k + 8 },
    { id := i + 1, ty := .lparen, str := ['('], lno := k, cno := k + 9 },
    { id := i + 2, ty := .rparen, str := [')'], lno := k, cno := k + 10 }]
  | n + 1, i, k =>
    { id := i, ty := .ident, str := ['A'], lno := k, cno := k + 8 } ::
    { id := i + 1, ty := .lparen, str := ['('], lno := k, cno := k + 9 } ::
    { id := i + 2, ty := .rparen, str := [')'], lno := k, cno := k + 10 } :: calls n (i + 3) (k + 1)

theorem nest_eq : ∀ n i k : Nat, ∃ e : Tok, e.ty = .semi ∧ e.id = i + 3 * n + 3 ∧ e.lno = k + n ∧ nest n i k = calls n i k ++ [e]
  | 0, i, k => ⟨_, rfl, rfl, rfl, rfl⟩
  | n + 1, i, k => by
    obtain ⟨e, h1, h2, h4, h3⟩ := nest_eq n (i + 3) (k + 1)
    exact ⟨e, h1, by omega, by omega, by simp [nest, calls, h3]⟩

/-- The loop of the expression parser runs over all calls. -/
theorem w_exLoop_calls {e : Tok} (he : e.ty = .semi) {m' : Nat} : ∀ (k : Nat) (m i j : Nat) (p : List Tok) (ex : Ex),
    ex ≠ .null → 2 * k + 2 ≤ m →
    W p ((calls k i j).tail ++ e :: r) n (loop m (exLoop none (exec1 X none (m' + 1)) 0) ex) fun x s =>
      x ≠ .null ∧ At ((calls k i j).tail.reverse ++ p) (e :: r) n s
  | 0, m, i, j, p, ex, hx, hm => by
    obtain ⟨m, rfl⟩ : ∃ m1, m = m1 + 2 := ⟨m - 2, by omega⟩
    refine w_loop_inl _ (w_exLoop_call rfl rfl) ?_
    refine w_weak (w_loop_inr _ (w_exLoop_semi he)) fun a s hs => ?_
    obtain ⟨rfl, hs⟩ := hs
    exact ⟨by simp, hs⟩
  | k + 1, m, i, j, p, ex, hx, hm => by
    obtain ⟨m, rfl⟩ : ∃ m1, m = m1 + 2 := ⟨m - 2, by omega⟩
    refine w_loop_inl _ (w_exLoop_call rfl rfl) ?_
    have ih := w_exLoop_calls he (m' := m') k m (i + 3) (j + 1)
    have hc : ∃ t, t.ty = .ident ∧ calls k (i + 3) (j + 1) = t :: (calls k (i + 3) (j + 1)).tail := by
      cases k <;> exact ⟨_, rfl, rfl⟩
    obtain ⟨t, ht, hc⟩ := hc
    show W _ (calls k (i + 3) (j + 1) ++ e :: r) _ _ _
    have e2 : (calls (k + 1) i j).tail.reverse ++ p = (calls k (i + 3) (j + 1)).tail.reverse ++
        (t :: { id := i + 2, ty := .rparen, str := [')'], lno := j, cno := j + 10 } ::
          { id := i + 1, ty := .lparen, str := ['('], lno := j, cno := j + 9 } :: p) := by
      simp only [calls, List.tail_cons]
      rw [hc]
      simp
    rw [e2, hc]
    refine w_loop_inl _ (w_exLoop_concat ht) ?_
    exact ih _ _ (by simp) (by omega)

/-- All calls are read as one expression. -/
theorem w_exec1_calls {e : Tok} (he : e.ty = .semi) {k m i j : Nat} (hm : 2 * k + 2 ≤ m) (hp : NoSizeof p) :
    W p (calls k i j ++ e :: r) n (exec1 X none (m + 1) 0) fun x s =>
      x ≠ .null ∧ At ((calls k i j).reverse ++ p) (e :: r) n s := by
  obtain ⟨m, rfl⟩ : ∃ m1, m = m1 + 1 := ⟨m - 1, by omega⟩
  have hc : ∃ (a l c : Tok) (q : List Tok), a.ty = .ident ∧ l.ty = .lparen ∧ c.ty = .rparen ∧
      calls k i j = a :: l :: c :: q := by
    cases k <;> exact ⟨_, _, _, _, rfl, rfl, rfl, rfl⟩
  obtain ⟨a, l, c, q, ha, hl, hcc, hc⟩ := hc
  have ih := w_exLoop_calls (X := X) (r := r) (n := n) he (m' := m) k (m + 1) i j (a :: p) (.lit a) (by simp) hm
  rw [hc] at ih ⊢
  unfold exec1
  refine w_skip inferInstance fun _ => ?_
  refine w_val _ (w_operand ha hl hcc hp) ?_
  rw [if_neg (by simp)]
  have e3 : (a :: l :: c :: q).reverse ++ p = (l :: c :: q).reverse ++ (a :: p) := by simp
  rw [e3]
  refine w_some ih fun x hx => ?_
  refine w_skip inferInstance fun _ => ?_
  exact w_pure' hx

end

/-! ## Statements -/

section
variable {X : Cx} {a l c e rb : Tok} {p r : List Tok} {n : Nat}

theorem calls_cons (k i j : Nat) : ∃ (a l c : Tok) (q : List Tok), a.ty = .ident ∧ l.ty = .lparen ∧ c.ty = .rparen ∧
    a.id = i ∧ a.lno = j ∧ a.cno = j + 8 ∧ l.lno = j ∧ c.lno = j ∧ calls k i j = a :: l :: c :: q ∧
    (k = 0 → q = []) ∧ ∀ k', k = k' + 1 → q = calls k' (i + 3) (j + 1) := by
  cases k with
  | zero => exact ⟨_, _, _, _, rfl, rfl, rfl, rfl, rfl, rfl, rfl, rfl, rfl, fun _ => rfl, nofun⟩
  | succ k =>
    exact ⟨_, _, _, _, rfl, rfl, rfl, rfl, rfl, rfl, rfl, rfl, rfl, nofun, fun k' h => by cases h; rfl⟩

/-- All calls are seen as one expression in front of a semicolon. -/
theorem w_exprPeek (he : e.ty = .semi) {k m i j : Nat} (hX : X.n = m + 1) (hm : 2 * k + 2 ≤ m) (hp : NoSizeof p) :
    W p (calls k i j ++ e :: r) n (exprPeek X) fun x s => x = some e ∧ At p (calls k i j ++ e :: r) n s := by
  unfold exprPeek
  refine w_peeking (c := calls k i j) (r' := e :: r) rfl ?_
  rw [hX]
  refine w_some (w_exec1_calls he hm hp) fun x hx => ?_
  refine w_read false (fun s hs => hs.2.2.1) ?_
  rw [if_neg (by simp [hx])]
  refine w_val _ w_peek ?_
  exact w_pure _

/-- No expression. -/
theorem w_exprF_rparen (hc : c.ty = .rparen) {m : Nat} (hX : X.n = m + 1) {b : EA} :
    W p (c :: r) n (exprF X b) fun x s => x = (.non, none) ∧ At p (c :: r) n s := by
  unfold exprF
  refine w_same none ?_ ?_
  · unfold exprExec
    rw [hX]
    refine w_val _ (w_exec1_rparen hc) ?_
    refine w_skip inferInstance fun _ => ?_
    rw [if_pos (by simp)]
    exact w_pure _
  · refine w_val _ w_none ?_
    exact w_pure _

/-- A call is parsed, and a document is made. -/
theorem w_exprF_call (he : e.ty = .semi) {m i j : Nat} (hX : X.n = m + 1) (hm : 2 ≤ m) (hp : NoSizeof p) {d : Id} :
    W p (calls 0 i j ++ e :: r) n (exprF X { dc := d }) fun x s =>
      (∃ o, x = (.good, some o)) ∧ At ((calls 0 i j).reverse ++ p) (e :: r) (n + 1) s := by
  unfold exprF
  refine w_some (g := fun x => ∃ o, x = some o) (p' := (calls 0 i j).reverse ++ p) (r' := e :: r) (n' := n + 1) ?_ ?_
  · unfold exprExec
    rw [hX]
    refine w_some (w_exec1_calls he (by omega) hp) fun x hx => ?_
    refine w_read false (fun s hs => hs.2.2.1) ?_
    rw [if_neg (by simp [hx])]
    refine w_alloc fun _ => ?_
    skips
    all_goals exact w_pure' ⟨_, rfl⟩
  · rintro _ ⟨o, rfl⟩
    refine w_val _ w_good ?_
    exact w_pure' ⟨_, rfl⟩

theorem w_semi (he : e.ty = .semi) (hb : rb.ty = .rbrace) {d : Id} :
    W p (e :: rb :: r) n (parserSemi d) fun x s => x = .good ∧ At (e :: p) (rb :: r) n s := by
  unfold parserSemi
  refine w_val _ (w_expect he) ?_
  refine w_same e ?_ ?_
  · intro s hs
    refine ⟨e, s, ?_, rfl, hs⟩
    simp only [hs.2.1, semisOn, hb]
    rfl
  · refine w_skip inferInstance fun _ => ?_
    exact w_good

/-- The statement in the middle. -/
theorem w_stmtExpr_call (he : e.ty = .semi) (hb : rb.ty = .rbrace) {m i j : Nat} (hX : X.n = m + 2) (hm : 2 ≤ m)
    {X' : Cx} (hX' : X'.n = m + 1) (hR : X.R.expr = exprF X') (hp : NoSizeof p) {d : Id} :
    W p (calls 0 i j ++ e :: rb :: r) n (stmtExpr X d) fun x s =>
      x = .good ∧ At (e :: ((calls 0 i j).reverse ++ p)) (rb :: r) (n + 1) s := by
  unfold stmtExpr
  refine w_read false (fun s hs => ?_) ?_
  · rw [hs.2.1]
    simp only [calls, List.cons_append]
    rw [typePeek_call rfl rfl rfl]
    rfl
  simp only [Bool.false_eq_true, if_false]
  refine w_val _ (w_exprPeek he hX (by omega) hp) ?_
  simp only [he]
  rw [if_neg (by simp)]
  refine w_same false ?_ ?_
  · unfold isLoopStmt
    refine w_read none (fun s hs => ?_) ?_
    · rw [hs.2.1]
      simp only [calls, List.cons_append, List.nil_append, pIf, is, decide_true, if_true, Option.bind_some]
      rw [parens_call rfl rfl]
      simp
    · exact w_pure _
  simp only [Bool.false_eq_true, if_false]
  rw [hR]
  refine w_some (w_exprF_call he hX' hm hp) ?_
  rintro _ ⟨o, rfl⟩
  exact w_semi he hb

theorem w_skip3 {x y z : Tok} : W p (x :: y :: z :: r) n (skip r) fun a s => a = () ∧ At (z :: y :: x :: p) r n s := by
  rintro s ⟨e1, e2, e3, e4⟩
  have hl : s.rest.length - r.length = 3 := by rw [e2]; simp only [List.length_cons]; omega
  refine ⟨(), { s with done := (s.rest.take 3).reverse ++ s.done, rest := s.rest.drop 3 }, ?_, rfl, ?_, ?_, e3, e4⟩
  · unfold skip
    rw [hl]
  · simp [e1, e2]
  · simp [e2]

/-- A loop is not an expression: the statement in it is parsed to find out. -/
theorem w_stmtExpr_loop (he : e.ty = .semi) {k m i j : Nat} (hX : X.n = m + 1) (hm : 2 * k + 4 ≤ m)
    (hi : i + 3 < e.id) (hp : NoSizeof p) {d : Id} {n' : Nat}
    (ih : ∀ (p : List Tok) (d : Id), NoSizeof p → W p (calls k (i + 3) (j + 1) ++ e :: r) n (X.R.stmt d) fun x s =>
      x = .good ∧ At (e :: ((calls k (i + 3) (j + 1)).reverse ++ p)) r n' s) :
    W p (calls (k + 1) i j ++ e :: r) n (stmtExpr X d) fun x s =>
      x = .non ∧ At p (calls (k + 1) i j ++ e :: r) n' s := by
  unfold stmtExpr
  refine w_read false (fun s hs => ?_) ?_
  · rw [hs.2.1]
    simp only [calls, List.cons_append]
    rw [typePeek_call rfl rfl rfl]
    rfl
  simp only [Bool.false_eq_true, if_false]
  refine w_val _ (w_exprPeek he hX (by omega) hp) ?_
  simp only [he]
  rw [if_neg (by simp)]
  obtain ⟨a, l, c, q, -, -, -, h1, h2, -, -, -, hq, -, -⟩ := calls_cons k (i + 3) (j + 1)
  refine w_val (p' := p) (r' := calls (k + 1) i j ++ e :: r) (n' := n') true ?_ ?_
  · unfold isLoopStmt
    refine w_read (some (calls k (i + 3) (j + 1) ++ e :: r)) (fun s hs => ?_) ?_
    · rw [hs.2.1]
      simp only [calls, List.cons_append, pIf, is, decide_true, if_true, Option.bind_some]
      rw [parens_call rfl rfl]
      rw [hq]
      simp only [List.cons_append, List.head?_cons, Option.getD_some, h1, h2, lineBefore]
      rw [if_pos ⟨by omega, by simp⟩]
    · refine w_peeking (c := calls (k + 1) i j ++ [e]) (r' := r) (g := fun x => x = true) (by simp) ?_
      refine w_val (p' := { id := i + 2, ty := .rparen, str := [')'], lno := j, cno := j + 10 } ::
          { id := i + 1, ty := .lparen, str := ['('], lno := j, cno := j + 9 } ::
          { id := i, ty := .ident, str := ['A'], lno := j, cno := j + 8 } :: p)
        (r' := calls k (i + 3) (j + 1) ++ e :: r) (n' := n) () ?_ ?_
      · exact w_skip3
      · refine w_some (w_withRoot fun d => ih _ d (by simp [NoSizeof])) fun x hx => ?_
        have e2 : (calls (k + 1) i j ++ [e]).reverse ++ p = e :: ((calls k (i + 3) (j + 1)).reverse ++
          ({ id := i + 2, ty := .rparen, str := [')'], lno := j, cno := j + 10 } ::
          { id := i + 1, ty := .lparen, str := ['('], lno := j, cno := j + 9 } ::
          { id := i, ty := .ident, str := ['A'], lno := j, cno := j + 8 } :: p)) := by
          simp [calls]
        rw [e2]
        exact w_pure' (by simp [hx])
  · exact w_none

/-- The loop is parsed. -/
theorem w_stmtCpp {k m i j : Nat} {d : Id} {n' : Nat} {X' : Cx} (hX' : X'.n = m + 1) (hR : X.R.expr = exprF X')
    (ih : ∀ (p : List Tok) (d : Id), NoSizeof p → W p (calls k (i + 3) (j + 1) ++ e :: r) n (X.R.stmt d) fun x s =>
      x = .good ∧ At (e :: ((calls k (i + 3) (j + 1)).reverse ++ p)) r n' s) :
    W p (calls (k + 1) i j ++ e :: r) n (stmtCpp X d) fun x s =>
      x = .good ∧ At (e :: ((calls (k + 1) i j).reverse ++ p)) r n' s := by
  obtain ⟨a, l, c, q, h0, -, -, h1, h2, -, -, -, hq, -, -⟩ := calls_cons k (i + 3) (j + 1)
  unfold stmtCpp
  refine w_read true (fun s hs => ?_) ?_
  · rw [hs.2.1]
    simp only [calls, List.cons_append, stmtCppPeek, pIf, is, decide_true, if_true, Option.bind_some]
    rw [parens_call rfl rfl, hq]
    simp [pAt, h0]
  simp only [Bool.not_true, Bool.false_eq_true, if_false]
  unfold kwExpr
  simp only [Bool.false_eq_true, if_false, Bool.false_and]
  refine w_val _ (w_pure _) ?_
  simp only [calls, List.cons_append]
  refine w_val _ (w_expect rfl) ?_
  refine w_read _ (fun s hs => by rw [hs.2.1, parens_call rfl rfl]) ?_
  refine w_skip inferInstance fun _ => ?_
  refine w_skip inferInstance fun _ => ?_
  refine w_skip inferInstance fun _ => ?_
  refine w_skip inferInstance fun _ => ?_
  refine w_skip inferInstance fun _ => ?_
  unfold kwTail
  refine w_skip inferInstance fun _ => ?_
  refine w_jp fun _ => ?_
  refine w_val _ (w_expectEmit rfl) ?_
  rw [hR]
  refine w_val _ (w_exprF_rparen rfl hX') ?_
  rw [if_neg (by simp)]
  refine w_val _ (w_expectEmit rfl) ?_
  rw [if_neg (by simp)]
  refine w_val _ (w_peekIf false (by rw [hq]; simp [h0])) ?_
  rw [if_neg (by simp)]
  refine w_skip inferInstance fun _ => ?_
  refine w_skip inferInstance fun _ => ?_
  refine w_weak (ih _ _ (by simp [NoSizeof])) fun x s hs => ⟨hs.1, ?_⟩
  have h := hs.2
  simp only [List.reverse_cons, List.append_assoc, List.cons_append, List.nil_append]
  exact h

/-- Nothing is declared. -/
theorem w_decl_of {d : Id} {F : DF} (hF : F.root = false) {m : Nat} (hX : X.n = m + 1)
    (h1 : cdefsPeek r = false) (h2 : typePeek {} p.head? r = none) (h3 : cppPeekDecl false r = none)
    (h4 : cppPeekX p.head? r = none) : W p r n (declF X d F) fun x s => x = .non ∧ At p r n s := by
  unfold declF
  refine w_skip inferInstance fun dc => ?_
  refine w_same 0 ?_ ?_
  · rw [hX]
    refine w_loop_inr _ ?_
    unfold declRound
    refine w_same none (w_pure _) ?_
    refine w_same .non ?_ ?_
    · unfold decl2
      refine w_same .non ?_ ?_
      · unfold cppCdefs
        refine w_read false (fun s hs => by rw [hs.2.1, h1]) ?_
        exact w_none
      rw [if_neg (by simp)]
      simp only [hF, Bool.false_eq_true, if_false]
      refine w_same Res.non (w_pure _) ?_
      rw [if_neg (by simp)]
      refine w_read none (fun s hs => by rw [hs.1, hs.2.1, h2, h3]; rfl) ?_
      unfold cppX
      refine w_read none (fun s hs => by rw [hs.1, hs.2.1, h4]) ?_
      exact w_none
    · rw [if_pos (by simp)]
      refine w_skip inferInstance fun _ => ?_
      exact w_pure _
  · rw [if_pos rfl]
    refine w_skip inferInstance fun _ => ?_
    exact w_none

/-- Nothing is declared by the calls. -/
theorem w_decl (he : e.ty = .semi) {k i j : Nat} {d : Id} {F : DF} (hF : F.root = false) {m : Nat} (hX : X.n = m + 1)
    (hel : e.lno = j + k) : W p (calls k i j ++ e :: r) n (declF X d F) fun x s =>
      x = .non ∧ At p (calls k i j ++ e :: r) n s := by
  have hs' : isStorage .ident = false := by decide
  refine w_decl_of hF hX ?_ ?_ ?_ ?_
  · cases k <;> simp [calls, cdefsPeek, lineBefore]
  · cases k <;> simp only [calls, List.cons_append] <;> exact typePeek_call rfl rfl rfl
  · cases k with
    | zero =>
      simp only [calls, List.cons_append, cppPeekDecl, pWhile, qs_ident, Bool.false_eq_true, if_false, if_true]
      rw [parens_call rfl rfl]
      simp [stars, pAt, he]
    | succ k =>
      obtain ⟨a, l, c, q, h0, h01, -, h1, h2, h3, -, -, hq, -, -⟩ := calls_cons k (i + 3) (j + 1)
      simp only [calls, List.cons_append, cppPeekDecl, pWhile, qs_ident, Bool.false_eq_true, if_false, if_true]
      rw [parens_call rfl rfl, hq]
      simp [stars, h0, h01, pAt, lastIdent, sameLine, h2]
  · cases k with
    | zero =>
      simp only [calls, List.cons_append, cppPeekX, pWhile, hs', Bool.false_eq_true, if_false, if_true]
      rw [parens_call rfl rfl]
      simp [lineBefore, hel]
    | succ k =>
      obtain ⟨a, l, c, q, h0, h01, -, h1, h2, h3, -, -, hq, -, -⟩ := calls_cons k (i + 3) (j + 1)
      simp only [calls, List.cons_append, cppPeekX, pWhile, hs', Bool.false_eq_true, if_false, if_true]
      rw [parens_call rfl rfl, hq]
      simp [h3]

/-- No block. -/
theorem w_block_no (ha : a.ty = .ident) {d d' : Id} {F : BF} :
    W p (a :: r) n (blockF X d d' F >>= fun x => pure x.1) fun x s => x = .non ∧ At p (a :: r) n s := by
  refine w_same (.non, none) ?_ (w_pure _)
  unfold blockF
  refine w_read none (fun s hs => ?_) ?_
  · rw [hs.2.1]
    simp [pair, pAt, ha]
  · refine w_val _ w_none ?_
    exact w_pure _

theorem lexIf_no (ha : a.ty = .ident) {f : TT → Bool} (hf : f .ident = false) :
    W p (a :: r) n (lexIf f) fun x s => x = none ∧ At p (a :: r) n s :=
  w_lexIf_no (by simp [ha, hf])

theorem peekIf_no (ha : a.ty = .ident) {ty : TT} (hf : ty ≠ .ident) :
    W p (a :: r) n (peekIf ty) fun x s => x = false ∧ At p (a :: r) n s :=
  w_peekIf _ (by simp [ha]; exact fun h => hf h.symm)

/-- No other kind of statement. -/
theorem w_other (ha : a.ty = .ident) (hl : l.ty = .lparen) {d : Id} {ms : List (M Res)} {Q : Res → St → Prop}
    (h : W p (a :: l :: r) n (alts ms) Q) :
    W p (a :: l :: r) n (alts ([stmtCase X d, stmtWord .kBreak d, stmtGoto d, stmtFor X d, stmtKw X .kWhile d,
      stmtLabel X d, stmtKw X .switch d, stmtWord .kContinue d, stmtAsm X d, stmtDowhile X d, stmtSemi d] ++ ms)) Q := by
  have hp : ∀ ty, ty ≠ TT.ident → W p (a :: l :: r) n (peekIf ty) fun x s => x = false ∧ At p (a :: l :: r) n s :=
    fun ty h => peekIf_no ha h
  refine w_alts (w_val _ (lexIf_no ha (by decide)) w_none) ?_
  refine w_alts (w_val _ (hp _ (by decide)) w_none) ?_
  refine w_alts (w_val _ (lexIf_no ha (by decide)) w_none) ?_
  refine w_alts (w_val _ (lexIf_no ha (by decide)) w_none) ?_
  refine w_alts (w_val _ (hp _ (by decide)) w_none) ?_
  refine w_alts (w_read false (fun s hs => by rw [hs.2.1]; simp [labelPeek, hl]) w_none) ?_
  refine w_alts (w_val _ (hp _ (by decide)) w_none) ?_
  refine w_alts (w_val _ (hp _ (by decide)) w_none) ?_
  refine w_alts (w_same .non (w_val _ (hp _ (by decide)) w_none) (w_pure _)) ?_
  refine w_alts (w_val _ (lexIf_no ha (by decide)) w_none) ?_
  exact w_alts (w_val _ (hp _ (by decide)) w_none) h

/-- C84, the heart of it: every loop doubles the work. -/
theorem w_stmt (E : Env) (he : e.ty = .semi) (hb : rb.ty = .rbrace) : ∀ (k m i j : Nat) (p : List Tok) (n : Nat) (d : Id),
    2 * k + 6 ≤ m → i + 3 * k + 3 ≤ e.id → e.lno = j + k → NoSizeof p →
    W p (calls k i j ++ e :: rb :: r) n ((recs E m).stmt d) fun x s =>
      x = .good ∧ At (e :: ((calls k i j).reverse ++ p)) (rb :: r) (n + 2 ^ k) s
  | 0, m, i, j, p, n, d, hm, _, _, hp => by
    obtain ⟨m, rfl⟩ : ∃ m1, m = m1 + 4 := ⟨m - 4, by omega⟩
    show W p _ n (stmtF { E := E, R := recs E (m + 3), n := m + 3 } d) _
    unfold stmtF
    refine w_alts (w_block_no rfl) ?_
    exact w_alts_good (w_stmtExpr_call he hb (m := m + 1) (X' := { E := E, R := recs E (m + 2), n := m + 2 })
      rfl (by omega) rfl rfl hp)
  | k + 1, m, i, j, p, n, d, hm, hi, hj, hp => by
    obtain ⟨m, rfl⟩ : ∃ m1, m = m1 + 4 := ⟨m - 4, by omega⟩
    have ih : ∀ (n : Nat) (p : List Tok) (d : Id), NoSizeof p →
        W p (calls k (i + 3) (j + 1) ++ e :: rb :: r) n ((recs E (m + 3)).stmt d) fun x s =>
          x = .good ∧ At (e :: ((calls k (i + 3) (j + 1)).reverse ++ p)) (rb :: r) (n + 2 ^ k) s :=
      fun n p d h => w_stmt E he hb k (m + 3) (i + 3) (j + 1) p n d (by omega) (by omega) (by omega) h
    show W p _ n (stmtF { E := E, R := recs E (m + 3), n := m + 3 } d) _
    unfold stmtF
    refine w_alts (w_block_no rfl) ?_
    refine w_alts (w_stmtExpr_loop he (m := m + 2) rfl (by omega) (by omega) hp (ih n)) ?_
    have h1 : W p (calls (k + 1) i j ++ e :: rb :: r) (n + 2 ^ k)
        (stmtIf { E := E, R := recs E (m + 3), n := m + 3 } d) fun x s =>
          x = .non ∧ At p (calls (k + 1) i j ++ e :: rb :: r) (n + 2 ^ k) s :=
      w_val _ (peekIf_no rfl (by decide)) w_none
    have h2 : W p (calls (k + 1) i j ++ e :: rb :: r) (n + 2 ^ k)
        (stmtReturn { E := E, R := recs E (m + 3), n := m + 3 } d) fun x s =>
          x = .non ∧ At p (calls (k + 1) i j ++ e :: rb :: r) (n + 2 ^ k) s :=
      w_val _ (lexIf_no rfl (by decide)) w_none
    refine w_alts h1 ?_
    refine w_alts h2 ?_
    refine w_alts (w_decl (X := { E := E, R := recs E (m + 2), n := m + 2 }) he rfl (m := m + 1) rfl hj) ?_
    refine w_other (ms := [_]) rfl rfl ?_
    have h3 := w_stmtCpp (X := { E := E, R := recs E (m + 3), n := m + 3 }) (p := p) (i := i) (j := j) (d := d)
      (X' := { E := E, R := recs E (m + 2), n := m + 2 }) (m := m + 1) rfl rfl (ih (n + 2 ^ k))
    have e2 : n + 2 ^ (k + 1) = n + 2 ^ k + 2 ^ k := by rw [Nat.pow_succ]; omega
    rw [e2]
    exact w_alts_good h3

/-! ## Functions -/

variable {v f b : Tok}

/-- The tokens of `void f() {`. -/
structure Head (v f l c b : Tok) : Prop where
  v : v.ty = .void
  f : f.ty = .ident
  l : l.ty = .lparen
  c : c.ty = .rparen
  b : b.ty = .lbrace

theorem Head.typePeek (h : Head v f l c b) : typePeek {} none (v :: f :: l :: c :: r) =
    some { fin := v, rest := f :: l :: c :: r } := by
  have h1 : cppPeekType (f :: l :: c :: r) = none := cppPeekType_call h.c
  have h2 : isQS .void = false := by decide
  have h3 : isType .void = true := by decide
  simp [Parse.typePeek, typeLoop, typeRound, unknownBitfield, h.v, h.f, h.l, h.c, h1, h2, h3, qs_ident, type_ident,
    identAfterType, pAt, squares, pIf, is]

theorem Head.attr1 (h : Head v f l c b) : attrPeek true (v :: r) = none := by
  simp [attrPeek, attrGo, pOpt, pIf, is, pAt, h.v]

theorem Head.attr2 (h : Head v f l c b) : attrPeek true (f :: l :: c :: b :: r) = none := by
  have : parens (l :: c :: b :: r) = some (c, b :: r) := parens_call h.l h.c
  simp [attrPeek, attrGo, pOpt, pIf, is, pAt, h.f, this, h.b]

theorem Head.attr3 (h : Head v f l c b) : attrPeek false (b :: r) = none := by
  simp [attrPeek, attrGo, pAt, h.b]

theorem Head.funcPeek (h : Head v f l c b) : funcPeek none (v :: f :: l :: c :: b :: r) =
    (.impl, some { fin := v, rest := f :: l :: c :: b :: r }, false) := by
  have : parens (l :: c :: b :: r) = some (c, b :: r) := parens_call h.l h.c
  simp [Parse.funcPeek, attrSkip, h.attr1, h.attr2, h.attr3, h.typePeek, pIf, is, h.f, this, pAt, h.b]

/-- A function is not a declaration. -/
theorem Head.decl (h : Head v f l c b) {m : Nat} (hX : X.n = m + 1) {d : Id} {F : DF} :
    W [] (v :: f :: l :: c :: b :: r) n (declF X d F) fun x s =>
      x = .non ∧ At [] (v :: f :: l :: c :: b :: r) n s := by
  unfold declF
  refine w_skip inferInstance fun dc => ?_
  refine w_same 0 ?_ ?_
  · rw [hX]
    refine w_loop_inr _ ?_
    unfold declRound
    refine w_same none (w_pure _) ?_
    refine w_same .non ?_ ?_
    · unfold decl2
      refine w_same .non ?_ ?_
      · unfold cppCdefs
        refine w_read false (fun s hs => by rw [hs.2.1]; simp [cdefsPeek, h.v]) ?_
        exact w_none
      rw [if_neg (by simp)]
      have hr : W [] (v :: f :: l :: c :: b :: r) n (cppDeclRoot dc) fun x s =>
          x = .non ∧ At [] (v :: f :: l :: c :: b :: r) n s := by
        unfold cppDeclRoot
        refine w_read false (fun s hs => by rw [hs.2.1]; simp [declRootPeek, h.v]) ?_
        exact w_none
      have hk : ∀ k : Res → M Res, (W [] (v :: f :: l :: c :: b :: r) n (k .non) fun x s =>
          x = .non ∧ At [] (v :: f :: l :: c :: b :: r) n s) →
          W [] (v :: f :: l :: c :: b :: r) n (have j := k; if F.root = true then cppDeclRoot dc >>= j else pure .non >>= j)
            fun x s => x = .non ∧ At [] (v :: f :: l :: c :: b :: r) n s := by
        intro k hk
        dsimp only
        split
        · exact w_same _ hr hk
        · exact w_same _ (w_pure _) hk
      refine hk _ ?_
      dsimp only
      rw [if_neg (by simp)]
      refine w_read (some _) (fun s hs => by rw [hs.1, hs.2.1, List.head?_nil, h.typePeek]; rfl) ?_
      dsimp only
      refine w_read _ (fun s hs => by rw [hs.1, hs.2.1, List.head?_nil, h.funcPeek]) ?_
      exact w_none
    · rw [if_pos (by simp)]
      refine w_skip inferInstance fun _ => ?_
      exact w_pure _
  · rw [if_pos rfl]
    refine w_skip inferInstance fun _ => ?_
    exact w_none

/-- No attributes. -/
theorem w_attributes {fn line : Bool} (h : attrPeek fn r = none) {d : Id} :
    W p r n (attributes X d line fn) fun x s => x = (.non, none) ∧ At p r n s := by
  unfold attributes
  refine w_read none (fun s hs => by rw [hs.2.1, h]) ?_
  refine w_val _ w_none ?_
  exact w_pure _

/-- The type. -/
theorem Head.type (h : Head v f l c b) {m : Nat} (hX : X.n = m + 1) {d : Id} {q : List Tok} {ru : Bool} :
    W [] (v :: r) n (typeF X d { fin := v, rest := q, ruled := ru }) fun x s => x = .good ∧ At [v] r n s := by
  unfold typeF
  rw [hX]
  refine w_loop_inr _ ?_
  unfold typeRoundM
  refine w_val _ w_pop ?_
  rw [if_neg (by simp)]
  refine w_skip inferInstance fun _ => ?_
  refine w_skip inferInstance fun _ => ?_
  simp only [h.v, reduceCtorEq, if_false]
  refine w_same (Res.good, some _) (w_pure _) ?_
  dsimp only
  refine w_skip inferInstance fun _ => ?_
  refine w_skip inferInstance fun _ => ?_
  refine w_skip inferInstance fun _ => ?_
  refine w_skip inferInstance fun _ => ?_
  refine w_skip inferInstance fun _ => ?_
  rw [if_pos trivial]
  refine w_skip inferInstance fun _ => ?_
  refine w_val _ w_good ?_
  exact w_pure _

/-- The arguments, there are none. -/
theorem w_funcArgs (hc : c.ty = .rparen) {m : Nat} (hX : X.n = m + 1) {d : Id} {rp : Nat} :
    W p (c :: r) n (funcArgs X d rp) fun x s => x = none ∧ At p (c :: r) n s := by
  unfold funcArgs
  rw [hX]
  refine w_loop_inr _ ?_
  refine w_same (.non, none) ?_ (w_pure _)
  unfold funcArg
  refine w_read none (fun s hs => ?_) ?_
  · rw [hs.1, hs.2.1]
    have : attrPeek false (c :: r) = none := by simp [attrPeek, attrGo, pAt, hc]
    simp [funcArgPeek, attrSkip, this, typePeek_rparen hc]
  · refine w_val _ w_none ?_
    exact w_pure _

/-- No declaration starts with a brace. -/
theorem Head.noDecl (h : Head v f l c b) {m : Nat} (hX : X.n = m + 1) {d : Id} :
    W p (b :: r) n (declF X d {}) fun x s => x = .non ∧ At p (b :: r) n s := by
  have h1 : cppPeekType (b :: r) = none := cppPeekType_no (by simp [h.b])
  have h2 : unknownBitfield (b :: r) = none := by
    unfold unknownBitfield
    split
    · rename_i e
      cases e
      simp [h.b]
    · rfl
  have h3 : isQS .lbrace = false := by decide
  have h4 : isType .lbrace = false := by decide
  have h5 : isStorage .lbrace = false := by decide
  refine w_decl_of rfl hX ?_ ?_ ?_ ?_
  · simp [cdefsPeek, h.b]
  · simp [Parse.typePeek, typeLoop, typeRound, h2, h.b, h1, h3, h4]
  · simp [cppPeekDecl, pWhile, h.b, h3]
  · simp [cppPeekX, pWhile, h.b, h5]

/-- The head of the function. -/
theorem Head.proto (h : Head v f l c b) {m : Nat} (hX : X.n = m + 2) {X' : Cx} (hX' : X'.n = m + 1)
    (hT : X.R.type = typeF X') (hD : X.R.decl = declF X') {d : Id} {q : List Tok} :
    W [] (v :: f :: l :: c :: b :: r) n (funcProto X d { fin := v, rest := q } false true) fun x s =>
      x.1 = .good ∧ At [c, l, f, v] (b :: r) n s := by
  unfold funcProto
  refine w_val _ (w_attributes h.attr1) ?_
  rw [if_neg (by simp)]
  refine w_skip inferInstance fun _ => ?_
  rw [hT]
  refine w_val _ (h.type hX') ?_
  rw [if_neg (by simp)]
  refine w_skip inferInstance fun _ => ?_
  refine w_skip inferInstance fun _ => ?_
  refine w_val _ (w_attributes h.attr2) ?_
  rw [if_neg (by simp)]
  refine w_skip inferInstance fun _ => ?_
  refine w_skip inferInstance fun _ => ?_
  refine w_skip inferInstance fun _ => ?_
  refine w_skip inferInstance fun _ => ?_
  refine w_skip inferInstance fun _ => ?_
  simp only [Bool.false_eq_true, if_false]
  refine w_val (p' := [f, v]) (r' := l :: c :: b :: r) (n' := n) Res.good ?_ ?_
  · unfold protoName
    refine w_val _ (w_expect h.f) ?_
    refine w_skip inferInstance fun _ => ?_
    exact w_pure _
  rw [if_neg (by simp)]
  unfold protoArgs
  refine w_read _ (fun s hs => by rw [hs.2.1, parens_call h.l h.c]) ?_
  dsimp only
  refine w_val _ (w_expectEmit h.l) ?_
  refine w_skip inferInstance fun _ => ?_
  refine w_jp fun _ => ?_
  refine w_val _ (w_funcArgs h.c hX) ?_
  refine w_val _ (w_expectEmit h.c) ?_
  unfold protoTail
  refine w_same () ?_ ?_
  · unfold krArgs
    refine w_skip inferInstance fun _ => ?_
    refine w_skip inferInstance fun _ => ?_
    refine w_skip inferInstance fun _ => ?_
    rw [hD]
    refine w_val _ (h.noDecl hX') ?_
    exact w_weak w_easy fun _ _ h => ⟨rfl, h⟩
  refine w_same (.non, none) ?_ ?_
  · unfold protoAttrs
    refine w_skip inferInstance fun _ => ?_
    refine w_skip inferInstance fun _ => ?_
    refine w_val _ (w_attributes h.attr3) ?_
    refine w_skip inferInstance fun _ => ?_
    exact w_pure _
  refine w_val _ w_good ?_
  exact w_pure' rfl

theorem pairGo_calls {k i j : Nat} (he : e.ty = .semi) (hb : rb.ty = .rbrace) :
    pairGo .lbrace .rbrace 1 (calls k i j ++ e :: rb :: r) = some (rb, r) := by
  induction k generalizing i j with
  | zero => simp [calls, pairGo, he, hb]
  | succ k ih => simp [calls, pairGo, ih]

theorem rmSemi_last {x : Nat} : ∀ ts : List Tok, (∀ t ∈ ts, t.ty ≠ .rbrace) → rmSemi x (ts ++ [rb]) = ts ++ [rb]
  | [], _ => rfl
  | [t], h => by simp [rmSemi, h t (by simp)]
  | t :: u :: ts, h => by
    have := rmSemi_last (x := x) (u :: ts) fun t ht => h t (List.mem_cons_of_mem _ ht)
    simp only [List.cons_append] at this ⊢
    unfold rmSemi
    rw [if_neg (by simp [h t (by simp)]), this]

theorem calls_ty {k i j : Nat} : ∀ t ∈ calls k i j, t.ty ≠ .rbrace := by
  induction k generalizing i j with
  | zero => simp [calls]
  | succ k ih =>
    intro t ht
    simp only [calls, List.mem_cons] at ht
    rcases ht with rfl | rfl | rfl | ht
    · simp
    · simp
    · simp
    · exact ih t ht

/-- The body of the function. -/
theorem Head.body (h : Head v f l c b) (E : Env) (he : e.ty = .semi) (hb : rb.ty = .rbrace) {k m i j : Nat}
    (hm : 2 * k + 8 ≤ m) (hi : i + 3 * k + 3 ≤ e.id) (hj : e.lno = j + k) {d : Id} :
    W p (b :: (calls k i j ++ [e, rb])) n ((recs E m).block d d {}) fun x s =>
      x.1 = .good ∧ At (rb :: e :: ((calls k i j).reverse ++ b :: p)) [] (n + 2 ^ k) s := by
  obtain ⟨m, rfl⟩ : ∃ m1, m = m1 + 4 := ⟨m - 4, by omega⟩
  show W _ _ n (blockF { E := E, R := recs E (m + 3), n := m + 3 } d d {}) _
  unfold blockF
  refine w_read (some (rb, [])) (fun s hs => ?_) ?_
  · rw [hs.2.1]
    have := pairGo_calls (r := []) (k := k) (i := i) (j := j) he hb
    simp [pair, pAt, h.b, pairGo, this]
  dsimp only
  refine w_same () ?_ ?_
  · intro s hs
    refine ⟨(), _, rfl, rfl, hs.1, ?_, hs.2.2⟩
    rw [hs.2.1]
    have := rmSemi_last (x := rb.id) (rb := rb) (b :: (calls k i j ++ [e])) (by
      intro t ht
      simp only [List.mem_cons, List.mem_append, List.not_mem_nil, or_false] at ht
      rcases ht with rfl | ht | rfl
      · simp [h.b]
      · exact calls_ty t ht
      · simp [he])
    simpa using this
  refine w_val _ (w_expect h.b) ?_
  dsimp only
  refine w_skip inferInstance fun q => ?_
  have hn : NoSizeof (b :: p) := by simp [NoSizeof, h.b]
  refine w_same () ?_ ?_
  · unfold when
    split
    · refine w_some (g := fun _ => True) (w_weak (w_peeking (c := []) (g := fun x => x.1 = Res.non) rfl
        (w_withRoot (g := fun x : Res => x = Res.non) fun d =>
        (w_decl (X := { E := E, R := recs E (m + 2), n := m + 2 }) he rfl (m := m + 1) rfl hj)))
        fun x s hs => ⟨trivial, hs.2⟩) fun _ _ => w_pure _
    · exact w_pure _
  refine w_skip inferInstance fun _ => ?_
  simp only [Bool.false_eq_true, if_false]
  refine w_skip inferInstance fun i' => ?_
  refine w_skip inferInstance fun _ => ?_
  refine w_skip inferInstance fun _ => ?_
  refine w_val (p' := e :: ((calls k i j).reverse ++ b :: p)) (r' := [rb]) (n' := n + 2 ^ k) 1 ?_ ?_
  · refine w_loop_inr _ ?_
    unfold blockRound
    refine w_val _ (w_stmt E he hb k (m + 3) i j _ n i' (by omega) hi hj hn) ?_
    rw [if_neg (by simp)]
    refine w_val _ w_peek ?_
    rw [if_pos (by simp)]
    exact w_pure _
  refine w_skip inferInstance fun _ => ?_
  refine w_skip inferInstance fun _ => ?_
  refine w_skip inferInstance fun _ => ?_
  refine w_val _ (w_expectEmit hb) ?_
  refine w_val _ (w_peekIf false (by simp [eofTok])) ?_
  refine w_val _ (w_pure ()) ?_
  refine w_val _ w_good ?_
  exact w_pure' rfl

/-- The function. -/
theorem Head.root (h : Head v f l c b) (E : Env) (he : e.ty = .semi) (hb : rb.ty = .rbrace) {k m i j : Nat}
    (hm : 2 * k + 10 ≤ m) (hi : i + 3 * k + 3 ≤ e.id) (hj : e.lno = j + k) {d : Id} :
    W [] (v :: f :: l :: c :: b :: (calls k i j ++ [e, rb])) n ((recs E m).root d) fun x s =>
      x = .good ∧ At (rb :: e :: ((calls k i j).reverse ++ [b, c, l, f, v])) [] (n + 2 ^ k) s := by
  obtain ⟨m, rfl⟩ : ∃ m1, m = m1 + 4 := ⟨m - 4, by omega⟩
  show W _ _ n (rootF { E := E, R := recs E (m + 3), n := m + 3 } d) _
  unfold rootF
  refine w_val _ (h.decl (X := { E := E, R := recs E (m + 2), n := m + 2 }) (m := m + 1) rfl) ?_
  rw [if_neg (by simp)]
  refine w_val (p' := rb :: e :: ((calls k i j).reverse ++ b :: [c, l, f, v])) (r' := []) (n' := n + 2 ^ k) Res.good ?_ ?_
  · unfold funcImpl
    refine w_read _ (fun s hs => by rw [hs.1, hs.2.1, List.head?_nil, h.funcPeek]) ?_
    dsimp only
    refine w_some (h.proto (m := m + 1) rfl (X' := { E := E, R := recs E (m + 2), n := m + 2 }) rfl rfl rfl) fun x hx => ?_
    rw [if_neg (by simp [hx])]
    refine w_val _ (w_peekIf true (by simp [h.b])) ?_
    rw [if_neg (by simp)]
    refine w_skip inferInstance fun _ => ?_
    refine w_skip inferInstance fun _ => ?_
    refine w_some (h.body E he hb (by omega) hi hj) fun y hy => ?_
    rw [if_neg (by simp [hy])]
    refine w_skip inferInstance fun _ => ?_
    refine w_skip inferInstance fun _ => ?_
    refine w_skip inferInstance fun _ => ?_
    exact w_good
  · rw [if_pos (by simp)]
    exact w_pure _

end

/-! ## The claim -/

/-- The parser accepts the source, whatever is decided about the layout, and makes at least `2 ^ n`
documents. -/
theorem run_loops (E : Env) {n fuel : Nat} (hf : 2 * n + 12 ≤ fuel) :
    ∃ s, parserRun E fuel (loops n) = some (true, s) ∧ 2 ^ n ≤ s.next := by
  obtain ⟨e, h1, h2, h3, h4⟩ := nest_eq n 6 2
  obtain ⟨m, rfl⟩ : ∃ m, fuel = m + 2 := ⟨fuel - 2, by omega⟩
  have hts : ∃ v f l c b rb, Head v f l c b ∧ rb.ty = .rbrace ∧
      loops n = v :: f :: l :: c :: b :: (calls n 6 2 ++ [e, rb]) :=
    ⟨{ id := 1, ty := .void, str := ['v', 'o', 'i', 'd'], lno := 1, cno := 1 },
     { id := 2, ty := .ident, str := ['f'], lno := 1, cno := 6 },
     { id := 3, ty := .lparen, str := ['('], lno := 1, cno := 7 },
     { id := 4, ty := .rparen, str := [')'], lno := 1, cno := 8 },
     { id := 5, ty := .lbrace, str := ['{'], lno := 1, cno := 10 },
     { id := 3 * n + 10, ty := .rbrace, str := ['}'], lno := n + 3, cno := 1 },
     ⟨rfl, rfl, rfl, rfl, rfl⟩, rfl, by simp [loops, h4]⟩
  obtain ⟨v, f, l, c, b, rb, hh, hb, hts⟩ := hts
  have key : W [] (loops n) 0 (loop (m + 2) (execRound (recs E (m + 2)) 0) ()) fun x s =>
      x = true ∧ At (rb :: e :: ((calls n 6 2).reverse ++ [b, c, l, f, v])) [] (2 ^ n) s := by
    rw [hts]
    have hr : ∀ d, W [] (v :: f :: l :: c :: b :: (calls n 6 2 ++ [e, rb])) 0 ((recs E (m + 2)).root d) fun x s =>
        x = .good ∧ At (rb :: e :: ((calls n 6 2).reverse ++ [b, c, l, f, v])) [] (2 ^ n) s := by
      intro d
      have := hh.root E h1 hb (n := 0) (k := n) (m := m + 2) (i := 6) (j := 2) (by omega) (by omega) h3 (d := d)
      rwa [Nat.zero_add] at this
    refine w_loop_inl (p' := rb :: e :: ((calls n 6 2).reverse ++ [b, c, l, f, v])) (r' := []) (n' := 2 ^ n) () ?_
      (w_loop_inr true ?_)
    · unfold execRound
      refine w_val _ w_peek ?_
      rw [if_neg (by simp [hh.v])]
      refine w_skip inferInstance fun d => ?_
      refine w_val _ (hr d) ?_
      rw [if_pos rfl]
      exact w_pure _
    · unfold execRound
      refine w_val _ w_peek ?_
      rw [if_pos (by rfl)]
      exact w_pure _
  obtain ⟨a, s, h5, rfl, h6⟩ := key (start (loops n)) ⟨rfl, rfl, rfl, Nat.zero_le _⟩
  exact ⟨s, h5, h6.2.2.2⟩

theorem nest_ids : ∀ n i k : Nat, (nest n i k).map Tok.id = List.range' i (3 * n + 4)
  | 0, i, k => by simp [nest, List.range']
  | n + 1, i, k => by
    have : 3 * (n + 1) + 4 = 3 * n + 4 + 1 + 1 + 1 := by omega
    rw [this]
    simp only [nest, List.map_cons, nest_ids n (i + 3) (k + 1), List.range'_succ]

theorem loops_ids (n : Nat) : (loops n).map Tok.id = List.range' 1 (3 * n + 10) := by
  have : 3 * n + 10 = 5 + (3 * n + 4) + 1 := by omega
  rw [this, List.range'_concat, List.range'_append_1.symm]
  simp [loops, nest_ids, List.range']
  omega

theorem loops_length (n : Nat) : (loops n).length = 3 * n + 10 := by
  rw [← List.length_map (f := Tok.id), loops_ids, List.length_range']

theorem nest_eof : ∀ (n i k : Nat), ∀ t ∈ nest n i k, t.ty ≠ .eof
  | 0, i, k => by simp [nest]
  | n + 1, i, k => by
    intro t ht
    simp only [nest, List.mem_cons] at ht
    rcases ht with rfl | rfl | rfl | ht
    · simp
    · simp
    · simp
    · exact nest_eof n _ _ t ht

theorem loops_source (n : Nat) : Source (loops n) := by
  refine ⟨fun t ht h0 => ?_, ?_, fun t ht => ?_⟩
  · have : t.id ∈ (loops n).map Tok.id := List.mem_map_of_mem ht
    rw [loops_ids, h0, List.mem_range'_1] at this
    omega
  · rw [loops_ids]
    exact List.nodup_range'
  · simp only [loops, List.mem_append, List.mem_cons, List.not_mem_nil, or_false] at ht
    rcases ht with ((rfl | rfl | rfl | rfl | rfl) | ht) | rfl
    all_goals first
      | exact nest_eof n _ _ t ht
      | simp

/-- C84 as one would like to have it: the number of documents made by the parser is bounded by a polynomial in
the number of tokens of the source. -/
def C84_statement : Prop :=
  ∃ c d : Nat, ∀ (E : Env) (fuel : Nat) (ts : List Tok) (r : Bool × St), Source ts →
    parserRun E fuel ts = some r → r.2.next ≤ c * ts.length ^ d + c

/-- Finding: `n` nested loops of a macro without braces, a source of `3 n + 10` tokens, take at least `2 ^ n`
steps. It is accepted by the parser. -/
theorem C84_work_doubles (E : Env) (n : Nat) : Source (loops n) ∧ (loops n).length = 3 * n + 10 ∧
    (∃ fuel r, parserRun E fuel (loops n) = some r) ∧
    ∀ (fuel : Nat) (r : Bool × St), parserRun E fuel (loops n) = some r → r.1 = true ∧ 2 ^ n ≤ r.2.next := by
  refine ⟨loops_source n, loops_length n, ?_, ?_⟩
  · obtain ⟨s, h, -⟩ := run_loops E (n := n) (Nat.le_refl _)
    exact ⟨_, _, h⟩
  · intro fuel r h
    obtain ⟨s, h1, h2⟩ := run_loops E (n := n) (fuel := max fuel (2 * n + 12)) (Nat.le_max_right _ _)
    have h3 := parserRun_le E (Nat.le_max_left fuel (2 * n + 12)) (loops_source n).ids h
    rw [h3] at h1
    cases h1
    exact ⟨rfl, h2⟩

theorem sq_lt_pow : ∀ m : Nat, 10 ≤ m → m * m + 5 * m + 1 < 2 ^ m := by
  intro m
  induction m with
  | zero => omega
  | succ m ih =>
    intro hm
    by_cases h9 : m = 9
    · subst h9
      decide
    have ih := ih (by omega)
    rw [Nat.pow_succ]
    have : 4 * m ≤ m * m := Nat.mul_le_mul_right m (by omega)
    have h2 : (m + 1) * (m + 1) = m * m + 2 * m + 1 := by
      rw [Nat.add_mul, Nat.mul_add]; omega
    omega

/-- The full claim is wrong. -/
theorem C84_statement_false : ¬ C84_statement := by
  rintro ⟨c, d, h⟩
  -- a source with 2 ^ m loops
  obtain ⟨m, hm⟩ : ∃ m, m = c + d + 10 := ⟨_, rfl⟩
  obtain ⟨h1, h2, ⟨fuel, r, h3⟩, h4⟩ := C84_work_doubles envNo (2 ^ m)
  have h5 := (h4 fuel r h3).2
  have h6 := h envNo fuel _ r h1 h3
  rw [h2] at h6
  have hp : 3 * 2 ^ m + 10 ≤ 2 ^ (m + 4) := by
    have : 2 ^ (m + 4) = 16 * 2 ^ m := by rw [Nat.pow_add]; omega
    have : 1 ≤ 2 ^ m := Nat.one_le_two_pow
    omega
  have hq : (3 * 2 ^ m + 10) ^ d ≤ 2 ^ ((m + 4) * d) := by
    rw [Nat.pow_mul]
    exact Nat.pow_le_pow_left hp d
  have hc : c < 2 ^ c := Nat.lt_two_pow_self
  have hle : c * (3 * 2 ^ m + 10) ^ d + c < 2 ^ (c + (m + 4) * d + 1) := by
    have h7 : c * (3 * 2 ^ m + 10) ^ d ≤ c * 2 ^ ((m + 4) * d) := Nat.mul_le_mul_left _ hq
    have h8 : c * 2 ^ ((m + 4) * d) + c ≤ 2 * (c * 2 ^ ((m + 4) * d)) := by
      have : c * 1 ≤ c * 2 ^ ((m + 4) * d) := Nat.mul_le_mul_left _ Nat.one_le_two_pow
      omega
    have h9 : c * 2 ^ ((m + 4) * d) < 2 ^ c * 2 ^ ((m + 4) * d) :=
      Nat.mul_lt_mul_of_pos_right hc (Nat.two_pow_pos _)
    have h10 : 2 ^ (c + (m + 4) * d + 1) = 2 * (2 ^ c * 2 ^ ((m + 4) * d)) := by
      rw [Nat.pow_succ, Nat.pow_add]; omega
    omega
  have hexp : c + (m + 4) * d + 1 ≤ 2 ^ m := by
    have h11 := sq_lt_pow m (by omega)
    have h12 : (m + 4) * d ≤ (m + 4) * m := Nat.mul_le_mul_left _ (by omega)
    have h13 : (m + 4) * m = m * m + 4 * m := Nat.add_mul _ _ _
    omega
  exact absurd (Nat.lt_of_lt_of_le hle (Nat.pow_le_pow_right (by omega) hexp))
    (Nat.not_lt.mpr (Nat.le_trans h5 h6))

set_option maxRecDepth 100000 in
/-- Loops nested three deep. -/
example : (parserRun envNo 30 (loops 3)).map (fun x => (x.1, x.2.rest, x.2.next)) = some (true, [], 163) := by
  decide +kernel

end Knfmt.Parse
