import Verif.Expr.Exact
/-!
# Operator precedence and associativity

Specification and proof for C19: the expression parser gives back every tree of the grammar of C
expressions, apart from the trees where it provably does not.
-/
namespace Knfmt.Expr
open Knfmt.Lexer (TT)

/-! ## Specification: the grammar of C expressions (C11 6.5) -/

/-- The binary operators of C from `||` to `%` with their level, C11 6.5.5-6.5.14. -/
def binop : TT → Option Nat
  | .pipepipe => some 4
  | .ampamp => some 5
  | .pipe => some 6
  | .caret => some 7
  | .amp => some 8
  | .equalequal | .exclaimequal => some 9
  | .less | .lessequal | .greater | .greaterequal => some 10
  | .lessless | .greatergreater => some 11
  | .plus | .minus => some 12
  | .star | .slash | .percent => some 13
  | _ => none

/-- The assignment operators, C11 6.5.16. -/
def assignop : TT → Bool
  | .equal | .plusequal | .minusequal | .starequal | .slashequal | .percentequal | .lesslessequal
  | .greatergreaterequal | .ampequal | .caretequal | .pipeequal => true
  | _ => false

/-- The prefix operators apart from `++`, `--` and `sizeof`, C11 6.5.3. -/
def prefixop : TT → Bool
  | .exclaim | .tilde | .plus | .minus | .star | .amp => true
  | _ => false

/-- `++` and `--`. -/
def incop (ty : TT) : Bool := ty = .plusplus || ty = .minusminus

/-- `Gram Ty name n e`: the tree `e` is an expression of level `n`. The levels are the nonterminals
of C11 6.5: 1 expression, 2 assignment-expression, 3 conditional-expression, 4 to 13 logical-OR-expression
to multiplicative-expression, 14 cast-expression and unary-expression, 15 postfix-expression,
16 primary-expression. `Ty` are the type names and `name` the identifiers that are not type names. -/
inductive Gram (Ty : List Tok → Prop) (name : Tok → Prop) : Nat → Ex → Prop
  | up {n e} : Gram Ty name (n + 1) e → Gram Ty name n e
  | ident {t} : t.ty = .ident → name t → Gram Ty name 16 (.lit t)
  | constant {t} : t.ty = .literal → Gram Ty name 16 (.lit t)
  | string {t} : t.ty = .string → Gram Ty name 16 (.lit t)
  | strings1 {s t} : s.ty = .string → t.ty = .string → Gram Ty name 16 (.concat (.lit s) t)
  | strings2 {e s t} : Gram Ty name 16 (.concat e s) → t.ty = .string →
      Gram Ty name 16 (.concat (.concat e s) t)
  | parens {l e r} : l.ty = .lparen → r.ty = .rparen → Gram Ty name 1 e →
      Gram Ty name 16 (.parens l e (some r))
  | call0 {f l r} : l.ty = .lparen → r.ty = .rparen → Gram Ty name 15 f →
      Gram Ty name 15 (.call f l .null (some r))
  | call {f l a r} : l.ty = .lparen → r.ty = .rparen → Gram Ty name 15 f → Gram Ty name 1 a →
      Gram Ty name 15 (.call f l a (some r))
  | squares {f l i r} : l.ty = .lsquare → r.ty = .rsquare → Gram Ty name 15 f → Gram Ty name 1 i →
      Gram Ty name 15 (.squares f l i (some r))
  | field {f op t} : (op.ty = .period ∨ op.ty = .arrow) → t.ty = .ident → name t →
      Gram Ty name 15 f → Gram Ty name 15 (.field f op (.lit t))
  | post {e op} : incop op.ty = true → Gram Ty name 15 e → Gram Ty name 15 (.post e op)
  | pre {op e} : incop op.ty = true → Gram Ty name 14 e → Gram Ty name 14 (.pre op e)
  | un {op e} : prefixop op.ty = true → Gram Ty name 14 e → Gram Ty name 14 (.un op e)
  | sizeofE {tk e} : tk.ty = .sizeof → Gram Ty name 14 e → Gram Ty name 14 (.sizeofE tk e)
  | sizeofP {tk l e r} : tk.ty = .sizeof → l.ty = .lparen → r.ty = .rparen → Gram Ty name 1 e →
      Gram Ty name 14 (.sizeofP tk l e (some r))
  | sizeofT {tk l ts r} : tk.ty = .sizeof → l.ty = .lparen → r.ty = .rparen → Ty ts →
      Gram Ty name 14 (.sizeofP tk l (.recov ts) (some r))
  | cast {l ts r e} : l.ty = .lparen → r.ty = .rparen → Ty ts → Gram Ty name 14 e →
      Gram Ty name 14 (.cast l ts (some r) e)
  | bin {p l op r} : binop op.ty = some p → Gram Ty name p l → Gram Ty name (p + 1) r →
      Gram Ty name p (.bin l op r)
  | tern {c q m co t} : q.ty = .question → co.ty = .colon → Gram Ty name 4 c → Gram Ty name 1 m →
      Gram Ty name 3 t → Gram Ty name 3 (.tern c q m (some co) t)
  | assign {l op r} : assignop op.ty = true → Gram Ty name 14 l → Gram Ty name 2 r →
      Gram Ty name 2 (.bin l op r)
  | comma {l op r} : op.ty = .comma → Gram Ty name 1 l → Gram Ty name 2 r →
      Gram Ty name 1 (.bin l op r)

/-- Going left from the root as long as an operand comes first, there is a postfix `++` or `--`. -/
def leftPost : Ex → Bool
  | .post _ _ => true
  | .call f _ _ _ => leftPost f
  | .squares f _ _ _ => leftPost f
  | .field f _ _ => leftPost f
  | _ => false

/-- Going left from the root as long as an operand comes first, there are adjacent strings. -/
def leftStrings : Ex → Bool
  | .concat _ _ => true
  | .call f _ _ _ => leftStrings f
  | .squares f _ _ _ => leftStrings f
  | .field f _ _ => leftStrings f
  | .post f _ => leftStrings f
  | .bin l _ _ => leftStrings l
  | .tern c _ _ _ _ => leftStrings c
  | _ => false

/-- A call, subscript, member access or postfix `++` or `--`. -/
def postfixed : Ex → Bool
  | .call _ _ _ _ => true
  | .squares _ _ _ _ => true
  | .field _ _ _ => true
  | .post _ _ => true
  | _ => false

/-- The trees that the parser gives back. It does not give back trees with

* a postfix `++` or `--` below a prefix operator, as in `*p++`;
* a call, subscript, member access or postfix `++` or `--` below a cast, as in `(int)a.b`;
* a `sizeof` without parentheses whose operand begins with a parenthesis, as in `sizeof (a)->b`;
* adjacent strings that begin the operand of a prefix operator or cast, or the right operand of `+`, `-`,
  `*`, `/` or `%`. -/
def Simple : Ex → Prop
  | .null => True
  | .lit _ => True
  | .recov _ => True
  | .un _ e => leftPost e = false ∧ leftStrings e = false ∧ Simple e
  | .pre _ e => leftPost e = false ∧ leftStrings e = false ∧ Simple e
  | .sizeofE _ e => leftPost e = false ∧ leftStrings e = false ∧
      (∀ t, (yield e).head? = some t → t.ty ≠ .lparen) ∧ Simple e
  | .cast _ _ _ e => postfixed e = false ∧ leftStrings e = false ∧ Simple e
  | .bin l op r => (12 ≤ (binop op.ty).getD 0 → leftStrings r = false) ∧ Simple l ∧ Simple r
  | .tern c _ m _ t => Simple c ∧ Simple m ∧ Simple t
  | .parens _ e _ => Simple e
  | .call f _ a _ => Simple f ∧ Simple a
  | .squares f _ i _ => Simple f ∧ Simple i
  | .field f _ r => Simple f ∧ Simple r
  | .post e _ => Simple e
  | .sizeofP _ _ e _ => Simple e
  | .concat e _ => Simple e

/-- The callbacks recognise exactly the type names `Ty`: in parentheses in front of an operand they
are a cast, after `sizeof (` they are an operand; identifiers in `name` are not taken for
types, and nothing is made out of a right parenthesis. -/
structure Types (E : Env) (Ty : List Tok → Prop) (name : Tok → Prop) : Prop where
  noType : ∀ done t rest, t.ty = .ident → name t → E.recover done (t :: rest) = ⟨false, 0, false⟩
  nocast : ∀ done t rest, starter t.ty = true → (t.ty = .ident → name t) →
    E.recoverCast done (t :: rest) = ⟨false, 0, false⟩
  cast : ∀ done ts r ops t rest, Ty ts → r.ty = .rparen → (∀ p ∈ ops, starter p.ty = true) →
    (t.ty = .ident ∨ t.ty = .literal ∨ t.ty = .string ∨ t.ty = .lparen) →
    E.recoverCast done (ts ++ r :: (ops ++ t :: rest)) = ⟨true, ts.length, false⟩
  type : ∀ done l ts r rest, l.ty = .lparen → Ty ts → r.ty = .rparen →
    E.recover (l :: done) (ts ++ r :: rest) = ⟨true, ts.length, false⟩
  close : ∀ done r rest, r.ty = .rparen → E.recover done (r :: rest) = ⟨false, 0, false⟩
  first : ∀ ts, Ty ts → ∃ t ts', ts = t :: ts' ∧ (starter t.ty = true → t.ty = .ident)

/-! ## The result does not depend on the fuel -/

/-- `g` gives the results that `f` gives. -/
def FLe (f g : Par) : Prop := ∀ pc σ x, f pc σ = some x → g pc σ = some x

theorem bind_le {α β : Type} {a b : Option α} {k : α → Option β} {x : β}
    (hab : ∀ y, a = some y → b = some y) (h : a.bind k = some x) : b.bind k = some x := by
  obtain ⟨y, hy, hx⟩ := Option.bind_eq_some_iff.1 h
  rw [hab y hy]; exact hx

theorem nud_le {E : Env} {f g : Par} (hfg : FLe f g) {r : Rule} {tk : Tok} {σ : PS} {x : Ex × PS}
    (h : nud E f r tk σ = some x) : nud E g r tk σ = some x := by
  unfold nud at h ⊢
  split at h
  · exact h
  · exact bind_le (hfg _ _) h
  · exact bind_le (hfg _ _) h
  · unfold execSizeof at h ⊢
    split at h
    · split at h
      · next hl => simp only [hl, if_true]; exact bind_le (hfg _ _) h
      · next hl => simp only [hl, if_false]; exact bind_le (hfg _ _) h
    · exact bind_le (hfg _ _) h
  · unfold execParens at h ⊢
    split at h
    · exact bind_le (hfg _ _) h
    · exact bind_le (hfg _ _) h
  · exact h

theorem led_le {f g : Par} (hfg : FLe f g) {r : Rule} {lhs : Ex} {tk : Tok} {σ : PS} {x : Ex × PS}
    (h : led f r lhs tk σ = some x) : led g r lhs tk σ = some x := by
  unfold led at h ⊢
  split at h
  · exact bind_le (hfg _ _) h
  · exact h
  · exact bind_le (hfg _ _) h
  · exact bind_le (hfg _ _) h
  · exact h
  · exact bind_le (hfg _ _) h
  · unfold execTernary at h ⊢
    obtain ⟨y, hy, hx⟩ := Option.bind_eq_some_iff.1 h
    rw [hfg _ _ _ hy, Option.bind_some]
    exact bind_le (hfg _ _) hx
  · exact h

theorem popNud_le {E : Env} {f g : Par} (hfg : FLe f g) {r : Rule} {σ : PS} {x : Ex × PS}
    (h : popNud E f r σ = some x) : popNud E g r σ = some x := by
  unfold popNud at h ⊢
  split at h
  · exact h
  · exact nud_le hfg h

theorem operand_le {E : Env} {f g : Par} (hfg : FLe f g) {σ : PS} {x : Ex × PS}
    (h : operand E f σ = some x) : operand E g σ = some x := by
  unfold operand at h ⊢
  split at h
  · exact h
  · split at h
    · exact h
    · split at h
      · next hid =>
        rw [if_pos hid]
        split at h
        · exact h
        · exact popNud_le hfg h
      · next hid => rw [if_neg hid]; exact popNud_le hfg h

theorem fuel_succ (E : Env) : ∀ n, FLe (exec1 E n) (exec1 E (n + 1)) ∧
    (∀ pc e σ x, loop E n pc e σ = some x → loop E (n + 1) pc e σ = some x) := by
  intro n
  induction n with
  | zero => exact ⟨fun _ _ _ h => by simp [exec1] at h, fun _ _ _ _ h => by simp [loop] at h⟩
  | succ n ih =>
    constructor
    · intro pc σ x h
      rw [exec1] at h ⊢
      obtain ⟨y, hy, hx⟩ := Option.bind_eq_some_iff.1 h
      rw [operand_le ih.1 hy, Option.bind_some]
      split at hx
      · next hn => rw [if_pos hn]; exact hx
      · next hn => rw [if_neg hn]; exact ih.2 _ _ _ _ hx
    · intro pc e σ x h
      rw [loop] at h ⊢
      split at h
      · exact h
      · split at h
        · exact h
        · split at h
          · next hle => rw [if_pos hle]; exact h
          · next hle =>
            rw [if_neg hle]
            obtain ⟨y, hy, hx⟩ := Option.bind_eq_some_iff.1 h
            rw [led_le ih.1 hy, Option.bind_some]
            split at hx
            · next hn => rw [if_pos hn]; exact hx
            · next hn => rw [if_neg hn]; exact ih.2 _ _ _ _ hx

theorem exec1_le {E : Env} {n m : Nat} (h : n ≤ m) : FLe (exec1 E n) (exec1 E m) := by
  induction h with
  | refl => exact fun _ _ _ h => h
  | step _ ih => exact fun pc σ x h => (fuel_succ E _).1 _ _ _ (ih pc σ x h)

theorem loop_le {E : Env} {n m : Nat} (h : n ≤ m) {pc e σ x} :
    loop E n pc e σ = some x → loop E m pc e σ = some x := by
  induction h with
  | refl => exact fun h => h
  | step _ ih => exact fun h => (fuel_succ E _).2 _ _ _ _ (ih h)

/-- The parser gives `x`, with enough fuel. -/
def Ev (E : Env) (pc : Nat) (σ : PS) (x : Ex × PS) : Prop := ∃ n, exec1 E n pc σ = some x

/-- The loop gives `x`, with enough fuel. -/
def EvL (E : Env) (pc : Nat) (e : Ex) (σ : PS) (x : Ex × PS) : Prop :=
  ∃ n, loop E n pc e σ = some x

/-- A result with any fuel is the result of `parse`. -/
theorem parse_of_ev {E : Env} {σ : PS} {x : Ex × PS} (h : Ev E 0 σ x) : parse E σ = some x := by
  obtain ⟨n, hn⟩ := h
  obtain ⟨y, hy⟩ := parse_total E σ
  unfold parse at hy ⊢
  have h1 := exec1_le (Nat.le_max_left n (2 * σ.rest.length + 2)) _ _ _ hn
  have h2 := exec1_le (Nat.le_max_right n (2 * σ.rest.length + 2)) _ _ _ hy
  rw [h1] at h2
  rw [hy]; exact h2.symm

/-! ## Steps of the parser -/

/-- The precedence of a token as binary or postfix operator, 0 if it is neither. -/
def prec (ty : TT) : Nat := ((findRule ty false).map (·.pc)).getD 0

/-- The loop ends in front of these tokens. -/
def Stops (E : Env) (pc : Nat) (rest : List Tok) : Prop :=
  ∀ t, rest.head? = some t → some t.id = E.stop ∨ prec t.ty ≤ pc

theorem Stops.mono {E : Env} {p q : Nat} {rest : List Tok} (h : Stops E p rest) (hpq : p ≤ q) :
    Stops E q rest := fun t ht => (h t ht).imp id fun h => Nat.le_trans h hpq

theorem prec_le (ty : TT) : prec ty ≤ 15 := by
  cases ty <;> decide

theorem stops15 (E : Env) (rest : List Tok) : Stops E 15 rest := fun t _ => Or.inr (prec_le t.ty)

theorem peek_cons {E : Env} {d rest : List Tok} {t : Tok} (h : some t.id ≠ E.stop) :
    peek E ⟨d, t :: rest, false⟩ = some t := by
  simp [peek, h]

theorem evL_stop {E : Env} {pc : Nat} {e : Ex} {d rest : List Tok} (h : Stops E pc rest) :
    EvL E pc e ⟨d, rest, false⟩ (e, ⟨d, rest, false⟩) := by
  refine ⟨1, ?_⟩
  rw [loop]
  cases rest with
  | nil => simp [peek]
  | cons t rest =>
    rcases h t rfl with h | h
    · simp [peek, h]
    · by_cases hs : some t.id = E.stop
      · simp [peek, hs]
      · rw [peek_cons hs]
        simp only
        split
        · rfl
        · next r hr =>
          rw [if_pos]
          simpa [prec, hr] using h

theorem evL_led {E : Env} {pc : Nat} {lhs e : Ex} {tk : Tok} {d rest d' rest' : List Tok} {r : Rule}
    {x : Ex × PS} (hs : some tk.id ≠ E.stop) (hr : findRule tk.ty false = some r) (hpc : pc < r.pc)
    (hl : ∃ n, led (exec1 E n) r lhs tk ⟨tk :: d, rest, false⟩ = some (e, ⟨d', rest', false⟩))
    (he : e ≠ .null) (hx : EvL E pc e ⟨d', rest', false⟩ x) :
    EvL E pc lhs ⟨d, tk :: rest, false⟩ x := by
  obtain ⟨n, hn⟩ := hl
  obtain ⟨m, hm⟩ := hx
  refine ⟨max n m + 1, ?_⟩
  rw [loop, peek_cons hs]
  simp only [hr, List.tail_cons]
  rw [if_neg (by omega), led_le (exec1_le (Nat.le_max_left n m)) hn, Option.bind_some, if_neg]
  · exact loop_le (Nat.le_max_right n m) hm
  · simp [he]

theorem ev_nud {E : Env} {pc : Nat} {e : Ex} {tk : Tok} {d rest d' rest' : List Tok} {r : Rule}
    {x : Ex × PS} (hs : some tk.id ≠ E.stop) (hr : findRule tk.ty true = some r)
    (hi : tk.ty = .ident → E.recover d (tk :: rest) = ⟨false, 0, false⟩)
    (hl : ∃ n, nud E (exec1 E n) r tk ⟨tk :: d, rest, false⟩ = some (e, ⟨d', rest', false⟩))
    (he : e ≠ .null) (hx : EvL E pc e ⟨d', rest', false⟩ x) :
    Ev E pc ⟨d, tk :: rest, false⟩ x := by
  obtain ⟨n, hn⟩ := hl
  obtain ⟨m, hm⟩ := hx
  have hop : operand E (exec1 E (max n m)) ⟨d, tk :: rest, false⟩ = some (e, ⟨d', rest', false⟩) := by
    have h1 := nud_le (exec1_le (Nat.le_max_left n m)) hn
    rw [operand, peek_cons hs]
    simp only [hr]
    by_cases hid : tk.ty = .ident
    · rw [if_pos hid]
      simp only [callback, hi hid, applyRec]
      exact h1
    · rw [if_neg hid]; exact h1
  refine ⟨max n m + 1, ?_⟩
  rw [exec1, hop, Option.bind_some, if_neg he]
  exact loop_le (Nat.le_max_right n m) hm

theorem expect_cons {ty : TT} {d rest : List Tok} {t : Tok} (h : t.ty = ty) :
    expect ty ⟨d, t :: rest, false⟩ = (some t, ⟨t :: d, rest, false⟩) := by
  simp [expect, h]

/-! ## The grammar and the table agree -/

theorem find_bin {ty : TT} {p : Nat} (h : binop ty = some p) :
    findRule ty false = some ⟨p, false, false, ty, .binary⟩ ∧ 4 ≤ p ∧ p ≤ 13 := by
  revert p
  cases ty <;> simp [binop] <;> decide

theorem find_assign {ty : TT} (h : assignop ty = true) :
    findRule ty false = some ⟨2, false, true, ty, .binary⟩ ∧ binop ty = none := by
  revert h
  cases ty <;> simp [assignop] <;> decide

theorem find_prefix {ty : TT} (h : prefixop ty = true) :
    findRule ty true = some ⟨14, true, true, ty, .unary⟩ ∧ ty ≠ .ident := by
  revert h
  cases ty <;> simp [prefixop] <;> decide

theorem find_inc {ty : TT} (h : incop ty = true) :
    findRule ty true = some ⟨14, true, true, ty, .prepost⟩ ∧
    findRule ty false = some ⟨14, false, true, ty, .prepost⟩ ∧ ty ≠ .ident := by
  revert h
  cases ty <;> simp [incop] <;> decide

/-! ## Left edge: the operators met going left bind tighter than `pc` -/

/-- All the operators met going left from the root, as long as an operand comes first, have a
precedence above `pc`. -/
def fits (pc : Nat) : Ex → Prop
  | .bin l op _ => pc < prec op.ty ∧ fits pc l
  | .tern c _ _ _ _ => pc < 3 ∧ fits pc c
  | .call f _ _ _ => pc < 15 ∧ fits pc f
  | .squares f _ _ _ => pc < 15 ∧ fits pc f
  | .field f _ _ => pc < 15 ∧ fits pc f
  | .post e _ => pc < 14 ∧ fits pc e
  | .concat e _ => pc < 12 ∧ fits pc e
  | _ => True

section
variable {Ty : List Tok → Prop} {name : Tok → Prop}

theorem fits_low {n : Nat} {e : Ex} (h : Gram Ty name n e) {pc : Nat} (hn : pc < n) (h14 : pc < 14)
    (hs : 12 ≤ pc → leftStrings e = false) : fits pc e := by
  induction h with
  | up _ ih => exact ih (by omega) hs
  | ident | constant | string | parens | pre | un | sizeofE | sizeofP | sizeofT | cast =>
    simp [fits]
  | strings1 =>
    have : pc < 12 := Nat.lt_of_not_le fun h => by simpa [leftStrings] using hs h
    simpa [fits] using this
  | strings2 _ _ ih =>
    have : pc < 12 := Nat.lt_of_not_le fun h => by simpa [leftStrings] using hs h
    exact ⟨this, ih hn (fun h => by omega)⟩
  | call0 _ _ _ ih => exact ⟨by omega, ih hn hs⟩
  | call _ _ _ _ ih => exact ⟨by omega, ih hn hs⟩
  | squares _ _ _ _ ih => exact ⟨by omega, ih hn hs⟩
  | field _ _ _ _ ih => exact ⟨by omega, ih hn hs⟩
  | post _ _ ih => exact ⟨by omega, ih hn hs⟩
  | bin hop _ _ ih =>
    have := find_bin hop
    exact ⟨by simp [prec, this.1, hn], ih hn hs⟩
  | tern _ _ _ _ _ ih => exact ⟨by omega, ih (by omega) hs⟩
  | assign hop _ _ ih =>
    have := find_assign hop
    exact ⟨by simp [prec, this.1, hn], ih (by omega) hs⟩
  | comma hop _ _ ih =>
    refine ⟨?_, ih hn hs⟩
    rw [hop]
    exact hn

theorem fits_14 {n : Nat} {e : Ex} (h : Gram Ty name n e) (hn : 14 ≤ n) (hp : leftPost e = false)
    (hs : leftStrings e = false) : fits 14 e := by
  induction h with
  | up _ ih => exact ih (by omega) hp hs
  | ident | constant | string | parens | pre | un | sizeofE | sizeofP | sizeofT | cast =>
    simp [fits]
  | strings1 => simp [leftStrings] at hs
  | strings2 _ _ ih => simp [leftStrings] at hs
  | call0 _ _ _ ih => exact ⟨by omega, ih hn hp hs⟩
  | call _ _ _ _ ih => exact ⟨by omega, ih hn hp hs⟩
  | squares _ _ _ _ ih => exact ⟨by omega, ih hn hp hs⟩
  | field _ _ _ _ ih => exact ⟨by omega, ih hn hp hs⟩
  | post _ _ ih => simp [leftPost] at hp
  | bin hop _ _ ih =>
    have := find_bin hop
    omega
  | tern _ _ _ _ _ ih => omega
  | assign hop _ _ ih => omega
  | comma hop _ _ ih => omega

theorem fits_15 {n : Nat} {e : Ex} (h : Gram Ty name n e) (hn : 14 ≤ n) (hp : postfixed e = false)
    (hs : leftStrings e = false) : fits 15 e := by
  induction h with
  | up _ ih => exact ih (by omega) hp hs
  | ident | constant | string | parens | pre | un | sizeofE | sizeofP | sizeofT | cast =>
    simp [fits]
  | strings1 => simp [leftStrings] at hs
  | strings2 _ _ ih => simp [leftStrings] at hs
  | call0 _ _ _ ih => simp [postfixed] at hp
  | call _ _ _ _ ih => simp [postfixed] at hp
  | squares _ _ _ _ ih => simp [postfixed] at hp
  | field _ _ _ _ ih => simp [postfixed] at hp
  | post _ _ ih => simp [postfixed] at hp
  | bin hop _ _ ih =>
    have := find_bin hop
    omega
  | tern _ _ _ _ _ ih => omega
  | assign hop _ _ ih => omega
  | comma hop _ _ ih => omega

/-- A tree begins with a token that begins an operand. -/
theorem gram_head {n : Nat} {e : Ex} (h : Gram Ty name n e) : ∃ t ts, yield e = t :: ts ∧
    starter t.ty = true ∧ (t.ty = .ident → name t) := by
  have app : ∀ {a b : List Tok}, (∃ t ts, a = t :: ts ∧ starter t.ty = true ∧ (t.ty = .ident → name t)) →
      ∃ t ts, a ++ b = t :: ts ∧ starter t.ty = true ∧ (t.ty = .ident → name t) := by
    rintro a b ⟨t, ts, h1, h2⟩
    exact ⟨t, ts ++ b, by simp [h1], h2⟩
  induction h with
  | up _ ih => exact ih
  | ident h1 h2 => exact ⟨_, _, rfl, by simp [h1, starter], fun _ => h2⟩
  | constant h1 => exact ⟨_, _, rfl, by simp [h1, starter], by simp [h1]⟩
  | string h1 => exact ⟨_, _, rfl, by simp [h1, starter], by simp [h1]⟩
  | strings1 h1 => exact ⟨_, _, rfl, by simp [h1, starter], by simp [h1]⟩
  | strings2 _ _ ih => exact app ih
  | parens h1 => exact ⟨_, _, rfl, by simp [h1, starter], by simp [h1]⟩
  | call0 _ _ _ ih => exact app ih
  | call _ _ _ _ ih => exact app ih
  | squares _ _ _ _ ih => exact app ih
  | field _ _ _ _ ih => exact app ih
  | post _ _ ih => exact app ih
  | pre h1 =>
    refine ⟨_, _, rfl, ?_, fun h => absurd h (find_inc h1).2.2⟩
    have := find_unary; rw [← this, (find_inc h1).1]; rfl
  | un h1 =>
    refine ⟨_, _, rfl, ?_, fun h => absurd h (find_prefix h1).2⟩
    have := find_unary; rw [← this, (find_prefix h1).1]; rfl
  | sizeofE h1 => exact ⟨_, _, rfl, by simp [h1, starter], by simp [h1]⟩
  | sizeofP h1 => exact ⟨_, _, rfl, by simp [h1, starter], by simp [h1]⟩
  | sizeofT h1 => exact ⟨_, _, rfl, by simp [h1, starter], by simp [h1]⟩
  | cast h1 => exact ⟨_, _, rfl, by simp [h1, starter], by simp [h1]⟩
  | bin _ _ _ ih => exact app ih
  | tern _ _ _ _ _ ih => exact app ih
  | assign _ _ _ ih => exact app ih
  | comma _ _ _ ih => exact app ih

/-- A tree begins with prefix operators followed by an identifier, a constant, a string or a left
parenthesis. -/
theorem gram_ops {n : Nat} {e : Ex} (h : Gram Ty name n e) : ∃ ops t ts, yield e = ops ++ t :: ts ∧
    (∀ p ∈ ops, starter p.ty = true) ∧
    (t.ty = .ident ∨ t.ty = .literal ∨ t.ty = .string ∨ t.ty = .lparen) := by
  have app : ∀ {a b : List Tok}, (∃ ops t ts, a = ops ++ t :: ts ∧ (∀ p ∈ ops, starter p.ty = true) ∧
        (t.ty = .ident ∨ t.ty = .literal ∨ t.ty = .string ∨ t.ty = .lparen)) →
      ∃ ops t ts, a ++ b = ops ++ t :: ts ∧ (∀ p ∈ ops, starter p.ty = true) ∧
        (t.ty = .ident ∨ t.ty = .literal ∨ t.ty = .string ∨ t.ty = .lparen) := by
    rintro a b ⟨ops, t, ts, h1, h2⟩
    exact ⟨ops, t, ts ++ b, by simp [h1], h2⟩
  have pre : ∀ {a : List Tok} {u : Tok}, starter u.ty = true →
      (∃ ops t ts, a = ops ++ t :: ts ∧ (∀ p ∈ ops, starter p.ty = true) ∧
        (t.ty = .ident ∨ t.ty = .literal ∨ t.ty = .string ∨ t.ty = .lparen)) →
      ∃ ops t ts, u :: a = ops ++ t :: ts ∧ (∀ p ∈ ops, starter p.ty = true) ∧
        (t.ty = .ident ∨ t.ty = .literal ∨ t.ty = .string ∨ t.ty = .lparen) := by
    rintro a u hu ⟨ops, t, ts, h1, h2, h3⟩
    refine ⟨u :: ops, t, ts, by simp [h1], ?_, h3⟩
    intro p hp
    rcases List.mem_cons.1 hp with h | h
    · rw [h]; exact hu
    · exact h2 p h
  have one : ∀ {a : List Tok} {t : Tok},
      (t.ty = .ident ∨ t.ty = .literal ∨ t.ty = .string ∨ t.ty = .lparen) →
      ∃ ops u ts, t :: a = ops ++ u :: ts ∧ (∀ p ∈ ops, starter p.ty = true) ∧
        (u.ty = .ident ∨ u.ty = .literal ∨ u.ty = .string ∨ u.ty = .lparen) := by
    intro a t h
    exact ⟨[], t, a, rfl, by simp, h⟩
  induction h with
  | up _ ih => exact ih
  | ident h1 h2 => exact one (by simp [h1])
  | constant h1 => exact one (by simp [h1])
  | string h1 => exact one (by simp [h1])
  | strings1 h1 => exact one (by simp [h1])
  | strings2 _ _ ih => exact app ih
  | parens h1 => exact one (by simp [h1])
  | call0 _ _ _ ih => exact app ih
  | call _ _ _ _ ih => exact app ih
  | squares _ _ _ _ ih => exact app ih
  | field _ _ _ _ ih => exact app ih
  | post _ _ ih => exact app ih
  | pre h1 _ ih =>
    refine pre ?_ ih
    have := find_unary; rw [← this, (find_inc h1).1]; rfl
  | un h1 _ ih =>
    refine pre ?_ ih
    have := find_unary; rw [← this, (find_prefix h1).1]; rfl
  | sizeofE h1 _ ih => exact pre (by simp [h1, starter]) ih
  | sizeofP h1 h2 => exact pre (by simp [h1, starter]) (one (by simp [h2]))
  | sizeofT h1 h2 => exact pre (by simp [h1, starter]) (one (by simp [h2]))
  | cast h1 => exact one (by simp [h1])
  | bin _ _ _ ih => exact app ih
  | tern _ _ _ _ _ ih => exact app ih
  | assign _ _ _ ih => exact app ih
  | comma _ _ _ ih => exact app ih

theorem gram_ne {n : Nat} {e : Ex} (h : Gram Ty name n e) : e ≠ .null := by
  rintro rfl
  obtain ⟨t, ts, h, _⟩ := gram_head h
  simp [yield] at h

/-! ## Main induction -/

/-- The precedence that the token after an expression of level `n` may have. -/
def follow (n : Nat) : Nat := if n < 4 then 1 else n

theorem follow_mono {n m : Nat} (h : n ≤ m) : follow n ≤ follow m := by
  unfold follow; split <;> split <;> omega

theorem main {E : Env} (hT : Types E Ty name) {n : Nat} {e : Ex} (h : Gram Ty name n e) :
    Simple e → (∀ t ∈ yield e, some t.id ≠ E.stop) → ∀ pc d rest x, fits pc e →
    Stops E (follow n) rest →
    EvL E pc e ⟨(yield e).reverse ++ d, rest, false⟩ x → Ev E pc ⟨d, yield e ++ rest, false⟩ x := by
  -- parsing a complete operand
  have full : ∀ {n : Nat} {e : Ex}, (∀ pc d rest x, fits pc e → Stops E (follow n) rest →
        EvL E pc e ⟨(yield e).reverse ++ d, rest, false⟩ x → Ev E pc ⟨d, yield e ++ rest, false⟩ x) →
      ∀ pc d rest, fits pc e → Stops E (follow n) rest → Stops E pc rest →
      ∃ k, exec1 E k pc ⟨d, yield e ++ rest, false⟩ =
        some (e, ⟨(yield e).reverse ++ d, rest, false⟩) := by
    intro n e ih pc d rest h1 h2 h3
    exact ih pc d rest _ h1 h2 (evL_stop h3)
  have lit : ∀ {t : Tok} {r : Rule}, findRule t.ty true = some r → r.func = .literal →
      (t.ty = .ident → name t) → some t.id ≠ E.stop → ∀ pc d rest x,
      EvL E pc (.lit t) ⟨t :: d, rest, false⟩ x → Ev E pc ⟨d, t :: rest, false⟩ x := by
    intro t r hr hf hi hs pc d rest x hx
    exact ev_nud hs hr (fun h => hT.noType _ _ _ h (hi h)) ⟨0, by simp [nud, hf]⟩ (by simp) hx
  induction h with
  | up h ih =>
    intro hS hstop pc d rest x hfit hfol hx
    exact ih hS hstop pc d rest x hfit (hfol.mono (follow_mono (by omega))) hx
  | ident h1 h2 =>
    intro hS hstop pc d rest x hfit hfol hx
    exact lit (by rw [h1]; rfl) rfl (fun _ => h2) (hstop _ (by simp [yield])) pc d rest x hx
  | constant h1 =>
    intro hS hstop pc d rest x hfit hfol hx
    exact lit (by rw [h1]; rfl) rfl (by simp [h1]) (hstop _ (by simp [yield])) pc d rest x hx
  | string h1 =>
    intro hS hstop pc d rest x hfit hfol hx
    exact lit (by rw [h1]; rfl) rfl (by simp [h1]) (hstop _ (by simp [yield])) pc d rest x hx
  | @strings1 s t h1 h2 =>
    intro hS hstop pc d rest x hfit hfol hx
    refine lit (by rw [h1]; rfl) rfl (by simp [h1]) (hstop _ (by simp [yield])) pc d (t :: rest) x ?_
    exact evL_led (hstop _ (by simp [yield])) (by rw [h2]; rfl) hfit.1 ⟨0, by simp [led, yield]⟩ (by simp) hx
  | @strings2 e s t h1 h2 ih =>
    intro hS hstop pc d rest x hfit hfol hx
    have := ih hS (fun u hu => hstop u (by simp [yield] at hu ⊢; grind)) pc d (t :: rest) x hfit.2
      (fun u _ => Or.inr (Nat.le_trans (prec_le _) (by decide)))
      (evL_led (hstop _ (by simp [yield])) (by rw [h2]; rfl) hfit.1 ⟨0, by simp [led, yield]⟩ (by simp) hx)
    simpa [yield] using this
  | @parens l e r h1 h2 h3 ih =>
    intro hS hstop pc d rest x hfit hfol hx
    obtain ⟨k, hk⟩ := full (ih hS fun u hu => hstop u (by simp [yield] at hu ⊢; grind)) 0 (l :: d)
      (r :: rest) (fits_low h3 (by omega) (by omega) (by omega))
      (fun u hu => Or.inr (by cases hu; rw [h2]; decide))
      (fun u hu => Or.inr (by cases hu; rw [h2]; decide))
    obtain ⟨t, ts, h4, h5, h6⟩ := gram_head h3
    have : yield (.parens l e (some r)) ++ rest = l :: (yield e ++ r :: rest) := by simp [yield]
    rw [this]
    refine ev_nud (hstop _ (by simp [yield])) (by rw [h1]; rfl) (by simp [h1]) ⟨k, ?_⟩
      (by simp) hx
    simp only [nud, execParens, callback]
    have hc : E.recoverCast (l :: d) (yield e ++ r :: rest) = ⟨false, 0, false⟩ := by
      rw [h4]; exact hT.nocast _ _ _ h5 h6
    rw [hc]
    simp only [applyRec]
    simp [hk, expect_cons h2, yield]
  | @call0 f l r h1 h2 h3 ih =>
    intro hS hstop pc d rest x hfit hfol hx
    have : yield (.call f l .null (some r)) ++ rest = yield f ++ (l :: r :: rest) := by simp [yield]
    rw [this]
    refine ih hS.1 (fun u hu => hstop u (by simp [yield] at hu ⊢; grind)) pc d _ x hfit.2
      (fun u hu => Or.inr (Nat.le_trans (prec_le _) (by decide))) ?_
    have hnil : exec1 E 1 0 ⟨l :: ((yield f).reverse ++ d), r :: rest, false⟩ =
        some (.null, ⟨l :: ((yield f).reverse ++ d), r :: rest, false⟩) := by
      have hp := peek_cons (E := E) (d := l :: ((yield f).reverse ++ d)) (rest := rest)
        (hstop r (by simp [yield]))
      rw [exec1, operand, hp]
      have : findRule r.ty true = none := by rw [h2]; rfl
      simp [this, callback, hT.close _ r rest h2, applyRec]
    refine evL_led (hstop _ (by simp [yield])) (by rw [h1]; rfl) hfit.1 ⟨1, ?_⟩ (by simp) hx
    simp [led, hnil, expect_cons h2, yield]
  | @call f l a r h1 h2 h3 h4 ih ih2 =>
    intro hS hstop pc d rest x hfit hfol hx
    have : yield (.call f l a (some r)) ++ rest = yield f ++ (l :: (yield a ++ r :: rest)) := by
      simp [yield]
    rw [this]
    refine ih hS.1 (fun u hu => hstop u (by simp [yield] at hu ⊢; grind)) pc d _ x hfit.2
      (fun u hu => Or.inr (Nat.le_trans (prec_le _) (by decide))) ?_
    obtain ⟨k, hk⟩ := full (ih2 hS.2 fun u hu => hstop u (by simp [yield] at hu ⊢; grind)) 0
      (l :: ((yield f).reverse ++ d))
      (r :: rest) (fits_low h4 (by omega) (by omega) (by omega))
      (fun u hu => Or.inr (by cases hu; rw [h2]; decide))
      (fun u hu => Or.inr (by cases hu; rw [h2]; decide))
    refine evL_led (hstop _ (by simp [yield])) (by rw [h1]; rfl) hfit.1 ⟨k, ?_⟩ (by simp) hx
    simp [led, hk, expect_cons h2, yield]
  | @squares f l a r h1 h2 h3 h4 ih ih2 =>
    intro hS hstop pc d rest x hfit hfol hx
    have : yield (.squares f l a (some r)) ++ rest = yield f ++ (l :: (yield a ++ r :: rest)) := by
      simp [yield]
    rw [this]
    refine ih hS.1 (fun u hu => hstop u (by simp [yield] at hu ⊢; grind)) pc d _ x hfit.2
      (fun u hu => Or.inr (Nat.le_trans (prec_le _) (by decide))) ?_
    obtain ⟨k, hk⟩ := full (ih2 hS.2 fun u hu => hstop u (by simp [yield] at hu ⊢; grind)) 0
      (l :: ((yield f).reverse ++ d))
      (r :: rest) (fits_low h4 (by omega) (by omega) (by omega))
      (fun u hu => Or.inr (by cases hu; rw [h2]; decide))
      (fun u hu => Or.inr (by cases hu; rw [h2]; decide))
    refine evL_led (hstop _ (by simp [yield])) (by rw [h1]; rfl) hfit.1 ⟨k, ?_⟩ (by simp) hx
    simp [led, hk, expect_cons h2, yield]
  | @field f op t h1 h2 h3 h4 ih =>
    intro hS hstop pc d rest x hfit hfol hx
    have : yield (.field f op (.lit t)) ++ rest = yield f ++ (op :: t :: rest) := by
      simp [yield]
    rw [this]
    refine ih hS.1 (fun u hu => hstop u (by simp [yield] at hu ⊢; grind)) pc d _ x hfit.2
      (fun u hu => Or.inr (Nat.le_trans (prec_le _) (by decide))) ?_
    obtain ⟨k, hk⟩ := lit (t := t) (by rw [h2]; rfl) rfl (fun _ => h3) (hstop _ (by simp [yield])) 15
      (op :: ((yield f).reverse ++ d)) rest _ (evL_stop (stops15 E rest))
    refine evL_led (r := ⟨15, false, false, op.ty, .field⟩) (hstop _ (by simp [yield])) ?_ hfit.1
      ⟨k, ?_⟩ (by simp) hx
    · rcases h1 with h | h <;> rw [h] <;> rfl
    · simp [led, hk, yield]
  | @post e op h1 h2 ih =>
    intro hS hstop pc d rest x hfit hfol hx
    have : yield (.post e op) ++ rest = yield e ++ (op :: rest) := by simp [yield]
    rw [this]
    refine ih hS (fun u hu => hstop u (by simp [yield] at hu ⊢; grind)) pc d _ x hfit.2
      (fun u hu => Or.inr (Nat.le_trans (prec_le _) (by decide))) ?_
    exact evL_led (hstop _ (by simp [yield])) (find_inc h1).2.1 hfit.1
      ⟨0, by simp [led, yield]⟩ (by simp) hx
  | @pre op e h1 h2 ih =>
    intro hS hstop pc d rest x hfit hfol hx
    obtain ⟨k, hk⟩ := full (ih hS.2.2 fun u hu => hstop u (by simp [yield] at hu ⊢; grind)) 14
      (op :: d) rest (fits_14 h2 (by omega) hS.1 hS.2.1) hfol hfol
    refine ev_nud (hstop _ (by simp [yield])) (find_inc h1).1
      (fun h => absurd h (find_inc h1).2.2) ⟨k, ?_⟩ (by simp) hx
    simp [nud, hk, yield]
  | @un op e h1 h2 ih =>
    intro hS hstop pc d rest x hfit hfol hx
    obtain ⟨k, hk⟩ := full (ih hS.2.2 fun u hu => hstop u (by simp [yield] at hu ⊢; grind)) 14
      (op :: d) rest (fits_14 h2 (by omega) hS.1 hS.2.1) hfol hfol
    refine ev_nud (hstop _ (by simp [yield])) (find_prefix h1).1
      (fun h => absurd h (find_prefix h1).2) ⟨k, ?_⟩ (by simp) hx
    simp [nud, hk, yield]
  | @sizeofE tk e h1 h2 ih =>
    intro hS hstop pc d rest x hfit hfol hx
    obtain ⟨k, hk⟩ := full (ih hS.2.2.2 fun u hu => hstop u (by simp [yield] at hu ⊢; grind)) 14
      (tk :: d) rest (fits_14 h2 (by omega) hS.1 hS.2.1) hfol hfol
    refine ev_nud (hstop _ (by simp [yield])) (by rw [h1]; rfl) (by simp [h1]) ⟨k, ?_⟩ (by simp) hx
    obtain ⟨t, ts, h4, _, _⟩ := gram_head h2
    have h5 : t.ty ≠ .lparen := hS.2.2.1 t (by simp [h4])
    rw [h4] at hk
    simp only [List.cons_append] at hk
    simp [nud, execSizeof, h4, h5, hk, yield]
  | @sizeofP tk l e r h1 h2 h3 h4 ih =>
    intro hS hstop pc d rest x hfit hfol hx
    obtain ⟨k, hk⟩ := full (ih hS fun u hu => hstop u (by simp [yield] at hu ⊢; grind)) 0 (l :: tk :: d)
      (r :: rest) (fits_low h4 (by omega) (by omega) (by omega))
      (fun u hu => Or.inr (by cases hu; rw [h3]; decide))
      (fun u hu => Or.inr (by cases hu; rw [h3]; decide))
    have : yield (.sizeofP tk l e (some r)) ++ rest = tk :: l :: (yield e ++ r :: rest) := by
      simp [yield]
    rw [this]
    refine ev_nud (hstop _ (by simp [yield])) (by rw [h1]; rfl) (by simp [h1]) ⟨k, ?_⟩ (by simp) hx
    simp [nud, execSizeof, h2, hk, expect_cons h3, yield]
  | @sizeofT tk l ts r h1 h2 h3 h4 =>
    intro hS hstop pc d rest x hfit hfol hx
    have : yield (.sizeofP tk l (.recov ts) (some r)) ++ rest = tk :: l :: (ts ++ r :: rest) := by
      simp [yield]
    rw [this]
    obtain ⟨t, ts', h5, h6⟩ := hT.first ts h4
    have hk : exec1 E 2 0 ⟨l :: tk :: d, ts ++ r :: rest, false⟩ =
        some (.recov ts, ⟨ts.reverse ++ l :: tk :: d, r :: rest, false⟩) := by
      have hty := hT.type (tk :: d) l ts r rest h2 h4 h3
      have hop : operand E (exec1 E 1) ⟨l :: tk :: d, ts ++ r :: rest, false⟩ =
          some (.recov ts, ⟨ts.reverse ++ l :: tk :: d, r :: rest, false⟩) := by
        have hcb : callback E.recover ⟨l :: tk :: d, ts ++ r :: rest, false⟩ =
            (some ts, ⟨ts.reverse ++ l :: tk :: d, r :: rest, false⟩) := by
          simp [callback, hty, applyRec]
        have hp : peek E ⟨l :: tk :: d, ts ++ r :: rest, false⟩ = some t := by
          rw [h5]; exact peek_cons (hstop t (by simp [yield, h5]))
        rw [operand, hp, hcb]
        simp only
        have hst := find_unary t.ty
        split
        · rfl
        · next ru hru =>
          rw [hru] at hst
          rw [if_pos (h6 (by simpa using hst.symm))]
      rw [exec1, hop, Option.bind_some, if_neg (by simp), loop]
      rw [peek_cons (hstop r (by simp [yield]))]
      have : findRule r.ty false = none := by rw [h3]; rfl
      simp [this]
    refine ev_nud (hstop _ (by simp [yield])) (by rw [h1]; rfl) (by simp [h1]) ⟨2, ?_⟩ (by simp) hx
    simp [nud, execSizeof, h2, hk, expect_cons h3, yield]
  | @cast l ts r e h1 h2 h3 h4 ih =>
    intro hS hstop pc d rest x hfit hfol hx
    have : yield (.cast l ts (some r) e) ++ rest = l :: (ts ++ r :: (yield e ++ rest)) := by
      simp [yield]
    rw [this]
    obtain ⟨k, hk⟩ := full (ih hS.2.2 fun u hu => hstop u (by simp [yield] at hu ⊢; grind)) 15
      (r :: (ts.reverse ++ l :: d)) rest (fits_15 h4 (by omega) hS.1 hS.2.1) hfol (stops15 E rest)
    obtain ⟨ops, t, us, h5, h6, h7⟩ := gram_ops h4
    have hc := hT.cast (l :: d) ts r ops t (us ++ rest) h3 h2 h6 h7
    have h8 : ops ++ t :: (us ++ rest) = yield e ++ rest := by simp [h5]
    rw [h8] at hc
    refine ev_nud (hstop _ (by simp [yield])) (by rw [h1]; rfl) (by simp [h1]) ⟨k, ?_⟩ (by simp) hx
    simp [nud, execParens, callback, hc, applyRec, expect_cons h2, hk, yield]
  | @bin p l op r h1 h2 h3 ih ih2 =>
    intro hS hstop pc d rest x hfit hfol hx
    obtain ⟨hr, h4, h13⟩ := find_bin h1
    have hf : follow p = p := by unfold follow; rw [if_neg (by omega)]
    have : yield (.bin l op r) ++ rest = yield l ++ (op :: (yield r ++ rest)) := by simp [yield]
    rw [this]
    refine ih hS.2.1 (fun u hu => hstop u (by simp [yield] at hu ⊢; grind)) pc d _ x hfit.2
      (fun u hu => Or.inr (by cases hu; simp [prec, hr, hf])) ?_
    rw [hf] at hfol
    obtain ⟨k, hk⟩ := full (ih2 hS.2.2 fun u hu => hstop u (by simp [yield] at hu ⊢; grind)) p
      (op :: ((yield l).reverse ++ d)) rest
      (fits_low h3 (by omega) (by omega) fun h => hS.1 (by simpa [h1] using h))
      (hfol.mono (by rw [← hf]; exact follow_mono (by omega))) hfol
    refine evL_led (hstop _ (by simp [yield])) hr (by have := hfit.1; simpa [prec, hr] using this)
      ⟨k, ?_⟩ (by simp) hx
    simp [led, hk, yield]
  | @tern c q m co t h1 h2 h3 h4 h5 ih ih2 ih3 =>
    intro hS hstop pc d rest x hfit hfol hx
    have : yield (.tern c q m (some co) t) ++ rest =
        yield c ++ (q :: (yield m ++ co :: (yield t ++ rest))) := by simp [yield]
    rw [this]
    refine ih hS.1 (fun u hu => hstop u (by simp [yield] at hu ⊢; grind)) pc d _ x hfit.2
      (fun u hu => Or.inr (by cases hu; rw [h1]; decide)) ?_
    obtain ⟨k, hk⟩ := full (ih2 hS.2.1 fun u hu => hstop u (by simp [yield] at hu ⊢; grind)) 0
      (q :: ((yield c).reverse ++ d)) (co :: (yield t ++ rest))
      (fits_low h4 (by omega) (by omega) (by omega))
      (fun u hu => Or.inr (by cases hu; rw [h2]; decide))
      (fun u hu => Or.inr (by cases hu; rw [h2]; decide))
    obtain ⟨k', hk'⟩ := full (ih3 hS.2.2 fun u hu => hstop u (by simp [yield] at hu ⊢; grind)) 1
      (co :: ((yield m).reverse ++ q :: ((yield c).reverse ++ d))) rest
      (fits_low h5 (by omega) (by omega) (by omega)) hfol hfol
    have g1 := exec1_le (Nat.le_max_left k k') _ _ _ hk
    have g2 := exec1_le (Nat.le_max_right k k') _ _ _ hk'
    refine evL_led (hstop _ (by simp [yield])) (by rw [h1]; rfl) hfit.1
      ⟨max k k', ?_⟩ (by simp) hx
    simp [led, execTernary, g1, expect_cons h2, g2, gram_ne h5, yield]
  | @assign l op r h1 h2 h3 ih ih2 =>
    intro hS hstop pc d rest x hfit hfol hx
    obtain ⟨hr, _⟩ := find_assign h1
    have : yield (.bin l op r) ++ rest = yield l ++ (op :: (yield r ++ rest)) := by simp [yield]
    rw [this]
    refine ih hS.2.1 (fun u hu => hstop u (by simp [yield] at hu ⊢; grind)) pc d _ x hfit.2
      (fun u hu => Or.inr (by cases hu; simp [prec, hr, follow])) ?_
    obtain ⟨k, hk⟩ := full (ih2 hS.2.2 fun u hu => hstop u (by simp [yield] at hu ⊢; grind)) 1
      (op :: ((yield l).reverse ++ d)) rest
      (fits_low h3 (by omega) (by omega) (by omega)) hfol hfol
    refine evL_led (hstop _ (by simp [yield])) hr (by have := hfit.1; simpa [prec, hr] using this)
      ⟨k, ?_⟩ (by simp) hx
    simp [led, hk, yield]
  | @comma l op r h1 h2 h3 ih ih2 =>
    intro hS hstop pc d rest x hfit hfol hx
    have hr : findRule op.ty false = some ⟨1, false, false, .comma, .binary⟩ := by rw [h1]; rfl
    have : yield (.bin l op r) ++ rest = yield l ++ (op :: (yield r ++ rest)) := by simp [yield]
    rw [this]
    refine ih hS.2.1 (fun u hu => hstop u (by simp [yield] at hu ⊢; grind)) pc d _ x hfit.2
      (fun u hu => Or.inr (by cases hu; simp [prec, hr, follow])) ?_
    obtain ⟨k, hk⟩ := full (ih2 hS.2.2 fun u hu => hstop u (by simp [yield] at hu ⊢; grind)) 1
      (op :: ((yield l).reverse ++ d)) rest
      (fits_low h3 (by omega) (by omega) (by omega)) hfol hfol
    refine evL_led (hstop _ (by simp [yield])) hr (by have := hfit.1; simpa [prec, hr] using this)
      ⟨k, ?_⟩ (by simp) hx
    simp [led, hk, yield]

end

/-! ## Theorems -/

/-- What an expression is followed by. -/
def closer : TT → Bool
  | .semi | .rparen | .rsquare | .lbrace | .rbrace | .colon | .eof => true
  | _ => false

theorem prec_closer {ty : TT} (h : closer ty = true) : prec ty = 0 := by
  revert h
  cases ty <;> simp [closer] <;> decide

/-- **Operator precedence and associativity.** From the tokens of a C expression the parser
makes the tree that the grammar of C gives it, and consumes exactly these tokens. What is missing
from the full statement are the trees that are not `Simple`, see `star_inc_fails`,
`cast_field_fails`, `sizeof_field_fails` and `plus_strings_fails`. -/
theorem parse_yield_partial {E : Env} {Ty : List Tok → Prop} {name : Tok → Prop}
    (hT : Types E Ty name) {e : Ex} (h : Gram Ty name 1 e) (hS : Simple e)
    (hstop : ∀ t ∈ yield e, some t.id ≠ E.stop) (done rest : List Tok)
    (hrest : ∀ t, rest.head? = some t → some t.id = E.stop ∨ closer t.ty = true) :
    parse E ⟨done, yield e ++ rest, false⟩ = some (e, ⟨(yield e).reverse ++ done, rest, false⟩) := by
  have hst : Stops E 0 rest := fun t ht => (hrest t ht).imp id fun h => by rw [prec_closer h]; omega
  exact parse_of_ev (main hT h hS hstop 0 done rest _
    (fits_low h (by omega) (by omega) (by omega)) (hst.mono (by omega)) (evL_stop hst))

/-- The simple expressions of C are not ambiguous: no two trees have the same tokens. -/
theorem gram_unambiguous {E : Env} {Ty : List Tok → Prop} {name : Tok → Prop}
    (hT : Types E Ty name) {e e' : Ex} (h : Gram Ty name 1 e) (hS : Simple e)
    (h' : Gram Ty name 1 e') (hS' : Simple e') (hy : yield e = yield e')
    (hstop : ∀ t ∈ yield e, some t.id ≠ E.stop) : e = e' := by
  have h1 := parse_yield_partial hT h hS hstop [] [] (by simp)
  have h2 := parse_yield_partial hT h' hS' (by rw [← hy]; exact hstop) [] [] (by simp)
  rw [hy, h2] at h1
  simpa using h1.symm

/-! ## Examples and counterexamples -/

/-- `int` as a type name. -/
def IntTy (ts : List Tok) : Prop := ∃ t, ts = [t] ∧ t.ty = .kInt

theorem noBinary_ops {ops rest : List Tok} {t : Tok} (h : ∀ p ∈ ops, starter p.ty = true)
    (ht : t.ty = .ident ∨ t.ty = .literal ∨ t.ty = .string ∨ t.ty = .lparen) :
    noBinary (ops ++ t :: rest) = true := by
  induction ops with
  | nil =>
    simp only [List.nil_append, noBinary]
    rcases ht with h | h | h | h <;> simp [h, binaryOnly, starter]
  | cons p ops ih =>
    simp only [List.cons_append, noBinary]
    split
    · exact ih fun q hq => h q (by simp [hq])
    · simp [binaryOnly, h p (by simp)]

/-- The callbacks that know `int` recognise exactly `int`. -/
theorem ints_types : Types ints IntTy (fun _ => True) where
  noType := by
    intro done t rest h _
    have : binaryFlag .ident = false := by decide +kernel
    simp [ints, exprRecover, h, this]
  nocast := by
    intro done t rest h _
    have : t.ty ≠ .kInt := by rintro h'; rw [h'] at h; simp [starter] at h
    simp [ints, this]
  cast := by
    rintro done ts r ops t rest ⟨i, rfl, hi⟩ hr ho ht
    simp [ints, hi, hr, noBinary_ops ho ht]
  type := by
    rintro done l ts r rest hl ⟨i, rfl, hi⟩ hr
    simp [ints, exprRecover, hi, hr, hl]
  close := by
    intro done r rest h
    have : binaryFlag .rparen = false := by decide +kernel
    simp [ints, exprRecover, h, this]
  first := by
    rintro ts ⟨i, rfl, hi⟩
    exact ⟨i, [], rfl, by simp [hi, starter]⟩

/-- Raise the level of an expression. -/
theorem gram_up {Ty : List Tok → Prop} {name : Tok → Prop} {e : Ex} {m : Nat} (k : Nat) :
    Gram Ty name (m + k) e → Gram Ty name m e := by
  induction k with
  | zero => exact id
  | succ k ih => exact fun h => ih (Gram.up h)

/-- A token of the given type. -/
def tk (id : Nat) (ty : TT) : Tok := ⟨id, ty, []⟩

/-- `x = (int)-a * b + c << 2, f("a" "b")[i]` is in the grammar and simple. -/
def sample : Ex :=
  .bin (.bin (.lit (tk 0 .ident)) (tk 1 .equal)
      (.bin (.bin (.bin (.cast (tk 2 .lparen) [tk 3 .kInt] (some (tk 4 .rparen))
          (.un (tk 5 .minus) (.lit (tk 6 .ident)))) (tk 7 .star) (.lit (tk 8 .ident)))
        (tk 9 .plus) (.lit (tk 10 .ident))) (tk 11 .lessless) (.lit (tk 12 .literal))))
    (tk 13 .comma)
    (.squares (.call (.lit (tk 14 .ident)) (tk 15 .lparen)
        (.concat (.lit (tk 16 .string)) (tk 17 .string)) (some (tk 18 .rparen)))
      (tk 19 .lsquare) (.lit (tk 20 .ident)) (some (tk 21 .rsquare)))

theorem sample_gram : Gram IntTy (fun _ => True) 1 sample := by
  refine .comma rfl (.up (.assign rfl (gram_up 2 (.ident rfl trivial)) (gram_up 9 ?_)))
    (gram_up 13 ?_)
  · refine .bin rfl (.up (.bin rfl (.up (.bin rfl (.up (.cast rfl rfl ⟨_, rfl, rfl⟩ (.un rfl
      (gram_up 2 (.ident rfl trivial))))) (gram_up 2 (.ident rfl trivial))))
        (gram_up 3 (.ident rfl trivial)))) (gram_up 4 (.constant rfl))
  · exact .squares rfl rfl (.call rfl rfl (.up (.ident rfl trivial)) (gram_up 15 (.strings1 rfl rfl)))
      (gram_up 15 (.ident rfl trivial))

example : Simple sample := by simp [sample, Simple, leftPost, leftStrings, postfixed]

/-- **`*p++` is parsed as `(*p)++`**: the precedence of the postfix operators is the one of
the prefix operators. -/
theorem star_inc_fails : ∃ e e', Gram IntTy (fun _ => True) 14 e ∧ e ≠ e' ∧
    e = .un (tk 0 .star) (.post (.lit (tk 1 .ident)) (tk 2 .plusplus)) ∧
    e' = .post (.un (tk 0 .star) (.lit (tk 1 .ident))) (tk 2 .plusplus) ∧
    parse ints ⟨[], yield e, false⟩ = some (e', ⟨(yield e).reverse, [], false⟩) :=
  ⟨_, _, .un rfl (.up (.post rfl (.up (.ident rfl trivial)))), by decide, rfl, rfl,
    by decide +kernel⟩

/-- **`(int)a.b` is parsed as `((int)a).b`**. -/
theorem cast_field_fails : ∃ e e', Gram IntTy (fun _ => True) 14 e ∧ e ≠ e' ∧
    e = .cast (tk 0 .lparen) [tk 1 .kInt] (some (tk 2 .rparen))
      (.field (.lit (tk 3 .ident)) (tk 4 .period) (.lit (tk 5 .ident))) ∧
    e' = .field (.cast (tk 0 .lparen) [tk 1 .kInt] (some (tk 2 .rparen)) (.lit (tk 3 .ident)))
      (tk 4 .period) (.lit (tk 5 .ident)) ∧
    parse ints ⟨[], yield e, false⟩ = some (e', ⟨(yield e).reverse, [], false⟩) :=
  ⟨_, _, .cast rfl rfl ⟨_, rfl, rfl⟩ (.up (.field (Or.inl rfl) rfl trivial
    (.up (.ident rfl trivial)))), by decide, rfl, rfl, by decide +kernel⟩

/-- **`sizeof(a)->b` is parsed as `(sizeof(a))->b`**. -/
theorem sizeof_field_fails : ∃ e e', Gram IntTy (fun _ => True) 14 e ∧ e ≠ e' ∧
    e = .sizeofE (tk 0 .sizeof) (.field (.parens (tk 1 .lparen) (.lit (tk 2 .ident))
      (some (tk 3 .rparen))) (tk 4 .arrow) (.lit (tk 5 .ident))) ∧
    e' = .field (.sizeofP (tk 0 .sizeof) (tk 1 .lparen) (.lit (tk 2 .ident))
      (some (tk 3 .rparen))) (tk 4 .arrow) (.lit (tk 5 .ident)) ∧
    parse ints ⟨[], yield e, false⟩ = some (e', ⟨(yield e).reverse, [], false⟩) :=
  ⟨_, _, .sizeofE rfl (.up (.field (Or.inr rfl) rfl trivial (.up (.parens rfl rfl
    (gram_up 15 (.ident rfl trivial)))))), by decide, rfl, rfl, by decide +kernel⟩

/-- **`x + "a" "b"` is parsed as `(x + "a") "b"`**. -/
theorem plus_strings_fails : ∃ e e', Gram IntTy (fun _ => True) 12 e ∧ e ≠ e' ∧
    e = .bin (.lit (tk 0 .ident)) (tk 1 .plus) (.concat (.lit (tk 2 .string)) (tk 3 .string)) ∧
    e' = .concat (.bin (.lit (tk 0 .ident)) (tk 1 .plus) (.lit (tk 2 .string))) (tk 3 .string) ∧
    parse ints ⟨[], yield e, false⟩ = some (e', ⟨(yield e).reverse, [], false⟩) :=
  ⟨_, _, .bin rfl (gram_up 4 (.ident rfl trivial)) (gram_up 3 (.strings1 rfl rfl)), by decide, rfl,
    rfl, by decide +kernel⟩

end Knfmt.Expr
