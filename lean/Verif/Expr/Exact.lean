import Verif.Expr.Yield
/-!
# The expression parser loses nothing

Second half of C18: when the tokens of the tree are all the tokens consumed.
-/
namespace Knfmt.Expr
open Knfmt.Lexer (TT)

/-! ## Specification -/

/-- The token types an operand begins with: identifiers, literals, strings, prefix operators, left
parenthesis. -/
def starter : TT → Bool
  | .ident | .literal | .string | .exclaim | .tilde | .plusplus | .minusminus | .plus | .minus
  | .star | .amp | .sizeof | .lparen => true
  | _ => false

/-- An operand begins here: with a token that begins an operand, or with tokens that the
callback takes. `done` are the tokens before, last one first. -/
def Operand (E : Env) (done rest : List Tok) : Prop :=
  ∃ tk rest', rest = tk :: rest' ∧ some tk.id ≠ E.stop ∧
    (starter tk.ty = true ∨ (E.recover done rest).ok = true)

/-- An operand is wanted after the tokens `cs` (last one first): nothing was read yet, or the last
token is neither the end of an operand nor a postfix operator. A right parenthesis only counts if
it ends a cast. `B` are the tokens before the expression. -/
def wants (E : Env) (B : List Tok) : List Tok → List Tok → Prop
  | [], _ => True
  | t :: cs, b =>
    match t.ty with
    | .ident | .literal | .string | .rsquare | .rbrace => False
    | .rparen => ∃ ts l cs', cs = ts.reverse ++ l :: cs' ∧ l.ty = .lparen ∧
        (E.recoverCast (l :: cs' ++ B) (ts ++ t :: b)).ok = true ∧
        (E.recoverCast (l :: cs' ++ B) (ts ++ t :: b)).n = ts.length
    | .plusplus | .minusminus => wants E B cs (t :: b)
    | _ => True

/-- Nothing among the tokens `T` makes the parser drop a token before only `R` tokens remain:

* where an operand is wanted and none can begin, the callback does not swallow a token;
* the callback for casts does not swallow a token if it fails;
* after a colon, an operand begins. -/
structure Calm (E : Env) (B T : List Tok) (R : Nat) : Prop where
  recover : ∀ cs tk b, cs.reverse ++ tk :: b = T → R < (tk :: b).length → wants E B cs (tk :: b) →
    (starter tk.ty = false ∨ tk.ty = .ident) →
    (E.recover (cs ++ B) (tk :: b)).ok = false → (E.recover (cs ++ B) (tk :: b)).n = 0
  cast : ∀ a b, (E.recoverCast a b).ok = false → (E.recoverCast a b).n = 0
  colon : ∀ c cs b, (c :: cs).reverse ++ b = T → R ≤ b.length → c.ty = .colon →
    Operand E (c :: cs ++ B) b

/-! ## The table of rules -/

/-- Token types after which an operand is always wanted. -/
def asks : TT → Bool
  | .ident | .literal | .string | .rsquare | .rbrace | .rparen | .plusplus | .minusminus => false
  | _ => true

theorem wants_asks {E : Env} {B cs b : List Tok} {t : Tok} (h : asks t.ty = true) :
    wants E B (t :: cs) b := by
  unfold wants
  split <;> simp_all [asks]

theorem find_unary (ty : TT) : (findRule ty true).isSome = starter ty := by
  cases ty <;> rfl

theorem find_unary_func (ty : TT) : (findRule ty true).all (fun r =>
    r.func = .literal || (r.func = .prepost && (ty = .plusplus || ty = .minusminus)) ||
    (r.func = .unary && asks ty) || (r.func = .sizeof && asks ty) ||
    (r.func = .parens && ty = .lparen)) = true := by
  cases ty <;> rfl

theorem find_binary_func (ty : TT) : (findRule ty false).all (fun r =>
    r.func = .concat || r.func = .prepost ||
    ((r.func = .binary || r.func = .field || r.func = .parens || r.func = .squares ||
      r.func = .ternary) && asks ty)) = true := by
  cases ty <;> rfl

/-! ## Proof -/

section
variable {E : Env} {B T : List Tok} {R : Nat}

/-- `cs` are the tokens consumed so far, last one first. -/
def At (B T cs : List Tok) (σ : PS) : Prop := σ.done = cs ++ B ∧ cs.reverse ++ σ.rest = T

theorem At.adv {cs : List Tok} {σ τ : PS} (h : At B T cs σ) (ha : Adv σ τ) :
    ∃ cs', At B T cs' τ := by
  obtain ⟨ts, h1, h2, _⟩ := ha
  exact ⟨ts.reverse ++ cs, by simp [h2, h.1], by simpa [h1] using h.2⟩

/-- Exactness of a parsing function. -/
def FExact (E : Env) (B T : List Tok) (R : Nat) (f : Par) : Prop :=
  ∀ pc σ cs x, f pc σ = some x → At B T cs σ → wants E B cs σ.rest → x.2.err = false →
    R ≤ x.2.rest.length →
    x.2.done = (yield x.1).reverse ++ σ.done ∧ (Operand E σ.done σ.rest → x.1 ≠ .null)

theorem expect_ok {ty : TT} {σ : PS} (h : (expect ty σ).2.err = false) :
    ∃ tk rest, σ.rest = tk :: rest ∧ tk.ty = ty ∧ (expect ty σ).1 = some tk ∧
      (expect ty σ).2 = { σ with done := tk :: σ.done, rest := rest } := by
  unfold expect at h ⊢
  split at h
  · simp at h
  · next tk rest hr =>
    split at h
    · next ht => exact ⟨tk, rest, hr, ht, by simp [ht], by simp [ht]⟩
    · simp at h

theorem exact_nud (hC : Calm E B T R) {f : Par} (ha : FAdv f) (hf : FExact E B T R f)
    {r : Rule} {tk : Tok} {σ : PS} {cs : List Tok} {x : Ex × PS}
    (hr : findRule tk.ty true = some r)
    (hat : At B T (tk :: cs) σ) (hw : wants E B cs (tk :: σ.rest))
    (h : nud E f r tk σ = some x) (he : x.2.err = false) (hR : R ≤ x.2.rest.length) :
    x.1 ≠ .null ∧ ∃ us, yield x.1 = tk :: us ∧ x.2.done = us.reverse ++ σ.done := by
  have hfun := find_unary_func tk.ty
  rw [hr] at hfun
  unfold nud at h
  split at h
  · cases h; exact ⟨by simp, [], by simp [yield]⟩
  · next hk =>
    obtain ⟨y, hy, hx⟩ := Option.bind_eq_some_iff.1 h
    cases hx
    have hasks : asks tk.ty = true := by simpa [hk] using hfun
    have := hf _ _ _ y hy hat (wants_asks hasks) he hR
    exact ⟨by simp, yield y.1, rfl, this.1⟩
  · next hk =>
    obtain ⟨y, hy, hx⟩ := Option.bind_eq_some_iff.1 h
    cases hx
    have hw' : wants E B (tk :: cs) σ.rest := by
      have : tk.ty = .plusplus ∨ tk.ty = .minusminus := by simpa [hk] using hfun
      rcases this with h | h <;> · unfold wants; rw [h]; exact hw
    have := hf _ _ _ y hy hat hw' he hR
    exact ⟨by simp, yield y.1, rfl, this.1⟩
  · next hk =>
    have hasks : asks tk.ty = true := by simpa [hk] using hfun
    have plain : ∀ {x : Ex × PS}, ((f r.pc σ).bind fun x => some (Ex.sizeofE tk x.1, x.2)) = some x →
        x.2.err = false → R ≤ x.2.rest.length →
        x.1 ≠ .null ∧ ∃ us, yield x.1 = tk :: us ∧ x.2.done = us.reverse ++ σ.done := by
      intro x h he hR
      obtain ⟨y, hy, hx⟩ := Option.bind_eq_some_iff.1 h
      cases hx
      have := hf _ _ _ y hy hat (wants_asks hasks) he hR
      exact ⟨by simp, yield y.1, rfl, this.1⟩
    unfold execSizeof at h
    split at h
    · next l rest hr =>
      split at h
      · next hl =>
        obtain ⟨y, hy, hx⟩ := Option.bind_eq_some_iff.1 h
        cases hx
        obtain ⟨rp, rest', h1, h2, h3, h4⟩ := expect_ok he
        have hat' : At B T (l :: tk :: cs) { σ with done := l :: σ.done, rest := rest } :=
          ⟨by simp [hat.1], by simpa [hr] using hat.2⟩
        have hye : y.2.err = false := (adv_expect _ _).err he
        have := hf _ _ _ y hy hat' (wants_asks (by simp [hl, asks])) hye
          (Nat.le_trans hR (adv_expect .rparen y.2).len)
        refine ⟨by simp, l :: (yield y.1 ++ [rp]), by simp [yield, h3], ?_⟩
        simp only
        rw [h4]
        simp [this.1]
      · exact plain h he hR
    · exact plain h he hR
  · next hk =>
    have hlp : tk.ty = .lparen := by simpa [hk] using hfun
    unfold execParens at h
    split at h
    · next ts σ1 hcb =>
      simp only [callback, Prod.mk.injEq, applyRec] at hcb
      obtain ⟨hok, hσ1⟩ := hcb
      split at hok
      · next hok' =>
        cases hok
        obtain ⟨y, hy, hx⟩ := Option.bind_eq_some_iff.1 h
        cases hx
        have he1 : (expect .rparen σ1).2.err = false := (ha _ _ y hy).err he
        obtain ⟨rp, rest', h1, h2, h3, h4⟩ := expect_ok he1
        rw [h4] at hy
        have hsplit : σ.rest = σ.rest.take (E.recoverCast σ.done σ.rest).n ++ rp :: rest' := by
          rw [← h1, ← hσ1]; simp
        have hlen : (σ.rest.take (E.recoverCast σ.done σ.rest).n).length =
            (E.recoverCast σ.done σ.rest).n := by
          have : (σ.rest.drop (E.recoverCast σ.done σ.rest).n) = rp :: rest' := by
            rw [← h1, ← hσ1]
          have h5 : (σ.rest.drop (E.recoverCast σ.done σ.rest).n).length = rest'.length + 1 := by
            rw [this]; simp
          simp only [List.length_drop] at h5
          simp only [List.length_take]; omega
        generalize hts : σ.rest.take (E.recoverCast σ.done σ.rest).n = ts at *
        have hσd : σ1.done = ts.reverse ++ σ.done := by rw [← hσ1]
        have hat' : At B T (rp :: (ts.reverse ++ tk :: cs))
            { σ1 with done := rp :: σ1.done, rest := rest' } := by
          refine ⟨by simp [hσd, hat.1], ?_⟩
          have := hat.2
          rw [hsplit] at this
          simpa using this
        have hw' : wants E B (rp :: (ts.reverse ++ tk :: cs)) rest' := by
          unfold wants
          rw [h2]
          refine ⟨ts, tk, cs, rfl, hlp, ?_, ?_⟩
          · rw [← hsplit]; simpa [hat.1] using hok'
          · rw [← hsplit]; simpa [hat.1] using hlen.symm
        have := hf _ _ _ y hy hat' hw' he hR
        refine ⟨by simp, ts ++ rp :: yield y.1, by simp [yield, h3], ?_⟩
        simp [this.1, hσd]
      · simp at hok
    · next σ1 hcb =>
      simp only [callback, Prod.mk.injEq, applyRec] at hcb
      obtain ⟨hok, hσ1⟩ := hcb
      split at hok
      · simp at hok
      · next hok' =>
        have hn := hC.cast σ.done σ.rest (by simpa using hok')
        obtain ⟨y, hy, hx⟩ := Option.bind_eq_some_iff.1 h
        cases hx
        obtain ⟨rp, rest', h1, h2, h3, h4⟩ := expect_ok he
        have hye : y.2.err = false := (adv_expect _ _).err he
        have hd : σ1.done = σ.done := by rw [← hσ1, hn]; simp
        have hrest : σ1.rest = σ.rest := by rw [← hσ1, hn]; simp
        have hat' : At B T (tk :: cs) σ1 := ⟨by rw [hd]; exact hat.1, by rw [hrest]; exact hat.2⟩
        have := hf _ _ _ y hy hat' (wants_asks (by simp [hlp, asks])) hye
          (Nat.le_trans hR (adv_expect .rparen y.2).len)
        refine ⟨by simp, yield y.1 ++ [rp], by simp [yield, h3], ?_⟩
        simp only
        rw [h4]
        simp [this.1, hd]
  · next h1 h2 h3 h4 h5 =>
    exfalso; simp at hfun; grind

theorem exact_led (hC : Calm E B T R) {f : Par} (ha : FAdv f) (hf : FExact E B T R f)
    {r : Rule} {lhs : Ex} {tk : Tok} {σ : PS} {cs : List Tok} {x : Ex × PS}
    (hr : findRule tk.ty false = some r) (hat : At B T (tk :: cs) σ)
    (h : led f r lhs tk σ = some x) (he : x.2.err = false) (hR : R ≤ x.2.rest.length) :
    x.1 ≠ .null ∧ ∃ us, yield x.1 = yield lhs ++ tk :: us ∧ x.2.done = us.reverse ++ σ.done := by
  have hfun := find_binary_func tk.ty
  rw [hr] at hfun
  unfold led at h
  split at h
  · next hk =>
    obtain ⟨y, hy, hx⟩ := Option.bind_eq_some_iff.1 h
    cases hx
    have hasks : asks tk.ty = true := by simpa [hk] using hfun
    have := hf _ _ _ y hy hat (wants_asks hasks) he hR
    exact ⟨by simp, yield y.1, rfl, this.1⟩
  · cases h; exact ⟨by simp, [], by simp [yield]⟩
  · next hk =>
    obtain ⟨y, hy, hx⟩ := Option.bind_eq_some_iff.1 h
    cases hx
    have hasks : asks tk.ty = true := by simpa [hk] using hfun
    have := hf _ _ _ y hy hat (wants_asks hasks) he hR
    exact ⟨by simp, yield y.1, rfl, this.1⟩
  · next hk =>
    obtain ⟨y, hy, hx⟩ := Option.bind_eq_some_iff.1 h
    cases hx
    have hasks : asks tk.ty = true := by simpa [hk] using hfun
    obtain ⟨rp, rest', h1, h2, h3, h4⟩ := expect_ok he
    have := hf _ _ _ y hy hat (wants_asks hasks) ((adv_expect _ _).err he)
      (Nat.le_trans hR (adv_expect .rparen y.2).len)
    refine ⟨by simp, yield y.1 ++ [rp], by simp [yield, h3], ?_⟩
    simp only
    rw [h4]
    simp [this.1]
  · cases h; exact ⟨by simp, [], by simp [yield]⟩
  · next hk =>
    obtain ⟨y, hy, hx⟩ := Option.bind_eq_some_iff.1 h
    cases hx
    have hasks : asks tk.ty = true := by simpa [hk] using hfun
    obtain ⟨rp, rest', h1, h2, h3, h4⟩ := expect_ok he
    have := hf _ _ _ y hy hat (wants_asks hasks) ((adv_expect _ _).err he)
      (Nat.le_trans hR (adv_expect .rsquare y.2).len)
    refine ⟨by simp, yield y.1 ++ [rp], by simp [yield, h3], ?_⟩
    simp only
    rw [h4]
    simp [this.1]
  · next hk =>
    unfold execTernary at h
    have hasks : asks tk.ty = true := by simpa [hk] using hfun
    obtain ⟨y, hy, hx⟩ := Option.bind_eq_some_iff.1 h
    obtain ⟨z, hz, hx⟩ := Option.bind_eq_some_iff.1 hx
    cases hx
    simp only at he hR
    have he1 : (expect .colon y.2).2.err = false := (ha _ _ z hz).err he
    obtain ⟨co, rest', h1, h2, h3, h4⟩ := expect_ok he1
    have hlen1 := (ha _ _ z hz).len
    have hm := hf _ _ _ y hy hat (wants_asks hasks) ((adv_expect _ _).err he1)
      (Nat.le_trans hR (Nat.le_trans hlen1 (adv_expect .colon y.2).len))
    obtain ⟨cs', hat'⟩ := hat.adv (ha _ _ y hy)
    rw [h4] at hz hlen1
    have hat2 : At B T (co :: cs') { y.2 with done := co :: y.2.done, rest := rest' } := by
      refine ⟨by simp [hat'.1], ?_⟩
      have := hat'.2
      rw [h1] at this
      simpa using this
    have ht := hf _ _ _ z hz hat2 (wants_asks (by simp [h2, asks])) he hR
    have hop := hC.colon co cs' rest' hat2.2 (Nat.le_trans hR hlen1) h2
    have hne : z.1 ≠ .null := ht.2 (by simpa [hat'.1] using hop)
    refine ⟨by simp [hne], yield y.1 ++ co :: yield z.1, by simp [hne, yield, h3], ?_⟩
    simp only
    rw [ht.1]
    simp [hm.1]
  · next h1 h2 h3 h4 h5 h6 h7 =>
    exfalso; simp at hfun; grind

theorem exact_popNud (hC : Calm E B T R) {f : Par} (ha : FAdv f) (hf : FExact E B T R f)
    {r : Rule} {tk : Tok} {rest : List Tok} {σ : PS} {cs : List Tok} {x : Ex × PS}
    (hrest : σ.rest = tk :: rest)
    (hr : findRule tk.ty true = some r) (hat : At B T cs σ) (hw : wants E B cs σ.rest)
    (h : popNud E f r σ = some x) (he : x.2.err = false) (hR : R ≤ x.2.rest.length) :
    x.1 ≠ .null ∧ x.2.done = (yield x.1).reverse ++ σ.done := by
  unfold popNud at h
  rw [hrest] at h
  have hat' : At B T (tk :: cs) { σ with done := tk :: σ.done, rest := rest } :=
    ⟨by simp [hat.1], by simpa [hrest] using hat.2⟩
  obtain ⟨h1, us, h2, h3⟩ := exact_nud hC ha hf hr hat' (by rw [hrest] at hw; exact hw) h he hR
  exact ⟨h1, by simp [h2, h3]⟩

theorem exact_operand (hC : Calm E B T R) {f : Par} (ha : FAdv f) (hf : FExact E B T R f)
    {σ : PS} {cs : List Tok} {x : Ex × PS} (hat : At B T cs σ) (hw : wants E B cs σ.rest)
    (h : operand E f σ = some x) (he : x.2.err = false) (hR : R ≤ x.2.rest.length) :
    x.2.done = (yield x.1).reverse ++ σ.done ∧ (Operand E σ.done σ.rest → x.1 ≠ .null) := by
  have hadv := adv_operand ha h
  unfold operand at h
  split at h
  · next hp =>
    cases h
    refine ⟨by simp [yield], ?_⟩
    rintro ⟨tk, rest', h1, h2, _⟩
    exfalso
    have hee : σ.err = false := he
    simp [peek, h1, h2, hee] at hp
  · next tk hp =>
    obtain ⟨_, rest, hrest⟩ := peek_some hp
    -- a failing callback consumes nothing
    have hfail : (starter tk.ty = false ∨ tk.ty = .ident) →
        (E.recover σ.done σ.rest).ok = false → R ≤ (applyRec (E.recover σ.done σ.rest) σ).rest.length →
        (applyRec (E.recover σ.done σ.rest) σ).rest = σ.rest ∧
        (applyRec (E.recover σ.done σ.rest) σ).done = σ.done := by
      intro hs hok hR'
      by_cases hlt : R < σ.rest.length
      · have := hC.recover cs tk rest (by rw [← hrest]; exact hat.2) (by rw [← hrest]; exact hlt)
          (by rw [← hrest]; exact hw) hs (by rw [← hrest, ← hat.1]; exact hok)
        rw [← hrest, ← hat.1] at this
        simp [applyRec, this]
      · simp only [applyRec, List.length_drop] at hR'
        have h0 : (E.recover σ.done σ.rest).n = 0 := by
          rw [hrest] at hR' hlt ⊢
          simp only [List.length_cons] at hR' hlt
          omega
        simp [applyRec, h0]
    have hst := find_unary tk.ty
    split at h
    · next hnone =>
      rw [hnone] at hst
      split at h
      · next ts σ1 hcb =>
        cases h
        simp only [callback, Prod.mk.injEq] at hcb
        obtain ⟨h1, h2⟩ := hcb
        split at h1
        · cases h1; rw [← h2]; exact ⟨by simp [applyRec, yield], fun _ => by simp⟩
        · simp at h1
      · next σ1 hcb =>
        cases h
        simp only [callback, Prod.mk.injEq] at hcb
        obtain ⟨h1, h2⟩ := hcb
        split at h1
        · simp at h1
        · next hok =>
          have hok : (E.recover σ.done σ.rest).ok = false := by simpa using hok
          rw [← h2] at hR
          have := hfail (Or.inl (by simpa using hst.symm)) hok hR
          refine ⟨by rw [← h2, this.2]; simp [yield], ?_⟩
          rintro ⟨t, r', g1, _, g3⟩
          rw [hrest] at g1
          cases g1
          rw [hok] at g3
          simp at g3
          simp [g3] at hst
    · next r hr =>
      split at h
      · next hid =>
        split at h
        · next ts σ1 hcb =>
          cases h
          simp only [callback, Prod.mk.injEq] at hcb
          obtain ⟨h1, h2⟩ := hcb
          split at h1
          · cases h1; rw [← h2]; exact ⟨by simp [applyRec, yield], fun _ => by simp⟩
          · simp at h1
        · next σ1 hcb =>
          simp only [callback, Prod.mk.injEq] at hcb
          obtain ⟨h1, h2⟩ := hcb
          split at h1
          · simp at h1
          · next hok =>
            have hok : (E.recover σ.done σ.rest).ok = false := by simpa using hok
            have hR1 : R ≤ σ1.rest.length := Nat.le_trans hR (adv_popNud ha h).len
            rw [← h2] at hR1
            have hsame := hfail (Or.inr hid) hok hR1
            rw [h2] at hsame
            have := exact_popNud hC ha hf (σ := σ1) (by rw [hsame.1]; exact hrest) hr
              ⟨by rw [hsame.2]; exact hat.1, by rw [hsame.1]; exact hat.2⟩
              (by rw [hsame.1]; exact hw) h he hR
            exact ⟨by rw [this.2, hsame.2], fun _ => this.1⟩
      · have := exact_popNud hC ha hf hrest hr hat hw h he hR
        exact ⟨this.2, fun _ => this.1⟩

theorem exact_all (hC : Calm E B T R) : ∀ n, FExact E B T R (exec1 E n) ∧
    (∀ pc ex σ cs x, loop E n pc ex σ = some x → ex ≠ .null → At B T cs σ → x.2.err = false →
      R ≤ x.2.rest.length →
      x.1 ≠ .null ∧ ∃ us, yield x.1 = yield ex ++ us ∧ x.2.done = us.reverse ++ σ.done) := by
  intro n
  induction n with
  | zero => exact ⟨fun _ _ _ _ h => by simp [exec1] at h, fun _ _ _ _ _ h => by simp [loop] at h⟩
  | succ n ih =>
    have ha := (adv_all E n).1
    constructor
    · intro pc σ cs x h hat hw he hR
      rw [exec1] at h
      obtain ⟨y, hy, hx⟩ := Option.bind_eq_some_iff.1 h
      split at hx
      · next hnull =>
        cases hx
        have := exact_operand hC ha ih.1 hat hw hy he hR
        rw [hnull] at this
        exact this
      · next hne =>
        have hadv := (adv_all E n).2 _ _ _ _ hx
        have h1 := exact_operand hC ha ih.1 hat hw hy (hadv.err he) (Nat.le_trans hR hadv.len)
        obtain ⟨cs', hat'⟩ := hat.adv (adv_operand ha hy)
        obtain ⟨h2, us, h3, h4⟩ := ih.2 _ _ _ _ _ hx hne hat' he hR
        exact ⟨by rw [h4, h3, h1.1]; simp, fun _ => h2⟩
    · intro pc ex σ cs x h hne hat he hR
      rw [loop] at h
      split at h
      · cases h; exact ⟨hne, [], by simp, by simp⟩
      · next tk hp =>
        split at h
        · cases h; exact ⟨hne, [], by simp, by simp⟩
        · next r hr =>
          split at h
          · cases h; exact ⟨hne, [], by simp, by simp⟩
          · obtain ⟨y, hy, hx⟩ := Option.bind_eq_some_iff.1 h
            obtain ⟨_, rest, hrest⟩ := peek_some hp
            have htl : σ.rest.tail = rest := by rw [hrest]; rfl
            rw [htl] at hy
            have hat' : At B T (tk :: cs) { σ with done := tk :: σ.done, rest := rest } :=
              ⟨by simp [hat.1], by simpa [hrest] using hat.2⟩
            have main : y.2.err = false → R ≤ y.2.rest.length → _ :=
              exact_led hC ha ih.1 hr hat' hy
            split at hx
            · next hbad =>
              cases hx
              obtain ⟨h1, _⟩ := main he hR
              rcases hbad with hb | hb
              · exact absurd hb h1
              · simp only at he; simp [he] at hb
            · have hadv := (adv_all E n).2 _ _ _ _ hx
              obtain ⟨h1, us, h2, h3⟩ := main (hadv.err he) (Nat.le_trans hR hadv.len)
              obtain ⟨cs', hat''⟩ := hat'.adv (adv_led ha hy)
              obtain ⟨g1, vs, g2, g3⟩ := ih.2 _ _ _ _ _ hx h1 hat'' he hR
              exact ⟨g1, tk :: (us ++ vs), by simp [g2, h2], by simp [g3, h3]⟩

end

/-- **The expression parser loses nothing.** Unless there is an error, the tokens of the tree are
exactly the tokens consumed, in order, for every list of tokens and whatever the callbacks take, as
long as they do not swallow tokens when they fail and an operand follows each colon consumed. What is
missing from the full statement is that these two conditions always hold; they do not:
`yield_fails_colon` and `yield_fails_recover`. -/
theorem yield_partial {E : Env} {σ τ : PS} {e : Ex} (h : parse E σ = some (e, τ))
    (herr : τ.err = false) (hC : Calm E σ.done σ.rest τ.rest.length) :
    ∃ ts, yield e = ts ∧ σ.rest = ts ++ τ.rest ∧ τ.done = ts.reverse ++ σ.done := by
  have h1 := (exact_all hC _).1 _ _ [] _ h ⟨by simp, by simp⟩ trivial herr (Nat.le_refl _)
  obtain ⟨ts, h2, h3, _⟩ := yield_sublist h
  have : yield e = ts := by
    have := h1.1
    simp only at this
    rw [h3, List.append_cancel_right_eq, List.reverse_inj] at this
    exact this.symm
  exact ⟨ts, this, h2, h3⟩

/-! ## When the callback of the parser does not swallow tokens -/

/-- A binary operator that is not a prefix operator as well. -/
def binaryOnly (ty : TT) : Bool := binaryFlag ty && !starter ty

/-- Whether an operand has just ended after a token. -/
def endedAfter (ty : TT) (before : Bool) : Bool :=
  match ty with
  | .ident | .literal | .string | .rsquare | .rbrace | .rparen => true
  | .plusplus | .minusminus => before
  | _ => false

/-- Tokens an expression is written with: an operand follows each colon, and a binary operator
follows an operand, a left parenthesis or a comma. `prev` is the token before, `nx` the one after. -/
def tidy (stop : Option Nat) (prev : Option TT) (ended : Bool) (nx : Option Tok) :
    List Tok → Bool
  | [] => prev ≠ some .colon || nx.any fun t => starter t.ty && some t.id ≠ stop
  | t :: ts =>
    (prev ≠ some .colon || (starter t.ty && some t.id ≠ stop)) &&
    (!binaryOnly t.ty || ended || prev = some .lparen || prev = some .comma) &&
    tidy stop (some t.ty) (endedAfter t.ty ended) nx ts

/-- Whether an operand has just ended, tokens last one first. -/
def endedOf : List Tok → Bool
  | [] => false
  | t :: cs => endedAfter t.ty (endedOf cs)

theorem tidy_split {stop : Option Nat} {nx : Option Tok} {cs : List Tok} : ∀ {ts us : List Tok},
    cs.reverse ++ us = ts → tidy stop none false nx ts = true →
    tidy stop (cs.head?.map (·.ty)) (endedOf cs) nx us = true := by
  induction cs with
  | nil => intro ts us h ht; simp at h; subst h; exact ht
  | cons c cs ih =>
    intro ts us h ht
    have := ih (us := c :: us) (by simpa using h) ht
    rw [tidy, Bool.and_eq_true] at this
    exact this.2

theorem wants_ended {E : Env} {B : List Tok} : ∀ {cs b : List Tok}, wants E B cs b →
    endedOf cs = false ∨ ∃ ts rp b' cs',
      rp.ty = .rparen ∧ (E.recoverCast cs' (ts ++ rp :: (b' ++ b))).ok = true ∧
      (E.recoverCast cs' (ts ++ rp :: (b' ++ b))).n = ts.length ∧
      (∀ t ∈ b', t.ty = .plusplus ∨ t.ty = .minusminus) := by
  intro cs
  induction cs with
  | nil => intro b _; left; rfl
  | cons t cs ih =>
    intro b h
    unfold wants at h
    unfold endedOf endedAfter
    split at h
    all_goals try contradiction
    · next hty =>
      obtain ⟨ts, l, cs', h1, h2, h3, h4⟩ := h
      right
      exact ⟨ts, t, [], l :: cs' ++ B, hty, by simpa using h3, by simpa using h4, by simp⟩
    · next hty =>
      rcases ih h with h | ⟨ts, rp, b', cs', h2, h3, h4, h5⟩
      · exact Or.inl h
      · right
        refine ⟨ts, rp, b' ++ [t], cs', h2, by simpa using h3, by simpa using h4, ?_⟩
        intro u hu
        rcases List.mem_append.1 hu with hu | hu
        · exact h5 u hu
        · simp at hu; subst hu; exact Or.inl hty
    · next hty =>
      rcases ih h with h | ⟨ts, rp, b', cs', h2, h3, h4, h5⟩
      · exact Or.inl h
      · right
        refine ⟨ts, rp, b' ++ [t], cs', h2, by simpa using h3, by simpa using h4, ?_⟩
        intro u hu
        rcases List.mem_append.1 hu with hu | hu
        · exact h5 u hu
        · simp at hu; subst hu; exact Or.inr hty
    · left; rfl

/-- **With the callbacks of the parser, nothing is lost from a tidy expression.** `type` and `braces`
are what the parser finds for types and braces. After a cast, possibly followed by `++` or
`--`, no binary operator comes. -/
theorem yield_tidy_partial {type : List Tok → List Tok → Option Nat}
    {braces cast : List Tok → List Tok → RecRes} {stop : Option Nat}
    {σ τ : PS} {e : Ex} {ts : List Tok}
    (h : parse ⟨stop, exprRecover type braces, cast⟩ σ = some (e, τ)) (herr : τ.err = false)
    (hts : σ.rest = ts ++ τ.rest)
    (hbraces : ∀ a b, (braces a b).ok = false → (braces a b).n = 0)
    (hcast : ∀ a b, (cast a b).ok = false → (cast a b).n = 0)
    (hafter : ∀ a us rp ps t b, (cast a (us ++ rp :: (ps ++ t :: b))).ok = true → rp.ty = .rparen →
      (cast a (us ++ rp :: (ps ++ t :: b))).n = us.length →
      (∀ p ∈ ps, p.ty = .plusplus ∨ p.ty = .minusminus) → binaryOnly t.ty = false)
    (htidy : tidy stop none false τ.rest.head? ts = true) :
    yield e = ts ∧ τ.done = ts.reverse ++ σ.done := by
  have hC : Calm ⟨stop, exprRecover type braces, cast⟩ σ.done σ.rest τ.rest.length := by
    constructor
    · intro cs tk b hT hR hw hst hok
      -- the token is one of the tokens consumed
      have hex : ∃ us, cs.reverse ++ tk :: us = ts := by
        rw [hts] at hT
        rcases List.append_eq_append_iff.1 hT with ⟨as, h1, h2⟩ | ⟨bs, h1, h2⟩
        · cases as with
          | nil => simp at h2; rw [h2] at hR; simp at hR
          | cons a as => simp at h2; exact ⟨as, by rw [h1, h2.1]⟩
        · rw [h2] at hR; simp at hR; omega
      obtain ⟨us, hus⟩ := hex
      have hck := tidy_split hus htidy
      simp only [tidy, Bool.and_eq_true] at hck
      have hne : binaryOnly tk.ty = true → (cs.head?.map (·.ty) = some TT.lparen ∨
          cs.head?.map (·.ty) = some TT.comma) := by
        intro hb
        have h3 := hck.1.2
        rcases wants_ended hw with h4 | ⟨us, rp, ps, a, h5, h6, h7, h8⟩
        · simpa [hb, h4] using h3
        · have := hafter a us rp ps tk b h6 h5 h7 h8
          rw [hb] at this; simp at this
      have hhead : ∀ ty, cs.head?.map (·.ty) = some ty →
          (cs ++ σ.done).head?.map (·.ty) = some ty := by
        intro ty h; cases cs <;> simp_all
      revert hok
      simp only [exprRecover]
      split
      · split <;> simp
      · split
        · next hbf =>
          have hb : binaryOnly tk.ty = true := by
            rcases hst with h | h
            · simp [binaryOnly, hbf, h]
            · rw [h] at hbf; exact absurd hbf (by decide +kernel)
          rcases hne hb with h | h <;> · rw [hhead _ h]; simp
        · split
          · exact hbraces _ _
          · split <;> simp
    · exact hcast
    · intro c cs b hT hR hc
      have hex : ∃ us, (c :: cs).reverse ++ us = ts ∧ b = us ++ τ.rest := by
        rw [hts] at hT
        rcases List.append_eq_append_iff.1 hT with ⟨as, h1, h2⟩ | ⟨bs, h1, h2⟩
        · exact ⟨as, h1.symm, h2⟩
        · cases bs with
          | nil => exact ⟨[], by simpa using h1, by simpa using h2.symm⟩
          | cons a bs => rw [h2] at hR; simp at hR; omega
      obtain ⟨us, hus, hb⟩ := hex
      have hck := tidy_split hus htidy
      cases us with
      | nil =>
        simp only [tidy, hc, List.head?_cons, Option.map_some] at hck
        cases hr : τ.rest with
        | nil => simp [hr] at hck
        | cons t r =>
          simp [hr] at hck
          exact ⟨t, r, by simp [hb, hr], hck.2, Or.inl hck.1⟩
      | cons u us =>
        simp only [tidy, hc, List.head?_cons, Option.map_some, Bool.and_eq_true] at hck
        have := hck.1.1
        simp at this
        exact ⟨u, us ++ τ.rest, by simp [hb], this.2, Or.inl this.1⟩
  obtain ⟨us, h1, h2, h3⟩ := yield_partial h herr hC
  rw [hts] at h2
  have := List.append_cancel_right h2
  subst this
  exact ⟨h1, h3⟩

/-! ## Examples and counterexamples -/

/-- Callbacks that find neither types nor braces. -/
def bare : Env :=
  ⟨none, exprRecover (fun _ _ => none) (fun _ _ => ⟨false, 0, false⟩), fun _ _ => ⟨false, 0, false⟩⟩

/-- Apart from leading `++` and `--`, the tokens do not begin with a binary operator. -/
def noBinary : List Tok → Bool
  | [] => true
  | t :: ts => if t.ty = .plusplus ∨ t.ty = .minusminus then noBinary ts else !binaryOnly t.ty

/-- Callbacks that find the keyword `int` in casts and as operand. -/
def ints : Env :=
  ⟨none, exprRecover (fun _ b => if b.head?.map (·.ty) = some .kInt then some 1 else none)
      (fun _ _ => ⟨false, 0, false⟩),
    fun _ b => if b.head?.map (·.ty) = some .kInt ∧ b.tail.head?.map (·.ty) = some .rparen ∧
        noBinary b.tail.tail = true
      then ⟨true, 1, false⟩ else ⟨false, 0, false⟩⟩

theorem ex_of_any {o : Option (Ex × PS)} {p : Ex → PS → Prop} [∀ e τ, Decidable (p e τ)]
    (h : (o.any fun x => decide (p x.1 x.2)) = true) : ∃ e τ, o = some (e, τ) ∧ p e τ := by
  cases o with
  | none => simp at h
  | some x => exact ⟨x.1, x.2, rfl, by simpa using h⟩

/-- Tokens of the given types. -/
def toks (tys : List TT) : List Tok := tys.zipIdx.map fun p => ⟨p.2, p.1, []⟩

/-- `f(a ? *p++ : (int)c, sizeof(int)) / 2;` meets the hypotheses of `yield_tidy_partial`. -/
example : ∃ e τ, parse ints ⟨[], toks [.ident, .lparen, .ident, .question, .star, .ident, .plusplus,
      .colon, .lparen, .kInt, .rparen, .ident, .comma, .sizeof, .lparen, .kInt, .rparen, .rparen,
      .slash, .literal, .semi], false⟩ = some (e, τ) ∧ τ.err = false ∧
    (τ.rest.map (·.ty)) = [.semi] ∧
    tidy none none false τ.rest.head? (toks [.ident, .lparen, .ident, .question, .star, .ident,
      .plusplus, .colon, .lparen, .kInt, .rparen, .ident, .comma, .sizeof, .lparen, .kInt, .rparen,
      .rparen, .slash, .literal]) = true ∧
    yield e = toks [.ident, .lparen, .ident, .question, .star, .ident,
      .plusplus, .colon, .lparen, .kInt, .rparen, .ident, .comma, .sizeof, .lparen, .kInt, .rparen,
      .rparen, .slash, .literal] :=
  ex_of_any (by decide +kernel)

/-- The callbacks of that example meet the conditions on callbacks. -/
example : (∀ a b, (ints.recoverCast a b).ok = false → (ints.recoverCast a b).n = 0) ∧
    (∀ a us rp ps t b, (ints.recoverCast a (us ++ rp :: (ps ++ t :: b))).ok = true →
      rp.ty = .rparen →
      (ints.recoverCast a (us ++ rp :: (ps ++ t :: b))).n = us.length →
      (∀ p ∈ ps, p.ty = .plusplus ∨ p.ty = .minusminus) → binaryOnly t.ty = false) := by
  constructor
  · intro a b
    simp only [ints]
    split <;> simp
  · intro a us rp ps t b hok _ hn hps
    simp only [ints] at hok hn
    split at hok
    · next hc =>
      rw [if_pos hc] at hn
      match us, hn with
      | [u], _ =>
        have h3 := hc.2.2
        simp only [List.singleton_append, List.tail_cons] at h3
        clear hc hok hn
        induction ps with
        | nil =>
          simp only [List.nil_append, noBinary] at h3
          split at h3
          · next h => rcases h with h | h <;> rw [h] <;> decide +kernel
          · simpa using h3
        | cons p ps ih =>
          simp only [List.cons_append, noBinary] at h3
          rw [if_pos (hps p (by simp))] at h3
          exact ih (fun q hq => hps q (by simp [hq])) h3
    · simp at hok

/-- **Tokens are lost after a colon.** `(a ? b : )` is parsed without an error, all five tokens are
consumed, and the tree only has the parentheses: `expr_exec_ternary` returns a null pointer. -/
theorem yield_fails_colon : ∃ e τ,
    parse bare ⟨[], toks [.lparen, .ident, .question, .ident, .colon, .rparen], false⟩ = some (e, τ) ∧
    τ.err = false ∧ τ.rest = [] ∧ (yield e).map (·.ty) = [.lparen, .rparen] :=
  ex_of_any (by decide +kernel)

/-- **Tokens are lost by the callback.** `a + / b` is parsed without an error, all four tokens are
consumed, and the slash is gone: `expr_recover` consumes it before looking at the token before. -/
theorem yield_fails_recover : ∃ e τ,
    parse bare ⟨[], toks [.ident, .plus, .slash, .ident], false⟩ = some (e, τ) ∧
    τ.err = false ∧ τ.rest = [] ∧ (yield e).map (·.ty) = [.ident, .plus, .ident] :=
  ex_of_any (by decide +kernel)

end Knfmt.Expr
