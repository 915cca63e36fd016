import Verif.Parse.Progress
/-!
# A function that reports success has consumed a token

`Str b m g`: if the result fulfills `g`, fewer tokens are left. With `b` this is only claimed unless
an error was reported.
-/
namespace Knfmt.Parse
open Knfmt.Lexer (TT)
open Knfmt.Expr (Rule Func findRule)

/-- See above. -/
class Str {α : Type} (b : Bool) (m : M α) (g : α → Prop) : Prop where
  run : ∀ s a s', m s = some (a, s') → g a → (b = true → s'.err = false) → s'.len < s.len

/-- The result never fulfills `g`. -/
class Nev {α : Type} (m : M α) (g : α → Prop) : Prop where
  run : ∀ s a s', m s = some (a, s') → ¬ g a

/-- No error was reported if the result fulfills `g`. -/
class Ok {α : Type} (m : M α) (g : α → Prop) : Prop where
  run : ∀ s a s', m s = some (a, s') → g a → s'.err = false

/-- All results. -/
def any {α : Type} (_ : α) : Prop := True
/-- Success. -/
def isGood (r : Res) : Prop := r = .good
/-- Success. -/
def good1 {α : Type} (x : Res × α) : Prop := x.1 = .good
/-- A token was there. -/
def isIn {α : Type} (o : Option α) : Prop := o ≠ none
/-- Another round follows. -/
def goes {α β : Type} (x : α ⊕ β) : Prop := x.isLeft = true
/-- An expression was found. -/
def isEx (e : Ex) : Prop := e ≠ .null

theorem Step.back {s s' : St} (h : Step s s') {b : Bool} (he : b = true → s'.err = false) :
    b = true → s.err = false := by
  intro hb
  cases h1 : s.err
  · rfl
  · have := he hb
    rw [h.err h1] at this
    cases this

section
variable {α β : Type} {b : Bool} {m : M α} {k : α → M β} {g : β → Prop} {g1 : α → Prop}

theorem str_first (h : Str b m any) (hk : ∀ a, Mon (k a)) : Str b (m >>= k) g := by
  refine ⟨fun s c s' e _ he => ?_⟩
  obtain ⟨a, s1, e1, e2⟩ := bind_some e
  have hs := (hk a).step _ _ _ e2
  exact Nat.lt_of_le_of_lt hs.rest (h.run _ _ _ e1 trivial (hs.back he))

theorem str_case (h : Str b m g1) (hm : Mon m) (hk : ∀ a, Mon (k a)) (h' : ∀ a, ¬ g1 a → Str b (k a) g) :
    Str b (m >>= k) g := by
  refine ⟨fun s c s' e hb he => ?_⟩
  obtain ⟨a, s1, e1, e2⟩ := bind_some e
  have hs := (hk a).step _ _ _ e2
  by_cases ha : g1 a
  · exact Nat.lt_of_le_of_lt hs.rest (h.run _ _ _ e1 ha (hs.back he))
  · exact Nat.lt_of_lt_of_le ((h' a ha).run _ _ _ e2 hb he) (hm.step _ _ _ e1).rest

theorem str_skip (hm : Mon m) (h' : ∀ a, Str b (k a) g) : Str b (m >>= k) g := by
  refine ⟨fun s c s' e hb he => ?_⟩
  obtain ⟨a, s1, e1, e2⟩ := bind_some e
  exact Nat.lt_of_lt_of_le ((h' a).run _ _ _ e2 hb he) (hm.step _ _ _ e1).rest

theorem str_pure {a : α} (h : Str b (k a) g) : Str b (pure a >>= k) g := h

instance (priority := low) str_nev [h : Nev m g1] : Str b m g1 :=
  ⟨fun s a s' e ha _ => absurd ha (h.run s a s' e)⟩

theorem nev_pure {a : α} (h : ¬ g1 a) : Nev (pure a : M α) g1 := by
  refine ⟨fun s c s' e => ?_⟩
  cases e
  exact h

theorem nev_right (h' : ∀ a, Nev (k a) g) : Nev (m >>= k) g := by
  refine ⟨fun s c s' e => ?_⟩
  obtain ⟨a, s1, e1, e2⟩ := bind_some e
  exact (h' a).run _ _ _ e2

theorem nev_case (h : Nev m g1) (h' : ∀ a, ¬ g1 a → Nev (k a) g) : Nev (m >>= k) g := by
  refine ⟨fun s c s' e => ?_⟩
  obtain ⟨a, s1, e1, e2⟩ := bind_some e
  exact (h' a (h.run _ _ _ e1)).run _ _ _ e2

theorem ok_right (h' : ∀ a, Ok (k a) g) : Ok (m >>= k) g := by
  refine ⟨fun s c s' e => ?_⟩
  obtain ⟨a, s1, e1, e2⟩ := bind_some e
  exact (h' a).run _ _ _ e2

instance (priority := low) ok_nev [h : Nev m g1] : Ok m g1 :=
  ⟨fun s a s' e ha => absurd ha (h.run s a s' e)⟩

/-- The same for certain remaining tokens. -/
def StrAt {α : Type} (b : Bool) (P : List Tok → Prop) (m : M α) (g : α → Prop) : Prop :=
  ∀ s a s', P s.rest → m s = some (a, s') → g a → (b = true → s'.err = false) → s'.len < s.len

/-- There is a next token. -/
def more (ts : List Tok) : Prop := ts ≠ []

theorem str_read {f : St → α} {P : α → List Tok → Prop} (hP : ∀ s, P (f s) s.rest)
    (h' : ∀ a, StrAt b (P a) (k a) g) : Str b (read f >>= k) g := by
  refine ⟨fun s c s' e hb he => ?_⟩
  obtain ⟨a, s1, e1, e2⟩ := bind_some e
  cases e1
  exact h' _ _ _ _ (hP _) e2 hb he

theorem at_str {P : List Tok → Prop} [h : Str b m g1] : StrAt b P m g1 := fun s a s' _ => h.run s a s'

theorem at_false {P : List Tok → Prop} (h : ∀ ts, ¬ P ts) : StrAt b P m g1 :=
  fun s _ _ hp => absurd hp (h s.rest)

theorem at_easy {P : List Tok → Prop} [h : Easy m] (h' : ∀ a, StrAt b P (k a) g) :
    StrAt b P (m >>= k) g := by
  intro s c s' hp e hb he
  obtain ⟨a, s1, e1, e2⟩ := bind_some e
  obtain ⟨a1, s2, e3, h1, -, -, -⟩ := h.run s
  rw [e1] at e3
  cases e3
  have := h' a s1 c s' (by rw [h1]; exact hp) e2 hb he
  simpa only [St.len, h1] using this

theorem at_first {P : List Tok → Prop} (h : StrAt b P m any) (hk : ∀ a, Mon (k a)) :
    StrAt b P (m >>= k) g := by
  intro s c s' hp e _ he
  obtain ⟨a, s1, e1, e2⟩ := bind_some e
  have hs := (hk a).step _ _ _ e2
  exact Nat.lt_of_le_of_lt hs.rest (h _ _ _ hp e1 trivial (hs.back he))

theorem at_skip (hm : Mon m) (hk : ∀ a, Mon (k a)) (h' : ∀ a, StrAt b more (k a) g) :
    StrAt b more (m >>= k) g := by
  intro s c s' hp e hb he
  obtain ⟨a, s1, e1, e2⟩ := bind_some e
  have h1 := (hm.step _ _ _ e1).rest
  have h2 := ((hk a).step _ _ _ e2).rest
  by_cases hl : s1.len < s.len
  · omega
  · have : more s1.rest := by
      intro h
      apply hp
      apply List.eq_nil_of_length_eq_zero
      have : s1.len = 0 := by simp [St.len, h]
      have : s.len = s.rest.length := rfl
      omega
    have := h' a s1 c s' this e2 hb he
    omega

theorem at_pop : StrAt b more pop any := by
  intro s a s' hp e _ _
  unfold pop at e
  split at e
  · exact absurd ‹_› hp
  · cases e
    simp [St.len, ‹s.rest = _›]

theorem str_peek {k : Tok → M β} (h0 : Str b (k eofTok) g) (h : ∀ t, StrAt b more (k t) g) :
    Str b (peek >>= k) g := by
  refine str_read (P := fun t ts => t = ts.head?.getD eofTok) (fun _ => rfl) fun t => ?_
  intro s c s' hp e hb he
  by_cases hs : s.rest = []
  · rw [hs] at hp
    cases hp
    exact h0.run _ _ _ e hb he
  · exact h t s c s' hs e hb he

theorem str_exPeek {k : Option Tok → M β} {stop : Option Nat} (h0 : Str b (k none) g)
    (h : ∀ t, StrAt b more (k (some t)) g) : Str b (exPeek stop >>= k) g := by
  refine ⟨fun s c s' e hb he => ?_⟩
  obtain ⟨a, s1, e1, e2⟩ := bind_some e
  unfold exPeek Parse.read at e1
  cases e1
  dsimp only at e2
  split at e2
  · exact h0.run _ _ _ e2 hb he
  · split at e2
    · exact h0.run _ _ _ e2 hb he
    · split at e2
      · exact h0.run _ _ _ e2 hb he
      · exact h _ s c s' (by rw [‹s.rest = _›]; simp [more]) e2 hb he

theorem at_lexIf {P : List Tok → Prop} {p : TT → Bool} (h : ∀ ts, P ts → ∃ t r, ts = t :: r ∧ p t.ty) :
    StrAt b P (lexIf p) any := by
  intro s a s' hp e _ _
  obtain ⟨t, r, h1, h2⟩ := h _ hp
  unfold lexIf at e
  simp only [h1, h2, if_true] at e
  cases e
  simp [St.len, h1]

theorem at_loop {P : List Tok → Prop} {f : α → M (α ⊕ β)} (hm : ∀ a, Mon (f a)) (n : Nat) (a : α)
    (h0 : StrAt b P (f a) any) : StrAt b P (loop n f a) g := by
  cases n with
  | zero => exact fun _ _ _ _ e => by cases e
  | succ n =>
    refine at_first h0 fun x => ?_
    cases x with
    | inl a' => exact Mon.loop hm n a'
    | inr b => infer_instance

instance (priority := low) str_ok [h : Str true m g1] [h' : Ok m g1] : Str false m g1 :=
  ⟨fun s a s' e ha _ => h.run s a s' e ha fun _ => h'.run s a s' e ha⟩

/-- Loops whose first round does not end well without consumption. -/
theorem str_loop {f : α → M (α ⊕ β)} (hm : ∀ a, Mon (f a)) (h : ∀ a, Str b (f a) goes) (n : Nat) (a : α)
    (h0 : Str b (f a) fun x => ∃ b, x = .inr b ∧ g b) : Str b (loop n f a) g := by
  refine ⟨fun s c s' e hb he => ?_⟩
  cases n with
  | zero => cases e
  | succ n =>
    obtain ⟨x, s1, e1, e2⟩ := bind_some e
    cases x with
    | inl a' =>
      have hs := (Mon.loop hm n a').step _ _ _ e2
      exact Nat.lt_of_le_of_lt hs.rest ((h a).run _ _ _ e1 rfl (hs.back he))
    | inr b' =>
      cases e2
      exact h0.run _ _ _ e1 ⟨_, rfl, hb⟩ he
end

instance nev_none : Nev parserNone isGood := by
  refine ⟨fun s a s' e => ?_⟩
  unfold parserNone Parse.read at e
  cases e
  dsimp only [isGood]
  split <;> simp

instance nev_fail : Nev parserFail isGood := by
  refine ⟨fun s a s' e => ?_⟩
  cases e
  simp [isGood]

instance ok_good : Ok parserGood isGood := by
  refine ⟨fun s a s' e h => ?_⟩
  unfold parserGood Parse.read at e
  cases e
  dsimp only [isGood] at h
  split at h <;> simp_all

instance str_lexIf {b : Bool} {p : TT → Bool} : Str b (lexIf p) isIn := by
  refine ⟨fun s a s' e h _ => ?_⟩
  unfold lexIf at e
  split at e
  · cases e
    exact absurd rfl h
  · split at e
    · cases e
      simp [St.len, ‹s.rest = _›]
    · cases e
      exact absurd rfl h

instance str_expect {ty : TT} : Str true (expect ty) any := by
  refine ⟨fun s a s' e _ he => ?_⟩
  unfold expect at e
  split at e
  · cases e
    cases he rfl
  · split at e
    · cases e
      simp [St.len, ‹s.rest = _›]
    · cases e
      cases he rfl

instance str_expectEmit {ty : TT} {d : Id} : Str true (expectEmit ty d) any := by
  unfold expectEmit
  refine str_first inferInstance fun o => ?_
  split <;> infer_instance

/-- Nothing but a success or a failure. -/
macro "vac" : tactic => `(tactic|
  first
  | infer_instance
  | (refine nev_pure ?_; simp [isGood, good1, isIn, goes, isEx]; done)
  | (refine nev_pure ?_; simp_all [isGood, good1, isIn, goes, isEx]; done)
  | (refine nev_right fun a => ?_; refine nev_pure ?_; simp [isGood, good1, isIn, goes, isEx]; done)
  | (refine nev_case (g1 := isGood) ?_ fun a h => ?_
     · infer_instance
     · (refine nev_pure ?_; simp_all [isGood, good1, isIn, goes, isEx]; done)))

/-- Go through the body of a function. -/
syntax "str" : tactic
macro_rules
  | `(tactic| str) => `(tactic|
    repeat' first
      | infer_instance
      | (refine @str_nev _ _ _ _ ?_; vac)
      | (refine str_first ?_ fun a => ?_
         · infer_instance
         · (mon; done))
      | (refine str_case (g1 := isIn) ?_ ?_ (fun a => ?_) fun a h => ?_
         · infer_instance
         · infer_instance
         · (mon; done)
         dsimp only [isIn] at h)
      | (refine str_case (g1 := isGood) ?_ ?_ (fun a => ?_) fun a h => ?_
         · infer_instance
         · infer_instance
         · (mon; done)
         dsimp only [isGood] at h)
      | (refine str_case (g1 := good1) ?_ ?_ (fun a => ?_) fun a h => ?_
         · infer_instance
         · infer_instance
         · (mon; done)
         dsimp only [good1] at h)
      | with_reducible refine str_pure ?_
      | (refine str_skip ?_ fun a => ?_
         · first | infer_instance | (mon; done))
      | (simp_all; done)
      | split
      | dsimp only)

/-- Consumption by the functions called recursively. -/
class RecStr (X : Cx) : Prop where
  expr : ∀ a, Str true (X.R.expr a) good1
  type : ∀ d ti, Str true (X.R.type d ti) isGood
  braces : ∀ d F, Str true (X.R.braces d F) isGood
  block : ∀ h t F, Str true (X.R.block h t F) good1
  stmt : ∀ d, Str true (X.R.stmt d) isGood
  decl : ∀ d F, Str true (X.R.decl d F) isGood
  root : ∀ d, Str true (X.R.root d) isGood

section
variable {X : Cx} [hM : RecMon X] [h : RecStr X] {d : Id}

instance {a : EA} : Str true (X.R.expr a) good1 := h.expr a
instance {ti : TI} : Str true (X.R.type d ti) isGood := h.type d ti
instance {F : CF} : Str true (X.R.braces d F) isGood := h.braces d F
instance {b : Id} {F : BF} : Str true (X.R.block d b F) good1 := h.block d b F
instance : Str true (X.R.stmt d) isGood := h.stmt d
instance {F : DF} : Str true (X.R.decl d F) isGood := h.decl d F
instance : Str true (X.R.root d) isGood := h.root d

instance str_semi : Str true (parserSemi d) isGood := by
  unfold parserSemi
  have := mon_semiLast
  str

instance str_attrRound {b : Bool} {l : Bool} {fin : Tok} {o : Id} {v : Nat × Option Id} :
    Str b (attrRound X l fin o v) goes := by
  unfold attrRound
  str

theorem attrPeek_head {func : Bool} {ts : List Tok} {x : Tok × List Tok} (e : attrPeek func ts = some x) :
    ∃ t r, ts = t :: r ∧ (t.ty = .attribute ∨ t.ty = .ident) := by
  unfold attrPeek attrGo at e
  cases ts with
  | nil => cases func <;> cases e
  | cons t r =>
    refine ⟨t, r, rfl, ?_⟩
    by_cases h1 : t.ty = .attribute
    · exact .inl h1
    · by_cases h2 : t.ty = .ident
      · exact .inr h2
      · simp [pAt, pOpt, pIf, is, h1, h2] at e

omit h in
theorem str_attrRound0 {l func : Bool} {fin : Tok} {o : Id} {v : Nat × Option Id} {y : Tok × List Tok} :
    StrAt true (fun ts => attrPeek func ts = some y) (attrRound X l fin o v) any := by
  unfold attrRound
  refine at_first (at_lexIf fun ts hp => ?_) fun a => ?_
  · obtain ⟨t, r, h1, h2⟩ := attrPeek_head hp
    exact ⟨t, r, h1, by simpa using h2⟩
  · mon

instance str_attributes {l f : Bool} : Str true (attributes X d l f) good1 := by
  unfold attributes
  refine str_read (P := fun a ts => attrPeek f ts = a) (fun _ => rfl) fun a => ?_
  split
  · have : Nev (parserNone >>= fun r => pure (r, (none : Option Id))) good1 := by vac
    exact at_str
  · refine at_easy fun o => ?_
    exact at_loop (fun a => inferInstance) _ _ str_attrRound0

instance str_funcArgRound {b : Bool} {rp : Nat} {pv : Option Tok} : Str b (funcArgRound X rp d pv) goes := by
  unfold funcArgRound
  refine str_peek (by dsimp only [eofTok]; str) fun t => ?_
  split
  · refine at_str (h := ?_)
    str
  refine at_skip inferInstance (fun a => by mon) fun a => ?_
  split
  · refine at_str (h := ?_)
    str
  refine at_skip inferInstance (fun a => by mon) fun co => ?_
  split
  · refine at_str (h := ?_)
    str
  refine at_skip inferInstance (fun a => by mon) fun a => ?_
  split
  · refine at_str (h := ?_)
    str
  exact at_first at_pop fun a => by mon

instance str_funcArg {rp : Nat} : Str true (funcArg X d rp) good1 := by
  unfold funcArg
  str

instance str_cppX : Str true (cppX X d) isGood := by
  unfold cppX
  refine str_skip inferInstance fun p => ?_
  split
  · str
  · refine str_skip inferInstance fun c => ?_
    refine str_skip ?_ fun _ => ?_
    · refine @mon_loop _ _ _ (fun a => ?_) _ _
      mon
    · str

instance str_cdefs : Str true (cppCdefs d) isGood := by
  unfold cppCdefs
  str

instance str_declRoot : Str true (cppDeclRoot d) isGood := by
  unfold cppDeclRoot
  str

instance str_asmOperandCpp : Str true (asmOperandCpp X d) isGood := by
  unfold asmOperandCpp
  str

instance str_asmTemplate : Str true (asmTemplate d) any := by
  unfold asmTemplate
  str

instance str_asmOperand : Str true (asmOperand X d) isGood := by
  unfold asmOperand
  str

instance str_asm : Str true (asm_ X d) isGood := by
  unfold asm_
  refine str_skip inferInstance fun p => ?_
  split
  · str
  · refine str_skip inferInstance fun c => ?_
    refine str_first inferInstance fun _ => ?_
    refine @mon_bind _ _ _ _ ?_ fun _ => ?_
    · refine @mon_loop _ _ _ (fun a => ?_) _ _
      mon
    · mon

instance str_stmtAsm : Str true (stmtAsm X d) isGood := by
  unfold stmtAsm
  str

instance str_rootAsm : Str true (rootAsm X d) isGood := by
  unfold rootAsm
  str

instance str_bracesField1 {e : Bool} : Str true (bracesField1 X e d) isGood := by
  unfold bracesField1
  str

instance str_bracesField {e : Bool} {r : Nat} : Str true (bracesField X e r d) isGood := by
  unfold bracesField
  refine str_case (g1 := isGood) ?_ ?_ (fun a => ?_) fun a h => ?_
  · refine str_loop (fun a => by mon) (fun a => by str) _ _ ?_
    str
  · refine @mon_loop _ _ _ (fun a => ?_) _ _
    mon
  · mon
  · dsimp only [isGood] at h
    rw [if_pos h]
    infer_instance

instance str_bracesElem {F : CF} {r : Nat} {c : Option (Option Nat)} : Str true (bracesElem X F r c d) good1 := by
  unfold bracesElem
  str

instance str_bracesRound {F : CF} {r : Nat} {v : Id × Option (Option Nat)} :
    Str true (bracesRound X F r d v) goes := by
  unfold bracesRound
  str

instance str_braces {F : CF} : Str true (bracesF X d F) isGood := by
  unfold bracesF
  str

instance str_funcProto {ti : TI} {f i : Bool} : Str true (funcProto X d ti f i) good1 := by
  unfold funcProto
  str

instance str_funcDecl : Str true (funcDecl X d) isGood := by
  unfold funcDecl
  str

instance str_funcImpl : Str true (funcImpl X d) isGood := by
  unfold funcImpl
  str

instance str_bitfield : Str true (declBitfield X d) isGood := by
  unfold declBitfield
  str

instance str_initParens {l r : TT} : Str true (initParens X l r d) isGood := by
  unfold initParens
  str

instance str_declInit1 {o : Option Id} : Str true (declInit1 X d o) good1 := by
  unfold declInit1
  str

instance str_declInitAssign {o : Option Id} {n : Nat} : Str true (declInitAssign X d o n) good1 := by
  unfold declInitAssign
  str

instance str_declInitRound {n : Nat} {v : Id × Option Id × Nat} : Str true (declInitRound X d n v) goes := by
  unfold declInitRound
  str

instance str_decl2 {F : DF} : Str true (decl2 X d F) isGood := by
  unfold decl2
  str

instance str_declRound {F : DF} {n : Nat} : Str true (declRound X d F n) goes := by
  unfold declRound
  str

instance str_blockRound {s : Bool} {r : Nat} {v : Tok × Nat} : Str true (blockRound X s r d v) goes := by
  unfold blockRound
  str

instance str_block {t : Id} {F : BF} : Str true (blockF X d t F) good1 := by
  unfold blockF
  str

instance str_kwExpr {ty : TT} {F : KF} : Str true (kwExpr X d ty F) isGood := by
  unfold kwExpr
  str

instance str_ifRound {u : Unit} : Str true (ifRound X d u) goes := by
  unfold ifRound
  str

instance str_if : Str true (stmtIf X d) isGood := by
  unfold stmtIf
  str

instance str_for : Str true (stmtFor X d) isGood := by
  unfold stmtFor
  str

instance str_dowhile : Str true (stmtDowhile X d) isGood := by
  unfold stmtDowhile
  str

instance str_label : Str true (stmtLabel X d) isGood := by
  unfold stmtLabel
  str

instance str_caseRound {t : Tok} {u : Unit} : Str true (caseRound X d t u) goes := by
  unfold caseRound
  str

instance str_stmtCase : Str true (stmtCase X d) isGood := by
  unfold stmtCase
  str

instance str_goto : Str true (stmtGoto d) isGood := by
  unfold stmtGoto
  str

instance str_stmtKw {ty : TT} : Str true (stmtKw X ty d) isGood := by
  unfold stmtKw
  str

instance str_stmtWord {ty : TT} : Str true (stmtWord ty d) isGood := by
  unfold stmtWord
  str

instance str_return : Str true (stmtReturn X d) isGood := by
  unfold stmtReturn
  str

instance str_stmtSemi : Str true (stmtSemi d) isGood := by
  unfold stmtSemi
  str

instance str_stmtCpp : Str true (stmtCpp X d) isGood := by
  unfold stmtCpp
  str

instance str_stmtExpr : Str true (stmtExpr X d) isGood := by
  unfold stmtExpr
  str

theorem str_alts : ∀ ms : List (M Res), (∀ m ∈ ms, Mon m) → (∀ m ∈ ms, Str true m isGood) → Str true (alts ms) isGood
  | [], _, _ => inferInstanceAs (Str true parserNone isGood)
  | m :: ms, h, h' => by
    have := h m (by simp)
    have := h' m (by simp)
    have := mon_alts ms fun m' h1 => h m' (by simp [h1])
    have := str_alts ms (fun m' h1 => h m' (by simp [h1])) fun m' h1 => h' m' (by simp [h1])
    unfold alts
    str

instance str_stmtBlock {F : BF} : Str true (X.R.block d d F >>= fun x => pure x.1) isGood := by
  str

instance str_stmt : Str true (stmtF X d) isGood := by
  unfold stmtF
  refine str_alts _ ?_ ?_
  · simp only [List.mem_cons, List.not_mem_nil, or_false, forall_eq_or_imp, forall_eq]
    refine ⟨?_, ?_, ?_, ?_, ?_, ?_, ?_, ?_, ?_, ?_, ?_, ?_, ?_, ?_, ?_, ?_, ?_⟩ <;> infer_instance
  · simp only [List.mem_cons, List.not_mem_nil, or_false, forall_eq_or_imp, forall_eq]
    refine ⟨?_, ?_, ?_, ?_, ?_, ?_, ?_, ?_, ?_, ?_, ?_, ?_, ?_, ?_, ?_, ?_, ?_⟩ <;> infer_instance

instance str_externRound {n : Nat} {u : Unit} : Str true (externRound X d n u) goes := by
  unfold externRound
  str

instance str_extern : Str true (extern_ X d) isGood := by
  unfold extern_
  str

instance str_root : Str true (rootF X d) isGood := by
  unfold rootF
  str

/-- The loop of declarations, the number of them tells about consumption. -/
theorem declLoop_str {F : DF} : ∀ (n k : Nat) (s s' : St) (r : Nat),
    loop n (declRound X d F) k s = some (r, s') → r ≠ k → (true = true → s'.err = false) → s'.len < s.len := by
  intro n
  cases n with
  | zero => intro k s s' r e; cases e
  | succ n =>
    intro k s s' r e hr he
    obtain ⟨x, s1, e1, e2⟩ := bind_some e
    have h1 : Str true (declRound X d F k) fun x => x ≠ .inr k := by
      unfold declRound
      dsimp only
      split
      all_goals
      refine str_skip (by mon) fun l => ?_
      refine str_case (g1 := isGood) inferInstance inferInstance (fun a => by mon) fun a h => ?_
      dsimp only [isGood] at h
      rw [if_pos h]
      refine str_skip inferInstance fun _ => ?_
      exact @str_nev _ _ _ _ (nev_pure (by simp))
    cases x with
    | inl a' =>
      have hs := (Mon.loop (fun a => inferInstance) n a').step _ _ _ e2
      exact Nat.lt_of_le_of_lt hs.rest (h1.run _ _ _ e1 (by simp) (hs.back he))
    | inr b =>
      cases e2
      exact h1.run _ _ _ e1 (by simpa using hr) he

instance str_decl {F : DF} : Str true (declF X d F) isGood := by
  unfold declF
  refine str_skip inferInstance fun dc => ?_
  have h1 : Str true (loop X.n (declRound X dc F) 0) fun r => r ≠ 0 :=
    ⟨fun s a s' e ha he => declLoop_str X.n 0 s s' a e ha he⟩
  refine str_case h1 inferInstance (fun a => by mon) fun a h => ?_
  rw [if_pos (by simpa using h)]
  str

/-! ## Expressions -/

theorem str_withRoot {α : Type} {m : Id → M α} {g : α → Prop} (h : ∀ d, Str true (m d) g) :
    Str true (withRoot m) fun x => g x.1 := by
  refine ⟨fun s a s' e ha he => ?_⟩
  unfold withRoot at e
  split at e
  · cases e
  · cases e
    rename_i e1
    have := (h _).run _ _ _ e1 ha he
    exact this

instance {ti : TI} : Str true (withRoot fun d => X.R.type d ti) good1 := str_withRoot fun d => h.type d ti

instance str_recoverType {ti : TI} : Str true (recoverType X ti) isIn := by
  unfold recoverType
  str

instance str_recoverCast : Str true (exprRecoverCast X) isIn := by
  unfold exprRecoverCast
  str

instance str_recoverBraces : Str true (recoverBraces X) isIn := by
  refine ⟨fun s o s' e ho he => ?_⟩
  unfold recoverBraces at e
  split at e
  · cases e
  · rename_i r ts s1 e1
    have h1 := (mon_withRoot (h := fun d => hM.braces d { dedent := true })).step _ _ _ e1
    split at e
    · cases e
      exact (str_withRoot fun d => h.braces d { dedent := true }).run _ _ _ e1 ‹_› he
    · split at e
      · split at e
        · cases e
        · rename_i r' _ ts' s2 e2
          have h2 := (str_withRoot fun d => h.block d d { gnu := true }).run _ _ _ e2
          split at e
          · cases e
            exact Nat.lt_of_lt_of_le (h2 ‹_› he) h1.restore.rest
          · cases e
            exact absurd rfl ho
      · cases e
        exact absurd rfl ho

theorem at_popDoc : StrAt true more popDoc any := by
  unfold popDoc
  exact at_first at_pop fun _ => by mon

instance str_recover : Str true (exprRecover X) isIn := by
  unfold exprRecover
  refine str_skip inferInstance fun ti => ?_
  split
  · infer_instance
  refine str_peek ?_ fun t => ?_
  · dsimp only [eofTok]
    rw [if_neg (by decide), if_neg (by decide), if_neg (by decide)]
    str
  split
  · refine at_skip inferInstance (fun _ => by mon) fun lp => ?_
    refine at_skip inferInstance (fun _ => by mon) fun co => ?_
    split
    · exact at_first at_popDoc fun _ => by mon
    · exact at_first at_pop fun _ => by mon
  split
  · exact at_str
  split
  · exact at_first at_popDoc fun _ => by mon
  · refine at_str (h := ?_)
    str

instance str_callback {m : M (Option (List (Option Tok)))} [hm : Mon m] [hs : Str true m isIn] : Str true (callback m) isIn := by
  unfold callback
  str

section
variable {f : Par} [hf : ∀ pc, Mon (f pc)]

omit h in
theorem str_popNud {r : Rule} : StrAt true more (pop >>= nud X f r) isEx :=
  at_first at_pop fun _ => inferInstance

instance str_operand {stop : Option Nat} : Str true (operand X stop f) isEx := by
  have := @mon_recover' X
  unfold operand
  refine str_exPeek ?_ fun t => ?_
  · str
  dsimp only
  split
  · refine at_str (h := ?_)
    str
  split
  · intro s a s' hp e ha he
    obtain ⟨c, s1, e1, e2⟩ := bind_some e
    cases c with
    | some ts =>
      cases e2
      have hc : Str true (callback (exprRecover X)) isIn := inferInstance
      exact hc.run _ _ _ e1 (by simp [isIn]) he
    | none =>
      exact at_skip (k := fun _ => pop >>= nud X f _) (g := isEx) this (fun _ => inferInstance)
        (fun _ => str_popNud) s a s' hp (by rw [bind_of e1]; exact e2) ha he
  · exact str_popNud

instance str_exLoop {b : Bool} {stop : Option Nat} {pc : Nat} {ex : Ex} : Str b (exLoop stop f pc ex) goes := by
  unfold exLoop
  refine str_exPeek ?_ fun t => ?_
  · str
  dsimp only
  split
  · refine at_str (h := ?_)
    str
  split
  · refine at_str (h := ?_)
    str
  exact at_first at_pop fun _ => by mon
end

instance str_exec1 {stop : Option Nat} {n pc : Nat} : Str true (exec1 X stop n pc) isEx := by
  cases n with
  | zero => exact ⟨fun _ _ _ e => by cases e⟩
  | succ n =>
    rw [exec1]
    refine str_skip inferInstance fun p => ?_
    refine str_case (g1 := isEx) inferInstance inferInstance (fun a => by mon) fun x h => ?_
    dsimp only [isEx] at h
    rw [Classical.not_not] at h
    dsimp only
    rw [if_pos h]
    str

instance str_exprExec {a : EA} : Str true (exprExec X a) isIn := by
  unfold exprExec
  refine str_case (g1 := isEx) inferInstance inferInstance (fun a => by mon) fun x h => ?_
  dsimp only [isEx] at h
  rw [Classical.not_not] at h
  refine str_skip inferInstance fun e => ?_
  rw [if_pos (.inl h)]
  str

instance str_expr {a : EA} : Str true (exprF X a) good1 := by
  unfold exprF
  str

end
end Knfmt.Parse
