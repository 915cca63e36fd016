import Verif.Stream.Props
/-! # Consuming, searching and expecting tokens (C55, C56) -/
namespace Knfmt.Spec

open Knfmt.Stream

/-- No token that starts a branch is at, or right after, the read position. -/
def NoBranch (S : Stream) (tk : Option Nat) : Prop :=
  ∀ p, tk = some p → S.branch p = false ∧ S.branch (p + 1) = false

end Knfmt.Spec

namespace Knfmt.Stream

open Knfmt.Lexer (TT Flags)
open Knfmt.Spec (StreamOk View EvenNesting NoBranch)

/-! ## What is peeked at is what is consumed -/

/-- **C55.** Away from branches, popping delivers the token that peeking delivers and moves
onto it. -/
theorem pop_what_was_peeked (S : Stream) (l : Lx) (h : NoBranch S l.st.tk) :
    ∃ t, (peek S l).2 = some t ∧ pop S l = (l.at (some t), some t) := by
  cases hp : l.st.tk with
  | none => exact ⟨0, by simp [peek, pop, peekEnter, hp], by simp [pop, hp]⟩
  | some p =>
    obtain ⟨h1, h2⟩ := h p hp
    by_cases he : S.type p = .eof
    · refine ⟨p, by simp [peek, pop, peekEnter, hp, he], ?_⟩
      rw [← hp, at_self]
      simp [pop, hp, he]
    · exact ⟨p + 1, by simp [peek, pop, peekEnter, hp, he, h2], by simp [pop, hp, he, h1, h2]⟩

/-- **C55.** Away from branches, `lexer_if` consumes a token exactly if `lexer_peek_if`
delivers it, and otherwise leaves the lexer as it is. -/
theorem if_what_was_peeked (S : Stream) (l : Lx) (h : NoBranch S l.st.tk) (type : TT) :
    ifType S type l = match (peekIf S type l).2 with
      | none => (l, none)
      | some t => (l.at (some t), some t) := by
  obtain ⟨t, h1, h2⟩ := pop_what_was_peeked S l h
  simp only [ifType, h2, peekIf, h1, Option.filter_some]
  by_cases ht : S.type t = type
  · simp [ht]
  · simp [ht]

/-- **C55.** The same for `lexer_if_flags`. -/
theorem if_flags_what_was_peeked (S : Stream) (l : Lx) (h : NoBranch S l.st.tk)
    (f : Flags → Bool) :
    ifFlags S f l = match (peekIfFlags S f l).2 with
      | none => (l, none)
      | some t => (l.at (some t), some t) := by
  obtain ⟨t, h1, h2⟩ := pop_what_was_peeked S l h
  have hs := peek_same S l
  simp only [ifFlags, peekIfFlags, h1, hs, Option.filter_some]
  by_cases ht : f (S.flags t) = true
  · simp [ht, h2]
  · simp [ht]

/-- **C55.** Once it is on a token that starts a branch, other than the end of file, the
lexer consumes nothing more and reports nothing. -/
theorem halted_on_branch (S : Stream) (l : Lx) (h0 : l.peek = 0) (p : Nat)
    (hp : l.st.tk = some p) (hb : S.branch p = true) (he : S.type p ≠ .eof) :
    pop S l = (l, none) ∧ (∀ t, ifType S t l = (l, none)) ∧ (∀ f, (ifFlags S f l) = (l, none)) ∧
    (∀ t, until_ S t l = (l, none)) ∧ (∀ t, expect S t l = (l, none)) := by
  have hpop : pop S l = (l, none) := by simp [pop, hp, he, h0, hb]
  have hif : ∀ t, ifType S t l = (l, none) := fun t => by simp [ifType, hpop]
  refine ⟨hpop, hif, fun f => ?_, fun t => by simp [until_, hpop], fun t => ?_⟩
  · have hs := peekIfFlags_same S f l
    unfold ifFlags
    split
    · rename_i hq; rw [hq] at hs; dsimp only at hs; rw [hs]
    · rename_i hq; rw [hq] at hs; dsimp only at hs; rw [hs]; exact hpop
  · simp [expect, hif, peek_same, expectError, back, hp, hb]

/-- **C55.** Right before a token that starts a branch, an attempt to consume moves onto
that token and fails: this is how the parser learns of a branch. -/
theorem halts_at_branch (S : Stream) (l : Lx) (h0 : l.peek = 0) (p : Nat)
    (hp : l.st.tk = some p) (hb : S.branch p = false) (hb1 : S.branch (p + 1) = true)
    (he : S.type p ≠ .eof) (type : TT) :
    pop S l = (l.at (some (p + 1)), none) ∧ ifType S type l = (l.at (some (p + 1)), none) := by
  have : pop S l = (l.at (some (p + 1)), none) := by simp [pop, hp, he, h0, hb, hb1]
  exact ⟨this, by simp [ifType, this]⟩

/-- A file that ends in a branch: `a`, then the end of file carrying the directives. -/
def endsInBranch : Stream where
  toks := [⟨.ident, {}, []⟩, ⟨.eof, { branch := true }, []⟩]
  eob := fun p => p

/-- The exception of `halted_on_branch` is needed: on the end of file token the first attempt
fails, the second delivers it. -/
theorem end_of_file_halts_once :
    let l : Lx := { st := { tk := some 0 } }
    (pop endsInBranch l).2 = none ∧ (pop endsInBranch (pop endsInBranch l).1).2 = some 1 := by
  decide

/-! ## Searching -/

/-- **C55.** `lexer_until` delivers the first token ahead of the given type and moves onto
it. It fails exactly if there is none. -/
theorem until_first {S : Stream} (ok : StreamOk S) {ty : TT} (hty : ty ≠ .eof) (l : Lx)
    (xs : List Nat) (v : View S (decide (l.peek > 0)) l.st.tk xs) :
    (∀ r, (until_ S ty l).2 = some r ↔ ∃ pre rest, xs = pre ++ r :: rest ∧ S.type r = ty ∧
      ∀ x ∈ pre, S.type x ≠ ty) ∧
    (∀ r, (until_ S ty l).2 = some r → (until_ S ty l).1 = l.at (some r)) := by
  induction xs generalizing l with
  | nil =>
    have : (until_ S ty l).2 = none := by
      rw [until_]
      rcases pop_nil rfl v with h | ⟨p, h, he⟩
      · generalize pop S l = z at h ⊢
        obtain ⟨z1, z2⟩ := z
        dsimp only at h
        subst h
        rfl
      · simp [h, he]
    rw [this]
    simp
  | cons x ys ih =>
    obtain ⟨h1, h2⟩ := pop_cons rfl v
    by_cases he : S.type x = .eof
    · have := View.eof_nil he h2
      subst this
      have : (until_ S ty l).2 = none := by rw [until_, h1]; simp [he]
      rw [this]
      refine ⟨fun r => ⟨by simp, ?_⟩, by simp⟩
      rintro ⟨pre, rest, e, hr, _⟩
      cases pre with
      | nil =>
        simp only [List.nil_append, List.cons.injEq] at e
        exact absurd (hr.symm.trans (e.1 ▸ he)) hty
      | cons => simp at e
    · by_cases ht : S.type x = ty
      · have : until_ S ty l = (l.at (some x), some x) := by
          rw [until_, h1]
          simp only [if_neg he, if_pos ht]
        rw [this]
        refine ⟨fun r => ⟨?_, ?_⟩, ?_⟩
        · intro h
          simp only [Option.some.injEq] at h
          subst h
          exact ⟨[], ys, rfl, ht, by simp⟩
        · rintro ⟨pre, rest, e, hr, hpre⟩
          cases pre with
          | nil => simp at e; simp [e.1]
          | cons y pre =>
            simp at e
            exact absurd (e.1 ▸ ht) (hpre y (by simp))
        · intro r h; simp at h; simp [h]
      · have hleft := pop_left ok h1 he
        have : until_ S ty l = until_ S ty (l.at (some x)) := by
          rw [until_, h1]
          simp only [if_neg he, if_neg ht, dif_pos hleft]
        rw [this]
        obtain ⟨i1, i2⟩ := ih (l.at (some x)) h2
        refine ⟨fun r => (i1 r).trans ⟨?_, ?_⟩, fun r h => by simpa using i2 r h⟩
        · rintro ⟨pre, rest, rfl, hr, hpre⟩
          refine ⟨x :: pre, rest, rfl, hr, ?_⟩
          intro y hy
          rcases List.mem_cons.mp hy with rfl | hy
          · exact ht
          · exact hpre y hy
        · rintro ⟨pre, rest, e, hr, hpre⟩
          cases pre with
          | nil =>
            simp at e
            exact absurd (e.1 ▸ hr) ht
          | cons y pre =>
            simp at e
            exact ⟨pre, rest, e.2, hr, fun z hz => hpre z (by simp [hz])⟩

/-- **C55.** Peeking for a token delivers the first one of the given type ahead. -/
theorem peek_until_first {S : Stream} (ok : StreamOk S) {ty : TT} (hty : ty ≠ .eof) (l : Lx)
    (xs : List Nat) (v : View S true l.st.tk xs) (r : Nat) :
    (peekUntil S ty l).2 = some r ↔ ∃ pre rest, xs = pre ++ r :: rest ∧ S.type r = ty ∧
      ∀ x ∈ pre, S.type x ≠ ty :=
  (until_first ok hty (peekEnter l) xs (by simpa [peekEnter] using v)).1 r

/-- The nesting before a position as the loop counts it. -/
def nestOf (n : Int) (ts : List TT) : Int := ts.foldl (fun n t => nestStep t n) n

theorem nestOf_count (ts : List TT) (n : Int) :
    nestOf n ts = n + ts.countP (fun t => t = .lparen ∨ t = .lbrace)
      - ts.countP (fun t => t = .rparen ∨ t = .rbrace) := by
  induction ts generalizing n with
  | nil => simp [nestOf]
  | cons t ts ih =>
    have : nestOf n (t :: ts) = nestOf (nestStep t n) ts := rfl
    rw [this, ih]
    simp only [List.countP_cons, nestStep]
    by_cases h1 : t = .lparen ∨ t = .lbrace
    · have h2 : ¬ (t = .rparen ∨ t = .rbrace) := by rcases h1 with rfl | rfl <;> decide
      simp [h1, h2]; omega
    · by_cases h2 : t = .rparen ∨ t = .rbrace
      · simp [h1, h2]; omega
      · simp [h1, h2]

theorem nestLoop_first {S : Stream} (ok : StreamOk S) (stop : Option Nat) :
    ∀ (xs : List Nat) (n : Int) (l : Lx), 0 < l.peek → View S true l.st.tk xs → ∀ r,
    (nestLoop S .comma stop n l).2 = some r ↔ ∃ pre rest, xs = pre ++ r :: rest ∧
      (∀ x ∈ pre ++ [r], some x ≠ stop) ∧ S.type r = .comma ∧ nestOf n (pre.map S.type) = 0 ∧
      ∀ pre' x rest', pre = pre' ++ x :: rest' → ¬ (S.type x = .comma ∧ nestOf n (pre'.map S.type) = 0) := by
  intro xs
  induction xs with
  | nil =>
    intro n l hp v r
    have : (nestLoop S .comma stop n l).2 = none := by
      rw [nestLoop]
      rcases pop_nil (by simpa using hp) v with h | ⟨p, h, he⟩
      · generalize pop S l = z at h ⊢
        obtain ⟨z1, z2⟩ := z
        dsimp only at h
        subst h
        rfl
      · simp [h, he]
    rw [this]
    simp
  | cons x ys ih =>
    intro n l hp v r
    obtain ⟨h1, h2⟩ := pop_cons (by simpa using hp) v
    by_cases he : some x = stop ∨ S.type x = .eof
    · have : (nestLoop S .comma stop n l).2 = none := by
        rw [nestLoop, h1]; simp only [if_pos he]
      rw [this]
      refine ⟨by simp, ?_⟩
      rintro ⟨pre, rest, e, hs, hr, _⟩
      rcases he with he | he
      · cases pre with
        | nil => simp at e; exact absurd he (hs x (by simp [e.1]))
        | cons y pre => simp at e; exact absurd he (hs x (by simp [e.1]))
      · have := View.eof_nil he h2
        subst this
        cases pre with
        | nil => simp at e; rw [← e.1, he] at hr; cases hr
        | cons => simp at e
    · have he' := not_or.mp he
      have hleft := pop_left ok h1 he'.2
      by_cases hc : S.type x = .comma ∧ n = 0
      · have : (nestLoop S .comma stop n l).2 = some x := by
          rw [nestLoop, h1]
          simp only [if_neg he]
          rw [if_pos (by simp [hc.1, nestStep, hc.2])]
        rw [this]
        constructor
        · intro h
          simp only [Option.some.injEq] at h
          subst h
          exact ⟨[], ys, rfl, by simpa using he'.1, hc.1, by simp [nestOf, hc.2], by simp⟩
        · rintro ⟨pre, rest, e, hs, hr, hz, hpre⟩
          cases pre with
          | nil => simp at e; simp [e.1]
          | cons y pre =>
            simp at e
            exact absurd ⟨e.1 ▸ hc.1, by simp [nestOf, hc.2]⟩ (hpre [] y pre rfl)
      · have : nestLoop S .comma stop n l
            = nestLoop S .comma stop (nestStep (S.type x) n) (l.at (some x)) := by
          rw [nestLoop, h1]
          simp only [if_neg he, dif_pos hleft]
          rw [if_neg]
          rintro ⟨hc1, hc2⟩
          rw [hc1] at hc2
          exact hc ⟨hc1, by simpa [nestStep] using hc2⟩
        rw [this]
        refine (ih _ (l.at (some x)) hp h2 r).trans ⟨?_, ?_⟩
        · rintro ⟨pre, rest, rfl, hs, hr, hz, hpre⟩
          refine ⟨x :: pre, rest, rfl, ?_, hr, hz, ?_⟩
          · intro y hy
            rcases List.mem_cons.mp hy with rfl | hy
            · exact he'.1
            · exact hs y hy
          · intro pre' y rest' e
            cases pre' with
            | nil =>
              simp at e
              rw [← e.1]
              simpa [nestOf] using hc
            | cons z pre' =>
              simp at e
              rw [← e.1]
              exact hpre pre' y rest' e.2
        · rintro ⟨pre, rest, e, hs, hr, hz, hpre⟩
          cases pre with
          | nil =>
            simp at e
            exact absurd ⟨e.1 ▸ hr, by simpa [nestOf] using hz⟩ hc
          | cons y pre =>
            simp only [List.cons_append, List.cons.injEq] at e
            obtain ⟨rfl, rfl⟩ := e
            exact ⟨pre, rest, rfl, fun z hz => hs z (by simp_all), hr, hz,
              fun pre' z rest' h => hpre (x :: pre') z rest' (by simp [h])⟩

/-- **C55.** `lexer_peek_until_comma` finds the first comma ahead that has as many opening
as closing parentheses and braces before it, provided that it comes before the given token.
Otherwise it fails and delivers that token. -/
theorem peek_until_comma_first {S : Stream} (ok : StreamOk S) (stop : Option Nat) (l : Lx)
    (xs : List Nat) (v : View S true l.st.tk xs) :
    (∀ r, ((peekUntilComma S stop l).2.1 = true ∧ (peekUntilComma S stop l).2.2 = some r) ↔
      ∃ pre rest, xs = pre ++ r :: rest ∧ (∀ x ∈ pre ++ [r], some x ≠ stop) ∧
        S.type r = .comma ∧ EvenNesting (pre.map S.type) ∧
        ∀ pre' x rest', pre = pre' ++ x :: rest' →
          ¬ (S.type x = .comma ∧ EvenNesting (pre'.map S.type))) ∧
    ((peekUntilComma S stop l).2.1 = false → (peekUntilComma S stop l).2.2 = stop) := by
  have hc : ∀ ts, nestOf 0 ts = 0 ↔ EvenNesting ts := by
    intro ts
    rw [nestOf_count]
    unfold EvenNesting
    omega
  constructor
  · intro r
    have := nestLoop_first ok stop xs 0 (peekEnter l) (by simp [peekEnter]) v r
    simp only [hc] at this
    rw [← this]
    simp only [peekUntilComma, peekUntilNotNested]
    cases h : (nestLoop S .comma stop 0 (peekEnter l)).2 <;> simp
  · simp only [peekUntilComma, peekUntilNotNested]
    cases h : (nestLoop S .comma stop 0 (peekEnter l)).2 <;> simp

/-! ## Errors (C56) -/

/-- Programs that report errors only by expecting tokens. -/
def Prog.NoRawError : Prog → Prop
  | .done => True
  | .op o k => (match o with | .error => False | _ => True) ∧ ∀ r, (k r).NoRawError
  | .look body k => body.NoRawError ∧ k.NoRawError

theorem pop_error (S : Stream) (l : Lx) : (pop S l).1.st.error = l.st.error := by
  unfold pop; split <;> (repeat' split) <;> simp_all [Lx.at]

theorem until_error (S : Stream) (ty : TT) (l : Lx) :
    (until_ S ty l).1.st.error = l.st.error := by
  induction hm : left S l using Nat.strongRecOn generalizing l with
  | ind m ih =>
    subst hm
    have h1 := pop_error S l
    rw [until_]
    split
    · simp_all
    · rename_i l1 t1 hp
      rw [hp] at h1
      split
      · exact h1
      · split
        · exact h1
        · split
          · rename_i hl
            exact (ih _ hl l1 rfl).trans h1
          · exact h1

/-- What an operation may do to the error flag and the number of reports. -/
def Once (l m : Lx) : Prop :=
  (m.msgs = l.msgs ∧ (l.st.error = true → m.st.error = true)) ∨
  (m.msgs = l.msgs + 1 ∧ l.st.error = false ∧ m.st.error = true)

theorem ifType_error (S : Stream) (t : TT) (l : Lx) :
    (ifType S t l).1.st.error = l.st.error ∧ (ifType S t l).1.msgs = l.msgs := by
  have h1 := pop_error S l
  have h2 := pop_msgs S l
  unfold ifType
  split
  · rename_i hp; rw [hp] at h1 h2; exact ⟨h1, h2⟩
  · rename_i hp
    rw [hp] at h1 h2
    split
    · exact ⟨rfl, h2⟩
    · exact ⟨h1, h2⟩

theorem Op.run_once (S : Stream) (o : Op) (ho : o ≠ .error) (l : Lx) : Once l (o.run S l).1 := by
  have same : ∀ m : Lx, m.msgs = l.msgs → m.st.error = l.st.error → Once l m :=
    fun m h1 h2 => Or.inl ⟨h1, fun h => h2.trans h⟩
  cases o with
  | pop => exact same _ (pop_msgs S l) (pop_error S l)
  | back => exact same _ rfl rfl
  | ifType t => exact same _ (ifType_error S t l).2 (ifType_error S t l).1
  | peekIf t => simp only [Op.run, peekIf_same]; exact same _ rfl rfl
  | peek => simp only [Op.run, peek_same]; exact same _ rfl rfl
  | ifFlags f =>
    have h1 := peekIfFlags_same S f l
    simp only [Op.run, Stream.ifFlags]
    split
    · rename_i hp; rw [hp] at h1; dsimp only at h1; subst h1; exact same _ rfl rfl
    · rename_i l1 x hp
      rw [hp] at h1
      dsimp only at h1
      subst h1
      exact same _ (pop_msgs S _) (pop_error S _)
  | peekIfFlags f => simp only [Op.run, peekIfFlags_same]; exact same _ rfl rfl
  | ifPair a b =>
    obtain ⟨_, h⟩ := pair_consumed S a b l
    simp only [Op.run, h]
    split <;> exact same _ rfl rfl
  | peekIfPair a b => simp only [Op.run, peekIfPair_same]; exact same _ rfl rfl
  | «until» t => exact same _ (until_keeps S t l).2 (until_error S t l)
  | peekUntil t => simp only [Op.run, peekUntil_same]; exact same _ rfl rfl
  | peekUntilComma s => simp only [Op.run, peekUntilComma_same]; exact same _ rfl rfl
  | expect t =>
    obtain ⟨h1, h2⟩ := ifType_error S t l
    simp only [Op.run, Stream.expect]
    split
    · rename_i hp; rw [hp] at h1 h2; exact same _ h2 h1
    · rename_i l1 hp
      rw [hp] at h1 h2
      dsimp only at h1 h2 ⊢
      rw [peek_same]
      have herr : l1.st.error ≠ true → Once l (Stream.error l1) := by
        intro hne
        by_cases hpk : l1.peek > 0
        · exact Or.inl ⟨by simp [Stream.error, hpk, h2], fun _ => rfl⟩
        · exact Or.inr ⟨by simp [Stream.error, hpk, h2], by rw [← h1]; simpa using hne, rfl⟩
      unfold expectError
      split
      · split
        · exact same _ h2 h1
        · split
          · exact same _ h2 h1
          · rename_i hne; exact herr hne
      · split
        · exact same _ h2 h1
        · rename_i hne; exact herr hne
  | error => exact absurd rfl ho
  | seek p => exact same _ rfl rfl
  | seekAfter p => simp only [Op.run, Stream.seekAfter]; split <;> exact same _ rfl rfl

theorem Once.trans {a b c : Lx} (h1 : Once a b) (h2 : Once b c) : Once a c := by
  unfold Once at *
  rcases h1 with ⟨a1, a2⟩ | ⟨a1, a2, a3⟩ <;> rcases h2 with ⟨b1, b2⟩ | ⟨b1, b2, b3⟩
  · exact Or.inl ⟨by omega, fun h => b2 (a2 h)⟩
  · right
    refine ⟨by omega, ?_, b3⟩
    cases h : a.st.error
    · rfl
    · rw [a2 h] at b2; cases b2
  · exact Or.inr ⟨by omega, a2, b2 a3⟩
  · rw [a3] at b2; cases b2

theorem Prog.run_once (S : Stream) (g : Prog) (hg : g.NoRawError) (l : Lx) :
    Once l (g.run S l) := by
  induction g generalizing l with
  | done => exact Or.inl ⟨rfl, id⟩
  | op o k ih =>
    have ho : o ≠ .error := by
      rintro rfl
      exact hg.1
    exact (Op.run_once S o ho l).trans (ih _ (hg.2 _) _)
  | look body k ihb ihk =>
    rw [look_ahead_unobservable]
    exact ihk hg.2 l

/-- **C56.** However a program proceeds after a token it expected was missing, at most one
such error is reported until errors are reset; and none if one was reported before. -/
theorem expect_reports_once (S : Stream) (g : Prog) (hg : g.NoRawError) (l : Lx) :
    (g.run S l).msgs ≤ l.msgs + 1 ∧ (l.st.error = true → (g.run S l).msgs = l.msgs) := by
  rcases Prog.run_once S g hg l with ⟨h1, _⟩ | ⟨h1, h2, _⟩
  · exact ⟨by omega, fun _ => h1⟩
  · exact ⟨by omega, fun h => by rw [h2] at h; cases h⟩

/-- **C56.** A missing token is reported, unless a branch is ahead, the lexer is looking
ahead, or an error was reported already. -/
theorem expect_reports (S : Stream) (l : Lx) (type : TT) (h : NoBranch S l.st.tk)
    (h0 : l.peek = 0) (herr : l.st.error = false) (hm : (peekIf S type l).2 = none) :
    (expect S type l).2 = none ∧ (expect S type l).1.msgs = l.msgs + 1 ∧
    (expect S type l).1.st = { l.st with error := true } := by
  have hif := if_what_was_peeked S l h type
  rw [hm] at hif
  dsimp only at hif
  have hres : expect S type l = (Stream.error l, none) := by
    simp only [expect, hif, peek_same, expectError, back]
    cases hp : l.st.tk with
    | none => simp [herr]
    | some p => simp [herr, (h p hp).1]
  rw [hres]
  exact ⟨rfl, by simp [Stream.error, h0], rfl⟩

/-! ## Concrete cases -/

/-- `f ( a , ( b ) ) ; EOF`, and a second reading in which `b` starts a branch that ends at
the first `)`. -/
def callStream (branch : Bool) : Stream where
  toks := [⟨.ident, {}, []⟩, ⟨.lparen, {}, []⟩, ⟨.ident, {}, []⟩, ⟨.comma, {}, []⟩,
    ⟨.lparen, {}, []⟩, ⟨.ident, { branch := branch }, []⟩, ⟨.rparen, {}, []⟩,
    ⟨.rparen, {}, []⟩, ⟨.semi, {}, []⟩, ⟨.eof, {}, []⟩]
  eob := fun p => p + 1

theorem callStream_ok (b : Bool) : StreamOk (callStream b) := by
  constructor
  · refine ⟨(callStream b).toks.dropLast, ⟨.eof, {}, []⟩, rfl, rfl, ?_⟩
    cases b <;> decide
  · intro q hq hb
    refine ⟨Nat.le_succ q, ?_⟩
    cases b
    · revert q; decide
    · revert q; decide

example : View (callStream true) true (some 0) [1, 2, 3, 4, 6, 7, 8, 9] := by
  refine .next (by decide) (by decide) (by decide) (.next (by decide) (by decide) (by decide)
    (.next (by decide) (by decide) (by decide) (.next (by decide) (by decide) (by decide)
    (.jump rfl (by decide) (by decide) (.next (by decide) (by decide) (by decide)
    (.next (by decide) (by decide) (by decide) (.next (by decide) (by decide) (by decide)
    (.eof (by decide)))))))))

example : View (callStream true) false (some 0) [1, 2, 3, 4] := by
  refine .next (by decide) (by decide) (by decide) (.next (by decide) (by decide) (by decide)
    (.next (by decide) (by decide) (by decide) (.next (by decide) (by decide) (by decide)
    (.halt rfl (by decide) (by decide)))))

example : (peekIfPair (callStream false) .lparen .rparen { st := { tk := some 0 } }).2
    = some (1, 7) := by decide +kernel

example : (peekIfPair (callStream true) .lparen .rparen { st := { tk := some 0 } }).2
    = some (1, 7) := by decide +kernel

example : (peekIfPair (callStream true) .lparen .rbrace { st := { tk := some 0 } }).2
    = none := by decide +kernel

example : (peekUntilComma (callStream false) (some 7) { st := { tk := some 1 } }).2
    = (true, some 3) := by decide +kernel

example : (until_ (callStream true) .semi { st := { tk := some 0 } })
    = ({ st := { tk := some 5 } }, none) := by decide +kernel

example : (peekUntil (callStream true) .semi { st := { tk := some 0 } }).2
    = some 8 := by decide +kernel

example : Spec.Balanced .lparen .rparen
    ([2, 3, 4, 5, 6].map (callStream false).type) := by
  refine .other (by decide) (by decide) (.other (by decide) (by decide) ?_)
  exact .pair (a := [.ident]) (b := []) (.other (by decide) (by decide) .nil) .nil

/-- Read `(`, fail to find a literal, read on; then look ahead past the end of the stream. -/
def wander : Prog :=
  .look (.op (.ifType .lparen) fun _ => .op (.expect .literal) fun _ =>
    .look (.op (.until .eof) fun _ => .done) (.op .pop fun _ => .done))
  (.op (.ifType .lparen) fun r => if r.isSome then .op (.expect .literal) fun _ => .done else .done)

example : wander.run (callStream false) { st := { tk := some 0 } }
    = { st := { tk := some 1, error := true }, msgs := 1 } := by decide +kernel

end Knfmt.Stream
