import Verif.Stream.Model
/-! # Properties of consuming and looking ahead (C14, C15, C55) -/
namespace Knfmt.Spec

open Knfmt.Lexer (TT)
open Knfmt.Stream

/-- A token stream as the lexer leaves it: one end of file token, at the end; and what
follows a branch is not before it and within the stream. -/
structure StreamOk (S : Stream) : Prop where
  last : ∃ body last, S.toks = body ++ [last] ∧ last.type = .eof ∧ ∀ e ∈ body, e.type ≠ .eof
  forward : ∀ q, q < S.toks.length → S.branch q = true → q ≤ S.eob q ∧ S.eob q < S.toks.length

/-- The tokens that lie ahead of a position, in order, up to and including the end of file
token. While looking ahead (`ahead`) a token that starts a branch is replaced by the end of
the branch; while consuming, nothing lies beyond a token that starts a branch. -/
inductive View (S : Stream) (ahead : Bool) : Option Nat → List Nat → Prop where
  | start {xs} : View S ahead (some 0) xs → View S ahead none (0 :: xs)
  | eof {p} : S.type p = .eof → View S ahead (some p) []
  | halt {p} : ahead = false → S.type p ≠ .eof → (S.branch p = true ∨ S.branch (p + 1) = true) →
      View S ahead (some p) []
  | jump {p xs} : ahead = true → S.type p ≠ .eof → S.branch (p + 1) = true →
      View S ahead (some (S.eob (p + 1))) xs → View S ahead (some p) (S.eob (p + 1) :: xs)
  | next {p xs} : S.type p ≠ .eof → (ahead = false → S.branch p = false) →
      S.branch (p + 1) = false → View S ahead (some (p + 1)) xs →
      View S ahead (some p) ((p + 1) :: xs)

/-- Balanced sequences in one kind of bracket. -/
inductive Balanced (lhs rhs : TT) : List TT → Prop where
  | nil : Balanced lhs rhs []
  | other {x xs} : x ≠ lhs → x ≠ rhs → Balanced lhs rhs xs → Balanced lhs rhs (x :: xs)
  | pair {a b} : Balanced lhs rhs a → Balanced lhs rhs b →
      Balanced lhs rhs (lhs :: (a ++ rhs :: b))

/-- As many parentheses and braces are opened as are closed. -/
def EvenNesting (ts : List TT) : Prop :=
  ts.countP (fun t => t = .lparen ∨ t = .lbrace) = ts.countP (fun t => t = .rparen ∨ t = .rbrace)

end Knfmt.Spec

namespace Knfmt.Stream

open Knfmt.Lexer (TT Flags)
open Knfmt.Spec (StreamOk View Balanced EvenNesting)

/-! ## Basic facts -/

@[simp] theorem at_peek (l : Lx) (t : Option Nat) : (l.at t).peek = l.peek := rfl
@[simp] theorem at_msgs (l : Lx) (t : Option Nat) : (l.at t).msgs = l.msgs := rfl
@[simp] theorem at_tk (l : Lx) (t : Option Nat) : (l.at t).st.tk = t := rfl
@[simp] theorem at_at (l : Lx) (t u : Option Nat) : (l.at t).at u = l.at u := rfl
@[simp] theorem at_self (l : Lx) : l.at l.st.tk = l := rfl

theorem pop_peek (S : Stream) (l : Lx) : (pop S l).1.peek = l.peek := by
  unfold pop; split <;> (repeat' split) <;> simp_all

theorem pop_msgs (S : Stream) (l : Lx) : (pop S l).1.msgs = l.msgs := by
  unfold pop; split <;> (repeat' split) <;> simp_all

theorem peek_same (S : Stream) (l : Lx) : (peek S l).1 = l := by
  have h1 := pop_peek S (peekEnter l)
  have h2 := pop_msgs S (peekEnter l)
  cases l
  simp_all [peek, peekLeave, peekEnter]

theorem type_ne_eof_lt {S : Stream} {p : Nat} (h : S.type p ≠ .eof) : p < S.toks.length := by
  rcases Nat.lt_or_ge p S.toks.length with h' | h'
  · exact h'
  · simp [Stream.type, List.getElem?_eq_none h'] at h

theorem type_ne_eof_succ_lt {S : Stream} (ok : StreamOk S) {p : Nat} (h : S.type p ≠ .eof) :
    p + 1 < S.toks.length := by
  have h1 := type_ne_eof_lt h
  obtain ⟨body, last, he, hl, _⟩ := ok.last
  rcases Nat.lt_or_ge (p + 1) S.toks.length with h' | h'
  · exact h'
  · have : p = body.length := by simp [he] at h1 h'; omega
    subst this
    simp [Stream.type, he, hl] at h

theorem branch_lt {S : Stream} {p : Nat} (h : S.branch p = true) : p < S.toks.length := by
  rcases Nat.lt_or_ge p S.toks.length with h' | h'
  · exact h'
  · simp [Stream.branch, Stream.flags, List.getElem?_eq_none h'] at h

/-- Reading a token other than the end of file leaves less to read. -/
theorem pop_left {S : Stream} (ok : StreamOk S) {l l1 : Lx} {t : Nat}
    (h : pop S l = (l1, some t)) (ht : S.type t ≠ .eof) : left S l1 < left S l := by
  have hlen : 0 < S.toks.length := by
    obtain ⟨body, last, he, _⟩ := ok.last; simp [he]
  unfold pop at h
  split at h
  · rename_i hn
    obtain ⟨rfl, h2⟩ := Prod.mk.inj h
    simp [left, hn]; omega
  · rename_i p hp
    split at h
    · rename_i he
      obtain ⟨rfl, h2⟩ := Prod.mk.inj h
      cases h2; exact absurd he ht
    · rename_i he
      have hp1 := type_ne_eof_succ_lt ok he
      split at h
      · cases h
      · split at h
        · rename_i hb
          split at h
          · cases h
          · have := (ok.forward _ (branch_lt hb) hb).1
            obtain ⟨rfl, h2⟩ := Prod.mk.inj h
            simp [left, hp]; omega
        · obtain ⟨rfl, h2⟩ := Prod.mk.inj h
          simp [left, hp]; omega

theorem pop_nil {S : Stream} {l : Lx} {b : Bool} (hb : decide (l.peek > 0) = b)
    (v : View S b l.st.tk []) :
    (pop S l).2 = none ∨ ∃ p, pop S l = (l, some p) ∧ S.type p = .eof := by
  generalize hp : l.st.tk = tk at v
  cases v with
  | eof he => right; exact ⟨_, by simp [pop, hp, he], he⟩
  | halt ha he h =>
    left
    have : l.peek = 0 := by simp_all
    rcases h with h | h <;> simp [pop, hp, he, this, h]
    split <;> rfl

theorem pop_cons {S : Stream} {l : Lx} {b : Bool} {x : Nat} {ys : List Nat}
    (hb : decide (l.peek > 0) = b) (v : View S b l.st.tk (x :: ys)) :
    pop S l = (l.at (some x), some x) ∧ View S b (some x) ys := by
  generalize hp : l.st.tk = tk at v
  cases v with
  | start v => exact ⟨by simp [pop, hp], v⟩
  | jump ha he h v =>
    refine ⟨?_, v⟩
    have : l.peek ≠ 0 := by simp_all; omega
    simp [pop, hp, he, this, h]
  | next he hbr h v =>
    refine ⟨?_, v⟩
    rcases Nat.eq_zero_or_pos l.peek with h0 | h0
    · have := hbr (by simp_all)
      simp [pop, hp, he, h, this]
    · have : l.peek ≠ 0 := by omega
      simp [pop, hp, he, h, this]

theorem View.eof_nil {S : Stream} {a : Bool} {x : Nat} {ys : List Nat} (he : S.type x = .eof)
    (v : View S a (some x) ys) : ys = [] := by
  cases v <;> first | rfl | contradiction

/-- Something lies ahead of every position within the stream, in one way. -/
theorem view_exists {S : Stream} (ok : StreamOk S) (a : Bool) (tk : Option Nat)
    (h : ∀ p, tk = some p → p < S.toks.length) : ∃ xs, View S a tk xs := by
  have main : ∀ n p, S.toks.length - p = n → p < S.toks.length → ∃ xs, View S a (some p) xs := by
    intro n
    induction n using Nat.strongRecOn with
    | ind n ih =>
      intro p hn hp
      by_cases he : S.type p = .eof
      · exact ⟨[], .eof he⟩
      · have hp1 := type_ne_eof_succ_lt ok he
        by_cases hb : S.branch (p + 1) = true
        · cases ha : a
          · exact ⟨[], .halt rfl he (Or.inr hb)⟩
          · obtain ⟨f1, f2⟩ := ok.forward _ (branch_lt hb) hb
            obtain ⟨xs, hx⟩ := ih (S.toks.length - S.eob (p + 1)) (by omega) _ rfl f2
            exact ⟨_, .jump rfl he hb (ha ▸ hx)⟩
        · by_cases hh : a = false ∧ S.branch p = true
          · exact ⟨[], .halt hh.1 he (Or.inl hh.2)⟩
          · obtain ⟨xs, hx⟩ := ih (S.toks.length - (p + 1)) (by omega) _ rfl hp1
            exact ⟨_, .next he (fun h => by simp_all) (by simpa using hb) hx⟩
  cases tk with
  | some p => exact main _ p rfl (h p rfl)
  | none =>
    obtain ⟨body, last, he, _⟩ := ok.last
    obtain ⟨xs, hx⟩ := main _ 0 rfl (by simp [he])
    exact ⟨_, .start hx⟩

theorem view_unique {S : Stream} {a : Bool} {tk : Option Nat} {xs ys : List Nat}
    (h1 : View S a tk xs) (h2 : View S a tk ys) : xs = ys := by
  induction h1 generalizing ys with
  | start _ ih => cases h2 with | start v => rw [ih v]
  | eof he => cases h2 <;> first | rfl | contradiction
  | halt ha he h => cases h2 <;> simp_all
  | jump ha he hb _ ih =>
    cases h2 with
    | eof he' => contradiction
    | halt ha' => simp_all
    | jump _ _ _ v => rw [ih v]
    | next _ _ hb' => simp_all
  | next he ha hb _ ih =>
    cases h2 with
    | eof he' => contradiction
    | halt ha' _ h => simp_all
    | jump _ _ hb' => simp_all
    | next _ _ _ v => rw [ih v]

/-! ## Look ahead (C14) -/

/-- The operations of lexer.c:390-833 on the read position. -/
inductive Op where
  | pop | back
  | ifType (t : TT) | peekIf (t : TT) | peek
  | ifFlags (f : Flags → Bool) | peekIfFlags (f : Flags → Bool)
  | ifPair (a b : TT) | peekIfPair (a b : TT)
  | until (t : TT) | peekUntil (t : TT) | peekUntilComma (stop : Option Nat)
  | expect (t : TT) | error
  | seek (p : Nat) | seekAfter (p : Nat)

/-- One operation and the token it delivers. -/
def Op.run (S : Stream) : Op → Lx → Lx × Option Nat
  | .pop, l => Stream.pop S l
  | .back, l => (l, Stream.back l)
  | .ifType t, l => Stream.ifType S t l
  | .peekIf t, l => Stream.peekIf S t l
  | .peek, l => Stream.peek S l
  | .ifFlags f, l => Stream.ifFlags S f l
  | .peekIfFlags f, l => Stream.peekIfFlags S f l
  | .ifPair a b, l => let r := Stream.ifPair S a b l; (r.1, r.2.map (·.2))
  | .peekIfPair a b, l => let r := Stream.peekIfPair S a b l; (r.1, r.2.map (·.2))
  | .until t, l => until_ S t l
  | .peekUntil t, l => Stream.peekUntil S t l
  | .peekUntilComma stop, l => let r := Stream.peekUntilComma S stop l; (r.1, r.2.2)
  | .expect t, l => Stream.expect S t l
  | .error, l => (Stream.error l, none)
  | .seek p, l => (Stream.seek l p, none)
  | .seekAfter p, l => ((Stream.seekAfter S l p).1, none)

/-- Programs that use the lexer: what comes next may depend on the tokens delivered, and
`look body k` runs `body` between `lexer_peek_enter` and `lexer_peek_leave`. -/
inductive Prog where
  | done
  | op (o : Op) (k : Option Nat → Prog)
  | look (body k : Prog)

/-- Runs a program. -/
def Prog.run (S : Stream) : Prog → Lx → Lx
  | .done, l => l
  | .op o k, l => let r := o.run S l; (k r.2).run S r.1
  | .look body k, l => k.run S (peekLeave (body.run S (peekEnter l)) l.st)

theorem pairLoop_keeps (S : Stream) (a b : TT) (n : Int) (t : Option Nat) (l : Lx) :
    (pairLoop S a b n t l).1.peek = l.peek ∧ (pairLoop S a b n t l).1.msgs = l.msgs := by
  induction hm : left S l using Nat.strongRecOn generalizing l n t with
  | ind m ih =>
    subst hm
    have h1 := pop_peek S l
    have h2 := pop_msgs S l
    rw [pairLoop]
    split
    · simp_all
    · rename_i l1 t1 hp
      rw [hp] at h1 h2
      split
      · exact ⟨h1, h2⟩
      · dsimp only
        split
        · exact ⟨h1, h2⟩
        · split
          · rename_i hl
            obtain ⟨i1, i2⟩ := ih _ hl (pairStep a b (S.type t1) n) (some t1) l1 rfl
            exact ⟨i1.trans h1, i2.trans h2⟩
          · exact ⟨h1, h2⟩

theorem until_keeps (S : Stream) (ty : TT) (l : Lx) :
    (until_ S ty l).1.peek = l.peek ∧ (until_ S ty l).1.msgs = l.msgs := by
  induction hm : left S l using Nat.strongRecOn generalizing l with
  | ind m ih =>
    subst hm
    have h1 := pop_peek S l
    have h2 := pop_msgs S l
    rw [until_]
    split
    · simp_all
    · rename_i l1 t1 hp
      rw [hp] at h1 h2
      split
      · exact ⟨h1, h2⟩
      · split
        · exact ⟨h1, h2⟩
        · split
          · rename_i hl
            obtain ⟨i1, i2⟩ := ih _ hl l1 rfl
            exact ⟨i1.trans h1, i2.trans h2⟩
          · exact ⟨h1, h2⟩

theorem nestLoop_keeps (S : Stream) (ty : TT) (stop : Option Nat) (n : Int) (l : Lx) :
    (nestLoop S ty stop n l).1.peek = l.peek ∧ (nestLoop S ty stop n l).1.msgs = l.msgs := by
  induction hm : left S l using Nat.strongRecOn generalizing l n with
  | ind m ih =>
    subst hm
    have h1 := pop_peek S l
    have h2 := pop_msgs S l
    rw [nestLoop]
    split
    · simp_all
    · rename_i l1 t1 hp
      rw [hp] at h1 h2
      split
      · exact ⟨h1, h2⟩
      · dsimp only
        split
        · exact ⟨h1, h2⟩
        · split
          · rename_i hl
            obtain ⟨i1, i2⟩ := ih _ hl (nestStep (S.type t1) n) l1 rfl
            exact ⟨i1.trans h1, i2.trans h2⟩
          · exact ⟨h1, h2⟩

theorem leave_enter {l m : Lx} (h1 : m.peek = (peekEnter l).peek)
    (h2 : m.msgs = (peekEnter l).msgs) : peekLeave m l.st = l := by
  cases l; cases m
  simp_all [peekLeave, peekEnter]

theorem peekIf_same (S : Stream) (t : TT) (l : Lx) : (peekIf S t l).1 = l := peek_same S l

theorem peekIfFlags_same (S : Stream) (f : Flags → Bool) (l : Lx) : (peekIfFlags S f l).1 = l :=
  peek_same S l

theorem peekIfPair_same (S : Stream) (a b : TT) (l : Lx) : (peekIfPair S a b l).1 = l := by
  unfold peekIfPair
  have h := peekIf_same S a l
  split
  · rename_i hp; rw [hp] at h; exact h
  · rename_i l1 x hp
    rw [hp] at h
    dsimp only at h
    subst h
    have := leave_enter (pairLoop_keeps S a b 0 none (peekEnter l1)).1
      (pairLoop_keeps S a b 0 none (peekEnter l1)).2
    dsimp only
    split <;> exact this

theorem peekUntil_same (S : Stream) (t : TT) (l : Lx) : (peekUntil S t l).1 = l :=
  leave_enter (until_keeps S t _).1 (until_keeps S t _).2

theorem peekUntilComma_same (S : Stream) (stop : Option Nat) (l : Lx) :
    (peekUntilComma S stop l).1 = l :=
  leave_enter (nestLoop_keeps S .comma stop 0 _).1 (nestLoop_keeps S .comma stop 0 _).2

/-- Every operation keeps the depth of look-ahead; none reports an error while looking
ahead. -/
theorem Op.run_keeps (S : Stream) (o : Op) (l : Lx) (h : 0 < l.peek) :
    (o.run S l).1.peek = l.peek ∧ (o.run S l).1.msgs = l.msgs := by
  have hif : ∀ t, (Stream.ifType S t l).1.peek = l.peek ∧ (Stream.ifType S t l).1.msgs = l.msgs := by
    intro t
    have h1 := pop_peek S l
    have h2 := pop_msgs S l
    unfold Stream.ifType
    split
    · rename_i hp; rw [hp] at h1 h2; exact ⟨h1, h2⟩
    · rename_i hp
      rw [hp] at h1 h2
      split <;> exact ⟨h1, h2⟩
  cases o with
  | pop => exact ⟨pop_peek S l, pop_msgs S l⟩
  | back => exact ⟨rfl, rfl⟩
  | ifType t => exact hif t
  | peekIf t => simp only [Op.run, peekIf_same, and_self]
  | peek => simp only [Op.run, peek_same, and_self]
  | ifFlags f =>
    have h1 := peekIfFlags_same S f l
    simp only [Op.run, Stream.ifFlags]
    split
    · rename_i hp; rw [hp] at h1; exact ⟨congrArg Lx.peek h1, congrArg Lx.msgs h1⟩
    · rename_i l1 x hp
      rw [hp] at h1
      dsimp only at h1
      subst h1
      exact ⟨pop_peek S _, pop_msgs S _⟩
  | peekIfFlags f => simp only [Op.run, peekIfFlags_same, and_self]
  | ifPair a b =>
    have h1 := peekIfPair_same S a b l
    simp only [Op.run, Stream.ifPair]
    split
    · rename_i hp; rw [hp] at h1; exact ⟨congrArg Lx.peek h1, congrArg Lx.msgs h1⟩
    · rename_i hp
      rw [hp] at h1
      dsimp only at h1
      subst h1
      exact ⟨rfl, rfl⟩
  | peekIfPair a b => simp only [Op.run, peekIfPair_same, and_self]
  | «until» t => exact until_keeps S t l
  | peekUntil t => simp only [Op.run, peekUntil_same, and_self]
  | peekUntilComma s => simp only [Op.run, peekUntilComma_same, and_self]
  | expect t =>
    have h1 := hif t
    simp only [Op.run, Stream.expect]
    split
    · rename_i hp; rw [hp] at h1; exact h1
    · rename_i l1 hp
      rw [hp] at h1
      dsimp only at h1 ⊢
      rw [peek_same]
      have hpos : l1.peek > 0 := by omega
      unfold expectError
      split
      · split
        · exact h1
        · split
          · exact h1
          · simpa [Stream.error, hpos] using h1
      · split
        · exact h1
        · simpa [Stream.error, hpos] using h1
  | error => simp [Op.run, Stream.error, h]
  | seek p => exact ⟨rfl, rfl⟩
  | seekAfter p => simp only [Op.run, Stream.seekAfter]; split <;> exact ⟨rfl, rfl⟩

theorem Prog.run_keeps (S : Stream) (g : Prog) (l : Lx) (h : 0 < l.peek) :
    (g.run S l).peek = l.peek ∧ (g.run S l).msgs = l.msgs := by
  induction g generalizing l with
  | done => exact ⟨rfl, rfl⟩
  | op o k ih =>
    obtain ⟨h1, h2⟩ := Op.run_keeps S o l h
    obtain ⟨i1, i2⟩ := ih (o.run S l).2 (o.run S l).1 (by omega)
    exact ⟨i1.trans h1, i2.trans h2⟩
  | look body k ihb ihk =>
    obtain ⟨h1, h2⟩ := ihb (peekEnter l) (by simp [peekEnter])
    have := leave_enter h1 h2
    simp only [Prog.run, this]
    exact ihk l h

/-- **C14.** Whatever a program does between entering and leaving look-ahead - reading,
seeking, failing to find what it expects, looking ahead further - what comes after cannot
tell: the lexer is in the state it was in, the depth of look-ahead included, and no error
was reported. -/
theorem look_ahead_unobservable (S : Stream) (body k : Prog) (l : Lx) :
    (Prog.look body k).run S l = k.run S l := by
  obtain ⟨h1, h2⟩ := Prog.run_keeps S body (peekEnter l) (by simp [peekEnter])
  simp only [Prog.run, leave_enter h1 h2]

/-- **C14.** Every operation named peek leaves the lexer as it is. -/
theorem peeks_unobservable (S : Stream) (l : Lx) :
    (peek S l).1 = l ∧ (∀ t, (peekIf S t l).1 = l) ∧ (∀ f, (peekIfFlags S f l).1 = l) ∧
    (∀ a b, (peekIfPair S a b l).1 = l) ∧ (∀ t, (peekUntil S t l).1 = l) ∧
    (∀ s, (peekUntilComma S s l).1 = l) :=
  ⟨peek_same S l, fun t => peekIf_same S t l, fun f => peekIfFlags_same S f l,
    fun a b => peekIfPair_same S a b l, fun t => peekUntil_same S t l,
    fun s => peekUntilComma_same S s l⟩

/-! ## Pairs (C15) -/

/-- `n` balanced sequences with a closing bracket between each. -/
inductive Levels (lhs rhs : TT) : Nat → List TT → Prop where
  | one {b} : Balanced lhs rhs b → Levels lhs rhs 1 b
  | more {n b ys} : Balanced lhs rhs b → Levels lhs rhs n ys →
      Levels lhs rhs (n + 1) (b ++ rhs :: ys)

theorem Levels.pos {lhs rhs : TT} {n : Nat} {ys : List TT} (h : Levels lhs rhs n ys) : 0 < n := by
  cases h <;> omega

theorem Levels.eq_one {lhs rhs : TT} {ys : List TT} (h : Levels lhs rhs 1 ys) :
    Balanced lhs rhs ys := by
  generalize hg : 1 = n at h
  cases h with
  | one h => exact h
  | more _ h => have := h.pos; omega

theorem Levels.other {lhs rhs x : TT} {n : Nat} {ys : List TT} (hl : x ≠ lhs) (hr : x ≠ rhs)
    (h : Levels lhs rhs n ys) : Levels lhs rhs n (x :: ys) := by
  cases h with
  | one b => exact .one (.other hl hr b)
  | more b h => exact .more (b := x :: _) (.other hl hr b) h

theorem Levels.open {lhs rhs : TT} {n : Nat} {ys : List TT} (hn : 0 < n)
    (h : Levels lhs rhs (n + 1) ys) : Levels lhs rhs n (lhs :: ys) := by
  cases h with
  | one b => omega
  | more b h =>
    cases h with
    | one b2 => exact .one (.pair b b2)
    | more b2 h2 =>
      rename_i b1 n b' ys'
      have := Levels.more (Balanced.pair b b2) h2
      simpa using this

/-- One step of the loop that neither closes the pair nor meets the end of the stream. -/
theorem pairLoop_step {S : Stream} (ok : StreamOk S) {lhs rhs : TT} (n n' : Nat)
    (t : Option Nat) (l : Lx) (x : Nat) (ys : List Nat) (hp : 0 < l.peek)
    (v : View S true l.st.tk (x :: ys)) (hx : S.type x ≠ .eof) (hn' : 0 < n')
    (hc : pairStep lhs rhs (S.type x) n = n') :
    pairLoop S lhs rhs n t l = pairLoop S lhs rhs n' (some x) (l.at (some x)) := by
  obtain ⟨h1, _⟩ := pop_cons (by simpa using hp) v
  have hl := pop_left ok h1 hx
  rw [pairLoop, h1]
  simp only [if_neg hx, hc, dif_pos hl]
  rw [if_neg (by omega)]

/-- The loop reads a balanced sequence without changing its count. -/
theorem pairLoop_balanced {S : Stream} (ok : StreamOk S) {lhs rhs : TT} (hne : lhs ≠ rhs)
    {ts : List TT} (hb : Balanced lhs rhs ts) :
    ∀ (n : Nat) (t : Option Nat) (l : Lx) (xs ys : List Nat), 0 < n → 0 < l.peek →
      xs.map S.type = ts → ys ≠ [] → View S true l.st.tk (xs ++ ys) →
      ∃ t', pairLoop S lhs rhs n t l
          = pairLoop S lhs rhs n t' (l.at ((xs.getLast?).or l.st.tk)) ∧
        View S true ((xs.getLast?).or l.st.tk) ys := by
  have step : ∀ (n n' : Nat) (t : Option Nat) (l : Lx) (x : Nat) (ys : List Nat), 0 < l.peek →
      View S true l.st.tk (x :: ys) → ys ≠ [] → 0 < n' →
      pairStep lhs rhs (S.type x) n = n' →
      pairLoop S lhs rhs n t l = pairLoop S lhs rhs n' (some x) (l.at (some x)) ∧
      View S true (some x) ys := by
    intro n n' t l x ys hp v hy hn' hc
    obtain ⟨_, h2⟩ := pop_cons (by simpa using hp) v
    exact ⟨pairLoop_step ok n n' t l x ys hp v (fun he => hy (View.eof_nil he h2)) hn' hc, h2⟩
  induction hb with
  | nil =>
    intro n t l xs ys hn hp hm hy v
    cases xs with
    | nil => exact ⟨t, by simp, by simpa using v⟩
    | cons => simp at hm
  | @other x0 xs0 h1 h2 _ ih =>
    intro n t l xs ys hn hp hm hy v
    cases xs with
    | nil => simp at hm
    | cons x xs =>
      simp only [List.map_cons, List.cons.injEq] at hm
      obtain ⟨e1, v1⟩ := step n n t l x (xs ++ ys) hp v (by simp [hy]) hn
        (by rw [hm.1]; simp [pairStep, h1, h2])
      obtain ⟨t', e2, v2⟩ := ih n (some x) (l.at (some x)) xs ys hn hp hm.2 hy v1
      have hg : (x :: xs).getLast?.or l.st.tk = xs.getLast?.or (some x) := by
        cases xs with
        | nil => simp
        | cons y zs => simp [List.getLast?_cons]
      exact ⟨t', by rw [e1, e2, hg]; rfl, by rw [hg]; exact v2⟩
  | @pair a b _ _ iha ihb =>
    intro n t l xs ys hn hp hm hy v
    cases xs with
    | nil => simp at hm
    | cons x xs =>
      simp only [List.map_cons, List.cons.injEq] at hm
      obtain ⟨hx, hm⟩ := hm
      obtain ⟨xa, xb, rfl, ha, hb⟩ := List.map_eq_append_iff.mp hm
      cases xb with
      | nil => simp at hb
      | cons z xb =>
        simp only [List.map_cons, List.cons.injEq] at hb
        obtain ⟨hz, hb⟩ := hb
        simp only [List.cons_append, List.append_assoc] at v
        obtain ⟨e1, v1⟩ := step n (n + 1) t l x _ hp v (by simp) (by omega)
          (by rw [hx]; simp [pairStep, hne])
        obtain ⟨t1, e2, v2⟩ := iha (n + 1) (some x) (l.at (some x)) xa
          (z :: (xb ++ ys)) (by omega) hp ha (by simp) v1
        obtain ⟨e3, v3⟩ := step (n + 1) n t1 (l.at (xa.getLast?.or (some x))) z (xb ++ ys) hp v2
          (by simp [hy]) hn (by rw [hz]; simp [pairStep, hne.symm])
        obtain ⟨t2, e4, v4⟩ := ihb n (some z) (l.at (some z)) xb ys hn hp hb hy v3
        have hg : (x :: (xa ++ z :: xb)).getLast?.or l.st.tk = xb.getLast?.or (some z) := by
          simp only [List.getLast?_cons, List.getLast?_append]
          cases xb with
          | nil => simp
          | cons y zs => simp [List.getLast?_cons]
        refine ⟨t2, ?_, by rw [hg]; exact v4⟩
        rw [e1, e2, hg]
        exact e3.trans e4

/-- What the loop finds closes as many levels as it has opened. -/
theorem pairLoop_levels {S : Stream} (ok : StreamOk S) {lhs rhs : TT} (hne : lhs ≠ rhs) :
    ∀ (xs : List Nat) (n : Nat) (t : Option Nat) (l : Lx), 0 < n → 0 < l.peek →
      View S true l.st.tk xs → ∀ (r : Lx × Int × Option Nat), pairLoop S lhs rhs n t l = r →
      (0 < r.2.1) ∨ ∃ mid b rest, r.2.2 = some b ∧ xs = mid ++ b :: rest ∧ S.type b = rhs ∧
        Levels lhs rhs n (mid.map S.type) ∧ r.2.1 = 0 := by
  intro xs
  induction xs with
  | nil =>
    intro n t l hn hp v r hr
    left
    rw [pairLoop] at hr
    rcases pop_nil (by simpa using hp) v with h | ⟨p, h, he⟩
    · generalize hpop : pop S l = z at h hr
      obtain ⟨z1, z2⟩ := z
      dsimp only at h
      subst h
      dsimp only at hr
      rw [← hr]
      dsimp only; omega
    · simp only [h, he, if_true] at hr
      rw [← hr]
      dsimp only; omega
  | cons x ys ih =>
    intro n t l hn hp v r hr
    obtain ⟨h1, h2⟩ := pop_cons (by simpa using hp) v
    by_cases hx : S.type x = .eof
    · left
      rw [pairLoop, h1] at hr
      simp only [if_pos hx] at hr
      rw [← hr]; dsimp only; omega
    · have recur : ∀ n' : Nat, 0 < n' → pairStep lhs rhs (S.type x) n = n' →
          (∀ ys, Levels lhs rhs n' ys → Levels lhs rhs n (S.type x :: ys)) →
          (0 < r.2.1) ∨ ∃ mid b rest, r.2.2 = some b ∧ x :: ys = mid ++ b :: rest ∧
            S.type b = rhs ∧ Levels lhs rhs n (mid.map S.type) ∧ r.2.1 = 0 := by
        intro n' hn' hc hlev
        rw [pairLoop_step ok n n' t l x ys hp v hx hn' hc] at hr
        rcases ih n' (some x) (l.at (some x)) hn' hp h2 r hr with
          h | ⟨mid, b, rest, h, rfl, hb, hlv, h0⟩
        · exact Or.inl h
        · exact Or.inr ⟨x :: mid, b, rest, h, rfl, hb, hlev _ hlv, h0⟩
      by_cases c1 : S.type x = rhs
      · rcases Nat.lt_or_ge 1 n with h | h
        · apply recur (n - 1) (by omega)
          · rw [c1]; simp only [pairStep, if_neg hne.symm, if_true]; omega
          · intro ys hlv
            have := Levels.more (lhs := lhs) (rhs := rhs) .nil hlv
            rw [show n - 1 + 1 = n from by omega] at this
            simpa [c1] using this
        · right
          have : n = 1 := by omega
          subst this
          rw [pairLoop, h1] at hr
          simp only [if_neg hx] at hr
          rw [if_pos (by rw [c1]; simp [pairStep, hne.symm])] at hr
          exact ⟨[], x, ys, by rw [← hr], rfl, c1, .one .nil,
            by rw [← hr]; rw [c1]; simp [pairStep, hne.symm]⟩
      · by_cases c2 : S.type x = lhs
        · apply recur (n + 1) (by omega)
          · rw [c2]; simp [pairStep, hne]
          · intro ys hlv
            rw [c2]
            exact Levels.open hn hlv
        · exact recur n hn (by simp [pairStep, c1, c2]) (fun ys hlv => Levels.other c2 c1 hlv)

theorem peekIf_view {S : Stream} {ty : TT} (h : ty ≠ .eof) {l : Lx} {xs : List Nat}
    (v : View S true l.st.tk xs) :
    peekIf S ty l = (l, (xs.head?).filter (fun p => S.type p = ty)) := by
  have hs := peekIf_same S ty l
  have : (peekIf S ty l).2 = (xs.head?).filter (fun p => S.type p = ty) := by
    simp only [peekIf, peek]
    cases xs with
    | nil =>
      rcases pop_nil (l := peekEnter l) (by simp [peekEnter]) v with hv | ⟨p, hv, he⟩
      · simp [hv]
      · simp [hv, Option.filter, he, h.symm]
    | cons x ys =>
      obtain ⟨h1, _⟩ := pop_cons (l := peekEnter l) (by simp [peekEnter]) v
      simp [h1]
  rw [← this, Prod.ext_iff]
  exact ⟨hs, rfl⟩

/-- **C15.** Looking for a pair leaves the lexer alone. It delivers the tokens `a` and `b`
exactly if `a` is the next token and opens the pair, `b` closes it, and the tokens between
them are balanced; so it fails only if there is no such `b`. -/
theorem pair_matching {S : Stream} (ok : StreamOk S) {lhs rhs : TT} (hne : lhs ≠ rhs)
    (hl : lhs ≠ .eof) (hr : rhs ≠ .eof) (l : Lx) (xs : List Nat) (v : View S true l.st.tk xs) :
    (peekIfPair S lhs rhs l).1 = l ∧
    ∀ a b, (peekIfPair S lhs rhs l).2 = some (a, b) ↔
      ∃ mid rest, xs = a :: (mid ++ b :: rest) ∧ S.type a = lhs ∧ S.type b = rhs ∧
        Balanced lhs rhs (mid.map S.type) := by
  refine ⟨peekIfPair_same S lhs rhs l, fun a b => ?_⟩
  have hif := peekIf_view (S := S) hl v
  unfold peekIfPair
  cases xs with
  | nil =>
    simp only [hif, List.head?_nil, Option.filter_none]
    simp
  | cons x ys =>
    obtain ⟨h1, h2⟩ := pop_cons (l := peekEnter l) (by simp [peekEnter]) v
    by_cases hx : S.type x = lhs
    · have hx' : S.type x ≠ .eof := by rw [hx]; exact hl
      simp only [hif, List.head?_cons, Option.filter_some, hx, decide_true, if_true]
      have hloop : pairLoop S lhs rhs 0 none (peekEnter l)
          = pairLoop S lhs rhs (1 : Nat) (some x) ((peekEnter l).at (some x)) :=
        pairLoop_step ok 0 1 none (peekEnter l) x ys (by simp [peekEnter]) v hx' (by omega)
          (by rw [hx]; simp [pairStep, hne])
      rw [hloop]
      constructor
      · intro h
        rcases pairLoop_levels ok hne ys 1 (some x) ((peekEnter l).at (some x)) (by omega)
          (by simp [peekEnter]) h2 _ rfl with h0 | ⟨mid, b', rest, e, rfl, hb, hlev, h0⟩
        · rw [if_pos h0] at h; simp at h
        · rw [if_neg (by omega), e] at h
          simp only [Option.map_some, Option.some.injEq, Prod.mk.injEq] at h
          obtain ⟨rfl, rfl⟩ := h
          refine ⟨mid, rest, rfl, hx, hb, ?_⟩
          exact hlev.eq_one
      · rintro ⟨mid, rest, e, ha, hb, hbal⟩
        simp only [List.cons.injEq] at e
        obtain ⟨rfl, rfl⟩ := e
        obtain ⟨t', e2, v2⟩ := pairLoop_balanced ok hne hbal 1 (some x)
          ((peekEnter l).at (some x)) mid (b :: rest) (by omega) (by simp [peekEnter]) rfl
          (by simp) h2
        obtain ⟨h3, _⟩ := pop_cons (S := S)
          (l := (peekEnter l).at (mid.getLast?.or (some x))) (by simp [peekEnter]) v2
        have hbe : S.type b ≠ .eof := by rw [hb]; exact hr
        have hfin : pairLoop S lhs rhs (1 : Nat) t' ((peekEnter l).at (mid.getLast?.or (some x)))
            = ((peekEnter l).at (some b), 0, some b) := by
          rw [pairLoop, h3]
          have hz : pairStep lhs rhs (S.type b) (1 : Nat) = 0 := by
            rw [hb]; simp [pairStep, hne.symm]
          simp only [if_neg hbe, hz, if_true, at_at]
        have hall := e2.trans hfin
        simp only [hall]
        simp
    · simp only [hif, List.head?_cons, Option.filter_some, hx, decide_false]
      simp only [Bool.false_eq_true, if_false]
      constructor
      · intro h; simp at h
      · rintro ⟨mid, rest, e, ha, _⟩
        simp only [List.cons.injEq] at e
        exact absurd (e.1 ▸ ha) hx

/-- **C15.** Consuming a pair delivers the same tokens and leaves the lexer on the closing
one; if there is no pair, the lexer stays where it is. -/
theorem pair_consumed (S : Stream) (lhs rhs : TT) (l : Lx) :
    (ifPair S lhs rhs l).2 = (peekIfPair S lhs rhs l).2 ∧
    (ifPair S lhs rhs l).1 = match (peekIfPair S lhs rhs l).2 with
      | none => l
      | some (_, b) => (l.at (some b)) := by
  have h := peekIfPair_same S lhs rhs l
  unfold ifPair
  split
  · rename_i hp; rw [hp] at h ⊢; exact ⟨rfl, h⟩
  · rename_i hp
    rw [hp] at h ⊢
    dsimp only at h
    subst h
    exact ⟨rfl, rfl⟩

/-- **C55.** After seeking to a token, that token is the next one delivered, unless it or
the one before it is the start of a branch or the end of the file. -/
theorem seek_pop (S : Stream) (l : Lx) (p : Nat) (hb : S.branch p = false)
    (hp : p ≠ 0 → S.branch (p - 1) = false ∧ S.type (p - 1) ≠ .eof) :
    (pop S (seek l p)).2 = some p := by
  unfold seek pop
  by_cases h : p = 0
  · simp [h, Lx.at]
  · have := hp h
    have e : p - 1 + 1 = p := by omega
    simp [h, Lx.at, this.1, this.2, e, hb]

/-- **C55.** Seeking after the last token is refused; otherwise the token after the given
one is the next one delivered. -/
theorem seek_after_pop (S : Stream) (l : Lx) (p : Nat) (hb : S.branch (p + 1) = false)
    (hp : S.branch p = false ∧ S.type p ≠ .eof) :
    ((seekAfter S l p).2 = true ↔ p + 1 < S.toks.length) ∧
      ((seekAfter S l p).2 = true → (pop S (seekAfter S l p).1).2 = some (p + 1)) := by
  unfold seekAfter
  split
  · next h => exact ⟨by simp [h], fun _ => seek_pop S l (p + 1) hb fun _ => hp⟩
  · next h => simp [h]

end Knfmt.Stream
