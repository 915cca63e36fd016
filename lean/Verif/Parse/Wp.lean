import Verif.Parse.Drop
import Verif.Parse.Model
/-!
# The parser: reasoning about a run

`Cur s0 s p xs` relates the state `s0` in which a function was called to a later state `s`: the
tokens consumed in between have been emitted in order, except for redundant semicolons and for the
pending ones `p`, and `xs` are documents that are still open at the end of the document, innermost
first. All of it is claimed as long as no error was found and none of the recorded things happened,
`ok`. `Eat` is the same for functions that do not touch the document.
-/
namespace Knfmt.Parse
open Knfmt.Lexer (TT)
open Knfmt.Parse.Spec (ends Tidy Tidy')

/-! ## Documents -/

/-- The containers closed. -/
def closes (L : List Ev) : List Id := L.filterMap fun
  | .cls d => some d
  | _ => none

/-- The containers opened. -/
def opens (L : List Ev) : List Id := L.filterMap fun
  | .opn d _ => some d
  | _ => none

theorem mem_closes {d : Id} {L : List Ev} : d ∈ closes L ↔ Ev.cls d ∈ L := by
  simp only [closes, List.mem_filterMap]
  constructor
  · rintro ⟨x, hx, h⟩
    cases x <;> simp_all
  · intro h; exact ⟨_, h, rfl⟩

theorem mem_opens {d : Id} {L : List Ev} : d ∈ opens L ↔ ∃ k, Ev.opn d k ∈ L := by
  simp only [opens, List.mem_filterMap]
  constructor
  · rintro ⟨x, hx, h⟩
    cases x <;> simp_all
    exact ⟨_, hx⟩
  · rintro ⟨k, h⟩; exact ⟨_, h, rfl⟩

theorem closes_append (a b : List Ev) : closes (a ++ b) = closes a ++ closes b := by
  simp [closes]

theorem opens_append (a b : List Ev) : opens (a ++ b) = opens a ++ opens b := by
  simp [opens]

theorem toks_append (a b : List Ev) : toks (a ++ b) = toks a ++ toks b := by
  simp [toks]

@[simp] theorem toks_nil : toks [] = [] := rfl

theorem toks_cons (x : Ev) (b : List Ev) : toks (x :: b) = x.toks ++ toks b := by
  simp [toks]

theorem solid_append (a b : List (Option Tok)) : solid (a ++ b) = solid a ++ solid b := by
  simp [solid]

theorem solid_items : ∀ L : List Ev, solid (items L) = toks L
  | [] => rfl
  | x :: L => by
    have e : items (x :: L) = x.items ++ items L := by simp [items]
    rw [toks_cons, e, solid_append, solid_items L]
    congr 1
    cases x with
    | lay i k => cases k <;> rfl
    | _ => rfl

/-! ## Two readings

The same proof is used for two claims: `strict` is about all tokens, as long as no semicolon has been
misplaced; the other one is about all tokens but semicolons and needs no such assumption. -/

/-- Which claim is made. -/
class Mode where
  strict : Bool

variable [Mode]

/-- The tokens the claim is about. -/
def kf (ts : List Tok) : List Tok := ts.filter fun t => Mode.strict || decide (t.ty ≠ .semi)

/-- The tokens of a document the claim is about. -/
def ktoks (L : List Ev) : List Tok := kf (toks L)

theorem kf_append (a b : List Tok) : kf (a ++ b) = kf a ++ kf b := by
  simp [kf]

theorem ktoks_append (a b : List Ev) : ktoks (a ++ b) = ktoks a ++ ktoks b := by
  simp [ktoks, toks_append, kf]

@[simp] theorem kf_nil : kf [] = [] := rfl

@[simp] theorem ktoks_nil : ktoks [] = [] := rfl

theorem ktoks_cons (x : Ev) (b : List Ev) : ktoks (x :: b) = kf x.toks ++ ktoks b := by
  simp [ktoks, toks_cons, kf]

theorem ktoks_of {L : List Ev} (h : toks L = []) : ktoks L = [] := by simp [ktoks, h]

theorem kf_strict (h : Mode.strict = true) (l : List Tok) : kf l = l := by
  simp [kf, h]

theorem kf_loose (h : ¬ Mode.strict = true) (l : List Tok) :
    kf l = l.filter fun t => decide (t.ty ≠ .semi) := by
  simp [kf, h]

/-- Without semicolons. -/
def noSemi (ts : List Tok) : List Tok := ts.filter fun t => decide (t.ty ≠ .semi)

/-- The relation between consumed and emitted tokens. -/
def Rel (q : Bool) (a b : List Tok) : Prop :=
  (Mode.strict = true → Tidy' q a b) ∧ noSemi b = noSemi a

theorem Rel.of {q : Bool} {a b : List Tok} (h : Tidy' q a b) : Rel q a b := ⟨fun _ => h, h.filter⟩

theorem Rel.refl (q : Bool) (a : List Tok) : Rel q a a := .of (Tidy'.refl q a)

theorem Rel.nil (q : Bool) : Rel q [] [] := .of (.nil q)

theorem Rel.append {q : Bool} {a b x y : List Tok} (h : Rel q a b)
    (h' : Rel (Tidy'.ctxAfter q a) x y) : Rel q (a ++ x) (b ++ y) := by
  refine ⟨fun m => (h.1 m).append (h'.1 m), ?_⟩
  have h1 := h.2
  have h2 := h'.2
  unfold noSemi at h1 h2 ⊢
  rw [List.filter_append, List.filter_append, h1, h2]

theorem Rel.trans {q : Bool} {a b c : List Tok} (h : Rel q a b) (h' : Rel q b c) : Rel q a c :=
  ⟨fun m => (h.1 m).trans (h'.1 m), h'.2.trans h.2⟩

theorem Rel.kf_nil {q : Bool} {a b : List Tok} (h : Rel q a b) (hb : kf b = []) : Rel q a [] := by
  by_cases hm : Mode.strict = true
  · rw [kf_strict hm] at hb
    rwa [hb] at h
  · rw [kf_loose hm] at hb
    exact ⟨fun m => absurd m hm, hb.symm.trans h.2⟩

theorem Rel.mem {q : Bool} {a b : List Tok} (h : Rel q a b) {t : Tok} (ht : t ∈ b) :
    t.ty = .semi ∨ t ∈ a := by
  by_cases hs : t.ty = .semi
  · exact .inl hs
  · have : t ∈ noSemi b := by simp [noSemi, ht, hs]
    rw [h.2] at this
    exact .inr (List.mem_filter.1 this).1

/-- Every container is closed once, and identities not used yet do not occur. -/
structure WF (L : List Ev) (next : Id) : Prop where
  nodup : (closes L).Nodup
  cls : ∀ d ∈ closes L, d < next
  opn : ∀ d ∈ opens L, d < next

/-- The documents `xs` are open at the end of the document: no token follows their content. -/
def Stk (L : List Ev) (xs : List Id) : Prop :=
  ∃ H T, L = H ++ T ∧ ktoks T = [] ∧ (xs.map Ev.cls).Sublist T

theorem Stk.sub {L : List Ev} {xs ys : List Id} (h : Stk L xs) (hs : ys.Sublist xs) : Stk L ys := by
  obtain ⟨H, T, h1, h2, h3⟩ := h
  exact ⟨H, T, h1, h2, (hs.map _).trans h3⟩

omit [Mode] in
theorem ins_not_mem {d : Id} {e : List Ev} : ∀ {L : List Ev}, Ev.cls d ∉ L → ins d e L = L
  | [], _ => rfl
  | x :: L, h => by
    simp only [List.mem_cons, not_or] at h
    rw [ins, if_neg (fun hx => h.1 hx.symm), ins_not_mem h.2]

omit [Mode] in
theorem ins_append {d : Id} {e : List Ev} {T : List Ev} : ∀ {H : List Ev}, Ev.cls d ∉ H →
    ins d e (H ++ T) = H ++ ins d e T
  | [], _ => rfl
  | x :: L, h => by
    simp only [List.mem_cons, not_or] at h
    rw [List.cons_append, ins, if_neg (fun hx => h.1 hx.symm), ins_append h.2, List.cons_append]

omit [Mode] in
theorem ins_append_left {d : Id} {e : List Ev} {T : List Ev} : ∀ {H : List Ev}, Ev.cls d ∈ H →
    ins d e (H ++ T) = ins d e H ++ T
  | [], h => by simp at h
  | x :: L, h => by
    by_cases hx : x = .cls d
    · simp [ins, hx]
    · have h' : Ev.cls d ∈ L := by
        simp only [List.mem_cons] at h
        exact h.resolve_left fun e => hx e.symm
      rw [List.cons_append, ins, if_neg hx, ins_append_left h', ins, if_neg hx, List.cons_append]

omit [Mode] in
theorem ins_cls {d : Id} {e : List Ev} {T : List Ev} : ins d e (.cls d :: T) = e ++ .cls d :: T := by
  simp [ins]

omit [Mode] in
theorem ins_at {d : Id} {e : List Ev} {A B : List Ev} (h : Ev.cls d ∉ A) :
    ins d e (A ++ .cls d :: B) = A ++ (e ++ .cls d :: B) := by
  rw [ins_append h, ins_cls]

omit [Mode] in
theorem split_at {d : Id} : ∀ {L : List Ev}, Ev.cls d ∈ L → ∃ A B, L = A ++ .cls d :: B ∧ Ev.cls d ∉ A
  | [], h => by simp at h
  | x :: L, h => by
    by_cases hx : x = .cls d
    · exact ⟨[], L, by simp [hx], by simp⟩
    · have h' : Ev.cls d ∈ L := by
        simp only [List.mem_cons] at h
        exact h.resolve_left fun e => hx e.symm
      obtain ⟨A, B, h1, h2⟩ := split_at h'
      refine ⟨x :: A, B, by simp [h1], ?_⟩
      simp only [List.mem_cons, not_or]
      exact ⟨fun e => hx e.symm, h2⟩

theorem ktoks_ins {d : Id} {e : List Ev} (he : ktoks e = []) : ∀ (L : List Ev), ktoks (ins d e L) = ktoks L
  | [] => rfl
  | x :: L => by
    rw [ins]
    split
    · rw [ktoks_append, he]; rfl
    · rw [ktoks_cons, ktoks_cons, ktoks_ins he L]

omit [Mode] in
theorem sublist_ins {d : Id} {e : List Ev} : ∀ (L : List Ev), L.Sublist (ins d e L)
  | [] => .slnil
  | x :: L => by
    rw [ins]
    split
    · exact List.sublist_append_right _ _
    · exact (sublist_ins L).cons_cons x

theorem Stk.ins {L : List Ev} {xs : List Id} (h : Stk L xs) (d : Id) {e : List Ev}
    (he : ktoks e = []) : Stk (ins d e L) xs := by
  obtain ⟨H, T, h1, h2, h3⟩ := h
  subst h1
  by_cases hd : Ev.cls d ∈ H
  · exact ⟨_, T, ins_append_left hd, h2, h3⟩
  · exact ⟨H, _, ins_append hd, by rw [ktoks_ins he, h2], h3.trans (sublist_ins T)⟩

omit [Mode] in
theorem not_mem_of_nodup {H T : List Ev} {d : Id} (hn : (closes (H ++ T)).Nodup) (h : Ev.cls d ∈ T) :
    Ev.cls d ∉ H := by
  rw [closes_append, List.nodup_append] at hn
  intro h'
  exact hn.2.2 d (mem_closes.2 h') d (mem_closes.2 h) rfl

/-- Where the innermost document of the stack ends. -/
theorem Stk.split {L : List Ev} {d : Id} {bs : List Id} (hn : (closes L).Nodup)
    (h : Stk L (d :: bs)) : ∃ A B, L = A ++ .cls d :: B ∧ Ev.cls d ∉ A ∧ ktoks B = [] ∧
      (bs.map Ev.cls).Sublist B := by
  obtain ⟨H, T, h1, h2, h3⟩ := h
  subst h1
  have hd : Ev.cls d ∈ T := h3.subset (by simp)
  obtain ⟨A, B, h4, h5⟩ := split_at hd
  subst h4
  have h6 := not_mem_of_nodup hn hd
  refine ⟨H ++ A, B, by simp, by simp [h5, h6], ?_, ?_⟩
  · rw [ktoks_append, ktoks_cons] at h2
    simp only [List.append_eq_nil_iff] at h2
    exact h2.2.2
  · clear hn h2 h6 hd
    rw [List.map_cons] at h3
    induction A with
    | nil =>
      cases h3 with
      | cons _ h => exact (List.sublist_cons_self _ _).trans h
      | cons_cons _ h => exact h
    | cons x A ih =>
      simp only [List.mem_cons, not_or] at h5
      cases h3 with
      | cons _ h => exact ih h5.2 h
      | cons_cons _ h => exact absurd rfl h5.1

theorem Stk.of_split {A B : List Ev} {d : Id} {bs : List Id} (hB : ktoks B = [])
    (hs : (bs.map Ev.cls).Sublist B) : Stk (A ++ .cls d :: B) (d :: bs) :=
  ⟨A, .cls d :: B, rfl, by rw [ktoks_cons, hB]; rfl, hs.cons_cons _⟩

omit [Mode] in
theorem WF.ins {L : List Ev} {n m : Id} (h : WF L n) (d : Id) {e : List Ev} (hm : n ≤ m)
    (hc : (closes e).Nodup) (hc' : ∀ x ∈ closes e, n ≤ x ∧ x < m) (ho : ∀ x ∈ opens e, x < m) :
    WF (ins d e L) m := by
  by_cases hd : Ev.cls d ∈ L
  · obtain ⟨A, B, h1, h2⟩ := split_at hd
    subst h1
    obtain ⟨w1, w2, w3⟩ := h
    rw [closes_append] at w1 w2
    rw [opens_append] at w3
    refine ⟨?_, ?_, ?_⟩
    · rw [ins_at h2, closes_append, closes_append]
      simp only [List.nodup_append, List.mem_append] at w1 w2 ⊢
      refine ⟨w1.1, ⟨hc, w1.2.1, ?_⟩, ?_⟩
      · intro a ha b hb e
        subst e
        exact absurd (hc' _ ha).1 (Nat.not_le.2 (w2 _ (.inr hb)))
      · intro a ha b hb
        rcases hb with hb | hb
        · intro e
          subst e
          exact absurd (hc' _ hb).1 (Nat.not_le.2 (w2 _ (.inl ha)))
        · exact w1.2.2 a ha b hb
    · rw [ins_at h2, closes_append, closes_append]
      intro x hx
      simp only [List.mem_append] at w2 hx
      rcases hx with hx | hx | hx
      · exact Nat.lt_of_lt_of_le (w2 x (.inl hx)) hm
      · exact (hc' x hx).2
      · exact Nat.lt_of_lt_of_le (w2 x (.inr hx)) hm
    · rw [ins_at h2, opens_append, opens_append]
      intro x hx
      simp only [List.mem_append] at w3 hx
      rcases hx with hx | hx | hx
      · exact Nat.lt_of_lt_of_le (w3 x (.inl hx)) hm
      · exact ho x hx
      · exact Nat.lt_of_lt_of_le (w3 x (.inr hx)) hm
  · rw [ins_not_mem hd]
    exact ⟨h.nodup, fun x hx => Nat.lt_of_lt_of_le (h.cls x hx) hm,
      fun x hx => Nat.lt_of_lt_of_le (h.opn x hx) hm⟩

omit [Mode] in
theorem WF.mono {L : List Ev} {n m : Id} (h : WF L n) (hm : n ≤ m) : WF L m :=
  ⟨h.nodup, fun x hx => Nat.lt_of_lt_of_le (h.cls x hx) hm,
      fun x hx => Nat.lt_of_lt_of_le (h.opn x hx) hm⟩

omit [Mode] in
theorem WF.of_sublist {L L' : List Ev} {n : Id} (h : WF L n) (hs : L'.Sublist L) : WF L' n := by
  refine ⟨h.nodup.sublist (hs.filterMap _), fun x hx => h.cls x ((hs.filterMap _).subset hx),
    fun x hx => h.opn x ((hs.filterMap _).subset hx)⟩

/-! ## Runs -/

/-- Is the last consumed token the end of a statement or a block? -/
def ctx : List Tok → Bool
  | [] => false
  | t :: _ => ends t

omit [Mode] in
theorem ctx_append : ∀ (c l : List Tok), ctx (c.reverse ++ l) = Tidy'.ctxAfter (ctx l) c
  | [], _ => rfl
  | t :: c, l => by
    rw [List.reverse_cons, List.append_assoc, List.singleton_append, ctx_append c (t :: l)]
    rfl

/-- None of the recorded things happened. -/
def okGh (g : Ghost) : Prop :=
  g.swallowed = false ∧ g.lost = false ∧ (Mode.strict = true → g.misplaced = false)

/-- All is well so far. -/
def ok (s : St) : Prop := s.err = false ∧ okGh s.gh ∧ ∀ t ∈ s.done, t.ty ≠ .eof

/-- The documents can be added to. -/
def Inv (s : St) (xs : List Id) : Prop := ok s → WF s.L s.next ∧ Stk s.L xs

/-- See above. -/
def Cur (s0 s : St) (p : List Tok) (xs : List Id) : Prop :=
  s0.next ≤ s.next ∧ (ok s → ok s0) ∧
  ∃ c, s.done = c.reverse ++ s0.done ∧ Tidy' (ctx s0.done) s0.rest (c ++ s.rest) ∧
    (ok s → WF s.L s.next ∧ Stk s.L xs ∧
      ∃ y, ktoks s.L = ktoks s0.L ++ kf y ∧ Rel (ctx s0.done) c (y ++ p))

/-- Only the position has changed. -/
def Mv (s0 s : St) : Prop :=
  s0.next ≤ s.next ∧
  ∃ c, s.done = c.reverse ++ s0.done ∧ Tidy' (ctx s0.done) s0.rest (c ++ s.rest)

/-- See above. -/
def Eat (s0 s : St) (p : List Tok) : Prop :=
  s.L = s0.L ∧ s0.next ≤ s.next ∧ (ok s → ok s0) ∧
  ∃ c, s.done = c.reverse ++ s0.done ∧ Tidy' (ctx s0.done) s0.rest (c ++ s.rest) ∧
    (ok s → Rel (ctx s0.done) c p)

theorem Cur.refl {s : St} {xs : List Id} (h : Inv s xs) : Cur s s [] xs :=
  ⟨Nat.le_refl _, id, [], rfl, Tidy'.refl _ _, fun o => ⟨(h o).1, (h o).2, [], by simp, .nil _⟩⟩

theorem Eat.refl (s : St) : Eat s s [] :=
  ⟨rfl, Nat.le_refl _, id, [], rfl, Tidy'.refl _ _, fun _ => .nil _⟩

theorem Cur.inv {s0 s : St} {p : List Tok} {xs : List Id} (h : Cur s0 s p xs) : Inv s xs := by
  obtain ⟨_, _, c, _, _, h⟩ := h
  exact fun o => ⟨(h o).1, (h o).2.1⟩

theorem Inv.sub {s : St} {xs ys : List Id} (h : Inv s xs) (hs : ys.Sublist xs) : Inv s ys :=
  fun o => ⟨(h o).1, (h o).2.sub hs⟩

theorem Cur.sub {s0 s : St} {p : List Tok} {xs ys : List Id} (h : Cur s0 s p xs)
    (hs : ys.Sublist xs) : Cur s0 s p ys := by
  obtain ⟨h1, h2, c, h3, h4, h5⟩ := h
  exact ⟨h1, h2, c, h3, h4, fun o => ⟨(h5 o).1, (h5 o).2.1.sub hs, (h5 o).2.2⟩⟩

theorem Cur.mv {s0 s : St} {p : List Tok} {xs : List Id} (h : Cur s0 s p xs) : Mv s0 s := by
  obtain ⟨h1, _, c, h3, h4, _⟩ := h
  exact ⟨h1, c, h3, h4⟩

theorem Eat.mv {s0 s : St} {p : List Tok} (h : Eat s0 s p) : Mv s0 s := by
  obtain ⟨_, h1, _, c, h3, h4, _⟩ := h
  exact ⟨h1, c, h3, h4⟩

omit [Mode] in
theorem tidy_trans {s0 s s' : St} {c c' : List Tok} (h1 : s.done = c.reverse ++ s0.done)
    (h2 : Tidy' (ctx s0.done) s0.rest (c ++ s.rest))
    (h3 : Tidy' (ctx s.done) s.rest (c' ++ s'.rest)) :
    Tidy' (ctx s0.done) s0.rest ((c ++ c') ++ s'.rest) := by
  refine h2.trans ?_
  rw [List.append_assoc]
  refine (Tidy'.refl _ c).append ?_
  rw [← ctx_append, ← h1]
  exact h3

omit [Mode] in
theorem Mv.trans {s0 s s' : St} (h : Mv s0 s) (h' : Mv s s') : Mv s0 s' := by
  obtain ⟨h1, c, h2, h3⟩ := h
  obtain ⟨h1', c', h2', h3'⟩ := h'
  refine ⟨Nat.le_trans h1 h1', c ++ c', ?_, tidy_trans h2 h3 h3'⟩
  rw [h2', h2]; simp

theorem Cur.trans {s0 s s' : St} {p : List Tok} {xs ys : List Id} (h : Cur s0 s [] xs)
    (h' : Cur s s' p ys) : Cur s0 s' p ys := by
  obtain ⟨h1, h2, c, h3, h4, h5⟩ := h
  obtain ⟨h1', h2', c', h3', h4', h5'⟩ := h'
  refine ⟨Nat.le_trans h1 h1', fun o => h2 (h2' o), c ++ c', ?_, tidy_trans h3 h4 h4', ?_⟩
  · rw [h3', h3]; simp
  intro o
  obtain ⟨w, k, y', hy', t'⟩ := h5' o
  obtain ⟨_, _, y, hy, t⟩ := h5 (h2' o)
  refine ⟨w, k, y ++ y', by rw [hy', hy, List.append_assoc, kf_append], ?_⟩
  rw [List.append_assoc]
  simp only [List.append_nil] at t
  refine t.append ?_
  rw [← ctx_append, ← h3]
  exact t'

theorem Eat.trans {s0 s s' : St} {p q : List Tok} (h : Eat s0 s p) (h' : Eat s s' q) :
    Eat s0 s' (p ++ q) := by
  obtain ⟨h0, h1, h2, c, h3, h4, h5⟩ := h
  obtain ⟨h0', h1', h2', c', h3', h4', h5'⟩ := h'
  refine ⟨h0'.trans h0, Nat.le_trans h1 h1', fun o => h2 (h2' o), c ++ c', ?_,
    tidy_trans h3 h4 h4', ?_⟩
  · rw [h3', h3]; simp
  intro o
  refine (h5 (h2' o)).append ?_
  rw [← ctx_append, ← h3]
  exact h5' o

/-- Consume without touching the document. -/
theorem Cur.eat {s0 s s' : St} {p q : List Tok} {xs : List Id} (h : Cur s0 s p xs)
    (h' : Eat s s' q) : Cur s0 s' (p ++ q) xs := by
  obtain ⟨h1, h2, c, h3, h4, h5⟩ := h
  obtain ⟨h0', h1', h2', c', h3', h4', h5'⟩ := h'
  refine ⟨Nat.le_trans h1 h1', fun o => h2 (h2' o), c ++ c', ?_, tidy_trans h3 h4 h4', ?_⟩
  · rw [h3', h3]; simp
  intro o
  obtain ⟨w, k, y, hy, t⟩ := h5 (h2' o)
  rw [h0']
  refine ⟨w.mono h1', k, y, hy, ?_⟩
  rw [← List.append_assoc]
  refine t.append ?_
  rw [← ctx_append, ← h3]
  exact h5' o

/-- Nothing is claimed once something has gone wrong. -/
theorem Cur.bad {s0 s : St} (h : Mv s0 s) (hs : ¬ ok s) (p : List Tok) (xs : List Id) :
    Cur s0 s p xs := by
  obtain ⟨h1, c, h2, h3⟩ := h
  exact ⟨h1, fun o => absurd o hs, c, h2, h3, fun o => absurd o hs⟩

theorem Eat.bad {s0 s : St} (h : Mv s0 s) (hL : s.L = s0.L) (hs : ¬ ok s) (p : List Tok) :
    Eat s0 s p := by
  obtain ⟨h1, c, h2, h3⟩ := h
  exact ⟨hL, h1, fun o => absurd o hs, c, h2, h3, fun o => absurd o hs⟩

theorem not_ok_err {s : St} (h : s.err = true) : ¬ ok s := fun o => by
  have := o.1
  rw [h] at this
  cases this

/-- Change the document only. -/
theorem Cur.doc {s0 s : St} {p q : List Tok} {xs ys : List Id} {L : List Ev} {n : Id}
    (h : Cur s0 s p xs) (hn : s.next ≤ n)
    (hL : ok s → WF s.L s.next → Stk s.L xs → (∀ t ∈ p, t.ty ≠ .eof) → WF L n ∧ Stk L ys ∧
      ∃ w, ktoks L = ktoks s.L ++ kf w ∧ w ++ q = p) :
    Cur s0 { s with L := L, next := n } q ys := by
  obtain ⟨h1, h2, c, h3, h4, h5⟩ := h
  refine ⟨Nat.le_trans h1 hn, h2, c, h3, h4, ?_⟩
  intro o
  have o' : ok s := o
  obtain ⟨w, k, y, hy, t⟩ := h5 o'
  have hp : ∀ t ∈ p, t.ty ≠ .eof := by
    intro x hx
    rcases t.mem (t := x) (by simp [hx]) with h | h
    · simp [h]
    · refine o'.2.2 x ?_
      rw [h3]
      simp [h]
  obtain ⟨w', k', z, hz, e⟩ := hL o' w k hp
  refine ⟨w', k', y ++ z, ?_, ?_⟩
  · show ktoks L = _
    rw [hz, hy, List.append_assoc, kf_append]
  · rw [List.append_assoc, e]; exact t

/-! ## Rules -/

/-- Whatever a run gives back fulfills the condition. -/
def wp {α : Type} (m : M α) (Q : α → St → Prop) (s : St) : Prop :=
  ∀ a s', m s = some (a, s') → Q a s'

omit [Mode] in
theorem wp_bind {α β : Type} {m : M α} {f : α → M β} {P : α → St → Prop} {Q : β → St → Prop} {s : St}
    (h : wp m P s) (k : ∀ a s', P a s' → wp (f a) Q s') : wp (m >>= f) Q s := by
  intro b s' e
  have e : (match m s with | none => none | some (a, s1) => f a s1) = some (b, s') := e
  cases hm : m s with
  | none => rw [hm] at e; cases e
  | some x =>
    obtain ⟨a, s1⟩ := x
    rw [hm] at e
    exact k a s1 (h a s1 hm) b s' e

omit [Mode] in
theorem wp_pure {α : Type} {a : α} {Q : α → St → Prop} {s : St} (h : Q a s) : wp (pure a) Q s := by
  intro b s' e
  have e : some (a, s) = some (b, s') := e
  cases e
  exact h

omit [Mode] in
theorem wp_mono {α : Type} {m : M α} {P Q : α → St → Prop} {s : St} (h : wp m P s)
    (k : ∀ a s', P a s' → Q a s') : wp m Q s := fun a s' e => k a s' (h a s' e)

omit [Mode] in
theorem wp_read {α : Type} {f : St → α} {Q : α → St → Prop} {s : St} (h : Q (f s) s) :
    wp (read f) Q s := by
  intro b s' e
  have e : some (f s, s) = some (b, s') := e
  cases e
  exact h

omit [Mode] in
theorem wp_loop {α β : Type} {f : α → M (α ⊕ β)} {Q : β → St → Prop} (I : α → St → Prop)
    (hf : ∀ a s, I a s → wp (f a) (fun r s' =>
      (∀ a', r = .inl a' → I a' s') ∧ (∀ b, r = .inr b → Q b s')) s) :
    ∀ (n : Nat) (a : α) (s : St), I a s → wp (loop n f a) Q s
  | 0, a, s, _ => by intro b s' e; cases e
  | n + 1, a, s, h => by
    rw [loop]
    refine wp_bind (hf a s h) ?_
    intro r s' hr
    cases r with
    | inl a' => exact wp_loop I hf n a' s' (hr.1 a' rfl)
    | inr b => exact wp_pure (hr.2 b rfl)

end Knfmt.Parse
