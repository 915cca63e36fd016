import Verif.Simple.Static
/-!
# Empty loops and empty default cases (C70, C71)
-/
namespace Knfmt.Small

open Knfmt.Lexer (TT)
open Knfmt.Stream (Node Fix)
open Knfmt.Stmt (node pos next prev isMoveable removeId)
open Knfmt.Forward (from_ update)
open Knfmt.SimpleDecl (Ed insertKw fixed Word word)

/-! ## Empty loops -/

/-- The words of the tokens. -/
abbrev words (e : Ed) : List Word := e.ts.map (word e.text)

/-- `continue` and `;`. -/
def wContinue : Word := (.kContinue, ['c', 'o', 'n', 't', 'i', 'n', 'u', 'e'])
def wSemi : Word := (.semi, [';'])

/-- What follows starts with braces with nothing or a semicolon, `mid`, between, all without comments. -/
def EmptyBraces (rest : List Node) (lb : Node) (mid : List Node) (R : List Node) : Prop :=
  ∃ rb R', R = rb :: R' ∧ rest = lb :: mid ++ rb :: R' ∧ lb.type = .lbrace ∧ rb.type = .rbrace ∧
    (mid = [] ∨ ∃ s, mid = [s] ∧ s.type = .semi) ∧ ∀ t ∈ lb :: mid ++ [rb], fixed t = []

theorem from_tail {A rest : List Node} {a : Node} (hd : ((A ++ a :: rest).map (·.id)).Nodup) :
    (from_ (A ++ a :: rest) a.id).tail = rest := by
  rw [Knfmt.Forward.from_eq (nodup_ne hd)]
  rfl

theorem closing_mem {n : Nat} {ts : List Node} {rb : Node} (h : closing n ts = some rb) : rb ∈ ts ∧ rb.type = .rbrace := by
  induction ts generalizing n with
  | nil => simp [closing] at h
  | cons t ts ih =>
    unfold closing at h
    split at h
    · cases h
    · split at h
      · have := ih h; exact ⟨List.mem_cons_of_mem _ this.1, this.2⟩
      · split at h
        · split at h
          · injection h with h; subst h; exact ⟨by simp, by assumption⟩
          · have := ih h; exact ⟨List.mem_cons_of_mem _ this.1, this.2⟩
        · have := ih h; exact ⟨List.mem_cons_of_mem _ this.1, this.2⟩

theorem closing_rb {rb : Node} {R : List Node} (h : rb.type = .rbrace) : closing 1 (rb :: R) = some rb := by
  simp [closing, h]

theorem closing_semi {s rb : Node} {R : List Node} (hs : s.type = .semi) (h : rb.type = .rbrace) :
    closing 1 (s :: rb :: R) = some rb := by
  simp [closing, hs, h]

/-- Which loops are simplified. -/
theorem sense_iff {ts A rest : List Node} {rp lb rb : Node} (e : ts = A ++ rp :: lb :: rest) (hd : (ts.map (·.id)).Nodup)
    (hl : lb.type = .lbrace) (hc : closing 1 rest = some rb) :
    ∃ b, senseEmptyLoopBraces ts lb rb = some b ∧
      (b = true → ∃ mid R, EmptyBraces (lb :: rest) lb mid (rb :: R)) ∧
      (b = false → ∀ mid R, ¬ EmptyBraces (lb :: rest) lb mid R) := by
  obtain ⟨hm, ht⟩ := closing_mem hc
  obtain ⟨x, rest', rfl⟩ : ∃ x rest', rest = x :: rest' := by
    cases rest with
    | nil => simp at hm
    | cons x r => exact ⟨x, r, rfl⟩
  have hn : next ts lb.id = some x := by
    rw [Knfmt.Stmt.next_eq hd (a := A ++ [rp]) (b := x :: rest') (by rw [e]; simp)]
    rfl
  have hnx : next ts x.id = rest'.head? := by
    rw [Knfmt.Stmt.next_eq hd (a := A ++ [rp, lb]) (b := rest') (by rw [e]; simp)]
  have hin : ∀ y ∈ x :: rest', y ∈ ts := by
    intro y hy; rw [e]; simp only [List.mem_append, List.mem_cons] at hy ⊢; grind
  have hinj : ∀ y ∈ x :: rest', y.id = rb.id → y = rb := fun y hy he =>
    Knfmt.Stmt.id_inj hd (hin y hy) (hin rb hm) he
  have hrb : ∀ mid R, EmptyBraces (lb :: x :: rest') lb mid R → ∃ R', R = rb :: R' := by
    rintro mid R ⟨rb', R', rfl, h1, h2, h3, h4, h5⟩
    rcases h4 with rfl | ⟨s, rfl, h4⟩
    · simp only [List.cons_append, List.nil_append, List.cons.injEq, true_and] at h1
      rw [h1.1, closing_rb h3] at hc
      exact ⟨R', by rw [Option.some.inj hc]⟩
    · simp only [List.cons_append, List.nil_append, List.cons.injEq, true_and] at h1
      rw [h1.1, h1.2, closing_semi h4 h3] at hc
      exact ⟨R', by rw [Option.some.inj hc]⟩
  unfold senseEmptyLoopBraces
  by_cases hmv : isMoveable lb = true ∧ isMoveable rb = true
  · rw [if_neg (by simp [hmv.1, hmv.2]), hn]
    dsimp only
    have hfl := Knfmt.SimpleDecl.moveable_iff.mp hmv.1
    have hfr := Knfmt.SimpleDecl.moveable_iff.mp hmv.2
    by_cases hx : x.id = rb.id
    · rw [if_pos hx]
      have := hinj x (by simp) hx
      subst this
      refine ⟨true, rfl, fun _ => ⟨[], rest', x, rest', rfl, rfl, hl, ht, Or.inl rfl, ?_⟩, by simp⟩
      intro t h
      simp at h
      rcases h with rfl | rfl
      · exact hfl
      · exact hfr
    · rw [if_neg hx, hnx]
      refine ⟨_, rfl, ?_, ?_⟩
      · intro h
        simp only [Bool.and_eq_true, decide_eq_true_eq] at h
        obtain ⟨⟨h1, h2⟩, h3⟩ := h
        obtain ⟨y, hy, hy2⟩ := Option.map_eq_some_iff.mp h3
        obtain ⟨R, rfl⟩ : ∃ R, rest' = y :: R := by
          cases rest' with
          | nil => simp at hy
          | cons z R => simp at hy; exact ⟨R, by rw [hy]⟩
        have := hinj y (by simp) hy2
        subst this
        refine ⟨[x], R, y, R, rfl, rfl, hl, ht, Or.inr ⟨x, rfl, h1⟩, ?_⟩
        intro t h
        simp at h
        rcases h with rfl | rfl | rfl
        · exact hfl
        · exact Knfmt.SimpleDecl.moveable_iff.mp h2
        · exact hfr
      · intro h mid R hE
        obtain ⟨R0, rfl⟩ := hrb mid R hE
        obtain ⟨rb', R', e1, h1, h2, h3, h4, h5⟩ := hE
        injection e1 with e1 e2
        subst e1 e2
        rcases h4 with rfl | ⟨s, rfl, h4⟩
        · simp only [List.cons_append, List.nil_append, List.cons.injEq, true_and] at h1
          exact hx (by rw [h1.1])
        · simp only [List.cons_append, List.nil_append, List.cons.injEq, true_and] at h1
          obtain ⟨rfl, rfl⟩ := h1
          have := Knfmt.SimpleDecl.moveable_iff.mpr (h5 x (by simp))
          simp [h4, this] at h
  · rw [if_pos (by
      rw [Bool.or_eq_true, Bool.not_eq_true', Bool.not_eq_true']
      by_cases h : isMoveable lb = true
      · right
        cases h2 : isMoveable rb
        · rfl
        · exact absurd ⟨h, h2⟩ hmv
      · left; simpa using h)]
    refine ⟨false, rfl, by simp, ?_⟩
    intro _ mid R hE
    obtain ⟨R0, rfl⟩ := hrb mid R hE
    obtain ⟨rb', R', e1, h1, h2, h3, h4, h5⟩ := hE
    injection e1 with e1 e2
    subst e1
    exact hmv ⟨Knfmt.SimpleDecl.moveable_iff.mpr (h5 lb (by simp)), Knfmt.SimpleDecl.moveable_iff.mpr (h5 rb (by simp))⟩

/-- **C70.** After the right parenthesis of a loop, an empty body becomes `continue;`: with braces if there is
nothing or a semicolon between them and no comment, without braces always. Any other body stays as it is. All
other tokens and all comments stay. -/
theorem empty_loop {e : Ed} {A rest : List Node} {rp : Node} (he : e.ts = A ++ rp :: rest) (ok : Ok e) :
    ∃ e', emptyLoop e rp.id = some e' ∧ e'.ts.flatMap fixed = e.ts.flatMap fixed ∧
      ((∃ lb mid R, EmptyBraces rest lb mid R ∧
          words e' = (A ++ [rp, lb]).map (word e.text) ++ wContinue ::
            ((if mid = [] then [wSemi] else mid.map (word e.text)) ++ R.map (word e.text))) ∨
        (∃ s R, rest = s :: R ∧ s.type = .semi ∧
          words e' = (A ++ [rp]).map (word e.text) ++ wContinue :: rest.map (word e.text)) ∨
        ((∀ lb mid R, ¬ EmptyBraces rest lb mid R) ∧ (∀ s R, rest = s :: R → s.type ≠ .semi) ∧ e' = e)) := by
  have hd := ok.nodup
  have hr : (from_ e.ts rp.id).tail = rest := by
    rw [he] at hd ⊢
    exact from_tail hd
  unfold emptyLoop
  rw [hr]
  dsimp only
  cases rest with
  | nil =>
    rw [if_neg (by simp)]
    refine ⟨e, rfl, rfl, Or.inr (Or.inr ⟨?_, by simp, rfl⟩)⟩
    rintro lb mid R ⟨rb, R', -, h, -⟩
    simp at h
  | cons t rest =>
    by_cases hl : t.type = .lbrace
    · rw [if_pos (by simp [hl])]
      have hns : ∀ s R, t :: rest = s :: R → s.type ≠ .semi := by
        intro s R h
        injection h with h _
        rw [← h, hl]
        simp
      have hlb : ∀ {lb mid R}, EmptyBraces (t :: rest) lb mid R → lb = t := by
        rintro lb mid R ⟨rb, R', -, h, -⟩
        rw [List.cons_append] at h
        injection h with h _
        exact h.symm
      unfold emptyLoopBraces
      dsimp only
      rw [if_neg (by simp [hl])]
      cases hc : closing 1 rest with
      | none =>
        refine ⟨e, rfl, rfl, Or.inr (Or.inr ⟨?_, hns, rfl⟩)⟩
        intro lb mid R hE
        have := hlb hE
        subst this
        obtain ⟨rb, R', -, h, -, h3, h4, -⟩ := hE
        rcases h4 with rfl | ⟨s, rfl, h4⟩
        · simp only [List.cons_append, List.nil_append, List.cons.injEq, true_and] at h
          rw [h, closing_rb h3] at hc
          cases hc
        · simp only [List.cons_append, List.nil_append, List.cons.injEq, true_and] at h
          rw [h, closing_semi h4 h3] at hc
          cases hc
      | some rb =>
        dsimp only
        obtain ⟨b, hb, hyes, hno⟩ := sense_iff he hd hl hc
        rw [hb]
        cases b with
        | false =>
          refine ⟨e, rfl, rfl, Or.inr (Or.inr ⟨?_, hns, rfl⟩)⟩
          intro lb mid R hE
          have := hlb hE
          subst this
          exact hno rfl mid R hE
        | true =>
          dsimp only
          obtain ⟨mid, R, hE⟩ := hyes rfl
          obtain ⟨rb', R', e0, e1, h2, h3, h4, h5⟩ := id hE
          injection e0 with e0 e0'
          subst e0 e0'
          have e1' : rest = mid ++ rb :: R := by
            rw [List.cons_append] at e1
            injection e1
          subst e1'
          have he2 : e.ts = (A ++ [rp]) ++ t :: (mid ++ rb :: R) := by rw [he]; simp
          obtain ⟨e', A', a', n', B', g1, g2, g3, g4, g5, g6, g7, g8⟩ :=
            insertKw_spec he2 ok .kContinue ['c', 'o', 'n', 't', 'i', 'n', 'u', 'e']
          obtain ⟨e'', k1, -, k3, k4, k5⟩ := insertKw_words he2 ok .kContinue ['c', 'o', 'n', 't', 'i', 'n', 'u', 'e']
          rw [g1] at k1
          injection k1 with k1
          subst k1
          unfold insertContinue
          rw [g1]
          dsimp only
          have hnext : next e'.ts e.fresh = B'.head? := by
            rw [← g4]
            exact Knfmt.Stmt.next_eq g3.nodup (a := A' ++ [a']) (by rw [g2]; simp)
          have hkB := (words_core g8).2.2.2
          rcases h4 with rfl | ⟨s, rfl, h4⟩
          · obtain ⟨b1, B1, rfl⟩ : ∃ b1 B1, B' = b1 :: B1 := by
              cases B' with
              | nil => simp at hkB
              | cons x y => exact ⟨x, y, rfl⟩
            have hb1 : b1.type = .rbrace := by
              simp only [List.nil_append, List.map_cons, List.cons.injEq] at hkB
              have := congrArg (·.2) hkB.1
              exact this.trans h3
            rw [hnext]
            dsimp only [List.head?_cons]
            rw [if_pos (by rw [hb1]; simp)]
            obtain ⟨e3, m1, -, m3, m4, m5⟩ := insertKw_words (A := A' ++ [a']) (a := n') (B := b1 :: B1) (by rw [g2]; simp) g3 .semi [';']
            rw [g4] at m1
            refine ⟨e3, m1, m3.trans k3, Or.inl ⟨t, [], rb :: R, hE, ?_⟩⟩
            rw [words, m5]
            have wA := (words_core g5).1
            have wB := (words_core g8).1
            have wa : word e'.text a' = word e.text t := congrArg (fun c : Knfmt.SimpleDecl.Core => (c.type, c.text)) g6
            have wn : word e'.text n' = wContinue := congrArg (fun c : Knfmt.SimpleDecl.Core => (c.type, c.text)) g7
            rw [List.nil_append] at wB
            rw [wB]
            simp only [List.map_append, List.map_cons, List.map_nil, wA, wa, wn]
            simp [wSemi]
          · obtain ⟨b1, B1, rfl⟩ : ∃ b1 B1, B' = b1 :: B1 := by
              cases B' with
              | nil => simp at hkB
              | cons x y => exact ⟨x, y, rfl⟩
            have hb1 : b1.type = .semi := by
              simp only [List.cons_append, List.map_cons, List.cons.injEq] at hkB
              have := congrArg (·.2) hkB.1
              exact this.trans h4
            rw [hnext]
            dsimp only [List.head?_cons]
            rw [if_neg (by rw [hb1]; simp)]
            refine ⟨e', rfl, k3, Or.inl ⟨t, [s], rb :: R, hE, ?_⟩⟩
            rw [words, k5]
            simp [wContinue]
    · have hnE : ∀ lb mid R, ¬ EmptyBraces (t :: rest) lb mid R := by
        rintro lb mid R ⟨rb, R', -, h, h2, -⟩
        rw [List.cons_append] at h
        injection h with h _
        exact hl (h ▸ h2)
      rw [if_neg (by simp [hl])]
      unfold emptyLoopNoBraces
      dsimp only
      by_cases hs : t.type = .semi
      · rw [if_neg (by simp [hs])]
        obtain ⟨e', k1, -, k3, k4, k5⟩ := insertKw_words he ok .kContinue ['c', 'o', 'n', 't', 'i', 'n', 'u', 'e']
        exact ⟨e', k1, k3, Or.inr (Or.inl ⟨t, rest, rfl, hs, k5⟩)⟩
      · rw [if_pos hs]
        refine ⟨e, rfl, rfl, Or.inr (Or.inr ⟨hnE, ?_, rfl⟩)⟩
        intro s R h
        injection h with h _
        exact h ▸ hs

/-- `while (x) { ; }` -/
def loopEd : Ed := { ts := toks [.kWhile, .lparen, .ident, .rparen, .lbrace, .semi, .rbrace, .eof], text := fun _ => [], fresh := 8 }

example : Ok loopEd := ⟨by decide, by decide⟩

example : (emptyLoop loopEd 3).map (fun r => r.ts.map (·.type)) =
    some [.kWhile, .lparen, .ident, .rparen, .lbrace, .kContinue, .semi, .rbrace, .eof] := by decide +kernel

example : ∃ lb mid R, EmptyBraces (loopEd.ts.drop 4) lb mid R :=
  ⟨{ id := 4, type := .lbrace }, [{ id := 5, type := .semi }], _, { id := 6, type := .rbrace }, [{ id := 7, type := .eof }],
    rfl, by decide, rfl, rfl, Or.inr ⟨_, rfl, rfl⟩, by decide⟩

/-! ## Empty default cases -/

/-- Statements in the body of a `switch`. `act` is the call of a function without arguments. -/
inductive Stm where
  | dflt
  | case (w : Word)
  | empty
  | brk
  | act (w : Word)

/-- How they are written. -/
def Stm.toks : Stm → List Word
  | .dflt => [(.kDefault, "default".toList), (.colon, [':'])]
  | .case w => [(.kCase, "case".toList), w, (.colon, [':'])]
  | .empty => [wSemi]
  | .brk => [(.kBreak, "break".toList), wSemi]
  | .act w => [w, (.lparen, ['(']), (.rparen, [')']), wSemi]

/-- What is called when statements are run, up to the first `break`. -/
def run : List Stm → List Word
  | [] => []
  | .brk :: _ => []
  | .act w :: ss => w :: run ss
  | _ :: ss => run ss

theorem update_spec {ts : List Node} {id : Nat} {τ : Nat → List Char} {f : Node → Node}
    (h : ∀ t, Knfmt.SimpleDecl.core τ (f t) = Knfmt.SimpleDecl.core τ t) :
    (update ts id f).map (Knfmt.SimpleDecl.core τ) = ts.map (Knfmt.SimpleDecl.core τ) := by
  unfold update
  rw [List.map_map]
  apply List.map_congr_left
  intro t _
  dsimp only [Function.comp]
  split
  · exact h t
  · rfl

/-- Exactly the semicolon right after `default:` gets a `break`. All other tokens and all comments stay. -/
theorem switch_break {e : Ed} {A rest : List Node} {d : Node} (he : e.ts = A ++ d :: rest) (ok : Ok e) :
    ∃ e', stmtSwitch e d.id = some e' ∧ e'.ts.flatMap fixed = e.ts.flatMap fixed ∧
      ((∃ c s R, d.type = .kDefault ∧ rest = c :: s :: R ∧ c.type = .colon ∧ s.type = .semi ∧
          words e' = (A ++ [d, c]).map (word e.text) ++ (.kBreak, "break".toList) :: (s :: R).map (word e.text)) ∨
        ((∀ c s R, d.type = .kDefault → rest = c :: s :: R → c.type = .colon → s.type ≠ .semi) ∧ e' = e)) := by
  have hr : from_ e.ts d.id = d :: rest := by
    have hd := ok.nodup
    rw [he] at hd ⊢
    exact Knfmt.Forward.from_eq (nodup_ne hd)
  unfold stmtSwitch
  rw [hr]
  match rest, he with
  | [], _ => exact ⟨e, rfl, rfl, Or.inr ⟨by simp, rfl⟩⟩
  | [c], _ => exact ⟨e, rfl, rfl, Or.inr ⟨by simp, rfl⟩⟩
  | c :: s :: R, he =>
    dsimp only
    by_cases h : d.type = .kDefault ∧ c.type = .colon ∧ s.type = .semi
    · rw [if_pos h]
      obtain ⟨e', k1, -, k3, k4, k5⟩ := insertKw_words (A := A ++ [d]) (a := c) (B := s :: R) (by rw [he]; simp) ok
        .kBreak ['b', 'r', 'e', 'a', 'k']
      rw [k1]
      obtain ⟨u1, u2, -, -⟩ := words_core (update_spec (ts := e'.ts) (id := e.fresh) (τ := e'.text)
        (f := fun t => { t with lno := t.lno + 1 }) (fun t => rfl))
      refine ⟨_, rfl, u2.trans k3, Or.inl ⟨c, s, R, h.1, rfl, h.2.1, h.2.2, ?_⟩⟩
      show (update e'.ts e.fresh fun t => { t with lno := t.lno + 1 }).map (word e'.text) = _
      rw [u1, k5]
      simp
    · rw [if_neg h]
      refine ⟨e, rfl, rfl, Or.inr ⟨?_, rfl⟩⟩
      intro c' s' R' h1 h2 h3 h4
      simp only [List.cons.injEq] at h2
      obtain ⟨rfl, rfl, rfl⟩ := h2
      exact h ⟨h1, h3, h4⟩

/-- **C71.** An empty statement after `default:` becomes `break;`. What the `switch` does from there on is as before
if and only if nothing was done afterwards: always if the case is the last one, see `switch_last_partial`, but not
otherwise, see `switch_break_fails`. -/
theorem switch_break_iff {e : Ed} {A rest : List Node} {d : Node} (he : e.ts = A ++ d :: rest) (ok : Ok e)
    {ss : List Stm} {post : List Word}
    (hw : (d :: rest).map (word e.text) = (Stm.dflt :: .empty :: ss).flatMap Stm.toks ++ post) :
    ∃ e', stmtSwitch e d.id = some e' ∧ e'.ts.flatMap fixed = e.ts.flatMap fixed ∧
      words e' = A.map (word e.text) ++ (Stm.dflt :: .brk :: ss).flatMap Stm.toks ++ post ∧
      (run (Stm.dflt :: .brk :: ss) = run (.dflt :: .empty :: ss) ↔ run ss = []) := by
  have hw' : word e.text d :: rest.map (word e.text) =
      (.kDefault, "default".toList) :: (.colon, [':']) :: wSemi :: (ss.flatMap Stm.toks ++ post) := by
    simpa [Stm.toks] using hw
  injection hw' with w1 w2
  obtain ⟨c, r1, rfl, w3, w4⟩ := List.map_eq_cons_iff.mp w2
  obtain ⟨s, R, rfl, w5, w6⟩ := List.map_eq_cons_iff.mp w4
  have t1 : d.type = .kDefault := congrArg (·.1) w1
  have t2 : c.type = .colon := congrArg (·.1) w3
  have t3 : s.type = .semi := congrArg (·.1) w5
  obtain ⟨e', h1, h2, h3⟩ := switch_break he ok
  refine ⟨e', h1, h2, ?_, ?_⟩
  · rcases h3 with ⟨c', s', R', -, h4, -, -, h5⟩ | ⟨h4, -⟩
    · simp only [List.cons.injEq] at h4
      obtain ⟨rfl, rfl, rfl⟩ := h4
      rw [h5]
      simp [w1, w3, w5, w6, Stm.toks]
    · exact absurd t3 (h4 c s R t1 rfl t2)
  · simp only [run]
    exact eq_comm

/-- **C71**, for an empty default case that is the last one. -/
theorem switch_last_partial {e : Ed} {A rest : List Node} {d : Node} (he : e.ts = A ++ d :: rest) (ok : Ok e)
    {post : List Word} (hw : (d :: rest).map (word e.text) = [Stm.dflt, .empty].flatMap Stm.toks ++ post) :
    ∃ e', stmtSwitch e d.id = some e' ∧ e'.ts.flatMap fixed = e.ts.flatMap fixed ∧
      words e' = A.map (word e.text) ++ [Stm.dflt, .brk].flatMap Stm.toks ++ post ∧
      run [Stm.dflt, .brk] = run [.dflt, .empty] := by
  obtain ⟨e', h1, h2, h3, h4⟩ := switch_break_iff he ok (ss := []) hw
  exact ⟨e', h1, h2, h3, h4.mpr rfl⟩

/-- Tokens with addresses `0`, `1`, ... and their text. -/
def ofWords (ws : List Word) : Ed :=
  { ts := toks (ws.map (·.1)), text := fun n => ((ws[n]?).map (·.2)).getD [], fresh := ws.length }

/-- **C71 is false in general.** `default: ; f();` becomes `default: break; f();`: the function is not called any
more. -/
theorem switch_break_fails : ∃ (e : Ed) (d : Node) (rest : List Node) (ss : List Stm) (post : List Word),
    e.ts = d :: rest ∧ Ok e ∧ words e = (Stm.dflt :: .empty :: ss).flatMap Stm.toks ++ post ∧
    (∃ e', stmtSwitch e d.id = some e' ∧ words e' = (Stm.dflt :: .brk :: ss).flatMap Stm.toks ++ post) ∧
    run (Stm.dflt :: .empty :: ss) = [(.ident, ['f'])] ∧ run (Stm.dflt :: .brk :: ss) = [] := by
  have hok : Ok (ofWords ([Stm.dflt, .empty, .act (.ident, ['f'])].flatMap Stm.toks ++
      [(.rbrace, ['}']), (.eof, [])])) := ⟨by decide, by decide⟩
  refine ⟨_, { id := 0, type := .kDefault }, _, [.act (.ident, ['f'])], [(.rbrace, ['}']), (.eof, [])], rfl, hok, by decide, ?_, rfl, rfl⟩
  obtain ⟨e', h1, -, h2, -⟩ := switch_break_iff (A := []) (d := { id := 0, type := .kDefault }) rfl hok
    (ss := [.act (.ident, ['f'])]) (post := [(.rbrace, ['}']), (.eof, [])]) (by decide)
  exact ⟨e', h1, h2⟩

end Knfmt.Small
