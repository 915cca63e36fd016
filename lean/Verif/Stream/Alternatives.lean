import Verif.Stream.RecoverExec
/-!
# Alternatives of conditionals, clang.c:273-336, parser.c:123-169, 321-363, lexer.c:410-445, doc.c:971-995 (C76)

The parser of one declaration or function, `parser_root`, is a parameter. It stops at tokens that start an
alternative (`BRCH`). Tokens are represented by what is printed of them: the directives in front of them and the
token itself.
-/
namespace Knfmt.Branch

/-- `parser_root` is successful, stops at an alternative, or fails. -/
inductive Outcome where
  | good | brch | fail
deriving DecidableEq

/-- What `parser_root` does: the outcome and the number of tokens consumed. -/
def BRoot : Type := St → Option Nat → Outcome × Nat

/-- What is of interest in a document: `DOC_MUTE` with 1, with -1, and tokens with their directives. -/
inductive Ev where
  | off
  | on
  | tok (dirs : List Nat) (t : Nat)
deriving DecidableEq

/-- `token_is_branch(nx)`, parser.c:356-360. -/
def offNext (σ : St) : List Nat → List Ev
  | [] => []
  | n :: _ => if σ.flag n then [Ev.off] else []

/-- `parser_doc_token`, parser.c:321-363, for the first `k` of the tokens that are left, given
`pr_token.unmute`: documents and `pr_token.unmute` afterwards. Prefixes other than directives and suffixes are
left out. With `once` set, documents are assumed not to be muted while they already are, which they are. -/
def emit (once : Bool) (σ : St) : Option Nat → List Nat → Nat → List Ev × Option Nat
  | um, _, 0 => ([], um)
  | um, [], _ + 1 => ([], um)
  | um, t :: ts, k + 1 =>
    let um' := if um = some t then none else um
    let r := emit once σ um' ts k
    ((if um = some t then [Ev.on] else []) ++ Ev.tok (σ.prefixes t) t ::
      ((if once && um'.isSome then [] else offNext σ ts) ++ r.1), r.2)

/-- `doc_exec_mute`, doc.c:971-995, and the printing of tokens unless muted: what is printed and `st_mute`
afterwards. -/
def play : Nat → List Ev → List (List Nat × Nat) × Nat
  | m, [] => ([], m)
  | m, .off :: l => play (m + 1) l
  | m, .on :: l => play (m - 1) l
  | m, .tok ds t :: l => let r := play m l; (if m = 0 then (ds, t) :: r.1 else r.1, r.2)

/-- The state of `parser_exec`: directives and tokens, the last token consumed, the stamps, last one first,
`pr_token.unmute` and the documents. -/
structure BRun where
  σ : St
  pos : Option Nat := none
  stamps : List Nat := []
  um : Option Nat := none
  evs : List Ev := []

/-- One round of `parser_exec`, parser.c:138-169, the result being the documents at the end of the file, and
`none` upon an error. What happens if `parser_root` fails is not part of this, see `round`. -/
def bround (once : Bool) (root : BRoot) (X : BRun) : BRun ⊕ Option (List Ev) :=
  match after X.σ.toks X.pos with
  | [] => .inr none
  | e :: tl =>
    if tl = [] ∧ X.σ.flag e = false then
      .inr (some (X.evs ++ if X.σ.prefixes e = [] then [] else (emit once X.σ X.um [e] 1).1))
    else
      match root X.σ X.pos with
      | (.fail, _) => .inr none
      | (.good, k) =>
        let r := emit once X.σ X.um (e :: tl) k
        let pos := ((e :: tl).take k).getLast?.or X.pos
        .inl { X with pos := pos, stamps := pos.toList ++ X.stamps, um := r.2, evs := X.evs ++ r.1 }
      | (.brch, k) =>
        let r := emit once X.σ X.um (e :: tl) k
        match (e :: tl)[k]? with
        | none => .inr none
        | some back =>
          match branch X.σ back with
          | none => .inr none
          | some (σ', um) =>
            let seek := lastStamped σ' X.stamps
            if after σ'.toks seek = [] then .inr none
            else .inl { σ := σ', pos := seek, stamps := X.stamps, um := some um, evs := X.evs ++ r.1 }

/-- The loop of `parser_exec`, parser.c:138-169. -/
def bexec (once : Bool) (root : BRoot) : Nat → BRun → Option (Option (List Ev))
  | 0, _ => none
  | fuel + 1, X =>
    match bround once root X with
    | .inl X => bexec once root fuel X
    | .inr r => some r

end Knfmt.Branch

namespace Knfmt.Spec

open Knfmt.Branch

/-- What is printed of a document. -/
def shown (l : List Ev) : List (List Nat × Nat) := (play 0 l).1

/-- All there is: every token with the directives in front of it in the file, in order. Of the end of the file
only directives matter. -/
def allOf (F : File) : List (List Nat × Nat) :=
  ((List.range F.ntoks).map fun t => ((List.range F.n).filter (fun i => F.owner i = t), t)).filter
    fun p => decide (p.1 ≠ [] ∨ p.2 + 1 ≠ F.ntoks)

/-- A parser that never fails, consumes at least one token if it is successful and never the end of the file,
and stops where alternatives start, having emitted all before. Nothing is said of what it does at the end of the
file, it is not used there. -/
def BRoot.Ok (root : BRoot) : Prop :=
  ∀ σ pos r k, (∀ e, after σ.toks pos = [e] → σ.flag e = true) → after σ.toks pos ≠ [] →
    root σ pos = (r, k) → r ≠ .fail ∧ (∀ t ∈ (after σ.toks pos).take k, σ.flag t = false) ∧
    (r = .good → 0 < k ∧ k < (after σ.toks pos).length) ∧
    (r = .brch → ∃ t, (after σ.toks pos)[k]? = some t ∧ σ.flag t = true)

/-- The directive starts an alternative, the one before it belongs to another token. -/
def Starts (σ : St) (t i : Nat) : Prop :=
  i ∈ σ.prefixes t ∧ (σ.dir i).type = .cppElse ∧ ∃ p, (σ.dir i).pv = some p ∧ (σ.dir i).parent ≠ (σ.dir p).parent

/-- No token starts alternatives of two conditionals at once. -/
def Single (σ : St) : Prop := ∀ t i j, Starts σ t i → Starts σ t j → i = j

/-- At the start. -/
def bstart (F : File) : BRun := { σ := F.final }

end Knfmt.Spec

namespace Knfmt.Branch

open Knfmt.Spec

theorem play_append (l l' : List Ev) : ∀ m, play m (l ++ l') =
    ((play m l).1 ++ (play (play m l).2 l').1, (play (play m l).2 l').2) := by
  induction l with
  | nil => intro m; rfl
  | cons e l ih =>
    intro m
    cases e with
    | off => simp only [List.cons_append, play]; exact ih _
    | on => simp only [List.cons_append, play]; exact ih _
    | tok ds t =>
      simp only [List.cons_append, play, ih]
      by_cases h : m = 0 <;> simp [h]

/-- Whether the next token makes documents muted. -/
def mt (σ : St) : List Nat → Nat
  | [] => 0
  | n :: _ => if σ.flag n then 1 else 0

def item (σ : St) (t : Nat) : List Nat × Nat := (σ.prefixes t, t)

theorem emit_none (once : Bool) (σ : St) : ∀ (k : Nat) (rest : List Nat), (∀ t ∈ rest.take k, σ.flag t = false) →
    play (mt σ rest) (emit once σ none rest k).1 = ((rest.take k).map (item σ), mt σ (rest.drop k)) ∧
    (emit once σ none rest k).2 = none := by
  intro k
  induction k with
  | zero => intro rest _; cases rest <;> exact ⟨rfl, rfl⟩
  | succ k ih =>
    intro rest h
    cases rest with
    | nil => exact ⟨rfl, rfl⟩
    | cons t ts =>
      have h0 : σ.flag t = false := h t (by simp)
      obtain ⟨g1, g2⟩ := ih ts (fun u hu => h u (by simp [hu]))
      have hm : mt σ (t :: ts) = 0 := by simp [mt, h0]
      refine ⟨?_, ?_⟩
      · rw [hm]
        simp only [emit, reduceCtorEq, if_false, List.nil_append, play, if_true, Option.isSome_none, Bool.and_false,
          Bool.false_eq_true]
        have hb : play 0 (offNext σ ts ++ (emit once σ none ts k).1) = play (mt σ ts) (emit once σ none ts k).1 := by
          cases ts with
          | nil => rfl
          | cons n ts =>
            simp only [mt, offNext]
            cases σ.flag n <;> rfl
        rw [hb, g1]
        simp [item]
      · simp only [emit, reduceCtorEq, if_false]
        exact g2

theorem emit_some (once : Bool) (σ : St) (front : Nat) (post : List Nat)
    (hf : once = true ∨ σ.flag front = false) :
    ∀ (k : Nat) (pre : List Nat), (∀ t ∈ pre, t ≠ front ∧ σ.flag t = false) →
    (∀ t ∈ (pre ++ front :: post).take k, σ.flag t = false) →
    if k ≤ pre.length then
      play 1 (emit once σ (some front) (pre ++ front :: post) k).1 = ([], 1) ∧
      (emit once σ (some front) (pre ++ front :: post) k).2 = some front
    else
      play 1 (emit once σ (some front) (pre ++ front :: post) k).1 =
        (((front :: post).take (k - pre.length)).map (item σ), mt σ ((front :: post).drop (k - pre.length))) ∧
      (emit once σ (some front) (pre ++ front :: post) k).2 = none := by
  intro k
  induction k with
  | zero =>
    intro pre _ _
    rw [if_pos (Nat.zero_le _)]
    cases pre <;> exact ⟨rfl, rfl⟩
  | succ k ih =>
    intro pre hp h
    cases pre with
    | nil =>
      rw [if_neg (by simp)]
      have hf : σ.flag front = false := h front (by simp)
      obtain ⟨g1, g2⟩ := emit_none once σ (k + 1) (front :: post) h
      have hm : mt σ (front :: post) = 0 := by simp [mt, hf]
      rw [hm] at g1
      refine ⟨?_, ?_⟩
      · simp only [List.nil_append, List.length_nil, Nat.sub_zero]
        rw [← g1]
        simp only [emit, if_true, reduceCtorEq, if_false, List.cons_append, List.nil_append]
        rfl
      · simp only [List.nil_append, emit, if_true] at g2 ⊢
        simpa using g2
    | cons t pre =>
      obtain ⟨ht, hft⟩ := hp t (by simp)
      have g := ih pre (fun u hu => hp u (by simp [hu])) (fun u hu => h u (by simp only [List.cons_append, List.take_succ_cons, List.mem_cons]; exact Or.inr hu))
      have hn : ¬ (some front = some t) := fun e => ht (Option.some.inj e).symm
      have hnext : (if once && (some front).isSome then [] else offNext σ (pre ++ front :: post)) = [] := by
        rcases hf with hf | hf
        · simp [hf]
        · have : offNext σ (pre ++ front :: post) = [] := by
            cases pre with
            | nil => simp [offNext, hf]
            | cons a pre => simp [offNext, (hp a (by simp)).2]
          rw [this]
          simp
      have e1 : (emit once σ (some front) (t :: pre ++ front :: post) (k + 1)).1 =
          Ev.tok (σ.prefixes t) t :: (emit once σ (some front) (pre ++ front :: post) k).1 := by
        simp only [List.cons_append, emit, if_neg hn, List.nil_append]
        rw [hnext]
        rfl
      have e2 : (emit once σ (some front) (t :: pre ++ front :: post) (k + 1)).2 =
          (emit once σ (some front) (pre ++ front :: post) k).2 := by
        simp only [List.cons_append, emit, if_neg hn]
      rw [e1, e2]
      have e3 : ∀ l, play 1 (Ev.tok (σ.prefixes t) t :: l) = play 1 l := by
        intro l; simp [play]
      rw [e3]
      by_cases hk : k ≤ pre.length
      · rw [if_pos hk] at g
        rw [if_pos (by simpa using hk)]
        exact g
      · rw [if_neg hk] at g
        rw [if_neg (by simpa using hk)]
        simpa using g

/-! ## Taking an alternative -/

theorem Starts.linked {o : Nat → Nat} {σ : St} (h : WF o σ) {t i : Nat} (hs : Starts σ t i) :
    ∃ a p b, b ≠ [] ∧ Linked σ.dir o (a ++ p :: i :: b) ∧ o i = t ∧ o p ≠ t := by
  obtain ⟨hi, ht, p, hp, hne⟩ := hs
  rcases h.part i with h0 | ⟨c, hic, hc⟩
  · rw [h0] at hp; cases hp
  · obtain ⟨a, b, rfl⟩ := List.append_of_mem hic
    have hd := Linked.at hc
    rw [hd] at hp ht
    simp only at hp ht
    have hb : b ≠ [] := by
      rintro rfl
      by_cases ha : a = [] <;> simp [ha] at ht
    obtain ⟨a', rfl⟩ : ∃ a', a = a' ++ [p] := by
      have hane : a ≠ [] := by rintro rfl; simp at hp
      refine ⟨a.dropLast, ?_⟩
      rw [List.getLast?_eq_some_getLast hane] at hp
      rw [← Option.some.inj hp, List.dropLast_concat_getLast]
    have ho := h.own i t hi
    refine ⟨a', p, b, hb, by simpa using hc, ho.symm, ?_⟩
    intro e
    apply hne
    have e1 : a' ++ [p] ++ i :: b = a' ++ p :: i :: b := by simp
    rw [hd]
    rw [e1] at hc
    rw [Linked.at hc, e, ← ho]

theorem Starts.of_linked {o : Nat → Nat} {σ : St} (h : WF o σ) {a b : List Nat} {p i : Nat} (hb : b ≠ [])
    (hc : Linked σ.dir o (a ++ p :: i :: b)) (hne : o p ≠ o i) : Starts σ (o i) i := by
  have e1 : a ++ p :: i :: b = (a ++ [p]) ++ i :: b := by simp
  have hp := Linked.at hc
  have hc' := hc
  rw [e1] at hc
  have hi := Linked.at hc
  refine ⟨(h.here i (Linked.ne_plain hc' (by simp))).1, ?_, p, ?_, ?_⟩
  · rw [hi]; simp [hb]
  · rw [hi]; simp
  · rw [hi, hp]
    simpa using fun e => hne e.symm

/-- The alternative taken does not start one any more, no other token does that did not before. -/
theorem branch_starts {o : Nat → Nat} {σ : St} {back : Nat} (h : Good o σ)
    (hfront : ∀ t ∈ σ.toks, σ.flag t = true → back ≤ t) (hback : σ.flag back = true) :
    ∃ σ', branch σ back = some (σ', back) ∧ back ∈ σ'.toks ∧ Good o σ' ∧ σ'.toks.length < σ.toks.length ∧ (Single σ → Single σ') ∧
      (∀ t ∈ σ'.toks, t ∈ σ.toks ∧ σ'.prefixes t = σ.prefixes t ∧
        (σ'.flag t = true → back ≤ t ∧ (Single σ → back < t))) ∧
      (∀ t ∈ σ.toks, back ≤ t → t ∈ σ'.toks) := by
  obtain ⟨src, σ', hfind, hb, hos, hst, hbt, g1, g2, g3, g4, _⟩ :=
    branch_removes h.wf h.ordered h.toks hback
  obtain ⟨hg, hlen⟩ := branch_good h hb
  have hmem : ∀ t, t ∈ σ'.toks ↔ t ∈ σ.toks ∧ ¬ (o src ≤ t ∧ t < back) := by
    intro t
    rw [g2, List.mem_filter]
    simp only [Bool.not_eq_true', Bool.and_eq_false_iff, decide_eq_false_iff_not]
    refine and_congr_right fun _ => ?_
    omega
  -- what is removed
  generalize hR : (fun x => decide (x = src) || σ.toks.any (fun t =>
    decide (o src ≤ t) && decide (t < back) && decide (x ∈ σ.prefixes t))) = R at g3
  have hRo : ∀ x, R x = true → x = src ∨ (o src ≤ o x ∧ o x < back) := by
    intro x hx
    rw [← hR] at hx
    simp only [Bool.or_eq_true, decide_eq_true_eq, List.any_eq_true, Bool.and_eq_true] at hx
    rcases hx with hx | ⟨t, _, ⟨h1, h2⟩, h3⟩
    · exact Or.inl hx
    · rw [h.wf.own x t h3] at h1 h2
      exact Or.inr ⟨h1, h2⟩
  have hRi : ∀ x, σ.dir x ≠ {} → o src ≤ o x → o x < back → R x = true := by
    intro x hx h1 h2
    obtain ⟨h3, h4⟩ := h.wf.here x hx
    rw [← hR]
    simp only [Bool.or_eq_true, decide_eq_true_eq, List.any_eq_true, Bool.and_eq_true]
    exact Or.inr ⟨o x, h4, ⟨h1, h2⟩, h3⟩
  -- nothing new starts
  have hnew : ∀ t i, t ∈ σ'.toks → Starts σ' t i → Starts σ t i := by
    intro t i ht hi
    obtain ⟨a, p, b, hbne, hc, hoi, hop⟩ := Starts.linked hg.wf hi
    have hi' : σ.dir i ≠ {} := fun h0 => Linked.ne_plain hc (by simp) (g3.plain i h0)
    rcases h.wf.part i with h0 | ⟨c, hic, hcl⟩
    · exact absurd h0 hi'
    have hi2 : σ'.dir i ≠ {} := Linked.ne_plain hc (by simp)
    have hlen2 : 2 ≤ (c.filter (fun x => !R x)).length := by
      apply Classical.byContradiction
      intro hl
      exact hi2 (g3.last c hcl (by omega) i hic)
    have hc2 := g3.rest c hcl hlen2
    have hRi' : R i = false := by
      cases hRx : R i with
      | false => rfl
      | true => exact absurd (g3.gone i hRx) hi2
    obtain ⟨x, y, rfl⟩ := List.append_of_mem hic
    rw [List.filter_append, List.filter_cons_of_pos (by simp [hRi'])] at hc2
    have hd2 := Linked.at hc2
    have e1 : a ++ p :: i :: b = (a ++ [p]) ++ i :: b := by simp
    have hd1 : σ'.dir i = _ := Linked.at (e1 ▸ hc)
    rw [hd2] at hd1
    have hxy : x.filter (fun x => !R x) ≠ [] ∧ y.filter (fun x => !R x) ≠ [] ∧
        (x.filter (fun x => !R x)).getLast? = some p := by
      have ht := congrArg Dir.type hd1
      have hp := congrArg Dir.pv hd1
      simp only at ht hp
      refine ⟨?_, ?_, ?_⟩
      · intro e; rw [e] at hp; simp at hp
      · intro e; rw [e] at ht
        simp [hbne] at ht
        split at ht <;> cases ht
      · rw [hp]; simp
    obtain ⟨hx, hy, hxp⟩ := hxy
    have hxne : x ≠ [] := by rintro rfl; simp at hx
    have hyne : y ≠ [] := by rintro rfl; simp at hy
    obtain ⟨x', q, rfl⟩ : ∃ x' q, x = x' ++ [q] := ⟨x.dropLast, x.getLast hxne, (List.dropLast_concat_getLast hxne).symm⟩
    have hcl' : Linked σ.dir o (x' ++ q :: i :: y) := by simpa using hcl
    rw [← hoi]
    refine Starts.of_linked h.wf hyne hcl' ?_
    intro hq
    -- the directive before is not removed
    have hRq : R q = false := by
      cases hRx : R q with
      | false => rfl
      | true =>
        exfalso
        have hti := (hmem t).1 ht
        rcases hRo q hRx with e | e
        · subst e
          rw [hoi] at hq
          exact hti.2 ⟨Nat.le_of_eq hq, by omega⟩
        · rw [hq, hoi] at e
          exact hti.2 e
    rw [List.filter_append, List.filter_cons_of_pos (by simp [hRq]), List.filter_nil, List.getLast?_concat] at hxp
    have hqp : q = p := Option.some.inj hxp
    rw [hqp, hoi] at hq
    exact hop hq
  have hown : ∀ t i, Starts σ' t i → t ∈ σ'.toks := by
    intro t i hi
    obtain ⟨a, p, b, hbne, hc, hoi, hop⟩ := Starts.linked hg.wf hi
    have := (hg.wf.here i (Linked.ne_plain hc (by simp))).2
    rwa [hoi] at this
  refine ⟨σ', hb, (hmem _).2 ⟨hbt, by omega⟩, hg, hlen, ?_, ?_, ?_⟩
  · intro hs t i j hi hj
    exact hs t i j (hnew t i (hown t i hi) hi) (hnew t j (hown t j hj) hj)
  · intro t ht
    refine ⟨((hmem t).1 ht).1, g4 t ht, ?_⟩
    intro hf
    obtain ⟨i, hi⟩ := (hg.wf.flags t).1 hf
    have hi' : Starts σ' t i := hi
    have hold := hnew t i ht hi'
    have hle := hfront t ((hmem t).1 ht).1 ((h.wf.flags t).2 ⟨i, hold⟩)
    refine ⟨hle, fun hs => Nat.lt_of_le_of_ne hle ?_⟩
    intro he
    subst he
    -- the directive that started the alternative
    have : ∃ j, Starts σ back j ∧ (σ.dir j).pv = some src := by
      have hfind' := hfind
      unfold find at hfind'
      obtain ⟨j, hj, hval⟩ := List.exists_of_findSome?_eq_some hfind'
      refine ⟨j, ?_⟩
      split at hval
      · cases hval
      · rename_i ht
        split at hval
        · cases hval
        · rename_i q hq
          split at hval
          · rename_i hpar
            obtain rfl := Option.some.inj hval
            exact ⟨⟨hj, by simpa using ht, q, hq, hpar⟩, hq⟩
          · cases hval
    obtain ⟨j, hj, hjp⟩ := this
    have hij := hs back i j hold hj
    subst hij
    obtain ⟨a, p, b, hbne, hc, hoi, hop⟩ := Starts.linked h.wf hj
    have hp : p = src := by
      have e1 : a ++ p :: i :: b = (a ++ [p]) ++ i :: b := by simp
      rw [e1] at hc
      rw [Linked.at hc] at hjp
      simpa using hjp
    subst hp
    -- all directives before belong to the same token
    have hall : ∀ (z : List Nat) (y : List Nat) (w : Nat), a = y ++ w :: z → o w = o p := by
      intro z
      induction z with
      | nil =>
        intro y w e
        apply Classical.byContradiction
        intro hne
        have hc' : Linked σ.dir o (y ++ w :: p :: (i :: b)) := by rw [e] at hc; simpa using hc
        have := Starts.of_linked h.wf (by simp) hc' hne
        have hle := hfront _ hst ((h.wf.flags _).2 ⟨p, this⟩)
        omega
      | cons v z ih =>
        intro y w e
        have hv := ih (y ++ [w]) v (by rw [e]; simp)
        apply Classical.byContradiction
        intro hne
        rw [← hv] at hne
        have hc' : Linked σ.dir o (y ++ w :: v :: (z ++ p :: i :: b)) := by rw [e] at hc; simpa using hc
        have := Starts.of_linked h.wf (by simp) hc' hne
        rw [hv] at this
        have hle := hfront _ hst ((h.wf.flags _).2 ⟨v, this⟩)
        omega
    have hRa : ∀ w ∈ a ++ [p], R w = true := by
      intro w hw
      have how : o w = o p := by
        rcases List.mem_append.1 hw with hw | hw
        · obtain ⟨y, z, e⟩ := List.append_of_mem hw
          exact hall z y w e
        · rw [List.mem_singleton.1 hw]
      refine hRi w (Linked.ne_plain hc ?_) (Nat.le_of_eq how.symm) (by omega)
      rcases List.mem_append.1 hw with hw | hw
      · simp [hw]
      · rw [List.mem_singleton.1 hw]; simp
    -- so it is the first one now
    obtain ⟨a2, p2, b2, _, hc2, _, _⟩ := Starts.linked hg.wf hi'
    have hi2 : σ'.dir i ≠ {} := Linked.ne_plain hc2 (by simp)
    have e1 : a ++ p :: i :: b = (a ++ [p]) ++ i :: b := by simp
    rw [e1] at hc
    have hlen2 : 2 ≤ (((a ++ [p]) ++ i :: b).filter (fun x => !R x)).length := by
      apply Classical.byContradiction
      intro hl
      exact hi2 (g3.last _ hc (by omega) i (by simp))
    have hc3 := g3.rest _ hc hlen2
    have hRi' : R i = false := by
      cases hRx : R i with
      | false => rfl
      | true => exact absurd (g3.gone i hRx) hi2
    rw [List.filter_append, List.filter_eq_nil_iff.2 (fun w hw => by simp [hRa w hw]),
      List.filter_cons_of_pos (by simp [hRi'])] at hc3
    have := Linked.at hc3
    have ht := hi'.2.1
    rw [this] at ht
    simp at ht
  · intro t ht hle
    exact (hmem t).2 ⟨ht, by omega⟩

end Knfmt.Branch
