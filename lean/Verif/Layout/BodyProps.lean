import Verif.Layout.BodySpec
import Verif.Layout.AgainProps
/-! # Formatting the declarations of a function a second time (C96) -/
namespace Knfmt.Layout
open Knfmt.Expr (Tok Ex)
open Knfmt.Util Knfmt.Spec
open Knfmt.Layout.Spec

theorem blockAgain_aft {c : Nat} {last : After} : ∀ {b : List (Decl × List Char)} {n : Nat}, b ≠ [] → lastAft (blockAgain c last n b) = last
  | [], n, h => absurd rfl h
  | [p], n, _ => rfl
  | p :: q :: ps, n, _ => by
    have e : lastAft (blockAgain c last n (p :: q :: ps)) = lastAft (blockAgain c last (n + 1) (q :: ps)) := rfl
    rw [e]
    exact blockAgain_aft (by simp)

theorem isBlock_again (H : Hand) (ln : List Decl → Nat) (d : Nat) (x : After) (s : Stmt) : isBlock (stmtAgain H ln d x s) = isBlock s := by
  cases s <;> simp [stmtAgain, isBlock]

theorem isLabel_again (H : Hand) (ln : List Decl → Nat) (d : Nat) (x : After) (s : Stmt) : isLabel (stmtAgain H ln d x s) = isLabel s := by
  cases s <;> simp [stmtAgain, isLabel]

theorem isDecls_again (H : Hand) (ln : List Decl → Nat) (d : Nat) (x : After) (s : Stmt) : isDecls (stmtAgain H ln d x s) = isDecls s := by
  cases s <;> simp [stmtAgain, isDecls]

/-- What is needed of a block: it is printed in the same way again. -/
def Same (H : Hand) (p : Nat × List Decl) : Prop :=
  (H.gaps (p.1 * H.width) p.2).length = p.2.length ∧
  ∀ n x, H.gaps (p.1 * H.width) (blockAgain (p.1 * H.width) x n (p.2.zip (H.gaps (p.1 * H.width) p.2))) = H.gaps (p.1 * H.width) p.2

theorem Same.aft {H : Hand} {d : Nat} {b : List Decl} (h : Same H (d, b)) (hb : b ≠ []) (n : Nat) (x : After) :
    lastAft (blockAgain (d * H.width) x n (b.zip (H.gaps (d * H.width) b))) = x := by
  refine blockAgain_aft fun e => hb ?_
  have e := congrArg List.length e
  have h1 : (H.gaps (d * H.width) b).length = b.length := h.1
  rw [List.length_zip, h1, Nat.min_self] at e
  exact List.length_eq_zero_iff.mp e

theorem zip_text (H : Hand) (c : Nat) (last : After) : ∀ (b : List Decl) (gs : List (List Char)) (n : Nat), gs.length = b.length →
    List.zipWith (declText H) gs (blockAgain c last n (b.zip gs)) = List.zipWith (declText H) gs b
  | [], gs, n, h => by
    obtain rfl : gs = [] := List.eq_nil_of_length_eq_zero h
    rfl
  | d :: b, [], n, h => by simp at h
  | d :: b, g :: gs, n, h => by
    rw [List.zip_cons_cons, blockAgain, List.zipWith_cons_cons, List.zipWith_cons_cons, zip_text H c last b gs _ (by simpa using h)]
    rfl

variable {H : Hand} {ln : List Decl → Nat}

theorem tidy_blank {a : After} (h : tidy a = .blank) : a = .blank := by
  unfold tidy at h
  split at h
  · assumption
  · cases h

theorem tidy_empty (a : After) : emptyLine (tidy a) = emptyLine a := by
  cases a <;> rfl

theorem none_empty {x : After} (h : x = .blank → After.none = .blank) : emptyLine .none = emptyLine x := by
  cases x
  · rfl
  · rfl
  · cases h rfl

mutual
theorem ending_again : ∀ (d : Nat) (x : After) (s : Stmt), (∀ p ∈ stmtBlocks d s, Same H p) → (x = .blank → (ending s).2 = .blank) →
    (ending (stmtAgain H ln d x s)).1 = (ending s).1 ∧ emptyLine (ending (stmtAgain H ln d x s)).2 = emptyLine x
  | d, x, .expr e a, _, _ | d, x, .ret e a, _, _ | d, x, .jump kw a, _, _ | d, x, .goto l a, _, _ | d, x, .semi a, _, _ => by
    simp [stmtAgain, ending]
  | d, x, .label sp l a, _, _ => by
    cases x <;> simp [stmtAgain, ending, emptyLine]
  | d, x, .block b a, _, _ => by simp [stmtAgain, ending]
  | d, x, .switch e b a, _, _ => by simp [stmtAgain, ending]
  | d, x, .doWhile s e a, _, _ => by simp [stmtAgain, ending]
  | d, x, .loop kw sp e s, h, g => by
    rw [stmtAgain, ending, ending]
    exact ending_again _ x s (by simpa [stmtBlocks] using h) (by simpa [ending] using g)
  | d, x, .loop3 u v w s, h, g => by
    rw [stmtAgain, ending, ending]
    exact ending_again _ x s (by simpa [stmtBlocks] using h) (by simpa [ending] using g)
  | d, x, .cond e t r, h, g => by
    rw [stmtBlocks] at h
    rw [ending] at g
    rw [stmtAgain, ending, ending]
    refine endingElse_again d x r _ _ (fun p hp => h p (List.mem_append_right _ hp)) (fun hr => ?_) g
    rw [if_pos hr]
    refine ending_again _ x t (fun p hp => h p (List.mem_append_left _ hp)) ?_
    cases r with
    | none => simpa [endingElse] using g
    | elif _ _ _ => cases hr
    | els _ => cases hr
  | d, x, .case e b, h, g => by
    rw [ending] at g
    rw [stmtAgain, ending, ending]
    refine endingBelow_again d x b _ _ (by simpa [stmtBlocks] using h) (fun hb => ⟨rfl, ?_⟩) g
    cases b with
    | nil => exact none_empty (by simpa [endingList] using g)
    | cons _ _ => cases hb
  | d, x, .decls b, h, g => by
    rw [ending] at g
    rw [stmtAgain, ending, ending]
    refine ⟨rfl, ?_⟩
    by_cases hb : b = []
    · subst hb
      exact none_empty g
    · dsimp only
      rw [(h (d, b) (by simp [stmtBlocks])).aft hb]
theorem endingElse_again : ∀ (d : Nat) (x : After) (r : Else) (y y' : Bool × After), (∀ p ∈ elseBlocks d r, Same H p) →
    (isNone r = true → y'.1 = y.1 ∧ emptyLine y'.2 = emptyLine x) → (x = .blank → (endingElse y r).2 = .blank) →
    (endingElse y' (elseAgain H ln d x r)).1 = (endingElse y r).1 ∧ emptyLine (endingElse y' (elseAgain H ln d x r)).2 = emptyLine x
  | d, x, .none, y, y', _, k, _ => by
    rw [elseAgain, endingElse, endingElse]
    exact k rfl
  | d, x, .elif e t r, y, y', h, _, g => by
    rw [elseBlocks] at h
    rw [endingElse] at g
    rw [elseAgain, endingElse, endingElse]
    refine endingElse_again d x r _ _ (fun p hp => h p (List.mem_append_right _ hp)) (fun hr => ?_) g
    rw [if_pos hr]
    refine ending_again _ x t (fun p hp => h p (List.mem_append_left _ hp)) ?_
    cases r with
    | none => simpa [endingElse] using g
    | elif _ _ _ => cases hr
    | els _ => cases hr
  | d, x, .els s, y, y', h, _, g => by
    rw [endingElse] at g
    rw [elseAgain, endingElse, endingElse]
    exact ending_again _ x s (by simpa [elseBlocks] using h) g
theorem endingBelow_again : ∀ (d : Nat) (x : After) (b : Stmts) (y y' : Bool × After), (∀ p ∈ belowBlocks d b, Same H p) →
    (isNil b = true → y'.1 = y.1 ∧ emptyLine y'.2 = emptyLine x) → (x = .blank → (endingList y b).2 = .blank) →
    (endingList y' (belowAgain H ln d x b)).1 = (endingList y b).1 ∧ emptyLine (endingList y' (belowAgain H ln d x b)).2 = emptyLine x
  | d, x, .nil, y, y', _, k, _ => by
    rw [belowAgain, endingList, endingList]
    exact k rfl
  | d, x, .cons s r, y, y', h, _, g => by
    rw [belowBlocks] at h
    rw [endingList] at g
    rw [belowAgain, endingList, endingList]
    refine endingList_again _ x r _ _ (fun p hp => h p (List.mem_append_right _ hp)) (fun hr => ?_) g
    rw [if_pos hr]
    refine ending_again _ x s (fun p hp => h p (List.mem_append_left _ hp)) ?_
    cases r with
    | nil => simpa [endingList] using g
    | cons _ _ => cases hr
theorem endingList_again : ∀ (d : Nat) (x : After) (b : Stmts) (y y' : Bool × After), (∀ p ∈ stmtsBlocks d b, Same H p) →
    (isNil b = true → y'.1 = y.1 ∧ emptyLine y'.2 = emptyLine x) → (x = .blank → (endingList y b).2 = .blank) →
    (endingList y' (stmtsAgain H ln d x b)).1 = (endingList y b).1 ∧ emptyLine (endingList y' (stmtsAgain H ln d x b)).2 = emptyLine x
  | d, x, .nil, y, y', _, k, _ => by
    rw [stmtsAgain, endingList, endingList]
    exact k rfl
  | d, x, .cons s r, y, y', h, _, g => by
    rw [stmtsBlocks] at h
    rw [endingList] at g
    rw [stmtsAgain, endingList, endingList]
    refine endingList_again _ x r _ _ (fun p hp => h p (List.mem_append_right _ hp)) (fun hr => ?_) g
    rw [if_pos hr]
    refine ending_again _ x s (fun p hp => h p (List.mem_append_left _ hp)) ?_
    cases r with
    | nil => simpa [endingList] using g
    | cons _ _ => cases hr
end

theorem top_again (d e : Nat) (x : After) (s : Stmt) : H.top d (stmtAgain H ln e x s) = H.top d s := by
  unfold Hand.top
  rw [isLabel_again]

theorem arm_again (d : Nat) (x : After) (s : Stmt) (h : lay H (armDepth d s) (stmtAgain H ln (armDepth d s) x s) = lay H (armDepth d s) s) :
    H.arm d (stmtAgain H ln (armDepth d s) x s) (fun d' => lay H d' (stmtAgain H ln (armDepth d s) x s)) = H.arm d s (fun d' => lay H d' s) := by
  unfold Hand.arm
  rw [isBlock_again, top_again]
  unfold armDepth at h ⊢
  by_cases hb : isBlock s = true
  · rw [if_pos hb] at h ⊢
    rw [if_pos hb, if_pos hb]
    dsimp only
    rw [h]
  · rw [if_neg hb] at h ⊢
    rw [if_neg hb, if_neg hb]
    dsimp only
    rw [h]

theorem before_again (d e : Nat) (s : Stmt) (h : ∀ p ∈ stmtBlocks e s, Same H p) :
    H.before d (stmtAgain H ln e (elseAfter s) s) = H.before d s := by
  unfold Hand.before
  rw [isBlock_again]
  by_cases hb : isBlock s = true
  · rw [if_pos hb, if_pos hb]
  · rw [if_neg hb, if_neg hb]
    have hx : elseAfter s = if (ending s).1 then .line else tidy (ending s).2 := by rw [elseAfter, if_neg hb]
    have k := ending_again (ln := ln) e (elseAfter s) s h (by
      rw [hx]
      split
      · intro h; cases h
      · exact tidy_blank)
    rw [k.1, k.2, hx]
    split
    · rfl
    · rw [tidy_empty]

theorem tidy_again (e : Nat) (s : Stmt) (h : ∀ p ∈ stmtBlocks e s, Same H p) :
    emptyLine (ending (stmtAgain H ln e (tidy (ending s).2) s)).2 = emptyLine (ending s).2 := by
  rw [(ending_again e _ s h tidy_blank).2, tidy_empty]

theorem next_again (d e : Nat) (s : Stmt) (h : ∀ p ∈ stmtBlocks e s, Same H p) :
    H.next d (stmtAgain H ln e (tidy (ending s).2) s) = H.next d s := by
  unfold Hand.next
  rw [tidy_again _ _ h]

mutual
theorem lay_again : ∀ (d : Nat) (x : After) (s : Stmt), (∀ p ∈ stmtBlocks d s, Same H p) → lay H d (stmtAgain H ln d x s) = lay H d s
  | d, x, .ret none a, _ | d, x, .ret (some e) a, _ => by simp [stmtAgain, lay]
  | d, x, .expr e a, _ | d, x, .jump kw a, _ | d, x, .goto l a, _ | d, x, .semi a, _ | d, x, .label sp l a, _ => by simp [stmtAgain, lay]
  | d, x, .block b a, h => by
    rw [stmtAgain, lay, lay, inside_again _ _ b (by simpa [stmtBlocks] using h)]
  | d, x, .switch e b a, h => by
    rw [stmtAgain, lay, lay, inside_again _ _ b (by simpa [stmtBlocks] using h)]
  | d, x, .doWhile s e a, h => by
    have h : ∀ p ∈ stmtBlocks (armDepth d s) s, Same H p := by simpa [stmtBlocks] using h
    rw [stmtAgain, lay, lay, arm_again d _ s (lay_again _ _ s h), isBlock_again]
    by_cases hb : isBlock s = true
    · rw [if_pos hb, if_pos hb]
    · rw [if_neg hb, if_neg hb, if_neg hb, next_again _ _ _ h]
  | d, x, .loop kw sp e s, h => by
    have h : ∀ p ∈ stmtBlocks (armDepth d s) s, Same H p := by simpa [stmtBlocks] using h
    rw [stmtAgain, lay, lay, arm_again d _ s (lay_again _ _ s h)]
  | d, x, .loop3 u v w s, h => by
    have h : ∀ p ∈ stmtBlocks (armDepth d s) s, Same H p := by simpa [stmtBlocks] using h
    rw [stmtAgain, lay, lay, arm_again d _ s (lay_again _ _ s h)]
  | d, x, .cond e t r, h => by
    rw [stmtBlocks] at h
    have h1 : ∀ p ∈ stmtBlocks (armDepth d t) t, Same H p := fun p hp => h p (List.mem_append_left _ hp)
    rw [stmtAgain, lay, lay, arm_again d _ t (lay_again _ _ t h1),
      layElse_again d x r _ (H.before d t) (fun p hp => h p (List.mem_append_right _ hp)) (fun hr => by
        rw [hr, if_neg (by simp), before_again _ _ _ h1])]
  | d, x, .case none b, h => by
    rw [stmtAgain, lay, lay, below_again d x b (by simpa [stmtBlocks] using h)]
  | d, x, .case (some e) b, h => by
    rw [stmtAgain, lay, lay, below_again d x b (by simpa [stmtBlocks] using h)]
  | d, x, .decls b, h => by
    obtain ⟨h1, h2⟩ := h (d, b) (by simp [stmtBlocks])
    dsimp only at h1 h2
    rw [stmtAgain, lay, lay, h2, zip_text H _ _ b _ _ h1]
theorem layElse_again : ∀ (d : Nat) (x : After) (r : Else) (z' z : List Char), (∀ p ∈ elseBlocks d r, Same H p) → (isNone r = false → z' = z) →
    layElse H d z' (elseAgain H ln d x r) = layElse H d z r
  | d, x, .none, z', z, _, _ => by simp [elseAgain, layElse]
  | d, x, .elif e t r, z', z, h, k => by
    obtain rfl := k rfl
    rw [elseBlocks] at h
    have h1 : ∀ p ∈ stmtBlocks (armDepth d t) t, Same H p := fun p hp => h p (List.mem_append_left _ hp)
    rw [elseAgain, layElse, layElse, arm_again d _ t (lay_again _ _ t h1),
      layElse_again d x r _ (H.before d t) (fun p hp => h p (List.mem_append_right _ hp)) (fun hr => by
        rw [hr, if_neg (by simp), before_again _ _ _ h1])]
  | d, x, .els s, z', z, h, k => by
    obtain rfl := k rfl
    have h : ∀ p ∈ stmtBlocks (armDepth d s) s, Same H p := by simpa [elseBlocks] using h
    rw [elseAgain, layElse, layElse, arm_again d _ s (lay_again _ _ s h)]
theorem below_again : ∀ (d : Nat) (x : After) (b : Stmts), (∀ p ∈ belowBlocks d b, Same H p) → below H d (belowAgain H ln d x b) = below H d b
  | d, x, .nil, _ => by simp [belowAgain]
  | d, x, .cons s r, h => by
    rw [belowBlocks] at h
    have h1 : ∀ p ∈ stmtBlocks (armDepth d s) s, Same H p := fun p hp => h p (List.mem_append_left _ hp)
    rw [belowAgain, below, below, arm_again d _ s (lay_again _ _ s h1),
      rest_again _ x r _ (emptyLine (ending s).2) (fun p hp => h p (List.mem_append_right _ hp)) (fun hr => by
        rw [hr, if_neg (by simp), tidy_again _ _ h1])]
theorem inside_again : ∀ (d : Nat) (x : After) (b : Stmts), (∀ p ∈ stmtsBlocks d b, Same H p) → inside H d (stmtsAgain H ln d x b) = inside H d b
  | d, x, .nil, _ => by simp [stmtsAgain]
  | d, x, .cons s r, h => by
    rw [stmtsBlocks] at h
    have h1 : ∀ p ∈ stmtBlocks d s, Same H p := fun p hp => h p (List.mem_append_left _ hp)
    rw [stmtsAgain, inside, inside, lay_again _ _ s h1, top_again,
      rest_again _ x r _ (emptyLine (ending s).2) (fun p hp => h p (List.mem_append_right _ hp)) (fun hr => by
        rw [hr, if_neg (by simp), tidy_again _ _ h1])]
theorem rest_again : ∀ (d : Nat) (x : After) (b : Stmts) (z' z : List Char), (∀ p ∈ stmtsBlocks d b, Same H p) → (isNil b = false → z' = z) →
    rest H d z' (stmtsAgain H ln d x b) = rest H d z b
  | d, x, .nil, z', z, _, _ => by simp [stmtsAgain, rest]
  | d, x, .cons s r, z', z, h, k => by
    obtain rfl := k rfl
    rw [stmtsBlocks] at h
    have h1 : ∀ p ∈ stmtBlocks d s, Same H p := fun p hp => h p (List.mem_append_left _ hp)
    rw [stmtsAgain, rest, rest, lay_again _ _ s h1, top_again,
      rest_again _ x r _ (emptyLine (ending s).2) (fun p hp => h p (List.mem_append_right _ hp)) (fun hr => by
        rw [hr, if_neg (by simp), tidy_again _ _ h1])]
end

theorem body_same (a x : After) (b : Stmts) (h : ∀ p ∈ stmtsBlocks 1 b, Same H p) :
    body H (openAgain a b) (stmtsAgain H ln 1 x b) = body H a b := by
  cases b with
  | nil => simp [stmtsAgain, body]
  | cons s r =>
    have e := inside_again (ln := ln) 1 x (.cons s r) h
    rw [stmtsAgain] at e ⊢
    rw [body, body, e, isDecls_again, openAgain]
    split
    · rfl
    · rw [tidy_empty]

/-- What is needed of a block read again. -/
def Tame (H : Hand) (ln : List Decl → Nat) (typ : List Tok → List Char) (p : Nat × List Decl) : Prop :=
  Block.Ok typ p.2 → ∀ x, Block.Ok typ (blockAgain (p.1 * H.width) x (ln p.2) (p.2.zip (H.gaps (p.1 * H.width) p.2)))

mutual
theorem told_again {typ : List Tok → List Char} {t : Bool} : ∀ (d : Nat) (x : After) (s : Stmt), (∀ p ∈ stmtBlocks d s, Same H p ∧ Tame H ln typ p) →
    Told t typ s → Told t typ (stmtAgain H ln d x s)
  | d, x, .expr e a, _, g | d, x, .ret e a, _, g | d, x, .jump kw a, _, g | d, x, .goto l a, _, g | d, x, .semi a, _, g | d, x, .label sp l a, _, g => by
    simpa [stmtAgain, Told] using g
  | d, x, .block b a, h, g => by
    rw [stmtAgain, Told]
    exact tolds_again _ _ b (by simpa [stmtBlocks] using h) (by simpa [Told] using g)
  | d, x, .switch e b a, h, g => by
    rw [Told] at g
    rw [stmtAgain, Told]
    exact ⟨g.1, tolds_again _ _ b (by simpa [stmtBlocks] using h) g.2⟩
  | d, x, .doWhile s e a, h, g => by
    rw [Told] at g
    have h : ∀ p ∈ stmtBlocks (armDepth d s) s, Same H p ∧ Tame H ln typ p := by simpa [stmtBlocks] using h
    rw [stmtAgain, Told, isBlock_again]
    refine ⟨told_again _ _ s h g.1, g.2.1, fun _ hb => ?_⟩
    rw [if_pos hb]
    cases s <;> simp [isBlock] at hb
    simp [stmtAgain, ending]
  | d, x, .loop kw sp e s, h, g => by
    rw [Told] at g
    rw [stmtAgain, Told]
    exact ⟨g.1, g.2.1, told_again _ _ s (by simpa [stmtBlocks] using h) g.2.2⟩
  | d, x, .loop3 u v w s, h, g => by
    rw [Told] at g
    rw [stmtAgain, Told]
    exact ⟨g.1, g.2.1, g.2.2.1, told_again _ _ s (by simpa [stmtBlocks] using h) g.2.2.2⟩
  | d, x, .cond e s r, h, g => by
    rw [stmtBlocks] at h
    rw [Told] at g
    rw [stmtAgain, Told]
    exact ⟨g.1, told_again _ _ s (fun p hp => h p (List.mem_append_left _ hp)) g.2.1,
      toldElse_again _ _ r (fun p hp => h p (List.mem_append_right _ hp)) g.2.2⟩
  | d, x, .case e b, h, g => by
    rw [Told] at g
    rw [stmtAgain, Told]
    exact ⟨g.1, toldBelow_again _ _ b (by simpa [stmtBlocks] using h) g.2⟩
  | d, x, .decls b, h, g => by
    rw [Told] at g
    rw [stmtAgain, Told]
    exact (h (d, b) (by simp [stmtBlocks])).2 g x
theorem toldElse_again {typ : List Tok → List Char} {t : Bool} : ∀ (d : Nat) (x : After) (r : Else), (∀ p ∈ elseBlocks d r, Same H p ∧ Tame H ln typ p) →
    ToldElse t typ r → ToldElse t typ (elseAgain H ln d x r)
  | d, x, .none, _, g => by simpa [elseAgain] using g
  | d, x, .elif e s r, h, g => by
    rw [elseBlocks] at h
    rw [ToldElse] at g
    rw [elseAgain, ToldElse]
    exact ⟨g.1, told_again _ _ s (fun p hp => h p (List.mem_append_left _ hp)) g.2.1,
      toldElse_again _ _ r (fun p hp => h p (List.mem_append_right _ hp)) g.2.2⟩
  | d, x, .els s, h, g => by
    rw [ToldElse] at g
    rw [elseAgain, ToldElse]
    exact told_again _ _ s (by simpa [elseBlocks] using h) g
theorem toldBelow_again {typ : List Tok → List Char} {t : Bool} : ∀ (d : Nat) (x : After) (b : Stmts), (∀ p ∈ belowBlocks d b, Same H p ∧ Tame H ln typ p) →
    Tolds t typ b → Tolds t typ (belowAgain H ln d x b)
  | d, x, .nil, _, g => by simpa [belowAgain] using g
  | d, x, .cons s r, h, g => by
    rw [belowBlocks] at h
    rw [Tolds] at g
    rw [belowAgain, Tolds]
    exact ⟨told_again _ _ s (fun p hp => h p (List.mem_append_left _ hp)) g.1,
      tolds_again _ _ r (fun p hp => h p (List.mem_append_right _ hp)) g.2⟩
theorem tolds_again {typ : List Tok → List Char} {t : Bool} : ∀ (d : Nat) (x : After) (b : Stmts), (∀ p ∈ stmtsBlocks d b, Same H p ∧ Tame H ln typ p) →
    Tolds t typ b → Tolds t typ (stmtsAgain H ln d x b)
  | d, x, .nil, _, g => by simpa [stmtsAgain] using g
  | d, x, .cons s r, h, g => by
    rw [stmtsBlocks] at h
    rw [Tolds] at g
    rw [stmtsAgain, Tolds]
    exact ⟨told_again _ _ s (fun p hp => h p (List.mem_append_left _ hp)) g.1,
      tolds_again _ _ r (fun p hp => h p (List.mem_append_right _ hp)) g.2⟩
end

mutual
theorem told_blocks {typ : List Tok → List Char} {t : Bool} : ∀ (d : Nat) (s : Stmt), Told t typ s → ∀ p ∈ stmtBlocks d s, Block.Ok typ p.2
  | d, .expr e a, _, p, h | d, .ret e a, _, p, h | d, .jump kw a, _, p, h | d, .goto l a, _, p, h | d, .semi a, _, p, h | d, .label sp l a, _, p, h => by
    simp [stmtBlocks] at h
  | d, .block b a, g, p, h => tolds_blocks (d + 1) b (by simpa [Told] using g) p (by simpa [stmtBlocks] using h)
  | d, .switch e b a, g, p, h => by
    rw [Told] at g
    exact tolds_blocks d b g.2 p (by simpa [stmtBlocks] using h)
  | d, .doWhile s e a, g, p, h => by
    rw [Told] at g
    exact told_blocks (armDepth d s) s g.1 p (by simpa [stmtBlocks] using h)
  | d, .loop kw sp e s, g, p, h => by
    rw [Told] at g
    exact told_blocks (armDepth d s) s g.2.2 p (by simpa [stmtBlocks] using h)
  | d, .loop3 x y z s, g, p, h => by
    rw [Told] at g
    exact told_blocks (armDepth d s) s g.2.2.2 p (by simpa [stmtBlocks] using h)
  | d, .cond e s r, g, p, h => by
    rw [Told] at g
    rw [stmtBlocks, List.mem_append] at h
    exact h.elim (told_blocks (armDepth d s) s g.2.1 p) (toldElse_blocks d r g.2.2 p)
  | d, .case e b, g, p, h => by
    rw [Told] at g
    exact toldBelow_blocks d b g.2 p (by simpa [stmtBlocks] using h)
  | d, .decls b, g, p, h => by
    rw [Told] at g
    rw [stmtBlocks, List.mem_singleton] at h
    rw [h]
    exact g
theorem toldElse_blocks {typ : List Tok → List Char} {t : Bool} : ∀ (d : Nat) (r : Else), ToldElse t typ r → ∀ p ∈ elseBlocks d r, Block.Ok typ p.2
  | d, .none, _, p, h => by simp [elseBlocks] at h
  | d, .elif e s r, g, p, h => by
    rw [ToldElse] at g
    rw [elseBlocks, List.mem_append] at h
    exact h.elim (told_blocks (armDepth d s) s g.2.1 p) (toldElse_blocks d r g.2.2 p)
  | d, .els s, g, p, h => by
    rw [ToldElse] at g
    exact told_blocks (armDepth d s) s g p (by simpa [elseBlocks] using h)
theorem toldBelow_blocks {typ : List Tok → List Char} {t : Bool} : ∀ (d : Nat) (b : Stmts), Tolds t typ b → ∀ p ∈ belowBlocks d b, Block.Ok typ p.2
  | d, .nil, _, p, h => by simp [belowBlocks] at h
  | d, .cons s r, g, p, h => by
    rw [Tolds] at g
    rw [belowBlocks, List.mem_append] at h
    exact h.elim (told_blocks (armDepth d s) s g.1 p) (tolds_blocks (d + 1) r g.2 p)
theorem tolds_blocks {typ : List Tok → List Char} {t : Bool} : ∀ (d : Nat) (b : Stmts), Tolds t typ b → ∀ p ∈ stmtsBlocks d b, Block.Ok typ p.2
  | d, .nil, _, p, h => by simp [stmtsBlocks] at h
  | d, .cons s r, g, p, h => by
    rw [Tolds] at g
    rw [stmtsBlocks, List.mem_append] at h
    exact h.elim (told_blocks d s g.1 p) (tolds_blocks d r g.2 p)
end

/-- The indentations of the ruler are small if the names begin in small columns. -/
theorem small_indentsAt {typ : List Tok → List Char} {ds : List Decl} (hd : ∀ d ∈ ds, d.Ok typ) {c : Nat} (hc : c % 8 = 0)
    (hs : ∀ q ∈ ds.zip (gapsAt c (rulerOf ds).1 ds), column c (leadText q.2 q.1) < 2 ^ 27) : ∀ v ∈ (rulerOf ds).2, v < 2 ^ 27 := by
  obtain ⟨out, is, g⟩ := block_exec hd
  have eo : rulerOf ds = (out.headD [], is) := by rw [rulerOf, g.exec]
  rw [eo] at hs ⊢
  dsimp only at hs ⊢
  have h := holds_block ds
  intro v hv
  obtain ⟨j, hj⟩ := List.getElem?_of_mem hv
  cases hi : (blockRuler ds).indents with
  | none =>
    have := exec_indents g.exec
    rw [hi] at this
    have : is = [] := List.length_eq_zero_iff.mp this
    rw [this] at hv
    cases hv
  | some ris =>
    have hlen := exec_indents g.exec
    rw [hi, Option.getD_some] at hlen
    have hjl : j < ris.length := by
      rw [← hlen]
      exact (List.getElem?_eq_some_iff.mp hj).1
    obtain ⟨⟨i, pos⟩, hq⟩ : ∃ q, ris[j] = q := ⟨_, rfl⟩
    have hr : ris[j]? = some (i, pos) := by rw [List.getElem?_eq_getElem hjl, hq]
    have hil : i < (ruledOf ds).length := h.inds (i, pos) (by rw [hi]; exact List.mem_of_getElem? hr)
    have hal : i < (out.headD []).length := by rw [g.length]; exact hil
    have ed : (ruledOf ds)[i]? = some (ruledOf ds)[i] := List.getElem?_eq_getElem hil
    have ea : (out.headD [])[i]? = some (out.headD [])[i] := List.getElem?_eq_getElem hal
    have hok := hd (ruledOf ds)[i] (List.mem_filter.mp (List.getElem_mem hil)).1
    have hpos : 0 < (ruledOf ds)[i].datum.len := by
      show 0 < Knfmt.Util.strwidth _ 0
      rw [(strwidth_spec _ _).2, joined_flatten]
      have hne : '\n' ∉ joined [' '] (ruledOf ds)[i].words := joined_flat (by simp) (fun w hw => (hok.words w hw).2)
      have hc := column_pos hne 0
      have : (joined [' '] (ruledOf ds)[i].words).length ≠ 0 := by
        obtain ⟨w, ws, e⟩ := List.exists_cons_of_ne_nil hok.some
        have hw1 := (hok.words w (by rw [e]; exact List.mem_cons_self ..)).1
        rw [e]
        cases ws with
        | nil => simpa [joined] using hw1
        | cons w2 ws => simp [joined]
      omega
    obtain ⟨n, e1, e2⟩ := Knfmt.Ruler.indent_aligned_partial h.built h.flags g.plain g.exec hi hr (g.entry i _ _ ed ea) hpos hc
    rw [← lead_columnAt hc (fun w hw => (hok.words w hw).2)] at e2
    have hy := hs _ (gapsAt_all c ed ea)
    dsimp only at hy
    rw [e1] at hj
    cases pos
    · simp only [Bool.false_eq_true, if_false, Option.some.injEq] at hj
      omega
    · simp only [if_true, Option.some.injEq] at hj
      omega

theorem blockAgain_lead {c : Nat} {last : After} : ∀ {b : List Decl} {gs : List (List Char)} {n : Nat} {q : Decl × List Char},
    q ∈ (blockAgain c last n (b.zip gs)).zip gs → ∃ q' ∈ b.zip gs, leadText q.2 q.1 = leadText q'.2 q'.1
  | [], gs, n, q, h => by simp [blockAgain] at h
  | d :: b, [], n, q, h => by simp at h
  | d :: b, g :: gs, n, q, h => by
    rw [List.zip_cons_cons, blockAgain, List.zip_cons_cons, List.mem_cons] at h
    rcases h with rfl | h
    · exact ⟨(d, g), List.mem_cons_self .., rfl⟩
    · obtain ⟨q', h1, h2⟩ := blockAgain_lead h
      exact ⟨q', List.mem_cons_of_mem _ h1, h2⟩

/-- The conditions for a block: its types have no tabs, it is as `Steady` says, and its names begin in small columns. -/
def Settled (S : Style) (tabs : Bool) (typ : List Tok → List Char) (p : Nat × List Decl) : Prop :=
  (∀ d ∈ p.2, Flat d) ∧ Steady p.2 ∧
    ∀ q ∈ p.2.zip ((hand S tabs typ).gaps (p.1 * S.width) p.2), column (p.1 * S.width) (leadText q.2 q.1) < 2 ^ 27

theorem settled_again {S : Style} {tabs : Bool} {typ : List Tok → List Char} (h8 : S.width % 8 = 0) {p : Nat × List Decl} (hn : p.2 ≠ [])
    (ho : ∀ d ∈ p.2, d.Ok typ) (h : Settled S tabs typ p) : Same (hand S tabs typ) p ∧ ∀ n x,
      Block.Ok typ (blockAgain (p.1 * S.width) x n (p.2.zip ((hand S tabs typ).gaps (p.1 * S.width) p.2))) := by
  obtain ⟨h1, h2, h3⟩ := h
  have hl : ((hand S tabs typ).gaps (p.1 * S.width) p.2).length = p.2.length := gapsAt_length _ _ _
  have hc : p.1 * S.width % 8 = 0 := by
    rw [Nat.mul_mod, h8]
    rfl
  have h3' : ∀ q ∈ p.2.zip (gapsAt (p.1 * S.width) (rulerOf p.2).1 p.2), column (p.1 * S.width) (leadText q.2 q.1) < 2 ^ 27 := h3
  have h5 : ∀ q ∈ p.2.zip (gapsAt (p.1 * S.width) (rulerOf p.2).1 p.2), column (p.1 * S.width) (leadText q.2 q.1) < 2 ^ 30 :=
    fun q hq => Nat.lt_trans (h3' q hq) (by decide)
  have hsame := fun n x => decls_again_partial ho h1 h2 hc n x h5
  have hok : ∀ n x, ∀ d ∈ blockAgain (p.1 * S.width) x n (p.2.zip (gapsAt (p.1 * S.width) (rulerOf p.2).1 p.2)), d.Ok typ := by
    intro n x
    obtain ⟨out, is, g⟩ := block_exec ho
    have eo : (rulerOf p.2).1 = out.headD [] := by rw [rulerOf, g.exec]
    rw [eo] at h5 ⊢
    exact again_ok ho h1 _ _ _ g h5
  refine ⟨⟨hl, hsame⟩, fun n x => ⟨?_, hok n x, fun d hd => ?_, ?_⟩⟩
  · refine blockAgain_some fun e => hn ?_
    have e := congrArg List.length e
    rw [List.length_zip, hl, Nat.min_self] at e
    exact List.length_eq_zero_iff.mp e
  · rw [blockAgain_close hd]
    simp
  · show ∀ v ∈ (rulerOf (blockAgain (p.1 * S.width) x n (p.2.zip (gapsAt (p.1 * S.width) (rulerOf p.2).1 p.2)))).2, v < 2 ^ 27
    refine small_indentsAt (hok n x) hc fun q hq => ?_
    rw [hsame] at hq
    obtain ⟨q', k1, k2⟩ := blockAgain_lead hq
    rw [k2]
    exact h3' q' k1

theorem goods_settled {S : Style} {tabs : Bool} {typ : List Tok → List Char} (h8 : S.width % 8 = 0) {b : Stmts} (hg : Goods typ b)
    (ln : List Decl → Nat) (hb : ∀ p ∈ stmtsBlocks 1 b, Settled S tabs typ p) :
    ∀ p ∈ stmtsBlocks 1 b, Same (hand S tabs typ) p ∧ Tame (hand S tabs typ) ln typ p := by
  intro p hp
  have ho := tolds_blocks 1 b hg p hp
  have h := settled_again h8 ho.some ho.decls (hb p hp)
  exact ⟨h.1, fun _ => h.2 (ln p.2)⟩

/-- C96 for the body of a function: with its declarations and empty lines read again as they were printed, the text is the
same. Indentations must be tab stops. -/
theorem body_again_partial {env : Knfmt.Doc.Env} {S : Style} {typ : List Tok → List Char} (hd : env.diff = none) (hS : Fair S typ)
    (h8 : S.width % 8 = 0) (a : After) {b : Stmts} (hg : Goods typ b) (ln : List Decl → Nat)
    (hb : ∀ p ∈ stmtsBlocks 1 b, Settled S env.useTabs typ p)
    (hw : Within env.limit 0 (body (hand S env.useTabs typ) a b)) :
    (Knfmt.Doc.docExec env false [] (funcDoc S (openAgain a b) (stmtsAgain (hand S env.useTabs typ) ln 1 .line b))).buf.reverse =
      (Knfmt.Doc.docExec env false [] (funcDoc S a b)).buf.reverse := by
  have hs := goods_settled h8 hg ln hb
  have e : body (hand S env.useTabs typ) (openAgain a b) (stmtsAgain (hand S env.useTabs typ) ln 1 .line b) = body (hand S env.useTabs typ) a b :=
    body_same a _ b fun p hp => (hs p hp).1
  rw [(C90_partial hd hS a hg hw).1, (C90_partial hd hS _ (tolds_again 1 _ b hs hg) (by rw [e]; exact hw)).1, e]

namespace Example

theorem locals_settled : ∀ p ∈ stmtsBlocks 1 locals, Settled style true typ p := by
  have h : stmtsBlocks 1 locals = [(1, blocks[0]), (1, blocks[1]), (2, blocks[1]), (2, blocks[0])] := rfl
  rw [h]
  intro p hp
  refine ⟨?_, ?_, ?_⟩
  · simp only [List.mem_cons, List.not_mem_nil, or_false] at hp
    rcases hp with rfl | rfl | rfl | rfl <;> simp [blocks, Flat]
  · right
    right
    revert p
    decide +kernel
  · revert p
    decide +kernel

/-- The hypotheses of `body_again_partial` hold for the function `locals`, with declarations at two depths. -/
example : (Knfmt.Doc.docExec { limit := 80, useTabs := true } false [] (funcDoc style (openAgain .blank locals) (stmtsAgain (hand style true typ) (fun _ => 1) 1 .line locals))).buf.reverse =
    (Knfmt.Doc.docExec { limit := 80, useTabs := true } false [] (funcDoc style .blank locals)).buf.reverse := by
  refine body_again_partial (env := { limit := 80, useTabs := true }) rfl fair (by decide) .blank locals_good (fun _ => 1) locals_settled ?_
  · have h : body (hand style true typ) .blank locals = localsOut := by decide +kernel
    show Within 80 0 (body (hand style true typ) .blank locals)
    rw [h]
    decide +kernel

end Example

end Knfmt.Layout
