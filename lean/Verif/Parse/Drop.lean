import Verif.Parse.Base
/-!
# Removal of redundant semicolons: specification

`Tidy ts out` says that `out` is `ts` without some of its redundant semicolons: those that follow a
semicolon or a right brace, and those followed by another semicolon that is kept, or removed for the
same reason. Nothing else is removed, added, changed or moved.
-/
namespace Knfmt.Parse
open Knfmt.Lexer (TT)

namespace Spec

/-- A statement or a block ends here. -/
def ends (t : Tok) : Bool := decide (t.ty = .semi) || decide (t.ty = .rbrace)

/-- `Tidy' q ts out`: the same in the middle of a sequence, `q` tells whether the token before is the
end of a statement or a block. -/
inductive Tidy' : Bool → List Tok → List Tok → Prop where
  | nil (q : Bool) : Tidy' q [] []
  | keep (q : Bool) (t : Tok) {ts out : List Tok} : Tidy' (ends t) ts out → Tidy' q (t :: ts) (t :: out)
  | after (t : Tok) {ts out : List Tok} :
      t.ty = .semi → Tidy' true ts out → Tidy' true (t :: ts) out
  | before (q : Bool) (t u : Tok) {ts out : List Tok} :
      t.ty = .semi → u.ty = .semi → Tidy' q (u :: ts) out → Tidy' q (t :: u :: ts) out

/-- `out` is `ts` without some redundant semicolons. -/
def Tidy (ts out : List Tok) : Prop := Tidy' false ts out

end Spec

open Knfmt.Parse.Spec (ends Tidy Tidy')

namespace Spec.Tidy'

theorem ends_semi {t : Tok} (h : t.ty = .semi) : ends t = true := by simp [ends, h]

theorem refl : ∀ (q : Bool) (ts : List Tok), Tidy' q ts ts
  | q, [] => .nil q
  | q, t :: ts => .keep q t (refl _ ts)

theorem mono : ∀ {q : Bool} {ts out : List Tok}, Tidy' q ts out → Tidy' true ts out
  | _, _, _, .nil _ => .nil _
  | _, _, _, .keep _ t h => .keep _ t h
  | _, _, _, .after t h h1 => .after t h h1
  | _, _, _, .before _ t u h h' h1 => .before _ t u h h' (mono h1)

/-- The context after some tokens. -/
def ctxAfter : Bool → List Tok → Bool
  | q, [] => q
  | _, t :: ts => ctxAfter (ends t) ts

theorem append : ∀ {q : Bool} {a b x y : List Tok}, Tidy' q a b → Tidy' (ctxAfter q a) x y →
    Tidy' q (a ++ x) (b ++ y)
  | _, _, _, _, _, .nil _, h => h
  | _, _, _, _, _, .keep _ t h1, h => .keep _ t (append h1 h)
  | _, _, _, _, _, .after t ht h1, h => by
    refine .after t ht (append h1 ?_)
    simpa only [ctxAfter, ends_semi ht] using h
  | _, _, _, _, _, .before q t u ht hu h1, h => by
    refine .before q t u ht hu (append h1 ?_)
    simpa only [ctxAfter] using h

theorem semis_before {q : Bool} {out : List Tok} {u : Tok} {ts : List Tok} (hu : u.ty = .semi)
    (h : Tidy' q (u :: ts) out) :
    ∀ (ss : List Tok), (∀ t ∈ ss, t.ty = .semi) → Tidy' q (ss ++ u :: ts) out
  | [], _ => h
  | t :: ss, hs => by
    have ih := semis_before hu h ss fun x hx => hs x (List.mem_cons_of_mem _ hx)
    have ht := hs t List.mem_cons_self
    cases ss with
    | nil => exact .before q t u ht hu ih
    | cons v ss => exact .before q t v ht (hs v (by simp)) ih

/-- Where the first token kept comes from. -/
theorem uncons : ∀ {q : Bool} {a : List Tok} {t : Tok} {out : List Tok}, Tidy' q a (t :: out) →
    ∃ ss a', a = ss ++ t :: a' ∧ (∀ x ∈ ss, x.ty = .semi) ∧ Tidy' (ends t) a' out
  | _, _, _, _, .keep _ t h => ⟨[], _, rfl, by simp, h⟩
  | _, _, _, _, .after t ht h => by
    obtain ⟨ss, a', h1, h2, h3⟩ := uncons h
    exact ⟨t :: ss, a', by simp [h1], by simpa [ht] using h2, h3⟩
  | _, _, _, _, .before _ t u ht hu h => by
    obtain ⟨ss, a', h1, h2, h3⟩ := uncons h
    exact ⟨t :: ss, a', by simp [h1], by simpa [ht] using h2, h3⟩

theorem trans_aux : ∀ (n : Nat) {q : Bool} {a b c : List Tok}, a.length ≤ n → Tidy' q a b →
    Tidy' q b c → Tidy' q a c
  | 0, _, _, _, _, hn, h1, h2 => by
    cases h1 with
    | nil => exact h2
    | keep => simp at hn
    | after => simp at hn
    | before => simp at hn
  | n + 1, _, _, _, _, hn, h1, h2 => by
    cases h1 with
    | nil => exact h2
    | after t ht h => exact .after t ht (trans_aux n (by simpa using hn) h h2)
    | before q t u ht hu h => exact .before _ t u ht hu (trans_aux n (by simpa using hn) h h2)
    | keep q t h =>
      cases h2 with
      | keep q t h' => exact .keep _ t (trans_aux n (by simpa using hn) h h')
      | after t ht h' =>
        rw [ends_semi ht] at h
        exact .after t ht (trans_aux n (by simpa using hn) h h')
      | before q t u ht hu h' =>
        obtain ⟨ss, a', h3, h4, h5⟩ := uncons h
        subst h3
        have h6 := trans_aux n (by simp at hn ⊢; omega) (.keep _ u h5) h'
        exact semis_before hu h6 (t :: ss) (by simpa [ht] using h4)

theorem trans {q : Bool} {a b c : List Tok} (h1 : Tidy' q a b) (h2 : Tidy' q b c) : Tidy' q a c :=
  trans_aux a.length (Nat.le_refl _) h1 h2

theorem ctxAfter_append : ∀ (q : Bool) (a b : List Tok),
    ctxAfter q (a ++ b) = ctxAfter (ctxAfter q a) b
  | _, [], _ => rfl
  | _, t :: a, b => ctxAfter_append (ends t) a b

theorem sublist : ∀ {q : Bool} {a b : List Tok}, Tidy' q a b → b.Sublist a
  | _, _, _, .nil _ => .slnil
  | _, _, _, .keep _ t h => (sublist h).cons_cons t
  | _, _, _, .after t _ h => (sublist h).cons t
  | _, _, _, .before _ t _ _ _ h => (sublist h).cons t

/-- Nothing but semicolons is removed. -/
theorem filter : ∀ {q : Bool} {a b : List Tok}, Tidy' q a b →
    b.filter (fun t => decide (t.ty ≠ .semi)) = a.filter (fun t => decide (t.ty ≠ .semi))
  | _, _, _, .nil _ => rfl
  | _, _, _, .keep _ t h => by rw [List.filter_cons, List.filter_cons, filter h]
  | _, _, _, .after t ht h => by
    rw [filter h, List.filter_cons_of_neg (by simp [ht])]
  | _, _, _, .before _ t _ ht _ h => by
    rw [filter h, List.filter_cons_of_neg (a := t) (by simp [ht])]

/-- Nothing at all is removed if no semicolon follows a semicolon or a right brace. -/
theorem same : ∀ {q : Bool} {a b : List Tok}, Tidy' q a b →
    (q = true → ∀ t, a.head? = some t → t.ty ≠ .semi) →
    (∀ x y t u, a = x ++ t :: u :: y → ends t = true → u.ty ≠ .semi) → b = a
  | _, _, _, .nil _, _, _ => rfl
  | _, _, _, @Tidy'.keep _ t ts out h, _, h2 => by
    rw [same h]
    · intro ht u hu
      cases ts with
      | nil => simp at hu
      | cons v ts =>
        simp only [List.head?_cons, Option.some.injEq] at hu
        subst hu
        exact h2 [] _ t v rfl ht
    · intro x y v w hx
      exact h2 (t :: x) y v w (by rw [hx]; rfl)
  | _, _, _, .after t ht h, h1, _ => absurd ht (h1 rfl t rfl)
  | _, _, _, .before _ t u ht hu _, _, h2 => absurd hu (h2 [] _ t u rfl (ends_semi ht))

end Spec.Tidy'

end Knfmt.Parse
