import Verif.Simple.Loop
import Verif.Simple.Proto
import Verif.Simple.PrintfProps
/-!
# A second run finds nothing left to simplify (C81)

What a simplification made is printed and, in the second run, read again as other tokens. These have the same
types, the same texts and the same comments.
-/
namespace Knfmt.Small

open Knfmt.Lexer (TT)
open Knfmt.Stream (Node Fix)
open Knfmt.Stmt (node pos next prev isMoveable removeId)
open Knfmt.Forward (from_ update)
open Knfmt.SimpleDecl (Ed insertKw fixed Word word)

/-- What is read again of a token: its type, its comments and directives. -/
def look (t : Node) : TT × List Fix := (t.type, fixed t)

/-- `B` is what `A` is read as. -/
def Reads (A B : List Node) : Prop := B.map look = A.map look

theorem Reads.length {A B : List Node} (h : Reads A B) : B.length = A.length := by
  have := congrArg List.length h
  simpa using this

theorem Reads.types {A B : List Node} (h : Reads A B) : B.map (·.type) = A.map (·.type) := by
  have := congrArg (List.map Prod.fst) h
  rw [List.map_map, List.map_map] at this
  exact this

theorem Reads.cons {a : Node} {A B : List Node} (h : Reads (a :: A) B) :
    ∃ b B', B = b :: B' ∧ b.type = a.type ∧ fixed b = fixed a ∧ Reads A B' := by
  cases B with
  | nil => simp [Reads] at h
  | cons b B =>
    simp only [Reads, List.map_cons, List.cons.injEq, look, Prod.mk.injEq] at h
    exact ⟨b, B, rfl, h.1.1, h.1.2, h.2⟩

theorem Reads.append {A1 A2 B : List Node} (h : Reads (A1 ++ A2) B) :
    ∃ B1 B2, B = B1 ++ B2 ∧ Reads A1 B1 ∧ Reads A2 B2 := by
  unfold Reads at h
  rw [List.map_append] at h
  obtain ⟨B1, B2, rfl, h1, h2⟩ := List.map_eq_append_iff.mp h
  exact ⟨B1, B2, rfl, h1, h2⟩

theorem Reads.symm {A B : List Node} (h : Reads A B) : Reads B A := Eq.symm h

/-! ## `static` -/

theorem StaticStays.reads {A B : List Node} (h : Reads A B) (hs : StaticStays A) : StaticStays B := by
  rcases hs with hs | ⟨A1, s, A2, rfl, h1, h2, h3⟩
  · left
    intro t ht
    have := h.types
    have hm : t.type ∈ B.map (·.type) := List.mem_map_of_mem ht
    rw [this] at hm
    obtain ⟨u, hu, e⟩ := List.mem_map.mp hm
    rw [← e]
    exact hs u hu
  · obtain ⟨B1, B2, rfl, r1, r2⟩ := h.append
    obtain ⟨b, B3, rfl, k1, k2, r3⟩ := r2.cons
    refine Or.inr ⟨B1, b, B3, rfl, ?_, k1.trans h2, by rw [k2]; exact h3⟩
    intro t ht
    have hm : t.type ∈ B1.map (·.type) := List.mem_map_of_mem ht
    rw [r1.types] at hm
    obtain ⟨u, hu, e⟩ := List.mem_map.mp hm
    rw [← e]
    exact h1 u hu

/-- Nothing is done about a type that begins with `static`. -/
theorem simpleStatic_head {ts pre S post : List Node} {b : Node} (e : ts = pre ++ (b :: S) ++ post)
    (hd : (ts.map (·.id)).Nodup) (hb : b.type = .kStatic) (fin : Nat) : simpleStatic ts b.id fin = some (ts, fin) := by
  have hfrom : from_ ts b.id = b :: (S ++ post) := by
    rw [e, List.append_assoc, List.cons_append] at hd ⊢
    exact Knfmt.Forward.from_eq (nodup_ne hd)
  unfold simpleStatic
  rw [hfrom]
  simp [findStatic, hb]

/-- **C81**, `static`. The type is in the result of the first run as told, and if it is read again nothing is
done. -/
theorem static_twice {ts pre spec post : List Node} {beg fin : Node} (e : ts = pre ++ spec ++ post)
    (hd : (ts.map (·.id)).Nodup) (hb : spec.head? = some beg) (hf : spec.getLast? = some fin) :
    ∃ ts' fin' pre' spec' post', simpleStatic ts beg.id fin.id = some (ts', fin') ∧ ts' = pre' ++ spec' ++ post' ∧
      pre'.map key = pre.map key ∧ post'.map key = post.map key ∧ spec'.getLast?.map (·.id) = some fin' ∧
      ∀ {ts2 pre2 spec2 post2 : List Node} {beg2 fin2 : Node}, ts2 = pre2 ++ spec2 ++ post2 →
        (ts2.map (·.id)).Nodup → spec2.head? = some beg2 → spec2.getLast? = some fin2 → Reads spec' spec2 →
        simpleStatic ts2 beg2.id fin2.id = some (ts2, fin2.id) := by
  obtain ⟨ts', fin', sp, h1, h2, h3, h4, -⟩ := static_first_partial e hd hb hf
  have h2' := h2
  rw [List.map_append, List.map_append] at h2'
  obtain ⟨q, post', rfl, hq, hpost⟩ := List.map_eq_append_iff.mp h2'
  obtain ⟨pre', spec', rfl, hpre, hspec⟩ := List.map_eq_append_iff.mp hq
  have hids : spec'.map (·.id) = sp.map (·.id) := by
    have := congrArg (List.map Prod.fst) hspec
    rw [List.map_map, List.map_map] at this
    exact this
  have htys : spec'.map (·.type) = sp.map (·.type) := by
    have := congrArg (List.map Prod.snd) hspec
    rw [List.map_map, List.map_map] at this
    exact this
  refine ⟨_, fin', pre', spec', post', h1, rfl, hpre, hpost, ?_, ?_⟩
  · rw [← List.getLast?_map, hids, List.getLast?_map]
    exact h4
  · intro ts2 pre2 spec2 post2 beg2 fin2 e2 hd2 hb2 hf2 hr
    rcases h3 with ⟨k1, k2, rfl⟩ | ⟨-, A, s, B, k1, k2, k3, rfl⟩
    · have hlen1 : pre'.length = pre.length := by have := congrArg List.length hpre; simpa using this
      have hlen2 : spec'.length = sp.length := by have := congrArg List.length hspec; simpa using this
      have hsp : spec' = sp := by
        rw [e] at k2
        exact (List.append_inj (List.append_inj k2 (by simp [hlen1, hlen2])).1 hlen1).2
      rw [hsp] at hr
      have hst := k1.reads hr
      obtain ⟨ts3, fin3, sp3, g1, -, g3, g4, -⟩ := static_first_partial e2 hd2 hb2 hf2
      rcases g3 with ⟨-, g5, g6⟩ | ⟨g5, -⟩
      · subst g5 g6
        rw [hf2] at g4
        simp only [Option.map_some, Option.some.injEq] at g4
        rw [g1, g4]
      · exact absurd hst g5
    · have hty := hr.types.trans htys
      cases spec2 with
      | nil => simp at hty
      | cons b S =>
        simp only [List.map_cons, List.cons.injEq] at hty
        simp only [List.head?_cons, Option.some.injEq] at hb2
        subst hb2
        exact simpleStatic_head e2 hd2 (hty.1.trans k3) _

/-! ## `int` -/

/-- **C81**, `int`. -/
theorem implicit_int_twice {e : Ed} {pre spec post : List Node} {beg fin : Node} (he : e.ts = pre ++ spec ++ post)
    (ok : Ok e) (hb : spec.head? = some beg) (hf : spec.getLast? = some fin) :
    ∃ e' fin' pre' spec' post', simpleImplicitInt e beg.id fin.id = some (e', fin') ∧ e'.ts = pre' ++ spec' ++ post' ∧
      pre'.map key = pre.map key ∧ post'.map key = post.map key ∧ spec'.getLast?.map (·.id) = some fin' ∧
      ∀ {e2 : Ed} {pre2 spec2 post2 : List Node} {beg2 fin2 : Node}, e2.ts = pre2 ++ spec2 ++ post2 → Ok e2 →
        spec2.head? = some beg2 → spec2.getLast? = some fin2 → Reads spec' spec2 →
        simpleImplicitInt e2 beg2.id fin2.id = some (e2, fin2.id) := by
  obtain ⟨e', fin', h1, -, h3⟩ := implicit_int he ok hb hf
  rcases h3 with ⟨t, n, rfl, k1, k2, k3, rfl, k4, -⟩ | ⟨k1, rfl, rfl⟩
  · rw [List.map_append, List.append_assoc] at k4
    obtain ⟨pre', q, hts, hpre, hq⟩ := List.map_eq_append_iff.mp k4
    simp only [List.map_cons, List.map_nil, List.cons_append, List.nil_append] at hq
    obtain ⟨x, q, rfl, hx, hq⟩ := List.map_eq_cons_iff.mp hq
    obtain ⟨y, post', rfl, hy, hpost⟩ := List.map_eq_cons_iff.mp hq
    refine ⟨e', fin', pre', [x, y], post', h1, by rw [hts]; simp, hpre, hpost, ?_, ?_⟩
    · have : y.id = fin' := congrArg Prod.fst hy
      simp [this]
    · intro e2 pre2 spec2 post2 beg2 fin2 he2 ok2 hb2 hf2 hr
      obtain ⟨e3, fin3, g1, -, g3⟩ := implicit_int he2 ok2 hb2 hf2
      rcases g3 with ⟨u, m, rfl, -⟩ | ⟨-, rfl, rfl⟩
      · have := hr.length
        simp at this
      · exact g1
  · refine ⟨e', fin.id, pre, spec, post, h1, he, rfl, rfl, by rw [hf]; rfl, ?_⟩
    intro e2 pre2 spec2 post2 beg2 fin2 he2 ok2 hb2 hf2 hr
    obtain ⟨e3, fin3, g1, -, g3⟩ := implicit_int he2 ok2 hb2 hf2
    rcases g3 with ⟨u, m, rfl, j1, j2, -⟩ | ⟨-, rfl, rfl⟩
    · obtain ⟨v, S, rfl, l1, l2, l3⟩ := hr.symm.cons
      have : S = [] := List.eq_nil_of_length_eq_zero (by have := l3.length; simpa using this)
      subst this
      exact absurd (l2.trans j2) (k1 v rfl (by rw [l1]; exact j1))
    · exact g1

/-! ## Empty loops and default cases -/

theorem types_of_words {e : Ed} {ws : List Word} (h : words e = ws) : e.ts.map (·.type) = ws.map (·.1) := by
  rw [← h]
  unfold words
  rw [List.map_map]
  rfl

theorem map_type_word (τ : Nat → List Char) (l : List Node) :
    (l.map (word τ)).map (·.1) = l.map (·.type) := by
  rw [List.map_map]; rfl

theorem take_succ_append {α : Type} {n : Nat} {A : List α} (x : α) (R : List α) (h : A.length = n) :
    (A ++ x :: R).take (n + 1) = A ++ [x] := by
  subst h
  induction A with
  | nil => simp
  | cons a A ih => simpa using ih

theorem EmptyBraces.reads {rest rest2 mid R : List Node} {lb : Node} (h : EmptyBraces rest lb mid R)
    (hr : Reads rest rest2) : ∃ lb2 mid2 R2, EmptyBraces rest2 lb2 mid2 R2 := by
  obtain ⟨rb, R', rfl, rfl, h1, h2, h3, h4⟩ := h
  obtain ⟨B1, B2, rfl, r1, r2⟩ := hr.append
  obtain ⟨lb2, mid2, rfl, k1, k2, r3⟩ := r1.cons
  obtain ⟨rb2, R2, rfl, l1, l2, -⟩ := r2.cons
  refine ⟨lb2, mid2, rb2 :: R2, rb2, R2, rfl, rfl, k1.trans h1, l1.trans h2, ?_, ?_⟩
  · rcases h3 with rfl | ⟨s, rfl, hs⟩
    · left; exact List.eq_nil_of_length_eq_zero r3.length
    · obtain ⟨s2, S, rfl, m1, -, m3⟩ := r3.cons
      have : S = [] := List.eq_nil_of_length_eq_zero m3.length
      subst this
      exact Or.inr ⟨s2, rfl, m1.trans hs⟩
  · intro t ht
    have hm : Reads (lb :: mid ++ [rb]) (lb2 :: mid2 ++ [rb2]) := by
      unfold Reads at r3 ⊢
      simp [r3, look, k1, k2, l1, l2]
    have hl : look t ∈ (lb2 :: mid2 ++ [rb2]).map look := List.mem_map_of_mem ht
    rw [hm] at hl
    obtain ⟨u, hu, e⟩ := List.mem_map.mp hl
    have : fixed u = fixed t := congrArg Prod.snd e
    rw [← this]
    exact h4 u hu

/-- **C81**, empty loops: `rp` is the parenthesis after which the body of the loop begins. -/
theorem empty_loop_twice {e : Ed} {A rest : List Node} {rp : Node} (he : e.ts = A ++ rp :: rest) (ok : Ok e) :
    ∃ e', emptyLoop e rp.id = some e' ∧ (e'.ts.take (A.length + 1)).map (·.type) = (A ++ [rp]).map (·.type) ∧
      ∀ {e2 : Ed} {A2 rest2 : List Node} {rp2 : Node}, e2.ts = A2 ++ rp2 :: rest2 → Ok e2 → A2.length = A.length →
        Reads e'.ts e2.ts → emptyLoop e2 rp2.id = some e2 := by
  obtain ⟨e', h1, -, h3⟩ := empty_loop he ok
  have key2 : ∀ {e2 : Ed} {A2 rest2 : List Node} {rp2 : Node}, e2.ts = A2 ++ rp2 :: rest2 → Ok e2 →
      (∀ lb mid R, ¬ EmptyBraces rest2 lb mid R) → (∀ s R, rest2 = s :: R → s.type ≠ .semi) →
      emptyLoop e2 rp2.id = some e2 := by
    intro e2 A2 rest2 rp2 he2 ok2 k1 k2
    obtain ⟨e3, g1, -, g3⟩ := empty_loop he2 ok2
    rcases g3 with ⟨lb, mid, R, g4, -⟩ | ⟨s, R, g4, g5, -⟩ | ⟨-, -, rfl⟩
    · exact absurd g4 (k1 lb mid R)
    · exact absurd g5 (k2 s R g4)
    · exact g1
  rcases h3 with ⟨lb, mid, R, hE, hw⟩ | ⟨s, R, rfl, hs, hw⟩ | ⟨k1, k2, rfl⟩
  · have ht := types_of_words hw
    simp only [List.map_append, List.map_cons, map_type_word] at ht
    refine ⟨e', h1, ?_, ?_⟩
    · rw [List.map_take, ht]
      simp only [List.map_nil, List.append_assoc, List.cons_append, List.nil_append, List.map_append, List.map_cons]
      exact take_succ_append _ _ (by simp)
    · intro e2 A2 rest2 rp2 he2 ok2 hlen hr
      have ht2 := hr.types.trans ht
      rw [he2] at ht2
      simp only [List.map_append, List.map_cons, List.append_assoc, List.cons_append] at ht2
      have ht3 := (List.append_inj ht2 (by simp [hlen])).2
      injection ht3 with _ ht3
      obtain ⟨rb, R', -, -, hl, -⟩ := hE
      simp only [List.map_nil, List.nil_append, List.singleton_append] at ht3
      obtain ⟨x, q, rfl, hx, hq⟩ := List.map_eq_cons_iff.mp ht3
      obtain ⟨y, q, rfl, hy, -⟩ := List.map_eq_cons_iff.mp hq
      refine key2 he2 ok2 ?_ ?_
      · rintro lb' mid' R' ⟨rb', R'', -, e1, -, h2, h3, -⟩
        have hy : y.type = .kContinue := hy
        rcases h3 with rfl | ⟨s', rfl, hs'⟩
        · simp only [List.cons_append, List.nil_append, List.cons.injEq] at e1
          rw [e1.2.1, h2] at hy; cases hy
        · simp only [List.cons_append, List.nil_append, List.cons.injEq] at e1
          rw [e1.2.1, hs'] at hy; cases hy
      · intro s R e1
        injection e1 with e1 _
        rw [← e1, hx, show (word e.text lb).1 = _ from hl]; simp
  · have ht := types_of_words hw
    simp only [List.map_append, List.map_cons, map_type_word] at ht
    refine ⟨e', h1, ?_, ?_⟩
    · rw [List.map_take, ht]
      simp only [List.map_nil, List.append_assoc, List.cons_append, List.nil_append, List.map_append, List.map_cons]
      exact take_succ_append _ _ (by simp)
    · intro e2 A2 rest2 rp2 he2 ok2 hlen hr
      have ht2 := hr.types.trans ht
      rw [he2] at ht2
      simp only [List.map_append, List.map_cons, List.append_assoc, List.cons_append] at ht2
      have ht3 := (List.append_inj ht2 (by simp [hlen])).2
      injection ht3 with _ ht3
      simp only [List.map_nil, List.nil_append] at ht3
      obtain ⟨x, q, rfl, hx, -⟩ := List.map_eq_cons_iff.mp ht3
      have hx : x.type = .kContinue := hx
      refine key2 he2 ok2 ?_ ?_
      · rintro lb' mid' R' ⟨rb', R'', -, e1, h2, -⟩
        simp only [List.cons_append, List.cons.injEq] at e1
        rw [e1.1, h2] at hx; cases hx
      · intro s R e1
        injection e1 with e1 _
        rw [← e1, hx]; simp
  · refine ⟨e', h1, ?_, ?_⟩
    · rw [he, take_succ_append _ _ rfl]
    · intro e2 A2 rest2 rp2 he2 ok2 hlen hr
      rw [he, he2] at hr
      unfold Reads at hr
      rw [List.map_append, List.map_append] at hr
      have hr2 := (List.append_inj hr (by simp [hlen])).2
      simp only [List.map_cons] at hr2
      injection hr2 with _ hr3
      have hr3 : Reads rest rest2 := hr3
      refine key2 he2 ok2 ?_ ?_
      · intro lb mid R hE
        obtain ⟨lb', mid', R', hE'⟩ := hE.reads hr3.symm
        exact k1 _ _ _ hE'
      · rintro s R rfl
        obtain ⟨s', R', rfl, l1, -, -⟩ := hr3.symm.cons
        have := k2 s' R' rfl
        rwa [l1] at this

/-- **C81**, empty default cases. -/
theorem switch_twice {e : Ed} {A rest : List Node} {d : Node} (he : e.ts = A ++ d :: rest) (ok : Ok e) :
    ∃ e', stmtSwitch e d.id = some e' ∧ (e'.ts.take (A.length + 1)).map (·.type) = (A ++ [d]).map (·.type) ∧
      ∀ {e2 : Ed} {A2 rest2 : List Node} {d2 : Node}, e2.ts = A2 ++ d2 :: rest2 → Ok e2 → A2.length = A.length →
        Reads e'.ts e2.ts → stmtSwitch e2 d2.id = some e2 := by
  obtain ⟨e', h1, -, h3⟩ := switch_break he ok
  have key2 : ∀ {e2 : Ed} {A2 rest2 : List Node} {d2 : Node}, e2.ts = A2 ++ d2 :: rest2 → Ok e2 →
      (∀ c s R, d2.type = .kDefault → rest2 = c :: s :: R → c.type = .colon → s.type ≠ .semi) →
      stmtSwitch e2 d2.id = some e2 := by
    intro e2 A2 rest2 d2 he2 ok2 k
    obtain ⟨e3, g1, -, g3⟩ := switch_break he2 ok2
    rcases g3 with ⟨c, s, R, g4, g5, g6, g7, -⟩ | ⟨-, rfl⟩
    · exact absurd g7 (k c s R g4 g5 g6)
    · exact g1
  rcases h3 with ⟨c, s, R, k1, rfl, k3, k4, hw⟩ | ⟨k, rfl⟩
  · have ht := types_of_words hw
    simp only [List.map_append, List.map_cons, map_type_word] at ht
    refine ⟨e', h1, ?_, ?_⟩
    · rw [List.map_take, ht]
      simp only [List.map_nil, List.append_assoc, List.cons_append, List.nil_append, List.map_append, List.map_cons]
      exact take_succ_append _ _ (by simp)
    · intro e2 A2 rest2 d2 he2 ok2 hlen hr
      have ht2 := hr.types.trans ht
      rw [he2] at ht2
      simp only [List.map_append, List.map_cons, List.append_assoc, List.cons_append] at ht2
      have ht3 := (List.append_inj ht2 (by simp [hlen])).2
      injection ht3 with _ ht3
      simp only [List.map_nil, List.nil_append] at ht3
      obtain ⟨x, q, rfl, -, hq⟩ := List.map_eq_cons_iff.mp ht3
      obtain ⟨y, q, rfl, hy, -⟩ := List.map_eq_cons_iff.mp hq
      refine key2 he2 ok2 ?_
      intro c' s' R' _ e1 _ hs
      simp only [List.cons.injEq] at e1
      rw [← e1.2.1, hy] at hs
      cases hs
  · refine ⟨e', h1, ?_, ?_⟩
    · rw [he, take_succ_append _ _ rfl]
    · intro e2 A2 rest2 d2 he2 ok2 hlen hr
      have ht2 := hr.types
      rw [he, he2] at ht2
      rw [List.map_append, List.map_append] at ht2
      have ht3 := (List.append_inj ht2 (by simp [hlen])).2
      simp only [List.map_cons] at ht3
      injection ht3 with hd2 ht3
      refine key2 he2 ok2 ?_
      rintro c s R j1 rfl j3 j4
      simp only [List.map_cons] at ht3
      obtain ⟨c', q, rfl, hc, hq⟩ := List.map_eq_cons_iff.mp ht3.symm
      obtain ⟨s', R', rfl, hs, -⟩ := List.map_eq_cons_iff.mp hq
      exact k c' s' R' (hd2 ▸ j1) rfl (hc.trans j3) (hs.trans j4)

/-! ## Prototypes -/

/-- What is read again of an argument: the tokens of its type, and whether it has a name. -/
def Arg.look (a : Arg) : List (TT × Bool × Bool) × Bool :=
  (a.ty.map fun t => (t.type, t.flags.type, t.flags.qualifier), a.name.isSome)

theorem known_look {l m : List Node}
    (h : l.map (fun t => (t.type, t.flags.type, t.flags.qualifier)) =
      m.map (fun t => (t.type, t.flags.type, t.flags.qualifier))) (hk : Known l) : Known m := by
  obtain ⟨t, h1, h2⟩ := hk
  have := congrArg List.getLast? h
  rw [List.getLast?_map, List.getLast?_map, h1] at this
  cases hm : m.getLast? with
  | none => rw [hm] at this; cases this
  | some u =>
    rw [hm] at this
    simp only [Option.map_some, Option.some.injEq, Prod.mk.injEq] at this
    obtain ⟨e1, e2, e3⟩ := this
    exact ⟨u, hm, by rw [← e1, ← e2, ← e3]; exact h2⟩

theorem mixed_look {as bs : List Arg} (h : as.map Arg.look = bs.map Arg.look)
    (hm : Mixed as ∧ ∀ a ∈ as, a.name.isSome → Known a.ty) : Mixed bs ∧ ∀ a ∈ bs, a.name.isSome → Known a.ty := by
  have hfind : ∀ {as bs : List Arg}, as.map Arg.look = bs.map Arg.look → ∀ a ∈ as, ∃ b ∈ bs, b.look = a.look := by
    intro as bs h a ha
    have : a.look ∈ as.map Arg.look := List.mem_map_of_mem ha
    rw [h] at this
    obtain ⟨b, hb, e⟩ := List.mem_map.mp this
    exact ⟨b, hb, e⟩
  obtain ⟨⟨⟨a, ha, h1⟩, ⟨b, hb, h2⟩⟩, hk⟩ := hm
  refine ⟨⟨?_, ?_⟩, ?_⟩
  · obtain ⟨a', ha', e⟩ := hfind h a ha
    exact ⟨a', ha', (congrArg Prod.snd e).trans h1⟩
  · obtain ⟨b', hb', e⟩ := hfind h b hb
    refine ⟨b', hb', ?_⟩
    have : b'.name.isSome = b.name.isSome := congrArg Prod.snd e
    rw [h2] at this
    cases hn : b'.name with
    | none => rfl
    | some t => rw [hn] at this; cases this
  · intro c hc hs
    obtain ⟨c', hc', e⟩ := hfind h.symm c hc
    have : c'.name.isSome = c.name.isSome := congrArg Prod.snd e
    exact known_look (congrArg Prod.fst e) (hk c' hc' (this.trans hs))

/-- **C81**, prototypes, as far as C72 is proved. -/
theorem proto_twice_partial {ts pre post : List Node} {args : List Arg} {x : Node}
    (e : ts = pre ++ args.flatMap Arg.toks ++ post) (hd : (ts.map (·.id)).Nodup)
    (hl : ts.getLast? = some x) (hx : x.type = .eof)
    (ht : ∀ a ∈ args, a.ty ≠ []) (hi : ∀ a ∈ args, ∀ t, a.name = some t → t.type = .ident) :
    ∃ (ts' : List Node) (args' : List Arg), simpleProto ts (args.flatMap Arg.calls) = some ts' ∧
      ts'.map key = (pre ++ args'.flatMap Arg.toks ++ post).map key ∧
      ∀ {ts2 pre2 post2 : List Node} {args2 : List Arg} {x2 : Node}, ts2 = pre2 ++ args2.flatMap Arg.toks ++ post2 →
        (ts2.map (·.id)).Nodup → ts2.getLast? = some x2 → x2.type = .eof → (∀ a ∈ args2, a.ty ≠ []) →
        (∀ a ∈ args2, ∀ t, a.name = some t → t.type = .ident) → args2.map Arg.look = args'.map Arg.look →
        simpleProto ts2 (args2.flatMap Arg.calls) = some ts2 := by
  obtain ⟨ts', h1, h2, h3⟩ := proto_names_partial e hd hl hx ht hi
  have key2 : ∀ args' : List Arg, ¬ (Mixed args' ∧ ∀ a ∈ args', a.name.isSome → Known a.ty) →
      ∀ {ts2 pre2 post2 : List Node} {args2 : List Arg} {x2 : Node}, ts2 = pre2 ++ args2.flatMap Arg.toks ++ post2 →
        (ts2.map (·.id)).Nodup → ts2.getLast? = some x2 → x2.type = .eof → (∀ a ∈ args2, a.ty ≠ []) →
        (∀ a ∈ args2, ∀ t, a.name = some t → t.type = .ident) → args2.map Arg.look = args'.map Arg.look →
        simpleProto ts2 (args2.flatMap Arg.calls) = some ts2 := by
    intro args' hn ts2 pre2 post2 args2 x2 e2 hd2 hl2 hx2 ht2 hi2 hlook
    obtain ⟨ts3, g1, -, g3⟩ := proto_names_partial e2 hd2 hl2 hx2 ht2 hi2
    rw [g1, g3 (fun h => hn (mixed_look hlook h))]
  by_cases h : Mixed args ∧ ∀ a ∈ args, a.name.isSome → Known a.ty
  · refine ⟨ts', args.map Arg.bare, h1, (h2 h).1, fun e2 => key2 (args.map Arg.bare) ?_ e2⟩
    rintro ⟨⟨⟨a, ha, hs⟩, -⟩, -⟩
    obtain ⟨b, -, rfl⟩ := List.mem_map.mp ha
    cases hs
  · refine ⟨ts', args, h1, by rw [h3 h, e], fun e2 => key2 args h e2⟩

/-! ## Cases -/

/-- `static const int x;`, `unsigned int x;`, `while (x) { continue; }` and `default: break;` stay. -/
example : simpleStatic (toks [.kStatic, .kConst, .kInt, .ident, .semi, .eof]) 0 2 =
    some (toks [.kStatic, .kConst, .kInt, .ident, .semi, .eof], 2) := by decide +kernel

/-- The tokens read from what the first run made of `const int static x;`. -/
example : ((simpleStatic (toks okTypes) 0 2).map fun r => (r.1.take 3).map look) =
    some ((toks [.kStatic, .kConst, .kInt]).map look) := by decide +kernel

example : ((emptyLoop loopEd 3).map fun r => r.ts.map look) =
    some ((toks [.kWhile, .lparen, .ident, .rparen, .lbrace, .kContinue, .semi, .rbrace, .eof]).map look) := by
  decide +kernel

example : ((simpleImplicitInt intEd 0 0).map fun r => (r.1.ts.take 2).map look) =
    some ((toks [.unsigned, .kInt]).map look) := by decide +kernel

end Knfmt.Small

namespace Knfmt.Printf

open Knfmt.Expr (Tok)

theorem Spec.Format.set {ts : List Tok} {i j : Nat} (h : Spec.Format ts i j) {t : Tok} (ht : ts[j]? = some t)
    (s : List Char) : Spec.Format (ts.set j { t with str := s }) i j := by
  obtain ⟨pre, f, lp, args, strs, u, rest, name, e, hi, h1, h2, h3, h4, h5, h6, h7, h8, hj⟩ := h
  have hlen : ∀ l : List (Tok × Tok), (l.flatMap fun a => [a.1, a.2]).length = 2 * l.length := by
    intro l
    induction l with
    | nil => rfl
    | cons a l ih => simp only [List.flatMap_cons, List.length_append, ih, List.length_cons, List.length_nil]; omega
  have hl : (pre ++ [f, lp] ++ args.flatMap (fun a => [a.1, a.2]) ++ strs).length = j := by
    simp [hlen]; omega
  rw [List.append_assoc] at e
  have hu : ts[j]? = some u := by
    rw [e, List.getElem?_append_right (by omega), hl]
    simp
  rw [hu] at ht
  injection ht with ht
  subst ht
  refine ⟨pre, f, lp, args, strs, { u with str := s }, rest, name, ?_, hi, h1, h2, h3, h4, h5, h6, h7, h8, hj⟩
  rw [e, List.set_append_right _ _ (by omega), hl]
  simp

/-- **C81**, the newline of error messages: a second run changes nothing if there is no format, and if the literal
without its last newline, if there is one, does not end in another one or in an escaped backslash and the
letter n. Missing: literals that end in several newlines, see `printf_twice_fails`, and those excluded in
C34. -/
theorem printf_twice_partial (ts : List Tok) (i : Nat) :
    ((∀ j, ¬ Spec.Format ts i j) → simpleExprPrintf (simpleExprPrintf ts i) i = simpleExprPrintf ts i) ∧
    ∀ j t us, Spec.Format ts i j → ts[j]? = some t → Spec.Literal us t.str → '\x00' ∉ t.str →
      (∀ us', us ≠ us' ++ [['\\', '\\'], ['n']]) → (∀ us', us ≠ us' ++ [['\\', 'n'], ['\\', 'n']]) →
      (∀ us', us ≠ us' ++ [['\\', '\\'], ['n'], ['\\', 'n']]) →
      simpleExprPrintf (simpleExprPrintf ts i) i = simpleExprPrintf ts i := by
  constructor
  · intro h
    have := (simplify_printf_partial ts i).1 h
    rw [this, this]
  · intro j t us hf ht hl hnul hb h2 h3
    obtain ⟨t', ht', -, -, hall⟩ := (simplify_printf_partial ts i).2 j hf
    rw [ht] at ht'
    injection ht' with ht'
    subst ht'
    obtain ⟨k1, k2⟩ := hall us hl hnul hb
    by_cases hn : ∃ us', us = us' ++ [['\\', 'n']]
    · obtain ⟨us', rfl⟩ := hn
      obtain ⟨s, hs, e⟩ := k1 us' rfl
      have hf2 := hf.set ht s
      rw [e]
      obtain ⟨u, hu, -, -, hall2⟩ := (simplify_printf_partial (ts.set j { t with str := s }) i).2 j hf2
      have hlt : j < ts.length := (List.getElem?_eq_some_iff.mp ht).1
      rw [List.getElem?_set_self hlt] at hu
      injection hu with hu
      subst hu
      refine (hall2 us' hs ?_ ?_).2 ?_
      · intro hm
        apply hnul
        rw [hs.2] at hm
        rw [hl.2]
        simp only [List.mem_append, List.flatten_append] at hm ⊢
        rcases hm with (hm | hm) | hm
        · exact Or.inl (Or.inl hm)
        · exact Or.inl (Or.inr (Or.inl hm))
        · exact Or.inr hm
      · rintro us'' rfl
        exact h3 us'' (by simp)
      · rintro us'' rfl
        exact h2 us'' (by simp)
    · have hn : ∀ us', us ≠ us' ++ [['\\', 'n']] := fun us' e => hn ⟨us', e⟩
      rw [k2 hn, k2 hn]

/-- **C81 is false** for literals that end in several newlines: one is removed by each run. `warnx("a\n\n")`
becomes `warnx("a\n")`, and then `warnx("a")`. -/
theorem printf_twice_fails :
    simpleExprPrintf (warnx "\"a\\n\\n\"") 0 = warnx "\"a\\n\"" ∧
    simpleExprPrintf (warnx "\"a\\n\"") 0 = warnx "\"a\"" := by
  constructor <;> decide +kernel

/-- The claim applies: `errc(1, e, "a" "b\n", x)`. -/
example : simpleExprPrintf (simpleExprPrintf (errcCall "\"b\\n\"") 0) 0 = errcCall "\"b\"" := by decide +kernel

end Knfmt.Printf
