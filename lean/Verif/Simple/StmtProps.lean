import Verif.Simple.Stmt
/-!
# Braces are added to all the statements or removed from all of them
-/
namespace Knfmt.Stmt

open Knfmt.Lexer (TT)
open Knfmt.Stream (Node Fix)
open Knfmt.Spec (attached comments)

namespace Spec

/-- What is seen of a token: which one of the original tokens it is, if any, and its type. -/
abbrev View := Option Nat × TT

/-- The tokens, `n` is the first address not used originally. -/
def view (n : Nat) (ts : List Node) : List View :=
  ts.map fun t => (if t.id < n then some t.id else none, t.type)

/-- New braces around bodies: `last id` bodies end in front of the token `id`, `first id` bodies
start with it. -/
def withBraces (first last : Nat → Nat) (ts : List Node) : List View :=
  ts.flatMap fun t =>
    List.replicate (last t.id) (none, .rbrace) ++ List.replicate (first t.id) (none, .lbrace) ++
      [(some t.id, t.type)]

/-- The braces of a body may be changed: there is no directive in front of the tokens and they are
part of the diff, if there is one. -/
def Changeable (diffparse : Bool) (ts : List Node) (b : Body) : Prop :=
  ∀ t ∈ ts, t.id = b.lb ∨ t.id = b.rb →
    (diffparse = true → t.flags.diff = true) ∧ ∀ p ∈ t.prefixes, p.flags.cpp = false

/-- What the parser reports: tokens that exist and are neither the first nor the last one, braces if
there are braces; tokens have different addresses; no brace is reported twice and no body starts
with the token after another body. -/
structure Reported (ts : List Node) (n : Nat) (bs : List Body) : Prop where
  nodup : (ts.map (·.id)).Nodup
  used : ∀ t ∈ ts, t.id < n
  eof : ∀ t ∈ ts, (t.type = .eof ↔ ts.getLast? = some t)
  inside : ∀ b ∈ bs, ∀ x, x = b.lb ∨ x = b.rb → ∃ t ∈ ts.tail, t.id = x
  lbrace : ∀ b ∈ bs, b.braces = true → ∀ t ∈ ts, t.id = b.lb → t.type = .lbrace
  rbrace : ∀ b ∈ bs, b.braces = true → ∀ t ∈ ts, t.id = b.rb → t.type = .rbrace
  once : ((bs.filter (·.braces)).flatMap fun b => [b.lb, b.rb]).Nodup
  apart : ∀ b ∈ bs, ∀ c ∈ bs, b.braces = false → c.braces = false → b.rb ≠ c.lb

/-- A body without anything in it, or with only a semicolon inside of braces if it is
the only one. -/
def Empty (ts : List Node) (bs : List Body) (b : Body) : Prop :=
  (∃ pre l r post, ts = pre ++ l :: r :: post ∧ l.id = b.lb ∧ r.id = b.rb ∧
    (b.braces = true ∨ l.type ≠ .semi)) ∨
  (b.braces = true ∧ bs.length = 1 ∧ ∃ pre l s r post, ts = pre ++ l :: s :: r :: post ∧ l.id = b.lb ∧
    r.id = b.rb ∧ s.type = .semi)

/-- A body that is printed on more than one line, not counting white space around it. -/
def ManyLines (b : Body) : Prop :=
  ∃ pre mid post, b.text = pre ++ mid ++ post ∧ '\n' ∈ mid ∧
    (∀ c, mid.head? = some c → Knfmt.Comment.isSpace c = false) ∧
    (∀ c, mid.getLast? = some c → Knfmt.Comment.isSpace c = false) ∧
    (∀ c ∈ pre, Knfmt.Comment.isSpace c = true) ∧ (∀ c ∈ post, Knfmt.Comment.isSpace c = true)

/-- A right brace with a comment. -/
def Commented (ts : List Node) (b : Body) : Prop :=
  b.braces = true ∧ ∃ t ∈ ts, t.id = b.rb ∧
    ((∃ p ∈ t.prefixes, p.type = .comment ∨ p.flags.cpp = true) ∨ ∃ s ∈ t.suffixes, s.type = .comment)

/-- Braces are needed by a body: it has braces that may not be changed, or it may be changed and is empty,
is printed on many lines or has a comment at its right brace. -/
def Needs (diffparse : Bool) (ts : List Node) (bs : List Body) (b : Body) : Prop :=
  (¬ Changeable diffparse ts b ∧ b.braces = true) ∨
  (Changeable diffparse ts b ∧ (Empty ts bs b ∨ ManyLines b ∨ Commented ts b))

end Spec

/-! ## Finding tokens -/

theorem pos_append {a b : List Node} {t : Node} {id : Nat} (h : ∀ x ∈ a, x.id ≠ id) (ht : t.id = id) :
    pos (a ++ t :: b) id = some a.length := by
  unfold pos
  rw [List.findIdx?_append]
  have : List.findIdx? (fun t => t.id == id) a = none := by
    rw [List.findIdx?_eq_none_iff]
    intro x hx
    simpa using h x hx
  rw [this]
  simp [List.findIdx?_cons, ht]

theorem node_eq {ts : List Node} {t : Node} {id : Nat} (hd : (ts.map (·.id)).Nodup) (ht : t ∈ ts)
    (hid : t.id = id) : node ts id = some t := by
  unfold node
  induction ts with
  | nil => simp at ht
  | cons x ts ih =>
    rw [List.find?_cons]
    simp only [List.map_cons, List.nodup_cons] at hd
    rcases List.mem_cons.mp ht with rfl | hm
    · simp [hid]
    · have hne : x.id ≠ id := by
        rintro rfl
        exact hd.1 (List.mem_map.mpr ⟨t, hm, hid⟩)
      have : (x.id == id) = false := by simpa using hne
      rw [this]
      exact ih hd.2 hm

/-- The token at an address splits the list. -/
theorem split_id {ts : List Node} {id : Nat} (hd : (ts.map (·.id)).Nodup) (h : ∃ t ∈ ts, t.id = id) :
    ∃ a t b, ts = a ++ t :: b ∧ t.id = id ∧ (∀ x ∈ a, x.id ≠ id) ∧ ∀ x ∈ b, x.id ≠ id := by
  obtain ⟨t, ht, hid⟩ := h
  obtain ⟨a, b, rfl⟩ := List.append_of_mem ht
  refine ⟨a, t, b, rfl, hid, ?_, ?_⟩
  · intro x hx e
    rw [List.map_append, List.nodup_append] at hd
    exact hd.2.2 x.id (List.mem_map_of_mem hx) t.id (by simp) (by rw [e, hid])
  · intro x hx e
    rw [List.map_append, List.nodup_append] at hd
    have := hd.2.1
    simp only [List.map_cons, List.nodup_cons] at this
    exact this.1 (List.mem_map.mpr ⟨x, hx, by rw [e, hid]⟩)

/-! ## Adding -/

theorem insertIdx_mid {α : Type} (a b : List α) (x y : α) :
    (a ++ x :: b).insertIdx (a.length + 1) y = a ++ x :: y :: b := by
  induction a with
  | nil => simp
  | cons z a ih => simpa using ih

/-- What inserting a brace does. -/
theorem addBrace_mid (kind : TT) (a b : List Node) (pv t : Node) (id n : Nat)
    (hne : ∀ x ∈ a ++ [pv], x.id ≠ id) (ht : t.id = id) :
    ∃ (s d : List Fix), addBrace kind (a ++ pv :: t :: b) id n =
        some (a ++ { pv with suffixes := s } ::
          { Knfmt.Stream.inserted pv { id := n, type := kind } n with suffixes := d } :: t :: b) ∧
      (s ++ d).Perm pv.suffixes ∧
      (s ++ d).filter (fun f => f.type ≠ .space) = pv.suffixes.filter (fun f => f.type ≠ .space) := by
  have hp : pos (a ++ pv :: t :: b) id = some (a.length + 1) := by
    have := pos_append (a := a ++ [pv]) (b := b) hne ht
    simpa using this
  have h1 : (a ++ pv :: t :: b)[a.length]? = some pv := by simp
  have hins : (a ++ pv :: t :: b).insertIdx (a.length + 1)
      (Knfmt.Stream.inserted pv { id := n, type := kind } n) =
      a ++ pv :: Knfmt.Stream.inserted pv { id := n, type := kind } n :: t :: b := by
    exact insertIdx_mid a (t :: b) pv _
  refine ⟨(if kind = .lbrace then ([], pv.suffixes) else
      (pv.suffixes.filter (fun f => f.type ≠ .space), pv.suffixes.filter (fun f => f.type = .space))).1,
    (if kind = .lbrace then ([], pv.suffixes) else
      (pv.suffixes.filter (fun f => f.type ≠ .space), pv.suffixes.filter (fun f => f.type = .space))).2,
    ?_, ?_, ?_⟩
  · unfold addBrace
    rw [hp]
    simp only [Knfmt.Stream.insertAfter, h1, hins]
    have h2 : ∀ x : Node, (a ++ pv :: x :: t :: b)[a.length]? = some pv := by intro x; simp
    have h3 : ∀ x : Node, (a ++ pv :: x :: t :: b)[a.length + 1]? = some x := by
      intro x
      rw [List.getElem?_append_right (by omega)]
      simp
    simp only [h2, h3]
    have h4 : ∀ x y z : Node, ((a ++ x :: y :: t :: b).set a.length z) = a ++ z :: y :: t :: b := by
      intro x y z; simp
    have h5 : ∀ x y z : Node, ((a ++ x :: y :: t :: b).set (a.length + 1) z) = a ++ x :: z :: t :: b := by
      intro x y z
      rw [List.set_append_right _ _ (by omega)]
      simp
    rw [h4, h5, Knfmt.Stream.moveSuffixes_eq, Knfmt.Stream.moveSuffixesIf_eq]
    simp [Knfmt.Stream.inserted]
  · split
    · simp
    · dsimp only
      have := List.filter_append_perm (fun f : Fix => decide (f.type ≠ .space)) pv.suffixes
      simpa using this
  · split
    · simp
    · dsimp only
      rw [List.filter_append, List.filter_filter, List.filter_filter]
      have : (pv.suffixes.filter fun a : Fix => decide (a.type ≠ .space) && decide (a.type = .space)) = [] := by
        rw [List.filter_eq_nil_iff]
        intro x _
        by_cases h : x.type = .space <;> simp [h]
      rw [this]
      simp

/-- One more. -/
def bump (f : Nat → Nat) (x : Nat) : Nat → Nat := fun i => if i = x then f i + 1 else f i

theorem withBraces_append (f l : Nat → Nat) (a b : List Node) :
    Spec.withBraces f l (a ++ b) = Spec.withBraces f l a ++ Spec.withBraces f l b := by
  simp [Spec.withBraces]

theorem withBraces_congr {f l f' l' : Nat → Nat} {a : List Node}
    (h : ∀ t ∈ a, f t.id = f' t.id ∧ l t.id = l' t.id) :
    Spec.withBraces f l a = Spec.withBraces f' l' a := by
  induction a with
  | nil => rfl
  | cons t a ih =>
    have h1 := h t (by simp)
    have := ih (fun x hx => h x (by simp [hx]))
    simp only [Spec.withBraces, List.flatMap_cons] at this ⊢
    rw [this, h1.1, h1.2]

theorem withBraces_mem {f l : Nat → Nat} {a : List Node} {x : Nat} {ty : TT}
    (h : (some x, ty) ∈ Spec.withBraces f l a) : ∃ t ∈ a, t.id = x := by
  unfold Spec.withBraces at h
  obtain ⟨t, ht, hm⟩ := List.mem_flatMap.mp h
  refine ⟨t, ht, ?_⟩
  simp only [List.mem_append, List.mem_singleton] at hm
  rcases hm with (hm | hm) | hm
  · have := (List.mem_replicate.mp hm).2
    simp at this
  · have := (List.mem_replicate.mp hm).2
    simp at this
  · simp only [Prod.mk.injEq, Option.some.injEq] at hm
    exact hm.1.symm

/-- Inserting one brace in a stream with braces inserted already. -/
theorem addBrace_view (kind : TT) {ts0 ts : List Node} {n m : Nat} {f l : Nat → Nat} {id : Nat}
    (hd : (ts0.map (·.id)).Nodup) (hu : ∀ t ∈ ts0, t.id < n) (hm : n ≤ m)
    (hv : Spec.view n ts = Spec.withBraces f l ts0) (hid : ∃ t ∈ ts0.tail, t.id = id)
    (hk : kind = .lbrace ∨ (kind = .rbrace ∧ f id = 0)) :
    ∃ ts', addBrace kind ts id m = some ts' ∧
      Spec.view n ts' = Spec.withBraces (if kind = .lbrace then bump f id else f)
        (if kind = .lbrace then l else bump l id) ts0 ∧
      (attached ts').Perm (attached ts) ∧ comments ts' = comments ts := by
  obtain ⟨t0, ht0, hidt⟩ := hid
  have hmem : ∃ t ∈ ts0, t.id = id := ⟨t0, List.mem_of_mem_tail ht0, hidt⟩
  obtain ⟨p, t, q, rfl, ht, hp, hq⟩ := split_id hd hmem
  have hpne : p ≠ [] := by
    rintro rfl
    simp only [List.nil_append, List.tail_cons] at ht0
    exact hq t0 ht0 hidt
  have hlt : id < n := by rw [← ht]; exact hu t (by simp)
  -- where the token is
  have hsplit : Spec.withBraces f l (p ++ t :: q) =
      (Spec.withBraces f l p ++ (List.replicate (l t.id) (none, .rbrace) ++
        List.replicate (f t.id) (none, .lbrace))) ++ ([(some t.id, t.type)] ++ Spec.withBraces f l q) := by
    rw [withBraces_append]
    simp [Spec.withBraces]
  rw [hsplit] at hv
  unfold Spec.view at hv
  obtain ⟨A, C, rfl, hA, hC⟩ := List.map_eq_append_iff.mp hv
  obtain ⟨T, D, rfl, hT, hD⟩ := List.map_eq_append_iff.mp hC
  obtain ⟨u, rfl, hu'⟩ : ∃ u, T = [u] ∧ (if u.id < n then some u.id else none, u.type) = (some t.id, t.type) := by
    obtain ⟨u, U, rfl, h1, h2⟩ := List.map_eq_cons_iff.mp hT
    rw [List.map_eq_nil_iff.mp h2]
    exact ⟨u, rfl, h1⟩
  have huid : u.id = id := by
    simp only [Prod.mk.injEq] at hu'
    have := hu'.1
    split at this
    · simp only [Option.some.injEq] at this; rw [this, ht]
    · simp at this
  have hAne : ∀ x ∈ A, x.id ≠ id := by
    intro x hx e
    have hxm : (if x.id < n then some x.id else none, x.type) ∈
        Spec.withBraces f l p ++ (List.replicate (l t.id) (none, .rbrace) ++
        List.replicate (f t.id) (none, .lbrace)) := by
      rw [← hA]
      exact List.mem_map_of_mem (f := fun t : Node => (if t.id < n then some t.id else none, t.type)) hx
    rw [if_pos (by rw [e]; exact hlt)] at hxm
    simp only [List.mem_append] at hxm
    rcases hxm with hxm | hxm | hxm
    · obtain ⟨y, hy, hye⟩ := withBraces_mem hxm
      exact hp y hy (by rw [hye, e])
    · have := (List.mem_replicate.mp hxm).2; simp at this
    · have := (List.mem_replicate.mp hxm).2; simp at this
  have hAnil : A ≠ [] := by
    rintro rfl
    simp only [List.map_nil] at hA
    have := congrArg List.length hA
    rcases hp' : p with _ | ⟨y, p'⟩
    · exact hpne hp'
    · rw [hp'] at this
      simp [Spec.withBraces] at this
  obtain ⟨B, pv, rfl⟩ : ∃ B pv, A = B ++ [pv] :=
    ⟨A.dropLast, A.getLast hAnil, (List.dropLast_concat_getLast hAnil).symm⟩
  obtain ⟨s, d, hadd, hperm, hfil⟩ := addBrace_mid kind B D pv u id m hAne huid
  refine ⟨_, by simpa using hadd, ?_, ?_, ?_⟩
  · have e : Spec.view n (B ++ { pv with suffixes := s } ::
          { Knfmt.Stream.inserted pv { id := m, type := kind } m with suffixes := d } :: u :: D) =
        ((B ++ [pv]).map fun t => (if t.id < n then some t.id else none, t.type)) ++
        ([(none, kind)] ++ ([u].map (fun t => (if t.id < n then some t.id else none, t.type)) ++
          D.map fun t => (if t.id < n then some t.id else none, t.type))) := by
      simp only [Spec.view, List.map_append, List.map_cons, List.map_nil, Knfmt.Stream.inserted,
        List.append_assoc, List.cons_append, List.nil_append]
      rw [if_neg (by omega : ¬ m < n)]
    rw [e, hA, hT, hD]
    rw [withBraces_append]
    have hrest : ∀ (f' l' : Nat → Nat) (x : List Node), (∀ y ∈ x, y.id ≠ id) →
        (f' = f ∨ f' = bump f id) → (l' = l ∨ l' = bump l id) →
        Spec.withBraces f' l' x = Spec.withBraces f l x := by
      intro f' l' x hx hf hl
      apply withBraces_congr
      intro y hy
      have := hx y hy
      constructor
      · rcases hf with rfl | rfl
        · rfl
        · simp [bump, this]
      · rcases hl with rfl | rfl
        · rfl
        · simp [bump, this]
    have hcons : ∀ (f' l' : Nat → Nat), Spec.withBraces f' l' (t :: q) =
        (List.replicate (l' t.id) (none, .rbrace) ++ List.replicate (f' t.id) (none, .lbrace) ++
          [(some t.id, t.type)]) ++ Spec.withBraces f' l' q := by
      intro f' l'; simp [Spec.withBraces]
    rcases hk with rfl | ⟨rfl, h0⟩
    · simp only [if_true]
      rw [hrest _ _ p hp (Or.inr rfl) (Or.inl rfl), hcons, hrest _ _ q hq (Or.inr rfl) (Or.inl rfl)]
      have : bump f id t.id = f t.id + 1 := by simp [bump, ht]
      rw [this, List.replicate_succ']
      simp
    · rw [if_neg (by decide), if_neg (by decide)]
      rw [hrest _ _ p hp (Or.inl rfl) (Or.inr rfl), hcons, hrest _ _ q hq (Or.inl rfl) (Or.inr rfl)]
      have h1 : bump l id t.id = l t.id + 1 := by simp [bump, ht]
      have h2 : f t.id = 0 := by rw [ht]; exact h0
      rw [h1, h2, List.replicate_succ']
      simp
  · simp only [attached, List.flatMap_append, List.flatMap_cons, List.flatMap_nil, List.append_assoc,
      Knfmt.Stream.inserted, List.nil_append, List.append_nil]
    apply List.Perm.append_left
    apply List.Perm.append_left
    rw [← List.append_assoc]
    exact hperm.append_right _
  · simp only [comments, attached, List.flatMap_append, List.flatMap_cons, List.flatMap_nil,
      List.append_assoc, Knfmt.Stream.inserted, List.nil_append, List.append_nil, List.filter_append]
    rw [List.filter_append] at hfil
    rw [← List.append_assoc (List.filter _ s), hfil]

theorem addBraces_view {ts0 ts : List Node} {n m : Nat} {f l : Nat → Nat} {ss : List Stmt}
    (hd : (ts0.map (·.id)).Nodup) (hu : ∀ t ∈ ts0, t.id < n) (hm : n ≤ m)
    (hv : Spec.view n ts = Spec.withBraces f l ts0)
    (hin : ∀ s ∈ ss, ∀ x, x = s.lb ∨ x = s.rb → ∃ t ∈ ts0.tail, t.id = x)
    (hap : ∀ s ∈ ss, s.braces = false → f s.rb = 0)
    (hap2 : ∀ s ∈ ss, ∀ s' ∈ ss, s.braces = false → s'.braces = false → s.rb ≠ s'.lb) :
    ∃ ts', addBraces ts m ss = some ts' ∧
      Spec.view n ts' = Spec.withBraces
        (fun i => f i + ss.countP fun s => !s.ignore && !s.braces && decide (s.lb = i))
        (fun i => l i + ss.countP fun s => !s.ignore && !s.braces && decide (s.rb = i)) ts0 ∧
      (attached ts').Perm (attached ts) ∧ comments ts' = comments ts := by
  induction ss generalizing ts m f l with
  | nil => exact ⟨ts, rfl, by simpa using hv, List.Perm.refl _, rfl⟩
  | cons s ss ih =>
    rw [addBraces]
    by_cases hc : (s.ignore || s.braces) = true
    · rw [if_pos hc]
      obtain ⟨ts', h1, h2, h3, h4⟩ := ih hm hv (fun x hx => hin x (by simp [hx]))
        (fun x hx => hap x (by simp [hx])) (fun x hx y hy => hap2 x (by simp [hx]) y (by simp [hy]))
      refine ⟨ts', h1, ?_, h3, h4⟩
      rw [h2]
      have : (!s.ignore && !s.braces) = false := by
        rw [← Bool.not_or, hc]; rfl
      simp only [List.countP_cons, this, Bool.false_and]
      simp
    · rw [if_neg hc]
      have hs : s.ignore = false ∧ s.braces = false := by simpa using hc
      obtain ⟨t1, a1, v1, p1, c1⟩ := addBrace_view .lbrace hd hu hm hv
        (hin s (by simp) s.lb (Or.inl rfl)) (Or.inl rfl)
      rw [a1]
      dsimp only
      simp only [if_true] at v1
      obtain ⟨t2, a2, v2, p2, c2⟩ := addBrace_view .rbrace (f := bump f s.lb) hd hu (by omega : n ≤ m + 1) v1
        (hin s (by simp) s.rb (Or.inr rfl)) (Or.inr ⟨rfl, by
          unfold bump
          rw [if_neg (hap2 s (by simp) s (by simp) hs.2 hs.2)]
          exact hap s (by simp) hs.2⟩)
      rw [a2]
      dsimp only
      rw [if_neg (by decide), if_neg (by decide)] at v2
      obtain ⟨ts', h1, h2, h3, h4⟩ := ih (by omega : n ≤ m + 2) v2 (fun x hx => hin x (by simp [hx]))
        (fun x hx hb => by
          unfold bump
          rw [if_neg (hap2 x (by simp [hx]) s (by simp) hb hs.2)]
          exact hap x (by simp [hx]) hb)
        (fun x hx y hy => hap2 x (by simp [hx]) y (by simp [hy]))
      refine ⟨ts', h1, ?_, (h3.trans p2).trans p1, (h4.trans c2).trans c1⟩
      rw [h2]
      congr 1
      · funext i
        simp only [List.countP_cons, hs.1, hs.2, bump, Bool.not_false, Bool.true_and]
        by_cases hi : s.lb = i
        · subst hi; simp; omega
        · have : ¬ i = s.lb := fun h => hi h.symm
          simp [hi, this]
      · funext i
        simp only [List.countP_cons, hs.1, hs.2, bump, Bool.not_false, Bool.true_and]
        by_cases hi : s.rb = i
        · subst hi; simp; omega
        · have : ¬ i = s.rb := fun h => hi h.symm
          simp [hi, this]

/-! ## Removing -/

/-- Which tokens there are. -/
def ids (ts : List Node) : List (Nat × TT) := ts.map fun t => (t.id, t.type)

theorem removeId_ids {ts : List Node} {st : Option Nat} {id : Nat} {ty : TT}
    (hd : (ts.map (·.id)).Nodup) (hmem : (id, ty) ∈ ids ts) (hty : ty ≠ .eof)
    (hlast : ∃ e ∈ ts.getLast?, e.type = .eof) :
    ∃ ts' st', removeId ts st id = some (ts', st') ∧
      ids ts' = (ids ts).filter (fun p => decide (p.1 ≠ id)) ∧
      (attached ts').Perm (attached ts) := by
  obtain ⟨t, htm, hte⟩ := List.mem_map.mp hmem
  simp only [Prod.mk.injEq] at hte
  obtain ⟨a, t', b, rfl, ht, ha, hb⟩ := split_id hd ⟨t, htm, hte.1⟩
  have htt : t' = t := by
    rcases List.mem_append.mp htm with h | h
    · exact absurd hte.1 (ha t h)
    · rcases List.mem_cons.mp h with h | h
      · exact h.symm
      · exact absurd hte.1 (hb t h)
  subst htt
  have hbne : b ≠ [] := by
    rintro rfl
    obtain ⟨e, he, hee⟩ := hlast
    simp only [List.getLast?_append, List.getLast?_singleton, Option.some_or, Option.mem_def,
      Option.some.injEq] at he
    subst he
    exact hty (by rw [← hte.2, hee])
  have hlen : a.length + 1 < (a ++ t' :: b).length := by
    have := List.length_pos_iff.mpr hbne
    simp; omega
  obtain ⟨ts', st', h1, h2, h3, -, -⟩ := Knfmt.Stream.remove_keeps (a ++ t' :: b) st a.length t' hlen (by simp)
    (by rw [hte.2]; exact hty)
  refine ⟨ts', st', ?_, ?_, h3⟩
  · unfold removeId
    rw [pos_append ha ht]
    exact h1
  · have e : ids ts' = ids ((a ++ t' :: b).eraseIdx a.length) := by
      have := congrArg (List.map fun x : Nat × TT × Knfmt.Lexer.Flags × Nat => (x.1, x.2.1)) h2
      simpa [ids, List.map_map, Function.comp_def] using this
    rw [e]
    have e2 : (a ++ t' :: b).eraseIdx a.length = a ++ b := by
      rw [List.eraseIdx_append_of_length_le (by omega)]
      simp
    rw [e2]
    simp only [ids, List.map_append, List.filter_append, List.map_cons]
    rw [List.filter_cons]
    have ea : (a.map fun t => (t.id, t.type)).filter (fun p => decide (p.1 ≠ id)) = a.map fun t => (t.id, t.type) := by
      rw [List.filter_eq_self]
      intro p hp
      obtain ⟨x, hx, rfl⟩ := List.mem_map.mp hp
      simpa using ha x hx
    have eb : (b.map fun t => (t.id, t.type)).filter (fun p => decide (p.1 ≠ id)) = b.map fun t => (t.id, t.type) := by
      rw [List.filter_eq_self]
      intro p hp
      obtain ⟨x, hx, rfl⟩ := List.mem_map.mp hp
      simpa using hb x hx
    rw [ea, eb, if_neg (by simp [ht])]

theorem ids_fst (ts : List Node) : (ids ts).map (·.1) = ts.map (·.id) := by
  simp [ids, List.map_map, Function.comp_def]

theorem ids_last {ts ts' : List Node} {id : Nat}
    (h : ids ts' = (ids ts).filter (fun p => decide (p.1 ≠ id)))
    (hlast : ∃ e ∈ ts.getLast?, e.type = .eof ∧ e.id ≠ id) : ∃ e' ∈ ts'.getLast?, ∃ e ∈ ts.getLast?, e'.type = .eof ∧ e'.id = e.id := by
  obtain ⟨e, he, hee, hne⟩ := hlast
  have hne0 : ts ≠ [] := by rintro rfl; simp at he
  have hs : ts = ts.dropLast ++ [e] := by
    have := List.dropLast_concat_getLast hne0
    rw [List.getLast?_eq_some_getLast hne0] at he
    simp only [Option.mem_def, Option.some.injEq] at he
    rw [← he]; exact this.symm
  have : ids ts' = (ids ts.dropLast).filter (fun p => decide (p.1 ≠ id)) ++ [(e.id, e.type)] := by
    rw [h]
    conv => lhs; rw [hs]
    simp only [ids, List.map_append, List.filter_append, List.map_cons, List.map_nil]
    congr 1
    rw [List.filter_cons]
    simp [hne]
  have h2 : (ids ts').getLast? = some (e.id, e.type) := by rw [this]; simp
  unfold ids at h2
  rw [List.getLast?_map] at h2
  obtain ⟨e', he', hee'⟩ := Option.map_eq_some_iff.mp h2
  simp only [Prod.mk.injEq] at hee'
  exact ⟨e', he', e, he, by rw [hee'.2, hee], hee'.1⟩

/-- The braces that are removed. -/
def gone (ss : List Stmt) : List Nat :=
  (ss.filter fun s => !s.ignore && s.braces).flatMap fun s => [s.lb, s.rb]

theorem removeBraces_ids {ts : List Node} {st : Option Nat} {ss : List Stmt}
    (hd : (ts.map (·.id)).Nodup) (hnd : (gone ss).Nodup)
    (hmem : ∀ x ∈ gone ss, ∃ ty, (x, ty) ∈ ids ts ∧ ty ≠ .eof)
    (hlast : ∃ e ∈ ts.getLast?, e.type = .eof) :
    ∃ ts', removeBraces ts st ss = some ts' ∧
      ids ts' = (ids ts).filter (fun p => decide (p.1 ∉ gone ss)) ∧ (attached ts').Perm (attached ts) := by
  induction ss generalizing ts st with
  | nil =>
    refine ⟨ts, rfl, ?_, List.Perm.refl _⟩
    rw [List.filter_eq_self.mpr]
    intro p _
    simp [gone]
  | cons s ss ih =>
    rw [removeBraces]
    by_cases hc : (s.ignore || !s.braces) = true
    · rw [if_pos hc]
      have hg : gone (s :: ss) = gone ss := by
        unfold gone
        rw [List.filter_cons, if_neg]
        have : (!s.ignore && s.braces) = !(s.ignore || !s.braces) := by simp
        rw [this, hc]; simp
      rw [hg] at hnd hmem ⊢
      exact ih hd hnd hmem hlast
    · rw [if_neg hc]
      have hs : s.ignore = false ∧ s.braces = true := by simpa using hc
      have hg : gone (s :: ss) = s.lb :: s.rb :: gone ss := by
        unfold gone
        rw [List.filter_cons, if_pos (by simp [hs])]
        rfl
      rw [hg] at hnd hmem ⊢
      simp only [List.nodup_cons, List.mem_cons, not_or] at hnd
      -- the type of a token is unique
      have huniq : ∀ {x : Nat} {a b : TT}, (x, a) ∈ ids ts → (x, b) ∈ ids ts → a = b := by
        intro x a b ha hb
        obtain ⟨u, hu, hue⟩ := List.mem_map.mp ha
        obtain ⟨v, hv, hve⟩ := List.mem_map.mp hb
        simp only [Prod.mk.injEq] at hue hve
        have h1 := node_eq hd hu hue.1
        have h2 := node_eq hd hv hve.1
        rw [h1] at h2
        simp only [Option.some.injEq] at h2
        rw [← hue.2, ← hve.2, h2]
      have hlast' : ∀ x ∈ s.lb :: s.rb :: gone ss, ∀ e ∈ ts.getLast?, e.type = .eof → e.id ≠ x := by
        intro x hx e he hee hex
        obtain ⟨ty, hty, hne⟩ := hmem x hx
        have : (x, TT.eof) ∈ ids ts := by
          rw [← hex, ← hee]
          exact List.mem_map.mpr ⟨e, List.mem_of_getLast? he, rfl⟩
        exact hne (huniq hty this)
      obtain ⟨ty1, hm1, hty1⟩ := hmem s.lb (by simp)
      obtain ⟨t1, st1, r1, i1, p1⟩ := removeId_ids (st := st) hd hm1 hty1 hlast
      rw [r1]
      dsimp only
      obtain ⟨e, he, hee⟩ := hlast
      obtain ⟨e1, he1, e0, he0, hee1, hid1⟩ := ids_last i1 ⟨e, he, hee, hlast' s.lb (by simp) e he hee⟩
      have he0e : e0 = e := by
        simp only [Option.mem_def] at he he0
        rw [he] at he0; simpa using he0.symm
      rw [he0e] at hid1
      have hd1 : (t1.map (·.id)).Nodup := by
        rw [← ids_fst, i1]
        have : ((ids ts).map (·.1)).Nodup := by rw [ids_fst]; exact hd
        exact this.sublist ((List.filter_sublist).map _)
      obtain ⟨ty2, hm2, hty2⟩ := hmem s.rb (by simp)
      have hm2' : (s.rb, ty2) ∈ ids t1 := by
        rw [i1, List.mem_filter]
        refine ⟨hm2, ?_⟩
        simp only [decide_eq_true_eq]
        exact fun h => hnd.1.1 h.symm
      obtain ⟨t2, st2, r2, i2, p2⟩ := removeId_ids (st := st1) hd1 hm2' hty2 ⟨e1, he1, hee1⟩
      rw [r2]
      dsimp only
      obtain ⟨e2, he2, e1', he1', hee2, hid2⟩ := ids_last i2 ⟨e1, he1, hee1, by
        rw [hid1]; exact hlast' s.rb (by simp) e he hee⟩
      have hd2 : (t2.map (·.id)).Nodup := by
        rw [← ids_fst, i2]
        have : ((ids t1).map (·.1)).Nodup := by rw [ids_fst]; exact hd1
        exact this.sublist ((List.filter_sublist).map _)
      have i3 : ids t2 = (ids ts).filter (fun p => decide (p.1 ≠ s.lb) && decide (p.1 ≠ s.rb)) := by
        rw [i2, i1, List.filter_filter]
        congr 1
        funext p
        rw [Bool.and_comm]
      obtain ⟨ts', h1, h2, h3⟩ := ih (st := st2) hd2 hnd.2.2 (by
        intro x hx
        obtain ⟨ty, hty, hne⟩ := hmem x (by simp [hx])
        refine ⟨ty, ?_, hne⟩
        rw [i3, List.mem_filter]
        refine ⟨hty, ?_⟩
        simp only [Bool.and_eq_true, decide_eq_true_eq]
        constructor
        · rintro rfl; exact hnd.1.2 hx
        · rintro rfl; exact hnd.2.1 hx) ⟨e2, he2, hee2⟩
      refine ⟨ts', h1, ?_, (h3.trans p2).trans p1⟩
      rw [h2, i3, List.filter_filter]
      congr 1
      funext p
      simp only [List.mem_cons, not_or]
      by_cases ha : p.1 = s.lb <;> by_cases hb : p.1 = s.rb <;> simp [ha, hb]

/-! ## The decision -/

theorem changeable_iff {diffparse : Bool} {ts : List Node} {n : Nat} {bs : List Body}
    (h : Spec.Reported ts n bs) {b : Body} (hb : b ∈ bs) :
    (isBraceMoveable diffparse ts b.lb && isBraceMoveable diffparse ts b.rb) = true ↔
      Spec.Changeable diffparse ts b := by
  have key : ∀ id, (∃ t ∈ ts, t.id = id) → (isBraceMoveable diffparse ts id = true ↔ ∀ t ∈ ts, t.id = id →
      (diffparse = true → t.flags.diff = true) ∧ ∀ p ∈ t.prefixes, p.flags.cpp = false) := by
    intro id ⟨t, ht, hid⟩
    unfold isBraceMoveable
    rw [node_eq h.nodup ht hid]
    simp only [hasCpp, Bool.and_eq_true, Bool.or_eq_true, Bool.not_eq_true', List.any_eq_false]
    constructor
    · rintro ⟨h1, h2⟩ u hu hue
      have : u = t := by
        have e1 := node_eq h.nodup ht hid
        have e2 := node_eq h.nodup hu hue
        rw [e1] at e2; simpa using e2.symm
      subst this
      refine ⟨fun hd => ?_, fun p hp => by simpa using h2 p hp⟩
      rcases h1 with h1 | h1
      · rw [hd] at h1; simp at h1
      · exact h1
    · intro hh
      obtain ⟨h1, h2⟩ := hh t ht hid
      refine ⟨?_, fun p hp => by simpa using h2 p hp⟩
      cases diffparse with
      | false => exact Or.inl rfl
      | true => exact Or.inr (h1 rfl)
  have hin := fun x hx => (h.inside b hb x hx)
  have hl : ∃ t ∈ ts, t.id = b.lb := by
    obtain ⟨t, ht, e⟩ := hin b.lb (Or.inl rfl)
    exact ⟨t, List.mem_of_mem_tail ht, e⟩
  have hr : ∃ t ∈ ts, t.id = b.rb := by
    obtain ⟨t, ht, e⟩ := hin b.rb (Or.inr rfl)
    exact ⟨t, List.mem_of_mem_tail ht, e⟩
  rw [Bool.and_eq_true, key _ hl, key _ hr]
  unfold Spec.Changeable
  constructor
  · rintro ⟨h1, h2⟩ t ht (e | e)
    · exact h1 t ht e
    · exact h2 t ht e
  · intro hh
    exact ⟨fun t ht e => hh t ht (Or.inl e), fun t ht e => hh t ht (Or.inr e)⟩

theorem next_eq {ts : List Node} (hd : (ts.map (·.id)).Nodup) {a b : List Node} {t : Node}
    (e : ts = a ++ t :: b) : next ts t.id = b.head? := by
  subst e
  have ha : ∀ x ∈ a, x.id ≠ t.id := by
    intro x hx e
    rw [List.map_append, List.nodup_append] at hd
    exact hd.2.2 x.id (List.mem_map_of_mem hx) t.id (by simp) e
  unfold next
  rw [pos_append ha rfl]
  dsimp only
  rw [List.getElem?_append_right (by omega)]
  simp [List.head?_eq_getElem?]

theorem prev_eq {ts : List Node} (hd : (ts.map (·.id)).Nodup) {a b : List Node} {t : Node}
    (e : ts = a ++ t :: b) : prev ts t.id = a.getLast? := by
  subst e
  have ha : ∀ x ∈ a, x.id ≠ t.id := by
    intro x hx e
    rw [List.map_append, List.nodup_append] at hd
    exact hd.2.2 x.id (List.mem_map_of_mem hx) t.id (by simp) e
  unfold prev
  rw [pos_append ha rfl]
  rcases List.eq_nil_or_concat a with rfl | ⟨c, d, rfl⟩
  · simp
  · simp

theorem id_inj {ts : List Node} (hd : (ts.map (·.id)).Nodup) {x y : Node} (hx : x ∈ ts) (hy : y ∈ ts)
    (e : x.id = y.id) : x = y := by
  have e1 := node_eq hd hx rfl
  have e2 := node_eq hd hy rfl
  rw [e, e2] at e1
  simpa using e1.symm

theorem isEmpty_iff {ts : List Node} {n : Nat} {bs : List Body}
    (h : Spec.Reported ts n bs) {s : Stmt} (hb : s.toBody ∈ bs) :
    isEmpty ts bs.length s = true ↔ Spec.Empty ts bs s.toBody := by
  obtain ⟨l, hl, hle⟩ := h.inside s.toBody hb s.lb (Or.inl rfl)
  obtain ⟨r, hr, hre⟩ := h.inside s.toBody hb s.rb (Or.inr rfl)
  have hl := List.mem_of_mem_tail hl
  have hr := List.mem_of_mem_tail hr
  obtain ⟨a, b, el⟩ := List.append_of_mem hl
  obtain ⟨c, d, er⟩ := List.append_of_mem hr
  have hnx := next_eq h.nodup el
  have hpv := prev_eq h.nodup er
  rw [hle] at hnx
  rw [hre] at hpv
  have hnode := node_eq h.nodup hl hle
  unfold isEmpty
  simp only [hnx, hpv, hnode]
  -- the token after the left brace is the right one
  have hadj : (b.head?.map (·.id) = some s.rb) ↔
      ∃ pre l r post, ts = pre ++ l :: r :: post ∧ l.id = s.lb ∧ r.id = s.rb := by
    constructor
    · intro hh
      cases b with
      | nil => simp at hh
      | cons x b =>
        simp only [List.head?_cons, Option.map_some, Option.some.injEq] at hh
        exact ⟨a, l, x, b, el, hle, hh⟩
    · rintro ⟨pre, l', r', post, e, h1, h2⟩
      have hl' : l' = l := id_inj h.nodup (by rw [e]; simp) hl (by rw [h1, hle])
      subst hl'
      have := next_eq h.nodup e
      rw [h1, hnx] at this
      rw [this]
      simp [h2]
  have hadjty : ∀ {pre : List Node} {l' r' : Node} {post : List Node}, ts = pre ++ l' :: r' :: post →
      l'.id = s.lb → l' = l := by
    intro pre l' r' post e h1
    exact id_inj h.nodup (by rw [e]; simp) hl (by rw [h1, hle])
  unfold Spec.Empty
  cases hbr : s.braces with
  | false =>
    simp only [Bool.false_eq_true, if_false, Bool.and_eq_true, bne_iff_ne, beq_iff_eq]
    constructor
    · rintro ⟨h1, h2⟩
      obtain ⟨pre, l', r', post, e, h3, h4⟩ := hadj.mp h1
      refine Or.inl ⟨pre, l', r', post, e, h3, h4, Or.inr ?_⟩
      rw [hadjty e h3]
      intro hc
      exact h2 (by simp [hc])
    · rintro (⟨pre, l', r', post, e, h3, h4, h5⟩ | ⟨h0, -⟩)
      · refine ⟨hadj.mpr ⟨pre, l', r', post, e, h3, h4⟩, ?_⟩
        rcases h5 with h5 | h5
        · simp at h5
        · intro hc
          simp only [Option.map_some, Option.some.injEq] at hc
          exact h5 (by rw [hadjty e h3, hc])
      · simp at h0
  | true =>
    simp only [if_true]
    split
    · next hc =>
      simp only [Bool.and_eq_true, beq_iff_eq] at hc
      simp only [true_iff]
      refine Or.inr ⟨trivial, hc.2, ?_⟩
      cases b with
      | nil => simp at hc
      | cons x b =>
        simp only [List.head?_cons, Option.map_some, Option.some.injEq] at hc
        obtain ⟨⟨h1, h2⟩, -⟩ := hc
        rcases List.eq_nil_or_concat c with rfl | ⟨c', y, rfl⟩
        · simp at h1
        · simp only [List.concat_eq_append, List.getLast?_append, List.getLast?_singleton, Option.some_or,
            Option.map_some, Option.some.injEq] at h1
          have hxm : x ∈ ts := by rw [el]; simp
          have hym : y ∈ ts := by rw [er]; simp
          have hxy : x = y := id_inj h.nodup hxm hym h1
          subst hxy
          -- the token after x is r in one split and the head of b in the other
          have n1 := next_eq h.nodup (a := a ++ [l]) (b := b) (t := x) (by rw [el]; simp)
          have n2 := next_eq h.nodup (a := c') (b := r :: d) (t := x) (by rw [er]; simp)
          rw [n1] at n2
          cases b with
          | nil => simp at n2
          | cons z b =>
            simp only [List.head?_cons, Option.some.injEq] at n2
            subst n2
            exact ⟨a, l, x, z, b, el, hle, hre, h2⟩
    · next hc =>
      simp only [beq_iff_eq]
      rw [hadj]
      constructor
      · rintro ⟨pre, l', r', post, e, h3, h4⟩
        exact Or.inl ⟨pre, l', r', post, e, h3, h4, Or.inl trivial⟩
      · rintro (⟨pre, l', r', post, e, h3, h4, -⟩ | ⟨-, h1, pre, l', x, r', post, e, h3, h4, h5⟩)
        · exact ⟨pre, l', r', post, e, h3, h4⟩
        · exfalso
          apply hc
          have hl' : l' = l := id_inj h.nodup (by rw [e]; simp) hl (by rw [h3, hle])
          have hr' : r' = r := id_inj h.nodup (by rw [e]; simp) hr (by rw [h4, hre])
          subst hl' hr'
          have n1 := next_eq h.nodup e
          have n2 := prev_eq h.nodup (a := pre ++ [l', x]) (b := post) (t := r') (by rw [e]; simp)
          rw [h3, hnx] at n1
          rw [h4, hpv] at n2
          rw [n1, n2]
          simp [h1, h5]

theorem dropWhile_split {α : Type} (p : α → Bool) (l : List α) :
    ∃ a, l = a ++ l.dropWhile p ∧ (∀ x ∈ a, p x = true) ∧
      ∀ c, (l.dropWhile p).head? = some c → p c = false := by
  refine ⟨l.takeWhile p, (List.takeWhile_append_dropWhile).symm, fun x hx => ?_, ?_⟩
  · induction l with
    | nil => simp at hx
    | cons y l ih =>
      rw [List.takeWhile_cons] at hx
      split at hx
      · rcases List.mem_cons.mp hx with rfl | hx
        · assumption
        · exact ih hx
      · simp at hx
  · intro c hc
    induction l with
    | nil => simp at hc
    | cons y l ih =>
      rw [List.dropWhile_cons] at hc
      split at hc
      · exact ih hc
      · next hy =>
        simp only [List.head?_cons, Option.some.injEq] at hc
        rw [← hc]
        simpa using hy

open Knfmt.Comment (isSpace) in
theorem strtrim_spec (s : List Char) : ∃ pre post, s = pre ++ strtrim s ++ post ∧
    (∀ c ∈ pre, isSpace c = true) ∧ (∀ c ∈ post, isSpace c = true) ∧
    (∀ c, (strtrim s).head? = some c → isSpace c = false) ∧
    (∀ c, (strtrim s).getLast? = some c → isSpace c = false) := by
  obtain ⟨a, e1, h1, h2⟩ := dropWhile_split isSpace s
  obtain ⟨b, e2, h3, h4⟩ := dropWhile_split isSpace (s.dropWhile isSpace).reverse
  have e3 : s.dropWhile isSpace = strtrim s ++ b.reverse := by
    have := congrArg List.reverse e2
    simpa [strtrim] using this
  refine ⟨a, b.reverse, ?_, h1, fun c hc => h3 c (by simpa using hc), ?_, ?_⟩
  · rw [List.append_assoc, ← e3]; exact e1
  · intro c hc
    apply h2
    rw [e3, List.head?_append, hc]
    rfl
  · intro c hc
    unfold strtrim at hc
    rw [List.getLast?_reverse] at hc
    exact h4 c hc

open Knfmt.Comment (isSpace) in
/-- The trimmed text is unique. -/
theorem trim_unique {s pre mid post : List Char} (e : s = pre ++ mid ++ post) (hne : mid ≠ [])
    (h1 : ∀ c ∈ pre, isSpace c = true) (h2 : ∀ c ∈ post, isSpace c = true)
    (h3 : ∀ c, mid.head? = some c → isSpace c = false)
    (h4 : ∀ c, mid.getLast? = some c → isSpace c = false) : strtrim s = mid := by
  have e1 : s.dropWhile isSpace = mid ++ post := by
    rw [e, List.append_assoc, List.dropWhile_append_of_pos h1]
    cases mid with
    | nil => exact absurd rfl hne
    | cons c m =>
      rw [List.cons_append, List.dropWhile_cons, if_neg]
      rw [h3 c rfl]; simp
  unfold strtrim
  rw [e1, List.reverse_append, List.dropWhile_append_of_pos (by simpa using h2)]
  rcases List.eq_nil_or_concat mid with rfl | ⟨m, c, rfl⟩
  · exact absurd rfl hne
  · simp only [List.concat_eq_append, List.reverse_append, List.reverse_cons, List.reverse_nil, List.nil_append,
      List.cons_append]
    rw [List.dropWhile_cons, if_neg]
    · simp
    · rw [h4 c (by simp)]; simp

theorem isoneline_iff (b : Body) : isoneline (strtrim b.text) = false ↔ Spec.ManyLines b := by
  unfold isoneline
  simp only [Bool.not_eq_false', List.contains_eq_mem, decide_eq_true_eq]
  constructor
  · intro h
    obtain ⟨pre, post, e, h1, h2, h3, h4⟩ := strtrim_spec b.text
    exact ⟨pre, _, post, e, h, h3, h4, h1, h2⟩
  · rintro ⟨pre, mid, post, e, h, h3, h4, h1, h2⟩
    rw [trim_unique e (by rintro rfl; simp at h) h1 h2 h3 h4]
    exact h

theorem need1_iff {ts : List Node} {n : Nat} {bs : List Body}
    (h : Spec.Reported ts n bs) {s : Stmt} (hb : s.toBody ∈ bs) :
    needBraces1 ts bs.length s = true ↔
      Spec.Empty ts bs s.toBody ∨ Spec.ManyLines s.toBody ∨ Spec.Commented ts s.toBody := by
  unfold needBraces1
  have he := isEmpty_iff h hb
  have ho := isoneline_iff s.toBody
  obtain ⟨r, hr, hre⟩ := h.inside s.toBody hb s.rb (Or.inr rfl)
  have hr := List.mem_of_mem_tail hr
  have hnode := node_eq h.nodup hr hre
  have hm : isMoveable r = false ↔
      ((∃ p ∈ r.prefixes, p.type = .comment ∨ p.flags.cpp = true) ∨ ∃ s ∈ r.suffixes, s.type = .comment) := by
    unfold isMoveable
    rw [Bool.and_eq_false_iff]
    simp [List.any_eq_true]
  have hc : (s.braces && !((node ts s.rb).map isMoveable).getD true) = true ↔ Spec.Commented ts s.toBody := by
    rw [hnode]
    simp only [Option.map_some, Option.getD_some, Bool.and_eq_true, Bool.not_eq_true', hm, Spec.Commented]
    constructor
    · rintro ⟨h1, h2⟩
      exact ⟨h1, r, hr, hre, h2⟩
    · rintro ⟨h1, t, ht, hte, h2⟩
      have : t = r := id_inj h.nodup ht hr (by rw [hte, hre])
      subst this
      exact ⟨h1, h2⟩
  by_cases hE : isEmpty ts bs.length s = true
  · rw [if_pos hE]
    exact ⟨fun _ => Or.inl (he.mp hE), fun _ => rfl⟩
  · rw [if_neg hE]
    have hE' : ¬ Spec.Empty ts bs s.toBody := fun h => hE (he.mpr h)
    by_cases hO : isoneline (strtrim s.text) = true
    · rw [if_pos hO, hc]
      have hO' : ¬ Spec.ManyLines s.toBody := fun hh => by
        have := ho.mpr hh
        rw [hO] at this; simp at this
      exact ⟨fun h => Or.inr (Or.inr h), fun h => by
        rcases h with h | h | h
        · exact absurd h hE'
        · exact absurd h hO'
        · exact h⟩
    · rw [if_neg hO]
      exact ⟨fun _ => Or.inr (Or.inl (ho.mp (by simpa using hO))), fun _ => rfl⟩

/-- The statement recorded for a body. -/
def stmtOf (diffparse : Bool) (ts : List Node) (b : Body) : Stmt :=
  { b with ignore := !(isBraceMoveable diffparse ts b.lb && isBraceMoveable diffparse ts b.rb) }

theorem record_eq {diffparse : Bool} {ts : List Node} {bs : List Body} (hlen : bs.length ≤ 32) :
    record diffparse ts bs = bs.map (stmtOf diffparse ts) := by
  unfold record stmtMax
  rw [List.take_of_length_le hlen]
  rfl

theorem ignore_iff {diffparse : Bool} {ts : List Node} {n : Nat} {bs : List Body}
    (h : Spec.Reported ts n bs) {b : Body} (hb : b ∈ bs) :
    (stmtOf diffparse ts b).ignore = false ↔ Spec.Changeable diffparse ts b := by
  rw [← changeable_iff h hb]
  simp only [stmtOf, Bool.not_eq_false']

theorem need_iff {diffparse : Bool} {ts : List Node} {n : Nat} {bs : List Body}
    (h : Spec.Reported ts n bs) :
    needBraces ts (bs.map (stmtOf diffparse ts)) = true ↔ ∃ b ∈ bs, Spec.Needs diffparse ts bs b := by
  unfold needBraces
  rw [List.any_eq_true]
  constructor
  · rintro ⟨s, hs, hn⟩
    obtain ⟨b, hb, rfl⟩ := List.mem_map.mp hs
    refine ⟨b, hb, ?_⟩
    rw [List.length_map] at hn
    by_cases hi : (stmtOf diffparse ts b).ignore = true
    · rw [if_pos hi] at hn
      left
      refine ⟨fun hc => ?_, hn⟩
      rw [(ignore_iff h hb).mpr hc] at hi
      simp at hi
    · rw [if_neg hi] at hn
      right
      exact ⟨(ignore_iff h hb).mp (by simpa using hi), (need1_iff h (s := stmtOf diffparse ts b) hb).mp hn⟩
  · rintro ⟨b, hb, hn⟩
    refine ⟨_, List.mem_map_of_mem hb, ?_⟩
    rw [List.length_map]
    rcases hn with ⟨h1, h2⟩ | ⟨h1, h2⟩
    · have hi : (stmtOf diffparse ts b).ignore = true := by
        cases hh : (stmtOf diffparse ts b).ignore with
        | true => rfl
        | false => exact absurd ((ignore_iff h hb).mp hh) h1
      rw [if_pos hi]
      exact h2
    · have hi := (ignore_iff h hb).mpr h1
      rw [if_neg (by simp [hi])]
      exact (need1_iff h (s := stmtOf diffparse ts b) hb).mpr h2

/-! ## The property -/

open Classical in
/-- How many of the bodies without braces that may be changed satisfy `p`. -/
noncomputable def Spec.count (diffparse : Bool) (ts : List Node) (bs : List Body) (p : Body → Prop) : Nat :=
  (bs.filter fun b => decide (Spec.Changeable diffparse ts b ∧ b.braces = false ∧ p b)).length

open Classical in
/-- C35. Of all the bodies that may be changed, either those without braces get braces and nothing
else happens to the tokens, or exactly the braces of those with braces are removed. The former happens
if and only if one of the bodies needs braces. Comments and directives stay, and when adding also their
order.

Partial: this holds for up to 32 bodies, the ones after that are left as they are, see
`braces_mixture`. -/
theorem braces_all_or_none_partial (diffparse : Bool) (ts : List Node) (st : Option Nat) (n : Nat)
    (bs : List Body) (h : Spec.Reported ts n bs) (hlen : bs.length ≤ 32) :
    ∃ ts', simpleStmt diffparse ts st n bs = some ts' ∧ (attached ts').Perm (attached ts) ∧
      ((∃ b ∈ bs, Spec.Needs diffparse ts bs b) →
        Spec.view n ts' = Spec.withBraces (fun x => Spec.count diffparse ts bs (·.lb = x))
          (fun x => Spec.count diffparse ts bs (·.rb = x)) ts ∧ comments ts' = comments ts) ∧
      ((¬ ∃ b ∈ bs, Spec.Needs diffparse ts bs b) →
        Spec.view n ts' = Spec.view n (ts.filter fun t => decide (¬ ∃ b ∈ bs, Spec.Changeable diffparse ts b ∧
          b.braces = true ∧ (t.id = b.lb ∨ t.id = b.rb)))) := by
  have hrec := record_eq (diffparse := diffparse) (ts := ts) hlen
  unfold simpleStmt
  simp only [hrec]
  have hview0 : Spec.view n ts = Spec.withBraces (fun _ => 0) (fun _ => 0) ts := by
    unfold Spec.view Spec.withBraces
    have : ∀ l : List Node, (∀ t ∈ l, t.id < n) →
        (l.map fun t => ((if t.id < n then some t.id else none, t.type) : Spec.View)) =
        l.flatMap fun t => List.replicate 0 (none, TT.rbrace) ++ List.replicate 0 (none, TT.lbrace) ++
          [(some t.id, t.type)] := by
      intro l hl
      induction l with
      | nil => rfl
      | cons t l ih =>
        rw [List.map_cons, List.flatMap_cons, ih (fun x hx => hl x (by simp [hx])), if_pos (hl t (by simp))]
        rfl
    exact this ts h.used
  by_cases hnil : bs = []
  · subst hnil
    rw [if_pos (by simp)]
    refine ⟨ts, rfl, List.Perm.refl _, fun hh => by simp at hh, fun _ => ?_⟩
    rw [List.filter_eq_self.mpr]
    intro t _
    simp
  · rw [if_neg (by simpa using hnil)]
    have hneed := need_iff (diffparse := diffparse) h
    by_cases hN : ∃ b ∈ bs, Spec.Needs diffparse ts bs b
    · rw [if_pos (hneed.mpr hN)]
      obtain ⟨ts', h1, h2, h3, h4⟩ := addBraces_view (ss := bs.map (stmtOf diffparse ts)) h.nodup h.used
        (Nat.le_refl n) hview0
        (by
          intro s hs
          obtain ⟨b, hb, rfl⟩ := List.mem_map.mp hs
          exact h.inside b hb)
        (fun _ _ _ => rfl)
        (by
          intro s hs s' hs'
          obtain ⟨b, hb, rfl⟩ := List.mem_map.mp hs
          obtain ⟨c, hc, rfl⟩ := List.mem_map.mp hs'
          exact h.apart b hb c hc)
      refine ⟨ts', h1, h3, fun _ => ⟨?_, h4⟩, fun hh => absurd hN hh⟩
      rw [h2]
      have hcount : ∀ (q : Body → Nat) (x : Nat),
          (0 + (bs.map (stmtOf diffparse ts)).countP fun s => !s.ignore && !s.braces && decide (q s.toBody = x)) =
            Spec.count diffparse ts bs (fun b => q b = x) := by
        intro q x
        rw [Nat.zero_add, List.countP_map, List.countP_eq_length_filter]
        unfold Spec.count
        congr 1
        apply List.filter_congr
        intro b hb
        have hi := ignore_iff (diffparse := diffparse) h hb
        simp only [Function.comp_apply]
        have e1 : (stmtOf diffparse ts b).braces = b.braces := rfl
        have e2 : (stmtOf diffparse ts b).toBody = b := rfl
        rw [e1, e2]
        by_cases hch : Spec.Changeable diffparse ts b
        · rw [hi.mpr hch]
          cases hb : b.braces <;> simp [hch]
        · have : (stmtOf diffparse ts b).ignore = true := by
            cases hh : (stmtOf diffparse ts b).ignore with
            | true => rfl
            | false => exact absurd (hi.mp hh) hch
          rw [this]
          simp [hch]
      congr 1
      · funext x; exact hcount (·.lb) x
      · funext x; exact hcount (·.rb) x
    · rw [if_neg (fun hh => hN (hneed.mp hh))]
      have hgone : ∀ x, x ∈ gone (bs.map (stmtOf diffparse ts)) ↔
          ∃ b ∈ bs, Spec.Changeable diffparse ts b ∧ b.braces = true ∧ (x = b.lb ∨ x = b.rb) := by
        intro x
        unfold gone
        rw [List.mem_flatMap]
        constructor
        · rintro ⟨s, hs, hx⟩
          obtain ⟨hs, hf⟩ := List.mem_filter.mp hs
          obtain ⟨b, hb, rfl⟩ := List.mem_map.mp hs
          simp only [Bool.and_eq_true, Bool.not_eq_true'] at hf
          refine ⟨b, hb, (ignore_iff h hb).mp hf.1, hf.2, ?_⟩
          simpa [stmtOf] using hx
        · rintro ⟨b, hb, h1, h2, h3⟩
          refine ⟨stmtOf diffparse ts b, List.mem_filter.mpr ⟨List.mem_map_of_mem hb, ?_⟩, by simpa [stmtOf] using h3⟩
          simp only [Bool.and_eq_true, Bool.not_eq_true']
          exact ⟨(ignore_iff h hb).mpr h1, h2⟩
      have hnd : (gone (bs.map (stmtOf diffparse ts))).Nodup := by
        have : ∀ l : List Body, ((l.filter (·.braces)).flatMap fun b => [b.lb, b.rb]).Nodup →
            (gone (l.map (stmtOf diffparse ts))).Nodup ∧
            ∀ x ∈ gone (l.map (stmtOf diffparse ts)), x ∈ (l.filter (·.braces)).flatMap fun b => [b.lb, b.rb] := by
          intro l
          induction l with
          | nil => intro _; simp [gone]
          | cons b l ih =>
            intro hl
            unfold gone
            rw [List.map_cons, List.filter_cons]
            rw [List.filter_cons] at hl ⊢
            cases hbr : b.braces with
            | false =>
              rw [hbr] at hl
              simp only [Bool.false_eq_true, if_false] at hl ⊢
              have e : (!(stmtOf diffparse ts b).ignore && (stmtOf diffparse ts b).braces) = false := by
                have : (stmtOf diffparse ts b).braces = false := hbr
                rw [this, Bool.and_false]
              rw [e]
              exact ih hl
            | true =>
              rw [hbr] at hl
              simp only [if_true, List.flatMap_cons] at hl ⊢
              have hl2 := (List.nodup_append.mp hl)
              obtain ⟨i1, i2⟩ := ih hl2.2.1
              split
              · simp only [List.flatMap_cons]
                refine ⟨List.nodup_append.mpr ⟨hl2.1, i1, fun a ha c hc => ?_⟩, ?_⟩
                · exact hl2.2.2 a ha c (i2 c hc)
                · intro x hx
                  rcases List.mem_append.mp hx with hx | hx
                  · exact List.mem_append.mpr (Or.inl hx)
                  · exact List.mem_append.mpr (Or.inr (i2 x hx))
              · exact ⟨i1, fun x hx => List.mem_append.mpr (Or.inr (i2 x hx))⟩
        exact (this bs h.once).1
      obtain ⟨b0, hb0⟩ := List.exists_mem_of_ne_nil bs hnil
      have htsne : ts ≠ [] := by
        rintro rfl
        obtain ⟨t, ht, -⟩ := h.inside b0 hb0 b0.lb (Or.inl rfl)
        simp at ht
      obtain ⟨ts', h1, h2, h3⟩ := removeBraces_ids (st := st) (ss := bs.map (stmtOf diffparse ts)) h.nodup hnd
        (by
          intro x hx
          obtain ⟨b, hb, hc, hbr, hxe⟩ := (hgone x).mp hx
          obtain ⟨t, ht, hte⟩ := h.inside b hb x hxe
          have ht := List.mem_of_mem_tail ht
          refine ⟨t.type, List.mem_map.mpr ⟨t, ht, by rw [hte]⟩, ?_⟩
          rcases hxe with rfl | rfl
          · rw [h.lbrace b hb hbr t ht hte]; decide
          · rw [h.rbrace b hb hbr t ht hte]; decide)
        ⟨ts.getLast htsne, List.getLast?_eq_some_getLast htsne,
          (h.eof _ (List.getLast_mem htsne)).mpr (List.getLast?_eq_some_getLast htsne)⟩
      refine ⟨ts', h1, h3, fun hh => absurd hh hN, fun _ => ?_⟩
      have hv : ∀ l : List Node, Spec.view n l =
          (ids l).map fun p => (if p.1 < n then some p.1 else none, p.2) := by
        intro l; simp [Spec.view, ids, List.map_map, Function.comp_def]
      rw [hv ts', h2, hv]
      congr 1
      unfold ids
      rw [List.filter_map]
      congr 1
      apply List.filter_congr
      intro t _
      simp only [Function.comp_apply, decide_eq_decide]
      rw [hgone]

/-! ## Examples -/

/-- `if ( a ) { b ; } else c ; d` -/
def chain : List Node :=
  [⟨0, .kIf, {}, 1, [], []⟩, ⟨1, .lparen, {}, 1, [], []⟩, ⟨2, .ident, {}, 1, [], []⟩, ⟨3, .rparen, {}, 1, [], []⟩,
   ⟨4, .lbrace, {}, 1, [], []⟩, ⟨5, .ident, {}, 2, [], []⟩, ⟨6, .semi, {}, 2, [], []⟩, ⟨7, .rbrace, {}, 3, [], []⟩,
   ⟨8, .kElse, {}, 3, [], []⟩, ⟨9, .ident, {}, 4, [], [⟨90, .space, {}⟩]⟩, ⟨10, .semi, {}, 4, [], []⟩,
   ⟨11, .ident, {}, 5, [⟨91, .comment, {}⟩], []⟩, ⟨12, .eof, {}, 6, [], []⟩]

/-- The bodies of the chain, given the text of the second one. -/
def bodies (s : String) : List Body :=
  [⟨4, 7, true, "\n\tb;".toList⟩, ⟨9, 11, false, s.toList⟩]

example (s : String) : Spec.Reported chain 100 (bodies s) where
  nodup := by decide
  used := by decide
  eof := by decide
  inside := by
    intro b hb x hx
    simp only [bodies, List.mem_cons, List.not_mem_nil, or_false] at hb
    rcases hb with rfl | rfl <;> rcases hx with rfl | rfl <;> dsimp only <;> decide
  lbrace := by
    intro b hb hbr
    simp only [bodies, List.mem_cons, List.not_mem_nil, or_false] at hb
    rcases hb with rfl | rfl
    · decide
    · simp at hbr
  rbrace := by
    intro b hb hbr
    simp only [bodies, List.mem_cons, List.not_mem_nil, or_false] at hb
    rcases hb with rfl | rfl
    · decide
    · simp at hbr
  once := by simp [bodies]
  apart := by
    intro b hb c hc h1 h2
    simp only [bodies, List.mem_cons, List.not_mem_nil, or_false] at hb hc
    rcases hb with rfl | rfl <;> rcases hc with rfl | rfl <;> simp_all

/-- The second body is printed on one line: the braces of the first are removed. -/
example : (simpleStmt false chain none 100 (bodies "\n\tc;")).map (fun ts => ts.map (·.id)) =
    some [0, 1, 2, 3, 5, 6, 8, 9, 10, 11, 12] := by decide +kernel

/-- It is printed on two lines: it gets braces. -/
example : (simpleStmt false chain none 100 (bodies "\n\tc +\n\t    d;")).map (fun ts => ts.map (·.id)) =
    some [0, 1, 2, 3, 4, 5, 6, 7, 8, 100, 9, 10, 101, 11, 12] := by decide +kernel

/-- The tokens of 33 statements, `if { ; }`, each one with braces. -/
def many : List Node :=
  (List.range 33).flatMap (fun i =>
    [⟨4 * i, .kIf, {}, i, [], []⟩, ⟨4 * i + 1, .lbrace, {}, i, [], []⟩, ⟨4 * i + 2, .semi, {}, i, [], []⟩,
     ⟨4 * i + 3, .rbrace, {}, i, [], []⟩]) ++ [⟨132, .eof, {}, 33, [], []⟩]

/-- Their bodies. -/
def manyBodies : List Body := (List.range 33).map fun i => ⟨4 * i + 1, 4 * i + 3, true, [';']⟩

/-- The full statement of C35 is false: the braces of the first 32 bodies are removed, the last one keeps
them, although it does not need them. -/
theorem braces_mixture :
    (simpleStmt false many none 200 manyBodies).map (fun ts => ts.map (·.type)) =
      some ((List.range 32).flatMap (fun _ => [.kIf, .semi]) ++ [.kIf, .lbrace, .semi, .rbrace, .eof]) := by
  decide +kernel

end Knfmt.Stmt
