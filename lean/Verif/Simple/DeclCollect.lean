import Verif.Simple.DeclEdit
/-!
# Grouping declarations: what is collected

What is known about the declarations of a block once the parser has told about all of them.
-/
namespace Knfmt.SimpleDecl

open Knfmt.Lexer (TT)
open Knfmt.Stream (Node Fix)
open Knfmt.Stmt (node pos next prev isMoveable removeId)
open Knfmt.Forward (from_ from_eq)

/-- Address of the first token. -/
def hid (l : List Node) : Nat := (l.head?.map (·.id)).getD 0

/-- Address of the last token. -/
def lid (l : List Node) : Nat := (l.getLast?.map (·.id)).getD 0

theorem hid_cons (x : Node) (l : List Node) : hid (x :: l) = x.id := rfl

theorem lid_concat (x : Node) (l : List Node) : lid (l ++ [x]) = x.id := by
  unfold lid; rw [List.getLast?_concat]; rfl

theorem upTo_eq {V B : List Node} {f : Node} (h : ∀ t ∈ V, t.id ≠ f.id) : upTo f.id (V ++ f :: B) = V ++ [f] := by
  induction V with
  | nil => simp [upTo]
  | cons x V ih =>
    rw [List.cons_append, upTo, if_neg (h x List.mem_cons_self), ih fun t ht => h t (List.mem_cons_of_mem _ ht)]
    rfl

theorem nodup_mid {A B : List Node} {x : Node} (hd : ((A ++ x :: B).map (·.id)).Nodup) :
    (∀ t ∈ A, t.id ≠ x.id) ∧ (∀ t ∈ B, t.id ≠ x.id) := by
  rw [List.map_append, List.map_cons, List.nodup_append, List.nodup_cons] at hd
  refine ⟨fun t ht => hd.2.2 _ (List.mem_map_of_mem ht) x.id (by simp), ?_⟩
  intro t ht e
  exact hd.2.1.1 (e ▸ List.mem_map_of_mem ht)

/-- A range is what it should be. -/
theorem range_eq {A V B : List Node} (hd : ((A ++ V ++ B).map (·.id)).Nodup) (hV : V ≠ []) :
    range (A ++ V ++ B) (hid V) (lid V) = V := by
  obtain ⟨x, V', rfl⟩ := List.exists_cons_of_ne_nil hV
  rcases List.eq_nil_or_concat V' with rfl | ⟨V2, y, rfl⟩
  · have h := nodup_mid (A := A) (x := x) (B := B) (by simpa using hd)
    unfold range
    rw [show A ++ [x] ++ B = A ++ x :: B by simp]
    show upTo x.id (from_ (A ++ x :: B) x.id) = [x]
    rw [from_eq h.1]
    exact upTo_eq (V := []) (by simp)
  · rw [List.concat_eq_append] at hd ⊢
    have h := nodup_mid (A := A) (x := x) (B := V2 ++ [y] ++ B) (by simpa using hd)
    have h2 := nodup_mid (A := A ++ x :: V2) (x := y) (B := B) (by simpa using hd)
    unfold range
    rw [show A ++ (x :: (V2 ++ [y])) ++ B = A ++ x :: (V2 ++ [y] ++ B) by simp, hid_cons, from_eq h.1,
      show x :: (V2 ++ [y]) = (x :: V2) ++ [y] by simp, lid_concat]
    rw [show x :: (V2 ++ [y] ++ B) = (x :: V2) ++ y :: B by simp]
    exact upTo_eq (fun t ht => h2.1 t (List.mem_append_right _ ht))

/-- The range of nothing goes on behind it. -/
theorem range_none {A B : List Node} {f pv : Node} (hd : ((A ++ [pv] ++ f :: B).map (·.id)).Nodup) :
    ∃ C, range (A ++ [pv] ++ f :: B) f.id pv.id = f :: C := by
  have h := nodup_mid (A := A ++ [pv]) hd
  unfold range
  rw [from_eq h.1, upTo, if_neg]
  · exact ⟨_, rfl⟩
  · exact (h.1 pv (by simp)).symm

theorem prev_mid {A B : List Node} {f pv : Node} (hd : ((A ++ [pv] ++ f :: B).map (·.id)).Nodup) :
    prev (A ++ [pv] ++ f :: B) f.id = some pv := by
  unfold prev
  rw [pos_mid hd, List.length_append]
  show (A ++ [pv] ++ f :: B)[A.length]? = some pv
  simp

theorem next_mid {A B : List Node} {f nx : Node} (hd : ((A ++ f :: nx :: B).map (·.id)).Nodup) :
    next (A ++ f :: nx :: B) f.id = some nx := by
  unfold next
  rw [pos_mid hd]
  show (A ++ f :: nx :: B)[A.length + 1]? = some nx
  simp

/-- A declarator without what follows: only a name and stars, and no comments. -/
def bareVar (v : List Node) : Bool :=
  v.any (fun t => decide (t.type = .ident)) &&
  v.all (fun t => (decide (t.type = .star) || decide (t.type = .ident)) && decide (fixed t = []))

theorem classifyGo_err (v : List Node) (ni ns nq : Nat) : (classifyGo v (ni, ns, nq, true)).2.2.2 = true := by
  induction v generalizing ni ns nq with
  | nil => rfl
  | cons t v ih =>
    unfold classifyGo
    simp only [Bool.true_or]
    split
    · exact ih ..
    · split
      · exact ih ..
      · split
        · exact ih ..
        · split
          · rfl
          · exact ih ..

theorem classifyGo_ok (v : List Node) (ni ns nq : Nat) :
    (classifyGo v (ni, ns, nq, false)).2.2.2 =
      !v.all (fun t => (decide (t.type = .star) || decide (t.type = .ident)) && decide (fixed t = [])) ∧
    (v.all (fun t => (decide (t.type = .star) || decide (t.type = .ident)) && decide (fixed t = [])) = true →
      (decide ((classifyGo v (ni, ns, nq, false)).1 > 0) = (decide (ni > 0) || v.any (fun t => decide (t.type = .ident))))) := by
  induction v generalizing ni ns nq with
  | nil => simp [classifyGo]
  | cons t v ih =>
    have hm : (!isMoveable t) = !decide (fixed t = []) := by
      by_cases h : fixed t = []
      · simp [moveable_iff.mpr h, h]
      · have : isMoveable t = false := by
          cases hh : isMoveable t with
          | false => rfl
          | true => exact absurd (moveable_iff.mp hh) h
        simp [this, h]
    unfold classifyGo
    simp only [Bool.false_or, hm]
    by_cases hf : fixed t = []
    · simp only [hf, decide_true, Bool.not_true]
      by_cases h1 : t.type = .star
      · rw [if_pos h1]
        have := ih ni (ns + 1) nq
        simp [h1, hf] at this ⊢
        exact this
      · rw [if_neg h1]
        by_cases h2 : t.type = .ident
        · rw [if_pos h2]
          have := ih (ni + 1) ns nq
          simp [h2, hf] at this ⊢
          exact this
        · rw [if_neg h2]
          have hall : (t :: v).all (fun t => (decide (t.type = .star) || decide (t.type = .ident)) && decide (fixed t = [])) = false := by
            simp [h1, h2]
          rw [hall]
          refine ⟨?_, by simp⟩
          split
          · simp [classifyGo_err]
          · split
            · rfl
            · simp [classifyGo_err]
    · have hall : (t :: v).all (fun t => (decide (t.type = .star) || decide (t.type = .ident)) && decide (fixed t = [])) = false := by
        simp [hf]
      rw [hall]
      refine ⟨?_, by simp⟩
      simp only [hf, decide_false, Bool.not_false]
      split
      · simp [classifyGo_err]
      · split
        · simp [classifyGo_err]
        · split
          · simp [classifyGo_err]
          · split
            · rfl
            · simp [classifyGo_err]

theorem classify_eq (v : List Node) : (classify v).1 = bareVar v := by
  unfold classify bareVar
  have h := classifyGo_ok v 0 0 0
  revert h
  generalize v.all (fun t => (decide (t.type = .star) || decide (t.type = .ident)) && decide (fixed t = [])) = a
  obtain ⟨ni, ns, nq, e⟩ := classifyGo v (0, 0, 0, false)
  dsimp only
  rintro ⟨rfl, h2⟩
  cases a with
  | false => simp
  | true =>
    have := h2 rfl
    simp at this
    simp [this]

theorem classify_delim {f : Node} {C : List Node} (h : f.type = .comma ∨ f.type = .semi) : (classify (f :: C)).1 = false := by
  rw [classify_eq]
  unfold bareVar
  rcases h with h | h <;> simp [h]

/-- What is moved: the tokens of a declarator and a comma. -/
def toVar (v : List Node) (comma : Option Nat) : Var :=
  { beg := hid v, fin := lid v, sort := hid (v.filter fun t => decide (t.type = .ident)), delim := comma }

/-- Every semicolon in use is one of `A`. -/
def AllIn (A : List Nat) (slots : List Slot) : Prop :=
  ∀ s ∈ slots, (∀ n, s.kept = some n → n ∈ A) ∧ (∀ n, s.fallback = some n → n ∈ A)

/-- There is a semicolon for every slot. -/
def Done (slots : List Slot) : Prop := ∀ s ∈ slots, (s.kept.or s.fallback).isSome

theorem allIn_mono {A B : List Nat} {slots : List Slot} (h : ∀ n ∈ A, n ∈ B) (hs : AllIn A slots) : AllIn B slots :=
  fun s hm => ⟨fun n hn => h n ((hs s hm).1 n hn), fun n hn => h n ((hs s hm).2 n hn)⟩

theorem allIn_grow {A : List Nat} {slots : List Slot} (n : Nat) (h : AllIn A slots) : AllIn A (growSlots slots n) := by
  intro s hs
  unfold growSlots at hs
  rcases List.mem_append.mp hs with hs | hs
  · exact h s hs
  · rw [(List.mem_replicate.mp hs).2]
    exact ⟨by simp, by simp⟩

theorem vars_grow (slots : List Slot) (n : Nat) : (growSlots slots n).flatMap (·.vars) = slots.flatMap (·.vars) := by
  unfold growSlots
  rw [List.flatMap_append]
  have : (List.replicate (n + 1 - slots.length) ({} : Slot)).flatMap (·.vars) = [] := by
    rw [List.flatMap_eq_nil_iff]
    intro s hs
    rw [(List.mem_replicate.mp hs).2]
  rw [this, List.append_nil]

theorem grow_length (slots : List Slot) (n : Nat) : n < (growSlots slots n).length := by
  unfold growSlots
  rw [List.length_append, List.length_replicate]
  omega

theorem mem_modify {l : List Slot} {n : Nat} {f : Slot → Slot} {s : Slot} (h : s ∈ l.modify n f) : s ∈ l ∨ ∃ t ∈ l, s = f t := by
  obtain ⟨i, hi, rfl⟩ := List.getElem_of_mem h
  rw [List.getElem_modify]
  have hi' : i < l.length := by simpa using hi
  split
  · exact Or.inr ⟨l[i], List.getElem_mem _, rfl⟩
  · exact Or.inl (List.getElem_mem _)

theorem vars_modify (l : List Slot) (n : Nat) (f : Slot → Slot) (h : ∀ s, (f s).vars = s.vars) :
    (l.modify n f).map (·.vars) = l.map (·.vars) := by
  apply List.ext_getElem
  · simp
  · intro i h1 h2
    simp only [List.getElem_map, List.getElem_modify]
    split <;> simp [h]

theorem vars_fallBack (semi : Nat) (l : List Slot) : (fallBack semi l).map (·.vars) = l.map (·.vars) := by
  induction l with
  | nil => rfl
  | cons s l ih =>
    unfold fallBack
    rw [List.map_cons, List.map_cons, ih]
    congr 1
    split
    · rfl
    · split <;> rfl

theorem vars_associate (ns : List Nat) (l : List Slot) (semi : Nat) :
    (associateSemi ns l semi).map (·.vars) = l.map (·.vars) := by
  unfold associateSemi
  rw [vars_fallBack]
  induction ns with
  | nil => rfl
  | cons n ns ih => rw [List.foldr_cons, vars_modify _ _ _ (by simp), ih]

theorem allIn_fallBack {A : List Nat} {semi : Nat} (hs : semi ∈ A) {l : List Slot} (h : AllIn A l) : AllIn A (fallBack semi l) := by
  induction l with
  | nil => exact h
  | cons s l ih =>
    have h1 := h s List.mem_cons_self
    have hl : AllIn A l := fun t ht => h t (List.mem_cons_of_mem _ ht)
    intro t ht
    unfold fallBack at ht
    rcases List.mem_cons.mp ht with rfl | ht
    · split
      · exact h1
      · split
        · rename_i k hk
          obtain ⟨u, hu, hk'⟩ := List.exists_of_findSome?_eq_some hk
          refine ⟨?_, h1.2⟩
          intro n hn
          injection hn with hn
          subst hn
          exact (hl u hu).1 _ hk'
        · refine ⟨h1.1, ?_⟩
          intro n hn
          dsimp only at hn
          cases hf : s.fallback with
          | none => rw [hf] at hn; simp at hn; rw [← hn]; exact hs
          | some m => rw [hf] at hn; simp at hn; rw [← hn]; exact h1.2 m hf
    · exact ih hl t ht

theorem done_fallBack (semi : Nat) (l : List Slot) : Done (fallBack semi l) := by
  induction l with
  | nil => intro s hs; simp [fallBack] at hs
  | cons s l ih =>
    intro t ht
    unfold fallBack at ht
    rcases List.mem_cons.mp ht with rfl | ht
    · split
      · rename_i h
        cases hk : s.kept with
        | none => rw [hk] at h; simp at h
        | some => simp
      · split
        · simp
        · cases s.kept <;> cases s.fallback <;> simp
    · exact ih t ht

theorem allIn_associate {A : List Nat} {semi : Nat} (hs : semi ∈ A) (ns : List Nat) {l : List Slot} (h : AllIn A l) :
    AllIn A (associateSemi ns l semi) := by
  unfold associateSemi
  apply allIn_fallBack hs
  induction ns with
  | nil => exact h
  | cons n ns ih =>
    rw [List.foldr_cons]
    intro s hm
    rcases mem_modify hm with hm | ⟨t, ht, rfl⟩
    · exact ih s hm
    · refine ⟨?_, (ih t ht).2⟩
      intro n hn
      injection hn with hn
      rw [← hn]; exact hs

theorem done_associate (semi : Nat) (ns : List Nat) (l : List Slot) : Done (associateSemi ns l semi) :=
  done_fallBack _ _

theorem allIn_push {A : List Nat} {l : List Slot} {n : Nat} {v : Var} (h : AllIn A l) :
    AllIn A (l.modify n fun s => { s with vars := s.vars ++ [v] }) := by
  intro s hm
  rcases mem_modify hm with hm | ⟨t, ht, rfl⟩
  · exact h s hm
  · exact h t ht

theorem done_push {l : List Slot} {n : Nat} {v : Var} (h : Done l) :
    Done (l.modify n fun s => { s with vars := s.vars ++ [v] }) := by
  intro s hm
  rcases mem_modify hm with hm | ⟨t, ht, rfl⟩
  · exact h s hm
  · exact h t ht

theorem vars_push {l : List Slot} {n : Nat} (v : Var) (h : n < l.length) :
    ((l.modify n fun s => { s with vars := s.vars ++ [v] }).flatMap (·.vars)).Perm (l.flatMap (·.vars) ++ [v]) := by
  induction l generalizing n with
  | nil => simp at h
  | cons s l ih =>
    cases n with
    | zero =>
      rw [List.modify_zero_cons, List.flatMap_cons, List.flatMap_cons, List.append_assoc, List.append_assoc]
      exact List.Perm.append_left _ List.perm_append_comm
    | succ n =>
      rw [List.modify_succ_cons, List.flatMap_cons, List.flatMap_cons, List.append_assoc]
      exact List.Perm.append_left _ (ih (by simpa using h))

/-- What is known once a declarator ended. -/
structure Ended (A : List Nat) (σ : State) (v : List Node) (f : Node) (comma : Option Nat) (E : List Empty) (dc : Empty)
    (TA : List DeclType) (dt : DeclType) (TB : List DeclType) (dc' : Empty) (slots : List Slot) (σ' : State) : Prop where
  eq : σ' = { empty := E ++ [dc'], types := TA ++ { dt with slots := slots } :: TB, dt := σ.dt, dv := σ.dv }
  beg : dc'.beg = dc.beg
  fin : dc'.fin = dc.fin
  nkeep : dc'.nkeep = dc.nkeep + if plain v f then 0 else 1
  noSlots : f.type = .semi → dc'.slots = []
  vars : (slots.flatMap (·.vars)).Perm (dt.slots.flatMap (·.vars) ++ if plain v f then [toVar v comma] else [])
  all : AllIn A dt.slots → (f.type = .semi → f.id ∈ A) → AllIn A slots
  done : f.type = .semi → Done slots

theorem plain_eq (v : List Node) (f : Node) : plain v f = (bareVar v && decide (fixed f = [])) := rfl

theorem moveable_eq (f : Node) : isMoveable f = decide (fixed f = []) := by
  cases h : isMoveable f with
  | true => simp [moveable_iff.mp h]
  | false =>
    have : fixed f ≠ [] := fun h' => by rw [moveable_iff.mpr h'] at h; cases h
    simp [this]

theorem varEnd_ok {A v B : List Node} {f : Node} (hd : ((A ++ v ++ f :: B).map (·.id)).Nodup) (hA : A ≠ [])
    (hf : f.type = .comma ∨ f.type = .semi) {σ : State} {dv : Cur} (delim : Option Nat) {E : List Empty} {dc : Empty}
    {TA TB : List DeclType} {dt : DeclType} (S : List Nat) (he : σ.empty = E ++ [dc]) (ht : σ.types = TA ++ dt :: TB)
    (hi : σ.dt = some TA.length) (hb : dv.beg = hid (v ++ [f])) :
    ∃ σ' dc' slots, varEnd (A ++ v ++ f :: B) σ dv f delim = some (σ', plain v f) ∧
      Ended S σ v f (dv.delim.or delim) E dc TA dt TB dc' slots σ' := by
  -- the token in front and the range
  have hpv : ∃ pv, prev (A ++ v ++ f :: B) f.id = some pv ∧
      (classify (range (A ++ v ++ f :: B) dv.beg pv.id)).1 = bareVar v ∧
      (bareVar v = true → range (A ++ v ++ f :: B) dv.beg pv.id = v ∧ pv.id = lid v) := by
    rcases List.eq_nil_or_concat v with rfl | ⟨v', y, rfl⟩
    · rcases List.eq_nil_or_concat A with rfl | ⟨A', pv, rfl⟩
      · exact absurd rfl hA
      · rw [List.concat_eq_append, List.append_nil] at hd ⊢
        refine ⟨pv, prev_mid hd, ?_, ?_⟩
        · obtain ⟨C, hC⟩ := range_none hd
          rw [hb]
          show (classify (range _ f.id pv.id)).1 = _
          rw [hC, classify_delim hf]
          rfl
        · intro h; cases h
    · rw [List.concat_eq_append] at hd hb ⊢
      have e1 : A ++ (v' ++ [y]) ++ f :: B = (A ++ v') ++ [y] ++ f :: B := by simp
      have hr : range (A ++ (v' ++ [y]) ++ f :: B) dv.beg y.id = v' ++ [y] := by
        have := range_eq (A := A) (V := v' ++ [y]) (B := f :: B) hd (by simp)
        rw [lid_concat] at this
        rw [hb]
        have h2 : hid (v' ++ [y] ++ [f]) = hid (v' ++ [y]) := by
          cases v' <;> rfl
        rw [h2]; exact this
      refine ⟨y, ?_, ?_, ?_⟩
      · rw [e1] at hd ⊢
        exact prev_mid hd
      · rw [hr, classify_eq]
      · intro _
        exact ⟨hr, (lid_concat y v').symm⟩
  obtain ⟨pv, hp, hcl, hrg⟩ := hpv
  have hlast : σ.empty.getLast? = some dc := by rw [he, List.getLast?_concat]
  have hti : σ.types[TA.length]? = some dt := by rw [ht]; simp
  have hset : ∀ x : DeclType, σ.types.set TA.length x = TA ++ x :: TB := by intro x; rw [ht]; simp
  have hdrop : σ.empty.dropLast = E := by rw [he, List.dropLast_concat]
  unfold varEnd
  rw [hlast, hi, hp]
  dsimp only
  rw [hti]
  dsimp only
  rw [hcl, moveable_eq, hdrop]
  simp only [hset]
  have hkeep : (!bareVar v || !decide (fixed f = [])) = !plain v f := by rw [plain_eq]; simp
  rw [hkeep]
  generalize (classify (range (A ++ v ++ f :: B) dv.beg pv.id)).2 = n
  generalize hns : (if (!plain v f) = true then dc.slots ++ [n] else dc.slots) = ns
  have hlen : n < (if decide (f.type = .semi) = true then associateSemi ns (growSlots dt.slots n) f.id else growSlots dt.slots n).length := by
    split
    · have := congrArg List.length (vars_associate ns (growSlots dt.slots n) f.id)
      simp only [List.length_map] at this
      rw [this]; exact grow_length ..
    · exact grow_length ..
  have hvars : (if decide (f.type = .semi) = true then associateSemi ns (growSlots dt.slots n) f.id else growSlots dt.slots n).flatMap (·.vars) =
      dt.slots.flatMap (·.vars) := by
    split
    · rw [List.flatMap_def, vars_associate, ← List.flatMap_def, vars_grow]
    · rw [vars_grow]
  have hall : AllIn S dt.slots → (f.type = .semi → f.id ∈ S) →
      AllIn S (if decide (f.type = .semi) = true then associateSemi ns (growSlots dt.slots n) f.id else growSlots dt.slots n) := by
    intro h1 h2
    split
    · rename_i hs
      exact allIn_associate (h2 (of_decide_eq_true hs)) _ (allIn_grow _ h1)
    · exact allIn_grow _ h1
  have hdone : f.type = .semi →
      Done (if decide (f.type = .semi) = true then associateSemi ns (growSlots dt.slots n) f.id else growSlots dt.slots n) := by
    intro h
    rw [if_pos (by simpa using h)]
    exact done_associate _ _ _
  revert hlen hvars hall hdone
  generalize (if decide (f.type = .semi) = true then associateSemi ns (growSlots dt.slots n) f.id else growSlots dt.slots n) = slots
  intro hlen hvars hall hdone
  by_cases hpl : plain v f = true
  · rw [hpl]
    simp only [Bool.not_true, Bool.false_eq_true, if_false]
    have hbv : bareVar v = true := by rw [plain_eq, Bool.and_eq_true] at hpl; exact hpl.1
    obtain ⟨hr1, hr2⟩ := hrg hbv
    rw [hr1]
    have hid1 : ∃ srt, v.find? (fun t => decide (t.type = .ident)) = some srt := by
      unfold bareVar at hbv
      rw [Bool.and_eq_true] at hbv
      cases hf : v.find? (fun t => decide (t.type = .ident)) with
      | some s => exact ⟨s, rfl⟩
      | none =>
        rw [List.find?_eq_none] at hf
        obtain ⟨x, hx, hx2⟩ := List.any_eq_true.mp hbv.1
        exact absurd hx2 (hf x hx)
    obtain ⟨srt, hsrt⟩ := hid1
    rw [hsrt]
    have hvne : v ≠ [] := by rintro rfl; simp at hsrt
    have hvar : ({ beg := dv.beg, fin := pv.id, sort := srt.id, delim := dv.delim.or delim } : Var) = toVar v (dv.delim.or delim) := by
      unfold toVar
      congr 1
      · rw [hb]; cases v with
        | nil => exact absurd rfl hvne
        | cons => rfl
      · unfold hid
        rw [List.head?_filter, hsrt]; rfl
    dsimp only
    rw [hvar]
    refine ⟨_, { dc with nkeep := dc.nkeep, slots := if decide (f.type = .semi) = true then [] else ns },
      slots.modify n fun s => { s with vars := s.vars ++ [toVar v (dv.delim.or delim)] }, rfl, by rw [hi], rfl, rfl, ?_, ?_, ?_, ?_, ?_⟩
    · simp [hpl]
    · intro h; simp [h]
    · rw [hpl, if_pos rfl, ← hvars]
      exact vars_push _ hlen
    · intro h1 h2; exact allIn_push (hall h1 h2)
    · intro h; exact done_push (hdone h)
  · have hpl' : plain v f = false := by simpa using hpl
    rw [hpl']
    simp only [Bool.not_false, if_true]
    refine ⟨_, { dc with nkeep := dc.nkeep + 1, slots := if decide (f.type = .semi) = true then [] else ns }, slots,
      rfl, by rw [hi], rfl, rfl, ?_, ?_, ?_, hall, hdone⟩
    · simp [hpl']
    · intro h; simp [h]
    · rw [hpl', hvars]; simp

/-! ## A declaration -/

/-- What happens to a declarator: is it moved, and which comma goes with it? -/
structure Fate where
  toks : List Node
  moved : Bool
  comma : Option Nat

/-- What happens to the declarators. `pend` is the comma in front if it can still go. -/
def fates (pend : Option Nat) (v : List Node) : List (Node × List Node) → Node → List Fate
  | [], semi => [⟨v, plain v semi, pend⟩]
  | (c, w) :: ms, semi =>
    ⟨v, plain v c, pend.or (some c.id)⟩ ::
      fates (if plain v c && pend.isNone then none else if fixed c = [] then some c.id else none) w ms semi

/-- The variables that are moved. -/
def moves (l : List Fate) : List Var := (l.filter (·.moved)).map fun f => toVar f.toks f.comma

/-- The number of those that stay. -/
def stays (l : List Fate) : Nat := (l.filter fun f => !f.moved).length

/-- The declarators of a declaration one after the other. -/
theorem declarators_ok {text : Nat → List Char} {S : List Nat} : ∀ (more : List (Node × List Node)) (A v B : List Node) (semi : Node)
    (pend : Option Nat) (E : List Empty) (dc : Empty) (TA TB : List DeclType) (dt : DeclType) (ts : List Node),
    ts = A ++ v ++ more.flatMap (fun m => m.1 :: m.2) ++ semi :: B → (ts.map (·.id)).Nodup → A ≠ [] →
    (∀ m ∈ more, m.1.type = .comma) → semi.type = .semi → semi.id ∈ S → AllIn S dt.slots →
    ∃ slots, calls text ts { empty := E ++ [dc], types := TA ++ dt :: TB, dt := some TA.length
                             dv := some { beg := hid (v ++ more.flatMap (fun m => m.1 :: m.2) ++ [semi]), delim := pend } }
        (more.map (fun m => Call.comma m.1) ++ [.semi semi]) =
      some { empty := if dc.nkeep + stays (fates pend v more semi) = 0 then
               E ++ [{ beg := dc.beg, fin := semi.id, nkeep := 0, slots := [] }] else E
             types := TA ++ { dt with slots := slots } :: TB, dt := none, dv := none } ∧
      (slots.flatMap (·.vars)).Perm (dt.slots.flatMap (·.vars) ++ moves (fates pend v more semi)) ∧
      AllIn S slots ∧ Done slots := by
  intro more
  induction more with
  | nil =>
    intro A v B semi pend E dc TA TB dt ts hts hd hA hc hs hS hall
    rw [List.flatMap_nil, List.append_nil] at hts
    subst hts
    obtain ⟨σ', dc', slots, h1, h2⟩ := varEnd_ok (σ := { empty := E ++ [dc], types := TA ++ dt :: TB, dt := some TA.length, dv := some { beg := hid (v ++ [semi]), delim := pend } })
      (dv := { beg := hid (v ++ [semi]), delim := pend }) hd hA (Or.inr hs) none S rfl rfl rfl rfl
    refine ⟨slots, ?_, ?_, h2.all hall (fun _ => hS), h2.done hs⟩
    · simp only [List.flatMap_nil, List.append_nil, List.map_nil, List.nil_append, calls, call]
      unfold declSemi
      dsimp only
      rw [h1]
      dsimp only
      rw [h2.eq]
      dsimp only
      rw [List.getLast?_concat, List.dropLast_concat]
      dsimp only
      rw [h2.nkeep, h2.beg, h2.noSlots hs]
      have hst : (if plain v semi = true then 0 else 1) = stays (fates pend v [] semi) := by
        unfold fates stays
        cases plain v semi <;> rfl
      rw [hst]
      by_cases h0 : dc.nkeep + stays (fates pend v [] semi) = 0
      · rw [if_pos h0, if_pos h0, h0]
      · rw [if_neg h0, if_neg h0]
    · refine h2.vars.trans ?_
      rw [Option.or_none]
      unfold fates moves
      cases plain v semi <;> simp
  | cons m more ih =>
    obtain ⟨c, w⟩ := m
    intro A v B semi pend E dc TA TB dt ts hts hd hA hc hs hS hall
    have hcc : c.type = .comma := hc (c, w) List.mem_cons_self
    have e1 : ts = A ++ v ++ c :: (w ++ more.flatMap (fun m => m.1 :: m.2) ++ semi :: B) := by rw [hts]; simp
    have hb : hid (v ++ ((c, w) :: more).flatMap (fun m => m.1 :: m.2) ++ [semi]) = hid (v ++ [c]) := by
      cases v <;> rfl
    rw [hb]
    obtain ⟨σ', dc', slots, h1, h2⟩ := varEnd_ok (σ := { empty := E ++ [dc], types := TA ++ dt :: TB, dt := some TA.length, dv := some { beg := hid (v ++ [c]), delim := pend } })
      (dv := { beg := hid (v ++ [c]), delim := pend }) (e1 ▸ hd) hA (Or.inl hcc) (some c.id) S rfl rfl rfl rfl
    have hnx : ∃ nx, next ts c.id = some nx ∧ nx.id = hid (w ++ more.flatMap (fun m => m.1 :: m.2) ++ [semi]) := by
      have hne : w ++ more.flatMap (fun m => m.1 :: m.2) ++ semi :: B ≠ [] := by simp
      obtain ⟨nx, C, hC⟩ := List.exists_cons_of_ne_nil hne
      rw [hC] at e1
      refine ⟨nx, ?_, ?_⟩
      · rw [e1] at hd ⊢
        exact next_mid hd
      · have h3 : hid (w ++ more.flatMap (fun m => m.1 :: m.2) ++ [semi]) = hid (w ++ more.flatMap (fun m => m.1 :: m.2) ++ semi :: B) := by
          generalize w ++ more.flatMap (fun m => m.1 :: m.2) = l
          cases l <;> rfl
        rw [h3, hC]; rfl
    obtain ⟨nx, hnx1, hnx2⟩ := hnx
    rw [← e1] at h1
    obtain ⟨slots2, k1, k2, k3, k4⟩ := ih (A ++ v ++ [c]) w B semi
      (if plain v c && pend.isNone then none else if fixed c = [] then some c.id else none) E dc' TA TB { dt with slots := slots } ts
      (by rw [e1]; simp) hd (by simp) (fun m hm => hc m (List.mem_cons_of_mem _ hm)) hs hS
      (h2.all hall (fun h => by rw [hcc] at h; cases h))
    refine ⟨slots2, ?_, ?_, k3, k4⟩
    · rw [List.map_cons, List.cons_append, calls]
      have hcall : call text ts { empty := E ++ [dc], types := TA ++ dt :: TB, dt := some TA.length, dv := some { beg := hid (v ++ [c]), delim := pend } } (.comma c) =
          some { empty := E ++ [dc'], types := TA ++ { dt with slots := slots } :: TB, dt := some TA.length
                 dv := some { beg := hid (w ++ more.flatMap (fun m => m.1 :: m.2) ++ [semi])
                              delim := if plain v c && pend.isNone then none else if fixed c = [] then some c.id else none } } := by
        unfold call declComma
        dsimp only
        rw [h1, hnx1]
        dsimp only
        rw [h2.eq, hnx2, moveable_eq]
        simp only [decide_eq_true_eq]
      rw [hcall]
      dsimp only
      refine k1.trans ?_
      rw [h2.nkeep, h2.beg]
      have hst : stays (fates pend v ((c, w) :: more) semi) = (if plain v c = true then 0 else 1) +
          stays (fates (if plain v c && pend.isNone then none else if fixed c = [] then some c.id else none) w more semi) := by
        rw [fates]
        unfold stays
        rw [List.filter_cons]
        cases plain v c
        · simp [Nat.add_comm]
        · simp
      rw [hst, Nat.add_assoc]
    · refine k2.trans ?_
      rw [fates]
      unfold moves
      rw [List.filter_cons]
      refine (List.Perm.append_right _ h2.vars).trans ?_
      cases plain v c <;> simp

theorem skipStars_ok {spec : List Node} (hs : spec ≠ []) (hl : ∀ t, spec.getLast? = some t → t.type ≠ .star) :
    ∀ (n : Nat) (A S B : List Node) (fuel : Nat), S.length = n → ((A ++ spec ++ S ++ B).map (·.id)).Nodup → (∀ t ∈ S, t.type = .star) →
    n + 1 ≤ fuel → skipStars (A ++ spec ++ S ++ B) fuel (lid (spec ++ S)) = some (lid spec) := by
  intro n
  induction n with
  | zero =>
    intro A S B fuel hn hd hS hf
    have : S = [] := List.eq_nil_of_length_eq_zero hn
    subst this
    rcases List.eq_nil_or_concat spec with rfl | ⟨s', y, rfl⟩
    · exact absurd rfl hs
    · cases fuel with
      | zero => omega
      | succ fuel =>
        rw [List.concat_eq_append] at hl hd ⊢
        have hy : y.type ≠ .star := hl y (by rw [List.getLast?_concat])
        unfold skipStars
        rw [List.append_nil] at hd
        rw [List.append_nil, List.append_nil, lid_concat, Knfmt.Stmt.node_eq hd (t := y) (by simp) rfl]
        dsimp only
        rw [if_pos hy]
  | succ n ih =>
    intro A S B fuel hn hd hS hf
    rcases List.eq_nil_or_concat S with rfl | ⟨S', y, rfl⟩
    · simp at hn
    · cases fuel with
      | zero => omega
      | succ fuel =>
        rw [List.concat_eq_append] at hn hd hS ⊢
        have hy : y.type = .star := hS y (by simp)
        have hne : spec ++ S' ≠ [] := by simp [hs]
        rcases List.eq_nil_or_concat (spec ++ S') with h0 | ⟨q, pv, h0⟩
        · exact absurd h0 hne
        · rw [List.concat_eq_append] at h0
          have e1 : A ++ spec ++ (S' ++ [y]) ++ B = (A ++ q) ++ [pv] ++ y :: B := by
            rw [show A ++ spec ++ (S' ++ [y]) ++ B = A ++ (spec ++ S') ++ y :: B by simp, h0]; simp
          have e2 : spec ++ (S' ++ [y]) = (spec ++ S') ++ [y] := by simp
          unfold skipStars
          rw [e2, lid_concat, Knfmt.Stmt.node_eq hd (t := y) (by simp) rfl]
          dsimp only
          rw [if_neg (by simpa using hy)]
          rw [e1] at hd ⊢
          rw [prev_mid hd]
          dsimp only
          have h3 := ih A S' (y :: B) fuel (by simpa using hn) (by rw [← e1] at hd; simpa using hd)
            (fun t ht => hS t (by simp [ht])) (by omega)
          rw [h0, lid_concat] at h3
          rw [← h3]
          congr 1
          rw [show A ++ spec ++ S' ++ y :: B = A ++ (spec ++ S') ++ y :: B by simp, h0]
          simp

theorem filter_stars {spec S : List Node} (hS : ∀ t ∈ S, t.type = .star) :
    (spec ++ S).filter (fun t => decide (t.type ≠ .star)) = spec.filter (fun t => decide (t.type ≠ .star)) := by
  rw [List.filter_append]
  have : S.filter (fun t => decide (t.type ≠ .star)) = [] := by
    rw [List.filter_eq_nil_iff]
    intro t ht
    simp [hS t ht]
  rw [this, List.append_nil]

theorem lid_filter {spec : List Node} (hs : spec ≠ []) (hl : ∀ t, spec.getLast? = some t → t.type ≠ .star) :
    ∃ e, (spec.filter (fun t => decide (t.type ≠ .star))).getLast? = some e ∧ e.id = lid spec := by
  rcases List.eq_nil_or_concat spec with rfl | ⟨s', y, rfl⟩
  · exact absurd rfl hs
  · rw [List.concat_eq_append] at hl ⊢
    have hy : y.type ≠ .star := hl y (by rw [List.getLast?_concat])
    refine ⟨y, ?_, (lid_concat y s').symm⟩
    rw [List.filter_append, List.filter_cons_of_pos (by simpa using hy), List.filter_nil, List.getLast?_concat]

theorem lid_ne {l : List Node} (h : l ≠ []) : ∃ l' y, l = l' ++ [y] ∧ lid l = y.id := by
  rcases List.eq_nil_or_concat l with rfl | ⟨l', y, rfl⟩
  · exact absurd rfl h
  · rw [List.concat_eq_append]
    exact ⟨l', y, rfl, lid_concat y l'⟩

theorem declType_ok {text : Nat → List Char} {A spec S B : List Node} (hd : ((A ++ spec ++ S ++ B).map (·.id)).Nodup)
    (hs : spec ≠ []) (hl : ∀ t, spec.getLast? = some t → t.type ≠ .star) (hS : ∀ t ∈ S, t.type = .star) (hB : S ++ B ≠ [])
    (σ : State) (hv : isTypeValid (A ++ spec ++ S ++ B) (hid spec) (lid (spec ++ S)) = true) :
    ∃ TA dt TB, (TA ++ dt :: TB = σ.types ∨
        (dt = { beg := hid spec, fin := lid spec, str := rangeStr text spec } ∧ TA = σ.types ∧ TB = [])) ∧
      dt.str = rangeStr text spec ∧
      declType text (A ++ spec ++ S ++ B) σ (hid spec) (lid (spec ++ S)) =
        some { empty := σ.empty ++ [{ beg := hid spec, fin := lid (spec ++ S) }], types := TA ++ dt :: TB
               dt := some TA.length, dv := some { beg := hid (S ++ B) } } := by
  have hr : range (A ++ spec ++ S ++ B) (hid spec) (lid (spec ++ S)) = spec ++ S := by
    have e1 : A ++ spec ++ S ++ B = A ++ (spec ++ S) ++ B := by simp
    rw [e1] at hd ⊢
    have h2 : hid spec = hid (spec ++ S) := by
      cases spec with
      | nil => exact absurd rfl hs
      | cons => rfl
    rw [h2]
    exact range_eq hd (by simp [hs])
  have hstr : rangeStr text (spec ++ S) = rangeStr text spec := by
    unfold rangeStr
    rw [filter_stars hS]
  have hsk := skipStars_ok hs hl S.length A S B (A ++ spec ++ S ++ B).length rfl hd hS (by
    have := List.length_pos_iff.mpr hs
    simp only [List.length_append]
    omega)
  have hnx : ∃ nx, next (A ++ spec ++ S ++ B) (lid spec) = some nx ∧ nx.id = hid (S ++ B) := by
    obtain ⟨s', y, h1, h2⟩ := lid_ne hs
    obtain ⟨nx, C, hC⟩ := List.exists_cons_of_ne_nil hB
    have e1 : A ++ spec ++ S ++ B = (A ++ s') ++ y :: nx :: C := by rw [h1, ← hC]; simp
    rw [e1] at hd ⊢
    rw [h2]
    exact ⟨nx, next_mid hd, by rw [hC]; rfl⟩
  obtain ⟨nx, hnx1, hnx2⟩ := hnx
  obtain ⟨le, hle1, hle2⟩ := lid_filter hs hl
  unfold declType
  rw [hv, hr, hstr, hsk]
  simp only [Bool.not_true, Bool.false_eq_true, if_false]
  unfold typeCreate
  cases hf : typeFind σ.types (rangeStr text spec) with
  | some i =>
    unfold typeFind at hf
    obtain ⟨hi, hp, -⟩ := List.findIdx?_eq_some_iff_getElem.mp hf
    refine ⟨σ.types.take i, σ.types[i], σ.types.drop (i + 1), Or.inl ?_, by simpa using hp, ?_⟩
    · rw [← List.drop_eq_getElem_cons hi, List.take_append_drop]
    · dsimp only
      rw [hnx1]
      dsimp only
      rw [hnx2, ← List.drop_eq_getElem_cons hi, List.take_append_drop, List.length_take]
      congr 3
      omega
  | none =>
    refine ⟨σ.types, _, [], Or.inr ⟨rfl, rfl, rfl⟩, rfl, ?_⟩
    dsimp only
    rw [hr, filter_stars hS, hle1]
    dsimp only
    rw [hnx1]
    dsimp only
    rw [hnx2, hle2]

/-! ## All declarations -/

/-- What happens to the declarators of a declaration. A body is counted to the first one. -/
def fatesOf (d : Decl Node) : List Fate := fates none (d.body ++ d.first) d.more d.semi

/-- Is the type one that is looked at? -/
def validIn (ts : List Node) (d : Decl Node) (stars : Nat) : Bool :=
  isTypeValid ts (hid d.spec) (lid (d.spec ++ d.first.take stars))

/-- The declarations that are looked at. -/
def valids (ts : List Node) (items : List (Item Node)) : List (Decl Node) :=
  items.filterMap fun
    | .decl d k => if validIn ts d k then some d else none
    | .other _ => none

/-- What is known after some declarations. -/
structure Inv (text : Nat → List Char) (done : List (Decl Node)) (σ : State) : Prop where
  dv : σ.dv = none
  dt : σ.dt = none
  empty : σ.empty = (done.filter fun d => decide (stays (fatesOf d) = 0)).map fun d =>
    { beg := hid d.spec, fin := d.semi.id, nkeep := 0, slots := [] }
  types : ∀ dt ∈ σ.types, ∃ d ∈ done, dt.beg = hid d.spec ∧ dt.fin = lid d.spec ∧ dt.str = rangeStr text d.spec
  vars : (σ.types.flatMap fun dt => (dt.slots.flatMap (·.vars)).map fun v => (dt.str, v)).Perm
    (done.flatMap fun d => (moves (fatesOf d)).map fun v => (rangeStr text d.spec, v))
  slots : ∀ dt ∈ σ.types, AllIn (done.map (·.semi.id)) dt.slots ∧ Done dt.slots

theorem calls_append (text : Nat → List Char) (ts : List Node) (σ : State) (a b : List Call) :
    calls text ts σ (a ++ b) = (calls text ts σ a).bind fun σ => calls text ts σ b := by
  induction a generalizing σ with
  | nil => rfl
  | cons c a ih =>
    rw [List.cons_append, calls, calls]
    cases call text ts σ c with
    | none => rfl
    | some σ' => exact ih σ'

theorem calls_idle {text : Nat → List Char} {ts : List Node} {σ : State} (h : σ.dv = none) (cs : List Call)
    (hc : ∀ c ∈ cs, (∃ t, c = .comma t) ∨ (∃ t, c = .semi t)) : calls text ts σ cs = some σ := by
  induction cs with
  | nil => rfl
  | cons c cs ih =>
    rw [calls]
    have : call text ts σ c = some σ := by
      rcases hc c List.mem_cons_self with ⟨t, rfl⟩ | ⟨t, rfl⟩
      · unfold call declComma; rw [h]
      · unfold call declSemi; rw [h]
    rw [this]
    exact ih fun c h => hc c (List.mem_cons_of_mem _ h)

theorem item_ok {text : Nat → List Char} {A B ts : List Node} {d : Decl Node} {k : Nat} (hts : ts = A ++ d.toks ++ B)
    (hd : (ts.map (·.id)).Nodup) (hp : d.Parsed text k) {done : List (Decl Node)} {σ : State} (h : Inv text done σ) :
    ∃ σ', calls text ts σ (Item.calls (.decl d k)) = some σ' ∧ Inv text (if validIn ts d k then done ++ [d] else done) σ' := by
  have hspec : d.spec ≠ [] := by
    have := hp.formed.1
    intro h0
    apply this
    unfold Decl.map
    rw [h0]; rfl
  have hcomma : ∀ m ∈ d.more, m.1.type = .comma := by
    intro m hm
    have := hp.formed.2.1 (word text m.1, m.2.map (word text)) (List.mem_map.mpr ⟨m, hm, rfl⟩)
    exact congrArg (·.1) this
  have hsemi : d.semi.type = .semi := congrArg (·.1) hp.formed.2.2
  have hhead : ∃ b, d.spec.head? = some b ∧ b.id = hid d.spec := by
    obtain ⟨b, l, hb⟩ := List.exists_cons_of_ne_nil hspec
    rw [hb]; exact ⟨b, rfl, rfl⟩
  have hlast : ∃ e, (d.spec ++ d.first.take k).getLast? = some e ∧ e.id = lid (d.spec ++ d.first.take k) := by
    obtain ⟨l, y, h1, h2⟩ := lid_ne (l := d.spec ++ d.first.take k) (by simp [hspec])
    rw [h2]
    exact ⟨y, by rw [h1, List.getLast?_concat], rfl⟩
  obtain ⟨b, hb1, hb2⟩ := hhead
  obtain ⟨e, he1, he2⟩ := hlast
  have hcalls : Item.calls (.decl d k) = .type (hid d.spec) (lid (d.spec ++ d.first.take k)) ::
      (d.more.map (fun m => Call.comma m.1) ++ [.semi d.semi]) := by
    unfold Item.calls
    dsimp only
    rw [hb1, he1]
    dsimp only
    rw [hb2, he2]
    rfl
  rw [hcalls, calls]
  unfold call
  dsimp only
  by_cases hv : validIn ts d k = true
  · rw [if_pos hv]
    -- the tokens behind the specifiers
    obtain ⟨rest, hrest, hts2⟩ : ∃ rest, d.first.take k ++ rest = d.body ++ d.first ++ d.more.flatMap (fun m => m.1 :: m.2) ++ d.semi :: B ∧
        ts = A ++ d.spec ++ d.first.take k ++ rest := by
      rcases hp.body with h0 | ⟨rfl, -⟩
      · refine ⟨d.first.drop k ++ d.more.flatMap (fun m => m.1 :: m.2) ++ d.semi :: B, ?_, ?_⟩
        · rw [h0, ← List.append_assoc, ← List.append_assoc, List.take_append_drop]; simp
        · rw [hts]
          unfold Decl.toks
          rw [h0]
          have h9 := List.take_append_drop k d.first
          generalize d.first.take k = x at h9 ⊢
          generalize d.first.drop k = y at h9 ⊢
          rw [← h9]
          simp
      · refine ⟨d.body ++ d.first ++ d.more.flatMap (fun m => m.1 :: m.2) ++ d.semi :: B, by simp, ?_⟩
        rw [hts]
        unfold Decl.toks
        simp
    obtain ⟨TA, dt, TB, h1, h2, h3⟩ := declType_ok (text := text) (hts2 ▸ hd) hspec hp.last hp.counted (by rw [hrest]; simp) σ
      (hts2 ▸ hv)
    rw [← hts2] at h3
    rw [h3]
    dsimp only
    have hbeg : hid (d.first.take k ++ rest) = hid (d.body ++ d.first ++ d.more.flatMap (fun m => m.1 :: m.2) ++ [d.semi]) := by
      rw [hrest]
      generalize d.body ++ d.first ++ d.more.flatMap (fun m => m.1 :: m.2) = l
      cases l <;> rfl
    rw [hbeg]
    have hall : AllIn (done.map (·.semi.id)) dt.slots := by
      rcases h1 with h1 | ⟨rfl, -, -⟩
      · exact (h.slots dt (by rw [← h1]; simp)).1
      · intro s hs; simp at hs
    obtain ⟨slots, k1, k2, k3, k4⟩ := declarators_ok (text := text) (S := (done ++ [d]).map (·.semi.id)) d.more (A ++ d.spec) (d.body ++ d.first) B
      d.semi none σ.empty { beg := hid d.spec, fin := lid (d.spec ++ d.first.take k) } TA TB dt ts
      (by rw [hts]; unfold Decl.toks; simp) hd (by simp [hspec]) hcomma hsemi (by simp)
      (allIn_mono (by simp; grind) hall)
    refine ⟨_, k1, rfl, rfl, ?_, ?_, ?_, ?_⟩
    · show (if 0 + stays (fatesOf d) = 0 then _ else _) = _
      rw [Nat.zero_add, h.empty, List.filter_append, List.map_append, List.filter_cons]
      by_cases h0 : stays (fatesOf d) = 0
      · rw [if_pos h0, if_pos (by simpa using h0)]; rfl
      · rw [if_neg h0, if_neg (by simpa using h0)]; simp
    · intro dt' hdt'
      dsimp only at hdt'
      have hold : dt' ∈ σ.types ∨ dt' = { dt with slots := slots } := by
        rcases h1 with h1 | ⟨-, rfl, rfl⟩
        · rw [← h1]
          simp only [List.mem_append, List.mem_cons] at hdt' ⊢
          grind
        · simp only [List.mem_append, List.mem_cons, List.not_mem_nil, or_false] at hdt'
          exact hdt'
      rcases hold with hold | rfl
      · obtain ⟨d', hd', hh⟩ := h.types dt' hold
        exact ⟨d', List.mem_append_left _ hd', hh⟩
      · rcases h1 with h1 | ⟨rfl, -, -⟩
        · obtain ⟨d', hd', hh⟩ := h.types dt (by rw [← h1]; simp)
          exact ⟨d', List.mem_append_left _ hd', hh⟩
        · exact ⟨d, by simp, rfl, rfl, rfl⟩
    · dsimp only
      rw [List.flatMap_append, List.flatMap_cons, List.flatMap_append, List.flatMap_cons, List.flatMap_nil, List.append_nil]
      have hp2 : ((TA.flatMap fun dt => (dt.slots.flatMap (·.vars)).map fun v => (dt.str, v)) ++
          (((dt.slots.flatMap (·.vars)).map fun v => (dt.str, v)) ++ (TB.flatMap fun dt => (dt.slots.flatMap (·.vars)).map fun v => (dt.str, v)))).Perm
          (done.flatMap fun d => (moves (fatesOf d)).map fun v => (rangeStr text d.spec, v)) := by
        rw [← List.flatMap_cons (f := fun dt : DeclType => (dt.slots.flatMap (·.vars)).map fun v => (dt.str, v)), ← List.flatMap_append]
        rcases h1 with h1 | ⟨rfl, rfl, rfl⟩
        · rw [h1]; exact h.vars
        · rw [List.flatMap_append, List.flatMap_cons]
          simpa using h.vars
      refine List.Perm.trans ?_ (List.Perm.append_right _ hp2)
      rw [List.append_assoc, List.append_assoc]
      refine List.Perm.append_left _ ?_
      have hm := k2.map (fun v => (dt.str, v))
      rw [List.map_append] at hm
      refine (List.Perm.append_right _ hm).trans ?_
      rw [h2, List.append_assoc]
      exact List.Perm.append_left _ List.perm_append_comm
    · intro dt' hdt'
      dsimp only at hdt'
      have hold : dt' ∈ σ.types ∨ dt' = { dt with slots := slots } := by
        rcases h1 with h1 | ⟨-, rfl, rfl⟩
        · rw [← h1]
          simp only [List.mem_append, List.mem_cons] at hdt' ⊢
          grind
        · simp only [List.mem_append, List.mem_cons, List.not_mem_nil, or_false] at hdt'
          exact hdt'
      rcases hold with hold | rfl
      · obtain ⟨k5, k6⟩ := h.slots dt' hold
        exact ⟨allIn_mono (by simp; grind) k5, k6⟩
      · exact ⟨k3, k4⟩
  · rw [if_neg hv]
    have hty : declType text ts σ (hid d.spec) (lid (d.spec ++ d.first.take k)) = some σ := by
      unfold declType
      have : isTypeValid ts (hid d.spec) (lid (d.spec ++ d.first.take k)) = false := by
        unfold validIn at hv; simpa using hv
      rw [this]; rfl
    rw [hty]
    dsimp only
    refine ⟨σ, calls_idle h.dv _ ?_, h⟩
    intro c hc
    rcases List.mem_append.mp hc with hc | hc
    · obtain ⟨m, -, rfl⟩ := List.mem_map.mp hc
      exact Or.inl ⟨_, rfl⟩
    · simp only [List.mem_cons, List.not_mem_nil, or_false] at hc
      exact Or.inr ⟨_, hc⟩

theorem items_ok {text : Nat → List Char} {ts : List Node} (hd : (ts.map (·.id)).Nodup) :
    ∀ (items : List (Item Node)) (A B : List Node) (done : List (Decl Node)) (σ : State), ts = A ++ items.flatMap Item.toks ++ B →
    (∀ d k, Item.decl d k ∈ items → d.Parsed text k) → Inv text done σ →
    ∃ σ', calls text ts σ (items.flatMap Item.calls) = some σ' ∧ Inv text (done ++ valids ts items) σ' := by
  intro items
  induction items with
  | nil =>
    intro A B done σ _ _ h
    exact ⟨σ, rfl, by simpa [valids] using h⟩
  | cons it items ih =>
    intro A B done σ hts hp h
    rw [List.flatMap_cons, calls_append]
    have hts2 : ts = (A ++ it.toks) ++ items.flatMap Item.toks ++ B := by rw [hts, List.flatMap_cons]; simp
    cases it with
    | other l =>
      obtain ⟨σ', h1, h2⟩ := ih _ B done σ hts2 (fun d k hm => hp d k (List.mem_cons_of_mem _ hm)) h
      exact ⟨σ', h1, by simpa [valids] using h2⟩
    | decl d k =>
      obtain ⟨σ1, h1, h2⟩ := item_ok (A := A) (B := items.flatMap Item.toks ++ B) (by rw [hts2]; simp [Item.toks]) hd
        (hp d k List.mem_cons_self) h
      rw [h1]
      show ∃ σ', calls text ts σ1 _ = some σ' ∧ _
      obtain ⟨σ', h3, h4⟩ := ih _ B _ σ1 hts2 (fun d k hm => hp d k (List.mem_cons_of_mem _ hm)) h2
      refine ⟨σ', h3, ?_⟩
      by_cases hv : validIn ts d k = true
      · rw [if_pos hv] at h4
        have : valids ts (Item.decl d k :: items) = d :: valids ts items := by
          unfold valids; rw [List.filterMap_cons]; simp [hv]
        rw [this]; simpa using h4
      · rw [if_neg hv] at h4
        have : valids ts (Item.decl d k :: items) = valids ts items := by
          unfold valids; rw [List.filterMap_cons]; simp [hv]
        rw [this]; exact h4

end Knfmt.SimpleDecl
