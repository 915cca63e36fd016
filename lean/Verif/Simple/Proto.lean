import Verif.Simple.Loop
import Verif.Parse.Peek
/-!
# Names of the arguments of prototypes (C72)
-/
namespace Knfmt.Small

open Knfmt.Lexer (TT Flags)
open Knfmt.Stream (Node Fix)
open Knfmt.Spec (attached)
open Knfmt.Stmt (node pos next prev isMoveable removeId ids)

/-! ## The specification -/

/-- An argument of a prototype: its type, its name, what follows the name, and the comma. -/
structure Arg where
  ty : List Node
  name : Option Node
  rest : List Node
  sep : List Node

/-- How it is written. -/
def Arg.toks (a : Arg) : List Node := a.ty ++ a.name.toList ++ a.rest ++ a.sep

/-- Without its name. -/
def Arg.bare (a : Arg) : Arg := { a with name := none }

/-- What the parser reports about it if only the name is an identifier. -/
def Arg.calls (a : Arg) : List Call := .arg :: (a.name.map fun t => Call.ident t.id).toList

/-- The type ends with a star, a keyword that names a type, or a qualifier. -/
def Known (ty : List Node) : Prop := ∃ t, ty.getLast? = some t ∧ (t.type = .star ∨ t.flags.type ∨ t.flags.qualifier)

/-- Some arguments have names and some do not. -/
def Mixed (args : List Arg) : Prop := (∃ a ∈ args, a.name.isSome) ∧ ∃ a ∈ args, a.name = none

/-! ## Proofs -/

theorem protoIdent_eq {ts A B : List Node} {n pv : Node} {σ : Proto} (e : ts = A ++ n :: B) (hd : (ts.map (·.id)).Nodup)
    (hp : A.getLast? = some pv) (hn : σ.args ≠ []) :
    protoIdent ts σ n.id = some (if pv.type = .star ∨ pv.flags.type ∨ pv.flags.qualifier then
      { σ with args := σ.args.dropLast ++ [some n.id] } else { σ with ignore := true }) := by
  unfold protoIdent
  rw [if_neg hn, Knfmt.Stmt.prev_eq hd e, hp]
  dsimp only
  split <;> rfl

theorem known_iff {ty : List Node} {pv : Node} (h : ty.getLast? = some pv) :
    (pv.type = .star ∨ pv.flags.type ∨ pv.flags.qualifier) ↔ Known ty := by
  constructor
  · intro h'; exact ⟨pv, h, h'⟩
  · rintro ⟨t, h1, h2⟩
    rw [h] at h1
    injection h1 with h1
    exact h1 ▸ h2

/-- The state after all reports. -/
theorem protoCalls_eq {ts post : List Node} (hd : (ts.map (·.id)).Nodup) {args : List Arg} {pre : List Node} {σ : Proto}
    (e : ts = pre ++ args.flatMap Arg.toks ++ post) (ht : ∀ a ∈ args, a.ty ≠ []) :
    ∃ σ', protoCalls ts σ (args.flatMap Arg.calls) = some σ' ∧
      ((σ.ignore = false ∧ ∀ a ∈ args, a.name.isSome → Known a.ty) →
        σ'.ignore = false ∧ σ'.args = σ.args ++ args.map (fun a => a.name.map (·.id))) ∧
      ((σ.ignore = true ∨ ∃ a ∈ args, a.name.isSome ∧ ¬ Known a.ty) → σ'.ignore = true) := by
  induction args generalizing pre σ with
  | nil => exact ⟨σ, rfl, by simp, by simp⟩
  | cons a args ih =>
    have e' : ts = (pre ++ a.toks) ++ args.flatMap Arg.toks ++ post := by
      rw [e, List.flatMap_cons]; simp
    have ht' := fun b hb => ht b (List.mem_cons_of_mem _ hb)
    rw [List.flatMap_cons]
    cases hn : a.name with
    | none =>
      have hc : a.calls = [.arg] := by simp [Arg.calls, hn]
      rw [hc]
      show ∃ σ', protoCalls ts { σ with args := σ.args ++ [none] } _ = some σ' ∧ _
      obtain ⟨σ', h1, h2, h3⟩ := ih (σ := { σ with args := σ.args ++ [none] }) e' ht'
      refine ⟨σ', h1, ?_, ?_⟩
      · rintro ⟨h, h'⟩
        obtain ⟨g1, g2⟩ := h2 ⟨h, fun b hb => h' b (List.mem_cons_of_mem _ hb)⟩
        exact ⟨g1, by rw [g2]; simp [hn]⟩
      · rintro (h | ⟨b, hb, h4, h5⟩)
        · exact h3 (Or.inl h)
        · rcases List.mem_cons.mp hb with rfl | hb
          · simp [hn] at h4
          · exact h3 (Or.inr ⟨b, hb, h4, h5⟩)
    | some n =>
      have hc : a.calls = [.arg, .ident n.id] := by simp [Arg.calls, hn]
      rw [hc]
      obtain ⟨pv, hpv⟩ : ∃ pv, a.ty.getLast? = some pv := by
        cases h : a.ty.getLast? with
        | none => exact absurd (List.getLast?_eq_none_iff.mp h) (ht a (by simp))
        | some pv => exact ⟨pv, rfl⟩
      have en : ts = (pre ++ a.ty) ++ n :: (a.rest ++ a.sep ++ args.flatMap Arg.toks ++ post) := by
        rw [e, List.flatMap_cons, Arg.toks, hn]
        simp
      have hid := protoIdent_eq (σ := { σ with args := σ.args ++ [none] }) en hd (pv := pv)
        (by rw [getLast_append (ht a (by simp)), hpv]) (by simp)
      show ∃ σ', (match protoIdent ts { σ with args := σ.args ++ [none] } n.id with
        | none => none
        | some σ => protoCalls ts σ (args.flatMap Arg.calls)) = some σ' ∧ _
      rw [hid]
      dsimp only
      by_cases hk : Known a.ty
      · rw [if_pos ((known_iff hpv).mpr hk)]
        obtain ⟨σ', h1, h2, h3⟩ := ih (σ := { σ with args := (σ.args ++ [none]).dropLast ++ [some n.id] }) e' ht'
        refine ⟨σ', h1, ?_, ?_⟩
        · rintro ⟨h, h'⟩
          obtain ⟨g1, g2⟩ := h2 ⟨h, fun b hb => h' b (List.mem_cons_of_mem _ hb)⟩
          exact ⟨g1, by rw [g2]; simp [hn]⟩
        · rintro (h | ⟨b, hb, h4, h5⟩)
          · exact h3 (Or.inl h)
          · rcases List.mem_cons.mp hb with rfl | hb
            · exact absurd hk h5
            · exact h3 (Or.inr ⟨b, hb, h4, h5⟩)
      · rw [if_neg (fun h => hk ((known_iff hpv).mp h))]
        obtain ⟨σ', h1, h2, h3⟩ := ih (σ := { args := σ.args ++ [none], ignore := true }) e' ht'
        refine ⟨σ', h1, ?_, fun _ => h3 (Or.inl rfl)⟩
        rintro ⟨h, h'⟩
        exact absurd (h' a (by simp) (by simp [hn])) hk

theorem filter_all {α : Type} {L : List α} {P : α → Bool} (h : ∀ x ∈ L, P x = true) : L.filter P = L :=
  List.filter_eq_self.mpr h

theorem ids_nodup {ts ts' : List Node} {P : Nat × TT → Bool} (h : ids ts' = (ids ts).filter P)
    (hd : (ts.map (·.id)).Nodup) : (ts'.map (·.id)).Nodup := by
  have e1 : ts'.map (·.id) = (ids ts').map (·.1) := by simp [ids]
  have e2 : ts.map (·.id) = (ids ts).map (·.1) := by simp [ids]
  rw [e1, h]
  rw [e2] at hd
  exact List.Nodup.sublist (List.Sublist.map _ List.filter_sublist) hd

theorem eof_stays {ts ts' : List Node} {P : Nat × TT → Bool} (h : ids ts' = (ids ts).filter P) {x : Node}
    (hl : ts.getLast? = some x) (hx : x.type = .eof) (hp : P (x.id, x.type) = true) :
    ∃ e ∈ ts'.getLast?, e.type = .eof ∧ e.id = x.id := by
  obtain ⟨B, rfl⟩ : ∃ B, ts = B ++ [x] := by
    rcases List.eq_nil_or_concat ts with rfl | ⟨B, y, rfl⟩
    · simp at hl
    · simp at hl; subst hl; exact ⟨B, by simp⟩
  have : ids ts' = (ids B).filter P ++ [(x.id, x.type)] := by
    rw [h]
    simp [ids, hp]
  have h2 : (ids ts').getLast? = some (x.id, x.type) := by rw [this]; simp
  unfold ids at h2
  rw [List.getLast?_map] at h2
  obtain ⟨y, hy, hy2⟩ := Option.map_eq_some_iff.mp h2
  simp only [Prod.mk.injEq] at hy2
  exact ⟨y, hy, by rw [hy2.2, hx], hy2.1⟩

/-- Removing the names. -/
theorem removeNames_eq {ts : List Node} {as : List (Option Nat)} {x : Node} (hd : (ts.map (·.id)).Nodup)
    (hl : ts.getLast? = some x) (hx : x.type = .eof)
    (hm : ∀ n, some n ∈ as → ∃ ty, (n, ty) ∈ ids ts ∧ ty ≠ .eof) (hn : (as.filterMap id).Nodup) :
    ∃ ts', removeNames ts as = some ts' ∧
      ids ts' = (ids ts).filter (fun p => decide (p.1 ∉ as.filterMap id)) ∧ (attached ts').Perm (attached ts) := by
  induction as generalizing ts x with
  | nil => exact ⟨ts, rfl, by rw [filter_all]; simp, .refl _⟩
  | cons a as ih =>
    cases a with
    | none =>
      obtain ⟨ts', h1, h2, h3⟩ := ih hd hl hx (fun n h => hm n (List.mem_cons_of_mem _ h)) (by simpa using hn)
      exact ⟨ts', h1, by simpa using h2, h3⟩
    | some n =>
      obtain ⟨ty, hty, hne⟩ := hm n (by simp)
      obtain ⟨ts1, st, g1, g2, g3⟩ := Knfmt.Stmt.removeId_ids (st := none) hd hty hne ⟨x, hl, hx⟩
      have hnx : x.id ≠ n := by
        intro h
        obtain ⟨t, ht, he⟩ := List.mem_map.mp hty
        simp only [Prod.mk.injEq] at he
        have := Knfmt.Stmt.id_inj hd ht (List.mem_of_getLast? hl) (he.1.trans h.symm)
        rw [← he.2, this, hx] at hne
        exact hne rfl
      obtain ⟨y, hy1, hy2, -⟩ := eof_stays g2 hl hx (by simpa using hnx)
      rw [List.filterMap_cons] at hn
      simp only [id] at hn
      obtain ⟨hn1, hn2⟩ := List.nodup_cons.mp hn
      obtain ⟨ts', h1, h2, h3⟩ := ih (ids_nodup g2 hd) hy1 hy2 (fun m h => by
        obtain ⟨ty', h4, h5⟩ := hm m (List.mem_cons_of_mem _ h)
        refine ⟨ty', ?_, h5⟩
        rw [g2, List.mem_filter]
        refine ⟨h4, ?_⟩
        simp only [ne_eq, decide_eq_true_eq]
        intro e
        apply hn1
        rw [← e]
        exact List.mem_filterMap.mpr ⟨some m, h, rfl⟩) hn2
      refine ⟨ts', ?_, ?_, h3.trans g3⟩
      · unfold removeNames
        rw [g1]
        exact h1
      · rw [h2, g2, List.filter_filter]
        apply List.filter_congr
        intro p _
        simp only [List.filterMap_cons, id, List.mem_cons, Bool.decide_and, not_or, Bool.and_comm]

/-- Without the names of all arguments. -/
theorem filter_names {pre post : List Node} {args : List Arg}
    (hd : ((pre ++ args.flatMap Arg.toks ++ post).map (·.id)).Nodup) :
    (ids (pre ++ args.flatMap Arg.toks ++ post)).filter
        (fun p => decide (p.1 ∉ (args.map (fun a => a.name.map (·.id))).filterMap id)) =
      ids (pre ++ (args.map Arg.bare).flatMap Arg.toks ++ post) := by
  have hN : ∀ n, n ∈ (args.map (fun a => a.name.map (·.id))).filterMap id ↔ ∃ a ∈ args, ∃ t, a.name = some t ∧ t.id = n := by
    intro n
    simp [List.mem_filterMap]
  generalize (args.map (fun a => a.name.map (·.id))).filterMap id = N at hN
  have key : ∀ L : List Node, ids L = L.map fun t => (t.id, t.type) := fun _ => rfl
  have split : ∀ A B : List Node, ids (A ++ B) = ids A ++ ids B := by simp [ids]
  have hin : ∀ a ∈ args, ∀ t, a.name = some t → t ∈ args.flatMap Arg.toks := by
    intro a ha t ht
    exact List.mem_flatMap.mpr ⟨a, ha, by simp [Arg.toks, ht]⟩
  have hd2 := hd
  rw [List.map_append, List.nodup_append, List.map_append, List.nodup_append] at hd2
  obtain ⟨⟨d1, d2, d3⟩, d4, d5⟩ := hd2
  rw [split, split, split, split, List.filter_append, List.filter_append]
  congr 1
  · congr 1
    · apply filter_all
      intro p hp
      obtain ⟨t, ht, rfl⟩ := List.mem_map.mp hp
      simp only [decide_eq_true_eq]
      intro h
      obtain ⟨a, ha, t', h1, h2⟩ := (hN _).mp h
      exact d3 _ (List.mem_map_of_mem ht) _ (List.mem_map_of_mem (hin a ha t' h1)) h2.symm
    · have : ∀ as : List Arg, (∀ a ∈ as, a ∈ args) → ((as.flatMap Arg.toks).map (·.id)).Nodup →
          (∀ n ∈ N, ∀ t ∈ as.flatMap Arg.toks, t.id = n → ∃ a ∈ as, ∃ t, a.name = some t ∧ t.id = n) →
          (ids (as.flatMap Arg.toks)).filter (fun p => decide (p.1 ∉ N)) = ids ((as.map Arg.bare).flatMap Arg.toks) := by
        intro as
        induction as with
        | nil => intro _ _ _; rfl
        | cons a as ih =>
          intro h1 h2 h3
          rw [List.flatMap_cons, List.map_cons, List.flatMap_cons, split, split, List.filter_append]
          rw [List.flatMap_cons, List.map_append, List.nodup_append] at h2
          obtain ⟨n1, n2, n3⟩ := h2
          congr 1
          · have hout : ∀ t ∈ a.ty ++ (a.rest ++ a.sep), t.id ∉ N := by
              intro t ht hN'
              have hta : t ∈ a.toks := by
                simp only [Arg.toks, List.mem_append] at ht ⊢
                grind
              obtain ⟨b, hb, t', g1, g2⟩ := h3 _ hN' t (by rw [List.flatMap_cons]; exact List.mem_append_left _ hta) rfl
              rcases List.mem_cons.mp hb with rfl | hb
              · rw [Arg.toks, g1] at n1
                have hp : (b.ty ++ [t'] ++ b.rest ++ b.sep).Perm (t' :: (b.ty ++ (b.rest ++ b.sep))) := by
                  simp only [List.append_assoc, List.singleton_append]
                  exact List.perm_middle
                have := (hp.map (·.id)).nodup_iff.mp (by simpa using n1)
                rw [List.map_cons, List.nodup_cons] at this
                exact this.1 (g2 ▸ List.mem_map_of_mem ht)
              · exact n3 _ (List.mem_map_of_mem hta) _ (List.mem_map_of_mem
                  (List.mem_flatMap.mpr ⟨b, hb, by simp [Arg.toks, g1]⟩)) g2.symm
            have hf : ∀ L : List Node, (∀ t ∈ L, t ∈ a.ty ++ (a.rest ++ a.sep)) → (ids L).filter (fun p => decide (p.1 ∉ N)) = ids L := by
              intro L hL
              apply filter_all
              intro p hp
              obtain ⟨t, ht, rfl⟩ := List.mem_map.mp hp
              simpa using hout t (hL t ht)
            have hnm : (ids a.name.toList).filter (fun p => decide (p.1 ∉ N)) = [] := by
              cases hn : a.name with
              | none => rfl
              | some t =>
                have : t.id ∈ N := (hN _).mpr ⟨a, h1 a (by simp), t, hn, rfl⟩
                simp [ids, this]
            simp only [Arg.toks, Arg.bare, split, List.filter_append, hnm]
            rw [hf a.ty (fun t h => by simp [h]), hf a.rest (fun t h => by simp [h]), hf a.sep (fun t h => by simp [h])]
            simp [ids]
          · apply ih (fun b hb => h1 b (List.mem_cons_of_mem _ hb)) n2
            intro n hn t ht he
            obtain ⟨b, hb, t', g1, g2⟩ := h3 n hn t (by rw [List.flatMap_cons]; exact List.mem_append_right _ ht) he
            rcases List.mem_cons.mp hb with rfl | hb
            · refine absurd (g2.trans he.symm) ?_
              exact n3 _ (List.mem_map_of_mem (by simp [Arg.toks, g1])) _ (List.mem_map_of_mem ht)
            · exact ⟨b, hb, t', g1, g2⟩
      exact this args (fun _ h => h) d2 (fun n hn t ht he => (hN n).mp hn)
  · apply filter_all
    intro p hp
    obtain ⟨t, ht, rfl⟩ := List.mem_map.mp hp
    simp only [decide_eq_true_eq]
    intro h
    obtain ⟨a, ha, t', h1, h2⟩ := (hN _).mp h
    exact d5 _ (by rw [← h2]; exact List.mem_append_right _ (List.mem_map_of_mem (hin a ha t' h1))) _ (List.mem_map_of_mem ht) rfl

theorem filterMap_sublist (args : List Arg) :
    ((args.map (fun a => a.name.map (·.id))).filterMap id).Sublist ((args.flatMap Arg.toks).map (·.id)) := by
  induction args with
  | nil => simp
  | cons a args ih =>
    rw [List.flatMap_cons, List.map_append, List.map_cons]
    cases hn : a.name with
    | none =>
      simp only [Option.map_none, List.filterMap_cons, id]
      exact ih.trans (List.sublist_append_right _ _)
    | some t =>
      simp only [Option.map_some, List.filterMap_cons, id]
      have : [t.id].Sublist (a.toks.map (·.id)) := by
        apply List.singleton_sublist.mpr
        exact List.mem_map_of_mem (by simp [Arg.toks, hn])
      exact this.append ih

/-- **C72**, for prototypes in which only the names of arguments are identifiers after the type. If arguments with
and without names are mixed, all names are removed, and nothing else; all that is attached to tokens stays. If they
are not mixed, or the type of a named argument does not end with a star, a keyword for a type or a qualifier,
nothing is changed. Missing: sizes of arrays, `...` and pointers to functions, see `proto_array_fails`,
`proto_variadic_fails` and `proto_pointer_fails`. -/
theorem proto_names_partial {ts pre post : List Node} {args : List Arg} {x : Node}
    (e : ts = pre ++ args.flatMap Arg.toks ++ post) (hd : (ts.map (·.id)).Nodup)
    (hl : ts.getLast? = some x) (hx : x.type = .eof)
    (ht : ∀ a ∈ args, a.ty ≠ []) (hi : ∀ a ∈ args, ∀ t, a.name = some t → t.type = .ident) :
    ∃ ts', simpleProto ts (args.flatMap Arg.calls) = some ts' ∧
      ((Mixed args ∧ ∀ a ∈ args, a.name.isSome → Known a.ty) →
        ts'.map key = (pre ++ (args.map Arg.bare).flatMap Arg.toks ++ post).map key ∧
        (attached ts').Perm (attached ts)) ∧
      (¬ (Mixed args ∧ ∀ a ∈ args, a.name.isSome → Known a.ty) → ts' = ts) := by
  obtain ⟨σ, h1, h2, h3⟩ := protoCalls_eq (σ := {}) hd e ht
  unfold simpleProto
  rw [h1]
  dsimp only
  unfold protoLeave
  by_cases hk : ∀ a ∈ args, a.name.isSome → Known a.ty
  · obtain ⟨g1, g2⟩ := h2 ⟨rfl, hk⟩
    rw [if_neg (by simp [g1])]
    dsimp only
    have g2' : σ.args = args.map (fun a => a.name.map (·.id)) := by simpa using g2
    have c1 : ((args.map (fun a => a.name.map (·.id))).filter (·.isNone)).length = 0 ↔ ∀ a ∈ args, a.name ≠ none := by
      rw [List.length_eq_zero_iff, List.filter_eq_nil_iff]
      simp
    have c2 : (args.map (fun a => a.name.map (·.id))).length =
        ((args.map (fun a => a.name.map (·.id))).filter (·.isNone)).length ↔ ∀ a ∈ args, a.name = none := by
      rw [eq_comm, List.length_filter_eq_length_iff]
      simp
    rw [g2']
    by_cases hm : Mixed args
    · obtain ⟨⟨a, ha, hs⟩, b, hb, hb2⟩ := id hm
      rw [if_neg (by
        rintro (h | h)
        · exact c1.mp h b hb hb2
        · rw [c2.mp h a ha] at hs; simp at hs)]
      obtain ⟨ts', k1, k2, k3⟩ := removeNames_eq (as := args.map (fun a => a.name.map (·.id))) hd hl hx (by
        intro n hn
        obtain ⟨a, ha, he⟩ := List.mem_map.mp hn
        obtain ⟨t, ht1, ht2⟩ := Option.map_eq_some_iff.mp he
        refine ⟨t.type, ?_, by rw [hi a ha t ht1]; simp⟩
        refine List.mem_map.mpr ⟨t, ?_, by rw [ht2]⟩
        rw [e]
        exact List.mem_append_left _ (List.mem_append_right _ (List.mem_flatMap.mpr ⟨a, ha, by simp [Arg.toks, ht1]⟩))) (by
        refine (filterMap_sublist args).nodup ?_
        rw [e, List.map_append, List.nodup_append, List.map_append, List.nodup_append] at hd
        exact hd.1.2.1)
      refine ⟨ts', k1, fun _ => ⟨?_, k3⟩, fun h => absurd ⟨hm, hk⟩ h⟩
      rw [e] at k2 hd
      rw [filter_names hd] at k2
      exact k2
    · rw [if_pos (by
        by_cases h : ∃ a ∈ args, a.name.isSome
        · left
          apply c1.mpr
          intro a ha he
          exact hm ⟨h, a, ha, he⟩
        · right
          apply c2.mpr
          intro a ha
          cases hn : a.name with
          | none => rfl
          | some t => exact absurd ⟨a, ha, by simp [hn]⟩ h)]
      exact ⟨ts, rfl, fun h => absurd h.1 hm, fun _ => rfl⟩
  · have hE : ∃ a ∈ args, a.name.isSome ∧ ¬ Known a.ty := by
      apply Classical.byContradiction
      intro h
      apply hk
      intro a ha hs
      apply Classical.byContradiction
      intro hnk
      exact h ⟨a, ha, hs, hnk⟩
    rw [if_pos (h3 (Or.inr hE))]
    exact ⟨ts, rfl, fun h => absurd h.2 hk, fun _ => rfl⟩

/-! ## Reports of the parser -/

/-- The loop of `parser_func_arg` after the type, parser-func.c:235-264: identifiers up to the comma or the right
parenthesis `rp`, and what comes then. Attributes are not modelled. -/
def argRest (rp : Nat) : List Knfmt.Parse.Tok → List Call × List Knfmt.Parse.Tok
  | [] => ([], [])
  | t :: ts =>
    if t.ty = .comma then ([], ts)
    else if t.id = rp then ([], t :: ts)
    else if t.ty = .ident then ((.ident t.id :: (argRest rp ts).1), (argRest rp ts).2)
    else argRest rp ts

/-- `while (parser_func_arg(...) & GOOD)`, parser-func.c:404-405 and 193-267; the arguments of a pointer to
functions are those of the loop in `parser_type`, parser-type.c:232-250. At most `n` arguments. -/
def argCalls : Nat → Nat → List Knfmt.Parse.Tok → List Call
  | 0, _, _ => []
  | n + 1, rp, ts =>
    match Knfmt.Parse.funcArgPeek none ts with
    | none => []
    | some ti =>
      let nested := match ti.args with
        | none => []
        | some lp => argCalls n ti.fin.id ((ts.dropWhile fun t => t.id ≠ lp).tail)
      let r := argRest rp ti.rest
      .arg :: nested ++ r.1 ++ argCalls n rp r.2

/-- Flags of keywords. -/
def flagsOf (ty : TT) : Flags := ((Knfmt.Lexer.keywords.find? fun k => k.2.1 = ty).map (·.2.2)).getD {}

/-- Tokens with addresses `0`, `1`, ... and the flags of keywords. -/
def ftoks (tys : List TT) : List Node := tys.zipIdx.map fun (ty, i) => { id := i, type := ty, flags := flagsOf ty }

/-- The simplification of a prototype: the arguments are between the tokens at `lp` and `rp`. -/
def runProto (tys : List TT) (lp rp : Nat) : Option (List Nat) :=
  (simpleProto (ftoks tys) (argCalls tys.length rp ((ptoks tys).drop (lp + 1)))).map fun ts => ts.map (·.id)

/-- `void f(int a, int);` -/
def protoTypes : List TT := [.void, .ident, .lparen, .kInt, .ident, .comma, .kInt, .rparen, .semi, .eof]

/-- The arguments of `protoTypes`. -/
def protoArgs : List Arg :=
  [{ ty := [{ id := 3, type := .kInt, flags := { type := true } }], name := some { id := 4, type := .ident }, rest := [],
     sep := [{ id := 5, type := .comma }] },
   { ty := [{ id := 6, type := .kInt, flags := { type := true } }], name := none, rest := [], sep := [] }]

example : protoArgs.flatMap Arg.calls = argCalls 10 7 ((ptoks protoTypes).drop 3) := by decide +kernel

example : (ftoks protoTypes).take 3 ++ protoArgs.flatMap Arg.toks ++ (ftoks protoTypes).drop 7 = ftoks protoTypes := by
  decide +kernel

example : Mixed protoArgs ∧ ∀ a ∈ protoArgs, a.name.isSome → Known a.ty :=
  ⟨⟨⟨_, List.mem_cons_self, rfl⟩, _, List.mem_cons_of_mem _ List.mem_cons_self, rfl⟩, by
    intro a ha _
    simp [protoArgs] at ha
    rcases ha with rfl | rfl <;> exact ⟨_, rfl, by simp⟩⟩

/-- The name at 4 goes. -/
example : runProto protoTypes 2 7 = some [0, 1, 2, 3, 5, 6, 7, 8, 9] := by decide +kernel

/-- **C72 is false in general.** `void f(int, char a[2 * n]);` becomes `void f(int, char a[2 *]);`: what is removed
is not the name but `n`. -/
theorem proto_array_fails :
    runProto [.void, .ident, .lparen, .kInt, .comma, .kChar, .ident, .lsquare, .literal, .star, .ident, .rsquare, .rparen,
      .semi, .eof] 2 12 = some [0, 1, 2, 3, 4, 5, 6, 7, 8, 9, 11, 12, 13, 14] := by decide +kernel

/-- `int f(char *s, ...);` becomes `int f(char *, ...);`: every argument that can have a name has one, the name is
removed all the same. -/
theorem proto_variadic_fails :
    runProto [.kInt, .ident, .lparen, .kChar, .star, .ident, .comma, .ellipsis, .rparen, .semi, .eof] 2 8 =
      some [0, 1, 2, 3, 4, 6, 7, 8, 9, 10] := by decide +kernel

/-- `void f(int a, int (*g)(int b));` becomes `void f(int, int (*g)(int));`: every argument has a name, those of `a`
and `b` are removed. -/
theorem proto_pointer_fails :
    runProto [.void, .ident, .lparen, .kInt, .ident, .comma, .kInt, .lparen, .star, .ident, .rparen, .lparen, .kInt, .ident,
      .rparen, .rparen, .semi, .eof] 2 15 = some [0, 1, 2, 3, 5, 6, 7, 8, 9, 10, 11, 12, 14, 15, 16, 17] := by decide +kernel

end Knfmt.Small
