import Verif.Simple.DeclSpec
import Verif.Simple.ForwardProps
/-!
# Grouping declarations: what the edits do

A token is seen as its address, its type, what makes it immovable and its text. Tokens that are removed,
copied or inserted have nothing that makes them immovable.
-/
namespace Knfmt.SimpleDecl

open Knfmt.Lexer (TT)
open Knfmt.Stream (Node Fix)
open Knfmt.Stmt (node pos next prev isMoveable removeId)
open Knfmt.Forward (from_ moveId moveSpaces onLine)

theorem moveable_iff {t : Node} : isMoveable t = true ↔ fixed t = [] := by
  unfold isMoveable fixed
  rw [List.append_eq_nil_iff, List.filter_eq_nil_iff, List.filter_eq_nil_iff]
  simp only [Bool.and_eq_true, Bool.not_eq_true', List.any_eq_false]

/-- Address, type, what is attached, text. -/
structure Core where
  id : Nat
  type : TT
  fixed : List Fix
  text : List Char

/-- What matters of a token. -/
def core (text : Nat → List Char) (t : Node) : Core := ⟨t.id, t.type, fixed t, text t.id⟩

/-- Addresses. -/
abbrev ids (L : List Core) : List Nat := L.map (·.id)

variable {τ : Nat → List Char}

theorem ids_core (ts : List Node) : ids (ts.map (core τ)) = ts.map (·.id) := by
  simp [ids, core, Function.comp_def]

theorem split_core {ts : List Node} {A B : List Core} {x : Core} (h : ts.map (core τ) = A ++ x :: B) :
    ∃ A' t B', ts = A' ++ t :: B' ∧ A'.map (core τ) = A ∧ core τ t = x ∧ B'.map (core τ) = B := by
  obtain ⟨A', r, e, h1, h2⟩ := List.map_eq_append_iff.mp h
  obtain ⟨t, B', e2, h3, h4⟩ := List.map_eq_cons_iff.mp h2
  exact ⟨A', t, B', by rw [e, e2], h1, h3, h4⟩

theorem nodup_core {ts : List Node} {L : List Core} (h : ts.map (core τ) = L) (hd : (ids L).Nodup) :
    (ts.map (·.id)).Nodup := by
  rw [← ids_core (τ := τ), h]; exact hd

theorem pos_mid {A B : List Node} {t : Node} (hd : ((A ++ t :: B).map (·.id)).Nodup) :
    pos (A ++ t :: B) t.id = some A.length := by
  refine Knfmt.Stmt.pos_append ?_ rfl
  intro x hx e
  rw [List.map_append, List.nodup_append] at hd
  exact hd.2.2 x.id (List.mem_map_of_mem hx) t.id (by simp) e

/-- The next token. -/
theorem next_core {ts : List Node} {A B : List Core} {x y : Core} (h : ts.map (core τ) = A ++ x :: y :: B)
    (hd : (ids (A ++ x :: y :: B)).Nodup) : ∃ t, next ts x.id = some t ∧ core τ t = y := by
  obtain ⟨A', t, B', rfl, h1, rfl, h3⟩ := split_core h
  obtain ⟨u, C, rfl, h4, -⟩ := List.map_eq_cons_iff.mp h3
  refine ⟨u, ?_, h4⟩
  unfold next
  show (match pos (A' ++ t :: u :: C) t.id with | none => none | some i => (A' ++ t :: u :: C)[i + 1]?) = some u
  rw [pos_mid (nodup_core h hd)]
  dsimp only
  rw [List.getElem?_append_right (by omega)]
  simp

theorem fixed_suffixes {pv tk : Node} (h : fixed tk = []) :
    core τ { pv with suffixes := pv.suffixes ++ tk.suffixes } = core τ pv := by
  have h' := (List.append_eq_nil_iff.mp h).2
  simp [core, fixed, List.filter_append, h']

theorem fixed_prefixes {nx tk : Node} (h : fixed tk = []) :
    core τ { nx with prefixes := tk.prefixes ++ nx.prefixes } = core τ nx := by
  have h' := (List.append_eq_nil_iff.mp h).1
  simp only [core, fixed, List.filter_append, h', List.nil_append]

theorem fixed_both {nx tk : Node} (h : fixed tk = []) :
    core τ { nx with prefixes := tk.prefixes ++ nx.prefixes, suffixes := nx.suffixes ++ tk.suffixes } = core τ nx := by
  have h1 := (List.append_eq_nil_iff.mp h).1
  have h2 := (List.append_eq_nil_iff.mp h).2
  simp only [core, fixed, List.filter_append, h1, h2, List.nil_append, List.append_nil]

/-- Removing a token. -/
theorem remove_core {ts : List Node} {A B : List Core} {x y : Core} (h : ts.map (core τ) = A ++ x :: y :: B)
    (hd : (ids (A ++ x :: y :: B)).Nodup) (he : x.type ≠ .eof) (hf : x.fixed = []) :
    ∃ ts' st, removeId ts none x.id = some (ts', st) ∧ ts'.map (core τ) = A ++ y :: B := by
  obtain ⟨A', t, B', rfl, rfl, rfl, h3⟩ := split_core h
  obtain ⟨u, C, rfl, rfl, rfl⟩ := List.map_eq_cons_iff.mp h3
  have hp : pos (A' ++ t :: u :: C) t.id = some A'.length := pos_mid (nodup_core h hd)
  unfold removeId
  show ∃ ts' st, (match pos (A' ++ t :: u :: C) t.id with
    | none => none | some i => Knfmt.Stream.remove (A' ++ t :: u :: C) none i) = some (ts', st) ∧ _
  rw [hp]
  dsimp only
  rcases List.eq_nil_or_concat A' with rfl | ⟨pre, pv, rfl⟩
  · refine ⟨_, _, Knfmt.Stream.remove_first C t u none he, ?_⟩
    simp only [List.map_cons, fixed_both hf, List.map_nil, List.nil_append]
  · have := Knfmt.Stream.remove_mid pre C pv t u none he
    rw [List.concat_eq_append, List.append_assoc, List.length_append]
    refine ⟨_, _, this, ?_⟩
    · simp only [List.map_append, List.map_cons, fixed_suffixes hf, fixed_prefixes hf,
        List.map_nil, List.append_assoc, List.singleton_append]

theorem core_onLine (n : Nat) (t : Node) : core τ (onLine n t) = core τ t := rfl

/-- Moving a token. -/
theorem move_core {ts : List Node} {L X Y : List Core} {x a : Core} (h : ts.map (core τ) = L) (hd : (ids L).Nodup)
    (hx : x ∈ L) (ha : L.filter (fun c => decide (c.id ≠ x.id)) = X ++ a :: Y) :
    ∃ ts', moveId ts a.id x.id = some ts' ∧ ts'.map (core τ) = X ++ a :: x :: Y := by
  subst h
  obtain ⟨A, B, e⟩ := List.append_of_mem hx
  obtain ⟨A', t, B', rfl, rfl, rfl, rfl⟩ := split_core e
  clear e hx
  have hd' := nodup_core rfl hd
  have hn : ∀ u ∈ A' ++ B', u.id ≠ t.id := by
    intro u hu e
    rw [List.map_append, List.nodup_append, List.map_cons, List.nodup_cons] at hd'
    rcases List.mem_append.mp hu with hu | hu
    · exact hd'.2.2 _ (List.mem_map_of_mem hu) t.id (by simp) e
    · exact hd'.2.1.1 (e ▸ List.mem_map_of_mem hu)
  have hf : ((A' ++ t :: B').map (core τ)).filter (fun c => decide (c.id ≠ (core τ t).id)) = (A' ++ B').map (core τ) := by
    rw [List.map_append, List.map_cons, List.filter_append, List.filter_cons_of_neg (by simp), ← List.filter_append,
      ← List.map_append, List.filter_eq_self]
    intro c hc
    obtain ⟨u, hu, rfl⟩ := List.mem_map.mp hc
    exact decide_eq_true (hn u hu)
  rw [hf] at ha
  obtain ⟨X', b, Y', e2, rfl, rfl, rfl⟩ := split_core ha
  rcases List.append_eq_append_iff.mp e2 with ⟨Z, rfl, h2⟩ | ⟨Z, rfl, h2⟩
  · -- the token comes first
    subst h2
    exact ⟨_, Knfmt.Forward.moveId_back A' Z Y' t b hd', by simp [core_onLine]⟩
  · cases Z with
    | nil =>
      rw [List.nil_append] at h2
      subst h2
      rw [List.append_nil] at hd' ⊢
      exact ⟨_, Knfmt.Forward.moveId_back X' [] Y' t b hd', by simp [core_onLine]⟩
    | cons z Z =>
      rw [List.cons_append] at h2
      injection h2 with h2 h3
      subst h2 h3
      have e3 : X' ++ b :: Z ++ t :: B' = X' ++ b :: (Z ++ t :: B') := by simp
      rw [e3] at hd' ⊢
      exact ⟨_, Knfmt.Forward.moveId_fwd X' Z B' t b hd', by simp [core_onLine]⟩

theorem copyFixes_filter (n : Nat) (l : List Fix) (p : Fix → Bool)
    (hp : ∀ x y : Fix, x.type = y.type → x.flags = y.flags → p x = p y)
    (h : l.filter p = []) : (Knfmt.Stream.copyFixes n l).filter p = [] := by
  induction l generalizing n with
  | nil => rfl
  | cons x xs ih =>
    rw [Knfmt.Stream.copyFixes]
    by_cases hx : p x = true
    · rw [List.filter_cons_of_pos hx] at h; cases h
    · rw [List.filter_cons_of_neg hx] at h
      rw [List.filter_cons_of_neg, ih _ h]
      rw [hp { x with id := n } x rfl rfl]
      exact hx

/-- A new text does not matter for other tokens. -/
theorem core_text {ts : List Node} {L : List Core} {n : Nat} {s : List Char} (h : ts.map (core τ) = L)
    (hn : ∀ c ∈ L, c.id < n) : ts.map (core fun m => if m = n then s else τ m) = L := by
  subst h
  apply List.map_congr_left
  intro t ht
  have : t.id < n := hn (core τ t) (List.mem_map_of_mem ht)
  unfold core
  dsimp only
  rw [if_neg (by omega)]

/-- What is known while tokens are edited. -/
structure Is (e : Ed) (L : List Core) : Prop where
  eq : e.ts.map (core e.text) = L
  nodup : (ids L).Nodup
  lt : ∀ c ∈ L, c.id < e.fresh

/-- Copying a token. -/
theorem copy_core {e : Ed} {X Y : List Core} {a : Core} {x : Core} (h : Is e (X ++ a :: Y))
    (hx : x ∈ X ++ a :: Y) (hf : x.fixed = []) :
    ∃ e', copyId e a.id x.id = some e' ∧ Is e' (X ++ a :: ⟨e.fresh, x.type, [], x.text⟩ :: Y) ∧ e.fresh < e'.fresh := by
  obtain ⟨h, hd, hl⟩ := h
  obtain ⟨t, ht, rfl⟩ := List.mem_map.mp (h ▸ hx)
  have hd' := nodup_core h hd
  obtain ⟨X', b, Y', e1, rfl, rfl, rfl⟩ := split_core h
  have hp : pos e.ts (core e.text b).id = some X'.length := by
    rw [e1]; exact pos_mid (e1 ▸ hd')
  have hn : node e.ts (core e.text t).id = some t := Knfmt.Stmt.node_eq hd' ht rfl
  unfold copyId
  rw [hp, hn]
  dsimp only
  unfold Knfmt.Stream.copyAfter
  have g : e.ts[X'.length]? = some b := by rw [e1]; simp
  rw [g]
  dsimp only
  have key : ∀ c ∈ X'.map (core e.text) ++ core e.text b :: Y'.map (core e.text), c.id < e.fresh := hl
  refine ⟨_, rfl, ⟨?_, ?_, ?_⟩, ?_⟩
  · dsimp only
    rw [e1, Knfmt.Stmt.insertIdx_mid]
    have h0 := core_text (ts := X' ++ b :: Y') (n := e.fresh) (s := e.text (core e.text t).id) (by rw [← e1]; exact h) key
    rw [List.map_append, List.map_cons] at h0
    have h1 := (List.append_inj h0 (by simp)).1
    have h2 := (List.append_inj h0 (by simp)).2
    injection h2 with h2 h3
    rw [List.map_append, List.map_cons, List.map_cons, h1, h2, h3]
    congr 3
    have h1 := List.append_eq_nil_iff.mp hf
    have k1 := copyFixes_filter (e.fresh + 1) t.prefixes (fun p => decide (p.type = .comment) || p.flags.cpp)
      (by intro x y hx hy; rw [hx, hy]) h1.1
    have k2 := copyFixes_filter (e.fresh + 1 + t.prefixes.length) t.suffixes (fun p => decide (p.type = .comment))
      (by intro x y hx hy; rw [hx]) h1.2
    unfold core fixed Knfmt.Stream.copied
    dsimp only
    rw [k1, k2, if_pos rfl]
    rfl
  · rw [ids, List.map_append, List.map_cons, List.map_cons]
    rw [ids, List.map_append, List.map_cons] at hd
    have hnot : e.fresh ∉ (X'.map (core e.text)).map (·.id) ++ (core e.text b).id :: (Y'.map (core e.text)).map (·.id) := by
      rw [← List.map_cons, ← List.map_append]
      intro hm
      obtain ⟨c, hc, h⟩ := List.mem_map.mp hm
      have := key c hc
      omega
    grind
  · intro c hc
    have hc' : c ∈ X'.map (core e.text) ++ core e.text b :: Y'.map (core e.text) ∨
        c = ⟨e.fresh, t.type, [], e.text t.id⟩ := by
      rcases List.mem_append.mp hc with hc | hc
      · exact Or.inl (List.mem_append_left _ hc)
      · rcases List.mem_cons.mp hc with hc | hc
        · exact Or.inl (List.mem_append_right _ (List.mem_cons.mpr (Or.inl hc)))
        · rcases List.mem_cons.mp hc with hc | hc
          · exact Or.inr hc
          · exact Or.inl (List.mem_append_right _ (List.mem_cons_of_mem _ hc))
    dsimp only
    rcases hc' with hc | rfl
    · have := key c hc; omega
    · dsimp only; omega
  · dsimp only
    omega

/-- Inserting a token. -/
theorem insert_core {e : Ed} {X Y : List Core} {a : Core} (ty : TT) (txt : List Char) (h : Is e (X ++ a :: Y)) :
    ∃ e', insertKw e a.id ty txt = some e' ∧ Is e' (X ++ a :: ⟨e.fresh, ty, [], txt⟩ :: Y) ∧ e.fresh < e'.fresh := by
  obtain ⟨h, hd, hl⟩ := h
  have hd' := nodup_core h hd
  obtain ⟨X', b, Y', e1, rfl, rfl, rfl⟩ := split_core h
  have hp : pos e.ts (core e.text b).id = some X'.length := by
    rw [e1]; exact pos_mid (e1 ▸ hd')
  unfold insertKw
  rw [hp]
  dsimp only
  unfold Knfmt.Stream.insertAfter
  have g : e.ts[X'.length]? = some b := by rw [e1]; simp
  rw [g]
  dsimp only
  refine ⟨_, rfl, ⟨?_, ?_, ?_⟩, ?_⟩
  · dsimp only
    rw [e1, Knfmt.Stmt.insertIdx_mid]
    have h0 := core_text (ts := X' ++ b :: Y') (n := e.fresh) (s := txt) (by rw [← e1]; exact h) hl
    rw [List.map_append, List.map_cons] at h0
    have h1 := (List.append_inj h0 (by simp)).1
    have h2 := (List.append_inj h0 (by simp)).2
    injection h2 with h2 h3
    rw [List.map_append, List.map_cons, List.map_cons, h1, h2, h3]
    congr 3
    unfold core fixed Knfmt.Stream.inserted
    dsimp only
    rw [if_pos rfl]
    rfl
  · rw [ids, List.map_append, List.map_cons, List.map_cons]
    rw [ids, List.map_append, List.map_cons] at hd
    have hnot : e.fresh ∉ (X'.map (core e.text)).map (·.id) ++ (core e.text b).id :: (Y'.map (core e.text)).map (·.id) := by
      rw [← List.map_cons, ← List.map_append]
      intro hm
      obtain ⟨c, hc, h⟩ := List.mem_map.mp hm
      have := hl c hc
      omega
    grind
  · intro c hc
    have hc' : c ∈ X'.map (core e.text) ++ core e.text b :: Y'.map (core e.text) ∨ c = ⟨e.fresh, ty, [], txt⟩ := by
      rcases List.mem_append.mp hc with hc | hc
      · exact Or.inl (List.mem_append_left _ hc)
      · rcases List.mem_cons.mp hc with hc | hc
        · exact Or.inl (List.mem_append_right _ (List.mem_cons.mpr (Or.inl hc)))
        · rcases List.mem_cons.mp hc with hc | hc
          · exact Or.inr hc
          · exact Or.inl (List.mem_append_right _ (List.mem_cons_of_mem _ hc))
    dsimp only
    rcases hc' with hc | rfl
    · have := hl c hc; omega
    · dsimp only; omega
  · dsimp only
    omega

/-- Moving white space. -/
theorem spaces_core {ts : List Node} {L : List Core} {a b : Core} (h : ts.map (core τ) = L) (hd : (ids L).Nodup)
    (ha : a ∈ L) (hb : b ∈ L) (hne : a.id ≠ b.id) : ∃ ts', moveSpaces ts a.id b.id = some ts' ∧ ts'.map (core τ) = L := by
  subst h
  obtain ⟨u, hu, rfl⟩ := List.mem_map.mp ha
  obtain ⟨v, hv, rfl⟩ := List.mem_map.mp hb
  refine ⟨_, Knfmt.Forward.moveSpaces_map (nodup_core rfl hd) hu hv hne, ?_⟩
  rw [List.map_map]
  apply List.map_congr_left
  intro t ht
  dsimp only [Function.comp]
  have hs : ∀ l : List Fix, (l.filter (fun f => decide (f.type = .space))).filter (fun s => decide (s.type = .comment)) = [] := by
    intro l
    rw [List.filter_filter, List.filter_eq_nil_iff]
    intro f _
    by_cases h : f.type = .comment <;> simp [h]
  have hs' : ∀ l : List Fix, (l.filter (fun f => decide (f.type ≠ .space))).filter (fun s => decide (s.type = .comment)) =
      l.filter (fun s => decide (s.type = .comment)) := by
    intro l
    rw [List.filter_filter]
    apply List.filter_congr
    intro f _
    by_cases h : f.type = .comment <;> simp [h]
  rw [if_neg (show ¬ u.id = v.id from hne)]
  split
  · simp only [core, fixed, List.filter_append, hs, List.append_nil]
  · split
    · simp only [core, fixed, hs']
    · rfl

/-! ## Arrangements -/

/-- What was put behind a token. -/
def news (G : List (Nat × List Core)) (a : Nat) : List Core := (G.filter fun g => decide (g.1 = a)).flatMap (·.2)

/-- The tokens `L` without those in `R` and with those in `G`. -/
def arr (R : List Nat) (G : List (Nat × List Core)) (L : List Core) : List Core :=
  L.flatMap fun c => (if c.id ∈ R then [] else [c]) ++ news G c.id

variable {R : List Nat} {G : List (Nat × List Core)}

theorem arr_append (A B : List Core) : arr R G (A ++ B) = arr R G A ++ arr R G B := List.flatMap_append ..

theorem arr_cons (x : Core) (B : List Core) :
    arr R G (x :: B) = (if x.id ∈ R then [] else [x]) ++ news G x.id ++ arr R G B := List.flatMap_cons ..

theorem arr_congr {R R' : List Nat} {L : List Core} (h : ∀ c ∈ L, c.id ∈ R ↔ c.id ∈ R') : arr R G L = arr R' G L := by
  unfold arr
  rw [List.flatMap_def, List.flatMap_def]
  congr 1
  apply List.map_congr_left
  intro c hc
  simp only [h c hc]

/-- Tokens that stay, with nothing behind. -/
theorem arr_same {L : List Core} (h : ∀ c ∈ L, c.id ∉ R ∧ c.id ∉ G.map (·.1)) : arr R G L = L := by
  induction L with
  | nil => rfl
  | cons x L ih =>
    rw [arr_cons, ih fun c hc => h c (List.mem_cons_of_mem _ hc), if_neg (h x List.mem_cons_self).1]
    have : news G x.id = [] := by
      unfold news
      rw [List.flatMap_eq_nil_iff]
      intro g hg
      have := List.mem_filter.mp hg
      exact absurd (List.mem_map.mpr ⟨g, this.1, of_decide_eq_true this.2⟩) (h x List.mem_cons_self).2
    rw [this]
    rfl

theorem news_cons_ne {a b : Nat} {P : List Core} (h : a ≠ b) : news ((a, P) :: G) b = news G b := by
  unfold news
  rw [List.filter_cons_of_neg (by simpa using h)]

theorem arr_cons_ne {a : Nat} {P L : List Core} (h : a ∉ ids L) : arr R ((a, P) :: G) L = arr R G L := by
  unfold arr
  rw [List.flatMap_def, List.flatMap_def]
  congr 1
  apply List.map_congr_left
  intro c hc
  rw [news_cons_ne]
  rintro rfl
  exact h (List.mem_map_of_mem hc)

/-- A block behind a token that stays. -/
theorem arr_anchor {L1 L2 P : List Core} {a : Core} (hd : (ids (L1 ++ a :: L2)).Nodup) (ha : a.id ∉ R) :
    arr R ((a.id, P) :: G) (L1 ++ a :: L2) = arr R G L1 ++ (a :: P ++ (news G a.id ++ arr R G L2)) := by
  rw [ids, List.map_append, List.map_cons, List.nodup_append, List.nodup_cons] at hd
  rw [arr_append, arr_cons, if_neg ha, arr_cons_ne, arr_cons_ne hd.2.1.1]
  · have : news ((a.id, P) :: G) a.id = P ++ news G a.id := by
      unfold news
      rw [List.filter_cons_of_pos (by simp), List.flatMap_cons]
    rw [this]
    simp
  · intro h
    exact hd.2.2 _ h a.id (by simp) rfl

/-- A token that stays. -/
theorem arr_mid {U W : List Core} {x : Core} (hx : x.id ∉ R) :
    arr R G (U ++ x :: W) = arr R G U ++ x :: (news G x.id ++ arr R G W) := by
  rw [arr_append, arr_cons, if_neg hx]
  simp

/-- A token that goes. -/
theorem arr_gone {U W : List Core} {x : Core} (hd : (ids (U ++ x :: W)).Nodup) :
    arr (x.id :: R) G (U ++ x :: W) = arr R G U ++ (news G x.id ++ arr R G W) := by
  rw [ids, List.map_append, List.map_cons, List.nodup_append, List.nodup_cons] at hd
  rw [arr_append, arr_cons, if_pos (by simp)]
  have h1 : arr (x.id :: R) G U = arr R G U := by
    apply arr_congr
    intro c hc
    have : c.id ≠ x.id := hd.2.2 _ (List.mem_map_of_mem hc) x.id (by simp)
    simp [this]
  have h2 : arr (x.id :: R) G W = arr R G W := by
    apply arr_congr
    intro c hc
    have : c.id ≠ x.id := by
      intro e; exact hd.2.1.1 (e ▸ List.mem_map_of_mem hc)
    simp [this]
  rw [h1, h2]
  simp

theorem arr_gone_filter {L0 : List Core} {x : Core} (hd : (ids L0).Nodup) (hx : x ∈ L0) (hR : x.id ∉ R)
    (hn : (ids (arr R G L0)).Nodup) :
    (arr R G L0).filter (fun c => decide (c.id ≠ x.id)) = arr (x.id :: R) G L0 ∧ x ∈ arr R G L0 := by
  obtain ⟨U, W, rfl⟩ := List.append_of_mem hx
  rw [arr_gone hd]
  rw [arr_mid hR] at hn ⊢
  refine ⟨?_, by simp⟩
  rw [ids, List.map_append, List.map_cons, List.nodup_append, List.nodup_cons] at hn
  rw [List.filter_append, List.filter_cons_of_neg (by simp)]
  congr 1
  · rw [List.filter_eq_self]
    intro c hc
    have : c.id ≠ x.id := hn.2.2 _ (List.mem_map_of_mem hc) x.id (by simp)
    simpa using this
  · rw [List.filter_eq_self]
    intro c hc
    have : c.id ≠ x.id := by
      intro e
      have h := List.mem_map_of_mem (f := fun c : Core => c.id) hc
      rw [e] at h
      exact hn.2.1.1 h
    simpa using this

end Knfmt.SimpleDecl
