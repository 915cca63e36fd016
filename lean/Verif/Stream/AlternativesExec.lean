import Verif.Stream.Alternatives
/-! # Alternatives of conditionals: whole runs of the parser (C76) -/
namespace Knfmt.Branch

open Knfmt.Spec

/-- Sorted tokens, all of which are there from some token on. -/
theorem sorted_split {n front : Nat} : ∀ {ts : List Nat}, ts.Pairwise (· < ·) → (∀ t ∈ ts, t < n) →
    (∀ t, front ≤ t → t < n → t ∈ ts) →
    ∃ A, ts = A ++ List.range' front (n - front) ∧ ∀ t ∈ A, t < front := by
  intro ts hs hb hall
  refine ⟨ts.filter (fun t => decide (t < front)), ?_, fun t ht => by simpa using (List.mem_filter.1 ht).2⟩
  have h1 : ts = ts.filter (fun t => decide (t < front)) ++ ts.filter (fun t => !decide (t < front)) := by
    clear hb hall
    induction ts with
    | nil => rfl
    | cons x ts ih =>
      have hs' := List.pairwise_cons.1 hs
      have ih := ih hs'.2
      by_cases hx : x < front
      · rw [List.filter_cons_of_pos (by simpa using hx), List.filter_cons_of_neg (by simpa using hx),
          List.cons_append, ← ih]
      · have hnil : ts.filter (fun t => decide (t < front)) = [] := by
          rw [List.filter_eq_nil_iff]
          intro y hy
          have := hs'.1 y hy
          simp; omega
        rw [hnil, List.nil_append] at ih
        rw [List.filter_cons_of_neg (by simpa using hx), List.filter_cons_of_pos (by simpa using hx), hnil,
          List.nil_append, ← ih]
  have h2 : ts.filter (fun t => !decide (t < front)) = List.range' front (n - front) := by
    have hs2 : (ts.filter (fun t => !decide (t < front))).Pairwise (· < ·) := hs.filter _
    have hs3 : (List.range' front (n - front)).Pairwise (· < ·) := List.pairwise_lt_range'
    have hmem : ∀ t, t ∈ ts.filter (fun t => !decide (t < front)) ↔ t ∈ List.range' front (n - front) := by
      intro t
      rw [List.mem_filter, List.mem_range'_1]
      simp only [Bool.not_eq_true', decide_eq_false_iff_not]
      constructor
      · rintro ⟨h1, h2⟩
        have := hb t h1
        omega
      · rintro ⟨h1, h2⟩
        exact ⟨hall t h1 (by omega), by omega⟩
    have key : ∀ (l m : List Nat), l.Pairwise (· < ·) → m.Pairwise (· < ·) → (∀ t, t ∈ l ↔ t ∈ m) → l = m := by
      intro l
      induction l with
      | nil =>
        intro m _ _ h
        cases m with
        | nil => rfl
        | cons y m => exact absurd ((h y).2 (by simp)) (by simp)
      | cons x l ih =>
        intro m hl hm h
        cases m with
        | nil => exact absurd ((h x).1 (by simp)) (by simp)
        | cons y m =>
          have hl' := List.pairwise_cons.1 hl
          have hm' := List.pairwise_cons.1 hm
          have hxy : x = y := by
            rcases List.mem_cons.1 ((h x).1 (by simp)) with e | e
            · exact e
            · rcases List.mem_cons.1 ((h y).2 (by simp)) with e' | e'
              · exact e'.symm
              · have := hm'.1 x e
                have := hl'.1 y e'
                omega
          subst hxy
          rw [ih m hl'.2 hm'.2]
          intro t
          constructor
          · intro ht
            rcases List.mem_cons.1 ((h t).1 (by simp [ht])) with e | e
            · have := hl'.1 t ht; omega
            · exact e
          · intro ht
            rcases List.mem_cons.1 ((h t).2 (by simp [ht])) with e | e
            · have := hm'.1 t ht; omega
            · exact e
    exact key _ _ hs2 hs3 hmem
  rw [h2] at h1
  exact h1

theorem first_of_mem {s : Nat} : ∀ {A : List Nat}, s ∈ A → ∃ x y, A = x ++ s :: y ∧ s ∉ x := by
  intro A
  induction A with
  | nil => intro h; cases h
  | cons a A ih =>
    intro hm
    by_cases ha : s = a
    · subst ha; exact ⟨[], A, rfl, by simp⟩
    · rcases List.mem_cons.1 hm with e | e
      · exact absurd e ha
      · obtain ⟨x, y, rfl, hx⟩ := ih e
        exact ⟨a :: x, y, rfl, by simp [ha, hx]⟩

theorem after_append {A B : List Nat} {pos : Option Nat} (h : ∀ s, pos = some s → s ∈ A) :
    after (A ++ B) pos = after A pos ++ B := by
  cases pos with
  | none => rfl
  | some s =>
    obtain ⟨x, y, rfl, hx⟩ := first_of_mem (h s rfl)
    rw [after_split hx, List.append_assoc, List.cons_append, after_split hx]

theorem after_mem {ts : List Nat} {pos : Option Nat} {t : Nat} (h : t ∈ after ts pos) : t ∈ ts := by
  obtain ⟨pre, hp⟩ := after_suffix ts pos
  rw [hp]
  exact List.mem_append_right _ h

/-- Everything before `front` is printed. While tokens before it are parsed again, nothing is. -/
structure BInv (once : Bool) (F : File) (front : Nat) (X : BRun) : Prop where
  good : Good F.owner X.σ
  dirs : ∀ t ∈ X.σ.toks, X.σ.prefixes t = F.final.prefixes t
  bound : ∀ t ∈ X.σ.toks, t < F.ntoks
  all : ∀ t, front ≤ t → t < F.ntoks → t ∈ X.σ.toks
  lt : front < F.ntoks
  single : once = true ∨ Single X.σ
  stamps : ∀ s ∈ X.stamps, s < front
  shape : ∃ pre, after X.σ.toks X.pos = pre ++ List.range' front (F.ntoks - front) ∧ (∀ t ∈ pre, t < front) ∧
    (X.um = some front ∨ X.um = none ∧ pre = [])
  flags : ∀ t ∈ X.σ.toks, X.σ.flag t = true → front ≤ t ∧ (once = false → X.um = some front → front < t)
  played : play 0 X.evs = ((List.range front).map (item F.final),
    if X.um = none then (if X.σ.flag front then 1 else 0) else 1)

theorem range'_head {front n : Nat} (h : front < n) :
    List.range' front (n - front) = front :: List.range' (front + 1) (n - (front + 1)) := by
  have : n - front = (n - (front + 1)) + 1 := by omega
  rw [this, List.range'_succ]

/-- What is emitted of the tokens left: nothing is shown of those parsed again. -/
theorem emit_step {once : Bool} {F : File} {front : Nat} {X : BRun} (h : BInv once F front X) {k : Nat}
    (hk : k < (after X.σ.toks X.pos).length)
    (hun : ∀ t ∈ (after X.σ.toks X.pos).take k, X.σ.flag t = false) :
    ∃ front' pre, front ≤ front' ∧ front' < F.ntoks ∧
      (after X.σ.toks X.pos).drop k = pre ++ List.range' front' (F.ntoks - front') ∧ (∀ t ∈ pre, t < front') ∧
      ((emit once X.σ X.um (after X.σ.toks X.pos) k).2 = some front ∧ X.um = some front ∧ front' = front ∨
        (emit once X.σ X.um (after X.σ.toks X.pos) k).2 = none ∧ pre = []) ∧
      (∀ t ∈ X.σ.toks, X.σ.flag t = true → front' ≤ t) ∧
      (∀ t ∈ (after X.σ.toks X.pos).take k, t < front') ∧
      play 0 (X.evs ++ (emit once X.σ X.um (after X.σ.toks X.pos) k).1) = ((List.range front').map (item F.final),
        if (emit once X.σ X.um (after X.σ.toks X.pos) k).2 = none then (if X.σ.flag front' then 1 else 0) else 1) := by
  obtain ⟨pre, hsh, hpre, hum⟩ := h.shape
  have hfn := h.lt
  have hrl : (after X.σ.toks X.pos).length = pre.length + (F.ntoks - front) := by rw [hsh]; simp
  -- tokens from front on
  have htail : ∀ j, j ≤ F.ntoks - front →
      (List.range front).map (item F.final) ++ ((List.range' front (F.ntoks - front)).take j).map (item X.σ) =
        (List.range (front + j)).map (item F.final) := by
    intro j hj
    have e1 : (List.range' front (F.ntoks - front)).take j = List.range' front j := by
      exact List.take_range'_of_length_ge hj
    have e2 : (List.range' front j).map (item X.σ) = (List.range' front j).map (item F.final) := by
      apply List.map_congr_left
      intro t ht
      have ht := List.mem_range'_1.1 ht
      unfold item
      rw [h.dirs t (h.all t ht.1 (by omega))]
    rw [e1, e2, ← List.map_append]
    congr 1
    rw [List.range_eq_range', List.range_eq_range']
    simpa using List.range'_append_1 (s := 0) (m := front) (n := j)
  have hdrop : ∀ j, j ≤ F.ntoks - front → (List.range' front (F.ntoks - front)).drop j =
      List.range' (front + j) (F.ntoks - (front + j)) := by
    intro j hj
    rw [List.drop_range']
    congr 1
    · omega
    · omega
  have hmt : ∀ j, front + j < F.ntoks →
      mt X.σ (List.range' (front + j) (F.ntoks - (front + j))) = if X.σ.flag (front + j) then 1 else 0 := by
    intro j hj
    rw [range'_head hj]
    rfl
  have htake : ∀ j, j ≤ F.ntoks - front → ∀ t ∈ (List.range' front (F.ntoks - front)).take j, front ≤ t ∧ t < front + j := by
    intro j hj t ht
    rw [List.take_range'_of_length_ge hj] at ht
    have := List.mem_range'_1.1 ht
    omega
  have hflag : ∀ j, j ≤ F.ntoks - front →
      (∀ t ∈ (List.range' front (F.ntoks - front)).take j, X.σ.flag t = false) →
      ∀ t ∈ X.σ.toks, X.σ.flag t = true → front + j ≤ t := by
    intro j hj hu t ht hf
    have h1 := (h.flags t ht hf).1
    apply Classical.byContradiction
    intro hlt
    have hm : t ∈ (List.range' front (F.ntoks - front)).take j := by
      rw [List.take_range'_of_length_ge hj, List.mem_range'_1]
      omega
    rw [hu t hm] at hf
    cases hf
  rcases hum with hum | ⟨hum, rfl⟩
  · -- tokens are parsed again
    have hnf : once = true ∨ X.σ.flag front = false := by
      cases ho : once with
      | true => exact Or.inl rfl
      | false =>
        refine Or.inr ?_
        cases hf : X.σ.flag front with
        | false => rfl
        | true =>
          have := (h.flags front (h.all front (Nat.le_refl _) hfn) hf).2 ho hum
          omega
    have hpn : ∀ t ∈ pre, t ≠ front ∧ X.σ.flag t = false := by
      intro t ht
      have hlt := hpre t ht
      refine ⟨by omega, ?_⟩
      cases hf : X.σ.flag t with
      | false => rfl
      | true =>
        have hm : t ∈ X.σ.toks := after_mem (pos := X.pos) (by rw [hsh]; simp [ht])
        have := (h.flags t hm hf).1
        omega
    have hsh2 : after X.σ.toks X.pos = pre ++ front :: List.range' (front + 1) (F.ntoks - (front + 1)) := by
      rw [hsh, range'_head hfn]
    have he := emit_some once X.σ front (List.range' (front + 1) (F.ntoks - (front + 1))) hnf k pre hpn
      (by rw [← hsh2]; exact hun)
    rw [← hsh2] at he
    rw [← range'_head hfn] at he
    have hp1 := h.played
    rw [if_neg (by rw [hum]; simp)] at hp1
    rw [hum]
    by_cases hkp : k ≤ pre.length
    · rw [if_pos hkp] at he
      refine ⟨front, pre.drop k, Nat.le_refl _, hfn, ?_, ?_, Or.inl ⟨he.2, rfl, rfl⟩, ?_, ?_, ?_⟩
      · rw [hsh, List.drop_append_of_le_length hkp]
      · intro t ht; exact hpre t (List.mem_of_mem_drop ht)
      · intro t ht hf; exact (h.flags t ht hf).1
      · intro t ht
        rw [hsh, List.take_append_of_le_length hkp] at ht
        exact hpre t (List.mem_of_mem_take ht)
      · rw [play_append, hp1, he.1, if_neg (by rw [he.2]; simp)]
        simp
    · rw [if_neg hkp] at he
      have hj : k - pre.length ≤ F.ntoks - front := by omega
      have hj2 : front + (k - pre.length) < F.ntoks := by omega
      have hsplit : (after X.σ.toks X.pos).take k =
          pre ++ (List.range' front (F.ntoks - front)).take (k - pre.length) := by
        rw [hsh, List.take_append, List.take_of_length_le (by omega)]
      refine ⟨front + (k - pre.length), [], by omega, hj2, ?_, by simp, Or.inr ⟨he.2, rfl⟩, ?_, ?_, ?_⟩
      · rw [hsh, List.drop_append, List.drop_of_length_le (by omega), hdrop _ hj]
      · refine hflag _ hj ?_
        intro t ht
        exact hun t (by rw [hsplit]; exact List.mem_append_right _ ht)
      · intro t ht
        rw [hsplit] at ht
        rcases List.mem_append.1 ht with ht | ht
        · have := hpre t ht; omega
        · exact (htake _ hj t ht).2
      · rw [play_append, hp1, he.1, if_pos he.2, hdrop _ hj, hmt _ hj2]
        simp only
        rw [htail _ hj]
  · rw [List.nil_append] at hsh
    have hj : k ≤ F.ntoks - front := by rw [hsh] at hk; simp at hk; omega
    have hj2 : front + k < F.ntoks := by rw [hsh] at hk; simp at hk; omega
    have he := emit_none once X.σ k (List.range' front (F.ntoks - front)) (by rw [← hsh]; exact hun)
    have hm0 := hmt 0 hfn
    rw [Nat.add_zero] at hm0
    have hp1 := h.played
    rw [if_pos hum, ← hm0] at hp1
    rw [hum, hsh]
    refine ⟨front + k, [], by omega, hj2, ?_, by simp, Or.inr ⟨he.2, rfl⟩, ?_, ?_, ?_⟩
    · rw [hdrop _ hj]; rfl
    · refine hflag _ hj ?_
      intro t ht
      exact hun t (by rw [hsh]; exact ht)
    · intro t ht
      exact (htake _ hj t ht).2
    · rw [play_append, hp1, he.1, if_pos he.2, hdrop _ hj, hmt _ hj2]
      simp only
      rw [htail _ hj]

/-- At the end of the file. -/
theorem bfinish {once : Bool} {F : File} {front e : Nat} {X : BRun} (h : BInv once F front X) (hr : after X.σ.toks X.pos = [e])
    (hf : X.σ.flag e = false) :
    shown (X.evs ++ if X.σ.prefixes e = [] then [] else (emit once X.σ X.um [e] 1).1) = allOf F := by
  obtain ⟨pre, hsh, hpre, hum⟩ := h.shape
  have hfn := h.lt
  rw [hr, range'_head hfn] at hsh
  have hpn : pre = [] := by
    cases pre with
    | nil => rfl
    | cons a pre => simp at hsh
  subst hpn
  rw [List.nil_append] at hsh
  obtain ⟨rfl, htl⟩ := List.cons.inj hsh
  have hlast : F.ntoks = e + 1 := by
    have := congrArg List.length htl
    simp at this
    omega
  have hem : e ∈ X.σ.toks := h.all e (Nat.le_refl _) hfn
  have hall : allOf F = (List.range e).map (item F.final) ++
      if X.σ.prefixes e = [] then [] else [item F.final e] := by
    have hp : F.final.prefixes = F.init.prefixes := (read_spec F).2.2.1
    have hi : ∀ t, ((List.range F.n).filter (fun i => F.owner i = t), t) = item F.final t := by
      intro t
      unfold item
      rw [hp]
      rfl
    unfold allOf
    simp only [hi]
    rw [hlast, List.range_succ, List.map_append, List.filter_append]
    congr 1
    · rw [List.filter_eq_self]
      intro p hp
      obtain ⟨t, ht, rfl⟩ := List.mem_map.1 hp
      have := List.mem_range.1 ht
      simp [item]
      right; omega
    · rw [h.dirs e hem]
      by_cases h0 : F.final.prefixes e = [] <;> simp [item, h0]
  rw [hall]
  unfold shown
  have hp1 := h.played
  by_cases h0 : X.σ.prefixes e = []
  · rw [if_pos h0, if_pos h0, List.append_nil, List.append_nil, hp1]
  · rw [if_neg h0, if_neg h0, play_append, hp1]
    have hd := h.dirs e hem
    rcases hum with hum | ⟨hum, _⟩
    · rw [if_neg (by rw [hum]; simp), hum]
      simp [emit, offNext, play, item, hd]
    · rw [if_pos hum, hum, hf]
      simp [emit, offNext, play, item, hd]

/-- One round: either the end of the file is reached with everything printed, or there is less to do. -/
theorem bround_step {once : Bool} {F : File} {front : Nat} {X : BRun} {root : BRoot} (hroot : BRoot.Ok root)
    (h : BInv once F front X) :
    (∃ evs, bround once root X = .inr (some evs) ∧ shown evs = allOf F) ∨
    ∃ X' front', bround once root X = .inl X' ∧ BInv once F front' X' ∧
      X'.σ.toks.length * (F.ntoks + 1) + (after X'.σ.toks X'.pos).length <
        X.σ.toks.length * (F.ntoks + 1) + (after X.σ.toks X.pos).length := by
  obtain ⟨pre, hsh, hpre, hum⟩ := h.shape
  have hfn := h.lt
  cases hrest : after X.σ.toks X.pos with
  | nil =>
    rw [hrest, range'_head hfn] at hsh
    simp at hsh
  | cons e tl =>
  by_cases hend : tl = [] ∧ X.σ.flag e = false
  · left
    refine ⟨_, ?_, bfinish h (by rw [hrest, hend.1]) hend.2⟩
    unfold bround
    rw [hrest]
    dsimp only
    rw [if_pos hend]
  · right
    cases hr : root X.σ X.pos with
    | mk r k =>
    have hcall : ∀ u, after X.σ.toks X.pos = [u] → X.σ.flag u = true := by
      intro u hu
      rw [hrest] at hu
      obtain ⟨rfl, rfl⟩ := List.cons.inj hu
      cases hfu : X.σ.flag e with
      | true => rfl
      | false => exact absurd ⟨rfl, hfu⟩ hend
    obtain ⟨hnf, hun, hgood, hbr⟩ := hroot _ _ _ _ hcall (by rw [hrest]; simp) hr
    cases r with
    | fail => exact absurd rfl hnf
    | good =>
      obtain ⟨hk0, hk⟩ := hgood rfl
      obtain ⟨front', pre', hle, hfn', hdr, hpre', hum', hfl, htk, hpl⟩ := emit_step h hk hun
      obtain ⟨s, hs1, hs2⟩ := after_take h.good.toks hk0 hk
      refine ⟨{ X with pos := some s, stamps := s :: X.stamps, um := (emit once X.σ X.um (e :: tl) k).2,
                       evs := X.evs ++ (emit once X.σ X.um (e :: tl) k).1 }, front', ?_, ?_, ?_⟩
      · unfold bround
        rw [hrest]
        dsimp only
        rw [if_neg hend, hr]
        dsimp only
        rw [← hrest, hs1]
        rfl
      · rw [← hrest]
        refine ⟨h.good, h.dirs, h.bound, fun t h1 h2 => h.all t (by omega) h2, hfn', h.single, ?_, ?_, ?_, hpl⟩
        · intro u hu
          rcases List.mem_cons.1 hu with e | e
          · rw [e]
            exact htk s (List.mem_of_getLast? hs1)
          · have := h.stamps u e; omega
        · refine ⟨pre', hs2.trans hdr, hpre', ?_⟩
          rcases hum' with ⟨g1, _, g3⟩ | g
          · exact Or.inl (by rw [g3]; exact g1)
          · exact Or.inr g
        · intro t ht hf
          refine ⟨hfl t ht hf, ?_⟩
          intro ho hu
          rcases hum' with ⟨_, g2, g3⟩ | ⟨g1, _⟩
          · rw [g3]; exact (h.flags t ht hf).2 ho g2
          · have hu' : (emit once X.σ X.um (after X.σ.toks X.pos) k).2 = some front' := hu
            rw [g1] at hu'; cases hu'
      · have : after X.σ.toks (some s) = (e :: tl).drop k := by rw [hs2, hrest]
        show X.σ.toks.length * (F.ntoks + 1) + (after X.σ.toks (some s)).length < _
        rw [this, List.length_drop]
        rw [hrest] at hk
        omega
    | brch =>
      obtain ⟨back, hback, hbf⟩ := hbr rfl
      have hk : k < (after X.σ.toks X.pos).length := by
        rcases Nat.lt_or_ge k (after X.σ.toks X.pos).length with h1 | h1
        · exact h1
        · rw [List.getElem?_eq_none h1] at hback; cases hback
      obtain ⟨front', pre', hle, hfn', hdr, hpre', hum', hfl, htk, hpl⟩ := emit_step h hk hun
      have hbm : back ∈ X.σ.toks := after_mem (pos := X.pos) (List.mem_of_getElem? hback)
      have hbd : ((after X.σ.toks X.pos).drop k).head? = some back := by
        rw [List.head?_drop, hback]
      -- the alternative starts where nothing is printed yet
      have hb0 : back = front' := by
        have hge := hfl back hbm hbf
        rw [hdr] at hbd
        cases pre' with
        | cons a pre' =>
          simp at hbd
          have := hpre' a (by simp)
          omega
        | nil =>
          rw [List.nil_append, range'_head hfn'] at hbd
          have hbe : front' = back := by simpa using hbd
          exact hbe.symm
      subst hb0
      simp only [hbf, if_true, ite_self] at hpl
      obtain ⟨σ', hb1, hb2, hb3, hb4, hb5, hb6, hb7⟩ := branch_starts h.good hfl hbf
      have hbound' : ∀ t ∈ σ'.toks, t < F.ntoks := fun t ht => h.bound t (hb6 t ht).1
      have hall' : ∀ t, back ≤ t → t < F.ntoks → t ∈ σ'.toks :=
        fun t h1 h2 => hb7 t (h.all t (by omega) h2) h1
      obtain ⟨A, hA, hAlt⟩ := sorted_split hb3.toks hbound' hall'
      have hseek : ∀ s, lastStamped σ' X.stamps = some s → s ∈ A := by
        intro s hs
        have h1 : s ∈ σ'.toks := by simpa using List.find?_some hs
        have h2 := h.stamps s (List.mem_of_find?_eq_some hs)
        rw [hA] at h1
        rcases List.mem_append.1 h1 with h3 | h3
        · exact h3
        · have := List.mem_range'_1.1 h3
          omega
      have haft : after σ'.toks (lastStamped σ' X.stamps) =
          after A (lastStamped σ' X.stamps) ++ List.range' back (F.ntoks - back) := by
        rw [hA, after_append hseek]
      have hne : after σ'.toks (lastStamped σ' X.stamps) ≠ [] := by
        rw [haft, range'_head hfn']
        simp
      refine ⟨{ σ := σ', pos := lastStamped σ' X.stamps, stamps := X.stamps, um := some back,
                evs := X.evs ++ (emit once X.σ X.um (e :: tl) k).1 }, back, ?_, ?_, ?_⟩
      · have hback' : (e :: tl)[k]? = some back := by rw [← hrest]; exact hback
        unfold bround
        rw [hrest]
        dsimp only
        rw [if_neg hend, hr]
        dsimp only
        rw [hback']
        dsimp only
        rw [hb1]
        dsimp only
        rw [if_neg hne]
      · rw [← hrest]
        refine ⟨hb3, ?_, hbound', hall', hfn', h.single.imp id hb5, ?_, ?_, ?_, ?_⟩
        · intro t ht
          rw [(hb6 t ht).2.1]
          exact h.dirs t (hb6 t ht).1
        · intro s hs
          have := h.stamps s hs
          omega
        · exact ⟨_, haft, fun t ht => hAlt t (after_mem ht), Or.inl rfl⟩
        · intro t ht hf
          have := (hb6 t ht).2.2 hf
          refine ⟨this.1, fun ho _ => this.2 (h.single.resolve_left ?_)⟩
          rw [ho]; simp
        · show play 0 (X.evs ++ _) = _
          rw [hpl]
          simp
      · show σ'.toks.length * (F.ntoks + 1) + (after σ'.toks (lastStamped σ' X.stamps)).length < _
        have h1 : (after σ'.toks (lastStamped σ' X.stamps)).length ≤ σ'.toks.length := by
          obtain ⟨p, hp⟩ := after_suffix σ'.toks (lastStamped σ' X.stamps)
          have := congrArg List.length hp
          rw [List.length_append] at this
          omega
        have h2 := sorted_length hb3.toks hbound'
        have h3 : (σ'.toks.length + 1) * (F.ntoks + 1) ≤ X.σ.toks.length * (F.ntoks + 1) :=
          Nat.mul_le_mul_right _ hb4
        rw [Nat.add_mul] at h3
        simp only [List.length_cons]
        omega

theorem bstart_inv {once : Bool} {F : File} (hF : FileOk F) (hS : once = true ∨ Single F.final) : BInv once F 0 (bstart F) := by
  have hg := read_good F hF.owner hF.sorted
  have ht : F.final.toks = List.range F.ntoks := (read_spec F).2.2.2.1
  have hmem : ∀ t, t ∈ F.final.toks ↔ t < F.ntoks := by intro t; rw [ht]; simp
  have h0 : F.final.flag 0 = false := by
    cases hf : F.final.flag 0 with
    | false => rfl
    | true =>
      obtain ⟨i, hi⟩ := (hg.wf.flags 0).1 hf
      have hi' : Starts F.final 0 i := hi
      obtain ⟨a, p, b, hb, hc, hoi, hop⟩ := Starts.linked hg.wf hi'
      have hpi : p < i := by
        have hsort := hc.2.1
        have := (List.pairwise_append.1 hsort).2.1
        exact (List.pairwise_cons.1 this).1 i (by simp)
      have := hg.ordered p i (Nat.le_of_lt hpi) (Linked.ne_plain hc (by simp)) (Linked.ne_plain hc (by simp))
      omega
  refine ⟨hg, fun _ _ => rfl, fun t h => (hmem t).1 h, fun t _ h => (hmem t).2 h, hF.eof, hS, ?_, ?_, ?_, ?_⟩
  · intro s hs; cases hs
  · refine ⟨[], ?_, by simp, Or.inr ⟨rfl, rfl⟩⟩
    show F.final.toks = [] ++ _
    rw [ht, List.range_eq_range']
    rfl
  · intro t _ _
    exact ⟨Nat.zero_le _, fun _ hu => by cases hu⟩
  · show ([], 0) = (([] : List (List Nat × Nat)), if (none : Option Nat) = none then (if F.final.flag 0 then 1 else 0) else 1)
    rw [h0]
    rfl

theorem bexec_all {once : Bool} (F : File) (hF : FileOk F) (hS : once = true ∨ Single F.final) (root : BRoot)
    (hroot : BRoot.Ok root) : ∃ evs,
      bexec once root (F.ntoks * F.ntoks + 2 * F.ntoks + 1) (bstart F) = some (some evs) ∧ shown evs = allOf F := by
  have key : ∀ fuel {X : BRun} {front : Nat}, BInv once F front X →
      X.σ.toks.length * (F.ntoks + 1) + (after X.σ.toks X.pos).length < fuel →
      ∃ evs, bexec once root fuel X = some (some evs) ∧ shown evs = allOf F := by
    intro fuel
    induction fuel with
    | zero => intro X front _ h; omega
    | succ fuel ih =>
      intro X front hI hm
      rw [bexec]
      rcases bround_step hroot hI with ⟨evs, h1, h2⟩ | ⟨X', front', h1, h2, h3⟩
      · rw [h1]
        exact ⟨evs, rfl, h2⟩
      · rw [h1]
        exact ih h2 (by omega)
  refine key _ (bstart_inv hF hS) ?_
  have ht : F.final.toks = List.range F.ntoks := (read_spec F).2.2.2.1
  show F.final.toks.length * (F.ntoks + 1) + F.final.toks.length < _
  rw [ht, List.length_range, Nat.mul_add]
  omega

/-- **C76 (partial).** If the parser never fails, it gets to the end of the file, and every token is printed
once, in order and with the directives in front of it, whatever alternative it is part of. Missing: files with a
token that starts alternatives of two conditionals at once, see `alternatives_lost`, and failures of the parser,
see C75. -/
theorem alternatives_printed_partial (F : File) (hF : FileOk F) (hS : Single F.final) (root : BRoot)
    (hroot : BRoot.Ok root) : ∃ evs,
      bexec false root (F.ntoks * F.ntoks + 2 * F.ntoks + 1) (bstart F) = some (some evs) ∧
      shown evs = allOf F :=
  bexec_all F hF (Or.inr hS) root hroot

/-- **C76 with a correction.** If `parser_doc_token` did not mute documents that are muted already, this would be
so for all files. -/
theorem alternatives_printed_corrected (F : File) (hF : FileOk F) (root : BRoot)
    (hroot : BRoot.Ok root) : ∃ evs,
      bexec true root (F.ntoks * F.ntoks + 2 * F.ntoks + 1) (bstart F) = some (some evs) ∧
      shown evs = allOf F :=
  bexec_all F hF (Or.inl rfl) root hroot

end Knfmt.Branch

namespace Knfmt.Branch

open Knfmt.Spec

/-- Up to and including the next of the tokens that end a declaration, unless an alternative starts before. -/
def stopAt (σ : St) (semi : Nat → Bool) : List Nat → Outcome × Nat
  | [] => (.good, 0)
  | t :: ts =>
    if σ.flag t then (.brch, 0)
    else if ts = [] then (.good, 0)
    else if semi t then (.good, 1)
    else ((stopAt σ semi ts).1, (stopAt σ semi ts).2 + 1)

/-- A parser that accepts everything up to a semicolon. -/
def semiRoot (semi : Nat → Bool) : BRoot := fun σ pos => stopAt σ semi (after σ.toks pos)

theorem stopAt_spec (σ : St) (semi : Nat → Bool) : ∀ (l : List Nat), l ≠ [] →
    (stopAt σ semi l).1 ≠ .fail ∧ (∀ t ∈ l.take (stopAt σ semi l).2, σ.flag t = false) ∧
    ((stopAt σ semi l).1 = .good → (stopAt σ semi l).2 < l.length ∧ (1 < l.length → 0 < (stopAt σ semi l).2) ∧
      (∀ e, l = [e] → σ.flag e = false)) ∧
    ((stopAt σ semi l).1 = .brch → ∃ t, l[(stopAt σ semi l).2]? = some t ∧ σ.flag t = true) := by
  intro l
  induction l with
  | nil => intro h; exact absurd rfl h
  | cons t ts ih =>
    intro _
    unfold stopAt
    by_cases h1 : σ.flag t = true
    · simp [h1]
    · rw [if_neg h1]
      have h1' : σ.flag t = false := by simpa using h1
      by_cases h2 : ts = []
      · subst h2
        simp [h1']
      · rw [if_neg h2]
        have hl : 0 < ts.length := List.length_pos_iff.2 h2
        by_cases h3 : semi t = true
        · rw [if_pos h3]
          simp [h1', h2]
          omega
        · rw [if_neg h3]
          obtain ⟨g1, g2, g3, g4⟩ := ih h2
          refine ⟨g1, ?_, ?_, ?_⟩
          · intro u hu
            rcases List.mem_cons.1 (by simpa using hu : u ∈ t :: ts.take (stopAt σ semi ts).2) with e | e
            · rw [e]; exact h1'
            · exact g2 u e
          · intro hg
            obtain ⟨g5, _⟩ := g3 hg
            refine ⟨by simp; omega, fun _ => by simp, ?_⟩
            intro e he
            exact absurd (List.cons.inj he).2 h2
          · intro hb
            obtain ⟨u, g5, g6⟩ := g4 hb
            exact ⟨u, by simpa using g5, g6⟩

/-- It is one the theorem is about. -/
theorem semiRoot_ok (semi : Nat → Bool) : BRoot.Ok (semiRoot semi) := by
  intro σ pos r k hcall hne h
  unfold semiRoot at h
  obtain ⟨g1, g2, g3, g4⟩ := stopAt_spec σ semi _ hne
  rw [h] at g1 g2 g3 g4
  refine ⟨g1, g2, ?_, g4⟩
  intro hr
  obtain ⟨g5, g6, g7⟩ := g3 hr
  refine ⟨g6 ?_, g5⟩
  apply Classical.byContradiction
  intro hlt
  have hl : (after σ.toks pos).length = 1 := by
    have := List.length_pos_iff.2 hne
    omega
  obtain ⟨e, he⟩ := List.length_eq_one_iff.1 hl
  have h1 := hcall e he
  rw [g7 e he] at h1
  cases h1

/-- The file

    int x =
    #if A
    1
    #elif B
    2
    #else
    3
    #endif
    ;
    #if C
    int y;
    #endif
-/
def threeFile : File where
  n := 6
  kind := fun i => match i with | 0 => .cppIf | 1 => .cppElse | 2 => .cppElse | 3 => .cppEndif | 4 => .cppIf | _ => .cppEndif
  owner := fun i => match i with | 0 => 3 | 1 => 4 | 2 => 5 | 3 => 6 | 4 => 7 | _ => 10
  ntoks := 11

theorem threeFile_ok : FileOk threeFile where
  owner := by decide
  sorted := by
    intro i j hij hj
    have hj' : j < 6 := hj
    have : ∀ j < 6, ∀ i < j + 1, threeFile.owner i ≤ threeFile.owner j := by decide
    exact this j hj' i (by omega)
  eof := by decide

theorem threeFile_single : Single threeFile.final := by
  intro t i j hi hj
  have hp : threeFile.final.prefixes = threeFile.init.prefixes := (read_spec threeFile).2.2.1
  have key : ∀ i, i ∈ threeFile.final.prefixes t → i < 6 ∧ threeFile.owner i = t := by
    intro i h
    rw [hp] at h
    have h' : i ∈ (List.range 6).filter (fun i => threeFile.owner i = t) := h
    rw [List.mem_filter, List.mem_range] at h'
    exact ⟨h'.1, by simpa using h'.2⟩
  obtain ⟨h1, h2⟩ := key i hi.1
  obtain ⟨h3, h4⟩ := key j hj.1
  have : ∀ i < 6, ∀ j < 6, threeFile.owner i = threeFile.owner j → i = j := by decide
  exact this i h1 j h3 (h2.trans h4.symm)

/-- The hypotheses of `alternatives_printed_partial` hold for this file. Two alternatives are taken. -/
example : ∃ evs, bexec false (semiRoot (fun t => t = 6 || t = 9)) (11 * 11 + 2 * 11 + 1) (bstart threeFile) = some (some evs) ∧
    shown evs = [([], 0), ([], 1), ([], 2), ([0], 3), ([1], 4), ([2], 5), ([3], 6), ([4], 7), ([], 8), ([], 9),
      ([5], 10)] := by
  obtain ⟨evs, h1, h2⟩ := alternatives_printed_partial threeFile threeFile_ok threeFile_single _ (semiRoot_ok _)
  exact ⟨evs, h1, h2.trans (by decide +kernel)⟩

/-- The file

    int x =
    #if A
    1
    #if B
    + 2
    #else
    #endif
    #else
    3
    #endif
    ;
    int y;
-/
def lostFile : File where
  n := 6
  kind := fun i => match i with | 0 => .cppIf | 1 => .cppIf | 2 => .cppElse | 3 => .cppEndif | 4 => .cppElse | _ => .cppEndif
  owner := fun i => match i with | 0 => 3 | 1 => 4 | 2 => 6 | 3 => 6 | 4 => 6 | _ => 7
  ntoks := 12

theorem lostFile_ok : FileOk lostFile where
  owner := by decide
  sorted := by
    intro i j hij hj
    have hj' : j < 6 := hj
    have : ∀ j < 6, ∀ i < j + 1, lostFile.owner i ≤ lostFile.owner j := by decide
    exact this j hj' i (by omega)
  eof := by decide

/-- **C76 is false of the program.** The token `3` starts an alternative of both conditionals. It is muted twice
and unmuted once: no error is reported, but it and everything after it, `int y;` included, is not printed. -/
theorem alternatives_lost : ∃ evs,
    bexec false (semiRoot (fun t => t = 7 || t = 10)) 20 (bstart lostFile) = some (some evs) ∧
    (shown evs).map (·.2) = [0, 1, 2, 3, 4, 5] ∧ (allOf lostFile).map (·.2) = [0, 1, 2, 3, 4, 5, 6, 7, 8, 9, 10] := by
  have h : (bexec false (semiRoot (fun t => t = 7 || t = 10)) 20 (bstart lostFile)).map
      (fun r => r.map fun evs => (shown evs).map (·.2)) = some (some [0, 1, 2, 3, 4, 5]) := by
    decide +kernel
  match h2 : bexec false (semiRoot (fun t => t = 7 || t = 10)) 20 (bstart lostFile), h with
  | some (some evs), h =>
    simp only [Option.map_some, Option.some.injEq] at h
    exact ⟨evs, rfl, h, by decide +kernel⟩

/-- With the correction it is printed as a whole. -/
example : ∃ evs, bexec true (semiRoot (fun t => t = 7 || t = 10)) (12 * 12 + 2 * 12 + 1) (bstart lostFile) =
    some (some evs) ∧ (shown evs).map (·.2) = [0, 1, 2, 3, 4, 5, 6, 7, 8, 9, 10] := by
  obtain ⟨evs, h1, h2⟩ := alternatives_printed_corrected lostFile lostFile_ok _ (semiRoot_ok _)
  exact ⟨evs, h1, by rw [h2]; decide +kernel⟩

end Knfmt.Branch
