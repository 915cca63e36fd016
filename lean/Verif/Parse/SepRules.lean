import Verif.Parse.StmtProps
/-!
# The parser: white space between tokens

`D G s xs F` says that in state `s`, as long as nothing has been recorded and no error was found, no
token is right after one with which it would be read as one, that the documents `xs` are open at the
end of the document, innermost first, and that a token whose type is in `F` may be added to any of
them without white space. `G` is what is known besides.
-/
namespace Knfmt.Parse.Sep
open Knfmt.Lexer (TT)
open Knfmt.Parse.Spec (near loose opHead opNexts)

/-- Types of tokens that may come next. -/
abbrev Nx := TT → Bool

/-- Any token. -/
abbrev all : Nx := fun _ => true

/-- Nothing is known. -/
abbrev nope : Nx := fun _ => false

/-- What may come after a token. -/
abbrev af (ty : TT) : Nx := fun b => near ty b && decide (ty ≠ .eof)

/-- Tokens that may be written after any other one. -/
def cl : TT → Bool
  | .lparen | .rparen | .lsquare | .rsquare | .lbrace | .rbrace | .semi | .comma | .colon
  | .question | .tilde | .backslash => true
  | _ => false

theorem near_cl {b : TT} (h : cl b = true) (a : TT) : near a b = true := by
  revert a
  cases b <;> first | (cases h; done) | (intro a; cases a <;> rfl)

theorem near_loose {a : TT} (h : loose a = true) (b : TT) : near a b = true := by
  unfold loose at h
  unfold near
  simp only [Bool.or_eq_true, decide_eq_true_eq, Bool.and_eq_true, List.isEmpty_iff] at h
  rcases h with h | ⟨⟨h1, h2⟩, h3⟩
  · subst h
    cases opHead b <;> simp [opNexts]
  · cases opHead b with
    | none => simp [h1, h3]
    | some c =>
      dsimp only
      split
      · rename_i e
        subst e
        cases h1
      · simp [h2]

theorem loose_cl {a : TT} (h : cl a = true) : loose a = true := by
  cases a <;> first | (cases h; done) | rfl

theorem af_cl {a : TT} (h : cl a = true) (b : TT) : af a b = true := by
  simp only [Bool.and_eq_true, decide_eq_true_eq]
  refine ⟨near_loose (loose_cl h) b, ?_⟩
  rintro rfl
  cases h

/-! ## Items -/

theorem last_append {α : Type} {a b : List α} (h : b ≠ []) : (a ++ b).getLast? = b.getLast? := by
  rw [List.getLast?_append]
  cases hb : b.getLast? with
  | none => exact absurd (List.getLast?_eq_none_iff.1 hb) h
  | some x => rfl

theorem items_append (a b : List Ev) : items (a ++ b) = items a ++ items b := by simp [items]

theorem items_cons (x : Ev) (b : List Ev) : items (x :: b) = x.items ++ items b := by simp [items]

/-- Nothing but white space. -/
def Wh (l : List (Option Tok)) : Prop := ∀ x ∈ l, x = none

theorem wh_items {T : List Ev} (h : toks T = []) : Wh (items T) := by
  rw [← solid_items] at h
  intro x hx
  cases x with
  | none => rfl
  | some t =>
    have : t ∈ solid (items T) := by
      simp only [solid, List.mem_filterMap, id]
      exact ⟨_, hx, rfl⟩
    rw [h] at this
    cases this

theorem apart_append : ∀ (a b : List (Option Tok)), apart (a ++ b) = true ↔ apart a = true ∧
    apart b = true ∧ ∀ x y, a.getLast? = some (some x) → b.head? = some (some y) →
      near x.ty y.ty = true
  | [], b => by simp [apart]
  | [x], b => by
    cases b with
    | nil => simp [apart]
    | cons y b =>
      simp only [List.singleton_append, apart, Bool.and_eq_true, List.getLast?_singleton,
        List.head?_cons, Option.some.injEq, true_and]
      rw [and_comm]
      refine and_congr_right fun _ => ?_
      cases x with
      | none => simp
      | some x =>
        cases y with
        | none => simp
        | some y => simp
  | x :: x' :: a, b => by
    have ih := apart_append (x' :: a) b
    simp only [List.cons_append, apart, Bool.and_eq_true] at ih ⊢
    rw [ih, List.getLast?_cons_cons, and_assoc]

/-- What may come after a list. -/
def LastOk (l : List (Option Tok)) (F : Nx) : Prop :=
  ∀ t b, l.getLast? = some (some t) → F b = true → near t.ty b = true

theorem LastOk.wh {l w : List (Option Tok)} {F : Nx} (h : LastOk l F) (hw : Wh w) :
    LastOk (l ++ w) F := by
  intro t b ht
  cases w with
  | nil => rw [List.append_nil] at ht; exact h t b ht
  | cons x w =>
    rw [last_append (by simp)] at ht
    have := hw _ (List.mem_of_getLast? ht)
    cases this

theorem apart_wh {l w : List (Option Tok)} (h : apart l = true) (hw : Wh w) : apart (l ++ w) = true := by
  rw [apart_append]
  have h1 : apart w = true := by
    induction w with
    | nil => rfl
    | cons x w ih =>
      cases w with
      | nil => rfl
      | cons y w =>
        have hx := hw x (by simp)
        subst hx
        simp only [apart, Bool.true_and]
        exact ih fun x hx => hw x (by simp [hx])
  refine ⟨h, h1, fun x y _ hy => ?_⟩
  have := hw _ (List.mem_of_mem_head? hy)
  cases this

/-- White space in between. -/
theorem apart_ins {a b w : List (Option Tok)} (h : apart (a ++ b) = true) (hw : Wh w) :
    apart (a ++ (w ++ b)) = true := by
  obtain ⟨h1, h2, h3⟩ := (apart_append a b).1 h
  cases w with
  | nil => exact h
  | cons x w =>
    have h4 : apart (a ++ x :: w) = true := apart_wh h1 hw
    have e : a ++ (x :: w ++ b) = (a ++ x :: w) ++ b := by simp
    rw [e, apart_append]
    refine ⟨h4, h2, fun x' y hx _ => ?_⟩
    rw [last_append (by simp)] at hx
    have := hw _ (List.mem_of_getLast? hx)
    cases this

/-! ## The state -/

/-- Nothing has been recorded, and no error was found. -/
def okG (s : St) : Prop := s.err = false ∧ s.gh = {} ∧ ∀ t ∈ s.done, t.ty ≠ .eof

/-- The documents `xs` are open at the end of the document. -/
def Stk (L : List Ev) (xs : List Id) (F : Nx) : Prop :=
  ∃ H T, L = H ++ T ∧ toks T = [] ∧ (xs.map Ev.cls).Sublist T ∧ LastOk (items H) F

/-- The state of the document. -/
structure Sp (s : St) (xs : List Id) (F : Nx) : Prop where
  wf : WF s.L s.next
  lay : ∀ i k, Ev.lay i k ∈ s.L → i < s.next
  st : Stk s.L xs F
  good : apart (items s.L) = true

/-- See above. -/
def D (G : Prop) (s : St) (xs : List Id) (F : Nx) : Prop := okG s → G ∧ Sp s xs F

/-- The document is left alone. -/
def Kp (s s' : St) : Prop := s'.L = s.L ∧ s.next ≤ s'.next ∧ (okG s' → okG s)

variable {G : Prop} {s s' : St} {xs ys bs : List Id} {d : Id} {F F' : Nx} {α β : Type} {Q : β → St → Prop}

theorem D.step (h : D G s xs F) (ho : okG s' → okG s) (hs : okG s' → Sp s xs F → Sp s' ys F') :
    D G s' ys F' := fun o => ⟨(h (ho o)).1, hs o (h (ho o)).2⟩

theorem D.stepG (h : D G s xs F) (ho : okG s' → okG s) (hs : okG s' → G → Sp s xs F → Sp s' ys F') :
    D G s' ys F' := fun o => ⟨(h (ho o)).1, hs o (h (ho o)).1 (h (ho o)).2⟩

theorem D.err (h : s.err = true) : D G s xs F := fun o => by
  have := o.1
  rw [h] at this
  cases this

theorem D.err' : D G { s with err := true } xs F := D.err rfl

theorem Stk.sub {L : List Ev} (h : Stk L xs F) (hs : ys.Sublist xs) : Stk L ys F := by
  obtain ⟨H, T, h1, h2, h3, h4⟩ := h
  exact ⟨H, T, h1, h2, (hs.map _).trans h3, h4⟩

theorem Stk.mono {L : List Ev} (h : Stk L xs F) (hF : ∀ b, F' b = true → F b = true) : Stk L xs F' := by
  obtain ⟨H, T, h1, h2, h3, h4⟩ := h
  exact ⟨H, T, h1, h2, h3, fun t b ht hb => h4 t b ht (hF b hb)⟩

theorem Sp.sub (h : Sp s xs F) (hs : ys.Sublist xs) : Sp s ys F := ⟨h.wf, h.lay, h.st.sub hs, h.good⟩

theorem Sp.mono (h : Sp s xs F) (hF : ∀ b, F' b = true → F b = true) : Sp s xs F' :=
  ⟨h.wf, h.lay, h.st.mono hF, h.good⟩

theorem D.sub (h : D G s xs F) (hs : ys.Sublist xs) : D G s ys F :=
  h.step id fun _ h => h.sub hs

theorem D.mono (h : D G s xs F) (hF : ∀ b, F' b = true → F b = true) : D G s xs F' :=
  h.step id fun _ h => h.mono hF

theorem D.monoG (h : D G s xs F) (hF : G → ∀ b, F' b = true → F b = true) : D G s xs F' :=
  h.stepG id fun _ g h => h.mono (hF g)

theorem D.no (h : D G s xs F) : D G s xs nope := h.mono fun _ e => by cases e

theorem D.cl {a : TT} (h : D G s xs (af a)) (ha : cl a = true) : D G s xs all :=
  h.mono fun b _ => af_cl ha b

/-- Another fact. -/
theorem D.fact {G' : Prop} (h : D G s xs F) (hg : okG s → G → G') : D G' s xs F :=
  fun o => ⟨hg o (h o).1, (h o).2⟩

theorem Sp.kp (h : Sp s xs F) (k : Kp s s') : Sp s' xs F := by
  obtain ⟨e, hn, _⟩ := k
  exact ⟨by rw [e]; exact h.wf.mono hn, by rw [e]; exact fun i k' hi => Nat.lt_of_lt_of_le (h.lay i k' hi) hn,
    by rw [e]; exact h.st, by rw [e]; exact h.good⟩

theorem D.kp (h : D G s xs F) (k : Kp s s') : D G s' xs F := h.step k.2.2 fun _ h => h.kp k

theorem Kp.refl (s : St) : Kp s s := ⟨rfl, Nat.le_refl _, id⟩

theorem Kp.trans {s2 : St} (h : Kp s s') (h' : Kp s' s2) : Kp s s2 :=
  ⟨h'.1.trans h.1, Nat.le_trans h.2.1 h'.2.1, fun o => h.2.2 (h'.2.2 o)⟩

theorem Kp.err (h : Kp s s') : Kp s { s' with err := true } :=
  ⟨h.1, h.2.1, fun o => by cases o.1⟩

/-! ## Documents -/

theorem Stk.split {L : List Ev} (hn : (closes L).Nodup) (h : Stk L (d :: bs) F) :
    ∃ A B, L = A ++ .cls d :: B ∧ Ev.cls d ∉ A ∧ toks B = [] ∧ (bs.map Ev.cls).Sublist B ∧
      LastOk (items A) F := by
  obtain ⟨H, T, h1, h2, h3, h7⟩ := h
  subst h1
  have hd : Ev.cls d ∈ T := h3.subset (by simp)
  obtain ⟨A, B, h4, h5⟩ := split_at hd
  subst h4
  have h6 := not_mem_of_nodup hn hd
  rw [toks_append, toks_cons] at h2
  simp only [List.append_eq_nil_iff] at h2
  refine ⟨H ++ A, B, by simp, by simp [h5, h6], h2.2.2, ?_, ?_⟩
  · clear hn h2 h6 hd h7
    rw [List.map_cons] at h3
    induction A with
    | nil =>
      cases h3 with
      | cons _ h => exact (List.sublist_cons_self _ _).trans h
      | cons_cons _ h => exact h
    | cons x A ih =>
      simp only [List.mem_cons, not_or] at h5
      cases h3 with
      | cons _ h => exact ih h5.2 h
      | cons_cons _ h => exact absurd rfl h5.1
  · rw [items_append]
    exact h7.wh (wh_items h2.1)

/-- Something is added at the end of document `d`. -/
theorem Sp.put {e : Ev} {n : Id} (h : Sp s xs F) (hs : (d :: bs).Sublist xs) (hn : s.next ≤ n)
    (hc : closes [e] = []) (ho : opens [e] = []) (hl : ∀ i k, e = .lay i k → i < n)
    (hg : s'.L = ins d [e] s.L) (hn' : s'.next = n)
    (ha : ∀ A : List (Option Tok), apart A = true → LastOk A F →
      apart (A ++ e.items) = true ∧ LastOk (A ++ e.items) F') : Sp s' (d :: bs) F' := by
  have hL : ∀ i k, Ev.lay i k ∈ ins d [e] s.L → i < n := by
    intro i k hi
    have : Ev.lay i k = e ∨ Ev.lay i k ∈ s.L := by
      by_cases hd : Ev.cls d ∈ s.L
      · obtain ⟨A, B, h1, h2⟩ := split_at hd
        rw [h1] at hi ⊢
        rw [ins_at h2] at hi
        simp only [List.mem_append, List.mem_cons, List.not_mem_nil, or_false] at hi ⊢
        rcases hi with hi | hi | hi
        · exact .inr (.inl hi)
        · exact .inl hi
        · exact .inr (.inr hi)
      · rw [ins_not_mem hd] at hi
        exact .inr hi
    rcases this with h' | h'
    · exact hl i k h'.symm
    · exact Nat.lt_of_lt_of_le (h.lay i k h') hn
  obtain ⟨A, B, h1, h2, h3, h4, h5⟩ := (h.st.sub hs).split h.wf.nodup
  have e1 : ins d [e] s.L = (A ++ [e]) ++ .cls d :: B := by rw [h1, ins_at h2]; simp
  have hg' : apart (items A) = true := by
    have := h.good
    rw [h1, items_append, apart_append] at this
    exact this.1
  have e2 : items (A ++ [e]) = items A ++ e.items := by rw [items_append, items_cons]; simp [items]
  have h6 := ha (items A) hg' h5
  have hT : toks (Ev.cls d :: B) = [] := by rw [toks_cons, h3]; rfl
  refine ⟨?_, ?_, ?_, ?_⟩
  · rw [hg, hn']
    exact h.wf.ins d hn (by simp [hc]) (by simp [hc]) (by simp [ho])
  · rw [hg, hn']
    exact hL
  · rw [hg, e1]
    refine ⟨_, _, rfl, hT, h4.cons_cons _, ?_⟩
    rw [e2]
    exact h6.2
  · rw [hg, e1, items_append, e2]
    exact apart_wh h6.1 (wh_items hT)

/-- White space or nothing is added somewhere. -/
theorem Sp.keep {e : List Ev} {n : Id} (h : Sp s xs F) (hn : s.next ≤ n)
    (hc : (closes e).Nodup) (hc' : ∀ x ∈ closes e, s.next ≤ x ∧ x < n) (ho : ∀ x ∈ opens e, x < n)
    (hl : ∀ i k, Ev.lay i k ∈ e → i < n) (ht : toks e = [])
    (hg : s'.L = ins d e s.L) (hn' : s'.next = n) : Sp s' xs F := by
  have hw := wh_items ht
  have ht : ∀ T : List Ev, toks (ins d e T) = toks T := by
    intro T
    induction T with
    | nil => rfl
    | cons x T ih =>
      rw [ins]
      split
      · rw [toks_append, ht]; rfl
      · rw [toks_cons, toks_cons, ih]
  refine ⟨?_, ?_, ?_, ?_⟩
  · rw [hg, hn']
    exact h.wf.ins d hn hc hc' ho
  · rw [hg, hn']
    intro i k hi
    have : Ev.lay i k ∈ e ∨ Ev.lay i k ∈ s.L := by
      by_cases hd : Ev.cls d ∈ s.L
      · obtain ⟨A, B, h1, h2⟩ := split_at hd
        rw [h1] at hi ⊢
        rw [ins_at h2] at hi
        simp only [List.mem_append, List.mem_cons, List.not_mem_nil, or_false] at hi ⊢
        rcases hi with hi | hi | hi
        · exact .inr (.inl hi)
        · exact .inl hi
        · exact .inr (.inr hi)
      · rw [ins_not_mem hd] at hi
        exact .inr hi
    rcases this with h' | h'
    · exact hl i k h'
    · exact Nat.lt_of_lt_of_le (h.lay i k h') hn
  · rw [hg]
    obtain ⟨H, T, h1, h2, h3, h4⟩ := h.st
    rw [h1]
    by_cases hd : Ev.cls d ∈ H
    · refine ⟨_, T, ins_append_left hd, h2, h3, ?_⟩
      obtain ⟨A, B, e1, e2⟩ := split_at hd
      rw [e1] at h4 ⊢
      rw [ins_at e2]
      simp only [items_append, items_cons, Ev.items, List.nil_append] at h4 ⊢
      intro t b hl hb
      by_cases hB : items B = []
      · rw [hB, List.append_nil] at h4 hl
        exact h4.wh hw t b hl hb
      · rw [last_append (by simp [hB]),
          last_append hB] at hl
        refine h4 t b ?_ hb
        rw [last_append hB]
        exact hl
    · exact ⟨H, _, ins_append hd, by rw [ht, h2], h3.trans (sublist_ins T), h4⟩
  · rw [hg]
    by_cases hd : Ev.cls d ∈ s.L
    · obtain ⟨A, B, h1, h2⟩ := split_at hd
      have := h.good
      rw [h1] at this ⊢
      rw [ins_at h2]
      simp only [items_append] at this ⊢
      exact apart_ins this hw
    · rw [ins_not_mem hd]
      exact h.good

/-- White space. -/
theorem g_lay {k : DK} (h : D G s xs F) (hw : k.white = true) (hs : (d :: bs).Sublist xs) :
    wp (lay k d) (fun i s' => D G s' (d :: bs) all ∧ i = s.next ∧ s'.rest = s.rest ∧ s'.done = s.done) s := by
  intro a s' e
  unfold Parse.lay at e
  cases e
  refine ⟨h.step (fun o => o) fun _ h => ?_, rfl, rfl, rfl⟩
  refine h.put hs (n := s.next + 1) (e := .lay s.next k) (Nat.le_succ _) rfl rfl (fun i k e => ?_) rfl rfl ?_
  · cases e
    exact Nat.lt_succ_self _
  · intro A h1 h2
    have hW : Wh (Ev.lay s.next k).items := by
      simp [Ev.items, hw, Wh]
    refine ⟨apart_wh h1 hW, ?_⟩
    intro t b ht
    simp [Ev.items, hw] at ht

theorem g_lay_ {k : DK} (h : D G s xs F) (hw : k.white = true) (hs : (d :: bs).Sublist xs) :
    wp (lay_ k d) (fun _ s' => D G s' (d :: bs) all ∧ s'.rest = s.rest ∧ s'.done = s.done) s := by
  intro a s' e
  unfold lay_ at e
  have := g_lay h hw hs s.next s' (by unfold Parse.lay; cases e; rfl)
  exact ⟨this.1, this.2.2⟩

/-- The same for a document that may be no white space. -/
theorem g_layk {k : DK} (h : D G s xs F) :
    wp (lay_ k d) (fun _ s' => D G s' xs F ∧ s'.rest = s.rest ∧ s'.done = s.done) s := by
  intro a s' e
  unfold lay_ at e
  cases e
  refine ⟨h.step (fun o => o) fun _ h => ?_, rfl, rfl⟩
  refine h.keep (n := s.next + 1) (e := [.lay s.next k]) (Nat.le_succ _) (by simp [closes]) (by simp [closes]) (by simp [opens])
    (fun i k e => ?_) rfl rfl rfl
  simp only [List.mem_cons, Ev.lay.injEq, List.not_mem_nil, or_false] at e
  rw [e.1]
  exact Nat.lt_succ_self _

theorem g_layk' {k : DK} (h : D G s xs F) : wp (Parse.lay k d) (fun _ s' => D G s' xs F) s := by
  intro a s' e
  exact (g_layk (d := d) (k := k) h () s' (by unfold lay_; unfold Parse.lay at e; cases e; rfl)).1

theorem sub_alloc {c : Id} {k : DK} : ∀ {T : List Ev} {pre : List Id}, (closes T).Nodup →
    ((pre ++ d :: bs).map Ev.cls).Sublist T →
    ((pre ++ c :: d :: bs).map Ev.cls).Sublist (ins d [.opn c k, .cls c] T)
  | [], pre, _, h => by
    have := h.length_le
    simp at this
  | x :: T, pre, hn, h => by
    rw [ins]
    by_cases hx : x = .cls d
    · rw [if_pos hx]
      subst hx
      have hd : Ev.cls d ∉ T := by
        intro hd
        have : (closes (Ev.cls d :: T)) = d :: closes T := by simp [closes]
        rw [this, List.nodup_cons] at hn
        exact hn.1 (mem_closes.2 hd)
      cases pre with
      | nil =>
        cases h with
        | cons _ h => exact absurd (h.subset (by simp)) hd
        | cons_cons _ h => exact ((h.cons_cons _).cons_cons _).cons _
      | cons p pre =>
        exfalso
        cases h with
        | cons _ h => exact hd (h.subset (by simp))
        | cons_cons _ h => exact hd (h.subset (by simp))
    · rw [if_neg hx]
      have hn' : (closes T).Nodup := hn.sublist ((List.sublist_cons_self x T).filterMap _)
      cases pre with
      | nil =>
        cases h with
        | cons _ h => exact (sub_alloc (pre := []) hn' h).cons _
        | cons_cons _ h => exact absurd rfl hx
      | cons p pre =>
        cases h with
        | cons _ h => exact (sub_alloc (pre := p :: pre) hn' h).cons _
        | cons_cons _ h => exact (sub_alloc (pre := pre) hn' h).cons_cons _

/-- A new container within `d`, after those of `pre`. -/
theorem g_alloc' {k : DK} {pre : List Id} (h : D G s xs F) (hs : (pre ++ d :: bs).Sublist xs) :
    wp (alloc k d) (fun c s' => D G s' (pre ++ c :: d :: bs) F ∧ D G s' xs F ∧ s'.rest = s.rest ∧
      s'.done = s.done) s := by
  intro a s' e
  unfold alloc at e
  cases e
  have key : Sp s xs F → Sp { s with L := ins d [.opn s.next k, .cls s.next] s.L, next := s.next + 1 } xs F :=
    fun h => h.keep (n := s.next + 1) (e := [.opn s.next k, .cls s.next]) (Nat.le_succ _) (by simp [closes])
      (by simp [closes]) (by simp [opens]) (by simp) rfl rfl rfl
  refine ⟨h.step (fun o => o) fun _ h => ?_, h.step (fun o => o) fun _ h => key h, rfl, rfl⟩
  have k1 := key h
  refine ⟨k1.wf, k1.lay, ?_, k1.good⟩
  obtain ⟨H, T, h1, h2, h3, h4⟩ := h.st.sub hs
  have hd : Ev.cls d ∈ T := h3.subset (by simp)
  have hn := h.wf.nodup
  rw [h1] at hn
  have hH := not_mem_of_nodup hn hd
  rw [closes_append, List.nodup_append] at hn
  show Stk (ins d _ s.L) _ _
  rw [h1, ins_append hH]
  refine ⟨H, _, rfl, ?_, sub_alloc hn.2.1 h3, h4⟩
  obtain ⟨A, B, e1, e2⟩ := split_at hd
  rw [e1] at h2 ⊢
  rw [ins_at e2]
  simp only [toks_append, toks_cons, Ev.toks, List.nil_append, toks_nil] at h2 ⊢
  exact h2

theorem g_alloc {k : DK} (h : D G s xs F) (hs : (d :: bs).Sublist xs) :
    wp (alloc k d) (fun c s' => D G s' (c :: d :: bs) F ∧ s'.rest = s.rest ∧ s'.done = s.done) s :=
  wp_mono (g_alloc' (pre := []) h hs) fun _ _ h => ⟨h.1, h.2.2⟩

theorem g_allocIn' {k : DK} {pre : List Id} (h : D G s xs F) (hs : (pre ++ d :: bs).Sublist xs) :
    wp (allocIn k d) (fun c s' => D G s' (pre ++ c :: d :: bs) F ∧ D G s' xs F ∧ s'.rest = s.rest ∧
      s'.done = s.done) s := by
  unfold allocIn
  refine wp_bind (g_alloc' h hs) fun g s1 h1 => ?_
  refine wp_mono (wp_iff.2 fun a s' e => ?_) fun c s2 h2 => h2
  have e1 := g_alloc' (pre := pre) h1.1 (List.Sublist.refl _) a s' e
  have e2 : D G s' xs F ∧ _ := ⟨by
    unfold alloc at e
    cases e
    exact h1.2.1.step (fun o => o) fun _ h =>
      h.keep (n := s1.next + 1) (e := [.opn s1.next .concat, .cls s1.next]) (Nat.le_succ _) (by simp [closes])
        (by simp [closes]) (by simp [opens]) (by simp) rfl rfl rfl, trivial⟩
  refine ⟨e1.1.sub ?_, e2.1, by rw [e1.2.2.1, h1.2.2.1], by rw [e1.2.2.2, h1.2.2.2]⟩
  exact (List.Sublist.refl pre).append ((List.sublist_cons_self _ _).cons_cons _)

theorem g_allocIn {k : DK} (h : D G s xs F) (hs : (d :: bs).Sublist xs) :
    wp (allocIn k d) (fun c s' => D G s' (c :: d :: bs) F ∧ s'.rest = s.rest ∧ s'.done = s.done) s :=
  wp_mono (g_allocIn' (pre := []) h hs) fun _ _ h => ⟨h.1, h.2.2⟩

/-- Tokens. -/
theorem D.emit {t : Tok} (h : D G s xs F) (hs : (d :: bs).Sublist xs)
    (hF : G → F t.ty = true ∨ Sep.cl t.ty = true) :
    wp (emit t d) (fun _ s' => D G s' (d :: bs) (af t.ty) ∧ s'.rest = s.rest ∧ s'.done = s.done) s := by
  intro a s' e
  unfold Parse.emit at e
  injection e with e
  injection e with _ e
  subst e
  by_cases ht : t.ty = .eof
  · refine ⟨?_, rfl, rfl⟩
    rw [if_pos ht]
    refine ((h.sub hs).mono fun b hb => ?_)
    simp [ht] at hb
  · refine ⟨?_, rfl, rfl⟩
    rw [if_neg ht]
    refine h.stepG (fun o => o) fun _ g h => ?_
    refine h.put hs (n := s.next) (e := .tok t) (Nat.le_refl _) rfl rfl (fun i k e => by cases e) rfl rfl ?_
    intro A h1 h2
    refine ⟨?_, ?_⟩
    · rw [apart_append]
      refine ⟨h1, rfl, fun x y hx hy => ?_⟩
      cases hy
      rcases hF g with hF | hF
      · exact h2 x _ hx hF
      · exact near_cl hF _
    · intro x b hx hb
      simp only [Ev.items, List.getLast?_append, List.getLast?_singleton, Option.some_or,
        Option.some.injEq] at hx
      subst hx
      simp only [Bool.and_eq_true] at hb
      exact hb.1

theorem D.emitC {t : Tok} (h : D G s xs F) (hs : (d :: bs).Sublist xs)
    (hF : G → Sep.cl t.ty = true) :
    wp (Parse.emit t d) (fun _ s' => D G s' (d :: bs) all ∧ s'.rest = s.rest ∧ s'.done = s.done) s :=
  wp_mono (h.emit hs fun g => .inr (hF g)) fun _ _ h =>
    ⟨h.1.monoG fun g b _ => af_cl (hF g) b, h.2⟩

/-- A finished document. -/
theorem D.adopt {ts : List (Option Tok)} (h : D G s xs F) (hs : (d :: bs).Sublist xs)
    (ha : G → apart ts = true)
    (hF : G → ∀ t, ts.head? = some (some t) → F t.ty = true ∨ Sep.cl t.ty = true) :
    wp (adopt ts d) (fun _ s' => D G s' (d :: bs) nope) s := by
  intro a s' e
  unfold Parse.adopt at e
  cases e
  refine h.stepG (fun o => o) fun _ g h => ?_
  refine h.put hs (n := s.next) (e := .sub ts) (Nat.le_refl _) rfl rfl (fun i k e => by cases e) rfl rfl ?_
  intro A h1 h2
  refine ⟨?_, fun _ _ _ e => by cases e⟩
  rw [apart_append]
  refine ⟨h1, ha g, fun x y hx hy => ?_⟩
  rcases hF g y hy with hF | hF
  · exact h2 x _ hx hF
  · exact near_cl hF _

/-! ## Notes -/

theorem untilCls_split {L : List Ev} (hn : (closes L).Nodup) (h : Stk L (d :: bs) F) :
    ∃ B, L = untilCls d L ++ .cls d :: B ∧ toks B = [] ∧ (bs.map Ev.cls).Sublist B ∧
      LastOk (items (untilCls d L)) F := by
  obtain ⟨A, B, h1, h2, h3, h4, h5⟩ := h.split hn
  have := untilCls_at (Y := B) h2
  rw [← h1] at this
  rw [this]
  exact ⟨B, h1, h3, h4, h5⟩

theorem g_note {f : List Ev → Bool} (h : D G s xs F) (hs : (d :: bs).Sublist xs)
    (hf : ∀ L, f L = false → LastOk (items (untilCls d L)) F → LastOk (items (untilCls d L)) F') :
    wp (note f) (fun _ s' => D G s' (d :: bs) F' ∧ s'.rest = s.rest ∧ s'.done = s.done) s := by
  intro a s' e
  unfold note at e
  cases e
  refine ⟨?_, rfl, rfl⟩
  have key : ∀ g : Ghost, ({ g with glued := g.glued || f s.L } : Ghost) = {} → g = {} ∧ f s.L = false := by
    intro g hg
    cases g
    simp only [Ghost.mk.injEq, Bool.or_eq_false_iff] at hg
    obtain ⟨a, b, c, d, e⟩ := hg
    subst a b c d
    exact ⟨rfl, e⟩
  refine h.step (fun o => ⟨o.1, (key _ o.2.1).1, o.2.2⟩) fun o h => ?_
  have hfl := (key _ o.2.1).2
  have h' := h.sub hs
  refine ⟨h.wf, h.lay, ?_, h.good⟩
  obtain ⟨B, h1, h2, h3, h4⟩ := untilCls_split h'.wf.nodup h'.st
  exact ⟨_, _, h1, by rw [toks_cons, h2]; rfl, h3.cons_cons _, hf _ hfl h4⟩

theorem g_glue {ty : TT} (h : D G s xs F) (hs : (d :: bs).Sublist xs) :
    wp (noteGlue ty d) (fun _ s' => D G s' (d :: bs) (fun b => F b || decide (b = ty)) ∧
      s'.rest = s.rest ∧ s'.done = s.done) s := by
  refine g_note h hs fun L hL hF => ?_
  intro t b ht hb
  simp only [Bool.or_eq_true, decide_eq_true_eq] at hb
  rcases hb with hb | hb
  · exact hF t b ht hb
  · unfold glues at hL
    rw [ht] at hL
    subst hb
    simpa using hL

theorem g_free (h : D G s xs F) (hs : (d :: bs).Sublist xs) :
    wp (noteFree d) (fun _ s' => D G s' (d :: bs) all ∧ s'.rest = s.rest ∧ s'.done = s.done) s := by
  refine g_note h hs fun L hL _ => ?_
  intro t b ht _
  unfold tight at hL
  rw [ht] at hL
  exact near_loose (by simpa using hL) b

/-- Which tokens may come first so that expression `e` may come next. -/
def Pre (e : Ex) (F : Nx) : Prop :=
  match first e with
  | some b => F b = true
  | none => ∀ b, F b = true

theorem Pre.all (e : Ex) : Pre e Sep.all := by
  unfold Pre
  split <;> simp

theorem g_before {e : Ex} (h : D G s xs F) (hs : (d :: bs).Sublist xs) :
    wp (noteBefore e d) (fun _ s' => ∃ F', Pre e F' ∧ D G s' (d :: bs) F' ∧ s'.rest = s.rest ∧
      s'.done = s.done) s := by
  cases he : first e with
  | none =>
    refine wp_mono (g_note (F' := Sep.all) h hs fun L hL _ => ?_) fun _ _ h => ⟨Sep.all, Pre.all e, h⟩
    intro t b ht _
    unfold before at hL
    rw [he] at hL
    dsimp only at hL
    unfold tight at hL
    rw [ht] at hL
    exact near_loose (by simpa using hL) b
  | some ty =>
    refine wp_mono (g_note (F' := fun b => decide (b = ty)) h hs fun L hL _ => ?_) fun _ _ h => ⟨_, ?_, h⟩
    · intro t b ht hb
      unfold before at hL
      rw [he] at hL
      dsimp only at hL
      unfold glues at hL
      rw [ht] at hL
      simp only [decide_eq_true_eq] at hb
      subst hb
      simpa using hL
    · unfold Pre
      rw [he]
      simp

/-! ## Removal -/

theorem Sp.filter {f : Ev → Bool} (h : Sp s xs F) (hc : ∀ i, f (.cls i) = true)
    (ht : ∀ x, f x = false → x.toks = []) (hg : s'.L = s.L.filter f) (hn : s.next ≤ s'.next)
    (ha : apart (items (s.L.filter f)) = true) : Sp s' xs nope := by
  refine ⟨?_, ?_, ?_, by rw [hg]; exact ha⟩
  · rw [hg]
    exact (h.wf.of_sublist List.filter_sublist).mono hn
  · rw [hg]
    exact fun i k hi => Nat.lt_of_lt_of_le (h.lay i k ((List.mem_filter.1 hi).1)) hn
  · obtain ⟨H, T, h1, h2, h3, h4⟩ := h.st
    rw [hg, h1, List.filter_append]
    refine ⟨_, _, rfl, by rw [toks_filter ht]; exact h2, ?_, fun _ _ _ e => by cases e⟩
    have h5 := h3.filter f
    rwa [List.filter_eq_self.2] at h5
    intro x hx
    simp only [List.mem_map] at hx
    obtain ⟨i, _, rfl⟩ := hx
    exact hc i

theorem items_rmSoft (i : Id) : ∀ L : List Ev, items (L.filter (notSoft i)) = items L
  | [] => rfl
  | x :: L => by
    rw [List.filter_cons]
    split
    · rw [items_cons, items_cons, items_rmSoft i L]
    · rename_i hx
      rw [items_cons, items_rmSoft i L]
      cases x with
      | lay j k =>
        simp only [notSoft, Bool.or_eq_true, decide_eq_true_eq, not_or, Decidable.not_not] at hx
        rw [hx.2]
        rfl
      | _ => exact absurd rfl hx

theorem g_rmSoft {i : Id} (h : D G s xs F) : wp (rmSoft i) (fun _ s' => D G s' xs F) s := by
  intro a s' e
  unfold Parse.rmSoft at e
  injection e with e
  injection e with _ e
  subst e
  refine h.step (fun o => o) fun _ h => ?_
  have ht : ∀ x, notSoft i x = false → x.toks = [] := by
    intro x hx
    cases x <;> first | rfl | cases hx
  refine ⟨h.wf.of_sublist List.filter_sublist, fun j k hi => h.lay j k ((List.mem_filter.1 hi).1), ?_, ?_⟩
  · obtain ⟨H, T, h1, h2, h3, h4⟩ := h.st
    show Stk (s.L.filter _) _ _
    rw [h1, List.filter_append]
    refine ⟨_, _, rfl, by rw [toks_filter ht]; exact h2, ?_, by rw [items_rmSoft]; exact h4⟩
    have h5 := h3.filter (notSoft i)
    rwa [List.filter_eq_self.2] at h5
    intro x hx
    simp only [List.mem_map] at hx
    obtain ⟨i, _, rfl⟩ := hx
    rfl
  · show apart (items (s.L.filter _)) = true
    rw [items_rmSoft]
    exact h.good

theorem g_rmWhite {i : Id} (h : D G s xs F) :
    wp (rmWhite i) (fun _ s' => D G s' xs nope ∧ s'.rest = s.rest ∧ s'.done = s.done) s := by
  intro a s' e
  have e : some ((), _) = some (a, s') := e
  cases e
  refine ⟨?_, rfl, rfl⟩
  have key : ∀ (g : Ghost) (b : Bool), ({ g with glued := g.glued || b } : Ghost) = {} → g = {} ∧ b = false := by
    intro g b hg
    cases g
    simp only [Ghost.mk.injEq, Bool.or_eq_false_iff] at hg
    obtain ⟨a, b, c, d, e⟩ := hg
    subst a b c d
    exact ⟨rfl, e⟩
  refine h.step (fun o => ⟨o.1, (key _ _ o.2.1).1, o.2.2⟩) fun o h => ?_
  have hf := (key _ _ o.2.1).2
  simp only [Bool.not_eq_false'] at hf
  refine h.filter (f := notLay i) (fun _ => rfl) ?_ rfl (Nat.le_refl _) hf
  intro x hx
  cases x <;> first | rfl | cases hx

/-- White space laid last is removed again. -/
theorem filter_ins {L : List Ev} {n : Id} {k : DK} (h : ∀ i k, Ev.lay i k ∈ L → i < n) :
    (ins d [.lay n k] L).filter (notLay n) = L := by
  have hL : ∀ L : List Ev, (∀ i k, Ev.lay i k ∈ L → i < n) → L.filter (notLay n) = L := by
    intro L hL
    rw [List.filter_eq_self]
    intro x hx
    cases x with
    | lay j k =>
      have := hL j k hx
      simp only [notLay, decide_eq_true_eq]
      exact fun e => absurd this (by rw [e]; exact Nat.lt_irrefl _)
    | _ => rfl
  by_cases hd : Ev.cls d ∈ L
  · obtain ⟨A, B, h1, h2⟩ := split_at hd
    subst h1
    rw [ins_at h2, List.filter_append, List.filter_append]
    have e1 := hL A fun i k hi => h i k (by simp [hi])
    have e2 := hL (Ev.cls d :: B) fun i k hi => h i k (by simp at hi; simp [hi])
    rw [e1, e2]
    simp [notLay]
  · rw [ins_not_mem hd]
    exact hL L h

/-- A document is removed. -/
theorem Sp.cut {c : Id} (h : Sp s xs F) (hs : (c :: bs).Sublist xs) (hL : s'.L = Parse.cut c s.L)
    (hN : s'.next = s.next) : Sp s' bs nope := by
  have k2 := h.sub hs
  have w : WF (Parse.cut c s.L) s.next := h.wf.of_sublist cut_sublist
  have l : ∀ i k, Ev.lay i k ∈ Parse.cut c s.L → i < s.next := fun i k hi => h.lay i k (cut_sublist.subset hi)
  rcases cut_cases (c := c) s.L with h1 | ⟨A, k, B, C, h1, h2, h3, h4⟩
  · refine ⟨by rw [hL, hN]; exact w, by rw [hL, hN]; exact l, ?_, ?_⟩
    · show Stk s'.L _ _
      rw [hL]
      rw [h1]
      exact (k2.st.sub (List.sublist_cons_self _ _)).mono fun _ e => by cases e
    · show apart (items s'.L) = true
      rw [hL]
      rw [h1]
      exact h.good
  · obtain ⟨A', B', e1, e2, e3, e4, _⟩ := k2.st.split h.wf.nodup
    have hn : Ev.cls c ∉ A ++ .opn c k :: B := by
      refine not_mem_of_nodup (T := .cls c :: C) ?_ (by simp)
      have := h.wf.nodup
      rw [h1] at this
      simpa using this
    have hC : C = B' := by
      have hh : A' ++ Ev.cls c :: B' = (A ++ Ev.opn c k :: B) ++ Ev.cls c :: C := by
        rw [← e1, h1]; simp
      have := congrArg (afterCls c) hh
      rw [afterCls_at e2, afterCls_at hn] at this
      exact (Option.some.inj this).symm
    subst hC
    refine ⟨by rw [hL, hN]; exact w, by rw [hL, hN]; exact l, ?_, ?_⟩
    · show Stk s'.L _ _
      rw [hL]
      rw [h3]
      exact ⟨A, C, rfl, e3, e4, fun _ _ _ e => by cases e⟩
    · show apart (items s'.L) = true
      rw [hL]
      rw [h3, items_append]
      have hg := h.good
      rw [h1, items_append, apart_append] at hg
      exact apart_wh hg.1 (wh_items e3)

theorem g_rmDocChk {c : Id} (h : D G s xs F) (hs : (c :: bs).Sublist xs) :
    wp (rmDocChk c) (fun _ s' => D G s' bs nope) s := by
  intro a s' e
  unfold Parse.rmDocChk at e
  cases e
  have key : ∀ (g : Ghost) (b : Bool), ({ g with lost := g.lost || b } : Ghost) = {} → g = {} ∧ b = false := by
    intro g b hg
    cases g
    simp only [Ghost.mk.injEq, Bool.or_eq_false_iff] at hg
    obtain ⟨a, ⟨b, e⟩, c, d⟩ := hg
    subst a b c d
    exact ⟨rfl, e⟩
  exact h.step (fun o => ⟨o.1, (key _ _ o.2.1).1, o.2.2⟩) fun o h => h.cut hs rfl rfl

theorem g_rmDoc {c : Id} (h : D G s xs F) (hs : (c :: bs).Sublist xs) :
    wp (rmDoc c) (fun _ s' => D G s' bs nope) s := by
  intro a s' e
  unfold Parse.rmDoc at e
  cases e
  exact h.step (fun o => o) fun _ h => h.cut hs rfl rfl

/-- The check made when emitting into a document that may not be the last one. -/
theorem g_emitChk {t : Tok} {o : Id} (h : D G s xs F) (ht : t.ty = .semi)
    (hs : (d :: bs).Sublist xs) : wp (emitChk t o d) (fun _ s' => D G s' (d :: bs) all) s := by
  intro a s' e
  unfold Parse.emitChk at e
  cases e
  rw [if_neg (by simp [ht])]
  have key : ∀ (g : Ghost) (b : Bool), ({ g with misplaced := g.misplaced || b } : Ghost) = {} →
      g = {} ∧ b = false := by
    intro g b hg
    cases g
    simp only [Ghost.mk.injEq, Bool.or_eq_false_iff] at hg
    obtain ⟨a, b, ⟨c, e⟩, d⟩ := hg
    subst a b c d
    exact ⟨rfl, e⟩
  refine h.step (fun o => ⟨o.1, (key _ _ o.2.1).1, o.2.2⟩) fun ok h => ?_
  have hc := (key _ _ ok.2.1).2
  simp only [Bool.not_eq_false'] at hc
  unfold endsIn at hc
  cases hT : afterCls o s.L with
  | none => rw [hT] at hc; cases hc
  | some T =>
    rw [hT] at hc
    simp only [Bool.and_eq_true, List.isEmpty_iff, List.any_eq_true, decide_eq_true_eq,
      exists_eq_right] at hc
    obtain ⟨A, h1, h2⟩ := afterCls_eq hT
    have k' := (h.sub hs).st
    obtain ⟨A', B, e1, e2, e3, e4, _⟩ := k'.split h.wf.nodup
    -- the close of `d` comes after the one of `o`
    obtain ⟨A2, B2, f1, f2⟩ := split_at hc.2
    have hA : Ev.cls d ∉ A ++ Ev.cls o :: A2 := by
      refine not_mem_of_nodup (T := .cls d :: B2) ?_ (by simp)
      have := h.wf.nodup
      rw [h1, f1] at this
      simpa using this
    have hB : B = B2 := by
      have hh : A' ++ Ev.cls d :: B = (A ++ Ev.cls o :: A2) ++ Ev.cls d :: B2 := by
        rw [← e1, h1, f1]; simp
      have := congrArg (afterCls d) hh
      rw [afterCls_at e2, afterCls_at hA] at this
      exact Option.some.inj this
    subst hB
    have hsub : ((d :: bs).map Ev.cls).Sublist T := by
      rw [f1, List.map_cons]
      exact (e4.cons_cons _).trans (List.sublist_append_right _ _)
    have ho : Stk s.L (o :: d :: bs) nope :=
      ⟨A, .cls o :: T, h1, by rw [toks_cons, hc.1]; rfl, hsub.cons_cons _, fun _ _ _ e => by cases e⟩
    have h' : Sp s (o :: d :: bs) nope := ⟨h.wf, h.lay, ho, h.good⟩
    have := h'.put (s' := { s with
      L := ins o [.tok t] s.L
      gh := { s.gh with misplaced := s.gh.misplaced || !endsIn o d s.L } }) (F' := Sep.all)
      (List.Sublist.refl _) (n := s.next) (e := .tok t) (Nat.le_refl _) rfl rfl (fun i k e => by cases e) rfl rfl (by
        intro X x1 x2
        refine ⟨?_, ?_⟩
        · rw [apart_append]
          refine ⟨x1, rfl, fun x y hx hy => ?_⟩
          cases hy
          exact near_cl (by rw [ht]; rfl) _
        · intro x b hx hb
          simp only [Ev.items, List.getLast?_append, List.getLast?_singleton, Option.some_or,
            Option.some.injEq] at hx
          subst hx
          exact near_loose (by rw [ht]; rfl) b)
    exact this.sub (List.sublist_cons_self _ _)

end Knfmt.Parse.Sep
