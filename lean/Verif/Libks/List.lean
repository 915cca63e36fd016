import Verif.Common
/-!
# libks/list.h

The intrusive lists. A location is a list head or an element; both start with a pointer
to the next element and a pointer to the next-pointer in front of them
(libks/list.h:51-64), which is why `LIST_LAST` and `LIST_PREV` may treat an element as a
head. Following a null pointer is undefined behaviour (`none`).
-/
set_option linter.unusedSectionVars false

namespace Knfmt.KList

/-- The address of a list head or of an element's entry. -/
inductive Loc (H E : Type) where
  | head (h : H)
  | elem (e : E)
deriving DecidableEq

variable {H E : Type} [DecidableEq H] [DecidableEq E]

/-- Memory: `nxt` is `tqh_first` or `tqe_next`, `bk` is `tqh_last` or `tqe_prev.ptr`;
`none` is the null pointer. libks/list.h:51-64. -/
structure Mem (H E : Type) where
  nxt : Loc H E → Option E
  bk : Loc H E → Option (Loc H E)

def Mem.setNxt (m : Mem H E) (l : Loc H E) (v : Option E) : Mem H E :=
  { m with nxt := fun x => if x = l then v else m.nxt x }

def Mem.setBk (m : Mem H E) (l : Loc H E) (v : Option (Loc H E)) : Mem H E :=
  { m with bk := fun x => if x = l then v else m.bk x }

/-- `LIST_FIRST`, libks/list.h:68. -/
def first (m : Mem H E) (h : H) : Option E := m.nxt (.head h)

/-- `*_last->tqh_last` in `LIST_LAST` and `LIST_PREV`. -/
def throughBack (m : Mem H E) (l : Loc H E) : Option (Option E) :=
  match m.bk l with
  | none => none
  | some l1 =>
    match m.bk l1 with
    | none => none
    | some l2 => some (m.nxt l2)

/-- `LIST_LAST`, libks/list.h:70-73. -/
def last (m : Mem H E) (h : H) : Option (Option E) := throughBack m (.head h)

/-- `LIST_PREV`, libks/list.h:75-79. -/
def prev (m : Mem H E) (e : E) : Option (Option E) := throughBack m (.elem e)

/-- `LIST_NEXT`, libks/list.h:81. -/
def next (m : Mem H E) (e : E) : Option E := m.nxt (.elem e)

/-- `LIST_EMPTY`, libks/list.h:83-84. -/
def empty (m : Mem H E) (h : H) : Bool := (first m h).isNone

/-- `LIST_LINKED`, libks/list.h:86-87. -/
def linked (m : Mem H E) (e : E) : Bool := (m.nxt (.elem e)).isSome || (m.bk (.elem e)).isSome

/-- `LIST_INIT`, libks/list.h:111-114. -/
def init (m : Mem H E) (h : H) : Mem H E :=
  (m.setNxt (.head h) none).setBk (.head h) (some (.head h))

/-- `LIST_INSERT_HEAD`, libks/list.h:116-125. -/
def insertHead (m : Mem H E) (h : H) (e : E) : Option (Mem H E) :=
  let m := m.setNxt (.elem e) (m.nxt (.head h))
  let m := match m.nxt (.elem e) with
    | some _ =>
      match m.nxt (.head h) with
      | some f => some (m.setBk (.elem f) (some (.elem e)))
      | none => none
    | none => some (m.setBk (.head h) (some (.elem e)))
  m.map fun m => (m.setNxt (.head h) (some e)).setBk (.elem e) (some (.head h))

/-- `LIST_INSERT_TAIL`, libks/list.h:127-132. -/
def insertTail (m : Mem H E) (h : H) (e : E) : Option (Mem H E) :=
  let m := m.setNxt (.elem e) none
  let m := m.setBk (.elem e) (m.bk (.head h))
  match m.bk (.head h) with
  | none => none
  | some l => some ((m.setNxt l (some e)).setBk (.head h) (some (.elem e)))

/-- `LIST_INSERT_AFTER`, libks/list.h:134-143. -/
def insertAfter (m : Mem H E) (h : H) (x e : E) : Mem H E :=
  let m := m.setNxt (.elem e) (m.nxt (.elem x))
  let m := match m.nxt (.elem e) with
    | some n => m.setBk (.elem n) (some (.elem e))
    | none => m.setBk (.head h) (some (.elem e))
  let m := m.setNxt (.elem x) (some e)
  m.setBk (.elem e) (some (.elem x))

/-- `LIST_INSERT_BEFORE`, libks/list.h:145-150. -/
def insertBefore (m : Mem H E) (x e : E) : Option (Mem H E) :=
  let m := m.setBk (.elem e) (m.bk (.elem x))
  let m := m.setNxt (.elem e) (some x)
  match m.bk (.elem x) with
  | none => none
  | some l => some ((m.setNxt l (some e)).setBk (.elem x) (some (.elem e)))

/-- `LIST_REMOVE`, libks/list.h:152-161. -/
def remove (m : Mem H E) (h : H) (e : E) : Option (Mem H E) :=
  let m := match m.nxt (.elem e) with
    | some n => m.setBk (.elem n) (m.bk (.elem e))
    | none => m.setBk (.head h) (m.bk (.elem e))
  match m.bk (.elem e) with
  | none => none
  | some l =>
    let m := m.setNxt l (m.nxt (.elem e))
    some ((m.setBk (.elem e) none).setNxt (.elem e) none)

/-- `LIST_CONCAT`, libks/list.h:163-170. -/
def concat (m : Mem H E) (h1 h2 : H) : Option (Mem H E) :=
  if !(empty m h2) then
    match m.bk (.head h1) with
    | none => none
    | some l =>
      let m := m.setNxt l (m.nxt (.head h2))
      match m.nxt (.head h2) with
      | none => none
      | some f =>
        let m := m.setBk (.elem f) (m.bk (.head h1))
        let m := m.setBk (.head h1) (m.bk (.head h2))
        some (init m h2)
  else some m

/-- `LIST_FOREACH`, libks/list.h:89-92: the elements visited in at most `n` rounds and
whether the loop ended. -/
def foreach (m : Mem H E) : Option E → Nat → List E × Bool
  | none, _ => ([], true)
  | some _, 0 => ([], false)
  | some e, n + 1 =>
    let r := foreach m (next m e) n
    (e :: r.1, r.2)

/-- `LIST_FOREACH_REVERSE`, libks/list.h:100-103; `none` is undefined behaviour. -/
def foreachReverse (m : Mem H E) : Option (Option E) → Nat → Option (List E × Bool)
  | none, _ => none
  | some none, _ => some ([], true)
  | some (some _), 0 => some ([], false)
  | some (some e), n + 1 => (foreachReverse m (prev m e) n).map fun r => (e :: r.1, r.2)

/-- `LIST_FOREACH_SAFE`, libks/list.h:94-98, with the body given: the memory afterwards,
what was visited and whether the loop ended. -/
def foreachSafe (body : Mem H E → E → Option (Mem H E)) (m : Mem H E) :
    Option E → Nat → Option (Mem H E × List E × Bool)
  | none, _ => some (m, [], true)
  | some _, 0 => some (m, [], false)
  | some e, n + 1 =>
    let tvar := next m e
    match body m e with
    | none => none
    | some m => (foreachSafe body m tvar n).map fun r => (r.1, e :: r.2.1, r.2.2)

/-! ## Specification -/

/-- Which sequence each list holds; `none` for a head not initialised. -/
abbrev Lists (H E : Type) := H → Option (List E)

/-- An element in no list. -/
def Free (L : Lists H E) (e : E) : Prop := ∀ h xs, L h = some xs → e ∉ xs

/-- The operations. -/
inductive Op (H E : Type) where
  | init (h : H)
  | insertHead (h : H) (e : E)
  | insertTail (h : H) (e : E)
  | insertAfter (h : H) (x e : E)
  | insertBefore (x e : E)
  | remove (h : H) (e : E)
  | concat (h1 h2 : H)

/-- When a program may perform an operation: heads are initialised once and before use,
elements inserted are in no list, the neighbour or element named is in the list named. -/
def Op.Pre (L : Lists H E) : Op H E → Prop
  | .init h => L h = none
  | .insertHead h e => (L h).isSome ∧ Free L e
  | .insertTail h e => (L h).isSome ∧ Free L e
  | .insertAfter h x e => (∃ xs, L h = some xs ∧ x ∈ xs) ∧ Free L e
  | .insertBefore x e => (∃ h xs, L h = some xs ∧ x ∈ xs) ∧ Free L e
  | .remove h e => ∃ xs, L h = some xs ∧ e ∈ xs
  | .concat h1 h2 => (L h1).isSome ∧ (L h2).isSome ∧ h1 ≠ h2

/-- Insert `e` behind the first `x`. -/
def after (x e : E) : List E → List E
  | [] => []
  | y :: ys => if y = x then y :: e :: ys else y :: after x e ys

/-- Insert `e` in front of the first `x`. -/
def before (x e : E) : List E → List E
  | [] => []
  | y :: ys => if y = x then e :: y :: ys else y :: before x e ys

/-- The lists with the one of `h` replaced. -/
def upd (L : Lists H E) (h : H) (f : List E → List E) : Lists H E :=
  fun h' => if h' = h then (L h').map f else L h'

/-- What an operation means for the sequences. -/
def Op.spec (L : Lists H E) : Op H E → Lists H E
  | .init h => fun h' => if h' = h then some [] else L h'
  | .insertHead h e => upd L h (e :: ·)
  | .insertTail h e => upd L h (· ++ [e])
  | .insertAfter h x e => upd L h (after x e)
  | .insertBefore x e => fun h => (L h).map (before x e)
  | .remove h e => upd L h (·.erase e)
  | .concat h1 h2 => fun h =>
      if h = h1 then (L h).map (· ++ (L h2).getD []) else if h = h2 then some [] else L h

/-- The same operation on memory. -/
def Op.run (m : Mem H E) : Op H E → Option (Mem H E)
  | .init h => some (KList.init m h)
  | .insertHead h e => KList.insertHead m h e
  | .insertTail h e => KList.insertTail m h e
  | .insertAfter h x e => some (KList.insertAfter m h x e)
  | .insertBefore x e => KList.insertBefore m x e
  | .remove h e => KList.remove m h e
  | .concat h1 h2 => KList.concat m h1 h2

/-! ## Representation -/

/-- From `l` the next-pointers lead through `xs` to `l'`, and back. -/
def Seg (m : Mem H E) : Loc H E → List E → Loc H E → Prop
  | l, [], l' => l = l'
  | l, x :: xs, l' => m.nxt l = some x ∧ m.bk (.elem x) = some l ∧ Seg m (.elem x) xs l'

/-- The location behind `xs` when starting at `l`. -/
def endLoc : Loc H E → List E → Loc H E
  | l, [] => l
  | _, x :: xs => endLoc (.elem x) xs

/-- The list at `h` holds `xs`. -/
structure IsList (m : Mem H E) (h : H) (xs : List E) : Prop where
  nodup : xs.Nodup
  seg : Seg m (.head h) xs (endLoc (.head h) xs)
  nil : m.nxt (endLoc (.head h) xs) = none
  last : m.bk (.head h) = some (endLoc (.head h) xs)

/-- Memory holds these lists and nothing else. -/
structure Rep (m : Mem H E) (L : Lists H E) : Prop where
  lists : ∀ h xs, L h = some xs → IsList m h xs
  disj : ∀ h h' xs ys, h ≠ h' → L h = some xs → L h' = some ys → ∀ e ∈ xs, e ∉ ys
  free : ∀ e, Free L e → m.nxt (.elem e) = none ∧ m.bk (.elem e) = none

theorem endLoc_append (l : Loc H E) (xs ys : List E) :
    endLoc l (xs ++ ys) = endLoc (endLoc l xs) ys := by
  induction xs generalizing l with
  | nil => rfl
  | cons x xs ih => exact ih _

theorem endLoc_mem (l : Loc H E) (xs : List E) :
    (xs = [] ∧ endLoc l xs = l) ∨ ∃ x ∈ xs, endLoc l xs = .elem x := by
  induction xs generalizing l with
  | nil => exact .inl ⟨rfl, rfl⟩
  | cons x xs ih =>
    rcases ih (.elem x) with ⟨h1, h2⟩ | ⟨y, h1, h2⟩
    · exact .inr ⟨x, List.mem_cons_self .., h2⟩
    · exact .inr ⟨y, List.mem_cons_of_mem _ h1, h2⟩

theorem endLoc_elem (e : E) (xs : List E) : ∃ x ∈ e :: xs, endLoc (.elem e : Loc H E) xs = .elem x := by
  rcases endLoc_mem (.elem e : Loc H E) xs with ⟨_, h⟩ | ⟨x, h1, h2⟩
  · exact ⟨e, List.mem_cons_self .., h⟩
  · exact ⟨x, List.mem_cons_of_mem _ h1, h2⟩

theorem Seg_append {m : Mem H E} {l l' : Loc H E} {xs ys : List E} :
    Seg m l (xs ++ ys) l' ↔ Seg m l xs (endLoc l xs) ∧ Seg m (endLoc l xs) ys l' := by
  induction xs generalizing l with
  | nil => simp [Seg, endLoc]
  | cons x xs ih => simp [Seg, endLoc, ih, and_assoc]

/-- A segment only depends on its own pointers. -/
theorem Seg_frame {m m' : Mem H E} {l l' : Loc H E} {xs : List E} (h : Seg m l xs l')
    (hn : ∀ as bs : List E, xs = as ++ bs → bs ≠ [] → m'.nxt (endLoc l as) = m.nxt (endLoc l as))
    (hb : ∀ x ∈ xs, m'.bk (.elem x) = m.bk (.elem x)) : Seg m' l xs l' := by
  induction xs generalizing l with
  | nil => exact h
  | cons x xs ih =>
    refine ⟨(hn [] (x :: xs) rfl (by simp)).trans h.1, (hb x (List.mem_cons_self ..)).trans h.2.1, ?_⟩
    refine ih h.2.2 (fun as bs e hne => ?_) (fun y hy => hb y (List.mem_cons_of_mem _ hy))
    exact hn (x :: as) bs (by rw [e]; rfl) hne

/-- In a segment without repetition, an earlier location differs from the last one. -/
theorem endLoc_ne {l : Loc H E} {as bs : List E} (hnd : (as ++ bs).Nodup) (hne : bs ≠ [])
    (hl : ∀ e ∈ bs, l ≠ .elem e) : endLoc l as ≠ endLoc l (as ++ bs) := by
  cases bs with
  | nil => exact absurd rfl hne
  | cons b bs =>
    rw [endLoc_append]
    obtain ⟨x, hx, he⟩ := endLoc_elem (H := H) b bs
    show endLoc l as ≠ endLoc (.elem b) bs
    rw [he]
    rcases endLoc_mem l as with ⟨_, h⟩ | ⟨y, hy, h⟩
    · rw [h]; exact hl x hx
    · rw [h]
      intro hc
      injection hc with hc
      subst hc
      exact (List.nodup_append.mp hnd).2.2 y hy y hx rfl

theorem IsList.frame {m m' : Mem H E} {h : H} {xs : List E} (hl : IsList m h xs)
    (hh : m'.nxt (.head h) = m.nxt (.head h) ∧ m'.bk (.head h) = m.bk (.head h))
    (he : ∀ x ∈ xs, m'.nxt (.elem x) = m.nxt (.elem x) ∧ m'.bk (.elem x) = m.bk (.elem x)) :
    IsList m' h xs := by
  have key : ∀ as bs : List E, xs = as ++ bs → m'.nxt (endLoc (.head h) as) = m.nxt (endLoc (.head h) as) := by
    intro as bs e
    rcases endLoc_mem (.head h : Loc H E) as with ⟨_, h1⟩ | ⟨x, hx, h1⟩
    · rw [h1]; exact hh.1
    · rw [h1]; exact (he x (by rw [e]; exact List.mem_append_left _ hx)).1
  refine ⟨hl.nodup, Seg_frame hl.seg (fun as bs e _ => key as bs e) (fun x hx => (he x hx).2), ?_, ?_⟩
  · rw [key xs [] (by simp)]; exact hl.nil
  · rw [hh.2]; exact hl.last

/-- What points back to the end of `as` in the list `as ++ bs`. -/
def target (h : H) : List E → Loc H E
  | [] => .head h
  | b :: _ => .elem b

/-- The memory after linking `e` in behind location `p`, `t` pointing back to it. -/
def link (m : Mem H E) (p : Loc H E) (e : E) (t : Loc H E) : Mem H E :=
  { nxt := fun l => if l = p then some e else if l = .elem e then m.nxt p else m.nxt l,
    bk := fun l => if l = .elem e then some p else if l = t then some (.elem e) else m.bk l }

theorem link_nxt {m : Mem H E} {p : Loc H E} {e : E} {t l : Loc H E} (h1 : l ≠ p) (h2 : l ≠ .elem e) :
    (link m p e t).nxt l = m.nxt l := by simp only [link]; rw [if_neg h1, if_neg h2]

theorem link_bk {m : Mem H E} {p : Loc H E} {e : E} {t l : Loc H E} (h1 : l ≠ .elem e) (h2 : l ≠ t) :
    (link m p e t).bk l = m.bk l := by simp only [link]; rw [if_neg h1, if_neg h2]

theorem link_nxt_new {m : Mem H E} {p : Loc H E} {e : E} {t : Loc H E} (h : .elem e ≠ p) :
    (link m p e t).nxt (.elem e) = m.nxt p := by simp only [link]; rw [if_neg h, if_pos trivial]

theorem link_bk_target {m : Mem H E} {p : Loc H E} {e : E} {t : Loc H E} (h : t ≠ .elem e) :
    (link m p e t).bk t = some (.elem e) := by simp only [link]; rw [if_neg h, if_pos trivial]

theorem IsList.split {m : Mem H E} {h : H} {as bs : List E} (hl : IsList m h (as ++ bs)) :
    Seg m (.head h) as (endLoc (.head h) as) ∧ m.nxt (endLoc (.head h) as) = bs.head? ∧
      m.bk (target h bs) = some (endLoc (.head h) as) := by
  have h1 := Seg_append.mp hl.seg
  refine ⟨h1.1, ?_, ?_⟩
  · cases bs with
    | nil => have := hl.nil; rw [List.append_nil] at this; exact this
    | cons b bs => exact h1.2.1
  · cases bs with
    | nil => have := hl.last; rw [List.append_nil] at this; exact this
    | cons b bs => exact h1.2.2.1

theorem link_isList {m : Mem H E} {h : H} {as bs : List E} {e : E} (hl : IsList m h (as ++ bs))
    (hf : e ∉ as ++ bs) :
    IsList (link m (endLoc (.head h) as) e (target h bs)) h (as ++ e :: bs) := by
  have hs := hl.split
  have h1 := Seg_append.mp hl.seg
  have hnd := hl.nodup
  have hea : e ∉ as := fun hc => hf (List.mem_append_left _ hc)
  have heb : e ∉ bs := fun hc => hf (List.mem_append_right _ hc)
  have hpe : endLoc (.head h) as ≠ .elem e := by
    rcases endLoc_mem (.head h : Loc H E) as with ⟨_, h1⟩ | ⟨x, hx, h1⟩
    · rw [h1]; simp
    · rw [h1]; intro hc; injection hc with hc; exact hea (hc ▸ hx)
  have hpb : ∀ b ∈ bs, endLoc (.head h) as ≠ .elem b := by
    intro b hb
    rcases endLoc_mem (.head h : Loc H E) as with ⟨_, h1⟩ | ⟨x, hx, h1⟩
    · rw [h1]; simp
    · rw [h1]; intro hc; injection hc with hc
      exact (List.nodup_append.mp hnd).2.2 x hx b hb hc
  have hta : ∀ a ∈ as, (Loc.elem a : Loc H E) ≠ target h bs := by
    intro a ha
    cases bs with
    | nil => simp [target]
    | cons b bs =>
      simp only [target]
      intro hc; injection hc with hc
      exact (List.nodup_append.mp hnd).2.2 a ha b (List.mem_cons_self ..) hc
  refine ⟨?_, ?_, ?_, ?_⟩
  · rw [List.nodup_append] at hnd ⊢
    refine ⟨hnd.1, List.nodup_cons.mpr ⟨heb, hnd.2.1⟩, ?_⟩
    intro a ha b hb
    rcases List.mem_cons.mp hb with hb | hb
    · rw [hb]; exact fun hc => hea (hc ▸ ha)
    · exact hnd.2.2 a ha b hb
  · rw [Seg_append]
    refine ⟨Seg_frame hs.1 ?_ ?_, ?_, ?_, ?_⟩
    · intro as' bs' he hne
      have hne' : endLoc (.head h) as' ≠ endLoc (.head h) as := by
        rw [he]
        exact endLoc_ne (he ▸ (List.nodup_append.mp hnd).1) hne (by simp)
      have hne2 : endLoc (.head h) as' ≠ .elem e := by
        rcases endLoc_mem (.head h : Loc H E) as' with ⟨_, h1⟩ | ⟨x, hx, h1⟩
        · rw [h1]; simp
        · rw [h1]; intro hc; injection hc with hc
          exact hea (by rw [he]; exact List.mem_append_left _ (hc ▸ hx))
      exact link_nxt hne' hne2
    · intro x hx
      exact link_bk (by intro hc; injection hc with hc; exact hea (hc ▸ hx)) (hta x hx)
    · simp [link]
    · simp [link]
    · cases bs with
      | nil => simp [Seg, endLoc_append, endLoc]
      | cons b bs =>
        have hbe : b ≠ e := fun hc => heb (hc ▸ List.mem_cons_self ..)
        refine ⟨?_, ?_, ?_⟩
        · exact (link_nxt_new (Ne.symm hpe)).trans hs.2.1
        · exact link_bk_target (by simp only [target]; intro hc; injection hc with hc; exact hbe hc)
        · rw [endLoc_append] at h1
          have h2 : Seg m (.elem b) bs (endLoc (.elem b) bs) := h1.2.2.2
          rw [endLoc_append]
          refine Seg_frame h2 ?_ ?_
          · intro as' bs' he hne
            obtain ⟨x, hx, h1⟩ := endLoc_elem (H := H) b as'
            have hxm : x ∈ b :: bs := by
              rw [he]
              rcases List.mem_cons.mp hx with h | h
              · rw [h]; exact List.mem_cons_self ..
              · exact List.mem_cons_of_mem _ (List.mem_append_left _ h)
            rw [h1]
            exact link_nxt (Ne.symm (hpb x hxm)) (by intro hc; injection hc with hc; exact heb (hc ▸ hxm))
          · intro x hx
            have hxb : x ≠ b := by
              intro hc
              have := (List.nodup_append.mp hnd).2.1
              exact (List.nodup_cons.mp this).1 (hc ▸ hx)
            exact link_bk (by intro hc; injection hc with hc; exact heb (hc ▸ List.mem_cons_of_mem _ hx))
              (by simp only [target]; intro hc; injection hc with hc; exact hxb hc)
  · rw [endLoc_append]
    show (link m _ e _).nxt (endLoc (.elem e) bs) = none
    cases bs with
    | nil => exact (link_nxt_new (Ne.symm hpe)).trans hs.2.1
    | cons b bs =>
      obtain ⟨x, hx, h3⟩ := endLoc_elem (H := H) b bs
      have hn := hl.nil
      rw [endLoc_append] at hn
      simp only [endLoc] at hn ⊢
      rw [h3] at hn ⊢
      exact (link_nxt (Ne.symm (hpb x hx)) (by intro hc; injection hc with hc; exact heb (hc ▸ hx))).trans hn
  · rw [endLoc_append]
    cases bs with
    | nil => exact link_bk_target (by simp [target])
    | cons b bs =>
      have hn := hl.last
      rw [endLoc_append] at hn
      exact (link_bk (by simp) (by simp [target])).trans hn

/-- The memory after unlinking `e`, which is behind `p` and pointed back to by `t`. -/
def unlink (m : Mem H E) (p : Loc H E) (e : E) (t : Loc H E) : Mem H E :=
  { nxt := fun l => if l = .elem e then none else if l = p then m.nxt (.elem e) else m.nxt l,
    bk := fun l => if l = .elem e then none else if l = t then some p else m.bk l }

theorem unlink_nxt {m : Mem H E} {p : Loc H E} {e : E} {t l : Loc H E} (h1 : l ≠ .elem e) (h2 : l ≠ p) :
    (unlink m p e t).nxt l = m.nxt l := by simp only [unlink]; rw [if_neg h1, if_neg h2]

theorem unlink_bk {m : Mem H E} {p : Loc H E} {e : E} {t l : Loc H E} (h1 : l ≠ .elem e) (h2 : l ≠ t) :
    (unlink m p e t).bk l = m.bk l := by simp only [unlink]; rw [if_neg h1, if_neg h2]

theorem unlink_nxt_p {m : Mem H E} {p : Loc H E} {e : E} {t : Loc H E} (h : p ≠ .elem e) :
    (unlink m p e t).nxt p = m.nxt (.elem e) := by simp only [unlink]; rw [if_neg h, if_pos trivial]

theorem unlink_bk_target {m : Mem H E} {p : Loc H E} {e : E} {t : Loc H E} (h : t ≠ .elem e) :
    (unlink m p e t).bk t = some p := by simp only [unlink]; rw [if_neg h, if_pos trivial]

theorem unlink_isList {m : Mem H E} {h : H} {as bs : List E} {e : E}
    (hl : IsList m h (as ++ e :: bs)) :
    IsList (unlink m (endLoc (.head h) as) e (target h bs)) h (as ++ bs) := by
  have hnd := hl.nodup
  have hd := List.nodup_append.mp hnd
  have hea : e ∉ as := fun hc => hd.2.2 e hc e (List.mem_cons_self ..) rfl
  have heb : e ∉ bs := (List.nodup_cons.mp hd.2.1).1
  have hs1 : IsList m h ((as ++ [e]) ++ bs) := by simpa using hl
  have hs := hs1.split
  have hs0 := hl.split
  have h1 := Seg_append.mp hl.seg
  have hpe : endLoc (.head h) as ≠ .elem e := by
    rcases endLoc_mem (.head h : Loc H E) as with ⟨_, h1⟩ | ⟨x, hx, h1⟩
    · rw [h1]; simp
    · rw [h1]; intro hc; injection hc with hc; exact hea (hc ▸ hx)
  have hpb : ∀ b ∈ bs, endLoc (.head h) as ≠ .elem b := by
    intro b hb
    rcases endLoc_mem (.head h : Loc H E) as with ⟨_, h1⟩ | ⟨x, hx, h1⟩
    · rw [h1]; simp
    · rw [h1]; intro hc; injection hc with hc
      exact hd.2.2 x hx b (List.mem_cons_of_mem _ hb) hc
  have hta : ∀ a ∈ as, (Loc.elem a : Loc H E) ≠ target h bs := by
    intro a ha
    cases bs with
    | nil => simp [target]
    | cons b bs =>
      simp only [target]
      intro hc; injection hc with hc
      exact hd.2.2 a ha b (by simp) hc
  have hne : m.nxt (.elem e) = bs.head? := by
    have := hs.2.1
    rw [endLoc_append] at this
    exact this
  refine ⟨?_, ?_, ?_, ?_⟩
  · refine List.nodup_append.mpr ⟨hd.1, (List.nodup_cons.mp hd.2.1).2, ?_⟩
    intro a ha b hb
    exact hd.2.2 a ha b (List.mem_cons_of_mem _ hb)
  · rw [Seg_append]
    refine ⟨Seg_frame hs0.1 ?_ ?_, ?_⟩
    · intro as' bs' he hne
      have hne' : endLoc (.head h) as' ≠ endLoc (.head h) as := by
        rw [he]
        exact endLoc_ne (he ▸ hd.1) hne (by simp)
      have hne2 : endLoc (.head h) as' ≠ .elem e := by
        rcases endLoc_mem (.head h : Loc H E) as' with ⟨_, h1⟩ | ⟨x, hx, h1⟩
        · rw [h1]; simp
        · rw [h1]; intro hc; injection hc with hc
          exact hea (by rw [he]; exact List.mem_append_left _ (hc ▸ hx))
      exact unlink_nxt hne2 hne'
    · intro x hx
      exact unlink_bk (by intro hc; injection hc with hc; exact hea (hc ▸ hx)) (hta x hx)
    · cases bs with
      | nil => simp [Seg, endLoc_append, endLoc]
      | cons b bs =>
        have hbe : b ≠ e := fun hc => heb (hc ▸ List.mem_cons_self ..)
        refine ⟨?_, ?_, ?_⟩
        · exact (unlink_nxt_p hpe).trans hne
        · exact unlink_bk_target (by simp only [target]; intro hc; injection hc with hc; exact hbe hc)
        · rw [endLoc_append] at h1
          have h2 : Seg m (.elem b) bs (endLoc (.elem b) bs) := h1.2.2.2.2.2
          rw [endLoc_append]
          refine Seg_frame h2 ?_ ?_
          · intro as' bs' he hne
            obtain ⟨x, hx, h1⟩ := endLoc_elem (H := H) b as'
            have hxm : x ∈ b :: bs := by
              rw [he]
              rcases List.mem_cons.mp hx with h | h
              · rw [h]; exact List.mem_cons_self ..
              · exact List.mem_cons_of_mem _ (List.mem_append_left _ h)
            rw [h1]
            exact unlink_nxt (by intro hc; injection hc with hc; exact heb (hc ▸ hxm)) (Ne.symm (hpb x hxm))
          · intro x hx
            have hxb : x ≠ b := by
              intro hc
              have := (List.nodup_cons.mp hd.2.1).2
              exact (List.nodup_cons.mp this).1 (hc ▸ hx)
            exact unlink_bk (by intro hc; injection hc with hc; exact heb (hc ▸ List.mem_cons_of_mem _ hx))
              (by simp only [target]; intro hc; injection hc with hc; exact hxb hc)
  · rw [endLoc_append]
    cases bs with
    | nil => exact (unlink_nxt_p hpe).trans hne
    | cons b bs =>
      obtain ⟨x, hx, h3⟩ := endLoc_elem (H := H) b bs
      have hn := hl.nil
      rw [endLoc_append] at hn
      simp only [endLoc] at hn ⊢
      rw [h3] at hn ⊢
      exact (unlink_nxt (by intro hc; injection hc with hc; exact heb (hc ▸ hx)) (Ne.symm (hpb x hx))).trans hn
  · rw [endLoc_append]
    cases bs with
    | nil => exact unlink_bk_target (by simp [target])
    | cons b bs =>
      have hn := hl.last
      rw [endLoc_append] at hn
      exact (unlink_bk (by simp) (by simp [target])).trans hn


theorem Mem.ext' {m m' : Mem H E} (h1 : ∀ l, m.nxt l = m'.nxt l) (h2 : ∀ l, m.bk l = m'.bk l) : m = m' := by
  cases m; cases m'
  simp only [Mem.mk.injEq]
  exact ⟨funext h1, funext h2⟩

theorem insertHead_eq {m : Mem H E} {h : H} {xs : List E} {e : E} (hl : IsList m h xs) (hf : e ∉ xs) :
    insertHead m h e = some (link m (.head h) e (target h xs)) := by
  have hs := IsList.split (as := []) hl
  simp only [endLoc] at hs
  cases xs with
  | nil =>
    simp only [insertHead, Mem.setNxt, hs.2.1, target, Mem.setBk]
    simp
    apply Mem.ext' <;> intro l <;> simp only [link, target] <;> grind
  | cons x xs =>
    have : x ≠ e := by grind
    simp only [insertHead, Mem.setNxt, hs.2.1, target, Mem.setBk]
    simp
    apply Mem.ext' <;> intro l <;> simp only [link, target] <;> grind

theorem insertTail_eq {m : Mem H E} {h : H} {xs : List E} {e : E} (hl : IsList m h xs) (hf : e ∉ xs) :
    insertTail m h e = some (link m (endLoc (.head h) xs) e (.head h)) := by
  have hlast := hl.last
  have hnil := hl.nil
  have hp : endLoc (.head h) xs ≠ .elem e := by
    rcases endLoc_mem (.head h : Loc H E) xs with ⟨_, h1⟩ | ⟨x, hx, h1⟩ <;> rw [h1] <;> grind
  simp only [insertTail, Mem.setNxt, Mem.setBk]
  simp [hlast]
  apply Mem.ext' <;> intro l <;> simp only [link] <;> grind

theorem insertAfter_eq {m : Mem H E} {h : H} {as bs : List E} {x e : E} (hl : IsList m h (as ++ x :: bs))
    (hf : e ∉ as ++ x :: bs) :
    insertAfter m h x e = link m (.elem x) e (target h bs) := by
  have hl' : IsList m h ((as ++ [x]) ++ bs) := by simpa using hl
  have hs := hl'.split
  rw [endLoc_append] at hs
  simp only [endLoc] at hs
  have hxe : x ≠ e := by grind
  cases bs with
  | nil =>
    simp only [insertAfter, Mem.setNxt, hs.2.1, target, Mem.setBk]
    apply Mem.ext' <;> intro l <;> simp only [link, target] <;> grind
  | cons b bs =>
    have : b ≠ e := by grind
    simp only [insertAfter, Mem.setNxt, hs.2.1, target, Mem.setBk]
    apply Mem.ext' <;> intro l <;> simp only [link, target] <;> grind

theorem insertBefore_eq {m : Mem H E} {h : H} {as bs : List E} {x e : E} (hl : IsList m h (as ++ x :: bs))
    (hf : e ∉ as ++ x :: bs) :
    insertBefore m x e = some (link m (endLoc (.head h) as) e (.elem x)) := by
  have hs := hl.split
  have hxe : x ≠ e := by grind
  have hp : endLoc (.head h) as ≠ .elem e := by
    rcases endLoc_mem (.head h : Loc H E) as with ⟨_, h1⟩ | ⟨x, hx, h1⟩ <;> rw [h1] <;> grind
  simp only [target, List.head?_cons] at hs
  simp only [insertBefore, Mem.setNxt, Mem.setBk, hs.2.2]
  simp [hxe, hs.2.2]
  apply Mem.ext' <;> intro l <;> simp only [link] <;> grind

theorem remove_eq {m : Mem H E} {h : H} {as bs : List E} {e : E} (hl : IsList m h (as ++ e :: bs)) :
    remove m h e = some (unlink m (endLoc (.head h) as) e (target h bs)) := by
  have hs := hl.split
  have hl' : IsList m h ((as ++ [e]) ++ bs) := by simpa using hl
  have hs' := hl'.split
  rw [endLoc_append] at hs'
  simp only [endLoc] at hs'
  have hnd := hl.nodup
  simp only [target, List.head?_cons] at hs
  have hp : endLoc (.head h) as ≠ .elem e := by
    rcases endLoc_mem (.head h : Loc H E) as with ⟨_, h1⟩ | ⟨x, hx, h1⟩ <;> rw [h1] <;> grind
  cases bs with
  | nil =>
    simp only [remove, Mem.setNxt, Mem.setBk, hs.2.2, hs'.2.1, target, List.head?_nil]
    simp [hs.2.2]
    apply Mem.ext' <;> intro l <;> simp only [unlink] <;> grind
  | cons b bs =>
    have : b ≠ e := by grind
    simp only [remove, Mem.setNxt, Mem.setBk, hs.2.2, hs'.2.1, target, List.head?_cons]
    simp [hs.2.2, this.symm]
    apply Mem.ext' <;> intro l <;> simp only [unlink] <;> grind

theorem endLoc_cases (h : H) (xs : List E) :
    endLoc (.head h : Loc H E) xs = .head h ∨ ∃ x ∈ xs, endLoc (.head h : Loc H E) xs = .elem x := by
  rcases endLoc_mem (.head h : Loc H E) xs with ⟨_, h1⟩ | h1
  · exact .inl h1
  · exact .inr h1

/-- The memory after a concatenation with a list that is not empty. -/
def joined (m : Mem H E) (h1 h2 : H) (p : Loc H E) (f : E) : Mem H E :=
  { nxt := fun l => if l = .head h2 then none else if l = p then some f else m.nxt l,
    bk := fun l => if l = .head h2 then some (.head h2) else if l = .head h1 then m.bk (.head h2)
      else if l = .elem f then some p else m.bk l }

theorem concat_eq {m : Mem H E} {h1 h2 : H} {xs ys : List E} {y : E} (hne : h1 ≠ h2)
    (hl1 : IsList m h1 xs) (hl2 : IsList m h2 (y :: ys)) :
    concat m h1 h2 = some (joined m h1 h2 (endLoc (.head h1) xs) y) := by
  have hf : m.nxt (.head h2) = some y := hl2.seg.1
  have hlast := hl1.last
  have hp : endLoc (.head h1 : Loc H E) xs ≠ .head h2 := by
    rcases endLoc_cases h1 xs with h | ⟨x, _, h⟩ <;> rw [h] <;> grind
  simp only [concat, empty, first, hf, Option.isNone_some, Bool.not_false, if_true, hlast, Mem.setNxt,
    Mem.setBk, init]
  simp only [Ne.symm hp, if_false]
  congr 1

theorem concat_nil {m : Mem H E} {h1 h2 : H} (hl2 : IsList m h2 []) : concat m h1 h2 = some m := by
  have : m.nxt (.head h2) = none := hl2.nil
  simp [concat, empty, first, this]

theorem joined_isList {m : Mem H E} {h1 h2 : H} {xs ys : List E} {y : E} (hne : h1 ≠ h2)
    (hl1 : IsList m h1 xs) (hl2 : IsList m h2 (y :: ys)) (hd : ∀ e ∈ xs, e ∉ y :: ys) :
    IsList (joined m h1 h2 (endLoc (.head h1) xs) y) h1 (xs ++ y :: ys) ∧
      IsList (joined m h1 h2 (endLoc (.head h1) xs) y) h2 [] := by
  have hs2 := hl2.seg
  have hn2 := hl2.nil
  have hb2 := hl2.last
  have hnd1 := hl1.nodup
  have hnd2 := hl2.nodup
  have hp := endLoc_cases (E := E) h1 xs
  refine ⟨⟨?_, ?_, ?_, ?_⟩, by simp, rfl, by simp [joined, endLoc], by simp [joined, endLoc]⟩
  · refine List.nodup_append.mpr ⟨hnd1, hnd2, fun a ha b hb hc => hd a ha (hc ▸ hb)⟩
  · rw [Seg_append]
    refine ⟨Seg_frame hl1.seg ?_ ?_, ?_, ?_, ?_⟩
    · intro as bs he hn
      have h3 : endLoc (.head h1) as ≠ endLoc (.head h1) xs := by
        rw [he]; exact endLoc_ne (he ▸ hnd1) hn (by simp)
      have h4 : endLoc (.head h1 : Loc H E) as ≠ .head h2 := by
        rcases endLoc_cases h1 as with h | ⟨x, _, h⟩ <;> rw [h] <;> grind
      simp only [joined]
      rw [if_neg h4, if_neg h3]
    · intro x hx
      have : x ≠ y := fun hc => hd x hx (by simp [hc])
      simp [joined, this]
    · simp only [joined]
      rcases hp with h | ⟨x, _, h⟩ <;> rw [h] <;> grind
    · simp [joined]
    · rw [endLoc_append]
      refine Seg_frame hs2.2.2 ?_ ?_
      · intro as bs he hn
        obtain ⟨x, hx, h3⟩ := endLoc_elem (H := H) y as
        have hxm : x ∈ y :: ys := by
          rw [he]
          rcases List.mem_cons.mp hx with h | h
          · rw [h]; exact List.mem_cons_self ..
          · exact List.mem_cons_of_mem _ (List.mem_append_left _ h)
        rw [h3]
        simp only [joined]
        rcases hp with h | ⟨z, hz, h⟩ <;> rw [h] <;> grind
      · intro x hx
        have : x ≠ y := fun hc => (List.nodup_cons.mp hnd2).1 (hc ▸ hx)
        simp [joined, this]
  · rw [endLoc_append]
    obtain ⟨x, hx, h3⟩ := endLoc_elem (H := H) y ys
    simp only [endLoc] at hn2 ⊢
    rw [h3] at hn2 ⊢
    simp only [joined]
    rcases hp with h | ⟨z, hz, h⟩ <;> rw [h] <;> grind
  · rw [endLoc_append]
    simp only [joined]
    simp only [endLoc] at hb2 ⊢
    grind

/-! ## The operations on all lists -/

/-- Replace the sequence of one list. -/
def put (L : Lists H E) (h : H) (xs : List E) : Lists H E := fun h' => if h' = h then some xs else L h'

theorem Rep.link {m : Mem H E} {L : Lists H E} (r : Rep m L) {h : H} {as bs : List E} {e : E}
    (hL : L h = some (as ++ bs)) (hf : Free L e) :
    Rep (link m (endLoc (.head h) as) e (target h bs)) (put L h (as ++ e :: bs)) := by
  have hp := endLoc_cases (E := E) h as
  refine ⟨?_, ?_, ?_⟩
  · intro h' xs hx
    by_cases hh : h' = h
    · subst hh
      simp only [put, if_true, Option.some.injEq] at hx
      subst hx
      exact link_isList (r.lists _ _ hL) (hf _ _ hL)
    · simp only [put, if_neg hh] at hx
      have hdis := r.disj h' h xs _ hh hx hL
      have hex := hf _ _ hx
      refine (r.lists _ _ hx).frame ⟨link_nxt ?_ (by simp), link_bk (by simp) ?_⟩ ?_
      · rcases hp with h | ⟨x, _, h⟩ <;> rw [h] <;> grind
      · cases bs <;> simp only [target] <;> grind
      · intro x hx'
        refine ⟨link_nxt ?_ (by grind), link_bk (by grind) ?_⟩
        · rcases hp with h | ⟨x, _, h⟩ <;> rw [h] <;> grind
        · cases bs <;> simp only [target] <;> grind
  · intro h1 h2 xs ys hne hx hy z hz
    have hd := r.disj
    have hf' := hf
    simp only [put] at hx hy
    split at hx <;> split at hy
    · grind
    · have := hd h h2 _ _ (by grind) hL hy
      have := hf' _ _ hy
      grind
    · have := hd h1 h _ _ (by grind) hx hL
      have := hf' _ _ hx
      grind
    · exact hd h1 h2 _ _ hne hx hy z hz
  · intro x hx
    have hxL : Free L x := by
      intro h' xs hh
      by_cases hc : h' = h
      · subst hc
        have := hx h' (as ++ e :: bs) (by simp [put])
        grind
      · exact hx h' xs (by simp [put, hc, hh])
    have hxe := hx h (as ++ e :: bs) (by simp [put])
    have := r.free x hxL
    refine ⟨(link_nxt ?_ ?_).trans this.1, (link_bk ?_ ?_).trans this.2⟩
    · rcases hp with h | ⟨y, _, h⟩ <;> rw [h] <;> grind
    · grind
    · grind
    · cases bs <;> simp only [target] <;> grind

theorem Rep.unlink {m : Mem H E} {L : Lists H E} (r : Rep m L) {h : H} {as bs : List E} {e : E}
    (hL : L h = some (as ++ e :: bs)) :
    Rep (unlink m (endLoc (.head h) as) e (target h bs)) (put L h (as ++ bs)) := by
  have hp := endLoc_cases (E := E) h as
  have hnd := (r.lists _ _ hL).nodup
  refine ⟨?_, ?_, ?_⟩
  · intro h' xs hx
    by_cases hh : h' = h
    · subst hh
      simp only [put, if_true, Option.some.injEq] at hx
      subst hx
      exact unlink_isList (r.lists _ _ hL)
    · simp only [put, if_neg hh] at hx
      have hdis := r.disj h' h xs _ hh hx hL
      refine (r.lists _ _ hx).frame ⟨unlink_nxt (by simp) ?_, unlink_bk (by simp) ?_⟩ ?_
      · rcases hp with h | ⟨x, _, h⟩ <;> rw [h] <;> grind
      · cases bs <;> simp only [target] <;> grind
      · intro x hx'
        refine ⟨unlink_nxt (by grind) ?_, unlink_bk (by grind) ?_⟩
        · rcases hp with h | ⟨x, _, h⟩ <;> rw [h] <;> grind
        · cases bs <;> simp only [target] <;> grind
  · intro h1 h2 xs ys hne hx hy z hz
    have hd := r.disj
    simp only [put] at hx hy
    split at hx <;> split at hy
    · grind
    · have := hd h h2 _ _ (by grind) hL hy
      grind
    · have := hd h1 h _ _ (by grind) hx hL
      grind
    · exact hd h1 h2 _ _ hne hx hy z hz
  · intro x hx
    by_cases hxe : x = e
    · subst hxe
      simp [KList.unlink]
    · have hxL : Free L x := by
        intro h' xs hh
        by_cases hc : h' = h
        · subst hc
          have := hx h' (as ++ bs) (by simp [put])
          grind
        · exact hx h' xs (by simp [put, hc, hh])
      have hxe' := hx h (as ++ bs) (by simp [put])
      have := r.free x hxL
      refine ⟨(unlink_nxt (by grind) ?_).trans this.1, (unlink_bk (by grind) ?_).trans this.2⟩
      · rcases hp with h | ⟨y, _, h⟩ <;> rw [h] <;> grind
      · cases bs <;> simp only [target] <;> grind

theorem Rep.joined {m : Mem H E} {L : Lists H E} (r : Rep m L) {h1 h2 : H} {xs ys : List E} {y : E}
    (hne : h1 ≠ h2) (hL1 : L h1 = some xs) (hL2 : L h2 = some (y :: ys)) :
    Rep (joined m h1 h2 (endLoc (.head h1) xs) y) (put (put L h2 []) h1 (xs ++ y :: ys)) := by
  have hp := endLoc_cases (E := E) h1 xs
  have hj := joined_isList hne (r.lists _ _ hL1) (r.lists _ _ hL2) (r.disj _ _ _ _ hne hL1 hL2)
  refine ⟨?_, ?_, ?_⟩
  · intro h' zs hz
    by_cases hh : h' = h1
    · subst hh
      simp only [put, if_true, Option.some.injEq] at hz
      subst hz
      exact hj.1
    · by_cases hh2 : h' = h2
      · subst hh2
        simp only [put, if_neg hh, if_true, Option.some.injEq] at hz
        subst hz
        exact hj.2
      · simp only [put, if_neg hh, if_neg hh2] at hz
        have hd1 := r.disj h' h1 zs _ hh hz hL1
        have hd2 := r.disj h' h2 zs _ hh2 hz hL2
        refine (r.lists _ _ hz).frame ⟨?_, ?_⟩ ?_
        · simp only [KList.joined]
          rcases hp with h | ⟨x, _, h⟩ <;> rw [h] <;> grind
        · simp only [KList.joined]; grind
        · intro x hx
          refine ⟨?_, ?_⟩
          · simp only [KList.joined]
            rcases hp with h | ⟨x, _, h⟩ <;> rw [h] <;> grind
          · simp only [KList.joined]; grind
  · intro a b as bs hab ha hb z hz
    have d1 : ∀ c cs, c ≠ h1 → L c = some cs → ∀ e ∈ xs, e ∉ cs := fun c cs hc h => r.disj h1 c xs cs (Ne.symm hc) hL1 h
    have d2 : ∀ c cs, c ≠ h2 → L c = some cs → ∀ e ∈ y :: ys, e ∉ cs := fun c cs hc h => r.disj h2 c _ cs (Ne.symm hc) hL2 h
    have d3 := fun c cs hc h => r.disj c h1 cs xs hc h hL1
    have d4 := fun c cs hc h => r.disj c h2 cs _ hc h hL2
    have d5 := r.disj a b as bs hab
    simp only [put] at ha hb
    split at ha <;> split at hb <;> grind
  · intro x hx
    have hx1 := hx h1 (xs ++ y :: ys) (by simp [put])
    have hxL : Free L x := by
      intro h' zs hh
      by_cases hc : h' = h1
      · subst hc; grind
      · by_cases hc2 : h' = h2
        · subst hc2; grind
        · exact hx h' zs (by simp [put, hc, hc2, hh])
    have := r.free x hxL
    refine ⟨?_, ?_⟩
    · simp only [KList.joined]
      rcases hp with h | ⟨z, _, h⟩ <;> rw [h] <;> grind
    · simp only [KList.joined]; grind

theorem Rep.init {m : Mem H E} {L : Lists H E} (r : Rep m L) {h : H} (hL : L h = none) :
    Rep (init m h) (put L h []) := by
  refine ⟨?_, ?_, ?_⟩
  · intro h' xs hx
    by_cases hh : h' = h
    · subst hh
      simp only [put, if_true, Option.some.injEq] at hx
      subst hx
      exact ⟨by simp, rfl, by simp [KList.init, endLoc, Mem.setNxt, Mem.setBk],
        by simp [KList.init, endLoc, Mem.setNxt, Mem.setBk]⟩
    · simp only [put, if_neg hh] at hx
      exact (r.lists _ _ hx).frame (by simp [KList.init, Mem.setNxt, Mem.setBk, hh])
        (by simp [KList.init, Mem.setNxt, Mem.setBk])
  · intro a b as bs hab ha hb z hz
    have := r.disj a b as bs hab
    simp only [put] at ha hb
    split at ha <;> split at hb <;> grind
  · intro x hx
    have hxL : Free L x := by
      intro h' zs hh
      exact hx h' zs (by have : h' ≠ h := by grind
                         simp [put, this, hh])
    have := r.free x hxL
    simpa [KList.init, Mem.setNxt, Mem.setBk] using this

theorem after_append {as bs : List E} {x e : E} (h : x ∉ as) :
    after x e (as ++ x :: bs) = as ++ x :: e :: bs := by
  induction as with
  | nil => simp [after]
  | cons a as ih => simp only [List.cons_append, after]; grind

theorem before_append {as bs : List E} {x e : E} (h : x ∉ as) :
    before x e (as ++ x :: bs) = as ++ e :: x :: bs := by
  induction as with
  | nil => simp [before]
  | cons a as ih => simp only [List.cons_append, before]; grind

theorem before_absent {as : List E} {x e : E} (h : x ∉ as) : before x e as = as := by
  induction as with
  | nil => rfl
  | cons a as ih => simp only [before]; grind

theorem mem_split {xs : List E} {x : E} (h : x ∈ xs) : ∃ as bs, xs = as ++ x :: bs ∧ x ∉ as := by
  induction xs with
  | nil => simp at h
  | cons y ys ih =>
    by_cases hy : x = y
    · exact ⟨[], ys, by simp [hy], by simp⟩
    · obtain ⟨as, bs, e, hn⟩ := ih (by grind)
      exact ⟨y :: as, bs, by simp [e], by grind⟩

/-- C38: every operation does to memory what it does to the sequences. -/
theorem step {m : Mem H E} {L : Lists H E} (r : Rep m L) (op : Op H E) (hpre : op.Pre L) :
    ∃ m', op.run m = some m' ∧ Rep m' (op.spec L) := by
  cases op with
  | init h => exact ⟨_, rfl, r.init hpre⟩
  | insertHead h e =>
    obtain ⟨hs, hf⟩ := hpre
    obtain ⟨xs, hx⟩ := Option.isSome_iff_exists.mp hs
    refine ⟨_, insertHead_eq (r.lists _ _ hx) (hf _ _ hx), ?_⟩
    have := r.link (as := []) (bs := xs) hx hf
    have e2 : Op.spec L (.insertHead h e) = put L h ([] ++ e :: xs) := by
      funext h'; simp only [Op.spec, upd, put]; grind
    rw [e2]; exact this
  | insertTail h e =>
    obtain ⟨hs, hf⟩ := hpre
    obtain ⟨xs, hx⟩ := Option.isSome_iff_exists.mp hs
    refine ⟨_, insertTail_eq (r.lists _ _ hx) (hf _ _ hx), ?_⟩
    have := r.link (as := xs) (bs := []) (by simpa using hx) hf
    have e2 : Op.spec L (.insertTail h e) = put L h (xs ++ e :: []) := by
      funext h'; simp only [Op.spec, upd, put]; grind
    rw [e2]; exact this
  | insertAfter h x e =>
    obtain ⟨⟨xs, hx, hm⟩, hf⟩ := hpre
    obtain ⟨as, bs, rfl, hna⟩ := mem_split hm
    refine ⟨_, congrArg some (insertAfter_eq (r.lists _ _ hx) (hf _ _ hx)), ?_⟩
    have := r.link (as := as ++ [x]) (bs := bs) (by simpa using hx) hf
    have e2 : Op.spec L (.insertAfter h x e) = put L h (as ++ [x] ++ e :: bs) := by
      funext h'
      by_cases hh : h' = h
      · simp [Op.spec, upd, put, hh, hx, after_append hna]
      · simp [Op.spec, upd, put, hh]
    rw [e2]
    rw [endLoc_append] at this
    exact this
  | insertBefore x e =>
    obtain ⟨⟨h, xs, hx, hm⟩, hf⟩ := hpre
    obtain ⟨as, bs, rfl, hna⟩ := mem_split hm
    refine ⟨_, insertBefore_eq (r.lists _ _ hx) (hf _ _ hx), ?_⟩
    have := r.link (as := as) (bs := x :: bs) hx hf
    have e2 : Op.spec L (.insertBefore x e) = put L h (as ++ e :: x :: bs) := by
      funext h'
      by_cases hh : h' = h
      · simp [Op.spec, put, hh, hx, before_append hna]
      · simp only [Op.spec, put, if_neg hh]
        cases hL : L h' with
        | none => rfl
        | some ys =>
          have := r.disj h h' _ _ (Ne.symm hh) hx hL x hm
          simp [before_absent this]
    rw [e2]
    exact this
  | remove h e =>
    obtain ⟨xs, hx, hm⟩ := hpre
    obtain ⟨as, bs, rfl, hna⟩ := mem_split hm
    refine ⟨_, remove_eq (r.lists _ _ hx), ?_⟩
    have e2 : Op.spec L (.remove h e) = put L h (as ++ bs) := by
      funext h'
      by_cases hh : h' = h
      · simp [Op.spec, upd, put, hh, hx, List.erase_append, hna]
      · simp [Op.spec, upd, put, hh]
    rw [e2]
    exact r.unlink hx
  | concat h1 h2 =>
    obtain ⟨hs1, hs2, hne⟩ := hpre
    obtain ⟨xs, hx⟩ := Option.isSome_iff_exists.mp hs1
    obtain ⟨ys, hy⟩ := Option.isSome_iff_exists.mp hs2
    cases ys with
    | nil =>
      refine ⟨m, concat_nil (r.lists _ _ hy), ?_⟩
      have e2 : Op.spec L (.concat h1 h2) = L := by
        funext h'
        simp only [Op.spec, hy]
        grind
      rw [e2]; exact r
    | cons y ys =>
      refine ⟨_, concat_eq hne (r.lists _ _ hx) (r.lists _ _ hy), ?_⟩
      have e2 : Op.spec L (.concat h1 h2) = put (put L h2 []) h1 (xs ++ y :: ys) := by
        funext h'
        simp only [Op.spec, hy, put]
        grind
      rw [e2]
      exact r.joined hne hx hy

/-- Every operation of a history is allowed when it is performed. -/
def Allowed : Lists H E → List (Op H E) → Prop
  | _, [] => True
  | L, op :: ops => op.Pre L ∧ Allowed (op.spec L) ops

def runAll (m : Mem H E) : List (Op H E) → Option (Mem H E)
  | [] => some m
  | op :: ops => (op.run m).bind (runAll · ops)

def specAll (L : Lists H E) : List (Op H E) → Lists H E
  | [] => L
  | op :: ops => specAll (op.spec L) ops

/-- C38: any history of allowed operations runs without touching a null pointer and ends in
memory that represents exactly the sequences the history gives. -/
theorem list_history {m : Mem H E} {L : Lists H E} (r : Rep m L) (ops : List (Op H E))
    (ha : Allowed L ops) : ∃ m', runAll m ops = some m' ∧ Rep m' (specAll L ops) := by
  induction ops generalizing m L with
  | nil => exact ⟨m, rfl, r⟩
  | cons op ops ih =>
    obtain ⟨m1, h1, r1⟩ := step r op ha.1
    obtain ⟨m2, h2, r2⟩ := ih r1 ha.2
    exact ⟨m2, by simp [runAll, h1, h2], r2⟩

/-- Zeroed memory without any initialised head. -/
theorem rep_empty : Rep (H := H) (E := E) ⟨fun _ => none, fun _ => none⟩ (fun _ => none) :=
  ⟨by simp, by simp, by simp⟩

/-! ## Queries and loops -/

theorem seg_foreach {m : Mem H E} {l l' : Loc H E} {xs : List E} (h : Seg m l xs l')
    (hn : m.nxt l' = none) (n : Nat) (hlen : xs.length ≤ n) :
    foreach m (m.nxt l) n = (xs, true) := by
  induction xs generalizing l n with
  | nil =>
    have : l = l' := h
    subst this
    rw [hn]
    unfold foreach
    rfl
  | cons x xs ih =>
    obtain ⟨h1, _, h3⟩ := h
    rw [h1]
    cases n with
    | zero => simp at hlen
    | succ n =>
      unfold foreach
      have := ih h3 n (by simpa using hlen)
      simp only [next, this]

theorem back {m : Mem H E} {h : H} {as bs : List E} (hl : IsList m h (as ++ bs)) :
    ∃ l2, m.bk (endLoc (.head h) as) = some l2 ∧ m.nxt l2 = as.getLast? := by
  rcases List.eq_nil_or_concat as with rfl | ⟨as', a, rfl⟩
  · exact ⟨_, hl.last, hl.nil⟩
  · have hl' : IsList m h (as' ++ a :: bs) := by simpa using hl
    have hs := hl'.split
    refine ⟨endLoc (.head h) as', ?_, ?_⟩
    · rw [List.concat_eq_append, endLoc_append]
      exact hs.2.2
    · rw [hs.2.1]; simp

theorem prev_spec {m : Mem H E} {h : H} {as bs : List E} {x : E} (hl : IsList m h (as ++ x :: bs)) :
    prev m x = some as.getLast? := by
  obtain ⟨l2, h1, h2⟩ := back hl
  have := hl.split.2.2
  simp only [target] at this
  simp [prev, throughBack, this, h1, h2]

theorem foreachReverse_spec {m : Mem H E} {h : H} {as bs : List E} (hl : IsList m h (as ++ bs)) (n : Nat)
    (hn : as.length ≤ n) : foreachReverse m (some as.getLast?) n = some (as.reverse, true) := by
  induction n generalizing as bs with
  | zero =>
    have : as = [] := List.length_eq_zero_iff.mp (by omega)
    subst this
    rfl
  | succ n ih =>
    rcases List.eq_nil_or_concat as with rfl | ⟨as', a, rfl⟩
    · rfl
    · have hl' : IsList m h (as' ++ a :: bs) := by simpa using hl
      have := ih hl' (by simpa using hn)
      simp [foreachReverse, prev_spec hl', this]

/-- C38: reading a list gives its sequence, in both directions, and the end points, the
neighbours and emptiness agree with it. -/
theorem list_reads {m : Mem H E} {L : Lists H E} (r : Rep m L) {h : H} {xs : List E}
    (hL : L h = some xs) :
    first m h = xs.head? ∧ last m h = some xs.getLast? ∧ empty m h = xs.isEmpty ∧
      (∀ n, xs.length ≤ n → foreach m (first m h) n = (xs, true)) ∧
      (∀ n, xs.length ≤ n → foreachReverse m (last m h) n = some (xs.reverse, true)) ∧
      (∀ as x bs, xs = as ++ x :: bs → next m x = bs.head? ∧ prev m x = some as.getLast?) := by
  have hl := r.lists _ _ hL
  have h1 : first m h = xs.head? := (IsList.split (as := []) hl).2.1
  have h2 : last m h = some xs.getLast? := by
    obtain ⟨l2, e1, e2⟩ := back (as := xs) (bs := []) (by simpa using hl)
    simp [last, throughBack, hl.last, e1, e2]
  refine ⟨h1, h2, ?_, ?_, ?_, ?_⟩
  · rw [empty, h1]; cases xs <;> rfl
  · intro n hn
    exact seg_foreach hl.seg hl.nil n hn
  · intro n hn
    rw [h2]
    exact foreachReverse_spec (bs := []) (by simpa using hl) n hn
  · intro as x bs e
    subst e
    refine ⟨?_, prev_spec hl⟩
    have := (IsList.split (as := as ++ [x]) (bs := bs) (by simpa using hl)).2.1
    rw [endLoc_append] at this
    exact this

/-- C38: `LIST_LINKED` tells whether an element is in some list. -/
theorem linked_spec {m : Mem H E} {L : Lists H E} (r : Rep m L) (e : E) :
    linked m e = true ↔ ¬ Free L e := by
  constructor
  · intro h hf
    have := r.free e hf
    simp [linked, this.1, this.2] at h
  · intro h
    by_cases hc : ∃ h xs, L h = some xs ∧ e ∈ xs
    · obtain ⟨h, xs, hx, hm⟩ := hc
      obtain ⟨as, bs, rfl, _⟩ := mem_split hm
      have := (r.lists _ _ hx).split.2.2
      simp only [target] at this
      simp [linked, this]
    · exact absurd (fun h xs hx hm => hc ⟨h, xs, hx, hm⟩) h

/-- C38: `LIST_FOREACH_SAFE` with a body that removes some of the elements visits all of
them and leaves the others, in order. -/
theorem foreach_safe_remove {m : Mem H E} {L : Lists H E} (r : Rep m L) {h : H} {xs : List E}
    (hL : L h = some xs) (p : E → Bool) (n : Nat) (hn : xs.length ≤ n) :
    ∃ m', foreachSafe (fun m e => if p e then remove m h e else some m) m (first m h) n =
        some (m', xs, true) ∧ Rep m' (fun h' => if h' = h then some (xs.filter (fun e => !p e)) else L h') := by
  have key : ∀ (xs ds : List E) (m : Mem H E) (L : Lists H E) (n : Nat), Rep m L → L h = some (ds ++ xs) →
      xs.length ≤ n →
      ∃ m', foreachSafe (fun m e => if p e then remove m h e else some m) m xs.head? n =
        some (m', xs, true) ∧ Rep m' (put L h (ds ++ xs.filter (fun e => !p e))) := by
    intro xs
    induction xs with
    | nil =>
      intro ds m L n r hL _
      refine ⟨m, by simp [foreachSafe], ?_⟩
      have : put L h (ds ++ List.filter (fun e => !p e) []) = L := by
        funext h'; simp only [put]; grind
      rw [this]; exact r
    | cons x xs ih =>
      intro ds m L n r hL hn
      cases n with
      | zero => simp at hn
      | succ n =>
        have hnx : next m x = xs.head? := ((list_reads r hL).2.2.2.2.2 ds x xs rfl).1
        simp only [List.head?_cons, foreachSafe, hnx]
        by_cases hp : p x
        · rw [if_pos hp, remove_eq (r.lists _ _ hL)]
          simp only
          have r' := r.unlink hL
          obtain ⟨m', h1, h2⟩ := ih ds _ _ n r' (by simp [put]) (by simpa using hn)
          refine ⟨m', by rw [h1]; rfl, ?_⟩
          have : put (put L h (ds ++ xs)) h (ds ++ xs.filter (fun e => !p e)) =
              put L h (ds ++ (x :: xs).filter (fun e => !p e)) := by
            funext h'; simp only [put]; grind
          rw [← this]; exact h2
        · rw [if_neg hp]
          simp only
          obtain ⟨m', h1, h2⟩ := ih (ds ++ [x]) m L n r (by simpa using hL) (by simpa using hn)
          refine ⟨m', by rw [h1]; rfl, ?_⟩
          have : put L h (ds ++ [x] ++ xs.filter (fun e => !p e)) =
              put L h (ds ++ (x :: xs).filter (fun e => !p e)) := by
            funext h'; simp only [put]; grind
          rw [← this]; exact h2
  have := key xs [] m L n r hL hn
  rw [(list_reads r hL).1]
  exact this

theorem free_bool (L : Lists Bool Nat) (e : Nat) :
    Free L e ↔ e ∉ (L true).getD [] ∧ e ∉ (L false).getD [] := by
  constructor
  · intro h
    refine ⟨fun hm => ?_, fun hm => ?_⟩
    · cases hx : L true with
      | none => simp [hx] at hm
      | some xs => exact h true xs hx (by simpa [hx] using hm)
    · cases hx : L false with
      | none => simp [hx] at hm
      | some xs => exact h false xs hx (by simpa [hx] using hm)
  · rintro ⟨h1, h2⟩ h xs hx hm
    cases h
    · exact h2 (by simpa [hx] using hm)
    · exact h1 (by simpa [hx] using hm)

/-- A history over two lists that meets the preconditions, and what it leaves behind. -/
example : Allowed (fun _ => none) ([.init false, .init true, .insertTail false 10, .insertHead false 11,
      .insertAfter false 11 12, .insertBefore 10 13, .insertTail true 14, .remove false 12,
      .concat false true] : List (Op Bool Nat)) := by
  simp [Allowed, Op.Pre, Op.spec, upd, free_bool, after, before]

example : (runAll ⟨fun _ => none, fun _ => none⟩ ([.init 0, .init 1, .insertTail 0 10, .insertHead 0 11,
      .insertAfter 0 11 12, .insertBefore 10 13, .insertTail 1 14, .remove 0 12, .concat 0 1] :
        List (Op Nat Nat))).map (fun m => (foreach m (first m 0) 9, foreachReverse m (last m 0) 9,
          empty m 1, linked m 12)) =
    some (([11, 13, 10, 14], true), some ([14, 10, 13, 11], true), true, false) := by
  decide +kernel

end Knfmt.KList
