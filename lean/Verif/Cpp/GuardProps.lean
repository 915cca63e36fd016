import Verif.Cpp.Guard
import Verif.Util.Props
/-!
# Include guards are stable
-/
namespace Knfmt.Guard

open Knfmt.Lexer (TT Flags)
open Knfmt.Comment (isSpace)

namespace Spec

/-- The directives of the guard `G`. -/
def openText (G : List Char) : List Char := "#ifndef ".toList ++ G ++ "\n".toList
def defineText (G : List Char) : List Char := "#define ".toList ++ G ++ "\n\n".toList
def closeText (G : List Char) : List Char := "#endif /* !".toList ++ G ++ " */\n".toList

/-- The tokens have exactly the guard `G`: in front of the first token there is the `#ifndef`, directly
followed by the `#define`, and no other such directive before them; in front of the end of file there is the
`#endif` that belongs to it. -/
def Guarded (G : List Char) (ts : List Tok) : Prop :=
  ∃ first eof a i d b e, ts.head? = some first ∧ ts.getLast? = some eof ∧
    first.prefixes = a ++ i :: d :: b ∧ (∀ p ∈ a, p.type ≠ .cppIfndef ∧ p.type ≠ .cppDefine) ∧
    i.type = .cppIfndef ∧ d.type = .cppDefine ∧ e ∈ eof.prefixes ∧ i.nx = some e.id ∧ e.type = .cppEndif ∧
    i.text = openText G ∧ d.text = defineText G ∧ e.text = closeText G

/-- There is a guard of some name: the same, but any texts, the define having no value. -/
def SomeGuard (ts : List Tok) (i d e : Pre) : Prop :=
  ∃ first eof a b, ts.head? = some first ∧ ts.getLast? = some eof ∧
    first.prefixes = a ++ i :: d :: b ∧ (∀ p ∈ a, p.type ≠ .cppIfndef ∧ p.type ≠ .cppDefine) ∧
    i.type = .cppIfndef ∧ d.type = .cppDefine ∧ e ∈ eof.prefixes ∧ i.nx = some e.id ∧ e.type = .cppEndif ∧
    ∃ u v w x y, d.text = u ++ v ++ w ++ x ++ y ∧ v ≠ [] ∧ w ≠ [] ∧ x ≠ [] ∧
      (∀ c ∈ u ++ w ++ y, isSpace c = true) ∧ ∀ c ∈ v ++ x, isSpace c = false

/-- What the lexer gives: different prefixes have different addresses below `n`, every conditional has an
end. -/
structure Read (ts : List Tok) (n : Nat) : Prop where
  some : ts ≠ []
  ids : ((ts.flatMap (·.prefixes)).map (·.id)).Nodup
  used : ∀ t ∈ ts, ∀ p ∈ t.prefixes, p.id < n
  linked : ∀ t ∈ ts, ∀ p ∈ t.prefixes, p.type = .cppIfndef → p.nx ≠ none

/-- A name: upper case letters, digits and underscores. -/
def isNameChar (c : Char) : Prop := ('A' ≤ c ∧ c ≤ 'Z') ∨ ('0' ≤ c ∧ c ≤ '9') ∨ c = '_'

/-- What inserting the guard `G` does. `old` are the addresses of the directives that are gone. -/
structure Inserted (G : List Char) (n : Nat) (old : List Nat) (ts ts' : List Tok) : Prop where
  /-- All other comments and directives stay where they are. -/
  kept : ts'.map (fun t => t.prefixes.filter fun p => p.id < n) =
    ts.map (fun t => t.prefixes.filter fun p => p.id ∉ old)
  /-- After tokens, only white space may be changed. -/
  after : ts'.map (fun t => t.suffixes.filter fun s => s.type ≠ .space) =
    ts.map (fun t => t.suffixes.filter fun s => s.type ≠ .space)
  /-- Apart from lines, the three directives are new. -/
  added : ((ts'.flatMap (·.prefixes)).filter fun p => n ≤ p.id ∧ p.type ≠ .space).map (·.text) =
    [openText G, defineText G, closeText G]
  /-- There are only comments in front of them. -/
  opened : ∃ first lead i d rest, ts'.head? = some first ∧ first.prefixes = lead ++ i :: d :: rest ∧
    (∀ p ∈ lead, p.type = .comment ∨ (p.type = .space ∧ p.text = ['\n'])) ∧
    i.text = openText G ∧ d.text = defineText G
  /-- Nothing comes after the end of the guard. -/
  closed : ∃ eof body e, ts'.getLast? = some eof ∧ eof.prefixes = body ++ [e] ∧ e.text = closeText G

/-- The type of a directive when it is read again. -/
def readType (p : Pre) : TT :=
  if p.type ≠ .cpp then p.type
  else if "#ifndef".toList <+: p.text then .cppIfndef
  else if "#endif".toList <+: p.text then .cppEndif
  else if "#ifdef".toList <+: p.text then .cppIfdef
  else if "#if".toList <+: p.text then .cppIf
  else if "#else".toList <+: p.text then .cppElse
  else if "#elif".toList <+: p.text then .cppElif
  else .cpp

/-- Directives that open a conditional. -/
def Opens (t : TT) : Prop := t = .cppIf ∨ t = .cppIfdef ∨ t = .cppIfndef

instance (t : TT) : Decidable (Opens t) := inferInstanceAs (Decidable (_ ∨ _))

/-- The directive that ends the current part of a conditional, `d` conditionals being open inside of it. -/
def partner : Nat → List (Nat × TT) → Option Nat
  | _, [] => none
  | d, (id, t) :: l =>
    if Opens t then partner (d + 1) l
    else if t = .cppEndif then (if d = 0 then some id else partner (d - 1) l)
    else if (t = .cppElse ∨ t = .cppElif) ∧ d = 0 then some id
    else partner d l

/-- How many conditionals are open in the end, if `d` are at the beginning; `none` if one that is not open
is continued or closed. -/
def depth : Nat → List TT → Option Nat
  | d, [] => some d
  | d, t :: l =>
    if Opens t then depth (d + 1) l
    else if t = .cppEndif then (if d = 0 then none else depth (d - 1) l)
    else if (t = .cppElse ∨ t = .cppElif) ∧ d = 0 then none
    else depth d l

/-- All conditionals are closed. -/
def Balanced (l : List TT) : Prop := depth 0 l = some 0

/-- What is seen of a prefix. The text of comments is left out, since it includes the lines that follow. -/
def seen (t : TT) (p : Pre) : Nat × TT × List Char := (p.id, t, if p.type = .comment then [] else p.text)

/-- `ts2` is what reading the text of `ts` gives: lines are not prefixes of their own, directives have the type
they are read as, and those that are opened are linked to the one they are continued or closed by. -/
structure Reread (ts ts2 : List Tok) : Prop where
  same : ts2.map (fun t => t.prefixes.map fun p => seen p.type p) =
    ts.map (fun t => (t.prefixes.filter fun p => p.type ≠ .space).map fun p => seen (readType p) p)
  linked : ∀ a p b, ts2.flatMap (·.prefixes) = a ++ p :: b → p.type = .cppIfndef →
    p.nx = partner 0 (b.map fun q => (q.id, q.type))

end Spec

/-! ## Words -/

theorem gw_nil (k : Nat) : guardWords [] k = k := by
  unfold guardWords; simp

theorem gw_step (v w r : List Char) (k : Nat) (hv : ∀ c ∈ v, isSpace c = false) (hw : ∀ c ∈ w, isSpace c = true)
    (hne : v ++ w ++ r ≠ []) (hr : ∀ c, r.head? = some c → isSpace c = false) (hwr : w = [] → r = []) :
    guardWords (v ++ w ++ r) k =
      if k + (if v = [] then 0 else 1) > 2 then k + (if v = [] then 0 else 1)
      else guardWords r (k + (if v = [] then 0 else 1)) := by
  have h1 : ∀ c ∈ v, (!isSpace c) = true := by intro c hc; simp [hv c hc]
  have hw0 : ∀ x : List Char, (w ++ x).takeWhile (fun c => !isSpace c) = [] ∨ w = [] := by
    intro x
    cases w with
    | nil => right; rfl
    | cons c w => left; rw [List.cons_append, List.takeWhile_cons, if_neg]; simp [hw c (by simp)]
  have hw1 : ∀ x : List Char, (w ++ x).dropWhile (fun c => !isSpace c) = w ++ x ∨ w = [] := by
    intro x
    cases w with
    | nil => right; rfl
    | cons c w => left; rw [List.cons_append, List.dropWhile_cons, if_neg]; simp [hw c (by simp)]
  have e1 : (v ++ w ++ r).takeWhile (fun c => !isSpace c) = v := by
    rw [List.append_assoc, List.takeWhile_append_of_pos h1]
    rcases hw0 r with h | h
    · rw [h, List.append_nil]
    · rw [h, hwr h]; simp
  have e2 : (v ++ w ++ r).dropWhile (fun c => !isSpace c) = w ++ r := by
    rw [List.append_assoc, List.dropWhile_append_of_pos h1]
    rcases hw1 r with h | h
    · exact h
    · rw [h, hwr h]; rfl
  have e3 : (w ++ r).dropWhile isSpace = r := by
    rw [List.dropWhile_append_of_pos hw]
    cases r with
    | nil => rfl
    | cons c r => rw [List.dropWhile_cons, if_neg]; simp [hr c rfl]
  conv => lhs; unfold guardWords
  rw [dif_neg hne, e1, e2, e3]

/-- A text splits into a word, white space and the rest. -/
theorem split_word (s : List Char) : ∃ v w r, s = v ++ w ++ r ∧ (∀ c ∈ v, isSpace c = false) ∧
    (∀ c ∈ w, isSpace c = true) ∧ (∀ c, r.head? = some c → isSpace c = false) ∧ (w = [] → r = []) ∧
    ((∃ c, s.head? = some c ∧ isSpace c = false) → v ≠ []) := by
  refine ⟨s.takeWhile (fun c => !isSpace c), (s.dropWhile fun c => !isSpace c).takeWhile isSpace,
    (s.dropWhile fun c => !isSpace c).dropWhile isSpace, ?_, ?_, ?_, ?_, ?_, ?_⟩
  · rw [List.append_assoc, List.takeWhile_append_dropWhile, List.takeWhile_append_dropWhile]
  · intro c hc
    simpa using Knfmt.mem_takeWhile_imp hc
  · intro c hc
    exact Knfmt.mem_takeWhile_imp hc
  · intro c hc
    cases h : isSpace c with
    | false => rfl
    | true =>
      have := List.head?_dropWhile_not isSpace (s.dropWhile fun c => !isSpace c)
      rw [hc] at this
      simp [h] at this
  · intro hw
    have h1 := List.head?_dropWhile_not (fun c => !isSpace c) s
    cases hd : s.dropWhile (fun c => !isSpace c) with
    | nil => rfl
    | cons c r =>
      rw [hd] at h1 hw
      simp only [List.head?_cons, Bool.not_eq_false'] at h1
      rw [List.takeWhile_cons] at hw
      simp [h1] at hw
  · rintro ⟨c, h1, h2⟩
    cases s with
    | nil => simp at h1
    | cons d s =>
      simp only [List.head?_cons, Option.some.injEq] at h1
      subst h1
      simp [List.takeWhile_cons, h2]

theorem words_iff (s : List Char) : isGuardDefine s = true ↔
    ∃ u v w x y, s = u ++ v ++ w ++ x ++ y ∧ v ≠ [] ∧ w ≠ [] ∧ x ≠ [] ∧
      (∀ c ∈ u ++ w ++ y, isSpace c = true) ∧ ∀ c ∈ v ++ x, isSpace c = false := by
  unfold isGuardDefine
  rw [beq_iff_eq]
  -- two words, with nothing in front
  have two : ∀ r : List Char, (∀ c, r.head? = some c → isSpace c = false) → ∀ k, k ≤ 2 → (guardWords r k = 2 ↔
      (k = 2 ∧ r = []) ∨ (k = 1 ∧ ∃ x y, r = x ++ y ∧ x ≠ [] ∧ (∀ c ∈ y, isSpace c = true) ∧ ∀ c ∈ x, isSpace c = false) ∨
      (k = 0 ∧ ∃ v w x y, r = v ++ w ++ x ++ y ∧ v ≠ [] ∧ w ≠ [] ∧ x ≠ [] ∧
        (∀ c ∈ w ++ y, isSpace c = true) ∧ ∀ c ∈ v ++ x, isSpace c = false)) := by
    have t2 : ∀ r : List Char, (∀ c, r.head? = some c → isSpace c = false) → (guardWords r 2 = 2 ↔ r = []) := by
      intro r hr
      constructor
      · intro h
        by_cases hne : r = []
        · exact hne
        obtain ⟨v, w, r', e, h1, h2, h3, h4, h5⟩ := split_word r
        have hv : v ≠ [] := h5 (by
          cases r with
          | nil => exact absurd rfl hne
          | cons c r => exact ⟨c, rfl, hr c rfl⟩)
        rw [e, gw_step v w r' 2 h1 h2 (by rw [← e]; exact hne) h3 h4] at h
        simp [hv] at h
      · rintro rfl; exact gw_nil 2
    have t1 : ∀ r : List Char, (∀ c, r.head? = some c → isSpace c = false) → (guardWords r 1 = 2 ↔
        ∃ x y, r = x ++ y ∧ x ≠ [] ∧ (∀ c ∈ y, isSpace c = true) ∧ ∀ c ∈ x, isSpace c = false) := by
      intro r hr
      constructor
      · intro h
        by_cases hne : r = []
        · subst hne; rw [gw_nil] at h; omega
        obtain ⟨v, w, r', e, h1, h2, h3, h4, h5⟩ := split_word r
        have hv : v ≠ [] := h5 (by
          cases r with
          | nil => exact absurd rfl hne
          | cons c r => exact ⟨c, rfl, hr c rfl⟩)
        rw [e, gw_step v w r' 1 h1 h2 (by rw [← e]; exact hne) h3 h4, if_neg hv, if_neg (by omega)] at h
        have := (t2 r' h3).mp h
        subst this
        exact ⟨v, w, by rw [e]; simp, hv, h2, h1⟩
      · rintro ⟨x, y, rfl, hx, hy, hx'⟩
        have := gw_step x y [] 1 hx' hy (by simp [hx]) (by simp) (fun _ => rfl)
        rw [List.append_nil] at this
        rw [this, if_neg hx, if_neg (by omega), gw_nil]
    intro r hr k hk
    rcases (by omega : k = 0 ∨ k = 1 ∨ k = 2) with rfl | rfl | rfl
    · constructor
      · intro h
        by_cases hne : r = []
        · subst hne; rw [gw_nil] at h; omega
        obtain ⟨v, w, r', e, h1, h2, h3, h4, h5⟩ := split_word r
        have hv : v ≠ [] := h5 (by
          cases r with
          | nil => exact absurd rfl hne
          | cons c r => exact ⟨c, rfl, hr c rfl⟩)
        rw [e, gw_step v w r' 0 h1 h2 (by rw [← e]; exact hne) h3 h4, if_neg hv, if_neg (by omega)] at h
        obtain ⟨x, y, rfl, hx, hy, hx'⟩ := (t1 r' h3).mp h
        refine Or.inr (Or.inr ⟨rfl, v, w, x, y, by rw [e]; simp, hv, ?_, hx, ?_, ?_⟩)
        · rintro rfl
          have := h4 rfl
          simp [hx] at this
        · intro c hc
          rcases List.mem_append.mp hc with hc | hc
          · exact h2 c hc
          · exact hy c hc
        · intro c hc
          rcases List.mem_append.mp hc with hc | hc
          · exact h1 c hc
          · exact hx' c hc
      · rintro (⟨h, -⟩ | ⟨h, -⟩ | ⟨-, v, w, x, y, rfl, hv, hw, hx, h1, h2⟩)
        · omega
        · omega
        · have hxy : ∀ c, (x ++ y).head? = some c → isSpace c = false := by
            intro c hc
            cases x with
            | nil => exact absurd rfl hx
            | cons d x =>
              simp only [List.cons_append, List.head?_cons, Option.some.injEq] at hc
              exact h2 c (by simp [hc])
          have := gw_step v w (x ++ y) 0 (fun c hc => h2 c (by simp [hc])) (fun c hc => h1 c (by simp [hc]))
            (by simp [hv]) hxy (fun e => absurd e hw)
          rw [← List.append_assoc] at this
          rw [this, if_neg hv, if_neg (by omega)]
          exact (t1 _ hxy).mpr ⟨x, y, rfl, hx, fun c hc => h1 c (by simp [hc]), fun c hc => h2 c (by simp [hc])⟩
    · rw [t1 r hr]
      simp
    · rw [t2 r hr]
      simp
  by_cases hs : ∃ c, s.head? = some c ∧ isSpace c = true
  · obtain ⟨v, w, r, e, h1, h2, h3, h4, -⟩ := split_word s
    obtain ⟨c, hc, hcs⟩ := hs
    have hv : v = [] := by
      cases v with
      | nil => rfl
      | cons d v =>
        rw [e] at hc
        simp only [List.cons_append, List.head?_cons, Option.some.injEq] at hc
        have := h1 d (by simp)
        rw [hc, hcs] at this
        simp at this
    subst hv
    have hne : [] ++ w ++ r ≠ [] := by
      rw [← e]; rintro rfl; simp at hc
    rw [e, gw_step [] w r 0 h1 h2 hne h3 h4, if_pos rfl, if_neg (by omega), two r h3 0 (by omega)]
    constructor
    · rintro (⟨h, -⟩ | ⟨h, -⟩ | ⟨-, v, w', x, y, rfl, hv, hw, hx, h5, h6⟩)
      · omega
      · omega
      · refine ⟨w, v, w', x, y, by simp, hv, hw, hx, ?_, h6⟩
        intro c hc
        rw [List.append_assoc] at hc
        rcases List.mem_append.mp hc with hc | hc
        · exact h2 c hc
        · exact h5 c hc
    · rintro ⟨u, v, w', x, y, e', hv, hw, hx, h5, h6⟩
      refine Or.inr (Or.inr ⟨rfl, v, w', x, y, ?_, hv, hw, hx, fun c hc => h5 c ?_, h6⟩)
      · -- both are what is left after the white space
        have a1 : ([] ++ w ++ r).dropWhile isSpace = r := by
          rw [List.nil_append, List.dropWhile_append_of_pos h2]
          cases r with
          | nil => rfl
          | cons c r => rw [List.dropWhile_cons, if_neg]; simp [h3 c rfl]
        have a2 : (u ++ v ++ w' ++ x ++ y).dropWhile isSpace = v ++ w' ++ x ++ y := by
          have : u ++ v ++ w' ++ x ++ y = u ++ (v ++ w' ++ x ++ y) := by simp
          rw [this, List.dropWhile_append_of_pos (fun c hc => h5 c (by simp [hc]))]
          cases v with
          | nil => exact absurd rfl hv
          | cons c v =>
            simp only [List.cons_append]
            rw [List.dropWhile_cons, if_neg]; simp [h6 c (by simp)]
        rw [← a1, ← a2, e']
      · rw [List.append_assoc]
        exact List.mem_append.mpr (Or.inr hc)
  · have hs' : ∀ c, s.head? = some c → isSpace c = false := by
      intro c hc
      cases h : isSpace c with
      | false => rfl
      | true => exact absurd ⟨c, hc, h⟩ hs
    rw [two s hs' 0 (by omega)]
    constructor
    · rintro (⟨h, -⟩ | ⟨h, -⟩ | ⟨-, v, w', x, y, rfl, hv, hw, hx, h5, h6⟩)
      · omega
      · omega
      · exact ⟨[], v, w', x, y, by simp, hv, hw, hx, by simpa using h5, h6⟩
    · rintro ⟨u, v, w', x, y, rfl, hv, hw, hx, h5, h6⟩
      have hu : u = [] := by
        cases u with
        | nil => rfl
        | cons c u =>
          have e1 := hs' c (by simp)
          have e2 := h5 c (by simp)
          rw [e1] at e2; simp at e2
      subst hu
      exact Or.inr (Or.inr ⟨rfl, v, w', x, y, by simp, hv, hw, hx, by simpa using h5, h6⟩)

/-- A guard of one word is recognised. -/
theorem guard_words {G : List Char} (hG : G ≠ []) (hs : ∀ c ∈ G, isSpace c = false) :
    isGuardDefine (Spec.defineText G) = true := by
  rw [words_iff]
  refine ⟨[], "#define".toList, [' '], G, "\n\n".toList, ?_, by decide, by decide, hG, by decide, ?_⟩
  · unfold Spec.defineText; rfl
  · intro c hc
    rcases List.mem_append.mp hc with hc | hc
    · exact (by decide : ∀ c ∈ "#define".toList, isSpace c = false) c hc
    · exact hs c hc

/-! ## What is found -/

theorem nextPre_append {a b : List Pre} {p : Pre} (h : ∀ q ∈ a, q.id ≠ p.id) :
    nextPre (a ++ p :: b) p.id = b.head?.map (·.id) := by
  induction a with
  | nil => simp [nextPre]
  | cons q a ih =>
    rw [List.cons_append]
    unfold nextPre
    rw [if_neg (h q (by simp))]
    exact ih (fun x hx => h x (by simp [hx]))

theorem pre_inj {l : List Pre} (h : (l.map (·.id)).Nodup) {p q : Pre} (hp : p ∈ l) (hq : q ∈ l) (e : p.id = q.id) :
    p = q := by
  induction l with
  | nil => simp at hp
  | cons x l ih =>
    simp only [List.map_cons, List.nodup_cons] at h
    rcases List.mem_cons.mp hp with hp' | hp' <;> rcases List.mem_cons.mp hq with hq' | hq'
    · rw [hp', hq']
    · exact absurd (List.mem_map.mpr ⟨q, hq', by rw [← e, hp']⟩) h.1
    · exact absurd (List.mem_map.mpr ⟨p, hp', by rw [e, hq']⟩) h.1
    · exact ih h.2 hp' hq'

theorem nodup_part {ts : List Tok} (h : ((ts.flatMap (·.prefixes)).map (·.id)).Nodup) {t : Tok} (ht : t ∈ ts) :
    (t.prefixes.map (·.id)).Nodup := by
  induction ts with
  | nil => simp at ht
  | cons x ts ih =>
    rw [List.flatMap_cons, List.map_append, List.nodup_append] at h
    rcases List.mem_cons.mp ht with rfl | ht
    · exact h.1
    · exact ih h.2.1 ht

/-- What `sense` comes to. -/
theorem sense_spec {ts : List Tok} {n : Nat} (h : Spec.Read ts n) (A B C : List Char) :
    (∃ i d e, Spec.SomeGuard ts i d e ∧ sense ts A B C =
      if i.text = A ∧ d.text = B ∧ e.text = C then .done else .replace (some ⟨i.id, d.id, e.id⟩)) ∨
    ((∀ i d e, ¬ Spec.SomeGuard ts i d e) ∧ sense ts A B C = .replace none) := by
  obtain ⟨first, hf⟩ : ∃ f, ts.head? = some f := by
    cases ts with
    | nil => exact absurd rfl h.some
    | cons t ts => exact ⟨t, rfl⟩
  obtain ⟨eof, he⟩ : ∃ f, ts.getLast? = some f := by
    cases hl : ts.getLast? with
    | none => exact absurd (List.getLast?_eq_none_iff.mp hl) h.some
    | some t => exact ⟨t, rfl⟩
  have hfm : first ∈ ts := List.mem_of_head? hf
  have hem : eof ∈ ts := List.mem_of_getLast? he
  have hnd := nodup_part h.ids hfm
  have hnde := nodup_part h.ids hem
  unfold sense
  simp only [hf, he]
  -- a guard determines what is found
  have det : ∀ i d e, Spec.SomeGuard ts i d e →
      first.prefixes.find? (fun p => p.type = .cppIfndef) = some i ∧
      first.prefixes.find? (fun p => p.type = .cppDefine) = some d ∧
      nextPre first.prefixes i.id = some d.id ∧ isGuardDefine d.text = true ∧ i.nx = some e.id ∧
      eof.prefixes.find? (fun p => p.id = e.id) = some e ∧ e.type = .cppEndif := by
    rintro i d e ⟨first', eof', a, b, h1, h2, h3, h4, h5, h6, h7, h8, h9, h10⟩
    rw [hf] at h1
    rw [he] at h2
    cases h1
    cases h2
    refine ⟨?_, ?_, ?_, (words_iff _).mpr h10, h8, ?_, h9⟩
    · rw [h3, List.find?_append, List.find?_eq_none.mpr]
      · simp [h5]
      · intro p hp; simp [(h4 p hp).1]
    · rw [h3, List.find?_append, List.find?_eq_none.mpr]
      · simp [h5, h6]
      · intro p hp; simp [(h4 p hp).2]
    · rw [h3, nextPre_append]
      · simp
      · intro q hq e
        rw [h3, List.map_append, List.nodup_append] at hnd
        exact hnd.2.2 q.id (List.mem_map_of_mem hq) i.id (by simp) e
    · cases hfe : eof.prefixes.find? (fun p => p.id = e.id) with
      | none =>
        rw [List.find?_eq_none] at hfe
        exact absurd (by simp) (hfe e h7)
      | some q =>
        have hq := List.find?_some hfe
        simp only [decide_eq_true_eq] at hq
        rw [pre_inj hnde (List.mem_of_find?_eq_some hfe) h7 hq]
  by_cases hsg : ∃ i d e, Spec.SomeGuard ts i d e
  · obtain ⟨i, d, e, hg⟩ := hsg
    obtain ⟨h1, h2, h3, h4, h5, h6, h7⟩ := det i d e hg
    left
    refine ⟨i, d, e, hg, ?_⟩
    simp only [h1, h2, h3, h4, h5, h6, h7]
    rw [if_neg (by simp), if_neg (by simp)]
  · right
    refine ⟨fun i d e hg => hsg ⟨i, d, e, hg⟩, ?_⟩
    cases hi : first.prefixes.find? (fun p => p.type = .cppIfndef) with
    | none => rfl
    | some i =>
      cases hd : first.prefixes.find? (fun p => p.type = .cppDefine) with
      | none => rfl
      | some d =>
        dsimp only
        by_cases hc : nextPre first.prefixes i.id ≠ some d.id ∨ isGuardDefine d.text = false
        · rw [if_pos hc]
        · rw [if_neg hc]
          rw [not_or] at hc
          obtain ⟨hc1, hc2⟩ := hc
          have hc1 : nextPre first.prefixes i.id = some d.id := Classical.byContradiction hc1
          have hc2 : isGuardDefine d.text = true := by simpa using hc2
          obtain ⟨hit, a, b, hab, ha⟩ := List.find?_eq_some_iff_append.mp hi
          obtain ⟨hdt, a', b', hab', ha'⟩ := List.find?_eq_some_iff_append.mp hd
          simp only [decide_eq_true_eq] at hit hdt
          have him : i ∈ first.prefixes := by rw [hab]; simp
          have hdm : d ∈ first.prefixes := by rw [hab']; simp
          cases hnx : i.nx with
          | none => exact absurd hnx (h.linked first hfm i him hit)
          | some e =>
            dsimp only
            cases hfe : eof.prefixes.find? (fun p => p.id = e) with
            | none => rfl
            | some en =>
              dsimp only
              by_cases hty : en.type = .cppEndif
              · exfalso
                have hen := List.find?_some hfe
                simp only [decide_eq_true_eq] at hen
                -- the define follows
                have hna : ∀ q ∈ a, q.id ≠ i.id := by
                  intro q hq e
                  rw [hab, List.map_append, List.nodup_append] at hnd
                  exact hnd.2.2 q.id (List.mem_map_of_mem hq) i.id (by simp) e
                rw [hab, nextPre_append hna] at hc1
                cases b with
                | nil => simp at hc1
                | cons d' b =>
                  simp only [List.head?_cons, Option.map_some, Option.some.injEq] at hc1
                  have hdd : d' = d := pre_inj hnd (by rw [hab]; simp) hdm hc1
                  subst hdd
                  refine hsg ⟨i, d', en, first, eof, a, b, hf, he, hab, ?_, hit, hdt,
                    List.mem_of_find?_eq_some hfe, by rw [hnx, hen], hty, (words_iff _).mp hc2⟩
                  intro p hp
                  refine ⟨by simpa using ha p hp, fun hpd => ?_⟩
                  -- d' is the first one
                  have hpm : p ∈ a ++ i :: d' :: b := by simp [hp]
                  have : first.prefixes.find? (fun p => p.type = .cppDefine) ≠ some d' := by
                    rw [hab, List.find?_append]
                    cases hx : a.find? (fun p => p.type = .cppDefine) with
                    | none =>
                      rw [List.find?_eq_none] at hx
                      exact absurd hpd (by simpa using hx p hp)
                    | some x =>
                      rw [Option.some_or]
                      rintro ⟨⟩
                      have hxa := List.mem_of_find?_eq_some hx
                      rw [hab, List.map_append, List.nodup_append] at hnd
                      exact hnd.2.2 d'.id (List.mem_map_of_mem hxa) d'.id (by simp) rfl
                  exact this hd
              · rw [if_pos hty]

/-! ## What is replaced -/

/-- The prefixes of the tokens. -/
def pf (ts : List Tok) : List (List Pre) := ts.map (·.prefixes)

/-- A change of the first one. -/
def mapHead {α : Type} (f : α → α) : List α → List α
  | [] => []
  | x :: l => f x :: l

/-- A change of the last one. -/
def mapLast {α : Type} (f : α → α) : List α → List α
  | [] => []
  | [x] => [f x]
  | x :: y :: l => x :: mapLast f (y :: l)

theorem mapLast_append {α : Type} (f : α → α) (l : List α) (x : α) : mapLast f (l ++ [x]) = l ++ [f x] := by
  induction l with
  | nil => rfl
  | cons y l ih =>
    cases l with
    | nil => rfl
    | cons z l =>
      simp only [List.cons_append] at ih ⊢
      unfold mapLast
      rw [ih]

theorem pf_onFirst (f : List Pre → List Pre) (ts : List Tok) : pf (onFirst f ts) = mapHead f (pf ts) := by
  cases ts <;> rfl

theorem pf_onLast (f : List Pre → List Pre) (ts : List Tok) : pf (onLast f ts) = mapLast f (pf ts) := by
  induction ts with
  | nil => rfl
  | cons t ts ih =>
    cases ts with
    | nil => rfl
    | cons u ts =>
      unfold onLast
      simp only [pf, List.map_cons] at ih ⊢
      unfold mapLast
      rw [ih]

/-- The line that is added in front of the `#endif`. -/
def addLine (line : Pre) (ps : List Pre) : List Pre :=
  match ps.getLast? with
  | none => ps ++ [line]
  | some last => if hasVerbatimLine last.text.reverse 2 then ps else ps ++ [line]

theorem pf_ensureLine (line : Pre) (ts : List Tok) : pf (ensureLine line ts) = mapLast (addLine line) (pf ts) := by
  induction ts with
  | nil => rfl
  | cons t ts ih =>
    cases ts with
    | nil => rfl
    | cons u ts =>
      cases ts with
      | nil =>
        unfold ensureLine
        simp only [pf, List.map_cons, List.map_nil, mapLast, addLine]
        cases u.prefixes.getLast? <;> rfl
      | cons v ts =>
        unfold ensureLine
        simp only [pf, List.map_cons] at ih ⊢
        unfold mapLast
        rw [ih]

theorem emit_shape (ps : List Pre) (i line : Pre) : ∃ lead sp rest, emitIfndef ps i line = lead ++ sp ++ i :: rest ∧
    lead ++ rest = ps ∧ (∀ p ∈ lead, p.type = .comment) ∧ (sp = [] ∨ sp = [line]) ∧
    ∀ p, rest.head? = some p → p.type ≠ .comment := by
  have hlead : ∀ p ∈ ps.takeWhile (fun p => decide (p.type = .comment)), p.type = .comment := by
    intro p hp
    simpa using Knfmt.mem_takeWhile_imp hp
  have hrest : ∀ p, (ps.dropWhile (fun p => decide (p.type = .comment))).head? = some p → p.type ≠ .comment := by
    intro p hp
    have := List.head?_dropWhile_not (fun p : Pre => decide (p.type = .comment)) ps
    rw [hp] at this
    simpa using this
  unfold emitIfndef
  simp only []
  cases hl : (ps.takeWhile fun p => decide (p.type = .comment)).getLast? with
  | none =>
    have h0 := List.getLast?_eq_none_iff.mp hl
    refine ⟨[], [], ps, rfl, rfl, by simp, Or.inl rfl, ?_⟩
    have : ps.dropWhile (fun p => decide (p.type = .comment)) = ps := by
      have := List.takeWhile_append_dropWhile (p := fun p : Pre => decide (p.type = .comment)) (l := ps)
      rw [h0] at this
      simpa using this
    rw [this] at hrest
    exact hrest
  | some c =>
    dsimp only
    split
    · exact ⟨_, [], _, by simp, List.takeWhile_append_dropWhile, hlead, Or.inl rfl, hrest⟩
    · exact ⟨_, [line], _, by simp, List.takeWhile_append_dropWhile, hlead, Or.inr rfl, hrest⟩

theorem appendAfter_mid (x b : List Pre) (i q : Pre) (h : ∀ p ∈ x, p.id ≠ i.id) :
    appendAfter i.id q (x ++ i :: b) = x ++ i :: q :: b := by
  induction x with
  | nil => simp [appendAfter]
  | cons p x ih =>
    rw [List.cons_append]
    unfold appendAfter
    rw [if_neg (h p (by simp)), ih (fun y hy => h y (by simp [hy]))]
    rfl

/-- The tokens emitted. -/
def newIfndef (G : List Char) (n : Nat) : Pre := ⟨n, .cpp, Spec.openText G, none⟩
def newDefine (G : List Char) (n : Nat) : Pre := ⟨n + 2, .cppDefine, Spec.defineText G, none⟩
def newEndif (G : List Char) (n : Nat) : Pre := ⟨n + 4, .cpp, Spec.closeText G, none⟩
def newLine (n : Nat) : Pre := ⟨n, .space, ['\n'], none⟩

/-- The addresses of the guard that is replaced. -/
def oldIds : Option Found → List Nat
  | none => []
  | some c => [c.ifndef, c.define, c.endif]

/-- The prefixes of the first token after the guard is there. -/
def firstStep (G : List Char) (n : Nat) (old : Option Found) (ps : List Pre) : List Pre :=
  match old with
  | none => appendAfter n (newDefine G n) (emitIfndef ps (newIfndef G n) (newLine (n + 1)))
  | some c => appendAfter n (newDefine G n)
      (removePre c.define (emitIfndef (removePre c.ifndef ps) (newIfndef G n) (newLine (n + 1))))

/-- The prefixes of the end of file after the end of the guard is there. -/
def lastStep (G : List Char) (n : Nat) (old : Option Found) (ps : List Pre) : List Pre :=
  match old with
  | none => addLine (newLine (n + 3)) ps ++ [newEndif G n]
  | some c => removePre c.endif ps ++ [newEndif G n]

theorem mapHead_mapHead {α : Type} (f g : α → α) (l : List α) : mapHead f (mapHead g l) = mapHead (fun x => f (g x)) l := by
  cases l <;> rfl

theorem mapLast_mapLast {α : Type} (f g : α → α) (l : List α) : mapLast f (mapLast g l) = mapLast (fun x => f (g x)) l := by
  rcases List.eq_nil_or_concat l with rfl | ⟨l, x, rfl⟩
  · rfl
  · rw [List.concat_eq_append, mapLast_append, mapLast_append, mapLast_append]

theorem pf_replace (G : List Char) (n : Nat) (old : Option Found) (ts : List Tok) :
    pf (replace G n old ts) = mapLast (lastStep G n old) (mapHead (firstStep G n old) (pf ts)) := by
  unfold replace
  cases old with
  | none =>
    simp only [pf_onLast, pf_ensureLine, pf_onFirst, mapHead_mapHead, mapLast_mapLast]
    rfl
  | some c =>
    simp only [pf_onLast, pf_onFirst, mapHead_mapHead, mapLast_mapLast]
    rfl

theorem firstStep_shape (G : List Char) (n : Nat) (old : Option Found) (ps : List Pre) (hps : ∀ p ∈ ps, p.id < n)
    (hold : ∀ x ∈ oldIds old, x < n) :
    ∃ lead sp rest, firstStep G n old ps = lead ++ sp ++ newIfndef G n :: newDefine G n :: rest ∧
      lead ++ rest = ps.filter (fun p => p.id ∉ (oldIds old).take 2) ∧ (∀ p ∈ lead, p.type = .comment) ∧
      (sp = [] ∨ sp = [newLine (n + 1)]) := by
  cases old with
  | none =>
    obtain ⟨lead, sp, rest, e, h1, h2, h3, -⟩ := emit_shape ps (newIfndef G n) (newLine (n + 1))
    refine ⟨lead, sp, rest, ?_, ?_, h2, h3⟩
    · unfold firstStep
      simp only []
      rw [e]
      have := appendAfter_mid (lead ++ sp) rest (newIfndef G n) (newDefine G n) (by
        intro p hp
        rcases List.mem_append.mp hp with hp | hp
        · have := hps p (by rw [← h1]; simp [hp])
          simp only [newIfndef]; omega
        · rcases h3 with rfl | rfl
          · simp at hp
          · simp only [List.mem_singleton] at hp; subst hp; simp [newIfndef, newLine])
      exact this
    · rw [h1]
      exact (List.filter_eq_self.mpr (by simp [oldIds])).symm
  | some c =>
    obtain ⟨lead, sp, rest, e, h1, h2, h3, -⟩ := emit_shape (removePre c.ifndef ps) (newIfndef G n) (newLine (n + 1))
    have hc1 : c.define < n := hold _ (by simp [oldIds])
    have hsp : removePre c.define sp = sp := by
      rcases h3 with rfl | rfl
      · rfl
      · unfold removePre
        rw [List.filter_eq_self.mpr]
        intro p hp
        simp only [List.mem_singleton] at hp
        subst hp
        exact decide_eq_true (show n + 1 ≠ c.define by omega)
    have hin : removePre c.define (newIfndef G n :: rest) = newIfndef G n :: removePre c.define rest := by
      unfold removePre
      rw [List.filter_cons, if_pos]
      exact decide_eq_true (show n ≠ c.define by omega)
    have e' : removePre c.define (lead ++ sp ++ newIfndef G n :: rest) =
        removePre c.define lead ++ sp ++ newIfndef G n :: removePre c.define rest := by
      have : ∀ a b, removePre c.define (a ++ b) = removePre c.define a ++ removePre c.define b := by
        intro a b; unfold removePre; rw [List.filter_append]
      rw [this, this, hsp, hin]
    refine ⟨removePre c.define lead, sp, removePre c.define rest, ?_, ?_, ?_, h3⟩
    · unfold firstStep
      simp only []
      rw [e, e']
      have := appendAfter_mid (removePre c.define lead ++ sp) (removePre c.define rest) (newIfndef G n) (newDefine G n) (by
        intro p hp
        rcases List.mem_append.mp hp with hp | hp
        · have hpl := (List.mem_filter.mp hp).1
          have : p ∈ removePre c.ifndef ps := by rw [← h1]; simp [hpl]
          have := hps p (List.mem_filter.mp this).1
          simp only [newIfndef]; omega
        · rcases h3 with rfl | rfl
          · simp at hp
          · simp only [List.mem_singleton] at hp; subst hp; simp [newIfndef, newLine])
      exact this
    · have : removePre c.define (lead ++ rest) = removePre c.define lead ++ removePre c.define rest := by
        unfold removePre; rw [List.filter_append]
      rw [← this, h1]
      unfold removePre
      rw [List.filter_filter]
      apply List.filter_congr
      intro p _
      simp only [oldIds, List.take_succ_cons, List.take_zero, List.mem_cons, List.not_mem_nil, or_false, not_or, ne_eq]
      by_cases h1 : p.id = c.define <;> by_cases h2 : p.id = c.ifndef <;> simp [h1, h2]
    · intro p hp
      exact h2 p (List.mem_filter.mp hp).1

theorem lastStep_shape (G : List Char) (n : Nat) (old : Option Found) (ps : List Pre) :
    ∃ sp, lastStep G n old ps = ps.filter (fun p => p.id ∉ (oldIds old).drop 2) ++ sp ++ [newEndif G n] ∧
      (sp = [] ∨ sp = [newLine (n + 3)]) := by
  cases old with
  | none =>
    have hf : ps.filter (fun p => p.id ∉ (oldIds none).drop 2) = ps := List.filter_eq_self.mpr (by simp [oldIds])
    rw [hf]
    unfold lastStep addLine
    simp only []
    split
    · exact ⟨_, rfl, Or.inr rfl⟩
    · split
      · exact ⟨[], by simp, Or.inl rfl⟩
      · exact ⟨_, rfl, Or.inr rfl⟩
  | some c =>
    refine ⟨[], ?_, Or.inl rfl⟩
    unfold lastStep removePre
    simp only [oldIds]
    rw [List.append_nil]
    congr 1
    apply List.filter_congr
    intro p _
    simp

/-! ## The shape of the result -/

theorem two_cases {α : Type} (l : List α) (h : l ≠ []) : (∃ x, l = [x]) ∨ ∃ x m y, l = x :: (m ++ [y]) := by
  cases l with
  | nil => exact absurd rfl h
  | cons x l =>
    rcases List.eq_nil_or_concat l with rfl | ⟨m, y, rfl⟩
    · exact Or.inl ⟨x, rfl⟩
    · exact Or.inr ⟨x, m, y, by simp⟩

/-- The prefixes of the result, token by token and all of them. -/
theorem replace_shape (G : List Char) (n : Nat) (old : Option Found) (ts : List Tok) (hne : ts ≠ [])
    (hps : ∀ t ∈ ts, ∀ p ∈ t.prefixes, p.id < n) (hold : ∀ x ∈ oldIds old, x < n)
    (hfirst : ∀ c, old = some c → ∀ t ∈ ts.tail, ∀ p ∈ t.prefixes, p.id ≠ c.ifndef ∧ p.id ≠ c.define)
    (hlast : ∀ c, old = some c → ∀ t ∈ ts.dropLast, ∀ p ∈ t.prefixes, p.id ≠ c.endif) :
    ∃ lead sp mid sp2, (pf (replace G n old ts)).flatten =
        lead ++ sp ++ newIfndef G n :: newDefine G n :: mid ++ sp2 ++ [newEndif G n] ∧
      lead ++ mid = (pf ts).flatten.filter (fun p => p.id ∉ oldIds old) ∧ (∀ p ∈ lead, p.type = .comment) ∧
      (sp = [] ∨ sp = [newLine (n + 1)]) ∧ (sp2 = [] ∨ sp2 = [newLine (n + 3)]) ∧
      (pf (replace G n old ts)).map (fun ps => ps.filter fun p => p.id < n) =
        (pf ts).map (fun ps => ps.filter fun p => p.id ∉ oldIds old) ∧
      (∃ rest, (pf (replace G n old ts)).head? = some (lead ++ sp ++ newIfndef G n :: newDefine G n :: rest)) ∧
      (∃ body, (pf (replace G n old ts)).getLast? = some (body ++ [newEndif G n])) := by
  have hlt : ∀ (f : Pre → Bool) (l : List Pre), (∀ p ∈ l, p.id < n) → (l.filter f).filter (fun p => p.id < n) = l.filter f := by
    intro f l hl
    rw [List.filter_eq_self]
    intro p hp
    simpa using hl p (List.mem_filter.mp hp).1
  have hnew : ∀ p : Pre, n ≤ p.id → ∀ l : List Pre, (p :: l).filter (fun p => p.id < n) = l.filter fun p => p.id < n := by
    intro p hp l
    rw [List.filter_cons, if_neg]
    simpa using hp
  have hsp : ∀ k, n ≤ k → ∀ sp : List Pre, (sp = [] ∨ sp = [newLine k]) → sp.filter (fun p => p.id < n) = [] := by
    rintro k hk sp (rfl | rfl)
    · rfl
    · rw [List.filter_cons, if_neg]
      · rfl
      · intro h
        have : k < n := of_decide_eq_true h
        omega
  have hsplit : ∀ p : Pre, (p.id ∉ oldIds old) ↔ (p.id ∉ (oldIds old).take 2 ∧ p.id ∉ (oldIds old).drop 2) := by
    intro p
    conv => lhs; rw [← List.take_append_drop 2 (oldIds old)]
    rw [List.mem_append, not_or]
  rcases two_cases ts hne with ⟨t, rfl⟩ | ⟨t, m, u, rfl⟩
  · -- one token
    have hp : pf (replace G n old [t]) = [lastStep G n old (firstStep G n old t.prefixes)] := pf_replace G n old [t]
    obtain ⟨lead, sp, rest, e1, e2, h1, h2⟩ := firstStep_shape G n old t.prefixes (hps t (by simp)) hold
    obtain ⟨sp2, e3, h3⟩ := lastStep_shape G n old (firstStep G n old t.prefixes)
    have hdrop : ∀ p : Pre, n ≤ p.id → p.id ∉ (oldIds old).drop 2 := by
      intro p hp hm
      have := hold _ (List.mem_of_mem_drop hm)
      omega
    let K : Pre → Bool := fun p => decide (p.id ∉ (oldIds old).drop 2)
    have hspK : sp.filter K = sp := by
      rcases h2 with rfl | rfl
      · rfl
      · rw [List.filter_eq_self]
        intro p hp
        simp only [List.mem_singleton] at hp
        subst hp
        have := hdrop (newLine (n + 1)) (by simp [newLine])
        simpa [K] using this
    have hK1 : K (newIfndef G n) = true := by
      have := hdrop (newIfndef G n) (by simp [newIfndef]); simpa [K] using this
    have hK2 : K (newDefine G n) = true := by
      have := hdrop (newDefine G n) (by simp [newDefine]); simpa [K] using this
    have e4 : lastStep G n old (firstStep G n old t.prefixes) =
        lead.filter K ++ sp ++ newIfndef G n :: newDefine G n :: rest.filter K ++ sp2 ++ [newEndif G n] := by
      rw [e3, e1]
      rw [List.filter_append, List.filter_append, List.filter_cons, if_pos hK1, List.filter_cons, if_pos hK2]
      rw [show List.filter (fun p => decide (p.id ∉ List.drop 2 (oldIds old))) sp = sp from hspK]
    have e5 : lead.filter K ++ rest.filter K = t.prefixes.filter (fun p => p.id ∉ oldIds old) := by
      rw [← List.filter_append, e2, List.filter_filter]
      apply List.filter_congr
      intro p _
      rw [← Bool.decide_and, decide_eq_decide, hsplit]
      exact And.comm
    rw [hp, e4]
    refine ⟨lead.filter K, sp, rest.filter K, sp2, by simp, by simpa [pf] using e5, ?_, h2, h3, ?_,
      ⟨rest.filter K ++ sp2 ++ [newEndif G n], by simp⟩, ⟨_, rfl⟩⟩
    · intro p hp
      exact h1 p (List.mem_filter.mp hp).1
    · simp only [pf, List.map_cons, List.map_nil]
      congr 1
      rw [← e5]
      have hl : ∀ p ∈ lead ++ rest, p.id < n := by
        intro p hp
        rw [e2] at hp
        exact hps t (by simp) p (List.mem_filter.mp hp).1
      rw [List.filter_append, List.filter_append, List.filter_append, List.filter_append, hlt _ lead (fun p hp => hl p (by simp [hp])),
        hsp _ (by omega) sp h2, hsp _ (by omega) sp2 h3, hnew _ (by simp [newIfndef]), hnew _ (by simp [newDefine]),
        hlt _ rest (fun p hp => hl p (by simp [hp])), hnew _ (by simp [newEndif])]
      simp
  · -- several tokens
    have hpr : pf (replace G n old (t :: (m ++ [u]))) =
        firstStep G n old t.prefixes :: (pf m ++ [lastStep G n old u.prefixes]) := by
      rw [pf_replace]
      have : pf (t :: (m ++ [u])) = t.prefixes :: (pf m ++ [u.prefixes]) := by simp [pf]
      rw [this]
      simp only [mapHead]
      rw [← List.cons_append, mapLast_append]
      rfl
    obtain ⟨lead, sp, rest, e1, e2, h1, h2⟩ := firstStep_shape G n old t.prefixes (hps t (by simp)) hold
    obtain ⟨sp2, e3, h3⟩ := lastStep_shape G n old u.prefixes
    have ft : t.prefixes.filter (fun p => p.id ∉ (oldIds old).take 2) = t.prefixes.filter (fun p => p.id ∉ oldIds old) := by
      apply List.filter_congr
      intro p hp
      rw [decide_eq_decide, hsplit]
      refine ⟨fun h => ⟨h, fun hd => ?_⟩, fun h => h.1⟩
      clear hpr
      cases old with
      | none => simp [oldIds] at hd
      | some c =>
        simp only [oldIds, List.drop_succ_cons, List.drop_zero, List.mem_singleton] at hd
        exact hlast c rfl t (by
          have : t :: (m ++ [u]) = (t :: m) ++ [u] := rfl
          rw [this, List.dropLast_concat]; simp) p hp hd
    have fu : u.prefixes.filter (fun p => p.id ∉ (oldIds old).drop 2) = u.prefixes.filter (fun p => p.id ∉ oldIds old) := by
      apply List.filter_congr
      intro p hp
      rw [decide_eq_decide, hsplit]
      refine ⟨fun h => ⟨fun hd => ?_, h⟩, fun h => h.2⟩
      clear hpr
      cases old with
      | none => simp [oldIds] at hd
      | some c =>
        simp only [oldIds, List.take_succ_cons, List.take_zero, List.mem_cons, List.not_mem_nil, or_false] at hd
        have := hfirst c rfl u (by simp) p hp
        rcases hd with hd | hd
        · exact this.1 hd
        · exact this.2 hd
    have fm : ∀ v ∈ m, v.prefixes.filter (fun p => p.id ∉ oldIds old) = v.prefixes := by
      intro v hv
      rw [List.filter_eq_self]
      intro p hp
      rw [decide_eq_true_eq]
      intro hd
      clear hpr
      cases old with
      | none => simp [oldIds] at hd
      | some c =>
        simp only [oldIds, List.mem_cons, List.not_mem_nil, or_false] at hd
        have h5 := hfirst c rfl v (by simp [hv]) p hp
        have h6 := hlast c rfl v (by
          have : t :: (m ++ [u]) = (t :: m) ++ [u] := rfl
          rw [this, List.dropLast_concat]; simp [hv]) p hp
        rcases hd with hd | hd | hd
        · exact h5.1 hd
        · exact h5.2 hd
        · exact h6 hd
    have fmf : (pf m).flatten.filter (fun p => p.id ∉ oldIds old) = (pf m).flatten := by
      rw [List.filter_eq_self]
      intro p hp
      obtain ⟨l, hl, hpl⟩ := List.mem_flatten.mp hp
      obtain ⟨v, hv, rfl⟩ := List.mem_map.mp hl
      have := fm v hv
      rw [List.filter_eq_self] at this
      exact this p hpl
    rw [hpr, e1, e3, fu]
    rw [ft] at e2
    refine ⟨lead, sp, rest ++ (pf m).flatten ++ u.prefixes.filter (fun p => p.id ∉ oldIds old), sp2, by simp, ?_, h1, h2, h3,
      ?_, ⟨rest, rfl⟩, ⟨u.prefixes.filter (fun p => p.id ∉ oldIds old) ++ sp2, ?_⟩⟩
    · have : pf (t :: (m ++ [u])) = t.prefixes :: (pf m ++ [u.prefixes]) := by simp [pf]
      rw [this, List.flatten_cons, List.flatten_append, List.filter_append, List.filter_append, fmf, ← e2]
      simp
    · have : pf (t :: (m ++ [u])) = t.prefixes :: (pf m ++ [u.prefixes]) := by simp [pf]
      rw [this, List.map_cons, List.map_cons, List.map_append, List.map_append]
      congr 1
      · rw [← e2]
        have hl : ∀ p ∈ lead ++ rest, p.id < n := by
          intro p hp
          rw [e2] at hp
          exact hps t (by simp) p (List.mem_filter.mp hp).1
        rw [List.filter_append, List.filter_append, hsp _ (by omega) sp h2, hnew _ (by simp [newIfndef]),
          hnew _ (by simp [newDefine]), List.append_nil, ← List.filter_append, List.filter_eq_self]
        intro p hp
        simpa using hl p hp
      · congr 1
        · apply List.map_congr_left
          intro l hl
          obtain ⟨v, hv, rfl⟩ := List.mem_map.mp hl
          rw [fm v hv, List.filter_eq_self]
          intro p hp
          simpa using hps v (by simp [hv]) p hp
        · simp only [List.map_cons, List.map_nil]
          rw [List.filter_append, List.filter_append, hlt _ u.prefixes (hps u (by simp)), hsp _ (by omega) sp2 h3,
            hnew _ (by simp [newEndif])]
          simp
    · rw [← List.cons_append, List.getLast?_append]
      simp

/-- Suffixes other than white space. -/
def sufs (ts : List Tok) : List (List Suf) := ts.map (fun t => t.suffixes.filter fun s => s.type ≠ .space)

theorem sufs_replace (G : List Char) (n : Nat) (old : Option Found) (ts : List Tok) :
    sufs (replace G n old ts) = sufs ts := by
  have h1 : ∀ f ts, sufs (onFirst f ts) = sufs ts := by
    intro f ts; cases ts <;> rfl
  have h2 : ∀ f ts, sufs (onLast f ts) = sufs ts := by
    intro f ts
    induction ts with
    | nil => rfl
    | cons t ts ih =>
      cases ts with
      | nil => rfl
      | cons u ts =>
        unfold onLast
        unfold sufs at ih ⊢
        rw [List.map_cons, ih]
        rfl
  have htrim : ∀ t : Tok, (trim t).suffixes.filter (fun s => s.type ≠ .space) = t.suffixes.filter fun s => s.type ≠ .space := by
    intro t
    unfold trim
    simp only []
    induction t.suffixes with
    | nil => rfl
    | cons s l ih =>
      rw [List.map_cons, List.filter_cons, List.filter_cons, ih]
      by_cases h1 : s.flags.optspace = true
      · rw [if_pos h1]
      · rw [if_neg h1]
        by_cases h2 : s.type = .space
        · simp [h2]
        · rw [if_neg h2]
  have h3 : ∀ line ts, sufs (ensureLine line ts) = sufs ts := by
    intro line ts
    induction ts with
    | nil => rfl
    | cons t ts ih =>
      cases ts with
      | nil => rfl
      | cons u ts =>
        cases ts with
        | nil =>
          unfold ensureLine
          split
          · unfold sufs
            simp only [List.map_cons, List.map_nil, htrim]
            rfl
          · rfl
        | cons v ts =>
          unfold ensureLine
          unfold sufs at ih ⊢
          rw [List.map_cons, ih]
          rfl
  unfold replace
  cases old with
  | none => simp only [h1, h2, h3]
  | some c => simp only [h1, h2]

/-! ## The property -/

theorem guarded_some {G : List Char} {ts : List Tok} (hG : isGuardDefine (Spec.defineText G) = true)
    (h : Spec.Guarded G ts) : ∃ i d e, Spec.SomeGuard ts i d e ∧ i.text = Spec.openText G ∧
      d.text = Spec.defineText G ∧ e.text = Spec.closeText G := by
  obtain ⟨first, eof, a, i, d, b, e, h1, h2, h3, h4, h5, h6, h7, h8, h9, h10, h11, h12⟩ := h
  exact ⟨i, d, e, ⟨first, eof, a, b, h1, h2, h3, h4, h5, h6, h7, h8, h9, by
    rw [h11]; exact (words_iff _).mp hG⟩, h10, h11, h12⟩

theorem some_unique {ts : List Tok} {n : Nat} (h : Spec.Read ts n) {i d e i' d' e' : Pre}
    (h1 : Spec.SomeGuard ts i d e) (h2 : Spec.SomeGuard ts i' d' e') : i = i' ∧ d = d' ∧ e = e' := by
  obtain ⟨f, l, a, b, a1, a2, a3, a4, a5, a6, a7, a8, a9, -⟩ := h1
  obtain ⟨f', l', a', b', b1, b2, b3, b4, b5, b6, b7, b8, b9, -⟩ := h2
  rw [a1] at b1; cases b1
  rw [a2] at b2; cases b2
  have e1 : f.prefixes.find? (fun p => p.type = .cppIfndef) = some i := by
    rw [a3, List.find?_append, List.find?_eq_none.mpr]
    · simp [a5]
    · intro p hp; simp [(a4 p hp).1]
  have e2 : f.prefixes.find? (fun p => p.type = .cppIfndef) = some i' := by
    rw [b3, List.find?_append, List.find?_eq_none.mpr]
    · simp [b5]
    · intro p hp; simp [(b4 p hp).1]
  have e3 : f.prefixes.find? (fun p => p.type = .cppDefine) = some d := by
    rw [a3, List.find?_append, List.find?_eq_none.mpr]
    · simp [a5, a6]
    · intro p hp; simp [(a4 p hp).2]
  have e4 : f.prefixes.find? (fun p => p.type = .cppDefine) = some d' := by
    rw [b3, List.find?_append, List.find?_eq_none.mpr]
    · simp [b5, b6]
    · intro p hp; simp [(b4 p hp).2]
  rw [e1] at e2
  rw [e3] at e4
  cases e2
  cases e4
  rw [a8] at b8
  simp only [Option.some.injEq] at b8
  exact ⟨rfl, rfl, pre_inj (nodup_part h.ids (List.mem_of_getLast? a2)) a7 b7 b8⟩

/-- C30. Without the setting, in files that are not headers and if there is no such file nothing is changed. -/
theorem guard_off (setting : Nat) (path : List Char) (real : Option (List Char)) (n : Nat) (ts : List Tok)
    (h : setting = 0 ∨ ¬ ['.', 'h'] <:+ path ∨ real = none) :
    includeGuard setting path real n ts = some ts := by
  unfold includeGuard
  by_cases h1 : setting = 0
  · rw [if_pos h1]
  rw [if_neg h1]
  by_cases h2 : Knfmt.Util.isPathHeader path = false
  · rw [if_pos h2]
  rw [if_neg h2]
  rcases h with h | h | h
  · exact absurd h h1
  · exfalso
    apply h2
    cases hp : Knfmt.Util.isPathHeader path with
    | false => rfl
    | true => exact absurd ((Knfmt.Util.is_path_header_iff path).mp hp) h
  · rw [h]; rfl

/-- What is done for a header, in terms of the texts. -/
theorem includeGuard_eq {setting : Nat} {path : List Char} {real : Option (List Char)} {G : List Char}
    (hset : setting ≠ 0) (hpath : Knfmt.Util.isPathHeader path ≠ false) (hG : pathToGuard real setting = some G)
    (n : Nat) (ts : List Tok) : includeGuard setting path real n ts =
      match sense ts (Spec.openText G) (Spec.defineText G) (Spec.closeText G) with
      | .done => some ts
      | .null => none
      | .replace old => some (replace G n old ts) := by
  unfold includeGuard
  rw [if_neg hset, if_neg hpath, hG]
  rfl

/-- C30. A header that has exactly the guard is not changed. -/
theorem guard_kept_partial (setting : Nat) (path : List Char) (real : Option (List Char)) (n : Nat) (ts : List Tok)
    (h : Spec.Read ts n) (G : List Char) (hG : pathToGuard real setting = some G)
    (hne : G ≠ []) (hs : ∀ c ∈ G, isSpace c = false) (hg : Spec.Guarded G ts) :
    includeGuard setting path real n ts = some ts := by
  by_cases hset : setting = 0
  · exact guard_off _ _ _ _ _ (Or.inl hset)
  by_cases hpath : Knfmt.Util.isPathHeader path = false
  · unfold includeGuard
    rw [if_neg hset, if_pos hpath]
  rw [includeGuard_eq hset hpath hG]
  obtain ⟨i, d, e, h1, h2, h3, h4⟩ := guarded_some (guard_words hne hs) hg
  rcases sense_spec h (Spec.openText G) (Spec.defineText G) (Spec.closeText G) with ⟨i', d', e', g, hsn⟩ | ⟨g, -⟩
  · obtain ⟨rfl, rfl, rfl⟩ := some_unique h h1 g
    rw [if_pos ⟨h2, h3, h4⟩] at hsn
    rw [hsn]
  · exact absurd h1 (g i d e)

/-- Where the directives of a guard are. -/
theorem found_apart {ts : List Tok} {n : Nat} (h : Spec.Read ts n) {i d e : Pre} (hg : Spec.SomeGuard ts i d e) :
    (∀ x ∈ oldIds (some ⟨i.id, d.id, e.id⟩), x < n) ∧
    (∀ t ∈ ts.tail, ∀ p ∈ t.prefixes, p.id ≠ i.id ∧ p.id ≠ d.id) ∧
    ∀ t ∈ ts.dropLast, ∀ p ∈ t.prefixes, p.id ≠ e.id := by
  obtain ⟨f, l, a, b, a1, a2, a3, a4, a5, a6, a7, a8, a9, -⟩ := hg
  have hf := List.mem_of_head? a1
  have hl := List.mem_of_getLast? a2
  have hi : i ∈ f.prefixes := by rw [a3]; simp
  have hd : d ∈ f.prefixes := by rw [a3]; simp
  refine ⟨?_, ?_, ?_⟩
  · intro x hx
    simp only [oldIds, List.mem_cons, List.not_mem_nil, or_false] at hx
    rcases hx with rfl | rfl | rfl
    · exact h.used f hf i hi
    · exact h.used f hf d hd
    · exact h.used l hl e a7
  · intro t ht p hp
    cases ts with
    | nil => simp at ht
    | cons f' ts =>
      simp only [List.head?_cons, Option.some.injEq] at a1
      subst a1
      have hids := h.ids
      rw [List.flatMap_cons, List.map_append, List.nodup_append] at hids
      have hp' : p.id ∈ (ts.flatMap (·.prefixes)).map (·.id) :=
        List.mem_map_of_mem (List.mem_flatMap.mpr ⟨t, ht, hp⟩)
      exact ⟨fun e => hids.2.2 i.id (List.mem_map_of_mem hi) p.id hp' e.symm,
        fun e => hids.2.2 d.id (List.mem_map_of_mem hd) p.id hp' e.symm⟩
  · intro t ht p hp he
    obtain ⟨l', rfl⟩ := List.getLast?_eq_some_iff.mp a2
    have hids := h.ids
    rw [List.flatMap_append, List.map_append, List.nodup_append] at hids
    rw [List.dropLast_concat] at ht
    exact hids.2.2 p.id (List.mem_map_of_mem (List.mem_flatMap.mpr ⟨t, ht, hp⟩)) e.id
      (List.mem_map_of_mem (by simpa using a7)) he

/-- What is done if there is something to do. -/
theorem guard_replaced (setting : Nat) (path : List Char) (real : Option (List Char)) (n : Nat) (ts : List Tok)
    (h : Spec.Read ts n) (G : List Char) (hG : pathToGuard real setting = some G)
    (hset : setting ≠ 0) (hpath : ['.', 'h'] <:+ path) (hg : ¬ Spec.Guarded G ts) :
    ∃ old, includeGuard setting path real n ts = some (replace G n old ts) ∧
      ((old = none ∧ ∀ i d e, ¬ Spec.SomeGuard ts i d e) ∨
        ∃ i d e, Spec.SomeGuard ts i d e ∧ old = some ⟨i.id, d.id, e.id⟩) := by
  rw [includeGuard_eq hset (by rw [(Knfmt.Util.is_path_header_iff path).mpr hpath]; simp) hG]
  rcases sense_spec h (Spec.openText G) (Spec.defineText G) (Spec.closeText G) with ⟨i, d, e, g, hsn⟩ | ⟨g, hsn⟩
  · rw [if_neg] at hsn
    · exact ⟨_, by rw [hsn], Or.inr ⟨i, d, e, g, rfl⟩⟩
    · rintro ⟨h1, h2, h3⟩
      obtain ⟨f, l, a, b, a1, a2, a3, a4, a5, a6, a7, a8, a9, -⟩ := g
      exact hg ⟨f, l, a, i, d, b, e, a1, a2, a3, a4, a5, a6, a7, a8, a9, h1, h2, h3⟩
  · exact ⟨_, by rw [hsn], Or.inl ⟨rfl, g⟩⟩

theorem pf_flatten (ts : List Tok) : (pf ts).flatten = ts.flatMap (·.prefixes) := by
  unfold pf; rw [List.flatMap_def]

theorem shape_of {ts : List Tok} {n : Nat} (h : Spec.Read ts n) (G : List Char) {old : Option Found}
    (hold : (old = none ∧ ∀ i d e, ¬ Spec.SomeGuard ts i d e) ∨
        ∃ i d e, Spec.SomeGuard ts i d e ∧ old = some ⟨i.id, d.id, e.id⟩) :
    ∃ lead sp mid sp2, (pf (replace G n old ts)).flatten =
        lead ++ sp ++ newIfndef G n :: newDefine G n :: mid ++ sp2 ++ [newEndif G n] ∧
      lead ++ mid = (pf ts).flatten.filter (fun p => p.id ∉ oldIds old) ∧ (∀ p ∈ lead, p.type = .comment) ∧
      (sp = [] ∨ sp = [newLine (n + 1)]) ∧ (sp2 = [] ∨ sp2 = [newLine (n + 3)]) ∧
      (pf (replace G n old ts)).map (fun ps => ps.filter fun p => p.id < n) =
        (pf ts).map (fun ps => ps.filter fun p => p.id ∉ oldIds old) ∧
      (∃ rest, (pf (replace G n old ts)).head? = some (lead ++ sp ++ newIfndef G n :: newDefine G n :: rest)) ∧
      (∃ body, (pf (replace G n old ts)).getLast? = some (body ++ [newEndif G n])) := by
  rcases hold with ⟨rfl, -⟩ | ⟨i, d, e, hg, rfl⟩
  · exact replace_shape G n none ts h.some h.used (by simp [oldIds]) (by simp) (by simp)
  · obtain ⟨h1, h2, h3⟩ := found_apart h hg
    refine replace_shape G n _ ts h.some h.used h1 ?_ ?_
    · rintro c ⟨⟩; exact h2
    · rintro c ⟨⟩; exact h3

/-- C30. A header that does not have the guard gets it: it replaces the guard that is there, if any, and all
other comments and directives stay. -/
theorem guard_inserted (setting : Nat) (path : List Char) (real : Option (List Char)) (n : Nat) (ts : List Tok)
    (h : Spec.Read ts n) (G : List Char) (hG : pathToGuard real setting = some G)
    (hset : setting ≠ 0) (hpath : ['.', 'h'] <:+ path) (hg : ¬ Spec.Guarded G ts) :
    ∃ ts' old, includeGuard setting path real n ts = some ts' ∧ Spec.Inserted G n old ts ts' ∧
      ((old = [] ∧ ∀ i d e, ¬ Spec.SomeGuard ts i d e) ∨
        ∃ i d e, Spec.SomeGuard ts i d e ∧ old = [i.id, d.id, e.id]) := by
  obtain ⟨old, h1, h2⟩ := guard_replaced setting path real n ts h G hG hset hpath hg
  refine ⟨_, oldIds old, h1, ?_, ?_⟩
  · obtain ⟨lead, sp, mid, sp2, e1, e2, e3, e4, e5, e6, ⟨rest, e7⟩, ⟨body, e8⟩⟩ := shape_of h G h2
    have hlt : ∀ p ∈ lead ++ mid, p.id < n := by
      intro p hp
      rw [e2, pf_flatten] at hp
      obtain ⟨t, ht, hpt⟩ := List.mem_flatMap.mp (List.mem_filter.mp hp).1
      exact h.used t ht p hpt
    have hhead : ∃ f, (replace G n old ts).head? = some f ∧
        f.prefixes = lead ++ sp ++ newIfndef G n :: newDefine G n :: rest := by
      unfold pf at e7
      rw [List.head?_map] at e7
      cases hh : (replace G n old ts).head? with
      | none => rw [hh] at e7; simp at e7
      | some f => rw [hh] at e7; exact ⟨f, rfl, by simpa using e7⟩
    have hlast : ∃ f, (replace G n old ts).getLast? = some f ∧ f.prefixes = body ++ [newEndif G n] := by
      unfold pf at e8
      rw [List.getLast?_map] at e8
      cases hh : (replace G n old ts).getLast? with
      | none => rw [hh] at e8; simp at e8
      | some f => rw [hh] at e8; exact ⟨f, rfl, by simpa using e8⟩
    refine ⟨?_, sufs_replace G n old ts, ?_, ?_, ?_⟩
    · unfold pf at e6
      rw [List.map_map, List.map_map] at e6
      exact e6
    · rw [← pf_flatten, e1]
      have f0 : ∀ l : List Pre, (∀ p ∈ l, p.id < n) → l.filter (fun p => n ≤ p.id ∧ p.type ≠ .space) = [] := by
        intro l hl
        rw [List.filter_eq_nil_iff]
        intro p hp hh
        have h1 := of_decide_eq_true hh
        have h2 := hl p hp
        omega
      have f1 : ∀ k (l : List Pre), (l = [] ∨ l = [newLine k]) → l.filter (fun p => n ≤ p.id ∧ p.type ≠ .space) = [] := by
        rintro k l (rfl | rfl)
        · rfl
        · rw [List.filter_eq_nil_iff]
          intro p hp hh
          simp only [List.mem_singleton] at hp
          subst hp
          have h1 := of_decide_eq_true hh
          exact h1.2 rfl
      have g1 : decide (n ≤ (newIfndef G n).id ∧ (newIfndef G n).type ≠ .space) = true :=
        decide_eq_true ⟨Nat.le_refl n, by simp [newIfndef]⟩
      have g2 : decide (n ≤ (newDefine G n).id ∧ (newDefine G n).type ≠ .space) = true :=
        decide_eq_true ⟨by simp [newDefine], by simp [newDefine]⟩
      have g3 : decide (n ≤ (newEndif G n).id ∧ (newEndif G n).type ≠ .space) = true :=
        decide_eq_true ⟨by simp [newEndif], by simp [newEndif]⟩
      rw [List.filter_append, List.filter_append, List.filter_append, List.filter_append,
        f0 lead (fun p hp => hlt p (by simp [hp])), f1 _ sp e4, f1 _ sp2 e5, List.filter_cons, if_pos g1,
        List.filter_cons, if_pos g2, f0 mid (fun p hp => hlt p (by simp [hp])), List.filter_cons, if_pos g3]
      rfl
    · obtain ⟨f, hf, hfp⟩ := hhead
      refine ⟨f, lead ++ sp, _, _, rest, hf, hfp, ?_, rfl, rfl⟩
      intro p hp
      rcases List.mem_append.mp hp with hp | hp
      · exact Or.inl (e3 p hp)
      · right
        rcases e4 with rfl | rfl
        · simp at hp
        · simp only [List.mem_singleton] at hp
          subst hp
          exact ⟨rfl, rfl⟩
    · obtain ⟨f, hf, hfp⟩ := hlast
      exact ⟨f, body, _, hf, hfp, rfl⟩
  · rcases h2 with ⟨rfl, h2⟩ | ⟨i, d, e, h2, rfl⟩
    · exact Or.inl ⟨rfl, h2⟩
    · exact Or.inr ⟨i, d, e, h2, rfl⟩

/-- A conditional around balanced directives is closed by the one that follows. -/
theorem partner_balanced (l : List (Nat × TT)) (d : Nat) (id : Nat)
    (h : Spec.depth d (l.map (·.2)) = some 0) : Spec.partner d (l ++ [(id, .cppEndif)]) = some id := by
  induction l generalizing d with
  | nil =>
    simp only [List.map_nil, Spec.depth, Option.some.injEq] at h
    subst h
    simp [Spec.partner, Spec.Opens]
  | cons x l ih =>
    obtain ⟨k, t⟩ := x
    rw [List.cons_append]
    unfold Spec.partner
    rw [List.map_cons] at h
    unfold Spec.depth at h
    dsimp only at h
    by_cases h1 : Spec.Opens t
    · rw [if_pos h1] at h ⊢
      exact ih _ h
    rw [if_neg h1] at h ⊢
    by_cases h2 : t = .cppEndif
    · rw [if_pos h2] at h ⊢
      by_cases h3 : d = 0
      · rw [if_pos h3] at h; simp at h
      · rw [if_neg h3] at h ⊢
        exact ih _ h
    rw [if_neg h2] at h ⊢
    by_cases h3 : (t = .cppElse ∨ t = .cppElif) ∧ d = 0
    · rw [if_pos h3] at h; simp at h
    · rw [if_neg h3] at h ⊢
      exact ih _ h

theorem depth_neutral (a b : List TT) (d : Nat) (h : ∀ t ∈ a, t = .comment) :
    Spec.depth d (a ++ b) = Spec.depth d b := by
  induction a with
  | nil => rfl
  | cons t a ih =>
    rw [List.cons_append]
    conv => lhs; unfold Spec.depth
    have := h t (by simp)
    subst this
    rw [if_neg (by simp [Spec.Opens]), if_neg (by simp), if_neg (by simp)]
    exact ih (fun x hx => h x (by simp [hx]))

theorem read_open (G : List Char) (n : Nat) : Spec.readType (newIfndef G n) = .cppIfndef := by
  unfold Spec.readType
  rw [if_neg (by simp [newIfndef]), if_pos]
  refine ⟨' ' :: (G ++ "\n".toList), ?_⟩
  rfl

theorem read_close (G : List Char) (n : Nat) : Spec.readType (newEndif G n) = .cppEndif := by
  unfold Spec.readType
  rw [if_neg (by simp [newEndif]), if_neg, if_pos]
  · refine ⟨" /* !".toList ++ G ++ " */\n".toList, ?_⟩
    rfl
  · rintro ⟨t, ht⟩
    have h1 := congrArg (List.take 2) ht
    rw [List.take_append_of_le_length (by decide)] at h1
    have h2 : "#ifndef".toList.take 2 = ['#', 'i'] := by decide
    have h3 : (newEndif G n).text.take 2 = ['#', 'e'] := by
      have : (newEndif G n).text = "#endif /* !".toList ++ (G ++ " */\n".toList) := List.append_assoc _ _ _
      rw [this, List.take_append_of_le_length (by decide)]
      decide
    rw [h2, h3] at h1
    revert h1
    decide

/-- C30. When the result is read and formatted again it is not changed, if all the other conditionals are
closed. -/
theorem guard_stable_partial (setting : Nat) (path : List Char) (real : Option (List Char)) (n : Nat) (ts : List Tok)
    (h : Spec.Read ts n) (G : List Char) (hG : pathToGuard real setting = some G)
    (hne : G ≠ []) (hs : ∀ c ∈ G, isSpace c = false)
    (ts' : List Tok) (hr : includeGuard setting path real n ts = some ts')
    (hset : setting ≠ 0) (hpath : ['.', 'h'] <:+ path)
    (hbal : ∀ old, Spec.Inserted G n old ts ts' →
      Spec.Balanced (((ts.flatMap (·.prefixes)).filter fun p => p.id ∉ old).map Spec.readType))
    (ts2 : List Tok) (n2 : Nat) (h2 : Spec.Read ts2 n2) (hre : Spec.Reread ts' ts2)
    (hg : ¬ Spec.Guarded G ts) :
    includeGuard setting path real n2 ts2 = some ts2 := by
  obtain ⟨old, hr', hold⟩ := guard_replaced setting path real n ts h G hG hset hpath hg
  rw [hr] at hr'
  simp only [Option.some.injEq] at hr'
  subst hr'
  have hb : Spec.Balanced (((ts.flatMap (·.prefixes)).filter fun p => p.id ∉ oldIds old).map Spec.readType) := by
    apply hbal
    obtain ⟨ts', old', q1, q2, q3⟩ := guard_inserted setting path real n ts h G hG hset hpath hg
    rw [hr] at q1
    simp only [Option.some.injEq] at q1
    subst q1
    have : old' = oldIds old := by
      rcases hold with ⟨rfl, hno⟩ | ⟨i, d, e, hyes, rfl⟩
      · rcases q3 with ⟨rfl, -⟩ | ⟨i, d, e, hy, -⟩
        · rfl
        · exact absurd hy (hno i d e)
      · rcases q3 with ⟨-, hno⟩ | ⟨i', d', e', hy, rfl⟩
        · exact absurd hyes (hno i d e)
        · obtain ⟨rfl, rfl, rfl⟩ := some_unique h hyes hy
          rfl
    rw [← this]
    exact q2
  obtain ⟨lead, sp, mid, sp2, e1, e2, e3, e4, e5, -, ⟨rest, e7⟩, ⟨body, e8⟩⟩ := shape_of h G hold
  apply guard_kept_partial setting path real n2 ts2 h2 G hG hne hs
  -- the prefixes of the tokens that are read
  let S : List Pre → List (Nat × TT × List Char) := fun ps =>
    (ps.filter fun p => p.type ≠ .space).map fun p => Spec.seen (Spec.readType p) p
  let V : List Pre → List (Nat × TT × List Char) := fun ps => ps.map fun p => Spec.seen p.type p
  have hsame : (pf ts2).map V = (pf (replace G n old ts)).map S := by
    unfold pf
    rw [List.map_map, List.map_map]
    exact hre.same
  have Sapp : ∀ a b, S (a ++ b) = S a ++ S b := by
    intro a b; simp only [S, List.filter_append, List.map_append]
  have Sline : ∀ k (l : List Pre), (l = [] ∨ l = [newLine k]) → S l = [] := by
    rintro k l (rfl | rfl)
    · rfl
    · rfl
  have vi : Spec.seen (Spec.readType (newIfndef G n)) (newIfndef G n) = (n, .cppIfndef, Spec.openText G) := by
    rw [read_open]; rfl
  have ve : Spec.seen (Spec.readType (newEndif G n)) (newEndif G n) = (n + 4, .cppEndif, Spec.closeText G) := by
    rw [read_close]; rfl
  have vd : Spec.seen (Spec.readType (newDefine G n)) (newDefine G n) = (n + 2, .cppDefine, Spec.defineText G) := by
    have : Spec.readType (newDefine G n) = .cppDefine := by
      unfold Spec.readType; rw [if_pos (by simp [newDefine])]; rfl
    rw [this]; rfl
  have Sopen : ∀ l, S (newIfndef G n :: newDefine G n :: l) =
      (n, .cppIfndef, Spec.openText G) :: (n + 2, .cppDefine, Spec.defineText G) :: S l := by
    intro l
    rw [← vi, ← vd]
    rfl
  have Sclose : S [newEndif G n] = [(n + 4, .cppEndif, Spec.closeText G)] := by
    rw [← ve]
    rfl
  -- the first token
  obtain ⟨first, hf, hfp⟩ : ∃ f, ts2.head? = some f ∧ V f.prefixes =
      S lead ++ (n, .cppIfndef, Spec.openText G) :: (n + 2, .cppDefine, Spec.defineText G) :: S rest := by
    have := congrArg List.head? hsame
    rw [List.head?_map, List.head?_map, e7] at this
    unfold pf at this
    rw [List.head?_map] at this
    cases hh : ts2.head? with
    | none => rw [hh] at this; simp at this
    | some f =>
      rw [hh] at this
      simp only [Option.map_some, Option.some.injEq] at this
      refine ⟨f, rfl, ?_⟩
      rw [this, Sapp, Sapp, Sline _ sp e4, Sopen, List.append_nil]
  obtain ⟨eof, he, hep⟩ : ∃ f, ts2.getLast? = some f ∧ V f.prefixes =
      S body ++ [(n + 4, .cppEndif, Spec.closeText G)] := by
    have := congrArg List.getLast? hsame
    rw [List.getLast?_map, List.getLast?_map, e8] at this
    unfold pf at this
    rw [List.getLast?_map] at this
    cases hh : ts2.getLast? with
    | none => rw [hh] at this; simp at this
    | some f =>
      rw [hh] at this
      simp only [Option.map_some, Option.some.injEq] at this
      refine ⟨f, rfl, ?_⟩
      rw [this, Sapp, Sclose]
  have hall : V (ts2.flatMap (·.prefixes)) = S lead ++ (n, .cppIfndef, Spec.openText G) ::
      (n + 2, .cppDefine, Spec.defineText G) :: S mid ++ [(n + 4, .cppEndif, Spec.closeText G)] := by
    have a1 : V (ts2.flatMap (·.prefixes)) = ((pf ts2).map V).flatten := by
      rw [← pf_flatten]; simp only [V, List.map_flatten]
    have a2 : S (pf (replace G n old ts)).flatten = ((pf (replace G n old ts)).map S).flatten := by
      simp only [S, List.filter_flatten, List.map_flatten, List.map_map]
      rfl
    rw [a1, hsame, ← a2, e1, Sapp, Sapp, Sapp, Sapp, Sline _ sp e4, Sline _ sp2 e5, Sopen, Sclose]
    simp
  obtain ⟨a, r, hfa, ha, hr1⟩ := List.map_eq_append_iff.mp hfp
  obtain ⟨i, r, rfl, hi, hr2⟩ := List.map_eq_cons_iff.mp hr1
  obtain ⟨d, b, rfl, hd, -⟩ := List.map_eq_cons_iff.mp hr2
  obtain ⟨c, r, hec, -, hr3⟩ := List.map_eq_append_iff.mp hep
  obtain ⟨e, r, rfl, hE, hr4⟩ := List.map_eq_cons_iff.mp hr3
  have hr4 := List.map_eq_nil_iff.mp hr4
  subst hr4
  have notcomment : ∀ (p : Pre) (x : Nat) (t : TT) (l : List Char), Spec.seen p.type p = (x, t, l) → t ≠ .comment →
      p.id = x ∧ p.type = t ∧ p.text = l := by
    intro p x t l hp ht
    simp only [Spec.seen, Prod.mk.injEq] at hp
    obtain ⟨p1, p2, p3⟩ := hp
    rw [if_neg (by rw [p2]; exact ht)] at p3
    exact ⟨p1, p2, p3⟩
  obtain ⟨i1, i2, i3⟩ := notcomment i _ _ _ hi (by decide)
  obtain ⟨d1, d2, d3⟩ := notcomment d _ _ _ hd (by decide)
  obtain ⟨c1, c2, c3⟩ := notcomment e _ _ _ hE (by decide)
  have hlead : ∀ l : List Pre, V l = S lead → ∀ p ∈ l, p.type = .comment := by
    intro l hl p hp
    have : Spec.seen p.type p ∈ S lead := by rw [← hl]; exact List.mem_map_of_mem hp
    obtain ⟨q, hq, hqe⟩ := List.mem_map.mp this
    have hqt := e3 q (List.mem_filter.mp hq).1
    have : Spec.readType q = .comment := by
      unfold Spec.readType
      rw [if_pos (by rw [hqt]; decide), hqt]
    rw [this] at hqe
    simp only [Spec.seen, Prod.mk.injEq] at hqe
    exact hqe.2.1.symm
  refine ⟨first, eof, a, i, d, b, e, hf, he, hfa, ?_, i2, d2, by rw [hec]; simp, ?_, c2, i3, d3, c3⟩
  · intro p hp
    rw [hlead a ha p hp]
    decide
  · -- the directives in between are balanced
    have hfl : ∃ z, ts2.flatMap (·.prefixes) = a ++ i :: z := by
      cases ts2 with
      | nil => simp at hf
      | cons x ts2 =>
        simp only [List.head?_cons, Option.some.injEq] at hf
        subst hf
        rw [List.flatMap_cons, hfa]
        exact ⟨d :: b ++ ts2.flatMap (·.prefixes), by simp⟩
    obtain ⟨z, hz⟩ := hfl
    rw [hre.linked a i z hz i2, c1]
    have hzv : V z = (n + 2, .cppDefine, Spec.defineText G) :: S mid ++ [(n + 4, .cppEndif, Spec.closeText G)] := by
      rw [hz] at hall
      have : V (a ++ i :: z) = V a ++ Spec.seen i.type i :: V z := by
        simp only [V, List.map_append, List.map_cons]
      rw [this, show V a = S lead from ha] at hall
      rw [List.append_assoc] at hall
      have := List.append_cancel_left hall
      rw [List.cons_append, List.cons_append] at this
      rw [(List.cons.inj this).2]
      simp
    have hproj : z.map (fun q => (q.id, q.type)) = (V z).map fun x => (x.1, x.2.1) := by
      simp only [V, List.map_map]
      rfl
    rw [hproj, hzv, List.map_append, List.map_cons, List.map_cons, List.map_nil]
    apply partner_balanced
    rw [List.map_cons]
    unfold Spec.depth
    dsimp only
    rw [if_neg (by simp [Spec.Opens]), if_neg (by simp), if_neg (by simp)]
    -- lines do not matter
    have hmid : Spec.depth 0 (mid.map Spec.readType) = some 0 := by
      have hb' := hb
      unfold Spec.Balanced at hb'
      rw [← pf_flatten, ← e2, List.map_append, depth_neutral] at hb'
      · exact hb'
      · intro t ht
        obtain ⟨q, hq, rfl⟩ := List.mem_map.mp ht
        have hqt := e3 q hq
        unfold Spec.readType
        rw [if_pos (by rw [hqt]; decide), hqt]
    have hskip : ∀ (l : List Pre) (k : Nat), Spec.depth k (((S l).map fun x => (x.1, x.2.1)).map (·.2)) =
        Spec.depth k (l.map Spec.readType) := by
      intro l
      induction l with
      | nil => intro k; rfl
      | cons p l ih =>
        intro k
        by_cases hp : p.type = .space
        · have hS : S (p :: l) = S l := by
            simp only [S]
            rw [List.filter_cons, if_neg (by simp [hp])]
          rw [hS, ih, List.map_cons]
          conv => rhs; unfold Spec.depth
          have : Spec.readType p = .space := by
            unfold Spec.readType; rw [if_pos (by rw [hp]; decide), hp]
          rw [this, if_neg (by simp [Spec.Opens]), if_neg (by simp), if_neg (by simp)]
        · have hS : S (p :: l) = Spec.seen (Spec.readType p) p :: S l := by
            simp only [S]
            rw [List.filter_cons, if_pos (by simp [hp])]
            rfl
          rw [hS, List.map_cons, List.map_cons, List.map_cons]
          unfold Spec.depth
          simp only [Spec.seen, ih]
    rw [hskip]
    exact hmid

/-! ## The name -/

/-- C30. The name only has upper case letters, digits and underscores, if the path only has letters, digits and
`_`, `.`, `/` and `-`; then there is no white space in it either. -/
theorem guard_name_partial (real : List Char) (setting : Nat)
    (h : ∀ c ∈ real, ('A' ≤ c ∧ c ≤ 'Z') ∨ ('a' ≤ c ∧ c ≤ 'z') ∨ ('0' ≤ c ∧ c ≤ '9') ∨ c = '_' ∨ c = '.' ∨ c = '/' ∨ c = '-') :
    ∃ G, pathToGuard (some real) setting = some G ∧ (∀ c ∈ G, Spec.isNameChar c) ∧ ∀ c ∈ G, isSpace c = false := by
  obtain ⟨r, hr, hsuf⟩ := Knfmt.Util.path_slice_suffix real setting
  have key : ∀ G : List Char, (∀ c ∈ G, Spec.isNameChar c) → ∀ c ∈ G, isSpace c = false := by
    intro G hG c hc
    have hn : ∀ d : Char, c = d → ¬ Spec.isNameChar d → False := by
      rintro d rfl hd
      exact hd (hG c hc)
    unfold isSpace
    simp only [Bool.or_eq_false_iff, decide_eq_false_iff_not]
    unfold Spec.isNameChar at hn
    refine ⟨⟨⟨⟨⟨?_, ?_⟩, ?_⟩, ?_⟩, ?_⟩, ?_⟩ <;> exact fun e => hn _ e (by decide)
  have hm : ∀ c ∈ r.map (fun c => if c = '.' ∨ c = '/' ∨ c = '-' then '_' else toUpper c), Spec.isNameChar c := by
    intro c hc
    obtain ⟨d, hd, rfl⟩ := List.mem_map.mp hc
    have hd' := h d (hsuf.subset hd)
    by_cases h1 : d = '.' ∨ d = '/' ∨ d = '-'
    · rw [if_pos h1]
      exact Or.inr (Or.inr rfl)
    · rw [if_neg h1]
      unfold toUpper
      by_cases h2 : 'a' ≤ d ∧ d ≤ 'z'
      · rw [if_pos h2]
        left
        -- letters, one by one
        obtain ⟨h3, h4⟩ := h2
        have h3' : 97 ≤ d.toNat := h3
        have h4' : d.toNat ≤ 122 := h4
        have hall : ∀ n : Fin 26, 'A' ≤ Char.ofNat (n.val + 65) ∧ Char.ofNat (n.val + 65) ≤ 'Z' := by decide
        have := hall ⟨d.toNat - 97, by omega⟩
        have e : d.toNat - 97 + 65 = d.toNat - 32 := by omega
        simpa [e] using this
      · rw [if_neg h2]
        rcases hd' with hd' | hd' | hd' | hd' | hd' | hd' | hd'
        · exact Or.inl hd'
        · exact absurd hd' h2
        · exact Or.inr (Or.inl hd')
        · exact Or.inr (Or.inr hd')
        · exact absurd (Or.inl hd') h1
        · exact absurd (Or.inr (Or.inl hd')) h1
        · exact absurd (Or.inr (Or.inr hd')) h1
  refine ⟨r.map fun c => if c = '.' ∨ c = '/' ∨ c = '-' then '_' else toUpper c, ?_, ?_, ?_⟩
  · unfold pathToGuard
    simp only [hr]
  · exact hm
  · exact key _ hm

/-- Other characters are kept, the full statement of C30 is false. -/
theorem guard_name_fails : ∃ (real : List Char) (G : List Char), pathToGuard (some real) 1 = some G ∧
    ¬ ∀ c ∈ G, Spec.isNameChar c :=
  ⟨"/src/c++.h".toList, "C++_H".toList, by decide +kernel, by
    intro h
    exact (by unfold Spec.isNameChar; decide : ¬ Spec.isNameChar '+') (h '+' (by decide))⟩

/-- Nor does it have to be an identifier. -/
example : pathToGuard (some "/src/3d.h".toList) 1 = some "3D_H".toList := by decide +kernel

/-! ## Examples -/

/-- A comment, the guard `A_H` and a declaration. -/
def header : List Tok :=
  [⟨[⟨0, .comment, "/* a */\n\n".toList, none⟩, ⟨1, .cppIfndef, "#ifndef A_H\n".toList, some 4⟩,
     ⟨2, .cppDefine, "#define A_H\n\n".toList, none⟩, ⟨3, .cppInclude, "#include <b.h>\n\n".toList, none⟩], []⟩,
   ⟨[], [⟨.space, {}⟩]⟩,
   ⟨[⟨4, .cppEndif, "#endif /* !A_H */\n".toList, none⟩], []⟩]

example : Spec.Read header 5 where
  some := by decide
  ids := by decide
  used := by decide
  linked := by decide

example : Spec.Guarded "A_H".toList header :=
  ⟨_, _, [_], _, _, [_], _, rfl, rfl, rfl, by decide, rfl, rfl, List.mem_singleton_self _, rfl, rfl,
    by decide, by decide, by decide⟩

example : includeGuard 1 "a.h".toList (some "/src/a.h".toList) 5 header = some header := by decide +kernel

/-- The file is renamed: the guard is replaced. -/
example : (includeGuard 1 "b.h".toList (some "/src/b.h".toList) 5 header).map
      (fun ts => ts.map fun t => t.prefixes.map fun p => String.ofList p.text) =
    some [["/* a */\n\n", "#ifndef B_H\n", "#define B_H\n\n", "#include <b.h>\n\n"], [],
      ["#endif /* !B_H */\n"]] := by decide +kernel

/-- No guard: it is added. -/
example : (includeGuard 1 "a.h".toList (some "/src/a.h".toList) 5
      [⟨[⟨0, .comment, "/* a */\n".toList, none⟩], [⟨.space, {}⟩]⟩, ⟨[], []⟩]).map
      (fun ts => ts.map fun t => t.prefixes.map fun p => String.ofList p.text) =
    some [["/* a */\n", "\n", "#ifndef A_H\n", "#define A_H\n\n"], ["\n", "#endif /* !A_H */\n"]] := by decide +kernel

/-- The same, read again. -/
def added : List Tok :=
  [⟨[⟨0, .comment, "/* a */\n\n".toList, none⟩, ⟨5, .cppIfndef, "#ifndef A_H\n".toList, some 9⟩,
     ⟨7, .cppDefine, "#define A_H\n\n".toList, none⟩], [⟨.space, {}⟩]⟩,
   ⟨[⟨9, .cppEndif, "#endif /* !A_H */\n".toList, none⟩], []⟩]

/-- The hypotheses of `guard_stable_partial` are met. -/
example : ∃ ts', includeGuard 1 "a.h".toList (some "/src/a.h".toList) 5
      [⟨[⟨0, .comment, "/* a */\n".toList, none⟩], [⟨.space, {}⟩]⟩, ⟨[], []⟩] = some ts' ∧
    Spec.Reread ts' added ∧ Spec.Read added 10 ∧
    ∀ old : List Nat, Spec.Balanced ((([⟨0, .comment, "/* a */\n".toList, none⟩] : List Pre).filter fun p => decide (p.id ∉ old)).map
      Spec.readType) := by
  refine ⟨_, rfl, ⟨?_, ?_⟩, ⟨by decide, by decide, by decide, by decide⟩, ?_⟩
  · decide +kernel
  · intro a p b h hp
    have hlen := congrArg List.length h
    have hp2 : (added.flatMap (·.prefixes))[a.length]? = some p := by rw [h]; simp
    have hb : (added.flatMap (·.prefixes)).drop (a.length + 1) = b := by rw [h]; simp
    have key : ∀ k : Fin 4, ∀ q, (added.flatMap (·.prefixes))[k.val]? = some q → q.type = .cppIfndef →
        q.nx = Spec.partner 0 (((added.flatMap (·.prefixes)).drop (k.val + 1)).map fun q => (q.id, q.type)) := by
      intro k q hq hty
      have : ∀ k : Fin 4, ((added.flatMap (·.prefixes))[k.val]?).map (·.type) = some .cppIfndef →
        (added.flatMap (·.prefixes))[k.val]?.map (·.nx) =
          some (Spec.partner 0 (((added.flatMap (·.prefixes)).drop (k.val + 1)).map fun q => (q.id, q.type))) := by decide +kernel
      have := this k (by rw [hq]; simp [hty])
      rw [hq] at this
      simpa using this
    have hl4 : (added.flatMap (·.prefixes)).length = 4 := by decide
    rw [hl4, List.length_append, List.length_cons] at hlen
    have := key ⟨a.length, by omega⟩ p hp2 hp
    rw [this]
    dsimp only
    rw [hb]
  · intro old
    unfold Spec.Balanced
    rw [List.filter_cons]
    split
    · exact (by decide : Spec.depth 0 [Spec.readType ⟨0, .comment, "/* a */\n".toList, none⟩] = some 0)
    · rfl

/-- A header whose name has a space in it, and its guard. -/
def spaced : List Tok :=
  [⟨[⟨0, .cppIfndef, "#ifndef A B_H\n".toList, some 2⟩, ⟨1, .cppDefine, "#define A B_H\n\n".toList, none⟩], []⟩,
   ⟨[⟨2, .cppEndif, "#endif /* !A B_H */\n".toList, none⟩], []⟩]

/-- The full statement of C30 is false: if there is white space in the name the guard is not recognised and
another one is added, each time. -/
theorem guard_kept_fails : Spec.Read spaced 3 ∧ Spec.Guarded "A B_H".toList spaced ∧
    pathToGuard (some "/src/a b.h".toList) 1 = some "A B_H".toList ∧
    includeGuard 1 "a b.h".toList (some "/src/a b.h".toList) 3 spaced ≠ some spaced := by
  refine ⟨⟨by decide, by decide, by decide, by decide⟩, ⟨_, _, [], _, _, [], _, rfl, rfl, rfl, by decide, rfl, rfl,
    List.mem_singleton_self _, rfl, rfl, by decide, by decide, by decide⟩, by decide +kernel, by decide +kernel⟩

/-- A guard whose define has a value, `#define A_H 1`, is not recognised either: the new guard of the same name is
put around it, so everything in the header is left out. -/
theorem guard_nested : (includeGuard 1 "a.h".toList (some "/src/a.h".toList) 3
      [⟨[⟨0, .cppIfndef, "#ifndef A_H\n".toList, some 2⟩, ⟨1, .cppDefine, "#define A_H 1\n\n".toList, none⟩], []⟩,
       ⟨[⟨2, .cppEndif, "#endif /* !A_H */\n".toList, none⟩], []⟩]).map
      (fun ts => ts.map fun t => t.prefixes.map fun p => String.ofList p.text) =
    some [["#ifndef A_H\n", "#define A_H\n\n", "#ifndef A_H\n", "#define A_H 1\n\n"],
      ["#endif /* !A_H */\n", "\n", "#endif /* !A_H */\n"]] := by decide +kernel

end Knfmt.Guard
