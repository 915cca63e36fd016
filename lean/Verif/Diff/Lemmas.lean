import Verif.Diff.Model
import Verif.Diff.Spec
namespace Knfmt.Diff

open Knfmt.Spec.Udiff

/-! ## Numbers -/

theorem isDigit_iff (c : Char) : isDigit c = true ↔ '0' ≤ c ∧ c ≤ '9' := by
  simp [isDigit]

theorem digitsVal_append (acc : Nat) (s t : List Char) (hs : ∀ c ∈ s, isDigit c = true)
    (ht : ∀ c, t.head? = some c → isDigit c = false) :
    digitsVal acc (s ++ t) = s.foldl (fun n c => n * 10 + (c.toNat - 48)) acc := by
  induction s generalizing acc with
  | nil =>
    cases t with
    | nil => rfl
    | cons c t => simp [digitsVal, ht c rfl]
  | cons c s ih =>
    rw [List.cons_append, digitsVal, if_pos (hs c (List.mem_cons_self ..)),
      ih _ (fun c hc => hs c (List.mem_cons_of_mem _ hc))]
    rfl

theorem takeWhile_digits (s t : List Char) (hs : ∀ c ∈ s, isDigit c = true)
    (ht : ∀ c, t.head? = some c → isDigit c = false) :
    (s ++ t).takeWhile isDigit = s := by
  induction s with
  | nil =>
    cases t with
    | nil => rfl
    | cons c t => simp [ht c rfl]
  | cons c s ih =>
    rw [List.cons_append, List.takeWhile_cons, if_pos (hs c (List.mem_cons_self ..)),
      ih (fun c hc => hs c (List.mem_cons_of_mem _ hc))]

theorem number_digits {s : List Char} (h : IsNumber s) : ∀ c ∈ s, isDigit c = true :=
  fun c hc => (isDigit_iff c).mpr (h.2 c hc)

/-! ## Headers -/

theorem beforeLastAt_none (s : List Char) (h : ¬ ['@', '@'] <:+: s) : beforeLastAt s = none := by
  induction s with
  | nil => rfl
  | cons c s ih =>
    have hs : ¬ ['@', '@'] <:+: s := fun ⟨a, b, hab⟩ => h ⟨c :: a, b, by simp [← hab]⟩
    unfold beforeLastAt
    rw [ih hs]
    simp only
    rw [if_neg]
    rintro ⟨rfl, hh⟩
    cases s with
    | nil => simp at hh
    | cons d s => simp at hh; subst hh; exact h ⟨[], s, by simp⟩

theorem beforeLastAt_append (body heading : List Char) (h : ¬ ['@', '@'] <:+: heading)
    (hh : heading.head? ≠ some '@') :
    beforeLastAt (body ++ '@' :: '@' :: heading) = some body := by
  induction body with
  | nil =>
    have h1 : beforeLastAt ('@' :: heading) = none := by
      unfold beforeLastAt
      rw [beforeLastAt_none _ h]
      simp [hh]
    rw [List.nil_append]
    unfold beforeLastAt
    rw [h1]
    simp
  | cons c body ih =>
    rw [List.cons_append]
    unfold beforeLastAt
    rw [ih]

theorem matchPlus_none (b : Bool) (s : List Char) (h : '+' ∉ s) : matchPlus b s = none := by
  induction s generalizing b with
  | nil => rfl
  | cons c s ih =>
    simp at h
    unfold matchPlus
    rw [ih false h.2]
    simp [Ne.symm h.1]

theorem matchPlus_append (b : Bool) (a s : List Char) (r : List Char × Option Nat)
    (h : matchPlus false s = some r) (ha : a ≠ [] ∨ b = false) : matchPlus b (a ++ s) = some r := by
  induction a generalizing b with
  | nil => simp at ha; subst ha; simpa using h
  | cons c a ih =>
    rw [List.cons_append]
    unfold matchPlus
    rw [ih false (Or.inr rfl)]

theorem matchNumbers_range (r : Range) (h : r.Ok) :
    matchNumbers (r.render ++ [' ']) =
      some (match r.count with | none => none | some _ => some (r.start.length + 1)) := by
  have hd := number_digits h.1
  have hne : r.start.length ≠ 0 := by simpa using h.1.1
  unfold matchNumbers Range.render
  cases hc : r.count with
  | none =>
    have h1 : (r.start ++ [' ']).takeWhile isDigit = r.start :=
      takeWhile_digits _ _ hd (by simp [isDigit])
    simp [h1, hne]
  | some c =>
    have hcn := h.2 c hc
    have hcd := number_digits hcn
    have hcl : c.length ≠ 0 := by simpa using hcn.1
    have h1 : (r.start ++ (',' :: (c ++ [' ']))).takeWhile isDigit = r.start :=
      takeWhile_digits _ _ hd (by simp [isDigit])
    have h2 : (c ++ [' ']).takeWhile isDigit = c :=
      takeWhile_digits _ _ hcd (by simp [isDigit])
    simp [h1, h2, hne, hcl]

theorem number_no_plus {s : List Char} (h : IsNumber s) : '+' ∉ s := by
  intro hm
  have := number_digits h '+' hm
  simp [isDigit] at this

theorem range_no_plus (r : Range) (h : r.Ok) : '+' ∉ r.render := by
  unfold Range.render
  cases hc : r.count with
  | none => simpa using number_no_plus h.1
  | some c => simp [number_no_plus h.1, number_no_plus (h.2 c hc)]

theorem strtou_append (s t : List Char) (hs : IsNumber s)
    (ht : ∀ c, t.head? = some c → isDigit c = false) :
    strtou (s ++ t) = if decimal s = 0 ∨ decimal s > UINT_MAX then 0 else decimal s := by
  unfold strtou
  rw [digitsVal_append _ _ _ (number_digits hs) ht]
  rfl

theorem reChunk_header (h : Hunk) (hok : h.Ok) :
    reChunk h.header = some (h.new.render ++ [' '], h.new.count.map (· ++ [' '])) := by
  have e : h.header = '@' :: '@' :: (([' ', '-'] ++ h.old.render ++ [' '] ++
      '+' :: (h.new.render ++ [' '])) ++ '@' :: '@' :: h.heading) := by
    unfold Hunk.header
    simp only [String.reduceToList, List.append_assoc, List.cons_append, List.nil_append]
  rw [e]
  unfold reChunk
  simp only
  rw [beforeLastAt_append _ _ hok.heading.1 hok.heading.2]
  simp only
  have h1 : matchPlus false ('+' :: (h.new.render ++ [' '])) =
      some (h.new.render ++ [' '],
        match h.new.count with | none => none | some _ => some (h.new.start.length + 1)) := by
    unfold matchPlus
    rw [matchPlus_none _ _ (by simp [range_no_plus _ hok.new])]
    simp [matchNumbers_range _ hok.new]
  rw [matchPlus_append _ _ _ _ h1 (by simp)]
  simp only [Option.map_some]
  congr 2
  unfold Range.render
  cases h.new.count with
  | none => rfl
  | some c => simp [List.drop_append]

theorem matchChunk_header (h : Hunk) (hok : h.Ok) :
    matchChunk h.header =
      if h.new.len = 0 then none
      else some (decimal h.new.start, decimal h.new.start + h.new.len - 1) := by
  unfold matchChunk
  rw [reChunk_header h hok]
  have hs := hok.small
  have hst := hok.start
  simp only
  have h1 : strtou (h.new.render ++ [' ']) =
      if decimal h.new.start = 0 ∨ decimal h.new.start > UINT_MAX then 0 else decimal h.new.start := by
    unfold Range.render
    rw [List.append_assoc]
    apply strtou_append _ _ hok.new.1
    cases h.new.count <;> simp [isDigit]
  rw [h1]
  have hle : ¬ decimal h.new.start > UINT_MAX := by unfold UINT_MAX; omega
  unfold Range.len at hs hst ⊢
  cases hc : h.new.count with
  | none =>
    simp only [hc] at hs hst
    have := hst (by omega)
    simp [hle, this]
  | some c =>
    simp only [hc, Option.map_some] at hs hst ⊢
    have h2 : strtou (c ++ [' ']) = if decimal c = 0 ∨ decimal c > UINT_MAX then 0 else decimal c :=
      strtou_append _ _ (hok.new.2 c hc) (by simp [isDigit])
    have hcle : ¬ decimal c > UINT_MAX := by unfold UINT_MAX; omega
    rw [h2]
    by_cases h0 : decimal c = 0
    · simp [h0]
    · have := hst h0
      simp only [this, hle, or_self, if_false, h0, hcle]
      rw [wrap_of_lt (by omega), Nat.add_sub_assoc (by omega)]

theorem matchPath_junk (env : Env) (l : Line) (h : ¬ "+++".toList <+: l) : matchPath env l = none := by
  unfold matchPath
  have : rePath l = none := by
    unfold rePath
    split
    · next s => exact absurd ⟨s, rfl⟩ h
    · rfl
  rw [this]

theorem matchPath_header (env : Env) (h : Hunk) : matchPath env h.header = none :=
  matchPath_junk env _ (by
    rintro ⟨t, ht⟩
    unfold Hunk.header at ht
    simp only [String.reduceToList, List.append_assoc, List.cons_append] at ht
    injection ht with h1 h2
    exact absurd h1 (by decide))

theorem matchChunk_junk (l : Line) (h : ¬ "@@".toList <+: l) : matchChunk l = none := by
  unfold matchChunk
  have : reChunk l = none := by
    unfold reChunk
    split
    · next s => exact absurd ⟨s, rfl⟩ h
    · rfl
  rw [this]

/-! ## Hunks -/

/-- Selected by a complete chunk. -/
def Sel (cs : List Chunk) (n : Nat) : Prop := ∃ c ∈ cs, c.beg ≤ n ∧ n ≤ c.end_

/-- All chunks have been ended. -/
def Closed (cs : List Chunk) : Prop := ∀ c ∈ cs, 0 < c.beg ∧ 0 < c.end_

/-- The state of the chunks in front of line `sl`, when `S` are the lines selected. -/
inductive St (cs : List Chunk) (sl : Nat) (S : Nat → Prop) : Prop
  | closed (h : Closed cs) (hs : ∀ n, Sel cs n ↔ S n) : St cs sl S
  | opened (ds : List Chunk) (b : Nat) (e : cs = ds ++ [⟨b, 0⟩]) (h : Closed ds) (hb : 0 < b)
      (hlt : b < sl) (hs : ∀ n, (Sel ds n ∨ (b ≤ n ∧ n < sl)) ↔ S n) : St cs sl S

theorem Sel_append (a b : List Chunk) (n : Nat) : Sel (a ++ b) n ↔ Sel a n ∨ Sel b n := by
  simp only [Sel, List.mem_append]
  constructor
  · rintro ⟨c, hc | hc, h⟩
    · exact Or.inl ⟨c, hc, h⟩
    · exact Or.inr ⟨c, hc, h⟩
  · rintro (⟨c, hc, h⟩ | ⟨c, hc, h⟩)
    · exact ⟨c, Or.inl hc, h⟩
    · exact ⟨c, Or.inr hc, h⟩

theorem diffEnd_closed {cs : List Chunk} (h : Closed cs) (n : Nat) : diffEnd cs n = cs := by
  unfold diffEnd
  split
  · next du hd =>
    have := h du (List.mem_of_getLast? hd)
    rw [if_neg (by omega)]
  · rfl

theorem diffEnd_opened (ds : List Chunk) (b n : Nat) :
    diffEnd (ds ++ [⟨b, 0⟩]) n = ds ++ [⟨b, n⟩] := by
  simp [diffEnd]

/-- Ending the open chunk in front of line `sl`. -/
theorem St.end {cs : List Chunk} {sl : Nat} {S : Nat → Prop} (h : St cs sl S) (hsl : 0 < sl) :
    Closed (diffEnd cs (sl - 1)) ∧ ∀ n, Sel (diffEnd cs (sl - 1)) n ↔ S n := by
  cases h with
  | closed h hs => rw [diffEnd_closed h]; exact ⟨h, hs⟩
  | opened ds b e h hb hlt hs =>
    subst e
    rw [diffEnd_opened]
    constructor
    · intro c hc
      rcases List.mem_append.mp hc with hc | hc
      · exact h c hc
      · simp at hc; subst hc; simp; omega
    · intro n
      rw [Sel_append, ← hs]
      simp only [Sel, List.mem_singleton, exists_eq_left]
      constructor
      · rintro (h | h)
        · exact Or.inl h
        · right; omega
      · rintro (h | h)
        · exact Or.inl h
        · right; omega

theorem matchLine_add {cs : List Chunk} {sl : Nat} {S : Nat → Prop} (t : List Char) (h : St cs sl S)
    (hsl : 0 < sl) :
    ∃ cs', matchLine ('+' :: t) sl cs = (cs', true) ∧ St cs' (sl + 1) (fun n => S n ∨ n = sl) := by
  cases h with
  | closed h hs =>
    refine ⟨cs ++ [⟨sl, 0⟩], ?_, .opened cs sl rfl h hsl (by omega) ?_⟩
    · unfold matchLine
      simp only
      split
      · rfl
      · next du hd =>
        have := h du (List.mem_of_getLast? hd)
        rw [if_pos this]
    · intro n
      simp only [hs]
      constructor
      · rintro (h | h)
        · exact Or.inl h
        · right; omega
      · rintro (h | h)
        · exact Or.inl h
        · right; omega
  | opened ds b e h hb hlt hs =>
    refine ⟨cs, ?_, .opened ds b e h hb (by omega) ?_⟩
    · unfold matchLine
      simp [e]
    · intro n
      simp only [← hs]
      constructor
      · rintro (h | h)
        · exact Or.inl (Or.inl h)
        · by_cases hn : n = sl
          · exact Or.inr hn
          · exact Or.inl (Or.inr (by omega))
      · rintro ((h | h) | h)
        · exact Or.inl h
        · right; omega
        · right; omega

/-- Lines no part of the outer loop reacts to. -/
def Junk (l : Line) : Prop := ¬ "+++".toList <+: l ∧ ¬ "@@".toList <+: l

theorem junk_old (l : HLine) (h : l.isNew = false) : Junk l.render := by
  have hd : ∀ l : Line, l.head? ≠ some '+' → l.head? ≠ some '@' → Junk l := by
    intro l h1 h2
    constructor <;> (rintro ⟨t, rfl⟩; simp at h1 h2)
  cases l <;> simp [HLine.isNew] at h
  · exact hd _ (by simp [HLine.render]) (by simp [HLine.render])
  · exact hd _ (by simp [HLine.render]) (by simp [HLine.render])

theorem matchLine_del (t : List Char) (sl : Nat) (cs : List Chunk) :
    matchLine (HLine.del t).render sl cs = (cs, false) := rfl

theorem matchLine_ctx (t : List Char) (sl : Nat) (cs : List Chunk) :
    matchLine (HLine.ctx t).render sl cs = (diffEnd cs (sl - 1), true) := rfl

theorem matchLine_blank (sl : Nat) (cs : List Chunk) :
    matchLine HLine.blank.render sl cs = (diffEnd cs (sl - 1), true) := rfl

/-- The inner loop on a hunk. -/
theorem hunkLoop_lines (ls : List HLine) (rest : List Line) (sl el : Nat) (cs : List Chunk)
    (S : Nat → Prop) (hst : St cs sl S) (hsl : 0 < sl)
    (hcount : sl + (ls.filter HLine.isNew).length = el + 1) (hel : el + 1 < 2 ^ 32)
    (hm : ∀ as bs, ls = as ++ .nonl :: bs → ∀ r ∈ bs, r.isNew = false) :
    ∃ cs' tail, hunkLoop (ls.map HLine.render ++ rest) sl el cs = some (cs', tail ++ rest) ∧
      (∀ l ∈ tail, Junk l) ∧ St cs' (el + 1) (fun n => S n ∨ n ∈ added sl ls) := by
  -- once all lines have been seen, what is left is skipped by the outer loop
  have stop : ∀ (ls : List HLine) (sl : Nat) (cs : List Chunk) (S : Nat → Prop), St cs sl S →
      (ls.filter HLine.isNew).length = 0 → sl = el + 1 →
      ∃ cs' tail, hunkLoop (ls.map HLine.render ++ rest) sl el cs = some (cs', tail ++ rest) ∧
        (∀ l ∈ tail, Junk l) ∧ St cs' (el + 1) (fun n => S n ∨ n ∈ added sl ls) := by
    intro ls sl cs S hst h0 hsl
    have hnone : ∀ l ∈ ls, l.isNew = false := by
      intro l hl
      have : l ∉ ls.filter HLine.isNew := by rw [List.eq_nil_of_length_eq_zero h0]; simp
      simpa [hl] using this
    have hadd : added sl ls = [] := by
      clear hst h0 hsl
      induction ls with
      | nil => rfl
      | cons l ls ih =>
        have h1 := hnone l (List.mem_cons_self ..)
        have h2 := ih (fun l hl => hnone l (List.mem_cons_of_mem _ hl))
        cases l <;> simp [HLine.isNew] at h1 <;> simpa [added] using h2
    refine ⟨cs, ls.map HLine.render, ?_, ?_, ?_⟩
    · cases hls : ls.map HLine.render ++ rest with
      | nil => unfold hunkLoop; rw [if_neg (by omega)]
      | cons x xs => unfold hunkLoop; rw [if_neg (by omega)]
    · intro l hl
      obtain ⟨k, hk, rfl⟩ := List.mem_map.mp hl
      exact junk_old k (hnone k hk)
    · rw [hadd]
      subst hsl
      simpa using hst
  induction ls generalizing sl cs S with
  | nil =>
    simp at hcount
    exact stop [] sl cs S hst rfl hcount
  | cons l ls ih =>
    by_cases h0 : ((l :: ls).filter HLine.isNew).length = 0
    · exact stop (l :: ls) sl cs S hst h0 (by omega)
    · have hle : sl ≤ el := by omega
      have hm' : ∀ as bs, ls = as ++ .nonl :: bs → ∀ r ∈ bs, r.isNew = false :=
        fun as bs e => hm (l :: as) bs (by rw [e]; rfl)
      have hmod : wrap (sl + 1) = sl + 1 := wrap_of_lt (by omega)
      rw [List.map_cons, List.cons_append]
      unfold hunkLoop
      rw [if_pos hle]
      cases l with
      | nonl =>
        -- no line of the new file may follow
        exfalso
        apply h0
        have := hm [] ls rfl
        rw [List.length_eq_zero_iff, List.filter_eq_nil_iff]
        intro r hr
        rcases List.mem_cons.mp hr with rfl | hr
        · simp [HLine.isNew]
        · simp [this r hr]
      | del t =>
        simp only [matchLine_del, Bool.false_eq_true, if_false]
        obtain ⟨cs', tail, h1, h2, h3⟩ := ih sl cs S hst hsl (by rw [List.filter_cons_of_neg (by simp [HLine.isNew])] at hcount; exact hcount) hm'
        exact ⟨cs', tail, h1, h2, by simpa [added] using h3⟩
      | add t =>
        obtain ⟨cs1, e1, hst1⟩ := matchLine_add t hst hsl
        have e1' : matchLine (HLine.add t).render sl cs = (cs1, true) := e1
        simp only [e1', if_true, hmod]
        obtain ⟨cs', tail, h1, h2, h3⟩ := ih (sl + 1) cs1 _ hst1 (by omega)
          (by rw [List.filter_cons_of_pos rfl, List.length_cons] at hcount; omega) hm'
        refine ⟨cs', tail, h1, h2, ?_⟩
        simpa [added, or_assoc] using h3
      | ctx t =>
        obtain ⟨hc, hs⟩ := hst.end hsl
        simp only [matchLine_ctx, if_true, hmod]
        obtain ⟨cs', tail, h1, h2, h3⟩ := ih (sl + 1) _ S (.closed hc hs) (by omega)
          (by rw [List.filter_cons_of_pos rfl, List.length_cons] at hcount; omega) hm'
        exact ⟨cs', tail, h1, h2, by simpa [added] using h3⟩
      | blank =>
        obtain ⟨hc, hs⟩ := hst.end hsl
        simp only [matchLine_blank, if_true, hmod]
        obtain ⟨cs', tail, h1, h2, h3⟩ := ih (sl + 1) _ S (.closed hc hs) (by omega)
          (by rw [List.filter_cons_of_pos rfl, List.length_cons] at hcount; omega) hm'
        exact ⟨cs', tail, h1, h2, by simpa [added] using h3⟩

theorem hunkLoop_short (ls : List Line) (sl el : Nat) (cs : List Chunk)
    (h : sl + (ls.filter (fun l => l.head? ≠ some '-')).length ≤ el) (hel : el + 1 < 2 ^ 32) :
    hunkLoop ls sl el cs = none := by
  induction ls generalizing sl cs with
  | nil => unfold hunkLoop; rw [if_pos (by simpa using h)]
  | cons l ls ih =>
    unfold hunkLoop
    rw [if_pos (by omega)]
    simp only
    by_cases hl : l.head? = some '-'
    · obtain ⟨t, rfl⟩ : ∃ t, l = '-' :: t := by
        cases l with
        | nil => simp at hl
        | cons c t => simp at hl; exact ⟨t, by rw [hl]⟩
      simp only [matchLine, Bool.false_eq_true, if_false]
      apply ih
      rw [List.filter_cons_of_neg (by simp)] at h
      exact h
    · rw [List.filter_cons_of_pos (by simpa using hl), List.length_cons] at h
      have : (matchLine l sl cs).2 = true := by
        unfold matchLine
        split
        · simp at hl
        · split
          · rfl
          · split <;> rfl
        · rfl
      rw [this, if_pos rfl, wrap_of_lt (by omega)]
      apply ih
      omega

/-! ## The outer loop -/

theorem parseLoop_junk (env : Env) (l : Line) (ls : List Line) (files : List FileDiff) (h : Junk l) :
    parseLoop env (l :: ls) files = parseLoop env ls files := by
  rw [parseLoop, matchPath_junk _ _ h.1]
  simp only
  rw [matchChunk_junk _ h.2]

theorem parseLoop_junks (env : Env) (js ls : List Line) (files : List FileDiff)
    (h : ∀ l ∈ js, Junk l) : parseLoop env (js ++ ls) files = parseLoop env ls files := by
  induction js with
  | nil => rfl
  | cons l js ih =>
    rw [List.cons_append, parseLoop_junk _ _ _ _ (h l (List.mem_cons_self ..)),
      ih (fun l hl => h l (List.mem_cons_of_mem _ hl))]

theorem parseLoop_hunk (env : Env) (h : Hunk) (hok : h.Ok) (rest : List Line) (files : List FileDiff)
    (fe : FileDiff) (hc : Closed fe.chunks) :
    ∃ cs, parseLoop env (h.render ++ rest) (files ++ [fe]) =
        parseLoop env rest (files ++ [{ fe with chunks := cs }]) ∧ Closed cs ∧
      ∀ n, Sel cs n ↔ Sel fe.chunks n ∨ n ∈ h.added := by
  unfold Hunk.render
  rw [List.cons_append]
  rw [parseLoop, matchPath_header, matchChunk_header h hok]
  simp only
  by_cases h0 : h.new.len = 0
  · rw [if_pos h0]
    simp only
    have hcount := hok.count
    rw [h0] at hcount
    have hnone : ∀ l ∈ h.lines, l.isNew = false := by
      intro l hl
      have : l ∉ h.lines.filter HLine.isNew := by rw [List.eq_nil_of_length_eq_zero hcount]; simp
      simpa [hl] using this
    refine ⟨fe.chunks, ?_, hc, ?_⟩
    · rw [parseLoop_junks]
      intro l hl
      obtain ⟨k, hk, rfl⟩ := List.mem_map.mp hl
      exact junk_old k (hnone k hk)
    · intro n
      have hadd : ∀ (ls : List HLine) (sl : Nat), (∀ l ∈ ls, l.isNew = false) → added sl ls = [] := by
        intro ls sl hn
        induction ls with
        | nil => rfl
        | cons l ls ih =>
          have h1 := hn l (List.mem_cons_self ..)
          have h2 := ih (fun l hl => hn l (List.mem_cons_of_mem _ hl))
          cases l <;> simp [HLine.isNew] at h1 <;> simpa [added] using h2
      simp [Hunk.added, hadd _ _ hnone]
  · rw [if_neg h0]
    simp only
    have hst := hok.start h0
    have hsm := hok.small
    obtain ⟨cs', tail, e, hj, hs'⟩ := hunkLoop_lines h.lines rest (decimal h.new.start)
      (decimal h.new.start + h.new.len - 1) fe.chunks (Sel fe.chunks) (.closed hc (fun _ => Iff.rfl))
      (by omega) (by rw [hok.count]; omega) (by omega) hok.marker
    have hend := hs'.end (by omega)
    refine ⟨diffEnd cs' (decimal h.new.start + h.new.len - 1), ?_, ?_, ?_⟩
    · have hlast : (files ++ [fe]).getLast? = some fe := by simp
      split
      · next hl => rw [hlast] at hl; simp at hl
      · next fe' hl =>
        rw [hlast] at hl
        simp at hl; subst hl
        split
        · next he => rw [e] at he; simp at he
        · next cs rest' he =>
          rw [e] at he
          simp at he
          obtain ⟨rfl, rfl⟩ := he
          rw [parseLoop_junks _ _ _ _ hj]
          simp
    · simpa using hend.1
    · have := hend.2
      simpa [Hunk.added] using this

theorem parseLoop_hunks (env : Env) (hs : List Hunk) (hok : ∀ h ∈ hs, h.Ok) (rest : List Line)
    (files : List FileDiff) (fe : FileDiff) (hc : Closed fe.chunks) :
    ∃ cs, parseLoop env ((hs.map Hunk.render).flatten ++ rest) (files ++ [fe]) =
        parseLoop env rest (files ++ [{ fe with chunks := cs }]) ∧ Closed cs ∧
      ∀ n, Sel cs n ↔ Sel fe.chunks n ∨ n ∈ (hs.map Hunk.added).flatten := by
  induction hs generalizing fe with
  | nil => exact ⟨fe.chunks, rfl, hc, by simp⟩
  | cons h hs ih =>
    obtain ⟨cs1, e1, hc1, hs1⟩ := parseLoop_hunk env h (hok h (List.mem_cons_self ..))
      ((hs.map Hunk.render).flatten ++ rest) files fe hc
    obtain ⟨cs2, e2, hc2, hs2⟩ := ih (fun h hm => hok h (List.mem_cons_of_mem _ hm))
      { fe with chunks := cs1 } hc1
    refine ⟨cs2, ?_, hc2, ?_⟩
    · rw [List.map_cons, List.flatten_cons, List.append_assoc, e1, e2]
    · intro n
      rw [hs2]
      simp only [hs1]
      simp [or_assoc]

theorem isSpace_iff (c : Char) : isSpace c = true ↔ space c := by
  simp [isSpace, space, or_assoc]

theorem rePath_section (s : Section) (hok : s.Ok) :
    rePath ("+++ ".toList ++ s.path ++ s.rest) = some s.path := by
  have e : "+++ ".toList ++ s.path ++ s.rest = '+' :: '+' :: '+' :: ' ' :: (s.path ++ s.rest) := by simp
  rw [e]
  unfold rePath
  have hns : ∀ c ∈ s.path, isSpace c = false := by
    intro c hc
    have := hok.path.2 c hc
    rw [← isSpace_iff] at this
    simpa using this
  have h1 : (' ' :: (s.path ++ s.rest)).takeWhile isSpace = [' '] := by
    rw [List.takeWhile_cons, if_pos (by decide)]
    congr 1
    cases hp : s.path with
    | nil => exact absurd hp hok.path.1
    | cons c p => simp [hns c (by simp [hp])]
  have h2 : (' ' :: (s.path ++ s.rest)).dropWhile isSpace = s.path ++ s.rest := by
    rw [List.dropWhile_cons, if_pos (by decide)]
    cases hp : s.path with
    | nil => exact absurd hp hok.path.1
    | cons c p => simp [hns c (by simp [hp])]
  have h3 : (s.path ++ s.rest).takeWhile (fun c => !isSpace c) = s.path := by
    have hr : s.rest.takeWhile (fun c => !isSpace c) = [] := by
      cases hr : s.rest with
      | nil => rfl
      | cons c r =>
        have := (isSpace_iff c).mpr (hok.rest c (by simp [hr]))
        simp [this]
    have : ∀ p : List Char, (∀ c ∈ p, isSpace c = false) →
        (p ++ s.rest).takeWhile (fun c => !isSpace c) = p := by
      intro p hp
      induction p with
      | nil => simpa using hr
      | cons c p ih =>
        simp [hp c (List.mem_cons_self ..), ih (fun c hc => hp c (List.mem_cons_of_mem _ hc))]
    exact this _ hns
  simp only [h1, h2, h3]
  simp [hok.path.1]

end Knfmt.Diff
