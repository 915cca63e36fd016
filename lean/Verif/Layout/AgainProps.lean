import Verif.Layout.AgainSpec
import Verif.Layout.SenseProps
import Verif.Ruler.Twice
/-! # Formatting declarations a second time (C95) -/
namespace Knfmt.Layout
open Knfmt.Expr (Tok Ex)
open Knfmt.Doc (Align)
open Knfmt.Util Knfmt.Spec
open Knfmt.Layout.Spec

theorem joined_chars {q : Char → Prop} (h1 : q ' ') : ∀ {ws : List (List Char)}, (∀ w ∈ ws, ∀ x ∈ w, q x) → ∀ x ∈ joined [' '] ws, q x
  | [], _ => by simp [joined]
  | [w], h => by simpa [joined] using h
  | w :: w2 :: ws, h => by
    intro x hx
    have e : joined [' '] (w :: w2 :: ws) = w ++ ([' '] ++ joined [' '] (w2 :: ws)) := rfl
    rw [e, List.mem_append, List.mem_append] at hx
    rcases hx with hx | hx | hx
    · exact h w (List.mem_cons_self ..) x hx
    · rw [List.mem_singleton] at hx
      subst hx
      exact h1
    · exact joined_chars h1 (fun w' hw' => h w' (List.mem_cons_of_mem _ hw')) x hx

theorem last_short : ∀ (ws : List (List Char)), (ws.getLast?.getD []).length ≤ (joined [' '] ws).length
  | [] => by simp [joined]
  | [w] => by simp [joined]
  | w :: w2 :: ws => by
    have ih := last_short (w2 :: ws)
    have e : joined [' '] (w :: w2 :: ws) = w ++ ([' '] ++ joined [' '] (w2 :: ws)) := rfl
    rw [e, List.getLast?_cons_cons, List.length_append, List.length_append]
    omega

/-- The declarations with an entry are the same ones. -/
theorem again_ruled (c : Nat) (last : After) : ∀ {b : List Decl} {as : List Align} (n : Nat), as.length = (ruledOf b).length →
    (ruledOf (blockAgain c last n (b.zip (gapsAt c as b)))).length = (ruledOf b).length ∧
    ∀ (i : Nat) (d' : Decl), (ruledOf (blockAgain c last n (b.zip (gapsAt c as b))))[i]? = some d' → ∃ (d : Decl) (a : Align) (n' : Nat) (x : After),
      (ruledOf b)[i]? = some d ∧ as[i]? = some a ∧ d' = { d with src := tokenAgain c n' (d, gapAt c (some a) d), aft := x }
  | [], as, n, h => ⟨rfl, fun i d' hd' => by simp [blockAgain, ruledOf] at hd'⟩
  | d :: b, as, n, h => by
    rw [gapsAt, List.zip_cons_cons, blockAgain]
    by_cases hr : d.ruled = true
    · have e : ruledOf (d :: b) = d :: ruledOf b := by simp [ruledOf, hr]
      rw [e] at h ⊢
      cases as with
      | nil => simp at h
      | cons a as =>
        obtain ⟨i1, i2⟩ := again_ruled c last (b := b) (as := as) (n + 1) (by simpa using h)
        rw [Decl.rest, if_pos hr, Decl.entry, if_pos hr]
        dsimp only [List.headD_cons, List.tail_cons]
        have e' : ∀ l x, ruledOf ({ d with src := tokenAgain c n (d, gapAt c (some a) d), aft := x } :: l) =
            { d with src := tokenAgain c n (d, gapAt c (some a) d), aft := x } :: ruledOf l := by
          intro l x
          have : Decl.ruled { d with src := tokenAgain c n (d, gapAt c (some a) d), aft := x } = true := hr
          simp [ruledOf, this]
        rw [e']
        refine ⟨by simp [i1], fun i d' hd' => ?_⟩
        cases i with
        | zero =>
          simp only [List.getElem?_cons_zero, Option.some.injEq] at hd'
          exact ⟨d, a, n, _, rfl, rfl, hd'.symm⟩
        | succ i =>
          obtain ⟨d2, a2, n2, x2, k1, k2, k3⟩ := i2 i d' (by simpa using hd')
          exact ⟨d2, a2, n2, x2, by simpa using k1, by simpa using k2, k3⟩
    · have e : ruledOf (d :: b) = ruledOf b := by simp [ruledOf, hr]
      rw [e] at h ⊢
      rw [Decl.rest, if_neg hr]
      have e' : ∀ x y l, ruledOf ({ d with src := x, aft := y } :: l) = ruledOf l := by
        intro x y l
        have : ¬ Decl.ruled { d with src := x, aft := y } = true := hr
        simp [ruledOf, this]
      rw [e']
      exact again_ruled c last (n + 1) h

/-- The same entries give the same white space. -/
theorem again_gaps (c : Nat) (last : After) : ∀ {b : List Decl} {gs : List (List Char)} {as as' : List Align} (n : Nat), gs.length = b.length →
    as.length = (ruledOf b).length → as'.length = (ruledOf b).length →
    (∀ (i : Nat) (d : Decl) (a a' : Align), (ruledOf b)[i]? = some d → as[i]? = some a → as'[i]? = some a' → gapAt c (some a') d = gapAt c (some a) d) →
    gapsAt c as' (blockAgain c last n (b.zip gs)) = gapsAt c as b
  | [], gs, as, as', n, _, _, _, _ => by simp [blockAgain, gapsAt]
  | d :: b, [], as, as', n, h, _, _, _ => by simp at h
  | d :: b, g :: gs, as, as', n, h, h1, h2, hg => by
    rw [List.zip_cons_cons, blockAgain, gapsAt, gapsAt]
    have ew : ∀ (a : Option Align) (x : Knfmt.Ruler.Tok) (y : After), gapAt c a { d with src := x, aft := y } = gapAt c a d := fun a x y => rfl
    by_cases hr : d.ruled = true
    · have e : ruledOf (d :: b) = d :: ruledOf b := by simp [ruledOf, hr]
      rw [e] at h1 h2 hg
      have hr' : ∀ x y, Decl.ruled { d with src := x, aft := y } = true := fun _ _ => hr
      rw [Decl.rest, if_pos (hr' _ _), Decl.entry, if_pos (hr' _ _), Decl.rest, if_pos hr, Decl.entry, if_pos hr]
      cases as with
      | nil => simp at h1
      | cons a as =>
        cases as' with
        | nil => simp at h2
        | cons a' as' =>
          dsimp only [List.headD_cons, List.tail_cons]
          rw [ew, hg 0 d a a' rfl rfl rfl, again_gaps c last (n + 1) (by simpa using h) (by simpa using h1) (by simpa using h2)
            (fun i d2 x x' k1 k2 k3 => hg (i + 1) d2 x x' (by simpa using k1) (by simpa using k2) (by simpa using k3))]
    · have e : ruledOf (d :: b) = ruledOf b := by simp [ruledOf, hr]
      rw [e] at h1 h2 hg
      have hr' : ∀ x y, ¬ Decl.ruled { d with src := x, aft := y } = true := fun _ _ => hr
      rw [Decl.rest, if_neg (hr' _ _), Decl.entry, if_neg (hr' _ _), Decl.rest, if_neg hr, Decl.entry, if_neg hr, ew,
        again_gaps c last (n + 1) (by simpa using h) h1 h2 hg]

theorem blockAgain_mem (c : Nat) (last : After) : ∀ {ps : List (Decl × List Char)} {n : Nat} {d' : Decl}, d' ∈ blockAgain c last n ps →
    ∃ p ∈ ps, ∃ n' x, d' = { p.1 with src := tokenAgain c n' p, aft := x }
  | [], n, d', h => by simp [blockAgain] at h
  | p :: ps, n, d', h => by
    rw [blockAgain, List.mem_cons] at h
    rcases h with rfl | h
    · exact ⟨p, List.mem_cons_self .., n, _, rfl⟩
    · obtain ⟨q, h1, h2⟩ := blockAgain_mem c last h
      exact ⟨q, List.mem_cons_of_mem _ h1, h2⟩

/-- Tokens without tabs. -/
def Flat (d : Decl) : Prop := ∀ w ∈ d.words, '\t' ∉ w

theorem flat_words {typ : List Tok → List Char} {d : Decl} (h : d.Ok typ) (hf : Flat d) : ∀ x ∈ joined [' '] d.words, x ≠ '\t' ∧ x ≠ '\n' :=
  joined_chars (q := fun x => x ≠ '\t' ∧ x ≠ '\n') (by decide) fun w hw x hx =>
    ⟨fun e => hf w hw (e ▸ hx), fun e => (h.words w hw).2 (e ▸ hx)⟩

theorem flat_len {typ : List Tok → List Char} {d : Decl} (h : d.Ok typ) (hf : Flat d) : d.datum.len = (joined [' '] d.words).length := by
  show strwidth _ 0 = _
  rw [joined_flatten, (strwidth_spec _ _).2, Knfmt.Ruler.column_flat _ _ (flat_words h hf), Nat.zero_add]

theorem column_mono (c : Nat) (s t : List Char) (h : '\n' ∉ t) : column c s ≤ column c (s ++ t) := by
  rw [Knfmt.Util.column_append]
  have := column_pos h (column c s)
  omega

/-- The block read again is a block as before. -/
theorem again_ok {typ : List Tok → List Char} {b : List Decl} (hd : ∀ d ∈ b, d.Ok typ) (hf : ∀ d ∈ b, Flat d) (c n : Nat) (last : After)
    {out : List (List Align)} {is : List Int} (g : Given b out is)
    (hs : ∀ p ∈ b.zip (gapsAt c (out.headD []) b), column c (leadText p.2 p.1) < 2 ^ 30) :
    ∀ d ∈ blockAgain c last n (b.zip (gapsAt c (out.headD []) b)), d.Ok typ := by
  have hb : ∀ {p : Decl × List Char}, p ∈ b.zip (gapsAt c (out.headD []) b) → p.1 ∈ b := fun {p} hp => (List.of_mem_zip (a := p.1) (b := p.2) hp).1
  intro d' h
  obtain ⟨p, hp, n', _, rfl⟩ := blockAgain_mem c last h
  have ho := hd _ (hb hp)
  have hl := flat_len ho (hf _ (hb hp))
  have hw := flat_words ho (hf _ (hb hp))
  have hls := last_short p.1.words
  have hcol := Knfmt.Ruler.column_flat _ c hw
  refine ⟨ho.some, ho.words, ho.tail, fun _ => ⟨?_, ?_, ?_⟩, ho.bare⟩
  · intro x hx
    have hx : x ∈ p.1.words.getLast?.getD [] := hx
    cases hg : p.1.words.getLast? with
    | none => rw [hg] at hx; simp at hx
    | some w =>
      rw [hg, Option.getD_some] at hx
      have hm : w ∈ p.1.words := List.mem_of_getLast? hg
      exact ⟨fun e => hf _ (hb hp) w hm (e ▸ hx), fun e => (ho.words w hm).2 (e ▸ hx)⟩
  · show 1 ≤ column c (joined [' '] p.1.words) + 1 - (p.1.words.getLast?.getD []).length
    rw [hcol]
    omega
  · intro l x hx
    have hx : some (n', column c (joined [' '] p.1.words ++ p.2) + 1) = some (l, x) := hx
    cases hx
    show p.1.datum.len + _ < _
    have h1 := hs p hp
    unfold leadText at h1
    rw [← List.append_assoc] at h1
    have h2 := column_mono c (joined [' '] p.1.words ++ p.2) (List.replicate p.1.stars '*') (by simp)
    rw [hl]
    have h3 : (joined [' '] p.1.words).length ≤ column c (joined [' '] p.1.words ++ p.2) := by
      have hp2 : '\n' ∉ p.2 := by
        rcases gapsAt_mem c g.length hp with ⟨_, e⟩ | ⟨i, d, a, _, _, _, rfl⟩
        · rw [e]; simp
        · exact Knfmt.Doc.alignText_line _ _
      have := column_mono c (joined [' '] p.1.words) p.2 hp2
      omega
    omega

theorem named_ruled {typ : List Tok → List Char} {d : Decl} (h : d.Ok typ) : named d = d.ruled := by
  rw [Bool.eq_iff_iff, named_iff, h.bare_of]

/-- C95: declarations are printed in the same way if the output is formatted again, unless there are stars and tabs, the
widest types end at a tab stop and have no stars, and less than a quarter of the types are less wide. -/
theorem decls_again_partial {typ : List Tok → List Char} {b : List Decl} (hd : ∀ d ∈ b, d.Ok typ) (hf : ∀ d ∈ b, Flat d)
    (hr : Steady b) {c : Nat} (hc : c % 8 = 0) (n : Nat) (last : After)
    (hs : ∀ p ∈ b.zip (gapsAt c (rulerOf b).1 b), column c (leadText p.2 p.1) < 2 ^ 30) :
    gapsAt c (rulerOf (blockAgain c last n (b.zip (gapsAt c (rulerOf b).1 b)))).1 (blockAgain c last n (b.zip (gapsAt c (rulerOf b).1 b))) =
      gapsAt c (rulerOf b).1 b := by
  obtain ⟨out, is, g⟩ := block_exec hd
  have eo : (rulerOf b).1 = out.headD [] := by rw [rulerOf, g.exec]
  rw [eo] at hs ⊢
  have hH := holds_block b
  have hd' := again_ok hd hf c n last g hs
  obtain ⟨out', is', g'⟩ := block_exec hd'
  have eo' : (rulerOf (blockAgain c last n (b.zip (gapsAt c (out.headD []) b)))).1 = out'.headD [] := by rw [rulerOf, g'.exec]
  rw [eo']
  obtain ⟨r1, r2⟩ := again_ruled c last n g.length
  refine again_gaps c last n (gapsAt_length c b _) g.length (by rw [g'.length, r1]) ?_
  intro i d a a' k1 k2 k3
  have hH' := holds_block (blockAgain c last n (b.zip (gapsAt c (out.headD []) b)))
  have hdm : d ∈ b := (List.mem_filter.mp (List.mem_of_getElem? k1)).1
  rcases hH.cols with ⟨_, h2, _⟩ | ⟨rc, h1, h2, _⟩
  · rw [h2] at k1
    simp at k1
  rcases hH'.cols with ⟨_, h2', _⟩ | ⟨rc', h1', h2', _⟩
  · rw [h2'] at r1
    simp at r1
    rw [List.eq_nil_of_length_eq_zero r1.symm] at k1
    simp at k1
  have hi' : i < (ruledOf (blockAgain c last n (b.zip (gapsAt c (out.headD []) b)))).length := by
    rw [r1]
    exact (List.getElem?_eq_some_iff.mp k1).1
  have k4 := List.getElem?_eq_getElem hi'
  have hE := g.entry i d a k1 k2
  have hE' := g'.entry i _ a' k4 k3
  have hp : ∀ x ∈ rc.datums, x.Plain := g.plain rc (by rw [h1]; exact List.mem_cons_self ..)
  have hp' : ∀ x ∈ rc'.datums, x.Plain := g'.plain rc' (by rw [h1']; exact List.mem_cons_self ..)
  have hk : (blockRuler b).columns[0]? = some rc := by rw [h1]; rfl
  have hok := hH.built.ok rc (List.mem_of_getElem? hk)
  obtain ⟨_, as, _, _, ho, _⟩ := id hE
  have has : out.headD [] = as := by
    cases out with
    | nil => simp at ho
    | cons x xs => simpa using ho
  have hof : ∀ x ∈ rc.datums, ∃ y ∈ b, y.ruled = true ∧ y.datum = x := by
    intro x hx
    rw [h2] at hx
    obtain ⟨y, h5, rfl⟩ := List.mem_map.mp hx
    obtain ⟨h6, h7⟩ := List.mem_filter.mp h5
    exact ⟨y, h6, h7, rfl⟩
  have hmin : rc.ntabs = 0 ∨ (Knfmt.Ruler.minimize rc = true → rc.datums.length / 4 ≤ rc.datums.countP (fun d => decide (d.len < rc.len))) := by
    rcases hr with ht | hr
    · left
      rw [hok.tabs, List.countP_eq_zero]
      intro x hx
      obtain ⟨y, h6, h7, rfl⟩ := hof x hx
      have := ht y h6
      rw [tabbed_ruled (hd y h6), h7, Bool.true_and] at this
      exact fun h => by
        have h : Knfmt.Ruler.hasTabs y.src = true := h
        rw [this] at h
        cases h
    · right
      intro hm
      obtain ⟨m1, m2⟩ := Knfmt.Ruler.minimize_len hm
      rcases hr with hr | ⟨y, hy, y1, y2, hr⟩
      · rcases hok.stars with h | ⟨x, hx, h⟩
        · exact absurd h m2
        · obtain ⟨y, h6, _, rfl⟩ := hof x hx
          have h7 : y.stars = rc.nspaces := h
          rw [hr y h6] at h7
          exact absurd h7.symm m2
      · have hw : ∀ z ∈ b, z.datum.len = width z := fun z hz => flat_len (hd z hz) (hf z hz)
        have hin : ∀ z ∈ b, named z → z.datum ∈ rc.datums := by
          intro z hz hn
          rw [h2]
          exact List.mem_map_of_mem (List.mem_filter.mpr ⟨hz, named_ruled (hd z hz) ▸ hn⟩)
        have hyl : width y = rc.len := by
          obtain ⟨x, hx, h⟩ := hok.longest (List.ne_nil_of_mem (hin y hy y1))
          obtain ⟨z, h6, h7, rfl⟩ := hof x hx
          have h8 := y2 z h6 (named_ruled (hd z h6) ▸ h7)
          have h9 := (hok.le _ (hin y hy y1)).1
          rw [hw y hy] at h9
          rw [hw z h6] at h
          omega
        rcases hr with hr | hr | hr
        · omega
        · have h0 : y.datum.nspaces = 0 := Knfmt.Ruler.minimize_stars hm y.datum (hin y hy y1) (by rw [hw y hy]; omega)
          exact absurd h0 hr
        · have e1 : rc.datums.length = (b.filter named).length := by
            rw [h2, List.length_map]
            unfold ruledOf
            rw [← List.countP_eq_length_filter, ← List.countP_eq_length_filter]
            apply List.countP_congr
            intro z hz
            rw [named_ruled (hd z hz)]
          have e2 : rc.datums.countP (fun d => decide (d.len < rc.len)) = (b.filter fun d' => named d' && decide (width d' < width y)).length := by
            rw [h2, List.countP_map]
            unfold ruledOf
            rw [List.countP_filter, ← List.countP_eq_length_filter]
            apply List.countP_congr
            intro z hz
            simp only [Function.comp_apply]
            rw [hw z hz, named_ruled (hd z hz), hyl, Bool.and_comm]
          rw [e1, e2]
          exact hr
  have hcl : ∀ y ∈ b, strwidth (joined [' '] y.words) c = c + 1 - 1 + y.datum.len := by
    intro y hy
    rw [(strwidth_spec _ _).2, Knfmt.Ruler.column_flat _ c (flat_words (hd y hy) (hf y hy)), flat_len (hd y hy) (hf y hy), Nat.add_sub_cancel]
  have hP : Knfmt.Ruler.Reread (c + 1) rc.datums as rc'.datums := by
    refine ⟨by omega, by rw [h2, h2', List.length_map, List.length_map, r1], ?_⟩
    intro j x x' e j1 j2 j3
    rw [h2, List.getElem?_map, Option.map_eq_some_iff] at j1
    rw [h2', List.getElem?_map, Option.map_eq_some_iff] at j2
    obtain ⟨y, j1, rfl⟩ := j1
    obtain ⟨y', j2, rfl⟩ := j2
    obtain ⟨y2, e2, n', _, m1, m2, rfl⟩ := r2 j y' j2
    rw [j1] at m1
    cases m1
    rw [has, j3] at m2
    cases m2
    have hym : y ∈ b := (List.mem_filter.mp (List.mem_of_getElem? j1)).1
    have hgap : gapAt c (some e) y = Knfmt.Doc.Spec.alignText e (c + 1 - 1 + y.datum.len) := by
      unfold gapAt
      dsimp only
      rw [hcl y hym]
    have hl := flat_len (hd y hym) (hf y hym)
    have hcol := Knfmt.Ruler.column_flat _ c (flat_words (hd y hym) (hf y hym))
    have hls := last_short y.words
    refine ⟨rfl, rfl, ?_, ?_, ?_⟩
    · rw [← hgap]
      rfl
    · show column c (joined [' '] y.words) + 1 - (y.words.getLast?.getD []).length + (y.words.getLast?.getD []).length = c + 1 + y.datum.len
      rw [hcol, hl]
      omega
    · show some (n', column c (joined [' '] y.words ++ gapAt c (some e) y) + 1) = some (n', _)
      have hq : column c (joined [' '] y.words) = c + 1 - 1 + y.datum.len := by
        rw [hcol, hl]
        omega
      rw [Knfmt.Util.column_append, hgap, hq]
  have t := Knfmt.Ruler.sense_twice hH.built hH'.built hH.flags hH'.flags g.exec g'.exec hp hp' hk (by rw [h1']; rfl) hmin ho
    (by rw [h2, List.length_map, ← has, g.length]) hP hE hE'
  unfold gapAt
  dsimp only
  rw [hcl d hdm]
  exact t

/-! ## Files -/

theorem again_text (H : Hand) (c : Nat) (last : After) : ∀ (b : List (Decl × List Char)) (n : Nat),
    ((blockAgain c last n b).zip (b.map Prod.snd)).map (fun p => declText H p.2 p.1) = b.map fun p => declText H p.2 p.1
  | [], _ => rfl
  | p :: ps, n => by
    rw [blockAgain, List.map_cons, List.zip_cons_cons, List.map_cons, List.map_cons, again_text H c last ps]
    rfl

theorem blockAgain_some {c : Nat} {last : After} {n : Nat} {b : List (Decl × List Char)} (h : b ≠ []) : blockAgain c last n b ≠ [] := by
  cases b with
  | nil => exact absurd rfl h
  | cons p ps => simp [blockAgain]

theorem blockAgain_close {c : Nat} {last : After} : ∀ {b : List (Decl × List Char)} {n : Nat} {d : Decl}, d ∈ (blockAgain c last n b).dropLast → d.aft = .line
  | [], n, d, h => by simp [blockAgain] at h
  | [p], n, d, h => by simp [blockAgain] at h
  | p :: q :: ps, n, d, h => by
    have e : (blockAgain c last n (p :: q :: ps)).dropLast =
        { p.1 with src := tokenAgain c n p, aft := .line } :: (blockAgain c last (n + 1) (q :: ps)).dropLast := rfl
    rw [e, List.mem_cons] at h
    rcases h with rfl | h
    · rfl
    · exact blockAgain_close h

theorem blockAgain_last {c : Nat} {last : After} : ∀ {b : List (Decl × List Char)} {n : Nat} {d : Decl}, d ∈ (blockAgain c last n b).getLast? → d.aft = last
  | [], n, d, h => by simp [blockAgain] at h
  | [p], n, d, h => by
    simp [blockAgain] at h
    rw [← h]
  | p :: q :: ps, n, d, h => by
    have e : (blockAgain c last n (p :: q :: ps)).getLast? = (blockAgain c last (n + 1) (q :: ps)).getLast? := by
      rw [blockAgain, blockAgain, List.getLast?_cons_cons]
    rw [e] at h
    exact blockAgain_last h

theorem blocksAgain_mem : ∀ {ps : List (List (Decl × List Char))} {n : Nat} {b : List Decl}, b ∈ blocksAgain n ps →
    ∃ p ∈ ps, ∃ last n', b = blockAgain 0 last n' p
  | [], n, b, h => by simp [blocksAgain] at h
  | p :: ps, n, b, h => by
    rw [blocksAgain, List.mem_cons] at h
    rcases h with rfl | h
    · exact ⟨p, List.mem_cons_self .., _, _, rfl⟩
    · obtain ⟨q, h1, h2⟩ := blocksAgain_mem h
      exact ⟨q, List.mem_cons_of_mem _ h1, h2⟩

theorem blocksAgain_apart : ∀ {ps : List (List (Decl × List Char))} {n : Nat} {b : List Decl}, b ∈ (blocksAgain n ps).dropLast →
    ∀ d ∈ b.getLast?, d.aft = .blank
  | [], n, b, h => by simp [blocksAgain] at h
  | [p], n, b, h => by simp [blocksAgain] at h
  | p :: q :: ps, n, b, h => by
    have e : (blocksAgain n (p :: q :: ps)).dropLast = blockAgain 0 .blank n p :: (blocksAgain (n + p.length + 1) (q :: ps)).dropLast := rfl
    rw [e, List.mem_cons] at h
    rcases h with rfl | h
    · exact fun d hd => blockAgain_last hd
    · exact blocksAgain_apart h

theorem blocksAgain_map {f : List Decl → List Char} {g : List (Decl × List Char) → List Char} :
    ∀ {ps : List (List (Decl × List Char))} {n : Nat}, (∀ p ∈ ps, ∀ last n', f (blockAgain 0 last n' p) = g p) → (blocksAgain n ps).map f = ps.map g
  | [], _, _ => rfl
  | p :: ps, n, h => by
    rw [blocksAgain, List.map_cons, List.map_cons, h p (List.mem_cons_self ..), blocksAgain_map fun q hq => h q (List.mem_cons_of_mem _ hq)]

theorem within_blocks {lim : Nat} {H : Hand} : ∀ {ps : List (List (Decl × List Char))}, Within lim 0 (joined ['\n', '\n'] (ps.map (blockText H))) →
    ∀ p ∈ ps, Within lim 0 (blockText H p)
  | [], _, p, hp => by simp at hp
  | [q], h, p, hp => by
    rw [List.mem_singleton] at hp
    rw [hp]
    exact h
  | q :: q2 :: ps, h, p, hp => by
    have e : joined ['\n', '\n'] ((q :: q2 :: ps).map (blockText H)) =
        blockText H q ++ (['\n', '\n'] ++ joined ['\n', '\n'] ((q2 :: ps).map (blockText H))) := rfl
    rw [e] at h
    have h1 := within_append h
    rcases List.mem_cons.mp hp with rfl | hp
    · exact h1.1
    · have h2 := (within_append h1.2).2
      have e3 : ∀ c, strwidth ['\n', '\n'] c = 0 := by
        intro c
        rw [(strwidth_spec _ _).2]
        rfl
      rw [e3] at h2
      exact within_blocks h2 p hp

/-- C95: declarations formatted twice are the declarations formatted once, unless in a block there are stars and tabs, the
widest types end at a tab stop and have no stars, and less than a quarter of the types are less wide. -/
theorem C95_partial {env : Knfmt.Doc.Env} {S : Style} {typ : List Tok → List Char} (hd : env.diff = none) (hm : env.limit < 2 ^ 27)
    (hS : Fair S typ) {bs : List (List Decl)} (hb : Blocks typ bs) (hf : ∀ b ∈ bs, ∀ d ∈ b, Flat d) (ht : ∀ b ∈ bs, Steady b) :
    ∃ doc ps, blocksDoc S bs = some doc ∧ ps.map (·.map Prod.fst) = bs ∧
      (Within env.limit 0 (blocksText (hand S env.useTabs typ) ps) →
        (Knfmt.Doc.docExec env true [] doc).buf.reverse = blocksText (hand S env.useTabs typ) ps ∧
        ∃ doc', blocksDoc S (blocksAgain 1 ps) = some doc' ∧
          (Knfmt.Doc.docExec env true [] doc').buf.reverse = (Knfmt.Doc.docExec env true [] doc).buf.reverse ∧
          (Knfmt.Doc.docExec env true [] doc').ub = false) := by
  obtain ⟨doc, ps, e1, e2, e3, _, e4⟩ := C92_partial hd hm hS hb
  refine ⟨doc, ps, e1, e3, fun hw => ⟨(e4 hw).1, ?_⟩⟩
  have hw1 : ∀ p ∈ ps, Within env.limit 0 (blockText (hand S env.useTabs typ) p) := by
    unfold blocksText at hw
    exact within_blocks (within_append hw).1
  -- each block
  have hp : ∀ p ∈ ps, ∃ b ∈ bs, p = b.zip (gapsAt 0 (rulerOf b).1 b) ∧ p ≠ [] ∧ ∀ last n,
      (∀ d ∈ blockAgain 0 last n p, d.Ok typ) ∧
      gapsAt 0 (rulerOf (blockAgain 0 last n p)).1 (blockAgain 0 last n p) = gapsAt 0 (rulerOf b).1 b := by
    intro p hp
    have hp' := hp
    rw [e2] at hp'
    obtain ⟨b, h1, h2⟩ := List.mem_map.mp hp'
    obtain ⟨out, is, g⟩ := block_exec (hb.ok b h1)
    have eo : (rulerOf b).1 = out.headD [] := by rw [rulerOf, g.exec]
    have h3 : p = b.zip (gapsAt 0 (rulerOf b).1 b) := by
      rw [← h2, spaced, g.exec, eo]
      exact pairs_zip ..
    have hs : ∀ q ∈ p, column 0 (leadText q.2 q.1) < 2 ^ 30 := by
      intro q hq
      have hx := within_joined (hw1 p hp) _ (List.mem_map_of_mem hq)
      unfold declText at hx
      have hy := within_last (within_append hx).1
      rw [(strwidth_spec _ _).2] at hy
      omega
    refine ⟨b, h1, h3, ?_, fun last n => ⟨?_, ?_⟩⟩
    · intro h
      rw [h] at h3
      have := congrArg List.length h3
      rw [List.length_zip, gapsAt_length, List.length_nil] at this
      exact hb.some b h1 (List.eq_nil_of_length_eq_zero (by omega))
    · rw [h3, eo] at hs ⊢
      exact again_ok (hb.ok b h1) (hf b h1) 0 n last g hs
    · rw [h3] at hs ⊢
      exact decls_again_partial (hb.ok b h1) (hf b h1) (ht b h1) rfl n last hs
  have hb' : Blocks typ (blocksAgain 1 ps) := by
    refine ⟨fun b h => ?_, fun b h => ?_, fun b h d hd => ?_, fun b h => blocksAgain_apart h⟩
    · obtain ⟨p, h1, last, n, rfl⟩ := blocksAgain_mem h
      obtain ⟨_, _, _, h2, _⟩ := hp p h1
      exact blockAgain_some h2
    · obtain ⟨p, h1, last, n, rfl⟩ := blocksAgain_mem h
      obtain ⟨_, _, _, _, h2⟩ := hp p h1
      exact (h2 last n).1
    · obtain ⟨p, h1, last, n, rfl⟩ := blocksAgain_mem h
      rw [blockAgain_close hd]
      simp
  obtain ⟨doc', ps', f1, f2, _, _, f4⟩ := C92_partial hd hm hS hb'
  have et : blocksText (hand S env.useTabs typ) ps' = blocksText (hand S env.useTabs typ) ps := by
    have h1 : ps'.map (blockText (hand S env.useTabs typ)) = ps.map (blockText (hand S env.useTabs typ)) := by
      rw [f2, List.map_map]
      refine blocksAgain_map fun p h last n => ?_
      obtain ⟨b, k1, k2, k3, k4⟩ := hp p h
      obtain ⟨out', is', g'⟩ := block_exec (k4 last n).1
      have eo' : (rulerOf (blockAgain 0 last n p)).1 = out'.headD [] := by rw [rulerOf, g'.exec]
      have hsp : spaced (blockAgain 0 last n p) = (blockAgain 0 last n p).zip (p.map Prod.snd) := by
        rw [spaced, g'.exec]
        show pairs (out'.headD []) _ = _
        rw [pairs_zip, ← eo', (k4 last n).2]
        congr 1
        rw [k2, List.map_snd_zip]
        rw [gapsAt_length]
        exact Nat.le_refl _
      show blockText _ (spaced _) = _
      unfold blockText
      rw [hsp, again_text]
    have h2 : ps'.isEmpty = ps.isEmpty := by
      rw [f2]
      cases ps with
      | nil => rfl
      | cons p ps => rfl
    unfold blocksText
    rw [h1, h2]
  have hw' := hw
  rw [← et] at hw'
  refine ⟨doc', f1, ?_, (f4 hw').2⟩
  rw [(f4 hw').1, (e4 hw).1, et]

/-! ## Declarations with tabs -/

namespace Example

/-- `uint16_t` and a name, with a tab between them. -/
def eight (i : Nat) (x : Char) : Decl :=
  ⟨[['u', 'i', 'n', 't', '1', '6', '_', 't']], 0, .vars ⟨0, [x], [], none⟩ [],
    { str := ['u', 'i', 'n', 't', '1', '6', '_', 't'], lno := i, suffixes := [⟨false, true, ['\t']⟩], next := some (i, 17) }, .line⟩

/-- Eight of them and `int` with a tab and `*p`. -/
def nine : List Decl :=
  [eight 1 'a', eight 2 'b', eight 3 'c', eight 4 'd', eight 5 'e', eight 6 'f', eight 7 'g', eight 8 'h',
    ⟨[['i', 'n', 't']], 1, .vars ⟨0, ['p'], [], none⟩ [],
      { str := ['i', 'n', 't'], lno := 9, suffixes := [⟨false, true, ['\t']⟩], next := some (9, 9) }, .line⟩]

theorem nine_ok : Blocks typ [nine] where
  some := by simp [nine]
  ok := by
    intro b hb d hd
    rw [List.mem_singleton] at hb
    subst hb
    have hv : ∀ n : Char, n ≠ ' ' → n ≠ '\n' → (Tail.vars ⟨0, [n], [], none⟩ []).Ok typ := by
      intro n h1 h2 x hx
      simp only [List.mem_cons, List.not_mem_nil, or_false] at hx
      subst hx
      exact ⟨by simp [Word, Ne.symm h2], by simp, by simp⟩
    have h8 : ∀ i x, x ≠ ' ' → x ≠ '\n' → (eight i x).Ok typ := by
      intro i x h1 h2
      refine ⟨by simp [eight], by simp [eight, Word], hv _ h1 h2, fun _ => ⟨by simp [Decl.datum, eight], by simp [Decl.datum, eight], ?_⟩, by simp [eight]⟩
      intro l c h
      simp only [Decl.datum, eight, Option.some.injEq, Prod.mk.injEq] at h
      rw [← h.2]
      show strwidth ['u', 'i', 'n', 't', '1', '6', '_', 't'] 0 + 17 < _
      decide +kernel
    simp only [nine, List.mem_cons, List.not_mem_nil, or_false] at hd
    rcases hd with rfl | rfl | rfl | rfl | rfl | rfl | rfl | rfl | rfl
    · exact h8 _ _ (by decide) (by decide)
    · exact h8 _ _ (by decide) (by decide)
    · exact h8 _ _ (by decide) (by decide)
    · exact h8 _ _ (by decide) (by decide)
    · exact h8 _ _ (by decide) (by decide)
    · exact h8 _ _ (by decide) (by decide)
    · exact h8 _ _ (by decide) (by decide)
    · exact h8 _ _ (by decide) (by decide)
    · refine ⟨by simp, by simp [Word], hv _ (by decide) (by decide), fun _ => ⟨by simp [Decl.datum], by simp [Decl.datum], ?_⟩, by simp⟩
      intro l c h
      simp only [Decl.datum, Option.some.injEq, Prod.mk.injEq] at h
      rw [← h.2]
      decide +kernel
  close := by
    intro b hb d hd
    rw [List.mem_singleton] at hb
    subst hb
    simp [nine, eight] at hd
    rcases hd with rfl | rfl | rfl | rfl | rfl | rfl | rfl | rfl <;> simp
  apart := by simp

/-- Printed once, there is a tab in front of `*p`. -/
theorem nine_once : gapsAt 0 (rulerOf nine).1 nine = List.replicate 8 [' '] ++ [['\t']] := by decide +kernel

/-- Printed twice, there is a space: the eight types that end where a tab would be needed have no tab any more, and a
single tab does not count. -/
theorem nine_twice : gapsAt 0 (rulerOf (blockAgain 0 .line 1 (nine.zip (List.replicate 8 [' '] ++ [['\t']])))).1
    (blockAgain 0 .line 1 (nine.zip (List.replicate 8 [' '] ++ [['\t']]))) = List.replicate 9 [' '] := by decide +kernel

/-- The hypotheses of `C95_partial` hold for `int y;`, `struct s;` and `char z;`. -/
example : Blocks typ [spacy] ∧ (∀ b ∈ [spacy], ∀ d ∈ b, Flat d) ∧ ∀ b ∈ [spacy], Steady b :=
  ⟨⟨by simp [spacy], by simpa using spacy_ok.decls, by simpa using spacy_ok.close, by simp⟩, by simp [spacy, Flat],
    by simpa using .inl (by simp [spacy, tabbed, named])⟩

/-- They also hold for declarations with tabs and stars. -/
example : Blocks typ blocks ∧ (∀ b ∈ blocks, ∀ d ∈ b, Flat d) ∧ ∀ b ∈ blocks, Steady b := by
  refine ⟨blocks_ok, by simp [blocks, Flat], ?_⟩
  intro b hb
  right
  right
  revert b
  decide +kernel

/-- And for `uint16_t` and `int *`, if there are not as many of the former. -/
example : Steady (nine.drop 6) := by
  right
  right
  decide +kernel

/-- But not for all nine. -/
example : ¬ Steady nine := by
  rintro (h | h | h)
  · revert h
    decide +kernel
  · revert h
    decide +kernel
  · revert h
    decide +kernel

end Example

/-- C95 does not hold for all declarations: the second time the white space can differ. -/
theorem decls_twice_differ : ¬ ∀ (typ : List Tok → List Char) (b : List Decl), Blocks typ [b] →
    gapsAt 0 (rulerOf (blockAgain 0 .line 1 (b.zip (gapsAt 0 (rulerOf b).1 b)))).1 (blockAgain 0 .line 1 (b.zip (gapsAt 0 (rulerOf b).1 b))) =
      gapsAt 0 (rulerOf b).1 b := by
  intro h
  have h1 := h Example.typ Example.nine Example.nine_ok
  rw [Example.nine_once, Example.nine_twice] at h1
  simp [List.replicate] at h1

/-- C95 is false in general: there are declarations whose text changes if it is formatted again. -/
theorem C95_fails : ∃ (env : Knfmt.Doc.Env) (S : Style) (typ : List Tok → List Char) (bs : List (List Decl)) (ps : List (List (Decl × List Char)))
    (doc doc' : Knfmt.Doc.Doc), env.diff = none ∧ env.limit < 2 ^ 27 ∧ Fair S typ ∧ Blocks typ bs ∧ (∀ b ∈ bs, ∀ d ∈ b, Flat d) ∧
      blocksDoc S bs = some doc ∧ ps.map (·.map Prod.fst) = bs ∧ Within env.limit 0 (blocksText (hand S env.useTabs typ) ps) ∧
      (Knfmt.Doc.docExec env true [] doc).buf.reverse = blocksText (hand S env.useTabs typ) ps ∧
      blocksDoc S (blocksAgain 1 ps) = some doc' ∧
      (Knfmt.Doc.docExec env true [] doc').buf.reverse ≠ (Knfmt.Doc.docExec env true [] doc).buf.reverse := by
  have hw : Within 80 0 (blocksText (hand Example.style true Example.typ) ([Example.nine].map spaced)) := by decide +kernel
  obtain ⟨doc, ps, e1, rfl, e3, _, e4⟩ := C92_partial (env := { limit := 80, useTabs := true }) rfl (by decide) Example.fair Example.nine_ok
  have hf : ∀ d ∈ Example.nine, Flat d := by simp [Example.nine, Example.eight, Flat]
  have hb : Blocks Example.typ (blocksAgain 1 ([Example.nine].map spaced)) := by
    obtain ⟨out, is, g⟩ := block_exec (Example.nine_ok.ok _ (List.mem_singleton.mpr rfl))
    have eo : (rulerOf Example.nine).1 = out.headD [] := by rw [rulerOf, g.exec]
    have hs : spaced Example.nine = Example.nine.zip (gapsAt 0 (out.headD []) Example.nine) := by
      rw [spaced, g.exec]
      exact pairs_zip ..
    have hne : spaced Example.nine ≠ [] := by decide +kernel
    refine ⟨fun b h => ?_, fun b h => ?_, fun b h d hd => ?_, fun b h => blocksAgain_apart h⟩
    · obtain ⟨p, h1, last, n, rfl⟩ := blocksAgain_mem h
      obtain rfl : p = spaced Example.nine := by simpa using h1
      exact blockAgain_some hne
    · obtain ⟨p, h1, last, n, rfl⟩ := blocksAgain_mem h
      obtain rfl : p = spaced Example.nine := by simpa using h1
      rw [hs]
      refine again_ok (Example.nine_ok.ok _ (List.mem_singleton.mpr rfl)) hf 0 n last g ?_
      rw [← eo]
      decide +kernel
    · obtain ⟨p, h1, last, n, rfl⟩ := blocksAgain_mem h
      rw [blockAgain_close hd]
      simp
  obtain ⟨doc', ps', f1, rfl, _, _, f4⟩ := C92_partial (env := { limit := 80, useTabs := true }) rfl (by decide) Example.fair hb
  refine ⟨{ limit := 80, useTabs := true }, Example.style, Example.typ, [Example.nine], [Example.nine].map spaced, doc, doc', rfl, by decide, Example.fair,
    Example.nine_ok, by simpa using hf, e1, e3, hw, (e4 hw).1, f1, ?_⟩
  rw [(e4 hw).1, (f4 (by decide +kernel)).1]
  decide +kernel

end Knfmt.Layout
