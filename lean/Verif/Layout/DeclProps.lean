import Verif.Layout.DeclSpec
import Verif.Layout.FileProps
import Verif.Ruler.Stable
/-! # Blocks of declarations (C92) -/
namespace Knfmt.Layout
open Knfmt.Expr (Tok Ex)
open Knfmt.Doc (Doc Spot run hasBit blank Align)
open Knfmt.Doc.Spec (alignText)
open Knfmt.Util Knfmt.Spec
open Knfmt.Layout.Spec
open Knfmt.Ruler (Ruler Datum)

/-! ## Blocks -/

section
variable {lim : Nat} {tabs : Bool} {S : Style} {typ : List Tok → List Char}

/-- The new line after a declaration, two if there is an empty line in the source. -/
theorem run_feed2 {f : Spot} {T : List Char} {c : Nat} {a : After} (h : Ends f T c a) :
    ∃ g, run lim tabs true false 2 0 .hardline f = some g ∧ g.edge = .plain ∧ g.col = 0 ∧
      g.txt = (if a = .blank then ['\n', '\n'] else ['\n']) ++ T := by
  by_cases ha : a = .blank
  · obtain ⟨h1, h2⟩ := h.shut ha
    refine ⟨_, run_hard (by omega), rfl, rfl, ?_⟩
    unfold Spot.feed
    rw [if_pos h1, strindent_none, h.text, if_pos ha]
    rfl
  · obtain ⟨h1, h2, h3⟩ := h.col ha
    refine ⟨_, run_hard (by omega), rfl, rfl, ?_⟩
    rw [feed_plain h1, h.text, h.solid, if_neg ha]
    rfl

/-- The declarations with the white space of the ruler. -/
def pairs : List Align → List Decl → List (Decl × List Char)
  | _, [] => []
  | as, d :: ds => (d, gapAt 0 (d.entry as) d) :: pairs (d.rest as) ds

theorem pairs_text (H : Hand) : ∀ (ds : List Decl) (as : List Align),
    (pairs as ds).map (fun p => declText H p.2 p.1) = List.zipWith (declText H) (gapsAt 0 as ds) ds
  | [], _ => rfl
  | d :: ds, as => by rw [pairs, List.map_cons, pairs_text H ds, gapsAt, List.zipWith_cons_cons]

theorem nl_none (S : Style) (tabs : Bool) (typ : List Tok → List Char) : (hand S tabs typ).nl 0 = ['\n'] := by
  simp [Hand.nl, Hand.indent]

/-- The declarations of a block at the beginning of a line. -/
theorem run_block (hS : Fair S typ) (tb : Bool) {ds : List Decl} {as : List Align} {is : List Int} {f : Spot} (hn : ds ≠ []) (hd : ∀ d ∈ ds, d.Ok typ)
    (hb : ∀ d ∈ ds.dropLast, d.aft ≠ .blank) (hi : ∀ v ∈ is, v < 2 ^ 27) (hw : Within lim 0 (blockText (hand S tb typ) (pairs as ds)))
    (hp : f.edge = .plain) (hc : f.col = 0) : ∃ g c, run lim tabs true false 2 0 (declsDoc S .other as is ds) f = some g ∧
      Ends g ((blockText (hand S tb typ) (pairs as ds)).reverse ++ f.txt) c (lastAft ds) := by
  have e : blockText (hand S tb typ) (pairs as ds) =
      joined ((hand S tabs typ).nl 0) (List.zipWith (declText (hand S tb typ)) (gapsAt (0 * S.width) as ds) ds) := by
    rw [blockText, pairs_text, nl_none, Nat.zero_mul]
  rw [e] at hw ⊢
  obtain ⟨g, h1, h2⟩ := run_decls (lim := lim) (tabs := tabs) (is := is) hS tb 0 .other hn hd hb hi (by rw [Nat.zero_mul]; rw [Nat.zero_mul] at hw; exact hw) hp (by rw [hc, Nat.zero_mul])
  rw [Nat.zero_mul] at h1
  exact ⟨g, _, h1, h2⟩

end

/-! ## The ruler -/

/-- A ruler that has got some declarations. -/
structure Holds (rl : Ruler) (ds : List Decl) : Prop where
  built : Knfmt.Ruler.Built rl
  flags : rl.flags = { sense := true }
  cols : (rl.columns = [] ∧ ds = [] ∧ rl.indents = none) ∨ ∃ rc, rl.columns = [rc] ∧ rc.datums = ds.map Decl.datum ∧ ds ≠ []
  inds : ∀ q ∈ rl.indents.getD [], q.1 < ds.length

theorem Holds.indent {rl : Ruler} {ds : List Decl} (h : Holds rl ds) (pos : Bool) : Holds (rulerIndent rl pos) ds := by
  unfold rulerIndent
  cases hi : Knfmt.Ruler.indent rl pos with
  | none => exact h
  | some rl' =>
    have hb := Knfmt.Ruler.Built.indent pos h.built hi
    unfold Knfmt.Ruler.indent at hi
    split at hi
    · cases hi
    · split at hi
      · cases hi
      · simp only [Option.some.injEq] at hi
        subst hi
        rename_i rc _ hc hl
        refine ⟨hb, h.flags, .inr (h.cols.resolve_left fun h1 => by rw [h1.1] at hc; cases hc), ?_⟩
        have hn : rc.datums.length = ds.length := by
          rcases h.cols with ⟨h1, _⟩ | ⟨rc', h1, h2⟩
          · rw [h1] at hc
            cases hc
          · rw [h1] at hc
            cases hc
            rw [h2.1, List.length_map]
        intro q hq
        simp only [Option.getD_some, List.mem_append, List.mem_singleton] at hq
        rcases hq with hq | rfl
        · exact h.inds q hq
        · dsimp only
          omega

theorem Holds.insert {rl : Ruler} {ds : List Decl} (h : Holds rl ds) (d : Decl) :
    Holds ((Knfmt.Ruler.insert rl d.datum 1).getD rl) (ds ++ [d]) := by
  have hq : ∀ q ∈ rl.indents.getD [], q.1 < (ds ++ [d]).length := by
    intro q hq
    have := h.inds q hq
    simp
    omega
  have e : Knfmt.Ruler.insert rl d.datum 1 =
    some { rl with columns := (rl.columns ++ List.replicate (1 - rl.columns.length) ({} : Knfmt.Ruler.Column)).modify 0 (·.add d.datum) } := by
    rw [Knfmt.Ruler.insert, if_neg (by decide)]
  refine ⟨?_, ?_, ?_, by rw [e]; exact hq⟩
  · rw [e]
    exact .insert d.datum 1 h.built e
  · rw [e]
    exact h.flags
  · rw [e]
    right
    rcases h.cols with ⟨h1, h2, _⟩ | ⟨rc, h1, h2⟩
    · refine ⟨({} : Knfmt.Ruler.Column).add d.datum, ?_, ?_, by simp⟩
      · simp [h1]
      · simp [h2, Knfmt.Ruler.Column.add]
    · refine ⟨rc.add d.datum, ?_, ?_, by simp⟩
      · simp [h1]
      · simp [h2, Knfmt.Ruler.Column.add]

/-- The declarations with an entry in the ruler. -/
def ruledOf (ds : List Decl) : List Decl := ds.filter Decl.ruled

theorem Holds.enter {rl : Ruler} {ds : List Decl} (h : Holds rl ds) (d : Decl) : Holds (enterDecl rl d) (ds ++ ruledOf [d]) := by
  unfold enterDecl
  have h1 : Holds (if d.ruled then (Knfmt.Ruler.insert rl d.datum 1).getD rl else rl) (ds ++ ruledOf [d]) := by
    by_cases hr : d.ruled = true
    · have e : ruledOf [d] = [d] := by simp [ruledOf, hr]
      rw [if_pos hr, e]
      exact h.insert d
    · have e : ruledOf [d] = [] := by simp [ruledOf, hr]
      rw [if_neg hr, e, List.append_nil]
      exact h
  generalize d.requests = l
  generalize (if d.ruled then (Knfmt.Ruler.insert rl d.datum 1).getD rl else rl) = r at h1
  induction l generalizing r with
  | nil => exact h1
  | cons b l ih => exact ih _ (h1.indent b)

theorem Holds.fold (ds : List Decl) : ∀ {rl : Ruler} {es : List Decl}, Holds rl es → Holds (ds.foldl enterDecl rl) (es ++ ruledOf ds) := by
  induction ds with
  | nil => intro rl es h; simpa [ruledOf] using h
  | cons d ds ih =>
    intro rl es h
    have := ih (h.enter d)
    have e : ruledOf (d :: ds) = ruledOf [d] ++ ruledOf ds := by
      unfold ruledOf
      rw [← List.filter_append]
      rfl
    rw [e, ← List.append_assoc]
    exact this

theorem holds_block (ds : List Decl) : Holds (blockRuler ds) (ruledOf ds) := by
  have := Holds.fold ds (rl := Knfmt.Ruler.init 0 { sense := true }) (es := []) ⟨.init _ _, rfl, .inl ⟨rfl, rfl, rfl⟩, fun q hq => by simp [Knfmt.Ruler.init] at hq⟩
  rw [List.nil_append] at this
  exact this

theorem joined_flatten (ws : List (List Char)) : (ws.intersperse [' ']).flatten = joined [' '] ws := by
  induction ws with
  | nil => rfl
  | cons w ws ih =>
    cases ws with
    | nil => simp [joined]
    | cons w' ws =>
      rw [List.intersperse, List.flatten_cons, List.flatten_cons, ih]
      · rfl
      · simp

theorem column_stars (n c : Nat) : column c (List.replicate n '*') = c + n := by
  induction n generalizing c with
  | zero => rfl
  | succ n ih =>
    rw [List.replicate_succ, Knfmt.Util.column_cons, ih]
    simp [advance]
    omega

/-- Where the name of a declaration begins. -/
theorem lead_column (d : Decl) (a : Align) : column 0 (leadText (gapAt 0 (some a) d) d) = Knfmt.Ruler.startsAt 0 d.datum a := by
  unfold leadText gapAt Knfmt.Ruler.startsAt
  rw [Knfmt.Doc.execAlign_column]
  dsimp only
  rw [Nat.zero_add, Knfmt.Util.column_append, Knfmt.Util.column_append, column_stars]
  unfold Decl.datum
  dsimp only
  rw [joined_flatten, Knfmt.Doc.width_column]

theorem Decl.Ok.bare_of {typ : List Tok → List Char} {d : Decl} (h : d.Ok typ) : d.ruled = true ↔ d.tail ≠ .bare := by
  have hb := h.bare
  unfold Decl.ruled
  cases ht : d.tail <;> simp_all

/-- A declaration with its white space: that of its entry in the ruler, or none. -/
def Placed (c : Nat) (es : List Decl) (as : List Align) (p : Decl × List Char) : Prop :=
  (p.1.ruled = false ∧ p.2 = []) ∨
    ∃ (i : Nat) (d : Decl) (a : Align), es[i]? = some d ∧ as[i]? = some a ∧ d.ruled = true ∧ p = (d, gapAt c (some a) d)

theorem gapsAt_mem (c : Nat) {ds : List Decl} : ∀ {as : List Align}, as.length = (ruledOf ds).length → ∀ {p}, p ∈ ds.zip (gapsAt c as ds) →
    Placed c (ruledOf ds) as p := by
  induction ds with
  | nil => intro as _ p hp; simp at hp
  | cons d ds ih =>
    intro as hl p hp
    by_cases hr : d.ruled = true
    · have e : ruledOf (d :: ds) = d :: ruledOf ds := by simp [ruledOf, hr]
      rw [e] at hl ⊢
      cases as with
      | nil => simp at hl
      | cons a as =>
        rw [gapsAt, List.zip_cons_cons, List.mem_cons, Decl.rest, if_pos hr] at hp
        rcases hp with rfl | hp
        · refine .inr ⟨0, d, a, rfl, rfl, hr, ?_⟩
          rw [Decl.entry, if_pos hr]
          rfl
        · rcases ih (by simpa using hl) hp with h | ⟨i, d', a', h1, h2, h3⟩
          · exact .inl h
          · exact .inr ⟨i + 1, d', a', by simpa using h1, by simpa using h2, h3⟩
    · have e : ruledOf (d :: ds) = ruledOf ds := by simp [ruledOf, hr]
      rw [e] at hl ⊢
      rw [gapsAt, List.zip_cons_cons, List.mem_cons, Decl.rest, if_neg hr] at hp
      rcases hp with rfl | hp
      · refine .inl ⟨by simpa using hr, ?_⟩
        rw [Decl.entry, if_neg hr]
        rfl
      · exact ih hl hp

/-- Every declaration with an entry is there. -/
theorem gapsAt_all (c : Nat) {ds : List Decl} : ∀ {as : List Align} {i : Nat} {d : Decl} {a : Align}, (ruledOf ds)[i]? = some d → as[i]? = some a →
    (d, gapAt c (some a) d) ∈ ds.zip (gapsAt c as ds) := by
  induction ds with
  | nil => intro as i d a h; simp [ruledOf] at h
  | cons d' ds ih =>
    intro as i d a h h'
    rw [gapsAt, List.zip_cons_cons, List.mem_cons]
    by_cases hr : d'.ruled = true
    · have e : ruledOf (d' :: ds) = d' :: ruledOf ds := by simp [ruledOf, hr]
      rw [e] at h
      rw [Decl.rest, if_pos hr, Decl.entry, if_pos hr]
      cases as with
      | nil => simp at h'
      | cons a' as =>
        cases i with
        | zero =>
          simp only [List.getElem?_cons_zero, Option.some.injEq] at h h'
          subst h h'
          exact .inl rfl
        | succ i => exact .inr (ih (by simpa using h) (by simpa using h'))
    · have e : ruledOf (d' :: ds) = ruledOf ds := by simp [ruledOf, hr]
      rw [e] at h
      rw [Decl.rest, if_neg hr]
      exact .inr (ih h h')

theorem gapsAt_length (c : Nat) : ∀ (ds : List Decl) (as : List Align), (gapsAt c as ds).length = ds.length
  | [], _ => rfl
  | d :: ds, as => by rw [gapsAt, List.length_cons, List.length_cons, gapsAt_length c ds]

theorem pairs_zip : ∀ (ds : List Decl) (as : List Align), pairs as ds = ds.zip (gapsAt 0 as ds)
  | [], _ => rfl
  | d :: ds, as => by rw [pairs, gapsAt, List.zip_cons_cons, pairs_zip ds]

theorem pairs_fst (ds : List Decl) : ∀ as, (pairs as ds).map Prod.fst = ds := by
  induction ds with
  | nil => intro as; rfl
  | cons d ds ih => intro as; simp [pairs, ih]

/-- What the ruler of a block gives. -/
structure Given (ds : List Decl) (out : List (List Align)) (is : List Int) : Prop where
  exec : Knfmt.Ruler.exec (blockRuler ds) = some (out, is)
  length : (out.headD []).length = (ruledOf ds).length
  plain : ∀ rc ∈ (blockRuler ds).columns, ∀ x ∈ rc.datums, x.Plain
  entry : ∀ (i : Nat) (d : Decl) (a : Align), (ruledOf ds)[i]? = some d → (out.headD [])[i]? = some a →
    Knfmt.Ruler.Entry (blockRuler ds) out 0 i d.datum a

theorem block_exec {typ : List Tok → List Char} {ds : List Decl} (hd : ∀ d ∈ ds, d.Ok typ) : ∃ out is, Given ds out is := by
  have h := holds_block ds
  rcases h.cols with ⟨h1, h2, h3⟩ | ⟨rc, h1, h2, hz⟩
  · refine ⟨[], [], ?_, by rw [h2]; rfl, by rw [h1]; simp, fun i d a e => by rw [h2] at e; simp at e⟩
    unfold Knfmt.Ruler.exec
    rw [h1, h3]
    rfl
  have hp : ∀ r ∈ (blockRuler ds).columns, ∀ x ∈ r.datums, x.Plain := by
    intro r hr x hx
    rw [h1, List.mem_singleton] at hr
    subst hr
    rw [h2] at hx
    obtain ⟨d, h3, rfl⟩ := List.mem_map.mp hx
    obtain ⟨h4, h5⟩ := List.mem_filter.mp h3
    exact (hd d h4).src ((hd d h4).bare_of.mp h5)
  have hne : rc.datums ≠ [] := by
    rw [h2]
    simpa using hz
  have ht := Knfmt.Ruler.exec_total h.built (by rw [h.flags]; simp) (by
    intro r hr
    refine ⟨?_, hp r hr⟩
    rw [h1, List.mem_singleton] at hr
    subst hr
    exact hne) (.inr (by rw [h1]; rfl))
  obtain ⟨⟨out, is⟩, he⟩ := Option.isSome_iff_exists.mp ht
  obtain ⟨cols, hc, ho⟩ := Knfmt.Ruler.exec_columns he
  rw [h1] at hc
  cases hx : Knfmt.Ruler.execColumn (blockRuler ds) rc with
  | none => simp [hx] at hc
  | some q =>
    obtain ⟨rc', as⟩ := q
    simp only [List.mapM_cons, hx, List.mapM_nil, Option.pure_def, Option.bind_eq_bind, Option.bind_some, Option.some.injEq] at hc
    subst hc
    have hl := Knfmt.Ruler.execColumn_length hx
    obtain rfl : out = [as] := ho
    refine ⟨[as], is, he, ?_, hp, fun i d a e1 e2 => ⟨rc, as, by rw [h1]; rfl, by rw [h2]; simp [e1], rfl, e2⟩⟩
    show as.length = _
    rw [hl, h2, List.length_map]

/-! ## Blocks that are indented -/

theorem column_shift {c : Nat} (hc : c % 8 = 0) : ∀ {s : List Char} (x : Nat), '\n' ∉ s → column (c + x) s = c + column x s
  | [], _, _ => rfl
  | a :: s, x, h => by
    rw [Knfmt.Util.column_cons, Knfmt.Util.column_cons]
    have ha : a ≠ '\n' := fun e => h (by rw [e]; exact List.mem_cons_self ..)
    have e : advance (c + x) a = c + advance x a := by
      unfold advance
      rw [if_neg ha, if_neg ha]
      split
      · unfold nextTabStop
        omega
      · omega
    rw [e]
    exact column_shift hc _ (fun hs => h (List.mem_cons_of_mem _ hs))

theorem lead_columnAt {c : Nat} (hc : c % 8 = 0) {d : Decl} (hw : ∀ w ∈ d.words, '\n' ∉ w) (a : Align) :
    column c (leadText (gapAt c (some a) d) d) = Knfmt.Ruler.startsAt c d.datum a := by
  have h0 : strwidth (joined [' '] d.words) c = c + strwidth (joined [' '] d.words) 0 := by
    rw [(strwidth_spec _ _).2, (strwidth_spec _ _).2]
    exact column_shift hc 0 (joined_flat (by simp) hw)
  unfold leadText gapAt Knfmt.Ruler.startsAt
  rw [Knfmt.Doc.execAlign_column]
  dsimp only
  rw [Knfmt.Util.column_append, Knfmt.Util.column_append, column_stars]
  unfold Decl.datum
  dsimp only
  rw [joined_flatten, ← h0, Knfmt.Doc.width_column]

/-- The names of a block that begins at a tab stop. -/
theorem given_lined {typ : List Tok → List Char} {b : List Decl} (hd : ∀ d ∈ b, d.Ok typ) {out : List (List Align)} {is : List Int}
    (g : Given b out is) {c : Nat} (hc : c % 8 = 0) : LinedAt c (b.zip (gapsAt c (out.headD []) b)) := by
  have hH := holds_block b
  have hb : ∀ {p : Decl × List Char}, p ∈ b.zip (gapsAt c (out.headD []) b) → p.1 ∈ b := fun {p} hp => (List.of_mem_zip (a := p.1) (b := p.2) hp).1
  refine ⟨?_, ?_, ?_⟩
  · intro p hp x hx
    rcases gapsAt_mem c g.length hp with ⟨_, e⟩ | ⟨i, d, a, _, _, _, rfl⟩
    · rw [e] at hx
      cases hx
    · dsimp only at hx
      unfold gapAt alignText at hx
      dsimp only at hx
      split at hx
      · rcases List.mem_append.mp hx with hx | hx
        · exact .inr (List.eq_of_mem_replicate hx)
        · exact .inl (List.eq_of_mem_replicate hx)
      · exact .inl (List.eq_of_mem_replicate hx)
  · intro p hp ht
    rcases gapsAt_mem c g.length hp with ⟨_, e⟩ | ⟨i, d, a, _, _, hr, rfl⟩
    · exact e
    · exact absurd ht ((hd _ (hb hp)).bare_of.mp hr)
  · have hno : ∀ {p : Decl × List Char}, p ∈ b.zip (gapsAt c (out.headD []) b) → p.1.tail ≠ .bare → p.1.ruled ≠ false := by
      intro p hp ht hr
      rw [(hd _ (hb hp)).bare_of.mpr ht] at hr
      cases hr
    rcases Knfmt.Ruler.sense_aligned_partial hH.built hH.flags g.plain g.exec 0 with hs | hs
    · left
      intro p hp ht
      rcases gapsAt_mem c g.length hp with ⟨e, _⟩ | ⟨i, d, a, e1, e2, _, rfl⟩
      · exact absurd e (hno hp ht)
      have := hs i _ a (g.entry i d a e1 e2)
      subst this
      rfl
    · right
      obtain ⟨x, hx⟩ := hs c (.inl hc)
      refine ⟨x, fun p hp ht => ?_⟩
      have hm := hb hp
      rcases gapsAt_mem c g.length hp with ⟨e, _⟩ | ⟨i, d, a, e1, e2, _, rfl⟩
      · exact absurd e (hno hp ht)
      rw [lead_columnAt hc (fun w hw => ((hd d hm).words w hw).2)]
      exact (hx i _ a (g.entry i d a e1 e2)).1

theorem block_lined {typ : List Tok → List Char} {ds : List Decl} (hd : ∀ d ∈ ds, d.Ok typ) {out : List (List Align)} {is : List Int}
    (g : Given ds out is) : Lined (pairs (out.headD []) ds) := by
  rw [pairs_zip]
  exact given_lined hd g rfl

/-- C90: the names of the declarations of a block are aligned where the block is printed, if this is at a tab stop. -/
theorem decls_lined {S : Style} {tabs : Bool} {typ : List Tok → List Char} {b : List Decl} (h : Block.Ok typ b) {c : Nat} (hc : c % 8 = 0) :
    ((hand S tabs typ).gaps c b).length = b.length ∧ LinedAt c (b.zip ((hand S tabs typ).gaps c b)) := by
  obtain ⟨out, is, g⟩ := block_exec h.decls
  have hg : (hand S tabs typ).gaps c b = gapsAt c (out.headD []) b := by
    show gapsAt c (rulerOf b).1 b = _
    rw [rulerOf, g.exec]
  rw [hg]
  exact ⟨gapsAt_length c b _, given_lined h.decls g hc⟩

/-! ## Small indentations -/

theorem column_pos {s : List Char} (h : '\n' ∉ s) (c : Nat) : c + s.length ≤ column c s := by
  induction s generalizing c with
  | nil => exact Nat.le_refl _
  | cons x s ih =>
    rw [Knfmt.Util.column_cons]
    have h1 := ih (fun hx => h (List.mem_cons_of_mem _ hx)) (advance c x)
    have h2 : c + 1 ≤ advance c x := by
      unfold advance
      rw [if_neg (fun hx => h (by rw [hx]; exact List.mem_cons_self ..))]
      split
      · unfold nextTabStop
        omega
      · exact Nat.le_refl _
    rw [List.length_cons]
    omega

theorem exec_indents {rl : Ruler} {out : List (List Align)} {is : List Int} (h : Knfmt.Ruler.exec rl = some (out, is)) :
    is.length = (rl.indents.getD []).length := by
  unfold Knfmt.Ruler.exec at h
  split at h
  · cases h
  · split at h
    · rename_i hn
      simp only [Option.some.injEq, Prod.mk.injEq] at h
      rw [← h.2]
      cases hi : rl.indents <;> simp_all
    · split at h
      · obtain ⟨is', h1, h2⟩ := Option.map_eq_some_iff.mp h
        simp only [Prod.mk.injEq] at h2
        rw [← h2.2]
        unfold Knfmt.Ruler.execIndent at h1
        split at h1
        · cases h1
        · exact Knfmt.Ruler.mapM_length _ _ _ h1
      · cases h

theorem within_joined {lim : Nat} : ∀ {ts : List (List Char)}, Within lim 0 (joined ['\n'] ts) → (∀ t ∈ ts, Within lim 0 t)
  | [], _ => by simp
  | [t], h => by simpa [joined] using h
  | t :: t2 :: ts, h => by
    have e : joined ['\n'] (t :: t2 :: ts) = t ++ (['\n'] ++ joined ['\n'] (t2 :: ts)) := rfl
    rw [e] at h
    have h1 := within_append h
    have h2 : Within lim 0 (joined ['\n'] (t2 :: ts)) := by
      have h3 := h1.2.2
      exact h3
    have ih := within_joined h2
    intro x hx
    rcases List.mem_cons.mp hx with rfl | hx
    · exact h1.1
    · exact ih x hx

theorem small_indents {S : Style} {tb : Bool} {lim : Nat} {typ : List Tok → List Char} {ds : List Decl} (hd : ∀ d ∈ ds, d.Ok typ) {out : List (List Align)} {is : List Int}
    (g : Given ds out is) (hm : lim < 2 ^ 27)
    (hw : Within lim 0 (blockText (hand S tb typ) (pairs (out.headD []) ds))) : ∀ v ∈ is, v < 2 ^ 27 := by
  have h := holds_block ds
  intro v hv
  obtain ⟨j, hj⟩ := List.getElem?_of_mem hv
  cases hi : (blockRuler ds).indents with
  | none =>
    have := exec_indents g.exec
    rw [hi] at this
    have : is = [] := List.length_eq_zero_iff.mp this
    rw [this] at hv
    cases hv
  | some ris =>
    have hlen := exec_indents g.exec
    rw [hi, Option.getD_some] at hlen
    have hjl : j < ris.length := by
      rw [← hlen]
      exact (List.getElem?_eq_some_iff.mp hj).1
    obtain ⟨⟨i, pos⟩, hq⟩ : ∃ q, ris[j] = q := ⟨_, rfl⟩
    have hr : ris[j]? = some (i, pos) := by rw [List.getElem?_eq_getElem hjl, hq]
    have hil : i < (ruledOf ds).length := h.inds (i, pos) (by rw [hi]; exact List.mem_of_getElem? hr)
    have hal : i < (out.headD []).length := by rw [g.length]; exact hil
    have ed : (ruledOf ds)[i]? = some (ruledOf ds)[i] := List.getElem?_eq_getElem hil
    have ea : (out.headD [])[i]? = some (out.headD [])[i] := List.getElem?_eq_getElem hal
    have hok := hd (ruledOf ds)[i] (List.mem_filter.mp (List.getElem_mem hil)).1
    have hpos : 0 <  (ruledOf ds)[i].datum.len := by
      show 0 < Knfmt.Util.strwidth _ 0
      rw [(strwidth_spec _ _).2, joined_flatten]
      have hne : '\n' ∉ joined [' ']  (ruledOf ds)[i].words := joined_flat (by simp) (fun w hw => (hok.words w hw).2)
      have hc := column_pos hne 0
      have : (joined [' ']  (ruledOf ds)[i].words).length ≠ 0 := by
        obtain ⟨w, ws, e⟩ := List.exists_cons_of_ne_nil hok.some
        have hw1 := (hok.words w (by rw [e]; exact List.mem_cons_self ..)).1
        rw [e]
        cases ws with
        | nil => simpa [joined] using hw1
        | cons w2 ws => simp [joined]
      omega
    obtain ⟨n, e1, e2⟩ := Knfmt.Ruler.indent_aligned_partial h.built h.flags g.plain g.exec hi hr (g.entry i _ _ ed ea) hpos (s := 0) rfl
    rw [← lead_column] at e2
    have hp := gapsAt_all 0 ed ea
    rw [← pairs_zip] at hp
    have hx := within_joined hw _ (List.mem_map_of_mem hp)
    dsimp only at hx
    unfold declText at hx
    have hy := within_last (within_append hx).1
    rw [(strwidth_spec _ _).2] at hy
    rw [e1] at hj
    cases pos
    · simp only [Bool.false_eq_true, if_false, Option.some.injEq] at hj
      omega
    · simp only [if_true, Option.some.injEq] at hj
      omega

/-! ## All blocks -/

/-- The blocks of a file: a block has at least one declaration, and there is an empty line between two blocks and
nowhere else. -/
structure Blocks (typ : List Tok → List Char) (bs : List (List Decl)) : Prop where
  some : ∀ b ∈ bs, b ≠ []
  ok : ∀ b ∈ bs, ∀ d ∈ b, d.Ok typ
  close : ∀ b ∈ bs, ∀ d ∈ b.dropLast, d.aft ≠ .blank
  apart : ∀ b ∈ bs.dropLast, ∀ d ∈ b.getLast?, d.aft = .blank

theorem lastAft_last : ∀ {b : List Decl}, b ≠ [] → (∀ d ∈ b.getLast?, d.aft = .blank) → lastAft b = .blank
  | [], h, _ => absurd rfl h
  | [d], _, h => h d rfl
  | _ :: d2 :: ds, _, h => lastAft_last (b := d2 :: ds) (by simp) (fun d hd => h d (by simpa using hd))

/-- The declarations of a block with the white space of its ruler. -/
def spaced (b : List Decl) : List (Decl × List Char) :=
  match Knfmt.Ruler.exec (blockRuler b) with
  | some (out, _) => pairs (out.headD []) b
  | none => []

theorem run_blocks {lim : Nat} {tabs : Bool} {S : Style} {typ : List Tok → List Char} (hS : Fair S typ) (tb : Bool) (hm : lim < 2 ^ 27) :
    ∀ {bs : List (List Decl)}, Blocks typ bs → ∃ doc ps, blocksDoc S bs = some doc ∧ ps = bs.map spaced ∧ ps.map (·.map Prod.fst) = bs ∧ (∀ p ∈ ps, Lined p) ∧
      (Within lim 0 (blocksText (hand S tb typ) ps) → ∀ {f : Spot}, f.edge = .plain → f.col = 0 → ∃ g n, run lim tabs true false 2 0 doc f = some g ∧
        g.edge = .plain ∧ (n = 0 ∨ n = 1 ∧ bs ≠ []) ∧ g.txt = List.replicate n '\n' ++ ((blocksText (hand S tb typ) ps).reverse ++ f.txt))
  | [], _ => ⟨.nil, [], rfl, rfl, rfl, by simp, fun _ f hp _ => ⟨f, 0, run_nil _ _, hp, .inl rfl, rfl⟩⟩
  | b :: bs, h => by
    have hb := h.some b (List.mem_cons_self ..)
    have ho := h.ok b (List.mem_cons_self ..)
    have hcl := h.close b (List.mem_cons_self ..)
    obtain ⟨out, is, gv⟩ := block_exec ho
    have e1 : blockDoc S b = some (.seq (declsDoc S .other (out.headD []) is b) .hardline) := by
      rw [blockDoc, gv.exec]
      rfl
    obtain ⟨doc, ps, e2, s2, m2, l2, r2⟩ := run_blocks (lim := lim) (tabs := tabs) hS tb hm (bs := bs)
      ⟨fun x hx => h.some x (List.mem_cons_of_mem _ hx), fun x hx => h.ok x (List.mem_cons_of_mem _ hx),
        fun x hx => h.close x (List.mem_cons_of_mem _ hx), fun x hx => h.apart x (by
          cases bs with
          | nil => simp at hx
          | cons b2 bs => simp [hx])⟩
    refine ⟨.seq (.seq (declsDoc S .other (out.headD []) is b) .hardline) doc, pairs (out.headD []) b :: ps, by rw [blocksDoc, e1, e2]; rfl,
      by rw [List.map_cons, ← s2, spaced, gv.exec],
      by rw [List.map_cons, m2, pairs_fst], ?_, ?_⟩
    · intro p hp
      rcases List.mem_cons.mp hp with rfl | hp
      · exact block_lined ho gv
      · exact l2 p hp
    · intro hw f hp hc
      cases bs with
      | nil =>
        obtain rfl : ps = [] := by simpa using m2
        obtain rfl : doc = .nil := by
          have : some Doc.nil = some doc := e2
          exact (Option.some.inj this).symm
        have et : blocksText (hand S tb typ) [pairs (out.headD []) b] = blockText (hand S tb typ) (pairs (out.headD []) b) ++ ['\n'] := rfl
        rw [et] at hw ⊢
        have hw1 := (within_append hw).1
        obtain ⟨g, c, k1, k2⟩ := run_block (lim := lim) (tabs := tabs) (f := f) hS tb hb ho hcl (small_indents ho gv hm hw1) hw1 hp hc
        obtain ⟨g2, k3, k4, k5, k6⟩ := run_feed2 (lim := lim) (tabs := tabs) k2
        refine ⟨g2, if lastAft b = .blank then 1 else 0, by rw [run_seq, run_seq, k1, Option.bind_some, k3, Option.bind_some, run_nil], k4, ?_, ?_⟩
        · by_cases hx : lastAft b = .blank
          · right
            rw [if_pos hx]
            exact ⟨rfl, by simp⟩
          · left
            rw [if_neg hx]
        · rw [k6]
          by_cases hx : lastAft b = .blank
          · rw [if_pos hx, if_pos hx]
            simp
          · rw [if_neg hx, if_neg hx]
            simp
      | cons b2 bs =>
        obtain ⟨q, qs, rfl⟩ : ∃ q qs, ps = q :: qs := by
          cases ps with
          | nil => simp at m2
          | cons q qs => exact ⟨q, qs, rfl⟩
        have et : blocksText (hand S tb typ) (pairs (out.headD []) b :: q :: qs) =
            blockText (hand S tb typ) (pairs (out.headD []) b) ++ (['\n', '\n'] ++ blocksText (hand S tb typ) (q :: qs)) := by
          simp [blocksText, joined]
        rw [et] at hw ⊢
        have hw1 := within_append hw
        obtain ⟨g, c, k1, k2⟩ := run_block (lim := lim) (tabs := tabs) (f := f) hS tb hb ho hcl (small_indents ho gv hm hw1.1) hw1.1 hp hc
        obtain ⟨g2, k3, k4, k5, k6⟩ := run_feed2 (lim := lim) (tabs := tabs) k2
        rw [if_pos (lastAft_last hb (h.apart b (by simp)))] at k6
        have hw2 : Within lim 0 (blocksText (hand S tb typ) (q :: qs)) := by
          have h3 := (within_append hw1.2).2
          have e3 : ∀ c, strwidth ['\n', '\n'] c = 0 := by
            intro c
            rw [(strwidth_spec _ _).2]
            rfl
          rw [e3] at h3
          exact h3
        obtain ⟨g3, n, k7, k8, k9, k10⟩ := r2 hw2 (f := g2) k4 k5
        refine ⟨g3, n, by rw [run_seq, run_seq, k1, Option.bind_some, k3, Option.bind_some, k7], k8, ?_, ?_⟩
        · rcases k9 with k9 | ⟨k9, _⟩
          · exact .inl k9
          · exact .inr ⟨k9, by simp⟩
        · rw [k10, k6]
          simp

theorem blocks_end (H : Hand) : ∀ {ps : List (List (Decl × List Char))}, ps ≠ [] → (∀ p ∈ ps, p ≠ []) →
    ∃ t, blocksText H ps = t ++ [';', '\n'] := by
  have hd : ∀ {p : List (Decl × List Char)}, p ≠ [] → ∃ t, blockText H p = t ++ [';'] := by
    intro p
    induction p with
    | nil => intro h; exact absurd rfl h
    | cons x p ih =>
      intro _
      cases p with
      | nil => exact ⟨leadText x.2 x.1 ++ tailText H x.1.tail, by simp [blockText, joined, declText]⟩
      | cons y p =>
        obtain ⟨t, e⟩ := ih (by simp)
        refine ⟨declText H x.2 x.1 ++ (['\n'] ++ t), ?_⟩
        have e1 : blockText H (x :: y :: p) = declText H x.2 x.1 ++ (['\n'] ++ blockText H (y :: p)) := rfl
        rw [e1, e]
        simp
  intro ps
  induction ps with
  | nil => intro h; exact absurd rfl h
  | cons p ps ih =>
    intro _ hp
    cases ps with
    | nil =>
      obtain ⟨t, e⟩ := hd (hp p (List.mem_cons_self ..))
      exact ⟨t, by simp [blocksText, joined, e]⟩
    | cons q ps =>
      obtain ⟨t, e⟩ := ih (by simp) (fun x hx => hp x (List.mem_cons_of_mem _ hx))
      have et : blocksText H (p :: q :: ps) = blockText H p ++ (['\n', '\n'] ++ blocksText H (q :: ps)) := by
        simp [blocksText, joined]
      exact ⟨blockText H p ++ (['\n', '\n'] ++ t), by rw [et, e]; simp⟩

/-- C92: blocks of declarations are printed with one declaration on every line and one empty line between blocks, and
the first names of the declarations of a block all begin in the same column or all follow one space, if all lines are
within the limit. -/
theorem C92_partial {env : Knfmt.Doc.Env} {S : Style} {typ : List Tok → List Char} (hd : env.diff = none) (hm : env.limit < 2 ^ 27)
    (hS : Fair S typ) {bs : List (List Decl)} (hb : Blocks typ bs) :
    ∃ doc ps, blocksDoc S bs = some doc ∧ ps = bs.map spaced ∧ ps.map (·.map Prod.fst) = bs ∧ (∀ p ∈ ps, Lined p) ∧
      (Within env.limit 0 (blocksText (hand S env.useTabs typ) ps) →
        (Knfmt.Doc.docExec env true [] doc).buf.reverse = blocksText (hand S env.useTabs typ) ps ∧
          (Knfmt.Doc.docExec env true [] doc).ub = false) := by
  obtain ⟨doc, ps, e1, e0, e2, e3, hr⟩ := run_blocks (lim := env.limit) (tabs := env.useTabs) hS env.useTabs hm hb
  refine ⟨doc, ps, e1, e0, e2, e3, fun hw => ?_⟩
  obtain ⟨g, n, h1, h3, h4, h2⟩ := hr hw (f := ⟨[], 0, 0, .plain⟩) rfl rfl
  have h := Knfmt.Doc.run_sound (env := env) (σ := {}) hd h1
    ⟨rfl, rfl, rfl, by decide, fun i h => by simp at h, fun _ => rfl, fun _ => rfl, fun h => by simp at h⟩ rfl
    (fun _ => by simp) (fun _ => ⟨rfl, rfl, rfl, rfl, rfl⟩)
  have hx : Knfmt.Doc.docExec env true [] doc = { Knfmt.Doc.exec env doc {} with
      buf := Knfmt.Doc.trimLines (Knfmt.Doc.exec env doc {}).buf } := by
    unfold Knfmt.Doc.docExec Knfmt.Doc.diffExit
    simp [hd]
  rw [hx]
  refine ⟨?_, h.2.1.ub⟩
  show (Knfmt.Doc.trimLines (Knfmt.Doc.exec env doc {}).buf).reverse = _
  rw [h.1.buf (by simp [h3]), h2]
  by_cases hf : bs = []
  · have : n = 0 := by simpa [hf] using h4
    subst this
    have : ps = [] := by simpa [hf] using e2
    subst this
    rfl
  · obtain ⟨t, e⟩ := blocks_end (hand S env.useTabs typ) (ps := ps) (by rintro rfl; exact hf (by simpa using e2.symm)) (by
      rintro p hp rfl
      exact hb.some [] (by rw [← e2]; exact List.mem_map.mpr ⟨[], hp, rfl⟩) rfl)
    rw [e]
    have e1 : ∀ X : List Char, Knfmt.Doc.trimLines ('\n' :: ';' :: X) = '\n' :: ';' :: X := by
      intro X
      rw [Knfmt.Doc.trimLines]
      simp
    rcases h4 with rfl | ⟨rfl, _⟩
    · simp [e1]
    · simp only [List.replicate, List.reverse_append, List.reverse_cons, List.reverse_nil, List.nil_append, List.cons_append, List.append_nil]
      rw [Knfmt.Doc.trimLines, e1]
      simp

/-! ## An example -/

namespace Example

/-- `int x;`, `const char *p = f(), q[n][];` and `void f(int, char *a[]);` with tabs after the types, an empty line,
`int y;` and `char z = y;` with spaces. -/
def blocks : List (List Decl) :=
  [[⟨[['i', 'n', 't']], 0, .vars ⟨0, ['x'], [], none⟩ [],
      { str := ['i', 'n', 't'], suffixes := [⟨false, true, ['\t']⟩], next := some (1, 9) }, .line⟩,
    ⟨[['c', 'o', 'n', 's', 't'], ['c', 'h', 'a', 'r']], 1, .vars ⟨0, ['p'], [], some (call 'f')⟩ [⟨0, ['q'], [some (name 'n'), none], none⟩],
      { str := ['c', 'h', 'a', 'r'], suffixes := [⟨false, true, ['\t']⟩], next := some (2, 9) }, .line⟩,
    ⟨[['v', 'o', 'i', 'd']], 0, .args ['f'] [⟨⟨[['i', 'n', 't']], 0⟩, none⟩, ⟨⟨[['c', 'h', 'a', 'r']], 1⟩, some (['a'], [none])⟩],
      { str := ['v', 'o', 'i', 'd'], suffixes := [⟨false, true, ['\t']⟩], next := some (3, 9) }, .blank⟩],
   [⟨[['i', 'n', 't']], 0, .vars ⟨0, ['y'], [], none⟩ [],
      { str := ['i', 'n', 't'], suffixes := [⟨false, true, [' ']⟩], next := some (5, 5) }, .line⟩,
    ⟨[['c', 'h', 'a', 'r']], 0, .vars ⟨0, ['z'], [], some (name 'y')⟩ [],
      { str := ['c', 'h', 'a', 'r'], suffixes := [⟨false, true, [' ']⟩], next := some (6, 6) }, .blank⟩]]

theorem blocks_ok : Blocks typ blocks where
  some := by simp [blocks]
  ok := by
    intro b hb d hd
    simp only [blocks, List.mem_cons, List.not_mem_nil, or_false] at hb
    have f1 : Firm ['i', 'n', 't'] := ⟨by decide, ['i', 'n'], 't', rfl, by decide⟩
    have f2 : Firm ['c', 'h', 'a', 'r'] := ⟨by decide, ['c', 'h', 'a'], 'r', rfl, by decide⟩
    have hv : ∀ x : Var, Word x.name → (∀ d ∈ x.dims, ∀ e ∈ d, Words typ e) → (∀ e ∈ x.init, Words typ e) → x.Ok typ := fun x h1 h2 h3 => ⟨h1, h2, h3⟩
    have ht : d.tail.Ok typ := by
      rcases hb with rfl | rfl <;> simp only [List.mem_cons, List.not_mem_nil, or_false] at hd
      · rcases hd with rfl | rfl | rfl
        · intro x hx
          simp only [List.mem_cons, List.not_mem_nil, or_false] at hx
          subst hx
          exact hv _ (by simp [Word]) (by simp) (by simp)
        · intro x hx
          simp only [List.mem_cons, List.not_mem_nil, or_false] at hx
          rcases hx with rfl | rfl <;> exact hv _ (by simp [Word]) (by simp [Words, Word, name]) (by simp [Words, Word, call, name])
        · refine ⟨by simp [Word], ?_⟩
          simp [Param.Ok, Typ.Ok, f1, f2, Word]
      · rcases hd with rfl | rfl <;> intro x hx <;> simp only [List.mem_cons, List.not_mem_nil, or_false] at hx <;> subst hx <;>
          exact hv _ (by simp [Word]) (by simp) (by simp [Words, Word, name])
    rcases hb with rfl | rfl <;> simp only [List.mem_cons, List.not_mem_nil, or_false] at hd <;> rcases hd with rfl | hd <;>
      try rcases hd with rfl | rfl
    all_goals try subst hd
    all_goals
      refine ⟨by simp, by simp [Word], ht, fun _ => ⟨by simp [Decl.datum], by simp [Decl.datum], ?_⟩, by simp⟩
      · intro l c h
        simp only [Decl.datum, Option.some.injEq, Prod.mk.injEq] at h
        rw [← h.2]
        decide +kernel
  close := by simp [blocks]
  apart := by simp [blocks]

/-- The text. -/
def blocksOut : List Char := "int\t\t x;\nconst char\t*p = f(), q[n][];\nvoid\t\t f(int, char *a[]);\n\nint y;\nchar z = y;\n".toList

example : ∃ doc, blocksDoc style blocks = some doc ∧
    (Knfmt.Doc.docExec { limit := 80, useTabs := true } true [] doc).buf.reverse = blocksOut := by
  have h : blocksText (hand style true typ) (blocks.map spaced) = blocksOut := by decide +kernel
  obtain ⟨doc, ps, e1, rfl, _, _, hr⟩ := C92_partial (env := { limit := 80, useTabs := true }) rfl (by decide) fair blocks_ok
  exact ⟨doc, e1, by rw [← h]; exact (hr (by show Within 80 0 (blocksText (hand style true typ) (blocks.map spaced)); rw [h]; decide +kernel)).1⟩

/-- A function with declarations, after an empty line, in its body and in a block. -/
def locals : Stmts :=
  .cons (.decls blocks[0]) (.cons (.decls blocks[1]) (.cons (.loop ['w', 'h', 'i', 'l', 'e'] true (some (name 'x'))
    (.block (.cons (.decls blocks[1]) (.cons (.expr (call 'f') .none) (.cons (.decls blocks[0]) .nil))) .line)) .nil))

theorem locals_good : Goods typ locals := by
  have h0 : Block.Ok typ blocks[0] := ⟨blocks_ok.some _ (by simp), blocks_ok.ok _ (by simp), blocks_ok.close _ (by simp), by decide +kernel⟩
  have h1 : Block.Ok typ blocks[1] := ⟨blocks_ok.some _ (by simp), blocks_ok.ok _ (by simp), blocks_ok.close _ (by simp), by decide +kernel⟩
  exact ⟨h0, h1, ⟨⟨by simp, by simp⟩, by simp [Words, Word, name], h1, by simp [Told, Words, Word, name, call], h0, trivial⟩, trivial⟩

/-- The text. -/
def localsOut : List Char :=
  "{\n\tint\t\t x;\n\tconst char\t*p = f(), q[n][];\n\tvoid\t\t f(int, char *a[]);\n\n\tint y;\n\tchar z = y;\n\n\twhile (x) {\n\t\tint y;\n\t\tchar z = y;\n\n\t\tf();\n\t\tint\t\t x;\n\t\tconst char\t*p = f(), q[n][];\n\t\tvoid\t\t f(int, char *a[]);\n\t}\n}".toList

/-- The hypotheses of `C90_partial` hold for declarations, too: the empty line before the first one is gone. -/
example : (Knfmt.Doc.docExec { limit := 80, useTabs := true } false [] (funcDoc style .blank locals)).buf.reverse = localsOut := by
  have h : body (hand style true typ) .blank locals = localsOut := by decide +kernel
  rw [← h]
  exact (C90_partial (env := { limit := 80, useTabs := true }) rfl fair .blank locals_good
    (by show Within 80 0 (body (hand style true typ) .blank locals); rw [h]; decide +kernel)).1

example (b : List Decl) (h : b = blocks[0]) : LinedAt 8 (b.zip ((hand style true typ).gaps 8 b)) := by
  subst h
  exact (decls_lined (typ := typ) ⟨blocks_ok.some _ (by simp), blocks_ok.ok _ (by simp), blocks_ok.close _ (by simp), by decide +kernel⟩ (by decide)).2

/-- `struct s;`, `int x;` and `const char *p = f(), q[n][];`, an empty line and `struct s;`. -/
def forward : List (List Decl) :=
  [[⟨[['s', 't', 'r', 'u', 'c', 't'], ['s']], 0, .bare, { str := ['s'], suffixes := [], next := some (1, 9) }, .line⟩,
    blocks[0][0], { blocks[0][1] with aft := .blank }],
   [⟨[['s', 't', 'r', 'u', 'c', 't'], ['s']], 0, .bare, { str := ['s'], suffixes := [], next := some (5, 9) }, .line⟩]]

theorem forward_ok : Blocks typ forward where
  some := by simp [forward]
  ok := by
    intro b hb d hd
    have k0 := blocks_ok.ok blocks[0] (by simp) blocks[0][0] (by simp)
    have k1 := blocks_ok.ok blocks[0] (by simp) blocks[0][1] (by simp)
    simp only [forward, List.mem_cons, List.not_mem_nil, or_false] at hb
    rcases hb with rfl | rfl <;> simp only [List.mem_cons, List.not_mem_nil, or_false] at hd
    · rcases hd with rfl | rfl | rfl
      · exact ⟨by simp, by simp [Word], trivial, by simp, by simp⟩
      · exact k0
      · exact ⟨k1.some, k1.words, k1.tail, k1.src, k1.bare⟩
    · subst hd
      exact ⟨by simp, by simp [Word], trivial, by simp, by simp⟩
  close := by simp [forward, blocks]
  apart := by simp [forward, blocks]

/-- The text: a declaration without a name is not aligned and does not count. -/
def forwardOut : List Char := "struct s;\nint\t\t x;\nconst char\t*p = f(), q[n][];\n\nstruct s;\n".toList

example : ∃ doc, blocksDoc style forward = some doc ∧
    (Knfmt.Doc.docExec { limit := 80, useTabs := true } true [] doc).buf.reverse = forwardOut := by
  have h : blocksText (hand style true typ) (forward.map spaced) = forwardOut := by decide +kernel
  obtain ⟨doc, ps, e1, rfl, _, _, hr⟩ := C92_partial (env := { limit := 80, useTabs := true }) rfl (by decide) fair forward_ok
  exact ⟨doc, e1, by rw [← h]; exact (hr (by show Within 80 0 (blocksText (hand style true typ) (forward.map spaced)); rw [h]; decide +kernel)).1⟩

end Example

end Knfmt.Layout
