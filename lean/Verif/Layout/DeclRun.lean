import Verif.Layout.Base
/-! # Types and declarations on one line -/
namespace Knfmt.Layout
open Knfmt.Expr (Tok Ex)
open Knfmt.Doc (Doc Spot run hasBit blank Align)
open Knfmt.Doc.Spec (alignText)
open Knfmt.Util Knfmt.Spec
open Knfmt.Layout.Spec

/-! ## Texts on one line -/

/-- A document that is a text, in groups and outside of them. -/
def Tells (d : Doc) (s : List Char) : Prop :=
  ∀ (lim : Nat) (tabs brk o : Bool) (mx cur : Nat) (f : Spot), Room lim s f → run lim tabs brk o mx cur d f = some (f.put s)

theorem Tells.says {d : Doc} {s : List Char} (h : Tells d s) : Says d s := fun lim tabs o mx cur f hr => h lim tabs false o mx cur f hr

theorem says_seq {a b : Doc} {s t : List Char} (ha : Says a s) (hb : Says b t) : Says (.seq a b) (s ++ t) := by
  intro lim tabs o mx cur f h
  rw [run_seq, ha _ _ _ _ _ _ h.left, Option.bind_some, hb _ _ _ _ _ _ h.right, put_put]

theorem tells_seq {a b : Doc} {s t : List Char} (ha : Tells a s) (hb : Tells b t) : Tells (.seq a b) (s ++ t) := by
  intro lim tabs brk o mx cur f h
  rw [run_seq, ha _ _ _ _ _ _ _ h.left, Option.bind_some, hb _ _ _ _ _ _ _ h.right, put_put]

theorem tells_nil : Tells .nil [] := fun _ _ brk _ _ _ f _ => run_nil brk f

theorem tells_lit {s : List Char} (h : Word s) : Tells (lit s) s := fun _ _ brk _ _ _ _ hr => run_lit hr h.1 brk none

theorem says_line : Says .line [' '] := fun _ _ _ _ _ _ h => run_line h

theorem tells_group {d : Doc} {s : List Char} (h : Says d s) : Tells (.group d) s := by
  intro lim tabs brk o mx cur f hr
  rw [run_group hr, h _ _ _ _ _ _ hr]

theorem says_optional {d : Doc} {s : List Char} (h : Says d s) : Says (.optional d) s := by
  intro lim tabs o mx cur f hr
  rw [run, h _ _ _ _ _ _ hr]

theorem says_indent {d : Doc} {s : List Char} (h : Says d s) {n : Nat} (hn : n < 2 ^ 27) : Says (.indent n d) s := by
  intro lim tabs o mx cur f hr
  rw [run_indent (by rw [Knfmt.Doc.bits_small hn (by omega)]; rfl), h _ _ _ _ _ _ hr]

theorem says_softline {d : Doc} {s : List Char} (h : Says d s) (n : Int) : Says (.seq (.softline n) d) s := by
  intro lim tabs o mx cur f hr
  rw [run_seq, run_softline, Option.bind_some, h _ _ _ _ _ _ hr]

/-- A token and the space of the ruler. -/
theorem says_align {w : List Char} (h : Word w) : Says (.seq (lit w) (.align ⟨1, 0, false⟩)) (w ++ [' ']) := by
  intro lim tabs o mx cur f hr
  have h1 := hr.right
  have hn : (f.put w).nl = 0 := by
    unfold Spot.put
    rw [if_neg h.1]
  rw [run_seq, lit, run_lit hr.left h.1, Option.bind_some, run, if_pos ⟨h1.edge, hn, h1.fits⟩, ← put_put]
  show some _ = some ((f.put w).put [' '])
  conv => rhs; unfold Spot.put
  simp only [hr.edge, Option.some.injEq]
  rfl

theorem tells_stars : ∀ n, Tells (starsDoc n) (List.replicate n '*')
  | 0 => tells_nil
  | n + 1 => tells_seq (s := ['*']) (tells_group (tells_lit (by simp [Word])).says) (tells_stars n)

/-- A type in an argument. -/
theorem tells_type {ws : List (List Char)} (hn : ws ≠ []) (hw : ∀ w ∈ ws, Word w) (stars : Nat) :
    Tells (typeDoc none stars ws) (typeText ⟨ws, stars⟩) := by
  induction ws with
  | nil => exact absurd rfl hn
  | cons w ws ih =>
    have h1 := hw w (List.mem_cons_self ..)
    cases ws with
    | nil =>
      unfold typeText
      simp only [joined, typeDoc]
      by_cases h0 : stars = 0
      · subst h0
        have := tells_seq (tells_group (says_seq (tells_lit h1).says tells_nil.says)) (tells_stars 0)
        simpa using this
      · have := tells_seq (tells_group (says_seq (tells_lit h1).says says_line)) (tells_stars stars)
        simpa [h0] using this
    | cons w' ws =>
      have := tells_seq (tells_group (says_seq (tells_lit h1).says says_line)) (ih (by simp) (fun x hx => hw x (List.mem_cons_of_mem _ hx)))
      unfold typeText at this ⊢
      simpa [joined, typeDoc] using this

/-- The type of a function, with the space that comes after it. -/
theorem tells_ruled {ws : List (List Char)} (hn : ws ≠ []) (hw : ∀ w ∈ ws, Word w) (stars : Nat) :
    Tells (typeDoc (some ⟨1, 0, false⟩) stars ws) (typeNext ⟨ws, stars⟩) := by
  induction ws with
  | nil => exact absurd rfl hn
  | cons w ws ih =>
    have h1 := hw w (List.mem_cons_self ..)
    cases ws with
    | nil =>
      unfold typeNext typeText
      simp only [joined, typeDoc]
      have := tells_seq (tells_group (says_align h1)) (tells_stars stars)
      by_cases h0 : stars = 0
      · subst h0
        simpa using this
      · simpa [h0] using this
    | cons w' ws =>
      have := tells_seq (tells_group (says_seq (tells_lit h1).says says_line)) (ih (by simp) (fun x hx => hw x (List.mem_cons_of_mem _ hx)))
      unfold typeNext typeText at this ⊢
      simpa [joined, typeDoc] using this

theorem says_dims {ds : List (Option (List Char))} (hd : ∀ d ∈ ds, ∀ x ∈ d, Word x) {k : Doc} {s : List Char} (hk : Says k s) :
    Says (dimsDoc ds k) (dimsText ds ++ s) := by
  induction ds with
  | nil => exact hk
  | cons d ds ih =>
    have ih := ih (fun x hx => hd x (List.mem_cons_of_mem _ hx))
    have o1 : Says (lit ['[']) ['['] := (tells_lit (by simp [Word])).says
    have o2 : Says (lit [']']) [']'] := (tells_lit (by simp [Word])).says
    cases d with
    | none => simpa [dimsDoc, dimsText] using says_seq o1 (says_seq o2 ih)
    | some n =>
      have hn := hd _ (List.mem_cons_self ..) n rfl
      simpa [dimsDoc, dimsText] using says_seq o1 (says_seq (tells_lit hn).says (says_seq o2 ih))

theorem tells_param {p : Param} (hp : p.Ok) {k : Doc} {s : List Char} (hk : Says k s) : Tells (paramDoc p k) (paramText p ++ s) := by
  obtain ⟨⟨h1, h2⟩, h3⟩ := hp
  have ht := (tells_type h1 (fun w hw => (h2 w hw).word) p.typ.stars).says
  unfold paramDoc paramText
  refine tells_group (says_softline (says_optional ?_) 0)
  cases hn : p.name with
  | none => exact says_seq ht (tells_group hk).says
  | some x =>
    obtain ⟨n, ds⟩ := x
    obtain ⟨h4, h5⟩ := h3 n ds hn
    dsimp only
    have e : Says (if p.typ.stars = 0 then Doc.line else .nil) (if p.typ.stars = 0 then [' '] else []) := by
      split
      · exact says_line
      · exact tells_nil.says
    have := says_seq ht (tells_group (says_seq e (says_seq (tells_lit h4).says (says_dims h5 hk)))).says
    simpa [typeNext] using this

theorem says_params : ∀ {ps : List Param}, ps ≠ [] → (∀ p ∈ ps, p.Ok) →
    Says (paramsDoc (lit [')']) ps) (joined [',', ' '] (ps.map paramText) ++ [')'])
  | [], h, _ => absurd rfl h
  | [p], _, hp => (tells_param (hp p (List.mem_cons_self ..)) (tells_lit (by simp [Word])).says).says
  | p :: q :: ps, _, hp => by
    have h1 := (tells_param (hp p (List.mem_cons_self ..)) (says_seq (tells_lit (s := [',']) (by simp [Word])).says says_line)).says
    have h2 := says_params (ps := q :: ps) (by simp) (fun x hx => hp x (List.mem_cons_of_mem _ hx))
    simpa [paramsDoc, joined] using says_seq h1 h2

/-! ## Types at the end of a line -/

theorem joined_firm {ws : List (List Char)} (hn : ws ≠ []) (hw : ∀ w ∈ ws, Firm w) : Firm (joined [' '] ws) := by
  induction ws with
  | nil => exact absurd rfl hn
  | cons w ws ih =>
    have h1 := hw w (List.mem_cons_self ..)
    cases ws with
    | nil => exact h1
    | cons w' ws =>
      obtain ⟨h2, t, c, h3, h4⟩ := ih (by simp) (fun x hx => hw x (List.mem_cons_of_mem _ hx))
      refine ⟨?_, w ++ ([' '] ++ t), c, ?_, h4⟩
      · rw [joined]
        simp only [List.mem_append, not_or]
        exact ⟨h1.1, by simp, h2⟩
        simp
      · rw [joined, h3]
        · simp
        · simp

theorem type_firm {t : Typ} (h : t.Ok) : Firm (typeText t) := by
  have h1 := joined_firm h.1 h.2
  unfold typeText
  by_cases h0 : t.stars = 0
  · simpa [h0] using h1
  · obtain ⟨n, hn⟩ := Nat.exists_eq_succ_of_ne_zero h0
    rw [if_neg h0, hn]
    refine ⟨?_, joined [' '] t.words ++ ' ' :: List.replicate n '*', '*', ?_, by decide⟩
    · simp only [List.mem_append, List.mem_cons, not_or]
      exact ⟨h1.1, by decide, fun h => by have := List.eq_of_mem_replicate h; exact absurd this (by decide)⟩
    · rw [List.replicate_succ']
      simp

theorem Firm.solid {s : List Char} (h : Firm s) (X : List Char) : (s.reverse ++ X).dropWhile blank = s.reverse ++ X := by
  obtain ⟨_, t, c, rfl, hc⟩ := h
  simp [hc]

theorem next_drop {t : Typ} (h : t.Ok) (X : List Char) : ((typeNext t).reverse ++ X).dropWhile blank = (typeText t).reverse ++ X := by
  unfold typeNext
  split
  · have := (type_firm h).solid X
    simpa [blank] using this
  · simpa using (type_firm h).solid X

theorem joined_flat {sep : List Char} (hs : '\n' ∉ sep) {ws : List (List Char)} (hw : ∀ w ∈ ws, '\n' ∉ w) : '\n' ∉ joined sep ws := by
  induction ws with
  | nil => simp [joined]
  | cons w ws ih =>
    have h1 := hw w (List.mem_cons_self ..)
    cases ws with
    | nil => exact h1
    | cons w' ws =>
      rw [joined]
      · simp only [List.mem_append, not_or]
        exact ⟨h1, hs, ih (fun x hx => hw x (List.mem_cons_of_mem _ hx))⟩
      · simp

theorem dims_flat {ds : List (Option (List Char))} (hd : ∀ d ∈ ds, ∀ x ∈ d, Word x) : '\n' ∉ dimsText ds := by
  induction ds with
  | nil => simp [dimsText]
  | cons d ds ih =>
    have ih := ih (fun x hx => hd x (List.mem_cons_of_mem _ hx))
    unfold dimsText
    simp only [List.mem_append, not_or]
    refine ⟨by simp, ?_, by simp, ih⟩
    cases d with
    | none => simp
    | some n => exact (hd _ (List.mem_cons_self ..) n rfl).2

theorem next_flat {t : Typ} (ht : t.Ok) : '\n' ∉ typeNext t := by
  unfold typeNext
  simp only [List.mem_append, not_or]
  exact ⟨(type_firm ht).1, by split <;> simp⟩

theorem param_flat {p : Param} (hp : p.Ok) : '\n' ∉ paramText p := by
  unfold paramText
  cases hn : p.name with
  | none => exact (type_firm hp.1).1
  | some x =>
    obtain ⟨n, ds⟩ := x
    obtain ⟨h1, h2⟩ := hp.2 n ds hn
    simp only [List.mem_append, not_or]
    exact ⟨next_flat hp.1, h1.2, dims_flat h2⟩

/-! ## Declarations -/

section
variable {lim : Nat} {tabs : Bool} {S : Style} {typ : List Tok → List Char} {o : Bool} {mx cur : Nat}

/-- The type, the white space and the stars. -/
theorem run_lead {a : Align} {stars : Nat} {ws : List (List Char)} (hn : ws ≠ []) (hw : ∀ w ∈ ws, Word w) {f : Spot}
    (h : Room lim (joined [' '] ws ++ (alignText a (strwidth (joined [' '] ws) f.col) ++ List.replicate stars '*')) f) :
    run lim tabs false o mx cur (typeDoc (some a) stars ws) f =
      some (f.put (joined [' '] ws ++ (alignText a (strwidth (joined [' '] ws) f.col) ++ List.replicate stars '*'))) := by
  induction ws generalizing f with
  | nil => exact absurd rfl hn
  | cons w ws ih =>
    have h1 := hw w (List.mem_cons_self ..)
    cases ws with
    | nil =>
      simp only [joined, typeDoc] at h ⊢
      have h2 := h.right
      have hz : (f.put w).nl = 0 := by unfold Spot.put; rw [if_neg h1.1]
      have e : (f.put w).col = strwidth w f.col := rfl
      rw [run_seq, run_group h, run_seq, lit, run_lit h.left h1.1, Option.bind_some, run, e,
        if_pos ⟨h2.edge, hz, h2.left.fits⟩, Option.bind_some]
      have e3 : (⟨(alignText a (strwidth w f.col)).reverse ++ (f.put w).txt, strwidth (alignText a (strwidth w f.col)) (strwidth w f.col), 0, .plain⟩ : Spot) =
          (f.put w).put (alignText a (strwidth w f.col)) := by
        have e5 : ((f.put w).put (alignText a (strwidth w f.col))).nl = 0 := by
          show (if _ then (f.put w).nl else 0) = 0
          rw [hz, ite_self]
        have e6 : ((f.put w).put (alignText a (strwidth w f.col))).edge = .plain := h2.edge
        rw [← e5, ← e6]
        rfl
      rw [e3, tells_stars stars lim tabs false o mx cur _ h2.right, put_put, put_put]
    | cons w' ws =>
      have ej : joined [' '] (w :: w' :: ws) = w ++ ([' '] ++ joined [' '] (w' :: ws)) := rfl
      rw [ej] at h ⊢
      have ec : strwidth (w ++ ([' '] ++ joined [' '] (w' :: ws))) f.col = strwidth (joined [' '] (w' :: ws)) (f.put (w ++ [' '])).col := by
        show _ = strwidth (joined [' '] (w' :: ws)) (strwidth (w ++ [' ']) f.col)
        rw [← strwidth_add, List.append_assoc]
      rw [ec] at h ⊢
      have e0 : ∀ X : List Char, w ++ ([' '] ++ joined [' '] (w' :: ws)) ++ X = (w ++ [' ']) ++ (joined [' '] (w' :: ws) ++ X) := by
        intro X; simp
      rw [e0] at h ⊢
      have h3 := (tells_group (says_seq (tells_lit h1).says says_line)) lim tabs false o mx cur f h.left
      have h4 := ih (by simp) (fun x hx => hw x (List.mem_cons_of_mem _ hx)) (f := f.put (w ++ [' '])) h.right
      rw [typeDoc, run_seq, h3, Option.bind_some, h4, put_put]
      simp

theorem says_vstars : ∀ n, Says (varStars n) (List.replicate n '*')
  | 0 => tells_nil.says
  | n + 1 => says_seq (s := ['*']) (tells_lit (by simp [Word])).says (says_vstars n)

theorem Fair.label' (hS : Fair S typ) : Mild S.label typ := hS.mild.set (by omega) (by omega) false
theorem Fair.expr' (hS : Fair S typ) : Mild S.expr typ := hS.mild.set hS.cont (by omega) false

/-- An expression with a text appended to it. -/
theorem says_exprK {C : Knfmt.ExprDoc.Conf} (hC : Mild C typ) (hl : C.line = false) {e : Ex} (hw : Words typ e) {k : Doc} {s : List Char} (hk : Says k s) :
    Says (exprK C e k) (say typ (spacing C) C.nextComma e ++ s) := by
  intro lim tabs o mx cur f h
  have e1 : gap C.line ++ say typ (spacing C) C.nextComma e = say typ (spacing C) C.nextComma e := by rw [hl]; rfl
  rw [run_exprK hC hw (by rw [e1]; exact h.left), e1, hk _ _ _ _ _ _ h.right, put_put]

theorem says_sizes (hS : Fair S typ) (tb : Bool) {ds : List (Option Ex)} (hd : ∀ d ∈ ds, ∀ e ∈ d, Words typ e) :
    Says (sizesDoc S ds) (sizesText (hand S tb typ) ds) := by
  induction ds with
  | nil => exact tells_nil.says
  | cons d ds ih =>
    have ih := ih (fun x hx => hd x (List.mem_cons_of_mem _ hx))
    have o1 : Says (lit ['[']) ['['] := (tells_lit (by simp [Word])).says
    have o2 : Says (lit [']']) [']'] := (tells_lit (by simp [Word])).says
    cases d with
    | none => simpa [sizesDoc, sizesText, optK, Hand.opt] using says_seq o1 (says_seq o2 ih)
    | some e =>
      have : Says (exprK S.label e (lit [']'])) ((hand S tb typ).expr e ++ [']']) :=
        says_exprK hS.label' rfl (hd _ (List.mem_cons_self ..) e rfl) o2
      have h3 := says_seq o1 (says_seq this ih)
      simpa [sizesDoc, sizesText, optK, Hand.opt] using h3

/-- What comes before an initial value. -/
theorem says_var (hS : Fair S typ) (tb : Bool) {x : Var} (hx : x.Ok typ) {v : Int} (hv : v < 2 ^ 27) {l : Doc} {s : List Char} (hl : Says l s) :
    Says (varDoc S v x .nil l) (varText (hand S tb typ) x ++ s) := by
  have h1 := says_vstars x.stars
  have h2 := (tells_lit hx.name).says
  have h3 := says_sizes hS tb hx.dims
  unfold varDoc varText
  cases hi : x.init with
  | none =>
    have := says_seq h1 (says_seq h2 (says_seq h3 (says_seq tells_nil.says hl)))
    simpa using this
  | some e =>
    have h4 : Says (.indent v (exprK S.expr e .nil)) ((hand S tb typ).expr e ++ []) := by
      intro lim tabs o mx cur f h
      rw [run_indent (small_bit hv)]
      exact says_exprK hS.expr' rfl (hx.init e hi) tells_nil.says lim tabs o mx cur f h
    have l1 : Says (lit [' ']) [' '] := (tells_lit (by simp [Word])).says
    have l2 : Says (lit ['=']) ['='] := (tells_lit (by simp [Word])).says
    have := says_seq h1 (says_seq h2 (says_seq h3 (says_seq l1 (says_seq l2 (says_seq l1 (says_seq h4 hl))))))
    simpa using this

/-- A variable and what comes after it, with other settings if it has an initial value. -/
theorem run_var (hS : Fair S typ) (tb : Bool) {x : Var} (hx : x.Ok typ) {v : Int} (hv : v < 2 ^ 27) (k : Doc) {f : Spot}
    (h : Room lim (varText (hand S tb typ) x) f) : ∃ o' mx', run lim tabs false o mx cur (varDoc S v x k .nil) f =
      run lim tabs false o' mx' cur k (f.put (varText (hand S tb typ) x)) := by
  have h1 := says_vstars x.stars
  have h2 := (tells_lit hx.name).says
  have h3 := says_sizes hS tb hx.dims
  have hz : ∀ (o : Bool) (mx : Nat) (k : Doc) (f : Spot), run lim tabs false o mx cur (.seq k .nil) f = run lim tabs false o mx cur k f := by
    intro o mx k f
    rw [run_seq]
    cases run lim tabs false o mx cur k f with
    | none => rfl
    | some g => rw [Option.bind_some, run]
  unfold varText at h ⊢
  unfold varDoc
  cases hi : x.init with
  | none =>
    rw [hi] at h
    refine ⟨o, mx, ?_⟩
    rw [run_seq, h1 _ _ _ _ _ _ h.left, Option.bind_some, run_seq, h2 _ _ _ _ _ _ h.right.left, Option.bind_some, run_seq,
      h3 _ _ _ _ _ _ h.right.right.left, Option.bind_some, hz, put_put, put_put]
    simp
  | some e =>
    rw [hi] at h
    have l1 : Says (lit [' ']) [' '] := (tells_lit (by simp [Word])).says
    have l2 : Says (lit ['=']) ['='] := (tells_lit (by simp [Word])).says
    have r1 := h.right.right.right
    have r1 : Room lim ([' '] ++ (['='] ++ ([' '] ++ (hand S tb typ).expr e))) _ := r1
    have e1 : gap S.expr.line ++ say typ (spacing S.expr) S.expr.nextComma e = (hand S tb typ).expr e := rfl
    refine ⟨true, 1, ?_⟩
    rw [run_seq, h1 _ _ _ _ _ _ h.left, Option.bind_some, run_seq, h2 _ _ _ _ _ _ h.right.left, Option.bind_some, run_seq,
      h3 _ _ _ _ _ _ h.right.right.left, Option.bind_some]
    dsimp only
    rw [run_seq, l1 _ _ _ _ _ _ r1.left, Option.bind_some, run_seq, l2 _ _ _ _ _ _ r1.right.left, Option.bind_some,
      run_seq, l1 _ _ _ _ _ _ r1.right.right.left, Option.bind_some, hz, run_indent (small_bit hv),
      run_exprK hS.expr' (hx.init e hi) (by rw [e1]; exact r1.right.right.right), e1]
    simp [put_put]

theorem dropIndent_mem {x : Var} {is : List Int} {v : Int} (h : v ∈ dropIndent x is) : v ∈ is := by
  unfold dropIndent at h
  split at h
  · exact List.mem_of_mem_tail h
  · exact h

theorem headD_small {is : List Int} (h : ∀ v ∈ is, v < 2 ^ 27) : is.headD 0 < 2 ^ 27 := by
  cases is with
  | nil => decide
  | cons v is => exact h v (List.mem_cons_self ..)

theorem says_comma : Says (.seq (lit [',']) .line) [',', ' '] := says_seq (s := [',']) (tells_lit (by simp [Word])).says says_line

theorem run_vars (hS : Fair S typ) (tb : Bool) (k : Doc) : ∀ {xs : List Var} {x : Var} {is : List Int} {f : Spot},
    (∀ y ∈ x :: xs, y.Ok typ) → (∀ v ∈ is, v < 2 ^ 27) → Room lim (joined [',', ' '] ((x :: xs).map (varText (hand S tb typ)))) f →
    ∃ o' mx', run lim tabs false o mx cur (varsDoc S k x xs is) f =
      run lim tabs false o' mx' cur k (f.put (joined [',', ' '] ((x :: xs).map (varText (hand S tb typ)))))
  | [], x, is, f, hx, hi, h => by
    obtain ⟨o', mx', e⟩ := run_var (lim := lim) (tabs := tabs) (o := o) (mx := mx) (cur := cur) hS tb (hx x (List.mem_cons_self ..)) (headD_small hi) k h
    exact ⟨o', mx', by rw [varsDoc, run_group h, run_seq, run_softline, Option.bind_some, run_group h, e]; rfl⟩
  | y :: ys, x, is, f, hx, hi, h => by
    have e0 : joined [',', ' '] ((x :: y :: ys).map (varText (hand S tb typ))) =
      (varText (hand S tb typ) x ++ [',', ' ']) ++ joined [',', ' '] ((y :: ys).map (varText (hand S tb typ))) := by
      simp [joined]
    rw [e0] at h ⊢
    have h1 := (tells_group (says_softline (tells_group (says_var hS tb (hx x (List.mem_cons_self ..)) (headD_small hi) says_comma)).says 0)).says
      lim tabs o mx cur f h.left
    obtain ⟨o', mx', e⟩ := run_vars hS tb k (xs := ys) (x := y) (is := dropIndent x is) (fun z hz => hx z (List.mem_cons_of_mem _ hz))
      (fun v hv => hi v (dropIndent_mem hv)) h.right
    exact ⟨o', mx', by rw [varsDoc, run_seq, h1, Option.bind_some, e, put_put]⟩

theorem run_inits (hS : Fair S typ) (tb : Bool) (k : Doc) {x : Var} {xs : List Var} {is : List Int} (hx : ∀ y ∈ x :: xs, y.Ok typ)
    (hi : ∀ v ∈ is, v < 2 ^ 27) {f : Spot} (h : Room lim (joined [',', ' '] ((x :: xs).map (varText (hand S tb typ)))) f) :
    ∃ o' mx', run lim tabs false o mx cur (initsDoc S k x xs is) f =
      run lim tabs false o' mx' cur k (f.put (joined [',', ' '] ((x :: xs).map (varText (hand S tb typ))))) := by
  have ht : ∀ v ∈ is.tail, v < 2 ^ 27 := fun v hv => hi v (List.mem_of_mem_tail hv)
  unfold initsDoc
  cases xs with
  | nil =>
    obtain ⟨o', mx', e⟩ := run_var (lim := lim) (tabs := tabs) (o := o) (mx := mx) (cur := cur) hS tb (hx x (List.mem_cons_self ..))
      (headD_small ht) k h
    exact ⟨o', mx', by rw [run_indent (small_bit (headD_small hi)), run_group h, e]; rfl⟩
  | cons y ys =>
    have e0 : joined [',', ' '] ((x :: y :: ys).map (varText (hand S tb typ))) =
      (varText (hand S tb typ) x ++ [',', ' ']) ++ joined [',', ' '] ((y :: ys).map (varText (hand S tb typ))) := by
      simp [joined]
    rw [e0] at h ⊢
    have h1 := (tells_group (says_var hS tb (hx x (List.mem_cons_self ..)) (headD_small ht) says_comma)).says lim tabs o mx cur f h.left
    obtain ⟨o', mx', e⟩ := run_vars (o := o) (mx := mx) (cur := cur) (lim := lim) (tabs := tabs) hS tb k (xs := ys) (x := y)
      (is := dropIndent x is.tail) (fun z hz => hx z (List.mem_cons_of_mem _ hz)) (fun v hv => ht v (dropIndent_mem hv)) h.right
    exact ⟨o', mx', by rw [run_indent (small_bit (headD_small hi)), run_seq, h1, Option.bind_some, e, put_put]⟩

/-! ## Prototypes -/

theorem run_seq_nil (k : Doc) (f : Spot) : run lim tabs false o mx cur (.seq k .nil) f = run lim tabs false o mx cur k f := by
  rw [run_seq]
  cases run lim tabs false o mx cur k f with
  | none => rfl
  | some g => rw [Option.bind_some, run]

theorem run_dims (k : Doc) {ds : List (Option (List Char))} (hd : ∀ d ∈ ds, ∀ x ∈ d, Word x) {f : Spot} (h : Room lim (dimsText ds) f) :
    run lim tabs false o mx cur (dimsDoc ds k) f = run lim tabs false o mx cur k (f.put (dimsText ds)) := by
  induction ds generalizing f with
  | nil => rfl
  | cons d ds ih =>
    have ih := @ih (fun x hx => hd x (List.mem_cons_of_mem _ hx))
    have o1 : Says (lit ['[']) ['['] := (tells_lit (by simp [Word])).says
    have o2 : Says (lit [']']) [']'] := (tells_lit (by simp [Word])).says
    cases d with
    | none =>
      have e : dimsText (none :: ds) = ['['] ++ ([']'] ++ dimsText ds) := rfl
      rw [e] at h ⊢
      rw [dimsDoc, run_seq, o1 _ _ _ _ _ _ h.left, Option.bind_some, run_seq, o2 _ _ _ _ _ _ h.right.left, Option.bind_some,
        ih h.right.right, put_put, put_put]
    | some n =>
      have hn := (tells_lit (hd _ (List.mem_cons_self ..) n rfl)).says
      have e : dimsText (some n :: ds) = ['['] ++ (n ++ ([']'] ++ dimsText ds)) := rfl
      rw [e] at h ⊢
      rw [dimsDoc, run_seq, o1 _ _ _ _ _ _ h.left, Option.bind_some, run_seq, hn _ _ _ _ _ _ h.right.left, Option.bind_some,
        run_seq, o2 _ _ _ _ _ _ h.right.right.left, Option.bind_some, ih h.right.right.right, put_put, put_put, put_put]

theorem run_param (k : Doc) {p : Param} (hp : p.Ok) {f : Spot} (h : Room lim (paramText p) f) :
    ∃ o' mx', run lim tabs false o mx cur (paramDoc p k) f = run lim tabs false o' mx' cur k (f.put (paramText p)) := by
  obtain ⟨⟨h1, h2⟩, h3⟩ := hp
  have ht := (tells_type h1 (fun w hw => (h2 w hw).word) p.typ.stars).says
  unfold paramDoc
  rw [run_group h, run_seq, run_softline, Option.bind_some, run]
  refine ⟨true, mx, ?_⟩
  rw [run_seq]
  unfold paramText at h ⊢
  cases hn : p.name with
  | none =>
    rw [hn] at h
    dsimp only at h ⊢
    have h0 : Room lim ([] : List Char) (f.put (typeText p.typ)) := by
      have := h
      rw [← List.append_nil (typeText p.typ)] at this
      exact this.right
    rw [ht _ _ _ _ _ _ h, Option.bind_some, run_group h0]
  | some x =>
    obtain ⟨n, ds⟩ := x
    obtain ⟨h4, h5⟩ := h3 n ds hn
    rw [hn] at h
    dsimp only at h ⊢
    have e : Says (if p.typ.stars = 0 then Doc.line else .nil) (if p.typ.stars = 0 then [' '] else []) := by
      split
      · exact says_line
      · exact tells_nil.says
    have e2 : typeNext p.typ = typeText p.typ ++ (if p.typ.stars = 0 then [' '] else []) := rfl
    rw [e2, List.append_assoc] at h ⊢
    have hl := (tells_lit h4).says
    rw [ht _ _ _ _ _ _ h.left, Option.bind_some, run_group h.right, run_seq, e _ _ _ _ _ _ h.right.left, Option.bind_some, run_seq,
      hl _ _ _ _ _ _ h.right.right.left, Option.bind_some, run_dims k h5 h.right.right.right, put_put, put_put, put_put]

theorem run_params (k : Doc) : ∀ {ps : List Param} {f : Spot}, ps ≠ [] → (∀ p ∈ ps, p.Ok) →
    Room lim (joined [',', ' '] (ps.map paramText)) f → ∃ o' mx', run lim tabs false o mx cur (paramsDoc k ps) f =
      run lim tabs false o' mx' cur k (f.put (joined [',', ' '] (ps.map paramText)))
  | [], _, h, _, _ => absurd rfl h
  | [p], f, _, hp, h => run_param k (hp p (List.mem_cons_self ..)) h
  | p :: q :: ps, f, _, hp, h => by
    have e0 : joined [',', ' '] ((p :: q :: ps).map paramText) = (paramText p ++ [',', ' ']) ++ joined [',', ' '] ((q :: ps).map paramText) := by
      simp [joined]
    rw [e0] at h ⊢
    have h1 := (tells_param (hp p (List.mem_cons_self ..)) says_comma).says lim tabs o mx cur f h.left
    obtain ⟨o', mx', e⟩ := run_params k (ps := q :: ps) (by simp) (fun z hz => hp z (List.mem_cons_of_mem _ hz)) h.right
    refine ⟨o', mx', ?_⟩
    show run lim tabs false o mx cur (.seq (paramDoc p (.seq (lit [',']) .line)) (paramsDoc k (q :: ps))) f = _
    rw [run_seq, h1, Option.bind_some, e, put_put]

/-- The name and the arguments of a prototype, and what comes after them. -/
theorem run_args (hS : Fair S typ) (k : Doc) {n : List Char} {ps : List Param} (hn : Word n) (hp : ∀ p ∈ ps, p.Ok) {f : Spot}
    (h : Room lim (n ++ (['('] ++ joined [',', ' '] (ps.map paramText))) f) :
    ∃ o' mx', run lim tabs false o mx cur (argsDoc S n ps k) f =
      run lim tabs false o' mx' cur k (f.put (n ++ (['('] ++ joined [',', ' '] (ps.map paramText)))) := by
  have hct : (S.cont : Int) < 2 ^ 27 := by
    have := hS.cont
    omega
  have l1 := (tells_lit hn).says
  have l2 : Says (lit ['(']) ['('] := (tells_lit (by simp [Word])).says
  unfold argsDoc
  rw [run_group h, run_seq, l1 _ _ _ _ _ _ h.left, Option.bind_some, run_seq, l2 _ _ _ _ _ _ h.right.left, Option.bind_some]
  cases ps with
  | nil =>
    refine ⟨o, mx, ?_⟩
    rw [run_seq, run_indent (small_bit hct), paramsDoc, run_nil, Option.bind_some, put_put]
    rfl
  | cons p ps =>
    obtain ⟨o', mx', e⟩ := run_params (lim := lim) (tabs := tabs) (o := o) (mx := mx) (cur := cur) k (ps := p :: ps) (by simp) hp h.right.right
    refine ⟨o', mx', ?_⟩
    show run lim tabs false o mx cur (.seq (.indent S.cont (paramsDoc k (p :: ps))) .nil) _ = _
    rw [run_seq_nil, run_indent (small_bit hct), e, put_put, put_put]

/-- What comes after the type. -/
theorem run_tail (hS : Fair S typ) (tb : Bool) (k : Doc) {t : Tail} {is : List Int} (ht : t.Ok typ)
    (hi : ∀ v ∈ is, v < 2 ^ 27) {f : Spot} (h : Room lim (tailText (hand S tb typ) t) f) :
    ∃ o' mx', run lim tabs false o mx cur (tailDoc S k is t) f = run lim tabs false o' mx' cur k (f.put (tailText (hand S tb typ) t)) := by
  cases t with
  | vars x ys => exact run_inits hS tb k ht hi h
  | bare => exact ⟨o, mx, by rw [tailDoc, tailText, put_nil]⟩
  | args n ps =>
    have e0 : tailText (hand S tb typ) (.args n ps) = (n ++ (['('] ++ joined [',', ' '] (ps.map paramText))) ++ [')'] := by
      simp [tailText]
    rw [e0] at h ⊢
    obtain ⟨o', mx', e⟩ := run_args (lim := lim) (tabs := tabs) (o := o) (mx := mx) (cur := cur) hS (.seq (lit [')']) k) ht.1 ht.2 h.left
    have l1 : Says (lit [')']) [')'] := (tells_lit (by simp [Word])).says
    refine ⟨o', mx', ?_⟩
    rw [tailDoc, e, run_seq, l1 _ _ _ _ _ _ h.right, Option.bind_some, put_put]

/-- The type of a declaration, with or without an entry of the ruler. -/
theorem run_front {a : Option Align} {d : Decl} (hn : d.words ≠ []) (hw : ∀ w ∈ d.words, Word w) (ha : a = none → d.stars = 0) {f : Spot}
    (h : Room lim (leadText (gapAt f.col a d) d) f) :
    run lim tabs false o mx cur (typeDoc a d.stars d.words) f = some (f.put (leadText (gapAt f.col a d) d)) := by
  cases a with
  | some a => exact run_lead hn hw h
  | none =>
    have hs := ha rfl
    have e : leadText (gapAt f.col none d) d = typeText ⟨d.words, d.stars⟩ := by
      unfold leadText gapAt typeText
      simp [hs]
    rw [e] at h ⊢
    exact tells_type hn hw d.stars lim tabs false o mx cur f h

/-- A declaration. -/
theorem run_decl (hS : Fair S typ) (tb : Bool) {d : Decl} {a : Option Align} {is : List Int} (hd : d.Ok typ) (ha : a = none → d.stars = 0)
    (hi : ∀ v ∈ is, v < 2 ^ 27) (nx : Next) {f : Spot}
    (h : Room lim (declText (hand S tb typ) (gapAt f.col a d) d) f) :
    ∃ g, run lim tabs true false 2 cur (declDoc S nx a is d) f = some g ∧
      Ends g ((declText (hand S tb typ) (gapAt f.col a d) d).reverse ++ f.txt)
        (strwidth (declText (hand S tb typ) (gapAt f.col a d) d) f.col) (trimSemi nx d.aft) := by
  unfold declText at h ⊢
  have e1 := run_front (tabs := tabs) (o := false) (mx := 2) (cur := cur) hd.some hd.words ha h.left
  obtain ⟨o', mx', e2⟩ := run_tail (tabs := tabs) (o := false) (mx := 2) (cur := cur) hS tb (semiDoc (trimSemi nx d.aft)) hd.tail hi h.right.left
  have e3 := (tells_lit (s := [';']) (by simp [Word])).says lim tabs o' mx' cur _ h.right.right
  obtain ⟨g, e4, k4, _⟩ := run_after (lim := lim) (tabs := tabs) (f := Spot.put [';'] (Spot.put (tailText (hand S tb typ) d.tail)
    (f.put (leadText (gapAt f.col a d) d)))) h.edge (by unfold Spot.put; simp)
    (by show ([';'].reverse ++ _).dropWhile blank = _; exact solid_cons (by decide) _) false o' mx' cur (trimSemi nx d.aft)
  rw [put_put, put_put] at k4
  refine ⟨g, by rw [declDoc, run_group h, run_seq, e1, Option.bind_some, e2, semiDoc, run_seq, e3, Option.bind_some, e4], k4⟩

theorem Decl.entry_none {d : Decl} (as : List Align) (h : d.entry as = none) : d.stars = 0 := by
  unfold Decl.entry at h
  split at h
  · cases h
  · rename_i hr
    unfold Decl.ruled at hr
    split at hr
    · simpa using hr
    · exact absurd rfl hr

/-! ## Blocks -/

theorem sizes_flat (tb : Bool) {ds : List (Option Ex)} (hd : ∀ d ∈ ds, ∀ e ∈ d, Words typ e) : '\n' ∉ sizesText (hand S tb typ) ds := by
  induction ds with
  | nil => simp [sizesText]
  | cons d ds ih =>
    have ih := ih (fun x hx => hd x (List.mem_cons_of_mem _ hx))
    unfold sizesText
    simp only [List.mem_append, not_or]
    exact ⟨by simp, opt_line (hd d (List.mem_cons_self ..)), by simp, ih⟩

theorem var_flat (tb : Bool) {x : Var} (hx : x.Ok typ) : '\n' ∉ varText (hand S tb typ) x := by
  unfold varText
  simp only [List.mem_append, not_or]
  refine ⟨by simp, hx.name.2, sizes_flat tb hx.dims, ?_⟩
  cases hi : x.init with
  | none => simp
  | some e =>
    have : '\n' ∉ (hand S tb typ).expr e := words_line _ _ (hx.init e hi)
    simpa using this

theorem tail_flat (tb : Bool) {t : Tail} (ht : t.Ok typ) : '\n' ∉ tailText (hand S tb typ) t := by
  cases t with
  | vars x ys =>
    refine joined_flat (by simp) (fun w hw => ?_)
    obtain ⟨x, h, rfl⟩ := List.mem_map.mp hw
    exact var_flat tb (ht x h)
  | args n ps =>
    unfold tailText
    simp only [List.mem_append, not_or]
    refine ⟨ht.1.2, by simp, joined_flat (by simp) (fun w hw => ?_), by simp⟩
    obtain ⟨p, h, rfl⟩ := List.mem_map.mp hw
    exact param_flat (ht.2 p h)
  | bare => simp [tailText]

theorem decl_flat (tb : Bool) {d : Decl} (hd : d.Ok typ) (c : Nat) (a : Option Align) : '\n' ∉ declText (hand S tb typ) (gapAt c a d) d := by
  unfold declText leadText
  simp only [List.mem_append, not_or]
  refine ⟨⟨joined_flat (by simp) (fun w hw => (hd.words w hw).2), by
      cases a with
      | none => simp [gapAt]
      | some a => exact Knfmt.Doc.alignText_line _ _, by simp⟩,
    tail_flat tb hd.tail, by simp⟩

/-- The declarations of a block at depth `n`. -/
theorem run_decls (hS : Fair S typ) (tb : Bool) (n : Nat) (nx : Next) : ∀ {ds : List Decl} {as : List Align} {is : List Int} {f : Spot},
    ds ≠ [] → (∀ d ∈ ds, d.Ok typ) → (∀ d ∈ ds.dropLast, d.aft ≠ .blank) → (∀ v ∈ is, v < 2 ^ 27) →
    Within lim (n * S.width) (joined ((hand S tabs typ).nl n) (List.zipWith (declText (hand S tb typ)) (gapsAt (n * S.width) as ds) ds)) →
    f.edge = .plain → f.col = n * S.width → ∃ g, run lim tabs true false 2 (n * S.width) (declsDoc S nx as is ds) f = some g ∧
      Ends g ((joined ((hand S tabs typ).nl n) (List.zipWith (declText (hand S tb typ)) (gapsAt (n * S.width) as ds) ds)).reverse ++ f.txt)
        (strwidth (joined ((hand S tabs typ).nl n) (List.zipWith (declText (hand S tb typ)) (gapsAt (n * S.width) as ds) ds)) f.col) (trimSemi nx (lastAft ds))
  | [], _, _, _, h, _, _, _, _, _, _ => absurd rfl h
  | [d], as, is, f, _, hd, _, hi, hw, hp, hc => by
    have h1 := hd d (List.mem_cons_self ..)
    have := run_decl (lim := lim) (tabs := tabs) (cur := n * S.width) (a := d.entry as) hS tb h1 (Decl.entry_none as) hi nx (f := f)
      (room (t := []) (by rw [hc, List.append_nil]; exact hw) (decl_flat tb h1 _ _) hp)
    rw [hc] at this ⊢
    exact this
  | d :: d2 :: ds, as, is, f, _, hd, hb, hi, hw, hp, hc => by
    have h1 := hd d (List.mem_cons_self ..)
    have e0 : joined ((hand S tabs typ).nl n) (List.zipWith (declText (hand S tb typ)) (gapsAt (n * S.width) as (d :: d2 :: ds)) (d :: d2 :: ds)) =
      declText (hand S tb typ) (gapAt (n * S.width) (d.entry as) d) d ++ ((hand S tabs typ).nl n ++
        joined ((hand S tabs typ).nl n) (List.zipWith (declText (hand S tb typ)) (gapsAt (n * S.width) (d.rest as) (d2 :: ds)) (d2 :: ds))) := rfl
    rw [e0] at hw ⊢
    obtain ⟨g, e1, k1⟩ := run_decl (lim := lim) (tabs := tabs) (cur := n * S.width) (a := d.entry as) hS tb h1 (Decl.entry_none as) hi .other (f := f)
      (room (by rw [hc]; exact hw) (decl_flat tb h1 _ _) hp)
    rw [hc] at k1
    obtain ⟨g2, e2, p2, t2, c2⟩ := run_feed (lim := lim) (tabs := tabs) (S := S) (typ := typ) k1 n
    have hb1 : emptyLine (trimSemi .other d.aft) = [] := by
      have := hb d (by simp)
      show emptyLine d.aft = []
      cases ha : d.aft <;> simp_all [emptyLine]
    rw [hb1, List.nil_append] at t2 c2
    rw [nl_col] at c2
    obtain ⟨g3, e3, k3⟩ := run_decls hS tb n nx (ds := d2 :: ds) (as := d.rest as) (is := is.drop d.requests.length) (f := g2) (by simp)
      (fun x hx => hd x (List.mem_cons_of_mem _ hx)) (fun x hx => hb x (by simp [hx])) (fun v hv => hi v (List.mem_of_mem_drop hv))
      (by have := (within_append (within_append hw).2).2; rw [nl_col] at this; exact this) p2 c2
    refine ⟨g3, ?_, ?_⟩
    · show run lim tabs true false 2 _ (.seq (declDoc S .other (d.entry as) is d) (.seq .hardline (declsDoc S nx (d.rest as) (is.drop d.requests.length) (d2 :: ds)))) f = _
      rw [run_seq, e1, Option.bind_some, run_seq, e2, Option.bind_some, e3]
    · have e4 : lastAft (d :: d2 :: ds) = lastAft (d2 :: ds) := rfl
      rw [e4]
      refine Ends.of k3 ?_ ?_ rfl
      · rw [t2]; simp
      · rw [c2, strwidth_add, strwidth_add, nl_col]

end

end Knfmt.Layout
