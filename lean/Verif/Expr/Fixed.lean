import Verif.Expr.Stable
import Verif.Lexer.Alone
/-! # Formatting an expression twice (C86): the theorem -/
namespace Knfmt.ExprDoc
open Knfmt.Lexer (TT)
open Knfmt.Spec (IsToken Spelled gapsOf gapChar)
open Knfmt.Doc (Doc docExec render TextOk)
open Knfmt.Doc.Spec (Item items texts)
open Knfmt.Expr

/-! ## A source on one line -/

/-- Tokens with their positions. -/
def numbered (l : List (List Char × TT)) : List Tok := l.zipIdx.map fun x => ⟨x.2, x.1.2, x.1.1⟩

/-- The suffixes of tokens, given whether white space comes after them. -/
def spaces (l : List Bool) : List (List Suf) := l.map fun b => if b then [Suf.space] else []

theorem gapsOf_length (text : List Char) (ts : List (List Char)) : (gapsOf text ts).length = ts.length + 1 := by
  induction ts generalizing text with
  | nil => rfl
  | cons s ts ih => rw [gapsOf, List.length_cons, ih, List.length_cons]

theorem scan_line (cx : Knfmt.Lexer.Ctx) {src : List Char} (hn : '\n' ∉ src) {l : List (List Char × TT)}
    (h : Spelled src l) : ∃ lnos, scan cx src = some (numbered l, ⟨spaces (gapsOf src (l.map (·.1))).dropLast, lnos⟩) := by
  obtain ⟨r1, r2⟩ := Knfmt.Lexer.read_back src cx l h
  have r3 := Knfmt.Lexer.read_gaps src cx hn l h
  unfold scan
  generalize (Knfmt.Lexer.tokenizeLoop src cx Knfmt.Lexer.init).2 = T at r1 r2 r3
  have hall : T.dropLast.all (fun t => t.prefixes = [] && t.suffixes.all fun u => u.type = .space) = true := by
    rw [List.all_eq_true]
    intro t ht
    obtain ⟨a, b⟩ := r2 t (List.dropLast_subset _ ht)
    simp only [a, decide_true, Bool.true_and, List.all_eq_true, decide_eq_true_eq]
    exact b
  dsimp only
  rw [if_pos hall]
  refine ⟨T.dropLast.map fun x => x.tok.lno, ?_⟩
  congr 1
  have e1 : T.dropLast.map (fun t => (t.tok.str.text src, t.tok.type)) = l.map (fun x => (some x.1, x.2)) := by
    rw [List.map_dropLast, r1, List.dropLast_concat]
  have e2 : T.dropLast.zipIdx.map (fun x => (⟨x.2, x.1.tok.type, (x.1.tok.str.text src).getD []⟩ : Tok)) = numbered l := by
    have : T.dropLast.zipIdx.map (fun x => (⟨x.2, x.1.tok.type, (x.1.tok.str.text src).getD []⟩ : Tok)) =
        (T.dropLast.map (fun t => (t.tok.str.text src, t.tok.type))).zipIdx.map
          (fun x => ⟨x.2, x.1.2, x.1.1.getD []⟩) := by
      rw [List.zipIdx_map, List.map_map]; rfl
    rw [this, e1, List.zipIdx_map, List.map_map]
    rfl
  have e3 : T.dropLast.map (fun x => x.suffixes.filterMap sufOf) = spaces (gapsOf src (l.map (·.1))).dropLast := by
    rw [← List.map_dropLast] at r3
    have hT : ∀ t ∈ T.dropLast, ∀ u ∈ t.suffixes, u.type = .space := fun t ht => (r2 t (List.dropLast_subset _ ht)).2
    generalize T.dropLast = D at r3 hT
    generalize (gapsOf src (l.map (·.1))).dropLast = B at r3
    unfold spaces
    induction D generalizing B with
    | nil =>
      cases B with
      | nil => rfl
      | cons b B => simp at r3
    | cons t D ih =>
      cases B with
      | nil => simp at r3
      | cons b B =>
        simp only [List.map_cons, List.cons.injEq] at r3 ⊢
        refine ⟨?_, ih (fun t ht => hT t (List.mem_cons_of_mem _ ht)) B r3.2⟩
        have r4 := r3.1
        have hu := hT t (List.mem_cons_self ..)
        cases b with
        | false =>
          simp only [Bool.false_eq_true, if_false, List.map_eq_nil_iff] at r4
          rw [r4]; rfl
        | true =>
          simp only [if_true, List.map_eq_cons_iff, List.map_eq_nil_iff] at r4
          obtain ⟨u, r, e, e1, e2⟩ := r4
          subst e2
          rw [e] at hu ⊢
          have : sufOf u = some .space := by
            unfold sufOf
            rw [if_neg (by simp [hu u (by simp)]), if_pos e1]
          simp [this]
  rw [e2, e3]

/-- Only spaces come after the tokens. -/
def Tab.Line (t : Tab) : Prop := ∀ l ∈ t.sufs, ∀ s ∈ l, s = Suf.space

theorem Tab.Line.at {t : Tab} (h : t.Line) (i : Nat) : ∀ s ∈ t.at i, s = Suf.space := by
  unfold Tab.at
  rw [List.getD_eq_getElem?_getD]
  cases hx : t.sufs[i]? with
  | none => intro s hs; cases hs
  | some l => exact h l (List.mem_of_getElem? hx)

theorem Tab.Line.hasLine {t : Tab} (h : t.Line) (i : Nat) : t.hasLine i = false := by
  unfold Tab.hasLine
  rw [List.any_eq_false]
  intro s hs
  simp [h.at i s hs]

theorem Tab.Line.trim {t : Tab} (h : t.Line) (i : Nat) : t.trim i = t := by
  unfold Tab.trim
  have : (t.at i).map Suf.trim = t.at i := by
    conv => rhs; rw [← List.map_id (t.at i)]
    apply List.map_congr_left
    intro s hs
    rw [h.at i s hs]; rfl
  rw [this]
  have : t.sufs.set i (t.at i) = t.sufs := by
    apply List.ext_getElem?
    intro j
    rw [List.getElem?_set]
    split
    · next e =>
      subst e
      split
      · next hl => unfold Tab.at; rw [List.getD_eq_getElem?_getD, List.getElem?_eq_getElem hl]; rfl
      · next hl => rw [List.getElem?_eq_none (by omega)]
    · rfl
  rw [this]

theorem Tab.Line.trimPrev {t : Tab} (h : t.Line) (r : Option Tok) : t.trimPrev r = t := by
  cases r with
  | none => rfl
  | some r => exact h.trim _

theorem Tab.Line.nextLine {t : Tab} (h : t.Line) (i : Nat) : t.nextLine i = t := by
  rw [Tab.nextLine, if_neg (by rw [h.hasLine]; decide)]

theorem Tab.Line.prevLine {t : Tab} (h : t.Line) (i : Nat) : t.prevLine i = t := by
  rw [Tab.prevLine, if_neg (by rw [h.hasLine]; simp)]

/-- Nothing is moved. -/
theorem moves_line (C : Conf) {t : Tab} (h : t.Line) (e : Ex) (b : Bool) : moves C e b t = t := by
  induction e generalizing b with
  | null | lit _ | recov _ => rfl
  | un _ e ih | pre _ e ih | post e _ ih | cast _ _ _ e ih | sizeofE _ e ih | sizeofP _ _ e _ ih | concat e _ ih => exact ih false
  | bin l op r ih1 ih2 =>
    have : (if op.ty = .comma || assignFlag op.ty then t
      else if C.breakBinary then t.nextLine op.id else t.prevLine op.id) = t := by
      rw [h.nextLine, h.prevLine]; split <;> simp
    rw [moves]
    simp only [this, ih1, ih2]
  | tern c q m co x ih1 ih2 ih3 =>
    cases co <;> simp only [moves, h.nextLine, h.prevLine, ite_self, ih1, ih2, ih3]
  | parens l e r ih => rw [moves]; simp only [h.trimPrev, ite_self, ih]
  | call f l a r ih1 ih2 => rw [moves]; simp only [ih1, h.trimPrev, ite_self, ih2]
  | squares f l i r ih1 ih2 => rw [moves]; simp only [ih1, ih2]
  | field l op r ih1 ih2 => rw [moves]; simp only [ih1, h.trim, ih2]

theorem sufDoc_line (tk : Tok) (l : List Suf) (h : ∀ s ∈ l, s = Suf.space) : sufDoc tk l = .nil := by
  induction l with
  | nil => rfl
  | cons s l ih =>
    rw [h s (List.mem_cons_self ..), sufDoc]
    exact ih fun x hx => h x (List.mem_cons_of_mem _ hx)

theorem spaces_line (l : List Bool) (lnos : List Nat) : Tab.Line ⟨spaces l, lnos⟩ := by
  intro x hx s hs
  obtain ⟨b, _, rfl⟩ := List.mem_map.1 hx
  cases b
  · cases hs
  · simpa using hs

theorem spaces_hasSpaces (l : List Bool) (lnos : List Nat) (i : Nat) :
    Tab.hasSpaces ⟨spaces l, lnos⟩ i = l.getD i false := by
  unfold Tab.hasSpaces Tab.at spaces
  rw [List.getD_eq_getElem?_getD, List.getElem?_map, List.getD_eq_getElem?_getD]
  cases l[i]? with
  | none => rfl
  | some b => cases b <;> rfl

theorem numbered_at {l : List (List Char × TT)} {i : Nat} {t : Tok} (h : (numbered l)[i]? = some t) :
    t.id = i ∧ l[i]? = some (t.str, t.ty) := by
  unfold numbered at h
  rw [List.getElem?_map, List.getElem?_zipIdx, Option.map_map, Option.map_eq_some_iff] at h
  obtain ⟨x, h1, h2⟩ := h
  rw [← h2]
  exact ⟨by simp, by rw [h1]; rfl⟩

theorem numbered_split {l : List (List Char × TT)} {x y : List Tok} {t : Tok} (h : numbered l = x ++ t :: y) :
    t.id = x.length ∧ l[x.length]? = some (t.str, t.ty) :=
  numbered_at (by rw [h]; simp)

theorem numbered_bare (l : List (List Char × TT)) : (numbered l).map (fun t => (t.str, t.ty)) = l := by
  unfold numbered
  rw [List.map_map]
  have : (fun x : (List Char × TT) × Nat => ((⟨x.2, x.1.2, x.1.1⟩ : Tok).str, (⟨x.2, x.1.2, x.1.1⟩ : Tok).ty)) = Prod.fst := by
    funext x; rfl
  show l.zipIdx.map (fun x => _) = l
  exact (congrArg (fun f => l.zipIdx.map f) this).trans (List.zipIdx_map_fst 0 l)

/-- The style, and what is required of the documents of the callbacks. -/
structure Conf.Usual (C : Conf) : Prop where
  hardline : C.hardline = false
  columns : C.columns = false
  indent : C.indent < 2 ^ 29
  align : C.align < 2 ^ 29
  recDoc : ∀ ts, Neat (C.recDoc ts)
  recTame : ∀ ts, Knfmt.Doc.Tame (C.recDoc ts)
  recSame : ∀ ts ts', ts'.map bareT = ts.map bareT → items (C.recDoc ts') = items (C.recDoc ts)

section
variable (C : Conf) (e : Ex) (l : List (List Char × TT)) (G : List Bool) (lnos : List Nat)

/-- The white space after a token. -/
def spAt (G : List Bool) (t : Tok) : Bool := G.getD t.id false

theorem known_suffix (t : Tok) : (known C e (numbered l) ⟨spaces G, lnos⟩).suffix t = .nil := by
  show sufDoc t ((moves C e true ⟨spaces G, lnos⟩).at t.id) = .nil
  rw [moves_line C (spaces_line G lnos)]
  exact sufDoc_line t _ ((spaces_line G lnos).at t.id)

theorem known_spaced (t : Tok) : (known C e (numbered l) ⟨spaces G, lnos⟩).spaced t =
    (G.getD t.id false || G.getD (t.id - 1) false) := by
  show ((moves C e true ⟨spaces G, lnos⟩).hasSpaces t.id || (moves C e true ⟨spaces G, lnos⟩).hasSpaces (t.id - 1)) = _
  rw [moves_line C (spaces_line G lnos), spaces_hasSpaces, spaces_hasSpaces]

theorem known_tidy (hC : C.Usual) : (known C e (numbered l) ⟨spaces G, lnos⟩).Tidy :=
  ⟨known_suffix C e l G lnos, hC.hardline, hC.columns, hC.indent, hC.align, hC.recDoc⟩

theorem known_ok (hC : C.Usual) : (known C e (numbered l) ⟨spaces G, lnos⟩).Ok :=
  ⟨fun t => Or.inl (known_suffix C e l G lnos t), hC.recTame, fun ts => Knfmt.Doc.plain_uniform _ (hC.recDoc ts).1⟩

theorem known_near (he : yield e = numbered l) : Near (known C e (numbered l) ⟨spaces G, lnos⟩) (spAt G) e := by
  apply trip_bin
  rw [he]
  intro x y a op b h
  obtain ⟨h1, _⟩ := numbered_split (x := x) (t := a) h
  obtain ⟨h2, _⟩ := numbered_split (x := x ++ [a]) (t := op) (y := b :: y) (by rw [h]; simp)
  simp only [List.length_append, List.length_singleton] at h2
  refine ⟨?_, ?_⟩
  · rw [known_spaced, spAt, spAt, h2, h1]; rfl
  · show decide (((numbered l)[op.id + 1]?.map (·.ty)) = some .comma) = _
    have : (numbered l)[op.id + 1]? = some b := by
      rw [h, h2, List.getElem?_append_right (by omega)]
      rw [show x.length + 1 + 1 - x.length = 2 by omega]; rfl
    rw [this]; simp

end

/-- White space comes between `/` and `*`. -/
theorem slash_gap {src : List Char} {l : List (List Char × TT)} (h : Spelled src l) {x y : List (List Char × TT)}
    {a b : List Char × TT} (e : l = x ++ a :: b :: y) (ha : a.1 = ['/']) (hb : b.1 = ['*']) :
    (gapsOf src (l.map (·.1)))[x.length]? = some true := by
  induction h generalizing x with
  | nil => cases x <;> cases e
  | cons g s rest ty ts hg ht hs ih =>
    have hblank : (s ++ rest).head?.any Knfmt.Spec.blank = false := by
      obtain ⟨c, t, e, hc, _⟩ := ht.first
      rw [e]; exact hc
    cases x with
    | cons z x =>
      simp only [List.cons_append, List.cons.injEq] at e
      obtain ⟨rfl, e⟩ := e
      rw [List.map_cons, gapsOf, Knfmt.Lexer.dropWhile_gap hg hblank, List.drop_left, List.length_cons, List.getElem?_cons_succ]
      exact ih e
    | nil =>
      simp only [List.nil_append, List.cons.injEq] at e
      obtain ⟨rfl, e⟩ := e
      rw [List.map_cons, gapsOf, Knfmt.Lexer.dropWhile_gap hg hblank, List.drop_left]
      simp only [List.length_nil, List.getElem?_cons_zero, Option.some.injEq]
      subst e
      cases hs with
      | cons g' s' rest' ty' ts' hg' ht' hs' =>
        cases g' with
        | cons c g' => simp [hg' c (List.mem_cons_self ..)]
        | nil =>
          exfalso
          simp only at ha hb
          subst ha hb
          exact ht.noBlock ⟨rest', rfl⟩

theorem clean_of {sp : Tok → Bool} {e : Ex} (h : Clean (fun _ => true) e)
    (hb : AllBin (fun _ op r => op.ty = .slash → sp op = false → ∀ t, (yield r).head? = some t → t.ty ≠ .star) e) :
    Clean sp e := by
  induction e <;> simp_all [Clean, AllBin]

/-! ## The second time -/

/-- No `sizeof` without parentheses. -/
def noSizeofE : Ex → Bool
  | .null | .lit _ | .recov _ => true
  | .un _ e | .pre _ e | .post e _ | .parens _ e _ | .cast _ _ _ e | .sizeofP _ _ e _ | .concat e _ => noSizeofE e
  | .sizeofE _ _ => false
  | .bin l _ r => noSizeofE l && noSizeofE r
  | .tern c _ m _ t => noSizeofE c && noSizeofE m && noSizeofE t
  | .call f _ a _ | .squares f _ a _ | .field f _ a => noSizeofE f && noSizeofE a

theorem noSizeofE_sizeofs (e : Ex) : noSizeofE (sizeofs e) = true := by
  induction e <;> simp_all [noSizeofE, sizeofs]

theorem noSizeofE_bare (e : Ex) : noSizeofE (bare e) = noSizeofE e := by
  induction e <;> simp_all [noSizeofE, bare]

theorem sizeofs_id {e : Ex} (h : noSizeofE e = true) : sizeofs e = e := by
  induction e <;> simp_all [noSizeofE, sizeofs]

/-- Parentheses around everything. -/
def isParens : Ex → Bool
  | .parens _ _ _ => true
  | _ => false

theorem isParens_bare (e : Ex) : isParens (bare e) = isParens e := by cases e <;> rfl
theorem isParens_sizeofs (e : Ex) : isParens (sizeofs e) = isParens e := by cases e <;> rfl
theorem unparen_id {e : Ex} (h : isParens e = false) : unparen e = e := by
  cases e <;> first | rfl | exact absurd h (by simp [isParens])

theorem simplified_twice {a b : Bool} {e e2 : Ex} (hb : bare e2 = bare (simplified a b e))
    (hp : a = true → isParens (unparen e) = false) : simplified a b e2 = e2 := by
  have h1 : a = true → isParens e2 = false := by
    intro ha
    rw [← isParens_bare, hb, isParens_bare, simplified, if_pos ha]
    split
    · rw [isParens_sizeofs]; exact hp ha
    · exact hp ha
  have h2 : b = true → noSizeofE e2 = true := by
    intro hb'
    rw [← noSizeofE_bare, hb, noSizeofE_bare, simplified, if_pos hb']
    exact noSizeofE_sizeofs _
  unfold simplified
  cases a <;> cases b <;> simp only [Bool.false_eq_true, if_true, if_false]
  · exact sizeofs_id (h2 rfl)
  · exact unparen_id (h1 rfl)
  · rw [unparen_id (h1 rfl)]; exact sizeofs_id (h2 rfl)

theorem gram_simplified {Ty : List Tok → Prop} {name : Tok → Prop} {e : Ex} (a b : Bool) (h : Gram Ty name 1 e)
    (hS : Simple e) : Gram Ty name 1 (simplified a b e) ∧ Simple (simplified a b e) := by
  unfold simplified
  have h1 : Gram Ty name 1 (if a then unparen e else e) ∧ Simple (if a then unparen e else e) := by
    split
    · exact ⟨gram_unparen h h, simple_unparen hS⟩
    · exact ⟨h, hS⟩
  dsimp only
  split
  · exact ⟨gram_sizeofs h1.1, simple_sizeofs h1.2⟩
  · exact h1

/-- The white space before the expression. -/
def lead (C : Conf) : List Item := if C.line then [.sep] else []

theorem exprDoc_lead {C : Conf} (hC : C.Ok) (hh : C.hardline = false) {e : Ex} (ht : ∀ t ∈ yield e, TextOk t.str) :
    items (exprDoc C e) = lead C ++ eitems C e true := by
  have h := edoc_items hC e { root := true } .nil ht
  have h0 : items (edoc C e { root := true } .nil) = eitems C e true := by rw [h]; simp [items]
  unfold exprDoc lead
  simp only [items, hh]
  have ind : ∀ d, items (if C.align > 0 then .indent C.align d else if C.indent > 0 then .indent C.indent d else d) =
      items d := by
    intro d
    split
    · rfl
    · split <;> rfl
  rw [ind]
  cases C.softline <;> cases C.line <;>
    simp only [items, h0, if_true, if_false, Bool.false_eq_true] <;> rfl

theorem exprDoc_fits (env : Knfmt.Doc.Env) (hd : env.diff = none) {C : Conf} {e : Ex} (h : Neat (exprDoc C e))
    (hw : Knfmt.Spec.column 0 (Knfmt.Doc.Spec.flat (exprDoc C e) 0) ≤ env.limit) :
    (docExec env false [] (exprDoc C e)).buf.reverse = Knfmt.Doc.Spec.flat (exprDoc C e) 0 := by
  have e0 : docExec env false [] (exprDoc C e) = Knfmt.Doc.exec env (exprDoc C e) {} := by
    simp [docExec, Knfmt.Doc.diffExit, hd]
  rw [e0]
  have key : ∀ d, Neat (.maxlines 1 (.scope (.group d))) → Knfmt.Spec.column 0 (Knfmt.Doc.Spec.flat d 0) ≤ env.limit →
      (Knfmt.Doc.exec env (.maxlines 1 (.scope (.group d))) {}).buf.reverse = Knfmt.Doc.Spec.flat d 0 := by
    intro d hn hw
    have := Knfmt.Doc.group_flat env hd 2 (by decide) d hn.1 { maxlines := 1, statLines := 0 } rfl rfl ⟨rfl, by simp⟩ hw
    have e1 : (Knfmt.Doc.exec env (.maxlines 1 (.scope (.group d))) {}).buf =
        (Knfmt.Doc.exec env (.group d) { maxlines := 1, statLines := 0 }).buf := by
      simp only [Knfmt.Doc.exec]
    rw [e1, this.1]; simp
  exact key _ h hw

theorem spelled_mem {src : List Char} {l : List (List Char × TT)} (h : Spelled src l) {x : List Char × TT} (hx : x ∈ l)
    {c : Char} (hc : c ∈ x.1) : c ∈ src := by
  induction h with
  | nil => cases hx
  | cons b s rest ty ts _ _ _ ih =>
    simp only [List.mem_append]
    rcases List.mem_cons.1 hx with rfl | hx
    · exact Or.inr (Or.inl hc)
    · exact Or.inr (Or.inr (ih hx))

theorem spelled_token {src : List Char} {l : List (List Char × TT)} (h : Spelled src l) {x : List Char × TT} (hx : x ∈ l)
    (hk : x.2 ≠ .kNone) : IsToken x.1 x.2 := by
  induction h with
  | nil => cases hx
  | cons b s rest ty ts _ ht _ ih =>
    rcases List.mem_cons.1 hx with rfl | hx
    · exact Knfmt.Lexer.isToken_of_at ht hk
    · exact ih hx

theorem mem_numbered {l : List (List Char × TT)} {t : Tok} (h : t ∈ numbered l) : (t.str, t.ty) ∈ l := by
  obtain ⟨i, hi⟩ := List.mem_iff_getElem?.1 h
  exact List.mem_of_getElem? (numbered_at hi).2

/-- The first time: what the tree of the source is, and what is printed. -/
theorem first_time {E : Env} {cx : Knfmt.Lexer.Ctx} {C : Conf} {env : Knfmt.Doc.Env}
    {Ty : List Tok → Prop} {name : Tok → Prop} (hT : Types E Ty name)
    (hstop : E.stop = none) {src : List Char} {l : List (List Char × TT)} (hs : Spelled src l) (hn : '\n' ∉ src)
    {e : Ex} (he : yield e = numbered l) (h : Gram Ty name 1 e) (hS : Simple e) :
    ∃ lnos, format E cx C env src =
      if (docExec env false [] (exprDoc (known C e (numbered l) ⟨spaces (gapsOf src (l.map (·.1))).dropLast, lnos⟩) e)).ub = false then
        some (docExec env false [] (exprDoc (known C e (numbered l) ⟨spaces (gapsOf src (l.map (·.1))).dropLast, lnos⟩) e)).buf.reverse
      else none := by
  obtain ⟨lnos, hsc⟩ := scan_line cx hn hs
  have hpa := parse_yield_partial hT h hS (by intro t _; rw [hstop]; simp) [] [] (by simp)
  rw [he, List.append_nil, List.append_nil] at hpa
  refine ⟨lnos, ?_⟩
  unfold format
  rw [hsc]
  simp only [hpa]
  simp

theorem near_last {Ty : List Tok → Prop} {e : Ex} {sp : Tok → Bool} (h : Shaped Ty e)
    (hb : AllBin (fun l op r => ∀ a b, (yield l).getLast? = some a → (yield r).head? = some b →
      op.ty = .slash → b.ty = .star → sp op = true) e) :
    AllBin (fun _ op r => op.ty = .slash → sp op = false → ∀ t, (yield r).head? = some t → t.ty ≠ .star) e := by
  have key : ∀ l op r, Shaped Ty l → (∀ a b, (yield l).getLast? = some a → (yield r).head? = some b →
      op.ty = .slash → b.ty = .star → sp op = true) →
      op.ty = .slash → sp op = false → ∀ t, (yield r).head? = some t → t.ty ≠ .star := by
    intro l op r hl h h1 h2 t ht h3
    obtain ⟨a, ha⟩ := shaped_last hl
    rw [h a t ha ht h1 h3] at h2
    cases h2
  induction h with
  | lit _ => trivial
  | strings _ _ ih | parens _ _ _ ih | post _ _ ih | pre _ _ ih | un _ _ ih | sizeofE _ _ ih | sizeofP _ _ _ _ ih
  | cast _ _ _ _ ih => exact ih hb
  | sizeofT _ _ _ _ => trivial
  | call0 _ _ _ ih => exact ⟨ih hb.1, trivial⟩
  | call _ _ _ _ ih ih2 | squares _ _ _ _ ih ih2 => exact ⟨ih hb.1, ih2 hb.2⟩
  | field _ _ _ ih => exact ⟨ih hb.1, trivial⟩
  | bin _ h1 h2 ih ih2 | assign _ h1 h2 ih ih2 | comma _ h1 h2 ih ih2 =>
    exact ⟨key _ _ _ h1 hb.1, ih hb.2.1, ih2 hb.2.2⟩
  | tern _ _ _ _ _ ih ih2 ih3 => exact ⟨ih hb.1, ih2 hb.2.1, ih3 hb.2.2⟩

theorem flagged_after {l : List (List Char × TT)} {ts : List Tok} {L : List Item} (hts : ts = numbered l) :
    Flagged (spAt (after L)) ts L := by
  intro a s b ts1 t ts2 h1 h2 _ h3
  obtain ⟨i, _⟩ := numbered_split (hts.symm.trans h2)
  rw [spAt, i, ← h3, h1, List.getD_eq_getElem?_getD, after_at]
  rfl

/-- The second time, for a tree printed with the items `L`. -/
theorem second_time (E : Env) (cx : Knfmt.Lexer.Ctx) (C : Conf) (hC : C.Usual) (env : Knfmt.Doc.Env) (hd : env.diff = none)
    {Ty : List Tok → Prop} {name : Tok → Prop} (hT : Types E Ty name) (hP : Positionless Ty name)
    (hstop : E.stop = none) {C1 : Conf} (hs1 : C1.simpleSizeof = false) (hty : Printed C1 Ty)
    (hrec : ∀ ts, C1.recDoc ts = C.recDoc ts) {e : Ex} (h : Gram Ty name 1 e) (hS : Simple e) (hcl : Clean C1.spaced e)
    (ht : Toks (yield e)) (hc1 : Commas C1 e)
    (hsimp : ∀ e2, bare e2 = bare e → simplified C.simpleParens C.simpleSizeof e2 = e2) {out : List Char}
    (hsp : Spelled out ((yield e).map fun t => (t.str, t.ty))) (ho : '\n' ∉ out)
    (hw : Knfmt.Spec.column 0 out ≤ env.limit) (hout : out = render (lead C ++ eitems C1 e false)) :
    format E cx C env out = some out := by
  generalize hl : (yield e).map (fun t => (t.str, t.ty)) = l at hsp
  -- the tree read
  obtain ⟨e2, y2, b2, g2⟩ := gram_move hP h (numbered l) (map_bareT (by
    have := numbered_bare l
    rw [← hl] at this ⊢
    have := congrArg (List.map fun x : List Char × TT => (some x.1, x.2)) this
    rw [List.map_map, List.map_map] at this
    exact this))
  have hS2 : Simple e2 := by rw [← simple_bare, b2, simple_bare]; exact hS
  obtain ⟨lnos, e1⟩ := first_time (cx := cx) (C := C) (env := env) hT hstop hsp ho y2 g2 hS2
  -- the white space found
  have Ed := shaped_edge hs1 hty (gram_shaped h) hcl ht
  have hG : (gapsOf out (l.map (·.1))).dropLast = after (eitems C1 e false) := by
    have htx : l.map (·.1) = texts (lead C ++ eitems C1 e false) := by
      rw [Knfmt.Doc.texts_append, Ed.text, ← hl, List.map_map]
      unfold lead
      split <;> rfl
    have hal : after (lead C ++ eitems C1 e false) = after (eitems C1 e false) := by
      unfold lead
      split <;> rfl
    rw [htx, hout, gapsOf_render, List.dropLast_concat, hal]
    intro s hs
    rw [← htx, ← hl, List.map_map] at hs
    obtain ⟨t, h1, h2⟩ := List.mem_map.1 hs
    rw [← h2]
    exact Knfmt.Doc.token_text (ht t h1)
  rw [hG] at e1
  have hnear := known_near C e2 l (after (eitems C1 e false)) lnos y2
  have hok := known_ok C e2 l (after (eitems C1 e false)) lnos hC
  have htidy := known_tidy C e2 l (after (eitems C1 e false)) lnos hC
  have hs2 : Shaped Ty e2 := gram_shaped g2
  have hc2 := near_commas (C := known C e2 (numbered l) ⟨spaces (after (eitems C1 e false)), lnos⟩) hC.columns hs2 hnear
  have hfl : Flagged (spAt (after (eitems C1 e false))) (yield e2) (eitems C1 e false) := flagged_after y2
  -- what is printed
  have hstr : ∀ t ∈ yield e2, (t.str, t.ty) ∈ l := by
    intro t ht
    rw [y2] at ht
    exact mem_numbered ht
  have hto : ∀ t ∈ yield e2, TextOk t.str := by
    intro t h2
    have := hstr t h2
    rw [← hl] at this
    obtain ⟨t', h3, h4⟩ := List.mem_map.1 this
    injection h4 with h4 _
    rw [← h4]
    exact Knfmt.Doc.token_text (ht t' h3)
  have hneat := exprDoc_neat htidy (fun t h2 hc => ho (spelled_mem hsp (hstr t h2) hc))
  have hitems : items (exprDoc (known C e2 (numbered l) ⟨spaces (after (eitems C1 e false)), lnos⟩) e2) =
      lead C ++ eitems C1 e false := by
    rw [exprDoc_lead hok hC.hardline hto, eitems_simplified]
    have : simplified (known C e2 (numbered l) ⟨spaces (after (eitems C1 e false)), lnos⟩).simpleParens
        (known C e2 (numbered l) ⟨spaces (after (eitems C1 e false)), lnos⟩).simpleSizeof e2 = e2 := hsimp e2 b2
    rw [this]
    have := same_items (C1 := C1) (C2 := (known C e2 (numbered l) ⟨spaces (after (eitems C1 e false)), lnos⟩).plain)
      hs1 rfl (fun ts ts' hb => by rw [hrec]; exact hC.recSame ts ts' hb) hty (spAt (after (eitems C1 e false)))
      (gram_shaped h) hcl ht hc1 e2 b2 hfl hnear hc2
    rw [this]
    rfl
  have hflat := Knfmt.Doc.flat_items _ hneat.1 hneat.2.2 0
  rw [hitems, ← hout] at hflat
  have hfin := exprDoc_fits env hd hneat (by rw [hflat]; exact hw)
  rw [hflat] at hfin
  have hub := Knfmt.Doc.doc_exec_ok env hd false []
    (exprDoc (known C e2 (numbered l) ⟨spaces (after (eitems C1 e false)), lnos⟩) e2) 2 (by decide)
    (Knfmt.Doc.plain_uniform _ hneat.1)
  rw [e1, if_pos hub, hfin]

/-- **C86** `C86_partial`: an expression that has been printed on one line, within the limit, is not changed when it is
formatted again. Missing are sources of several lines and with comments, outputs of several lines, for which it is
false, and the parentheses around everything written twice, of which one pair is removed each time. -/
theorem C86_partial (E : Env) (cx : Knfmt.Lexer.Ctx) (C : Conf) (hC : C.Usual) (env : Knfmt.Doc.Env) (hd : env.diff = none)
    {Ty : List Tok → Prop} {name : Tok → Prop} (hT : Types E Ty name) (hP : Positionless Ty name) (hty : Printed C Ty)
    (hstop : E.stop = none) (src out : List Char) (l : List (List Char × TT)) (hs : Spelled src l) (hn : '\n' ∉ src)
    (hk : ∀ x ∈ l, x.2 ≠ .kNone) {e : Ex} (he : yield e = numbered l) (h : Gram Ty name 1 e) (hS : Simple e)
    (hcl : Clean (fun _ => true) e) (hp : C.simpleParens = true → isParens (unparen e) = false)
    (hf : format E cx C env src = some out) (ho : '\n' ∉ out) (hw : Knfmt.Spec.column 0 out ≤ env.limit) :
    format E cx C env out = some out := by
  -- the first time
  obtain ⟨lnos, e1⟩ := first_time (cx := cx) (C := C) (env := env) hT hstop hs hn he h hS
  have htoks : Toks (yield e) := by
    intro t ht
    rw [he] at ht
    exact spelled_token hs (mem_numbered ht) (hk _ (mem_numbered ht))
  have hnl : ∀ t ∈ yield e, '\n' ∉ t.str := by
    intro t ht hc
    rw [he] at ht
    exact hn (spelled_mem hs (mem_numbered ht) hc)
  generalize hGe : (gapsOf src (l.map (·.1))).dropLast = G at e1
  have hcl1 : Clean (known C e (numbered l) ⟨spaces G, lnos⟩).spaced e := by
    have tr : Trip (fun _ op b => op.ty = .slash → b.ty = .star →
        (known C e (numbered l) ⟨spaces G, lnos⟩).spaced op = true) (yield e) := by
      rw [he]
      intro x y a op b hx h1 h2
      obtain ⟨i1, j1⟩ := numbered_split (x := x ++ [a]) (t := op) (y := b :: y) (by rw [hx]; simp)
      obtain ⟨i2, j2⟩ := numbered_split (x := x ++ [a, op]) (t := b) (y := y) (by rw [hx]; simp)
      have hop : op ∈ numbered l := by rw [hx]; simp
      have hbm : b ∈ numbered l := by rw [hx]; simp
      have s1 := str_of (htoks op (by rw [he]; exact hop)) h1 (x := ['/']) rfl
      have s2 := str_of (htoks b (by rw [he]; exact hbm)) h2 (x := ['*']) rfl
      have hl := numbered_bare l
      rw [hx, List.map_append] at hl
      have hg := slash_gap hs (x := (x ++ [a]).map (fun t => (t.str, t.ty))) (y := y.map fun t => (t.str, t.ty))
        (a := (op.str, op.ty)) (b := (b.str, b.ty)) (by rw [← hl]; simp) s1 s2
      rw [known_spaced, ← hGe, i1, List.getD_eq_getElem?_getD, List.getElem?_dropLast, if_pos]
      · rw [List.length_map] at hg
        rw [hg]; rfl
      · rw [gapsOf_length, List.length_map, ← hl]; simp
    refine clean_of hcl ?_
    exact near_last (gram_shaped h) (trip_bin e tr)
  obtain ⟨hub, hsp, hsh, hcl', ht'⟩ := expr_spelled env hd _ (known_ok C e l G lnos hC) Ty hty e (gram_shaped h) hcl1 htoks
  rw [if_pos hub] at e1
  rw [e1] at hf
  injection hf with hf
  rw [hf] at hsp
  have hneat := exprDoc_neat (known_tidy C e l G lnos hC) hnl
  have hout := Knfmt.Doc.docExec_line env hd (by decide) _ hneat.1 hneat.2.1 (by rw [hf]; exact ho)
  rw [hf, Knfmt.Doc.flat_items _ hneat.1 hneat.2.2, exprDoc_lead (known_ok C e l G lnos hC) hC.hardline
    (fun t ht => Knfmt.Doc.token_text (htoks t ht)), eitems_simplified] at hout
  have hc1 := commas_simplified C.simpleParens C.simpleSizeof
    (near_commas (C := known C e (numbered l) ⟨spaces G, lnos⟩) hC.columns (gram_shaped h) (known_near C e l G lnos he))
  obtain ⟨g1, g2⟩ := gram_simplified C.simpleParens C.simpleSizeof h hS
  exact second_time E cx C hC env hd hT hP hstop (C1 := (known C e (numbered l) ⟨spaces G, lnos⟩).plain) rfl hty
    (fun _ => rfl) g1 g2 hcl' ht' hc1 (fun e2 hb => simplified_twice hb hp) hsp ho hw hout

/-! ## Examples and counterexamples -/

/-- A style that writes parentheses after `sizeof`, and `int` for type names. -/
def plainStyle : Conf := { indent := 4, simpleSizeof := true, recDoc := fun _ => lit ['i', 'n', 't'] }

theorem plainStyle_usual : plainStyle.Usual where
  hardline := rfl
  columns := rfl
  indent := by decide
  align := by decide
  recDoc := fun _ => neat_lit (by decide)
  recTame := fun _ => Or.inr textOk_int
  recSame := fun _ _ _ => rfl

theorem plainStyle_printed : Printed plainStyle IntT := by
  rintro ts ⟨t, rfl, _, h⟩
  have e : items (plainStyle.recDoc [t]) = [.text ['i', 'n', 't']] := rfl
  rw [e]
  exact ⟨by simp [texts_text, texts_nil, h], apart_one _⟩

/-- No spaces around the token 7, the `*`. -/
def sourceStyle : Conf := { spaced := fun t => t.id ≠ 7, recDoc := fun _ => lit ['i', 'n', 't'] }

/-- The tokens of the example. -/
def sampleL : List (List Char × TT) := (yield sampleT).map fun t => (t.str, t.ty)

def sampleSrc : List Char := "x = (int)-a*b + sizeof c << 0x2, f(\"a\" \"b\")[i]".toList
def sampleOut : List Char := "x = (int)-a*b + sizeof(c) << 0x2, f(\"a\" \"b\")[i]".toList

theorem sample_spelled : Spelled sampleSrc sampleL := by
  have h := (expr_spelled {} rfl sourceStyle
    ⟨fun _ => Or.inl rfl, fun _ => Or.inr textOk_int, fun _ => trivial⟩ IntT
    (by
      rintro ts ⟨t, rfl, _, h⟩
      have e : items (sourceStyle.recDoc [t]) = [.text ['i', 'n', 't']] := rfl
      rw [e]
      exact ⟨by simp [texts_text, texts_nil, h], apart_one _⟩)
    sampleT (gram_shaped sampleT_gram) (by simp [sampleT, Clean, yield, Merges]) sampleT_toks).2.1
  have e : (docExec {} false [] (exprDoc sourceStyle sampleT)).buf.reverse = sampleSrc := by decide +kernel
  rw [e] at h
  exact h

/-- Parentheses are written the first time, and nothing is changed the second time. -/
example : format ints ctx plainStyle {} sampleSrc = some sampleOut ∧ format ints ctx plainStyle {} sampleOut = some sampleOut := by
  have h1 : format ints ctx plainStyle {} sampleSrc = some sampleOut := by decide +kernel
  refine ⟨h1, C86_partial ints ctx plainStyle plainStyle_usual {} rfl intT_types intT_positionless plainStyle_printed rfl
    sampleSrc sampleOut sampleL sample_spelled (by decide) (by decide) (e := sampleT) (by decide +kernel) sampleT_gram
    (by simp [sampleT, Simple, leftPost, leftStrings, postfixed, yield]) (by simp [sampleT, Clean, yield, Merges])
    (by simp [plainStyle]) h1 (by decide) (by decide +kernel)⟩

/-- **A line break of the source moves**: broken before and after a question mark, the expression is given back with the
question mark at the end of the line before. -/
theorem ternary_twice : format ints ctx { indent := 4 } { limit := 8 } "f(dddd ? a : b, ccccc)".toList =
      some "f(dddd\n    ?\n    a :\n    b,\n    ccccc)".toList ∧
    format ints ctx { indent := 4 } { limit := 8 } "f(dddd\n    ?\n    a :\n    b,\n    ccccc)".toList =
      some "f(dddd ?\n    a :\n    b,\n    ccccc)".toList := by
  decide +kernel

/-- **Arguments are indented once more**: with arguments aligned after the parenthesis, the line breaks made the first
time turn the alignment off the second time. -/
theorem align_twice : format ints ctx { indent := 4, alignBracket := true } { limit := 8 } "f(f(ccccc))".toList =
      some "f(\n  f(\n    ccccc))".toList ∧
    format ints ctx { indent := 4, alignBracket := true } { limit := 8 } "f(\n  f(\n    ccccc))".toList =
      some "f(\n    f(\n\tccccc))".toList := by
  decide +kernel

/-- **One pair of parentheses is removed each time.** -/
theorem parens_twice : format ints ctx { indent := 4, simpleParens := true } {} "((a))".toList = some "(a)".toList ∧
    format ints ctx { indent := 4, simpleParens := true } {} "(a)".toList = some "a".toList := by
  decide +kernel

/-- **C86 is false**: formatting what has been printed may change it again. -/
theorem C86_statement_false : ¬ C86_statement := by
  intro h
  have h1 := h ints ctx { indent := 4 } { limit := 8 } _ _ ternary_twice.1
  rw [ternary_twice.2] at h1
  exact absurd h1 (by decide)

end Knfmt.ExprDoc
