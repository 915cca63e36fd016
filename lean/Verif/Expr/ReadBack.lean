import Verif.Expr.Doc
import Verif.Expr.Gram
import Verif.Doc.Sep
/-!
# The formatted expression reads back as the same tokens (C77)
-/
namespace Knfmt.ExprDoc
open Knfmt.Lexer (TT)
open Knfmt.Expr (Tok Ex yield)
open Knfmt.Doc (Doc Tame TextOk)
open Knfmt.Doc.Spec (Uniform Item items texts Apart)

/-- Is there no white space after this comma, expr.c:1000-1023? -/
def noSep (C : Conf) (op : Tok) : Bool :=
  if C.columns then decide ((C.ruler op).indent + (C.ruler op).spaces = 0) else C.nextComma op

/-- The items of an expression: its tokens and the places where there has to be white space. -/
def eitems (C : Conf) : Ex → Bool → List Item
  | .null, _ => []
  | .lit t, _ => [.text t.str]
  | .un op e, _ => .text op.str :: eitems C e false
  | .pre op e, _ => .text op.str :: eitems C e false
  | .post e op, _ => eitems C e false ++ [.text op.str]
  | .bin l op r, _ =>
    if op.ty = .comma then
      eitems C l false ++ (.text op.str :: ((if noSep C op then [] else [.sep]) ++ eitems C r false))
    else if assignFlag op.ty || hasSpaces C op then
      eitems C l false ++ (.sep :: .text op.str :: .sep :: eitems C r false)
    else eitems C l false ++ (.text op.str :: eitems C r false)
  | .tern c q m co t, _ =>
    eitems C c false ++ (.sep :: .text q.str ::
      ((if isNull m then [] else .sep :: (eitems C m false ++ [.sep])) ++
        (co.toList.map (fun t => .text t.str) ++ (.sep :: eitems C t false))))
  | .parens l e r, root =>
    if root && C.simpleParens then eitems C e false
    else .text l.str :: (eitems C e false ++ r.toList.map (fun t => .text t.str))
  | .call f l a r, _ => eitems C f false ++ (.text l.str :: (eitems C a false ++ r.toList.map (fun t => .text t.str)))
  | .squares f l i r, _ => eitems C f false ++ (.text l.str :: (eitems C i false ++ r.toList.map (fun t => .text t.str)))
  | .field l op r, _ => eitems C l false ++ (.text op.str :: eitems C r false)
  | .cast l ts r e, _ =>
    .text l.str :: (items (C.recDoc ts) ++ (r.toList.map (fun t => .text t.str) ++ eitems C e false))
  | .sizeofE tk e, _ =>
    .text tk.str :: ((if C.simpleSizeof then .text ['('] else .sep) :: (eitems C e false ++
      (if C.simpleSizeof then [.text [')']] else [])))
  | .sizeofP tk l e r, _ => .text tk.str :: .text l.str :: (eitems C e false ++ r.toList.map (fun t => .text t.str))
  | .concat e t, _ => eitems C e false ++ [.sep, .text t.str]
  | .recov ts, _ => items (C.recDoc ts)

/-- What is required of the parameters: nothing but new lines after a token, no comments in the
documents of the callbacks. -/
structure Conf.Ok (C : Conf) : Prop where
  suffix : ∀ t, C.suffix t = .nil ∨ C.suffix t = .optline ∨ ∃ u, C.suffix t = .verbatim ['\n'] u
  recTame : ∀ ts, Tame (C.recDoc ts)
  recUniform : ∀ ts, Uniform 2 (C.recDoc ts)

/-- What is kept while a document is put together. -/
def Good (d : Doc) : Prop := Tame d ∧ Uniform 2 d

theorem good_nil : Good .nil := ⟨trivial, trivial⟩
theorem good_line : Good .line := ⟨trivial, trivial⟩
theorem good_seq {a b : Doc} (ha : Good a) (hb : Good b) : Good (.seq a b) := ⟨⟨ha.1, hb.1⟩, ⟨ha.2, hb.2⟩⟩
theorem good_group {a : Doc} (ha : Good a) : Good (.group a) := ha
theorem good_indent {n : Int} {a : Doc} (ha : Good a) : Good (.indent n a) := ha
theorem good_soft (n : Int) : Good (.softline n) := ⟨trivial, trivial⟩

theorem textOk_ne {s : List Char} (h : TextOk s) : s ≠ [' '] := by
  rintro rfl
  obtain ⟨⟨c, t, e, hc⟩, _⟩ := h
  injection e with e1 e2
  rw [← e1] at hc
  exact absurd hc (by decide)

theorem good_lit {s : List Char} (h : s = [' '] ∨ TextOk s) : Good (lit s) := ⟨h, trivial⟩

theorem good_space : Good (lit [' ']) := good_lit (Or.inl rfl)

section
variable {C : Conf} (hC : C.Ok)
include hC

theorem good_tok {t : Tok} (h : TextOk t.str) : Good (tok C t) := by
  refine good_seq ⟨Or.inr h, trivial⟩ ?_
  rcases hC.suffix t with h | h | ⟨u, h⟩ <;> rw [h]
  · exact good_nil
  · exact ⟨trivial, trivial⟩
  · exact ⟨rfl, trivial⟩

theorem items_tok {t : Tok} (h : TextOk t.str) : items (tok C t) = [.text t.str] := by
  have hs : items (C.suffix t) = [] := by
    rcases hC.suffix t with h | h | ⟨u, h⟩ <;> rw [h] <;> rfl
  simp [tok, items, hs, textOk_ne h]

theorem good_optTok {t : Option Tok} (h : ∀ x ∈ t.toList, TextOk x.str) : Good (optTok C t) := by
  cases t with
  | none => exact good_nil
  | some t => exact good_tok hC (h t (by simp))

theorem items_optTok {t : Option Tok} (h : ∀ x ∈ t.toList, TextOk x.str) :
    items (optTok C t) = t.toList.map (fun t => .text t.str) := by
  cases t with
  | none => rfl
  | some t => exact items_tok hC (h t (by simp))

end

theorem good_kk {c : Ctx} {k : Doc} (h : Good k) : Good (kk c k) := by
  unfold kk
  split
  · exact good_seq good_line h
  · exact h

theorem items_kk (c : Ctx) (k : Doc) : items (kk c k) = (if c.chain then [.sep] else []) ++ items k := by
  unfold kk
  split <;> rfl

theorem good_align {b : Bool} {id n : Nat} {d : Doc} (h : Good d) : Good (alignD b id n d) := by
  refine ⟨h.1, ?_, h.2⟩
  split <;> rfl

theorem good_alignIf {b : Bool} {id : Nat} {d : Doc} (h : Good d) : Good (alignIf b id d) := by
  unfold alignIf
  split
  · exact good_align h
  · exact h

theorem items_alignIf (b : Bool) (id : Nat) (d : Doc) : items (alignIf b id d) = items d := by
  unfold alignIf
  split <;> rfl

theorem good_softD {C : Conf} {w : Int} {f : Doc → Doc} {k : Doc} (h : Good (f k)) : Good (soft C w f k) := by
  unfold soft
  split
  · exact h
  · split
    · exact h
    · exact good_seq (good_soft w) h

theorem items_soft (C : Conf) (w : Int) (f : Doc → Doc) (k : Doc) : items (soft C w f k) = items (f k) := by
  unfold soft
  split
  · rfl
  · split <;> rfl

theorem good_softIf {b : Bool} {C : Conf} {w : Int} {f : Doc → Doc} {k : Doc} (h : Good (f k)) :
    Good (softIf b C w f k) := by
  unfold softIf
  split
  · exact good_softD h
  · exact h

theorem items_softIf (b : Bool) (C : Conf) (w : Int) (f : Doc → Doc) (k : Doc) :
    items (softIf b C w f k) = items (f k) := by
  unfold softIf
  split
  · exact items_soft C w f k
  · rfl

theorem good_alignAssign {C : Conf} {op : Tok} {d : Doc} (h : Good d) : Good (alignAssign C op d) := by
  unfold alignAssign
  split
  · exact good_align h
  · exact h

theorem items_alignAssign (C : Conf) (op : Tok) (d : Doc) : items (alignAssign C op d) = items d := by
  unfold alignAssign
  split <;> rfl

theorem good_recover {C : Conf} (hC : C.Ok) {ts : List Tok} {k : Doc} (h : Good k) : Good (recover C ts k) := by
  have hr : Good (.seq (C.recDoc ts) k) := good_seq ⟨hC.recTame ts, hC.recUniform ts⟩ h
  unfold recover
  split
  · split
    · exact good_align hr
    · exact hr
  · exact hr

theorem items_recover (C : Conf) (ts : List Tok) (k : Doc) :
    items (recover C ts k) = items (C.recDoc ts) ++ items k := by
  unfold recover
  split
  · split <;> rfl
  · rfl

theorem good_indentParens {C : Conf} {c : Ctx} {d : Doc} (h : Good d) : Good (indentParens C c d) := by
  unfold indentParens
  split
  · exact h
  · split <;> exact h

theorem items_indentParens (C : Conf) (c : Ctx) (d : Doc) : items (indentParens C c d) = items d := by
  unfold indentParens
  split
  · rfl
  · split <;> rfl

theorem good_alignArgs {C : Conf} {c : Ctx} {l : Tok} {d : Doc} (h : Good d) : Good (alignArgs C c l d) := by
  unfold alignArgs
  split
  · exact good_align h
  · exact h

theorem items_alignArgs (C : Conf) (c : Ctx) (l : Tok) (d : Doc) : items (alignArgs C c l d) = items d := by
  unfold alignArgs
  split <;> rfl

theorem isNull_eq {e : Ex} (h : isNull e = true) : e = .null := by
  cases e <;> first | rfl | exact absurd h (by simp [isNull])

/-- The documents of expressions have no comments, and the printer does not fail for them. -/
theorem edoc_good {C : Conf} (hC : C.Ok) (e : Ex) : ∀ (c : Ctx) (k : Doc), (∀ t ∈ yield e, TextOk t.str) → Good k →
    Good (edoc C e c k) := by
  induction e with
  | null => intro c k _ hk; exact good_kk hk
  | lit t => intro c k ht hk; exact good_seq (good_tok hC (ht t (by simp [yield]))) (good_kk hk)
  | un op e ih =>
    intro c k ht hk
    exact good_seq (good_tok hC (ht op (by simp [yield])))
      (ih _ _ (fun t h => ht t (by simp [yield, h])) (good_kk hk))
  | pre op e ih =>
    intro c k ht hk
    exact good_seq (good_tok hC (ht op (by simp [yield])))
      (good_seq (ih _ _ (fun t h => ht t (by simp [yield, h])) good_nil) (good_kk hk))
  | post e op ih =>
    intro c k ht hk
    exact good_seq (ih _ _ (fun t h => ht t (by simp [yield, h])) good_nil)
      (good_seq (good_tok hC (ht op (by simp [yield]))) (good_kk hk))
  | bin l op r ih1 ih2 =>
    intro c k ht hk
    have hop := good_tok hC (ht op (by simp [yield]))
    have h1 := fun c k => ih1 c k (fun t h => ht t (by simp [yield, h]))
    have h2 := fun c k => ih2 c k (fun t h => ht t (by simp [yield, h]))
    have hsp : Good (if hasSpaces C op then lit [' '] else .nil) := by
      split
      · exact good_space
      · exact good_nil
    have hli : Good (if hasSpaces C op then .line else .nil) := by
      split
      · exact good_line
      · exact good_nil
    unfold edoc
    apply good_group
    split
    · refine good_seq (h1 _ _ (good_seq hop ?_)) ?_
      · split
        · exact ⟨trivial, trivial⟩
        · split
          · exact good_nil
          · exact good_line
      · split
        · exact good_kk hk
        · exact good_softD (h2 _ _ (good_kk hk))
    · split
      · refine good_seq (h1 _ _ (good_seq good_space (good_seq hop good_space))) ?_
        split
        · exact good_kk hk
        · exact good_alignAssign (good_softIf (h2 _ _ (good_kk hk)))
      · split
        · exact good_alignIf (good_seq (h1 _ _ hli)
            (good_seq (good_soft 0) (good_seq hop (good_seq hsp (h2 _ _ (good_kk hk))))))
        · refine good_alignIf (good_seq (h1 _ _ (good_seq hsp hop)) (good_seq hli ?_))
          split
          · exact good_kk hk
          · exact good_softD (h2 _ _ (good_kk hk))
  | tern cd q m co t ih1 ih2 ih3 =>
    intro c k ht hk
    have hq := good_tok hC (ht q (by simp [yield]))
    have hco := good_optTok hC (t := co) (fun x hx => ht x (by simp only [yield, List.mem_append, List.mem_cons]; exact Or.inr (Or.inr (Or.inr (Or.inl hx)))))
    have h1 := fun c k => ih1 c k (fun t h => ht t (by simp [yield, h]))
    have h2 := fun c k => ih2 c k (fun t h => ht t (by simp [yield, h]))
    have h3 := fun c k => ih3 c k (fun t h => ht t (by simp [yield, h]))
    unfold edoc
    apply good_group
    split
    · refine good_seq (h1 _ _ good_line) (good_alignIf (good_seq
        (good_seq (good_soft 0) (good_seq hq ?_))
        (good_seq (good_soft 0) (good_seq hco (good_seq good_space (h3 _ _ (good_kk hk)))))))
      split
      · exact good_nil
      · exact good_seq good_space (good_softD (h2 _ _ good_line))
    · refine good_seq (h1 _ _ (good_seq good_line (good_seq hq ?_))) (good_seq ?_ (good_softD (h3 _ _ (good_kk hk))))
      · split
        · exact good_nil
        · exact good_line
      · split
        · exact good_seq hco good_line
        · exact good_softD (h2 _ _ (good_seq good_line (good_seq hco good_line)))
  | parens l e r ih =>
    intro c k ht hk
    have h1 := fun c k => ih c k (fun t h => ht t (by simp [yield, h]))
    have hl := good_tok hC (ht l (by simp [yield]))
    have hr := good_optTok hC (t := r) (fun x hx => ht x (by simp only [yield, List.mem_append, List.mem_cons]; exact Or.inr (Or.inr hx)))
    unfold edoc
    apply good_group
    split
    · exact h1 _ _ (good_kk hk)
    · exact good_seq hl (good_indentParens (h1 _ _ (good_seq hr (good_kk hk))))
  | call f l a r ih1 ih2 =>
    intro c k ht hk
    have h1 := fun c k => ih1 c k (fun t h => ht t (by simp [yield, h]))
    have h2 := fun c k => ih2 c k (fun t h => ht t (by simp [yield, h]))
    have hl := good_tok hC (ht l (by simp [yield]))
    have hr := good_optTok hC (t := r) (fun x hx => ht x (by simp only [yield, List.mem_append, List.mem_cons]; exact Or.inr (Or.inr (Or.inr hx))))
    unfold edoc
    apply good_group
    refine good_softIf (h1 _ _ (good_seq hl ?_))
    split
    · refine good_seq ?_ (good_kk hk)
      cases r with
      | none => exact good_nil
      | some t => exact hr
    · exact good_alignArgs (good_softD (h2 _ _ (good_seq hr (good_kk hk))))
  | squares f l i r ih1 ih2 =>
    intro c k ht hk
    have h1 := fun c k => ih1 c k (fun t h => ht t (by simp [yield, h]))
    have h2 := fun c k => ih2 c k (fun t h => ht t (by simp [yield, h]))
    have hl := good_tok hC (ht l (by simp [yield]))
    have hr := good_optTok hC (t := r) (fun x hx => ht x (by simp only [yield, List.mem_append, List.mem_cons]; exact Or.inr (Or.inr (Or.inr hx))))
    exact h1 _ _ (good_seq hl (h2 _ _ (good_seq hr (good_kk hk))))
  | field l op r ih1 ih2 =>
    intro c k ht hk
    have h1 := fun c k => ih1 c k (fun t h => ht t (by simp [yield, h]))
    have h2 := fun c k => ih2 c k (fun t h => ht t (by simp [yield, h]))
    exact h1 _ _ (good_seq (good_tok hC (ht op (by simp [yield]))) (h2 _ _ (good_kk hk)))
  | cast l ts r e ih =>
    intro c k ht hk
    have h1 := fun c k => ih c k (fun t h => ht t (by simp [yield, h]))
    have hl := good_tok hC (ht l (by simp [yield]))
    have hr := good_optTok hC (t := r) (fun x hx => ht x (by simp only [yield, List.mem_append, List.mem_cons]; exact Or.inr (Or.inr (Or.inl hx))))
    exact good_seq hl (good_seq (good_recover hC good_nil) (good_seq hr (good_seq (h1 _ _ good_nil) (good_kk hk))))
  | sizeofE tk e ih =>
    intro c k ht hk
    have h1 := fun c k => ih c k (fun t h => ht t (by simp [yield, h]))
    have hl := good_tok hC (ht tk (by simp [yield]))
    unfold edoc
    refine good_seq hl (good_seq (good_lit ?_) (h1 _ _ (good_seq ?_ (good_kk hk))))
    · split
      · exact Or.inr ⟨⟨'(', [], rfl, by decide⟩, by intro c hc; injection hc with hc; rw [← hc]; decide⟩
      · exact Or.inl rfl
    · split
      · exact good_lit (Or.inr ⟨⟨')', [], rfl, by decide⟩, by intro c hc; injection hc with hc; rw [← hc]; decide⟩)
      · exact good_nil
  | sizeofP tk l e r ih =>
    intro c k ht hk
    have h1 := fun c k => ih c k (fun t h => ht t (by simp [yield, h]))
    have htk := good_tok hC (ht tk (by simp [yield]))
    have hl := good_tok hC (ht l (by simp [yield]))
    have hr := good_optTok hC (t := r) (fun x hx => ht x (by simp only [yield, List.mem_append, List.mem_cons]; exact Or.inr (Or.inr (Or.inr hx))))
    exact good_seq htk (good_seq hl (h1 _ _ (good_seq hr (good_kk hk))))
  | concat e t ih =>
    intro c k ht hk
    have h1 := fun c k => ih c k (fun t h => ht t (by simp [yield, h]))
    have hl := good_tok hC (ht t (by simp [yield]))
    unfold edoc
    split
    · exact h1 _ _ (good_seq (good_seq hl good_line) hk)
    · exact good_alignIf (h1 _ _ (good_seq hl hk))
  | recov ts => intro c k ht hk; exact good_recover hC (good_kk hk)

/-- The items of the document of an expression. -/
theorem edoc_items {C : Conf} (hC : C.Ok) (e : Ex) : ∀ (c : Ctx) (k : Doc), (∀ t ∈ yield e, TextOk t.str) →
    items (edoc C e c k) = eitems C e c.root ++ ((if c.chain then [.sep] else []) ++ items k) := by
  induction e with
  | null => intro c k _; simp [edoc, eitems, items_kk]
  | lit t =>
    intro c k ht
    simp [edoc, eitems, items, items_kk, items_tok hC (ht t (by simp [yield]))]
  | un op e ih =>
    intro c k ht
    simp [edoc, eitems, items, items_kk, items_tok hC (ht op (by simp [yield])),
      ih _ _ (fun t h => ht t (by simp [yield, h])), Ctx.sub]
  | pre op e ih =>
    intro c k ht
    simp [edoc, eitems, items, items_kk, items_tok hC (ht op (by simp [yield])),
      ih _ _ (fun t h => ht t (by simp [yield, h])), Ctx.sub]
  | post e op ih =>
    intro c k ht
    simp [edoc, eitems, items, items_kk, items_tok hC (ht op (by simp [yield])),
      ih _ _ (fun t h => ht t (by simp [yield, h])), Ctx.sub]
  | bin l op r ih1 ih2 =>
    intro c k ht
    have hop := items_tok hC (ht op (by simp [yield]))
    have h1 := fun c k => ih1 c k (fun t h => ht t (by simp [yield, h]))
    have h2 := fun c k => ih2 c k (fun t h => ht t (by simp [yield, h]))
    have hnull : ∀ d : Doc, items (if isNull r then kk c k else d) =
        if isNull r then eitems C r false ++ items (kk c k) else items d := by
      intro d
      cases hn : isNull r with
      | false => rfl
      | true => rw [isNull_eq hn]; rfl
    unfold edoc eitems
    rw [items]
    split
    · rw [items, h1, hnull, items_soft, h2, items, hop]
      by_cases hr : (C.ruler op).indent + (C.ruler op).spaces = 0 <;> cases hcol : C.columns <;>
        cases hnc : C.nextComma op <;> cases isNull r <;> simp [items, items_kk, Ctx.sub, noSep, hr, hcol, hnc]
    · split
      · next ha =>
        dsimp only
        rw [items, h1, hnull, ha]
        simp only [Ctx.sub, items, hop, lit]
        cases hn : isNull r with
        | true => simp [items_kk]
        | false =>
          simp [items_alignAssign, items_softIf, h2, items_kk]
      · next ha =>
        have ha' : assignFlag op.ty = false := by simpa using ha
        rw [ha', Bool.false_or]
        split
        · cases hasSpaces C op <;> simp [items, items_alignIf, h1, h2, hop, items_kk, Ctx.sub, lit]
        · rw [items_alignIf, items, h1, items, items, items, hnull, items_soft, h2, hop]
          cases hasSpaces C op <;> cases isNull r <;> simp [items, items_kk, Ctx.sub, lit]
  | tern cd q m co t ih1 ih2 ih3 =>
    intro c k ht
    have hq := items_tok hC (ht q (by simp [yield]))
    have hco := items_optTok hC (t := co) (fun x hx => ht x (by simp only [yield, List.mem_append, List.mem_cons]; exact Or.inr (Or.inr (Or.inr (Or.inl hx)))))
    have h1 := fun c k => ih1 c k (fun t h => ht t (by simp [yield, h]))
    have h2 := fun c k => ih2 c k (fun t h => ht t (by simp [yield, h]))
    have h3 := fun c k => ih3 c k (fun t h => ht t (by simp [yield, h]))
    unfold edoc eitems
    rw [items]
    split
    · cases isNull m <;>
        simp [items, h1, h2, h3, hq, hco, items_kk, Ctx.sub, lit, items_alignIf, items_soft]
    · cases isNull m <;>
        simp [items, h1, h2, h3, hq, hco, items_kk, Ctx.sub, items_soft]
  | parens l e r ih =>
    intro c k ht
    have h1 := fun c k => ih c k (fun t h => ht t (by simp [yield, h]))
    have hl := items_tok hC (ht l (by simp [yield]))
    have hr := items_optTok hC (t := r) (fun x hx => ht x (by simp only [yield, List.mem_append, List.mem_cons]; exact Or.inr (Or.inr hx)))
    unfold edoc eitems
    rw [items]
    split
    · simp [h1, items_kk, Ctx.sub]
    · simp [items, items_indentParens, h1, hl, hr, items_kk, Ctx.sub]
  | call f l a r ih1 ih2 =>
    intro c k ht
    have h1 := fun c k => ih1 c k (fun t h => ht t (by simp [yield, h]))
    have h2 := fun c k => ih2 c k (fun t h => ht t (by simp [yield, h]))
    have hl := items_tok hC (ht l (by simp [yield]))
    have hr := items_optTok hC (t := r) (fun x hx => ht x (by simp only [yield, List.mem_append, List.mem_cons]; exact Or.inr (Or.inr (Or.inr hx))))
    unfold edoc eitems
    have hd : items (dedentTok C r) = r.toList.map (fun t => .text t.str) := by
      cases r with
      | none => rfl
      | some t => exact hr
    rw [items]
    dsimp only
    rw [items_softIf, h1, items, hl]
    cases hn : isNull a with
    | true => rw [isNull_eq hn]; simp [items, eitems, hd, items_kk, Ctx.sub]
    | false => simp [items_alignArgs, items_soft, h2, items, hr, Ctx.sub, items_kk]
  | squares f l i r ih1 ih2 =>
    intro c k ht
    have h1 := fun c k => ih1 c k (fun t h => ht t (by simp [yield, h]))
    have h2 := fun c k => ih2 c k (fun t h => ht t (by simp [yield, h]))
    have hl := items_tok hC (ht l (by simp [yield]))
    have hr := items_optTok hC (t := r) (fun x hx => ht x (by simp only [yield, List.mem_append, List.mem_cons]; exact Or.inr (Or.inr (Or.inr hx))))
    simp [edoc, eitems, items, h1, h2, hl, hr, items_kk, Ctx.sub]
  | field l op r ih1 ih2 =>
    intro c k ht
    have h1 := fun c k => ih1 c k (fun t h => ht t (by simp [yield, h]))
    have h2 := fun c k => ih2 c k (fun t h => ht t (by simp [yield, h]))
    simp [edoc, eitems, items, h1, h2, items_tok hC (ht op (by simp [yield])), items_kk, Ctx.sub]
  | cast l ts r e ih =>
    intro c k ht
    have h1 := fun c k => ih c k (fun t h => ht t (by simp [yield, h]))
    have hl := items_tok hC (ht l (by simp [yield]))
    have hr := items_optTok hC (t := r) (fun x hx => ht x (by simp only [yield, List.mem_append, List.mem_cons]; exact Or.inr (Or.inr (Or.inl hx))))
    simp [edoc, eitems, items, h1, hl, hr, items_kk, Ctx.sub, items_recover]
  | sizeofE tk e ih =>
    intro c k ht
    have h1 := fun c k => ih c k (fun t h => ht t (by simp [yield, h]))
    have hl := items_tok hC (ht tk (by simp [yield]))
    cases hs : C.simpleSizeof <;> simp [edoc, eitems, items, h1, hl, items_kk, Ctx.sub, lit, hs]
  | sizeofP tk l e r ih =>
    intro c k ht
    have h1 := fun c k => ih c k (fun t h => ht t (by simp [yield, h]))
    have htk := items_tok hC (ht tk (by simp [yield]))
    have hl := items_tok hC (ht l (by simp [yield]))
    have hr := items_optTok hC (t := r) (fun x hx => ht x (by simp only [yield, List.mem_append, List.mem_cons]; exact Or.inr (Or.inr (Or.inr hx))))
    simp [edoc, eitems, items, h1, htk, hl, hr, items_kk, Ctx.sub]
  | concat e t ih =>
    intro c k ht
    have h1 := fun c k => ih c k (fun t h => ht t (by simp [yield, h]))
    have hl := items_tok hC (ht t (by simp [yield]))
    unfold edoc eitems
    split
    · next hc => simp [items, h1, hl, hc]
    · next hc => simp [items, items_alignIf, h1, hl, Ctx.sub, hc]
  | recov ts => intro c k ht; simp [edoc, eitems, items, items_recover, items_kk]

end Knfmt.ExprDoc
