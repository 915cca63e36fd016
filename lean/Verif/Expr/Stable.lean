import Verif.Expr.Twice
import Verif.Expr.Neat
import Verif.Lexer.Gaps
/-! # An expression that is printed on one line is not changed again (C86) -/
namespace Knfmt.ExprDoc
open Knfmt.Lexer (TT)
open Knfmt.Spec (IsToken Spelled gapsOf gapChar)
open Knfmt.Doc (Doc docExec render TextOk)
open Knfmt.Doc.Spec (Item items texts)
open Knfmt.Expr

/-! ## White space after the tokens -/

/-- Does white space come first? -/
def isSep : List Item → Bool
  | .sep :: _ => true
  | _ => false

/-- Is there white space after each text? -/
def after : List Item → List Bool
  | [] => []
  | .sep :: l => after l
  | .text _ :: l => isSep l :: after l

theorem after_at (a : List Item) (s : List Char) (b : List Item) :
    (after (a ++ .text s :: b))[(texts a).length]? = some (isSep b) := by
  induction a with
  | nil => rfl
  | cons i a ih =>
    cases i with
    | sep => exact ih
    | text t => rw [List.cons_append, after, texts_text, List.length_cons, List.getElem?_cons_succ]; exact ih

theorem isSep_append {a : List Item} (b : List Item) (h : a ≠ []) : isSep (a ++ b) = isSep a := by
  cases a with
  | nil => exact absurd rfl h
  | cons i a => cases i <;> rfl

theorem gap_head {s : List Char} (h : TextOk s) : s.head?.any gapChar = false ∧ s ≠ [] := by
  obtain ⟨⟨c, t, rfl, hc⟩, _⟩ := h
  exact ⟨hc, by simp⟩

theorem dropWhile_head {s t : List Char} (h : s.head?.any gapChar = false) (hn : s ≠ []) :
    (s ++ t).dropWhile gapChar = s ++ t := by
  cases s with
  | nil => exact absurd rfl hn
  | cons c s =>
    rw [List.cons_append, List.dropWhile_cons, if_neg (by simpa using h)]

/-- White space after the tokens of a text on one line. -/
theorem gapsOf_render (l : List Item) (h : ∀ s ∈ texts l, TextOk s) : gapsOf (render l) (texts l) = after l ++ [false] := by
  induction l with
  | nil => rfl
  | cons i l ih =>
    cases i with
    | sep =>
      rw [texts_sep] at h ⊢
      rw [after, ← ih h, render]
      cases hl : texts l with
      | nil => rfl
      | cons s ts => rw [gapsOf, gapsOf, List.dropWhile_cons, if_pos (by decide)]
    | text s =>
      rw [texts_text] at h ⊢
      obtain ⟨h1, h2⟩ := gap_head (h s (List.mem_cons_self ..))
      rw [gapsOf, render, dropWhile_head h1 h2, List.drop_left, after, List.cons_append,
        ← ih fun x hx => h x (List.mem_cons_of_mem _ hx)]
      congr 1
      cases l with
      | nil => rfl
      | cons i l =>
        cases i with
        | sep => rfl
        | text t =>
          obtain ⟨h3, h4⟩ := gap_head (h t (by simp [texts_text]))
          cases t with
          | nil => exact absurd rfl h4
          | cons c t => exact h3

/-- The tokens `ts` are those of the items, and `sp` says after which of them there is white space; it may say
anything about the last one. -/
def Flagged (sp : Tok → Bool) (ts : List Tok) (l : List Item) : Prop :=
  ∀ a s b ts1 t ts2, l = a ++ .text s :: b → ts = ts1 ++ t :: ts2 → ts2 ≠ [] → (texts a).length = ts1.length →
    sp t = isSep b

theorem Flagged.sub {sp : Tok → Bool} {T ts : List Tok} {M l : List Item} (h : Flagged sp T M) (p q : List Tok)
    (P Q : List Item) (hT : T = p ++ (ts ++ q)) (hM : M = P ++ (l ++ Q)) (hp : (texts P).length = p.length)
    (hl : (texts l).length = ts.length) : Flagged sp ts l := by
  intro a s b ts1 t ts2 e1 e2 hn e3
  have := h (P ++ a) s (b ++ Q) (p ++ ts1) t (ts2 ++ q) (by rw [hM, e1]; simp) (by rw [hT, e2]; simp)
    (by simp [hn]) (by rw [Knfmt.Doc.texts_append]; simp [hp, e3])
  rw [this]
  apply isSep_append
  rintro rfl
  rw [e1, e2, Knfmt.Doc.texts_append] at hl
  cases ts2 with
  | nil => exact hn rfl
  | cons x r => simp [texts_text, texts_nil, e3] at hl

/-- Something holds for the binary expressions of a tree. -/
def AllBin (P : Ex → Tok → Ex → Prop) : Ex → Prop
  | .null | .lit _ | .recov _ => True
  | .un _ e | .pre _ e | .post e _ | .parens _ e _ | .cast _ _ _ e | .sizeofE _ e | .sizeofP _ _ e _ | .concat e _ =>
    AllBin P e
  | .bin l op r => P l op r ∧ AllBin P l ∧ AllBin P r
  | .tern c _ m _ t => AllBin P c ∧ AllBin P m ∧ AllBin P t
  | .call f _ a _ | .squares f _ a _ | .field f _ a => AllBin P f ∧ AllBin P a

/-- Something holds for a token and the ones next to it. -/
def Trip (Q : Tok → Tok → Tok → Prop) (ts : List Tok) : Prop :=
  ∀ x y a op b, ts = x ++ a :: op :: b :: y → Q a op b

theorem Trip.sub {Q : Tok → Tok → Tok → Prop} {T ts : List Tok} (h : Trip Q T) (p q : List Tok)
    (e : T = p ++ (ts ++ q)) : Trip Q ts := by
  intro x y a op b e2
  exact h (p ++ x) (y ++ q) a op b (by rw [e, e2]; simp)

theorem trip_bin {Q : Tok → Tok → Tok → Prop} (e : Ex) (h : Trip Q (yield e)) :
    AllBin (fun l op r => ∀ a b, (yield l).getLast? = some a → (yield r).head? = some b → Q a op b) e := by
  induction e with
  | null | lit _ | recov _ => trivial
  | un op e ih | pre op e ih => exact ih (h.sub [op] [] (by simp [yield]))
  | post e op ih | concat e op ih => exact ih (h.sub [] [op] (by simp [yield]))
  | parens l e r ih => exact ih (h.sub [l] r.toList (by simp [yield]))
  | cast l ts r e ih => exact ih (h.sub (l :: (ts ++ r.toList)) [] (by simp [yield]))
  | sizeofE tk e ih => exact ih (h.sub [tk] [] (by simp [yield]))
  | sizeofP tk l e r ih => exact ih (h.sub [tk, l] r.toList (by simp [yield]))
  | bin l op r ih1 ih2 =>
    refine ⟨?_, ih1 (h.sub [] (op :: yield r) (by simp [yield])), ih2 (h.sub (yield l ++ [op]) [] (by simp [yield]))⟩
    intro a b ha hb
    obtain ⟨x, hx⟩ := List.getLast?_eq_some_iff.1 ha
    obtain ⟨y, hy⟩ := List.head?_eq_some_iff.1 hb
    exact h x y a op b (by rw [yield, hx, hy]; simp)
  | tern c q m co t ih1 ih2 ih3 =>
    exact ⟨ih1 (h.sub [] (q :: (yield m ++ (co.toList ++ yield t))) (by simp [yield])),
      ih2 (h.sub (yield c ++ [q]) (co.toList ++ yield t) (by simp [yield])),
      ih3 (h.sub (yield c ++ (q :: (yield m ++ co.toList))) [] (by simp [yield]))⟩
  | call f l a r ih1 ih2 | squares f l a r ih1 ih2 =>
    exact ⟨ih1 (h.sub [] (l :: (yield a ++ r.toList)) (by simp [yield])),
      ih2 (h.sub (yield f ++ [l]) r.toList (by simp [yield]))⟩
  | field f op a ih1 ih2 =>
    exact ⟨ih1 (h.sub [] (op :: yield a) (by simp [yield])), ih2 (h.sub (yield f ++ [op]) [] (by simp [yield]))⟩

/-- White space comes after every comma. -/
def Commas (C : Conf) : Ex → Prop := AllBin fun _ op _ => op.ty = .comma → noSep C op = false

theorem commas_sizeofs {C : Conf} {e : Ex} (h : Commas C e) : Commas C (sizeofs e) := by
  unfold Commas at *
  induction e <;> simp_all [sizeofs, AllBin]

theorem commas_unparen {C : Conf} {e : Ex} (h : Commas C e) : Commas C (unparen e) := by
  cases e <;> exact h

theorem commas_simplified {C : Conf} {e : Ex} (a b : Bool) (h : Commas C e) : Commas C (simplified a b e) := by
  unfold simplified
  cases a <;> cases b <;>
    simp only [Bool.false_eq_true, if_true, if_false] <;>
    first | exact h | exact commas_sizeofs h | exact commas_unparen h | exact commas_sizeofs (commas_unparen h)

/-- Every expression begins with a token that may begin one. -/
theorem shaped_first {Ty : List Tok → Prop} {e : Ex} (h : Shaped Ty e) :
    ∃ t, (yield e).head? = some t ∧ starter t.ty = true := by
  induction h with
  | lit h => exact ⟨_, rfl, by rcases h with h | h | h <;> rw [h] <;> rfl⟩
  | strings _ _ ih | post _ _ ih =>
    obtain ⟨t, h1, h2⟩ := ih
    exact ⟨t, by rw [yield, List.head?_append, h1]; rfl, h2⟩
  | parens h _ _ _ => exact ⟨_, rfl, by rw [h]; rfl⟩
  | cast h _ _ _ _ => exact ⟨_, rfl, by rw [h]; rfl⟩
  | call0 _ _ _ ih => 
    obtain ⟨t, h1, h2⟩ := ih
    exact ⟨t, by rw [yield, List.head?_append, h1]; rfl, h2⟩
  | call _ _ _ _ ih _ | squares _ _ _ _ ih _ =>
    obtain ⟨t, h1, h2⟩ := ih
    exact ⟨t, by rw [yield, List.head?_append, h1]; rfl, h2⟩
  | field _ _ _ ih =>
    obtain ⟨t, h1, h2⟩ := ih
    exact ⟨t, by rw [yield, List.head?_append, h1]; rfl, h2⟩
  | @pre op _ h _ _ =>
    exact ⟨op, rfl, by rcases incop_cases h with h | h <;> rw [h] <;> rfl⟩
  | @un op _ h _ _ =>
    refine ⟨op, rfl, ?_⟩
    generalize op.ty = ty at h
    cases ty <;> first | rfl | exact absurd h (by decide)
  | sizeofE h _ _ => exact ⟨_, rfl, by rw [h]; rfl⟩
  | sizeofP h _ _ _ _ => exact ⟨_, rfl, by rw [h]; rfl⟩
  | sizeofT h _ _ _ => exact ⟨_, rfl, by rw [h]; rfl⟩
  | bin _ _ _ ih _ | assign _ _ _ ih _ | comma _ _ _ ih _ =>
    obtain ⟨t, h1, h2⟩ := ih
    exact ⟨t, by rw [yield, List.head?_append, h1]; rfl, h2⟩
  | tern _ _ _ _ _ ih _ _ =>
    obtain ⟨t, h1, h2⟩ := ih
    exact ⟨t, by rw [yield, List.head?_append, h1]; rfl, h2⟩

/-- What is known about an operator, given the tokens next to it. -/
def Near (C : Conf) (sp : Tok → Bool) : Ex → Prop :=
  AllBin fun l op r => ∀ a b, (yield l).getLast? = some a → (yield r).head? = some b →
    C.spaced op = (sp op || sp a) ∧ C.nextComma op = decide (b.ty = .comma)

theorem shaped_last {Ty : List Tok → Prop} {e : Ex} (h : Shaped Ty e) : ∃ t, (yield e).getLast? = some t := by
  obtain ⟨t, h1, _⟩ := shaped_first h
  cases he : (yield e).getLast? with
  | some t => exact ⟨t, rfl⟩
  | none => rw [List.getLast?_eq_none_iff] at he; rw [he] at h1; cases h1

theorem near_commas {C : Conf} (hcol : C.columns = false) {sp : Tok → Bool} {Ty : List Tok → Prop} {e : Ex}
    (h : Shaped Ty e) (hn : Near C sp e) : Commas C e := by
  have key : ∀ l op r, Shaped Ty l → Shaped Ty r → (∀ a b, (yield l).getLast? = some a → (yield r).head? = some b →
      C.spaced op = (sp op || sp a) ∧ C.nextComma op = decide (b.ty = .comma)) → noSep C op = false := by
    intro l op r hl hr h
    obtain ⟨a, ha⟩ := shaped_last hl
    obtain ⟨b, hb, hb2⟩ := shaped_first hr
    rw [noSep, hcol, if_neg (by decide), (h a b ha hb).2]
    simp only [decide_eq_false_iff_not]
    intro e
    rw [e] at hb2
    exact absurd hb2 (by decide)
  unfold Commas Near at *
  induction h with
  | lit _ => trivial
  | strings _ _ ih | parens _ _ _ ih | post _ _ ih | pre _ _ ih | un _ _ ih | sizeofE _ _ ih | sizeofP _ _ _ _ ih
  | cast _ _ _ _ ih => exact ih hn
  | sizeofT _ _ _ _ => trivial
  | call0 _ _ _ ih => exact ⟨ih hn.1, trivial⟩
  | call _ _ _ _ ih ih2 | squares _ _ _ _ ih ih2 => exact ⟨ih hn.1, ih2 hn.2⟩
  | field _ _ _ ih => exact ⟨ih hn.1, trivial⟩
  | bin _ h1 h2 ih ih2 | assign _ h1 h2 ih ih2 | comma _ h1 h2 ih ih2 =>
    exact ⟨fun _ => key _ _ _ h1 h2 hn.1, ih hn.2.1, ih2 hn.2.2⟩
  | tern _ _ _ _ _ ih ih2 ih3 => exact ⟨ih hn.1, ih2 hn.2.1, ih3 hn.2.2⟩

/-! ## The same white space -/

theorem bare_len {e e2 : Ex} (h : bare e2 = bare e) : (yield e2).length = (yield e).length := by
  have := congrArg (fun x => (yield x).length) h
  simpa [yield_bare] using this

theorem bareT_str {t t' : Tok} (h : bareT t' = bareT t) : t'.str = t.str := by
  have := congrArg Tok.str h
  exact this

/-- A tree whose tokens have other positions, printed with what has been found after its tokens. -/
theorem same_items {C1 C2 : Conf} (hs1 : C1.simpleSizeof = false) (hs2 : C2.simpleSizeof = false) {Ty : List Tok → Prop}
    (hrec : ∀ ts ts', ts'.map bareT = ts.map bareT → items (C2.recDoc ts') = items (C1.recDoc ts))
    (hty : Printed C1 Ty) (sp : Tok → Bool) {e : Ex} (h : Shaped Ty e) (hcl : Clean C1.spaced e) (ht : Toks (yield e))
    (hc1 : Commas C1 e) : ∀ e2, bare e2 = bare e → Flagged sp (yield e2) (eitems C1 e false) → Near C2 sp e2 →
    Commas C2 e2 → eitems C2 e2 false = eitems C1 e false := by
  have len : ∀ {e e2 : Ex}, bare e2 = bare e → Shaped Ty e → Clean C1.spaced e → Toks (yield e) →
      (texts (eitems C1 e false)).length = (yield e2).length := by
    intro e e2 hb h hcl ht
    rw [(shaped_edge hs1 hty h hcl ht).text, List.length_map, bare_len hb]
  unfold Near Commas at *
  have key : ∀ (l : Ex) (op : Tok) (r : Ex), Shaped Ty l → Shaped Ty r →
      (Clean C1.spaced l → Toks (yield l) → AllBin (fun _ op _ => op.ty = .comma → noSep C1 op = false) l →
        ∀ e2, bare e2 = bare l → Flagged sp (yield e2) (eitems C1 l false) → AllBin (fun l op r => ∀ a b, (yield l).getLast? = some a → (yield r).head? = some b →
          C2.spaced op = (sp op || sp a) ∧ C2.nextComma op = decide (b.ty = .comma)) e2 →
        AllBin (fun _ op _ => op.ty = .comma → noSep C2 op = false) e2 → eitems C2 e2 false = eitems C1 l false) →
      (Clean C1.spaced r → Toks (yield r) → AllBin (fun _ op _ => op.ty = .comma → noSep C1 op = false) r →
        ∀ e2, bare e2 = bare r → Flagged sp (yield e2) (eitems C1 r false) → AllBin (fun l op r => ∀ a b, (yield l).getLast? = some a → (yield r).head? = some b →
          C2.spaced op = (sp op || sp a) ∧ C2.nextComma op = decide (b.ty = .comma)) e2 →
        AllBin (fun _ op _ => op.ty = .comma → noSep C2 op = false) e2 → eitems C2 e2 false = eitems C1 r false) →
      Clean C1.spaced (.bin l op r) → Toks (yield (.bin l op r)) →
      AllBin (fun _ op _ => op.ty = .comma → noSep C1 op = false) (.bin l op r) →
      ∀ e2, bare e2 = bare (.bin l op r) → Flagged sp (yield e2) (eitems C1 (.bin l op r) false) →
        AllBin (fun l op r => ∀ a b, (yield l).getLast? = some a → (yield r).head? = some b →
          C2.spaced op = (sp op || sp a) ∧ C2.nextComma op = decide (b.ty = .comma)) e2 →
        AllBin (fun _ op _ => op.ty = .comma → noSep C2 op = false) e2 →
        eitems C2 e2 false = eitems C1 (.bin l op r) false := by
    clear h hcl ht hc1
    intro l op r h h' ih ih2 hcl ht hc1 e2 hb hf hn hc
    cases e2 <;> simp only [bare, reduceCtorEq, Ex.bin.injEq] at hb
    next l2 op2 r2 =>
    obtain ⟨hb1, hb2, hb3⟩ := hb
    have ht1 : Toks (yield l) := fun x hx => ht x (by simp [yield, hx])
    have ht2 : Toks (yield r) := fun x hx => ht x (by simp [yield, hx])
    have len1 := len hb1 h hcl.1 ht1
    have len2 := len hb3 h' hcl.2.1 ht2
    have E1 := shaped_edge hs1 hty h hcl.1 ht1
    have E2 := shaped_edge hs1 hty h' hcl.2.1 ht2
    have ety : op2.ty = op.ty := bareT_ty hb2
    have estr : op2.str = op.str := bareT_str hb2
    -- whatever there is around the operator
    have sub : ∀ A B : List Item, texts A = [] → texts B = [] →
        eitems C1 (.bin l op r) false = eitems C1 l false ++ (A ++ (.text op.str :: (B ++ eitems C1 r false))) →
        eitems C2 l2 false = eitems C1 l false ∧ eitems C2 r2 false = eitems C1 r false := by
      intro A B hA hB e
      refine ⟨ih hcl.1 ht1 hc1.2.1 l2 hb1 (hf.sub [] (op2 :: yield r2) [] (A ++ (.text op.str :: (B ++ eitems C1 r false)))
          (by simp [yield]) (by rw [e]; rfl) rfl len1) hn.2.1 hc.2.1,
        ih2 hcl.2.1 ht2 hc1.2.2 r2 hb3 (hf.sub (yield l2 ++ [op2]) [] (eitems C1 l false ++ (A ++ (.text op.str :: B))) []
          (by simp [yield]) (by rw [e]; simp)
          (by simp [texts_text, Knfmt.Doc.texts_append, hA, hB, len1]) len2) hn.2.2 hc.2.2⟩
    obtain ⟨la, hla⟩ : ∃ a, (yield l2).getLast? = some a := by
      cases hx : (yield l2).getLast? with
      | some a => exact ⟨a, rfl⟩
      | none =>
        obtain ⟨t, ht, _⟩ := E1.last
        have := bare_len hb1
        rw [List.getLast?_eq_none_iff] at hx
        rw [hx] at this
        rw [List.eq_nil_of_length_eq_zero this.symm] at ht
        cases ht
    obtain ⟨lb, hlb⟩ : ∃ b, (yield r2).head? = some b := by
      cases hx : (yield r2).head? with
      | some a => exact ⟨a, rfl⟩
      | none =>
        obtain ⟨t, ht, _⟩ := E2.first
        have := bare_len hb3
        rw [List.head?_eq_none_iff] at hx
        rw [hx] at this
        rw [List.eq_nil_of_length_eq_zero this.symm] at ht
        cases ht
    have hr2 : yield r2 ≠ [] := by intro e; rw [e] at hlb; cases hlb
    have hsp := (hn.1 la lb hla hlb).1
    by_cases hco : op.ty = .comma
    · have e1 := hc1.1 hco
      have e2 := hc.1 (ety.trans hco)
      obtain ⟨s1, s2⟩ := sub [] [.sep] rfl rfl (by simp [eitems, hco, e1])
      simp [eitems, hco, ety, e1, e2, s1, s2, estr]
    · by_cases has : assignFlag op.ty = true
      · obtain ⟨s1, s2⟩ := sub [.sep] [.sep] rfl rfl (by simp [eitems, hco, has])
        simp [eitems, hco, ety, has, s1, s2, estr]
      · rw [Bool.not_eq_true] at has
        cases hsf : spaceFlag op.ty with
        | false =>
          obtain ⟨s1, s2⟩ := sub [.sep] [.sep] rfl rfl (by simp [eitems, hco, has, hasSpaces, hsf])
          simp [eitems, hco, ety, has, hasSpaces, hsf, s1, s2, estr]
        | true =>
          cases hs : C1.spaced op with
          | true =>
            have e : eitems C1 (.bin l op r) false = eitems C1 l false ++ ([.sep] ++ (.text op.str :: ([.sep] ++ eitems C1 r false))) := by
              simp [eitems, hco, has, hasSpaces, hsf, hs]
            obtain ⟨s1, s2⟩ := sub [.sep] [.sep] rfl rfl e
            have q := hf (eitems C1 l false ++ [.sep]) op.str (.sep :: eitems C1 r false) (yield l2) op2 (yield r2)
              (by rw [e]; simp) rfl hr2 (by rw [Knfmt.Doc.texts_append, texts_sep, texts_nil, List.append_nil]; exact len1)
            rw [q] at hsp
            simp only [isSep, Bool.true_or] at hsp
            simp [eitems, hco, ety, has, hasSpaces, hsf, hsp, hs, s1, s2, estr]
          | false =>
            have e : eitems C1 (.bin l op r) false = eitems C1 l false ++ ([] ++ (.text op.str :: ([] ++ eitems C1 r false))) := by
              simp [eitems, hco, has, hasSpaces, hsf, hs]
            obtain ⟨s1, s2⟩ := sub [] [] rfl rfl e
            have q := hf (eitems C1 l false) op.str (eitems C1 r false) (yield l2) op2 (yield r2)
              (by rw [e]; simp) rfl hr2 len1
            have q1 : isSep (eitems C1 r false) = false := by
              obtain ⟨t, _, _, hh⟩ := E2.first
              obtain ⟨y, hy⟩ := List.head?_eq_some_iff.1 hh
              rw [hy]; rfl
            obtain ⟨t, _, _, hh⟩ := E1.last
            obtain ⟨x, hx⟩ := List.getLast?_eq_some_iff.1 hh
            obtain ⟨y, hy⟩ := List.getLast?_eq_some_iff.1 hla
            have q2 := hf x t.str (.text op.str :: eitems C1 r false) y la (op2 :: yield r2)
              (by rw [e, hx]; simp) (by rw [yield, hy]; simp) (by simp) (by
                rw [hx, hy, Knfmt.Doc.texts_append] at len1
                simpa [texts_text, texts_nil] using len1)
            rw [q, q1, q2] at hsp
            simp only [isSep, Bool.or_false] at hsp
            simp [eitems, hco, ety, has, hasSpaces, hsf, hsp, hs, s1, s2, estr]
  induction h with
  | @lit t _ =>
    intro e2 hb hf hn hc
    cases e2 <;> simp only [bare, reduceCtorEq, Ex.lit.injEq] at hb
    simp [eitems, bareT_str hb]
  | @strings e t h _ ih =>
    intro e2 hb hf hn hc
    cases e2 <;> simp only [bare, reduceCtorEq, Ex.concat.injEq] at hb
    next e2 t2 =>
    have ht' : Toks (yield e) := fun x hx => ht x (by simp [yield, hx])
    have := ih hcl ht' hc1 e2 hb.1 (hf.sub [] [t2] [] [.sep, .text t.str] (by simp [yield]) (by simp [eitems]) rfl
      (len hb.1 h hcl ht')) hn hc
    simp [eitems, this, bareT_str hb.2]
  | @post e op _ h ih =>
    intro e2 hb hf hn hc
    cases e2 <;> simp only [bare, reduceCtorEq, Ex.post.injEq] at hb
    next e2 op2 =>
    have ht' : Toks (yield e) := fun x hx => ht x (by simp [yield, hx])
    have := ih hcl ht' hc1 e2 hb.1 (hf.sub [] [op2] [] [.text op.str] (by simp [yield]) (by simp [eitems]) rfl
      (len hb.1 h hcl ht')) hn hc
    simp [eitems, this, bareT_str hb.2]
  | @pre op e _ h ih =>
    intro e2 hb hf hn hc
    cases e2 <;> simp only [bare, reduceCtorEq, Ex.pre.injEq] at hb
    next op2 e2 =>
    have ht' : Toks (yield e) := fun x hx => ht x (by simp [yield, hx])
    have := ih hcl ht' hc1 e2 hb.2 (hf.sub [op2] [] [.text op.str] [] (by simp [yield]) (by simp [eitems]) rfl
      (len hb.2 h hcl ht')) hn hc
    simp [eitems, this, bareT_str hb.1]
  | @un op e _ h ih =>
    intro e2 hb hf hn hc
    cases e2 <;> simp only [bare, reduceCtorEq, Ex.un.injEq] at hb
    next op2 e2 =>
    have ht' : Toks (yield e) := fun x hx => ht x (by simp [yield, hx])
    have := ih hcl.1 ht' hc1 e2 hb.2 (hf.sub [op2] [] [.text op.str] [] (by simp [yield]) (by simp [eitems]) rfl
      (len hb.2 h hcl.1 ht')) hn hc
    simp [eitems, this, bareT_str hb.1]
  | @sizeofE op e _ h ih =>
    intro e2 hb hf hn hc
    cases e2 <;> simp only [bare, reduceCtorEq, Ex.sizeofE.injEq] at hb
    next op2 e2 =>
    have ht' : Toks (yield e) := fun x hx => ht x (by simp [yield, hx])
    have := ih hcl ht' hc1 e2 hb.2 (hf.sub [op2] [] [.text op.str, .sep] [] (by simp [yield]) (by simp [eitems, hs1]) rfl
      (len hb.2 h hcl ht')) hn hc
    simp [eitems, this, bareT_str hb.1, hs1, hs2]
  | @parens l e r _ _ h ih =>
    intro e2 hb hf hn hc
    cases e2 <;> simp only [bare, reduceCtorEq, Ex.parens.injEq, Option.map_some] at hb
    next l2 e2 r2 =>
    cases r2 with
    | none => simp at hb
    | some r2 =>
    simp only [Option.map_some, Option.some.injEq] at hb
    have ht' : Toks (yield e) := fun x hx => ht x (by simp [yield, hx])
    have := ih hcl ht' hc1 e2 hb.2.1 (hf.sub [l2] [r2] [.text l.str] [.text r.str] (by simp [yield]) (by simp [eitems]) rfl
      (len hb.2.1 h hcl ht')) hn hc
    simp [eitems, this, bareT_str hb.1, bareT_str hb.2.2]
  | @sizeofP tk l e r _ _ _ h ih =>
    intro e2 hb hf hn hc
    cases e2 <;> simp only [bare, reduceCtorEq, Ex.sizeofP.injEq, Option.map_some] at hb
    next tk2 l2 e2 r2 =>
    cases r2 with
    | none => simp at hb
    | some r2 =>
    simp only [Option.map_some, Option.some.injEq] at hb
    have ht' : Toks (yield e) := fun x hx => ht x (by simp [yield, hx])
    have := ih hcl ht' hc1 e2 hb.2.2.1 (hf.sub [tk2, l2] [r2] [.text tk.str, .text l.str] [.text r.str] (by simp [yield])
      (by simp [eitems]) rfl (len hb.2.2.1 h hcl ht')) hn hc
    simp [eitems, this, bareT_str hb.1, bareT_str hb.2.1, bareT_str hb.2.2.2]
  | @sizeofT tk l ts r _ _ _ h =>
    intro e2 hb hf hn hc
    cases e2 <;> simp only [bare, reduceCtorEq, Ex.sizeofP.injEq, Option.map_some] at hb
    next tk2 l2 e2 r2 =>
    cases r2 with
    | none => simp at hb
    | some r2 =>
    simp only [Option.map_some, Option.some.injEq] at hb
    cases e2 <;> simp only [bare, reduceCtorEq, Ex.recov.injEq, false_and, and_false] at hb
    next ts2 =>
    simp [eitems, hrec ts ts2 hb.2.2.1, bareT_str hb.1, bareT_str hb.2.1, bareT_str hb.2.2.2]
  | @cast l ts r e _ _ hT h ih =>
    intro e2 hb hf hn hc
    cases e2 <;> simp only [bare, reduceCtorEq, Ex.cast.injEq, Option.map_some] at hb
    next l2 ts2 r2 e2 =>
    cases r2 with
    | none => simp at hb
    | some r2 =>
    simp only [Option.map_some, Option.some.injEq] at hb
    have ht' : Toks (yield e) := fun x hx => ht x (by simp [yield, hx])
    have hl : ts2.length = ts.length := by simpa using congrArg List.length hb.2.1
    have := ih hcl ht' hc1 e2 hb.2.2.2 (hf.sub (l2 :: (ts2 ++ [r2])) [] (.text l.str :: (items (C1.recDoc ts) ++ [.text r.str])) []
      (by simp [yield]) (by simp [eitems])
      (by simp [texts_text, Knfmt.Doc.texts_append, texts_nil, (hty ts hT).1, hl]) (len hb.2.2.2 h hcl ht')) hn hc
    simp [eitems, this, hrec ts ts2 hb.2.1, bareT_str hb.1, bareT_str hb.2.2.1]
  | @call0 f l r _ _ h ih =>
    intro e2 hb hf hn hc
    cases e2 <;> simp only [bare, reduceCtorEq, Ex.call.injEq, Option.map_some] at hb
    next f2 l2 a2 r2 =>
    cases r2 with
    | none => simp at hb
    | some r2 =>
    simp only [Option.map_some, Option.some.injEq] at hb
    cases a2 <;> simp only [bare, reduceCtorEq, false_and, and_false, true_and] at hb
    have ht' : Toks (yield f) := fun x hx => ht x (by simp [yield, hx])
    have := ih hcl.1 ht' hc1.1 f2 hb.1 (hf.sub [] [l2, r2] [] [.text l.str, .text r.str] (by simp [yield])
      (by simp [eitems]) rfl (len hb.1 h hcl.1 ht')) hn.1 hc.1
    simp [eitems, this, bareT_str hb.2.1, bareT_str hb.2.2]
  | @call f l a r _ _ h h' ih ih2 =>
    intro e2 hb hf hn hc
    cases e2 <;> simp only [bare, reduceCtorEq, Ex.call.injEq, Option.map_some] at hb
    next f2 l2 a2 r2 =>
    cases r2 with
    | none => simp at hb
    | some r2 =>
    simp only [Option.map_some, Option.some.injEq] at hb
    have ht' : Toks (yield f) := fun x hx => ht x (by simp [yield, hx])
    have ht2 : Toks (yield a) := fun x hx => ht x (by simp [yield, hx])
    have h1 := ih hcl.1 ht' hc1.1 f2 hb.1 (hf.sub [] (l2 :: (yield a2 ++ [r2])) [] (.text l.str :: (eitems C1 a false ++ [.text r.str]))
      (by simp [yield]) (by simp [eitems]) rfl (len hb.1 h hcl.1 ht')) hn.1 hc.1
    have h2 := ih2 hcl.2 ht2 hc1.2 a2 hb.2.2.1 (hf.sub (yield f2 ++ [l2]) [r2] (eitems C1 f false ++ [.text l.str]) [.text r.str]
      (by simp [yield]) (by simp [eitems])
      (by simp [texts_text, texts_nil, Knfmt.Doc.texts_append, len hb.1 h hcl.1 ht']) (len hb.2.2.1 h' hcl.2 ht2)) hn.2 hc.2
    simp [eitems, h1, h2, bareT_str hb.2.1, bareT_str hb.2.2.2]
  | @squares f l a r _ _ h h' ih ih2 =>
    intro e2 hb hf hn hc
    cases e2 <;> simp only [bare, reduceCtorEq, Ex.squares.injEq, Option.map_some] at hb
    next f2 l2 a2 r2 =>
    cases r2 with
    | none => simp at hb
    | some r2 =>
    simp only [Option.map_some, Option.some.injEq] at hb
    have ht' : Toks (yield f) := fun x hx => ht x (by simp [yield, hx])
    have ht2 : Toks (yield a) := fun x hx => ht x (by simp [yield, hx])
    have h1 := ih hcl.1 ht' hc1.1 f2 hb.1 (hf.sub [] (l2 :: (yield a2 ++ [r2])) [] (.text l.str :: (eitems C1 a false ++ [.text r.str]))
      (by simp [yield]) (by simp [eitems]) rfl (len hb.1 h hcl.1 ht')) hn.1 hc.1
    have h2 := ih2 hcl.2 ht2 hc1.2 a2 hb.2.2.1 (hf.sub (yield f2 ++ [l2]) [r2] (eitems C1 f false ++ [.text l.str]) [.text r.str]
      (by simp [yield]) (by simp [eitems])
      (by simp [texts_text, texts_nil, Knfmt.Doc.texts_append, len hb.1 h hcl.1 ht']) (len hb.2.2.1 h' hcl.2 ht2)) hn.2 hc.2
    simp [eitems, h1, h2, bareT_str hb.2.1, bareT_str hb.2.2.2]
  | @field f op t _ _ h ih =>
    intro e2 hb hf hn hc
    cases e2 <;> simp only [bare, reduceCtorEq, Ex.field.injEq] at hb
    next f2 op2 r2 =>
    cases r2 <;> simp only [bare, reduceCtorEq, Ex.lit.injEq, false_and, and_false] at hb
    next t2 =>
    have ht' : Toks (yield f) := fun x hx => ht x (by simp [yield, hx])
    have := ih hcl.1 ht' hc1.1 f2 hb.1 (hf.sub [] [op2, t2] [] [.text op.str, .text t.str] (by simp [yield])
      (by simp [eitems]) rfl (len hb.1 h hcl.1 ht')) hn.1 hc.1
    simp [eitems, this, bareT_str hb.2.1, bareT_str hb.2.2]
  | @tern c q m co t _ _ h h' h'' ih ih2 ih3 =>
    intro e2 hb hf hn hc
    cases e2 <;> simp only [bare, reduceCtorEq, Ex.tern.injEq, Option.map_some] at hb
    next c2 q2 m2 co2 t2 =>
    cases co2 with
    | none => simp at hb
    | some co2 =>
    simp only [Option.map_some, Option.some.injEq] at hb
    have ht1 : Toks (yield c) := fun x hx => ht x (by simp [yield, hx])
    have ht2 : Toks (yield m) := fun x hx => ht x (by simp [yield, hx])
    have ht3 : Toks (yield t) := fun x hx => ht x (by simp [yield, hx])
    have nul : ∀ {e : Ex}, Shaped Ty e → isNull e = false := by
      intro e h; cases h <;> rfl
    have nul2 : isNull m2 = false := by
      have := nul h'
      have e := hb.2.2.1
      cases m2 <;> first | rfl | (cases m <;> simp_all [bare, isNull])
    have h1 := ih hcl.1 ht1 hc1.1 c2 hb.1 (hf.sub [] (q2 :: (yield m2 ++ (co2 :: yield t2))) []
      (.sep :: .text q.str :: .sep :: (eitems C1 m false ++ (.sep :: .text co.str :: .sep :: eitems C1 t false)))
      (by simp [yield]) (by simp [eitems, nul h']) rfl (len hb.1 h hcl.1 ht1)) hn.1 hc.1
    have h2 := ih2 hcl.2.1 ht2 hc1.2.1 m2 hb.2.2.1 (hf.sub (yield c2 ++ [q2]) (co2 :: yield t2)
      (eitems C1 c false ++ [.sep, .text q.str, .sep]) (.sep :: .text co.str :: .sep :: eitems C1 t false)
      (by simp [yield]) (by simp [eitems, nul h'])
      (by simp [texts_text, texts_nil, texts_sep, Knfmt.Doc.texts_append, len hb.1 h hcl.1 ht1]) (len hb.2.2.1 h' hcl.2.1 ht2))
      hn.2.1 hc.2.1
    have h3 := ih3 hcl.2.2 ht3 hc1.2.2 t2 hb.2.2.2.2 (hf.sub (yield c2 ++ (q2 :: (yield m2 ++ [co2]))) []
      (eitems C1 c false ++ (.sep :: .text q.str :: .sep :: (eitems C1 m false ++ [.sep, .text co.str, .sep]))) []
      (by simp [yield]) (by simp [eitems, nul h'])
      (by simp [texts_text, texts_nil, texts_sep, Knfmt.Doc.texts_append, len hb.1 h hcl.1 ht1, len hb.2.2.1 h' hcl.2.1 ht2])
      (len hb.2.2.2.2 h'' hcl.2.2 ht3)) hn.2.2 hc.2.2
    simp [eitems, h1, h2, h3, nul h', nul2, bareT_str hb.2.1, bareT_str hb.2.2.2.1]
  | @bin l op r _ h h' ih ih2 => exact key l op r h h' ih ih2 hcl ht hc1
  | @assign l op r _ h h' ih ih2 => exact key l op r h h' ih ih2 hcl ht hc1
  | @comma l op r _ h h' ih ih2 => exact key l op r h h' ih ih2 hcl ht hc1

end Knfmt.ExprDoc
