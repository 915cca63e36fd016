import Verif.Parse.Peek
/-!
# Looking ahead gives tokens that are there
-/
namespace Knfmt.Parse
open Knfmt.Lexer (TT)

/-- All tokens have an identity. -/
def Nz (ts : List Tok) : Prop := ∀ t ∈ ts, t.id ≠ 0

/-- A type found ahead ends at a token that is there. -/
class TI.Wf (ti : TI) : Prop where
  fin : ti.fin.id ≠ 0
  args : ti.args ≠ some 0

instance TI.Wf.ruled {ti : TI} [h : ti.Wf] {b : Bool} : TI.Wf { ti with ruled := b } := ⟨h.fin, h.args⟩

/-- A token and what follows it. -/
def Nz2 (x : Tok × List Tok) : Prop := x.1.id ≠ 0 ∧ Nz x.2

theorem of_ite_some {α : Type} {c : Prop} [Decidable c] {x : Option α} {b : α}
    (e : (if c then x else none) = some b) : x = some b := by
  split at e
  · exact e
  · cases e

theorem Nz.nil : Nz [] := fun _ h => by cases h
theorem Nz.head {t : Tok} {ts : List Tok} (h : Nz (t :: ts)) : t.id ≠ 0 := h t (by simp)
theorem Nz.tail {t : Tok} {ts : List Tok} (h : Nz (t :: ts)) : Nz ts := fun u hu => h u (by simp [hu])
theorem Nz.drop {ts : List Tok} (h : Nz ts) (n : Nat) : Nz (ts.drop n) := fun u hu => h u (List.mem_of_mem_drop hu)

theorem nz_pIf {p : TT → Bool} {ts r : List Tok} (h : Nz ts) (e : pIf p ts = some r) : Nz r := by
  unfold pIf at e
  split at e
  · cases e
  · split at e
    · cases e
      exact h.tail
    · cases e

theorem nz_pOpt {p : TT → Bool} {ts : List Tok} (h : Nz ts) : Nz (pOpt p ts) := by
  unfold pOpt
  cases e : pIf p ts with
  | none => exact h
  | some r => exact nz_pIf h e

theorem nz_pWhile {p : TT → Bool} : ∀ {ts : List Tok}, Nz ts → Nz (pWhile p ts)
  | [], h => h
  | t :: ts, h => by
    rw [pWhile]
    split
    · exact nz_pWhile h.tail
    · exact h

theorem nz_pairGo {l r : TT} : ∀ {ts : List Tok} {n : Nat} {x}, Nz ts → pairGo l r n ts = some x → Nz2 x
  | [], _, _, _, e => by cases e
  | t :: ts, n, x, h, e => by
    rw [pairGo] at e
    generalize (if t.ty = r then (if t.ty = l then n + 1 else n) - 1 else if t.ty = l then n + 1 else n) = d at e
    split at e
    · cases e
      exact ⟨h.head, h.tail⟩
    · exact nz_pairGo h.tail e

theorem nz_parens {ts : List Tok} {x} (h : Nz ts) (e : parens ts = some x) : Nz2 x := by
  unfold parens pair at e
  split at e
  · exact nz_pairGo h e
  · cases e

theorem nz_attrGo (f : Bool) : ∀ (n : Nat) (last : Option (Tok × List Tok)) (ts : List Tok) (x), Nz ts →
    (∀ x, last = some x → Nz2 x) → attrGo f n last ts = some x → Nz2 x
  | 0, last, ts, x, _, hl, e => hl x e
  | n + 1, last, ts, x, h, hl, e => by
    have h1 : Nz (pOpt (is .attribute) ts) := nz_pOpt h
    have key : ∀ x, (if f = true then
        match pIf (is .ident) (pOpt (is .attribute) ts) with
        | none => last
        | some a =>
          match parens a with
          | none => last
          | some (rp, b) =>
            match pIf (is .ident) b with
            | none => last
            | some c =>
              match pIf (is .lparen) c with
              | none => last
              | some e => attrGo f n (some (rp, b)) e
        else last) = some x → Nz2 x := by
      intro x e
      split at e
      · split at e
        · exact hl x e
        · rename_i a ea
          split at e
          · exact hl x e
          · rename_i rp b eb
            have hb := nz_parens (nz_pIf h1 ea) eb
            split at e
            · exact hl x e
            · rename_i c ec
              split at e
              · exact hl x e
              · rename_i y ey
                exact nz_attrGo f n _ _ x (nz_pIf (nz_pIf hb.2 ec) ey) (fun _ h => by cases h; exact hb) e
      · exact hl x e
    rw [attrGo] at e
    split at e
    · split at e
      · rename_i rp b eb
        have hb := nz_parens h1 eb
        exact nz_attrGo f n _ _ x hb.2 (fun _ h => by cases h; exact hb) e
      · exact key x e
    · exact key x e

theorem nz_attrSkip {f : Bool} {ts : List Tok} (h : Nz ts) : Nz (attrSkip f ts) := by
  unfold attrSkip
  split
  · exact h
  · rename_i e
    exact (nz_attrGo f _ _ _ _ h (fun _ h => by cases h) e).2

theorem nz_cppPeekType {ts : List Tok} {x} (h : Nz ts) (e : cppPeekType ts = some x) : Nz2 x := by
  unfold cppPeekType at e
  split at e
  · split at e
    · cases e
      exact ⟨h.tail.tail.tail.head, h.tail.tail.tail.tail⟩
    · split at e
      · split at e
        · cases e
          have := h.tail.tail.tail.tail
          exact ⟨this.tail.head, this.tail.tail⟩
        · cases e
      · cases e
  · cases e

theorem nz_stars : ∀ (ts : List Tok) (f : Tok), f.id ≠ 0 → Nz ts → Nz2 (stars f ts)
  | [], _, h, h' => ⟨h, h'⟩
  | t :: ts, f, h, h' => by
    rw [stars]
    split
    · exact nz_stars ts t h'.head h'.tail
    · exact ⟨h, h'⟩

theorem wf_cppPeekDecl {root : Bool} {ts : List Tok} {ti : TI} (h : Nz ts)
    (e : cppPeekDecl root ts = some ti) : ti.Wf := by
  unfold cppPeekDecl at e
  split at e
  · cases e
  · rename_i m ts1 e1
    have h1 : Nz ts1 := (e1 ▸ nz_pWhile h : Nz (m :: ts1)).tail
    split at e
    · split at e
      · cases e
      · rename_i rp ts2 e2
        have h2 := nz_parens h1 e2
        have h3 := nz_stars ts2 rp h2.1 h2.2
        have key : TI.Wf { fin := (stars rp ts2).1, rest := (stars rp ts2).2 } := ⟨h3.1, fun h => by cases h⟩
        dsimp only at e
        split at e
        · cases e; exact key
        · split at e
          · cases e; exact key
          · split at e
            · split at e
              · split at e
                · cases e; exact key
                · cases e
              · cases e
            · cases e
    · cases e

theorem nz_funcPtr {ts : List Tok} {a : Option Nat} {t : Tok} {r : List Tok} (h : Nz ts)
    (e : funcPtr ts = some (a, t, r)) : a ≠ some 0 ∧ Nz2 (t, r) := by
  unfold funcPtr at e
  split at e
  · cases e
  · rename_i a0 ea
    have ha : Nz a0 := by
      cases e1 : pIf (is .lparen) ts with
      | none => rw [e1] at ea; cases ea
      | some x => rw [e1] at ea; exact nz_pIf (nz_pIf h e1) ea
    have hb : Nz (pOpt (is .ident) (pOpt isQual (pWhile (is .star) (pOpt isQual a0)))) :=
      nz_pOpt (nz_pOpt (nz_pWhile (nz_pOpt ha)))
    dsimp only at e
    split at e
    · cases e
    · rename_i rp l el
      have hd : Nz (rp :: l) := by
        rw [← el]
        split
        · exact hb
        · exact nz_pOpt (nz_pOpt (nz_pIf hb ‹_›))
      split at e
      · split at e
        · rename_i rhs f ef
          cases e
          have := nz_parens hd.tail ef
          refine ⟨?_, this⟩
          cases l with
          | nil => intro h; cases h
          | cons u l =>
            intro h
            exact hd.tail.head (by simpa using h)
        · split at e
          · cases e
            exact ⟨(by simp), hd.head, hd.tail⟩
          · cases e
      · cases e

theorem nz_ptrArray {ts : List Tok} {x} (h : Nz ts) (e : ptrArray ts = some x) : Nz2 x := by
  unfold ptrArray at e
  split at e
  · rename_i rs r e1
    have : Nz (rs :: r) := by
      cases e2 : pIf (is .lparen) ts with
      | none => rw [e2] at e1; cases e1
      | some a =>
        rw [e2] at e1
        cases e3 : pIf (is .star) a with
        | none => simp only [Option.bind_some, e3] at e1; cases e1
        | some b =>
          simp only [Option.bind_some, e3] at e1
          cases e4 : pIf (is .rparen) (pOpt (is .ident) b) with
          | none => rw [e4] at e1; cases e1
          | some c =>
            simp only [e4, Option.bind_some] at e1
            cases e5 : pIf (is .lsquare) c with
            | none => rw [e5] at e1; cases e1
            | some d =>
              simp only [e5, Option.bind_some] at e1
              exact nz_pIf (nz_pIf (nz_pIf (nz_pOpt (nz_pIf (nz_pIf h e2) e3)) e4) e5) e1
    split at e
    · cases e
      exact ⟨this.head, this.tail⟩
    · cases e
  · cases e

theorem nz_noIdent {ts : List Tok} {x} (h : Nz ts) (e : noIdent ts = some x) : Nz2 x := by
  unfold noIdent at e
  split at e
  · split at e
    · cases e
      exact ⟨h.head, h.tail⟩
    · cases e
  · cases e

theorem nz_squares {ts : List Tok} {x} (h : Nz ts) (e : squares ts = some x) : Nz2 x := by
  unfold squares at e
  split at e
  · rename_i r rest e1
    have : Nz (r :: rest) := by
      cases e2 : pIf (is .lsquare) ts with
      | none => rw [e2] at e1; cases e1
      | some a =>
        rw [e2] at e1
        simp only [Option.map_some, Option.some.injEq] at e1
        rw [← e1]
        exact nz_pOpt (nz_pIf h e2)
    split at e
    · cases e
      exact ⟨this.head, this.tail⟩
    · cases e
  · cases e

theorem nz_unknownArray {ts : List Tok} {x} (h : Nz ts) (e : unknownArray ts = some x) : Nz2 x := by
  unfold unknownArray at e
  cases e1 : pIf (is .ident) ts with
  | none => rw [e1] at e; cases e
  | some a => rw [e1] at e; exact nz_squares (nz_pIf h e1) e

theorem nz_unknownBitfield {ts : List Tok} {x} (h : Nz ts) (e : unknownBitfield ts = some x) : Nz2 x := by
  unfold unknownBitfield at e
  split at e
  · split at e
    · cases e
      exact ⟨h.head, h.tail⟩
    · cases e
  · cases e

/-- The loop of `parser_type_peek` is about tokens that are there. -/
structure TL.Wf (v : TL) : Prop where
  ts : Nz v.ts
  fin : ∀ x, v.fin = some x → Nz2 x
  args : v.args ≠ some 0

/-- The name of a structure. -/
def structTag (t : Tok) (ts : List Tok) : Tok × List Tok :=
  if t.ty = .kEnum ∨ t.ty = .kStruct ∨ t.ty = .kUnion then
    match ts with
    | i :: r => if i.ty = .ident then (i, r) else (t, ts)
    | [] => (t, ts)
  else (t, ts)

theorem nz_structTag {t : Tok} {ts : List Tok} (ht : Nz (t :: ts)) : Nz2 (structTag t ts) := by
  unfold structTag
  split
  · split
    · split
      · exact ⟨ht.tail.head, ht.tail.tail⟩
      · exact ⟨ht.head, ht.tail⟩
    · exact ⟨ht.head, ht.tail⟩
  · exact ⟨ht.head, ht.tail⟩

theorem wf_typeRound {F : TF} {v : TL} (h : v.Wf) : (typeRound F v).1.Wf := by
  have hf : ∀ {x : Tok × List Tok}, Nz2 x → ∀ y, some x = some y → Nz2 y := fun h y e => by cases e; exact h
  unfold typeRound
  split
  · exact h
  · rename_i t ts e
    have ht : Nz (t :: ts) := e ▸ h.ts
    split
    · exact ⟨ht.tail, hf ⟨ht.head, ht.tail⟩, h.args⟩
    · split
      · have h1 : Nz2 (structTag t ts) := nz_structTag ht
        have h2 : ∀ y, Nz2 y → Nz2 (match squares y.2 with | some (rs, r') => (rs, r') | none => (y.1, y.2)) := by
          intro y h1
          split
          · exact nz_squares h1.2 ‹_›
          · exact h1
        exact ⟨(h2 _ h1).2, hf (h2 _ h1), h.args⟩
      · split
        · dsimp only
          split
          · exact ⟨ht.tail, hf ⟨ht.head, ht.tail⟩, h.args⟩
          · exact ⟨ht.tail, hf ⟨ht.head, ht.tail⟩, h.args⟩
        · split
          · have := nz_cppPeekType h.ts ‹_›
            exact ⟨this.2, hf this, h.args⟩
          · split
            · split
              · exact h
              · exact ⟨ht.tail, hf ⟨ht.head, ht.tail⟩, h.args⟩
            · split
              · rename_i args e r ef
                split at ef
                · have := nz_funcPtr h.ts ef
                  exact ⟨h.ts, hf this.2, this.1⟩
                · cases ef
              · split
                · rename_i rs r ef
                  split at ef
                  · have := nz_ptrArray h.ts ef
                    exact ⟨h.ts, hf this, h.args⟩
                  · cases ef
                · exact ⟨h.ts, h.fin, h.args⟩

theorem wf_typeLoop {F : TF} {sz : Bool} : ∀ (n : Nat) (v : TL), v.Wf → (typeLoop F sz n v).Wf
  | 0, v, h => h
  | n + 1, v, h => by
    have h1 := wf_typeRound (F := F) h
    rw [typeLoop]
    dsimp only
    split
    · split
      · exact ⟨h1.ts, h1.fin, h1.args⟩
      · exact wf_typeLoop n _ ⟨h1.ts, h1.fin, h1.args⟩
    · exact h1

theorem wf_typePeek {F : TF} {pv : Option Tok} {ts : List Tok} {ti : TI} (h : Nz ts)
    (e : typePeek F pv ts = some ti) : ti.Wf := by
  unfold typePeek at e
  dsimp only at e
  split at e
  · rename_i e1 r he
    have : Nz2 (e1, r) := by
      split at he
      · cases he
        rename_i he
        split at he
        · cases e2 : noIdent ts with
          | none => rw [e2] at he; exact nz_unknownArray h he
          | some y => rw [e2] at he; cases he; exact nz_noIdent h e2
        · cases he
      · exact nz_unknownBitfield h he
    cases e
    exact ⟨this.1, fun h => by cases h⟩
  · have hw := wf_typeLoop (F := F) (sz := decide (pv.map Tok.ty = some .sizeof)) (ts.length + 1) { ts := ts }
      ⟨h, (fun _ h => by cases h), (by simp)⟩
    revert e hw
    generalize typeLoop F (decide (pv.map Tok.ty = some .sizeof)) (ts.length + 1) { ts := ts } = v
    intro e hw
    have e := of_ite_some e
    cases e1 : v.fin with
    | none => rw [e1] at e; cases e
    | some x =>
      rw [e1] at e
      cases e
      exact ⟨(hw.fin x e1).1, hw.args⟩

theorem wf_funcPeek {pv : Option Tok} {ts : List Tok} {ti : TI} (h : Nz ts)
    (e : (funcPeek pv ts).2.1 = some ti) : ti.Wf := by
  unfold funcPeek at e
  dsimp only at e
  split at e
  · cases e
  · rename_i ti' e1
    have hw := wf_typePeek (nz_attrSkip h) e1
    have : ti' = ti := by
      split at e
      · cases e; rfl
      · split at e
        · cases e; rfl
        · split at e
          · cases e; rfl
          · split at e
            · cases e; rfl
            · split at e
              · split at e <;> cases e <;> rfl
              · split at e <;> cases e <;> rfl
    exact this ▸ hw

theorem wf_funcArgPeek {pv : Option Tok} {ts : List Tok} {ti : TI} (h : Nz ts)
    (e : funcArgPeek pv ts = some ti) : ti.Wf :=
  wf_typePeek (nz_attrSkip h) e

theorem wf_castPeek {b : Bool} {pv : Option Tok} {ts : List Tok} {ti : TI} (h : Nz ts)
    (e : castPeek b pv ts = some ti) : ti.Wf := by
  unfold castPeek at e
  split at e
  · cases e
  · rename_i e1
    split at e
    · cases e
    · cases of_ite_some e
      exact wf_typePeek h e1

end Knfmt.Parse
