import Verif.Expr.Again
import Verif.Doc.OneLine
/-! # The document of an expression on one line (C86) -/
namespace Knfmt.ExprDoc
open Knfmt.Lexer (TT)
open Knfmt.Doc (Doc Lined Unaligned)
open Knfmt.Doc.Spec (Plain forcesIndent)
open Knfmt.Expr

/-- A document without line breaks of the source, and without alignment by a ruler. -/
def Neat (d : Doc) : Prop := Plain 2 d ∧ Lined d ∧ Unaligned d

/-- What is required of the style: nothing comes after a token, no line break is forced, there is no ruler, and
the indentation is small. -/
structure Conf.Tidy (C : Conf) : Prop where
  suffix : ∀ t, C.suffix t = .nil
  hardline : C.hardline = false
  columns : C.columns = false
  indent : C.indent < 2 ^ 29
  align : C.align < 2 ^ 29
  recDoc : ∀ ts, Neat (C.recDoc ts)

theorem neat_nil : Neat .nil := ⟨trivial, trivial, trivial⟩
theorem neat_line : Neat .line := ⟨trivial, trivial, trivial⟩
theorem neat_seq {a b : Doc} (ha : Neat a) (hb : Neat b) : Neat (.seq a b) :=
  ⟨⟨ha.1, hb.1⟩, ⟨ha.2.1, hb.2.1⟩, ⟨ha.2.2, hb.2.2⟩⟩
theorem neat_group {a : Doc} (ha : Neat a) : Neat (.group a) := ha
theorem neat_soft (n : Int) : Neat (.softline n) := ⟨trivial, trivial, trivial⟩
theorem neat_lit {s : List Char} (h : '\n' ∉ s) : Neat (lit s) := ⟨h, trivial, trivial⟩
theorem neat_space : Neat (lit [' ']) := neat_lit (by decide)

theorem small_indent {n : Nat} (h : n < 2 ^ 29) : ¬ forcesIndent n := by
  rintro ⟨_, h2⟩
  rw [Int.toNat_natCast, Nat.testBit_lt_two_pow h] at h2
  cases h2

theorem neat_indent {v : Int} {a : Doc} (hv : ¬ forcesIndent v) (ha : Neat a) : Neat (.indent v a) :=
  ⟨⟨hv, ha.1⟩, ha.2.1, ha.2.2⟩

section
variable {C : Conf} (hC : C.Tidy)
include hC

theorem neat_tok {t : Tok} (h : '\n' ∉ t.str) : Neat (tok C t) := by
  refine neat_seq ⟨h, trivial, trivial⟩ ?_
  rw [hC.suffix t]; exact neat_nil

theorem neat_optTok {t : Option Tok} (h : ∀ x ∈ t.toList, '\n' ∉ x.str) : Neat (optTok C t) := by
  cases t with
  | none => exact neat_nil
  | some t => exact neat_tok hC (h t (by simp))

theorem neat_dedentTok {t : Option Tok} (h : ∀ x ∈ t.toList, '\n' ∉ x.str) : Neat (dedentTok C t) := by
  cases t with
  | none => exact neat_nil
  | some t => exact neat_indent (by rintro ⟨h, _⟩; omega) (neat_tok hC (h t (by simp)))

end

theorem neat_kk {c : Ctx} {k : Doc} (h : Neat k) : Neat (kk c k) := by
  unfold kk
  split
  · exact neat_seq neat_line h
  · exact h

theorem neat_align {b : Bool} {id n : Nat} {d : Doc} (hn : n < 2 ^ 29) (h : Neat d) : Neat (alignD b id n d) := by
  have h0 : ¬ forcesIndent 0 := by rintro ⟨h, _⟩; omega
  have h27 : ¬ forcesIndent (2 ^ 27) := by rintro ⟨_, h⟩; exact absurd h (by decide +kernel)
  refine ⟨⟨?_, ?_, h.1⟩, h.2⟩
  · split <;> rfl
  · split <;> simp only [List.mem_cons, List.not_mem_nil, or_false, forall_eq_or_imp, forall_eq]
    · exact ⟨h0, small_indent hn⟩
    · exact ⟨h27, small_indent hn⟩

theorem neat_alignIf {b : Bool} {id : Nat} {d : Doc} (h : Neat d) : Neat (alignIf b id d) := by
  unfold alignIf
  split
  · exact neat_align (by decide) h
  · exact h

theorem neat_softD {C : Conf} {w : Int} {f : Doc → Doc} {k : Doc} (h : Neat (f k)) : Neat (soft C w f k) := by
  unfold soft
  split
  · exact h
  · split
    · exact h
    · exact neat_seq (neat_soft w) h

theorem neat_softIf {b : Bool} {C : Conf} {w : Int} {f : Doc → Doc} {k : Doc} (h : Neat (f k)) :
    Neat (softIf b C w f k) := by
  unfold softIf
  split
  · exact neat_softD h
  · exact h

theorem neat_alignAssign {C : Conf} {op : Tok} {d : Doc} (h : Neat d) : Neat (alignAssign C op d) := by
  unfold alignAssign
  split
  · exact neat_align (by decide) h
  · exact h

theorem neat_recover {C : Conf} (hC : C.Tidy) {ts : List Tok} {k : Doc} (h : Neat k) : Neat (recover C ts k) := by
  have hr : Neat (.seq (C.recDoc ts) k) := neat_seq (hC.recDoc ts) h
  unfold recover
  split
  · split
    · exact neat_align (by decide) hr
    · exact hr
  · exact hr

theorem neat_indentParens {C : Conf} {c : Ctx} {d : Doc} (h : Neat d) : Neat (indentParens C c d) := by
  unfold indentParens
  split
  · exact neat_indent (by rintro ⟨_, h⟩; exact absurd h (by decide +kernel)) h
  · split
    · exact h
    · exact neat_indent (by rintro ⟨_, h⟩; exact absurd h (by decide +kernel)) h

theorem neat_alignArgs {C : Conf} (hC : C.Tidy) {c : Ctx} {l : Tok} {d : Doc} (h : Neat d) : Neat (alignArgs C c l d) := by
  unfold alignArgs
  split
  · refine neat_align ?_ h
    split
    · decide
    · exact hC.indent
  · exact h

/-- The documents of expressions in a source on one line. -/
theorem edoc_neat {C : Conf} (hC : C.Tidy) (e : Ex) : ∀ (c : Ctx) (k : Doc), (∀ t ∈ yield e, '\n' ∉ t.str) → Neat k →
    Neat (edoc C e c k) := by
  induction e with
  | null => intro c k _ hk; exact neat_kk hk
  | lit t => intro c k ht hk; exact neat_seq (neat_tok hC (ht t (by simp [yield]))) (neat_kk hk)
  | un op e ih =>
    intro c k ht hk
    exact neat_seq (neat_tok hC (ht op (by simp [yield])))
      (ih _ _ (fun t h => ht t (by simp [yield, h])) (neat_kk hk))
  | pre op e ih =>
    intro c k ht hk
    exact neat_seq (neat_tok hC (ht op (by simp [yield])))
      (neat_seq (ih _ _ (fun t h => ht t (by simp [yield, h])) neat_nil) (neat_kk hk))
  | post e op ih =>
    intro c k ht hk
    exact neat_seq (ih _ _ (fun t h => ht t (by simp [yield, h])) neat_nil)
      (neat_seq (neat_tok hC (ht op (by simp [yield]))) (neat_kk hk))
  | bin l op r ih1 ih2 =>
    intro c k ht hk
    have hop := neat_tok hC (ht op (by simp [yield]))
    have h1 := fun c k => ih1 c k (fun t h => ht t (by simp [yield, h]))
    have h2 := fun c k => ih2 c k (fun t h => ht t (by simp [yield, h]))
    have hsp : Neat (if hasSpaces C op then lit [' '] else .nil) := by
      split
      · exact neat_space
      · exact neat_nil
    have hli : Neat (if hasSpaces C op then .line else .nil) := by
      split
      · exact neat_line
      · exact neat_nil
    unfold edoc
    apply neat_group
    split
    · refine neat_seq (h1 _ _ (neat_seq hop ?_)) ?_
      · split
        · next h => rw [hC.columns] at h; cases h
        · split
          · exact neat_nil
          · exact neat_line
      · split
        · exact neat_kk hk
        · exact neat_softD (h2 _ _ (neat_kk hk))
    · split
      · refine neat_seq (h1 _ _ (neat_seq neat_space (neat_seq hop neat_space))) ?_
        split
        · exact neat_kk hk
        · exact neat_alignAssign (neat_softIf (h2 _ _ (neat_kk hk)))
      · split
        · exact neat_alignIf (neat_seq (h1 _ _ hli)
            (neat_seq (neat_soft 0) (neat_seq hop (neat_seq hsp (h2 _ _ (neat_kk hk))))))
        · refine neat_alignIf (neat_seq (h1 _ _ (neat_seq hsp hop)) (neat_seq hli ?_))
          split
          · exact neat_kk hk
          · exact neat_softD (h2 _ _ (neat_kk hk))
  | tern cd q m co t ih1 ih2 ih3 =>
    intro c k ht hk
    have hq := neat_tok hC (ht q (by simp [yield]))
    have hco := neat_optTok hC (t := co) (fun x hx => ht x (by simp only [yield, List.mem_append, List.mem_cons]; exact Or.inr (Or.inr (Or.inr (Or.inl hx)))))
    have h1 := fun c k => ih1 c k (fun t h => ht t (by simp [yield, h]))
    have h2 := fun c k => ih2 c k (fun t h => ht t (by simp [yield, h]))
    have h3 := fun c k => ih3 c k (fun t h => ht t (by simp [yield, h]))
    unfold edoc
    apply neat_group
    split
    · refine neat_seq (h1 _ _ neat_line) (neat_alignIf (neat_seq
        (neat_seq (neat_soft 0) (neat_seq hq ?_))
        (neat_seq (neat_soft 0) (neat_seq hco (neat_seq neat_space (h3 _ _ (neat_kk hk)))))))
      split
      · exact neat_nil
      · exact neat_seq neat_space (neat_softD (h2 _ _ neat_line))
    · refine neat_seq (h1 _ _ (neat_seq neat_line (neat_seq hq ?_))) (neat_seq ?_ (neat_softD (h3 _ _ (neat_kk hk))))
      · split
        · exact neat_nil
        · exact neat_line
      · split
        · exact neat_seq hco neat_line
        · exact neat_softD (h2 _ _ (neat_seq neat_line (neat_seq hco neat_line)))
  | parens l e r ih =>
    intro c k ht hk
    have h1 := fun c k => ih c k (fun t h => ht t (by simp [yield, h]))
    have hl := neat_tok hC (ht l (by simp [yield]))
    have hr := neat_optTok hC (t := r) (fun x hx => ht x (by simp only [yield, List.mem_append, List.mem_cons]; exact Or.inr (Or.inr hx)))
    unfold edoc
    apply neat_group
    split
    · exact h1 _ _ (neat_kk hk)
    · exact neat_seq hl (neat_indentParens (h1 _ _ (neat_seq hr (neat_kk hk))))
  | call f l a r ih1 ih2 =>
    intro c k ht hk
    have h1 := fun c k => ih1 c k (fun t h => ht t (by simp [yield, h]))
    have h2 := fun c k => ih2 c k (fun t h => ht t (by simp [yield, h]))
    have hl := neat_tok hC (ht l (by simp [yield]))
    have hr := neat_optTok hC (t := r) (fun x hx => ht x (by simp only [yield, List.mem_append, List.mem_cons]; exact Or.inr (Or.inr (Or.inr hx))))
    unfold edoc
    apply neat_group
    refine neat_softIf (h1 _ _ (neat_seq hl ?_))
    split
    · refine neat_seq ?_ (neat_kk hk)
      exact neat_dedentTok hC (fun x hx => ht x (by simp only [yield, List.mem_append, List.mem_cons]; exact Or.inr (Or.inr (Or.inr hx))))
    · exact neat_alignArgs hC (neat_softD (h2 _ _ (neat_seq hr (neat_kk hk))))
  | squares f l i r ih1 ih2 =>
    intro c k ht hk
    have h1 := fun c k => ih1 c k (fun t h => ht t (by simp [yield, h]))
    have h2 := fun c k => ih2 c k (fun t h => ht t (by simp [yield, h]))
    have hl := neat_tok hC (ht l (by simp [yield]))
    have hr := neat_optTok hC (t := r) (fun x hx => ht x (by simp only [yield, List.mem_append, List.mem_cons]; exact Or.inr (Or.inr (Or.inr hx))))
    exact h1 _ _ (neat_seq hl (h2 _ _ (neat_seq hr (neat_kk hk))))
  | field l op r ih1 ih2 =>
    intro c k ht hk
    have h1 := fun c k => ih1 c k (fun t h => ht t (by simp [yield, h]))
    have h2 := fun c k => ih2 c k (fun t h => ht t (by simp [yield, h]))
    exact h1 _ _ (neat_seq (neat_tok hC (ht op (by simp [yield]))) (h2 _ _ (neat_kk hk)))
  | cast l ts r e ih =>
    intro c k ht hk
    have h1 := fun c k => ih c k (fun t h => ht t (by simp [yield, h]))
    have hl := neat_tok hC (ht l (by simp [yield]))
    have hr := neat_optTok hC (t := r) (fun x hx => ht x (by simp only [yield, List.mem_append, List.mem_cons]; exact Or.inr (Or.inr (Or.inl hx))))
    exact neat_seq hl (neat_seq (neat_recover hC neat_nil) (neat_seq hr (neat_seq (h1 _ _ neat_nil) (neat_kk hk))))
  | sizeofE tk e ih =>
    intro c k ht hk
    have h1 := fun c k => ih c k (fun t h => ht t (by simp [yield, h]))
    have hl := neat_tok hC (ht tk (by simp [yield]))
    unfold edoc
    refine neat_seq hl (neat_seq (neat_lit ?_) (h1 _ _ (neat_seq ?_ (neat_kk hk))))
    · split <;> decide
    · split
      · exact neat_lit (by decide)
      · exact neat_nil
  | sizeofP tk l e r ih =>
    intro c k ht hk
    have h1 := fun c k => ih c k (fun t h => ht t (by simp [yield, h]))
    have htk := neat_tok hC (ht tk (by simp [yield]))
    have hl := neat_tok hC (ht l (by simp [yield]))
    have hr := neat_optTok hC (t := r) (fun x hx => ht x (by simp only [yield, List.mem_append, List.mem_cons]; exact Or.inr (Or.inr (Or.inr hx))))
    exact neat_seq htk (neat_seq hl (h1 _ _ (neat_seq hr (neat_kk hk))))
  | concat e t ih =>
    intro c k ht hk
    have h1 := fun c k => ih c k (fun t h => ht t (by simp [yield, h]))
    have hl := neat_tok hC (ht t (by simp [yield]))
    unfold edoc
    split
    · exact h1 _ _ (neat_seq (neat_seq hl neat_line) hk)
    · exact neat_alignIf (h1 _ _ (neat_seq hl hk))
  | recov ts => intro c k ht hk; exact neat_recover hC (neat_kk hk)


theorem exprDoc_neat {C : Conf} (hC : C.Tidy) {e : Ex} (ht : ∀ t ∈ yield e, '\n' ∉ t.str) : Neat (exprDoc C e) := by
  have h := edoc_neat hC e { root := true } .nil ht neat_nil
  unfold exprDoc
  simp only [hC.hardline, Bool.false_eq_true, if_false]
  have h2 : ∀ d, Neat d → Neat (if C.softline then .seq (.softline 0) d else d) := by
    intro d hd
    split
    · exact neat_seq (neat_soft 0) hd
    · exact hd
  have h3 : ∀ d, Neat d → Neat (if C.line then .seq .line d else d) := by
    intro d hd
    split
    · exact neat_seq neat_line hd
    · exact hd
  have h4 : ∀ d, Neat d → Neat (if C.align > 0 then .indent C.align d else if C.indent > 0 then .indent C.indent d else d) := by
    intro d hd
    split
    · exact neat_indent (small_indent hC.align) hd
    · split
      · exact neat_indent (small_indent hC.indent) hd
      · exact hd
  have h5 := h4 _ (h3 _ (h2 _ h))
  exact ⟨h5.1, ⟨Nat.le_refl 1, h5.2.1⟩, h5.2.2⟩

end Knfmt.ExprDoc
