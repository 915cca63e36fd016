import Verif.Parse.SepStmt
import Verif.Parse.NearSound
import Verif.Parse.Theorems
import Verif.Doc.Sep
import Verif.Lexer.Alone
import Verif.Lexer.IsToken
/-!
# The tokens of a file are not glued together (C79)

`parserDoc E fuel ts = some (its, g)` says that the parser accepts the file `ts` (all tokens but the
end of file one) and that the document it hands over consists of the tokens and the white space `its`.
What is printed for any such document is described by `Knfmt.Doc`, and reading by `Knfmt.Lexer`.
-/
namespace Knfmt.Parse
open Knfmt.Lexer (TT)
open Knfmt.Parse.Spec (near Tidy near_joins)
open Knfmt.Doc (Doc Tame docExec)
open Knfmt.Doc.Spec (Item texts Apart)
open Knfmt.Spec (IsToken Spelled)

/-- `parser_exec` up to `doc_exec`, parser.c:123-174, as in `parserExec`: the tokens of the document
and the white space between them, `none`, and what has gone wrong unnoticed. -/
def parserDoc (E : Env) (fuel : Nat) (ts : List Tok) : Option (List (Option Tok) × Ghost) :=
  match loop fuel (execRound (recs E fuel) 0) () (startSt ts) with
  | some (true, s') => some (items s'.L, s'.gh)
  | _ => none

/-- The tokens of the document are the ones given by `parserExec`. -/
theorem parserExec_of_doc {E : Env} {fuel : Nat} {ts : List Tok} {its : List (Option Tok)} {g : Ghost}
    (h : parserDoc E fuel ts = some (its, g)) : parserExec E fuel ts = some (solid its, g) := by
  unfold parserDoc at h
  unfold parserExec
  dsimp only
  rw [show ({ done := [], rest := ts, L := [.opn 0 .root, .cls 0], next := 1 } : St) = startSt ts from rfl]
  split at h
  · rename_i s' e
    rw [e]
    cases h
    rw [solid_items]
  · cases h

/-- Tokens and white space as the printer sees them. -/
def asItem : Option Tok → Item
  | some t => .text t.str
  | none => .sep

namespace Sep
attribute [local instance] strictM

theorem parserDoc_apart {E : Env} {fuel : Nat} {ts : List Tok} {its : List (Option Tok)}
    (h : parserDoc E fuel ts = some (its, {})) (ht : ∀ t ∈ ts, t.ty ≠ .eof) : apart its = true := by
  have hS := recs_sep E fuel
  have key : wp (loop fuel (execRound (recs E fuel) 0) ()) (fun b s => b = true → D True s [0] all)
      (startSt ts) := by
    refine wp_loop (fun _ s => D True s [0] all) ?_ _ _ _ ?_
    · intro _ s h
      unfold execRound peek
      refine wp_readv ?_
      refine wp_ite (fun he => wp_pure ?_) fun _ => ?_
      · exact ⟨(fun _ e => by cases e), fun b e _ => h⟩
      · refine wp_bind (g_alloc h (List.Sublist.refl _)) fun c s h => ?_
        refine wp_bind (hS.root c _ _ _ _ h.1 (List.Sublist.refl _)) fun r s h => ?_
        have h' : D True s [0] all := h.sub (by simp)
        refine wp_ite (fun hr => wp_pure ?_) fun _ => wp_pure ?_
        · exact ⟨fun _ _ => h', (fun _ e => by cases e)⟩
        · exact ⟨(fun _ e => by cases e), (fun b e hb => by cases e; cases hb)⟩
    · refine fun _ => ⟨trivial, ⟨?_, ?_, ?_, ?_⟩⟩
      · exact ⟨by simp [startSt, closes], by simp [startSt, closes], by simp [startSt, opens]⟩
      · intro i k hm
        simp [startSt] at hm
      · refine ⟨[.opn 0 .root], [.cls 0], rfl, rfl, by simp, ?_⟩
        intro t b e
        simp [items, Ev.items] at e
      · rfl
  have h2 := parserExec_of_doc h
  unfold parserDoc at h
  split at h
  · rename_i s' e
    obtain ⟨s'', e', h3, h4, _, h5, _, h6⟩ := parserExec_run h2 ht
    rw [e] at e'
    cases e'
    have hk := key _ _ e rfl
    simp only [Option.some.injEq, Prod.mk.injEq] at h
    obtain ⟨rfl, _⟩ := h
    refine (hk ⟨h5, h4.symm, ?_⟩).2.good
    exact fun t hm => ht t (h6.subset (by simpa using hm))
  · cases h

end Sep

theorem apart_split : ∀ {l : List (Option Tok)} {a : List Item} {x y : List Char} {b : List Item},
    apart l = true → l.map asItem = a ++ .text x :: .text y :: b →
    ∃ t u, some t ∈ l ∧ some u ∈ l ∧ t.str = x ∧ u.str = y ∧ near t.ty u.ty = true
  | [], a, _, _, _, _, e => by
    have := congrArg List.length e
    simp at this
  | [_], a, _, _, _, _, e => by
    have := congrArg List.length e
    simp at this
    omega
  | p :: q :: l, [], _, _, _, h, e => by
    simp only [List.map_cons, List.nil_append, List.cons.injEq] at e
    obtain ⟨e1, e2, _⟩ := e
    cases p with
    | none => cases e1
    | some t =>
      cases q with
      | none => cases e2
      | some u =>
        simp only [apart, Bool.and_eq_true] at h
        injection e1 with e1
        injection e2 with e2
        exact ⟨t, u, by simp, by simp, e1, e2, h.1⟩
  | p :: q :: l, z :: a, _, _, _, h, e => by
    simp only [apart, Bool.and_eq_true] at h
    rw [List.map_cons, List.cons_append] at e
    injection e with _ e
    obtain ⟨t, u, h1, h2, h3⟩ := apart_split h.2 e
    exact ⟨t, u, List.mem_cons_of_mem _ h1, List.mem_cons_of_mem _ h2, h3⟩

theorem texts_map (l : List (Option Tok)) : texts (l.map asItem) = (solid l).map (·.str) := by
  induction l with
  | nil => rfl
  | cons x l ih =>
    cases x with
    | none => exact ih
    | some t => exact congrArg (t.str :: ·) ih

/-- Texts and types of the tokens read from a text. -/
def tokensOf (cx : Knfmt.Lexer.Ctx) (text : List Char) : List (Option (List Char) × TT) :=
  (Knfmt.Lexer.tokenizeLoop text cx Knfmt.Lexer.init).2.map fun t => (t.tok.str.text text, t.tok.type)

/-- Texts and types of tokens, and the end of the file. -/
def spelling (ts : List Tok) : List (Option (List Char) × TT) :=
  ts.map (fun t => (some t.str, t.ty)) ++ [(some [], .eof)]

/-- The full claim: whatever the parser accepts, and in whatever way the document is printed, what is
read from the output are the tokens of the file but redundant semicolons. `its` are the tokens and the
white space in the document, `d` is any document made of them, however it is nested and wherever lines
may be broken. -/
def C79_statement : Prop :=
  ∀ (E : Env) (fuel : Nat) (ts : List Tok) (its : List (Option Tok)) (g : Ghost),
    (∀ t ∈ ts, IsToken t.str t.ty) → parserDoc E fuel ts = some (its, g) →
    ∀ (env : Knfmt.Doc.Env), env.diff = none → ∀ (d : Doc), Knfmt.Doc.Spec.items d = its.map asItem →
    Tame d → (docExec env false [] d).ub = false → ∀ (cx : Knfmt.Lexer.Ctx),
    ∃ out, Tidy ts out ∧ tokensOf cx (docExec env false [] d).buf.reverse = spelling out

/-- C79, as long as nothing is recorded: the document of a file, printed in any way, is read as the
tokens of the file again. -/
theorem C79_tokens_not_glued_partial (E : Env) (fuel : Nat) (ts : List Tok) (its : List (Option Tok))
    (ht : ∀ t ∈ ts, IsToken t.str t.ty) (h : parserDoc E fuel ts = some (its, {}))
    (env : Knfmt.Doc.Env) (hd : env.diff = none) (d : Doc) (hi : Knfmt.Doc.Spec.items d = its.map asItem)
    (htm : Tame d) (hu : (docExec env false [] d).ub = false) (cx : Knfmt.Lexer.Ctx) :
    ∃ out, Tidy ts out ∧
      tokensOf cx (docExec env false [] d).buf.reverse = spelling out := by
  have hne : ∀ t ∈ ts, t.ty ≠ .eof := fun t hm => (ht t hm).notEof
  have hx := parserExec_of_doc h
  have htidy := parserExec_tidy hx hne rfl rfl rfl
  have hap := Sep.parserDoc_apart h hne
  have hmem : ∀ t ∈ solid its, IsToken t.str t.ty := fun t hm => ht t (htidy.sublist.subset hm)
  refine ⟨solid its, htidy, ?_⟩
  have hin : ∀ t, some t ∈ its → t ∈ solid its := fun t hm => by
    simp only [solid, List.mem_filterMap, id]
    exact ⟨_, hm, rfl⟩
  have hsp := Knfmt.Doc.doc_exec_spelled env hd d htm hu ((solid its).map fun t => (t.str, t.ty))
    (by rw [hi, texts_map]; simp) (by
      intro x hm
      obtain ⟨t, hm', rfl⟩ := List.mem_map.1 hm
      exact hmem t hm') (by
      intro a s c t b e
      rw [hi] at e
      obtain ⟨u, v, h1, h2, h3, h4, h5⟩ := apart_split hap e
      have hu := hmem u (hin u h1)
      have hv := hmem v (hin v h2)
      rw [h3] at hu
      rw [h4] at hv
      exact near_joins hu hv h5)
  have := (Knfmt.Lexer.read_back _ cx _ hsp).1
  unfold tokensOf spelling
  rw [this]
  simp

/-- C79 from text to text: the source consists of tokens and white space; what is printed is read as the
same tokens, but redundant semicolons. -/
theorem C79_text_to_text_partial (cx : Knfmt.Lexer.Ctx) (src : List Char) (ts : List Tok)
    (hsrc : Spelled src (ts.map fun t => (t.str, t.ty))) (hn : ∀ t ∈ ts, t.ty ≠ .kNone)
    (E : Env) (fuel : Nat) (its : List (Option Tok)) (h : parserDoc E fuel ts = some (its, {}))
    (env : Knfmt.Doc.Env) (hd : env.diff = none) (d : Doc) (hi : Knfmt.Doc.Spec.items d = its.map asItem)
    (htm : Tame d) (hu : (docExec env false [] d).ub = false) :
    tokensOf cx src = spelling ts ∧
    ∃ out, Tidy ts out ∧ tokensOf cx (docExec env false [] d).buf.reverse = spelling out := by
  constructor
  · have := (Knfmt.Lexer.read_back src cx _ hsrc).1
    unfold tokensOf spelling
    rw [this]
    simp
  · refine C79_tokens_not_glued_partial E fuel ts its ?_ h env hd d hi htm hu cx
    intro t hm
    have := Knfmt.Lexer.Spelled.isToken hsrc (by
      intro x hx
      obtain ⟨t, hm, rfl⟩ := List.mem_map.1 hx
      exact hn t hm) (t.str, t.ty) (List.mem_map.2 ⟨t, hm, rfl⟩)
    exact this

/-! ## Examples -/

/-- A document without any structure. -/
def flat : List (Option Tok) → Doc
  | [] => .nil
  | some t :: l => .seq (.literal t.str none) (flat l)
  | none :: l => .seq .line (flat l)

theorem textOk_ne {s : List Char} (h : Knfmt.Doc.TextOk s) : s ≠ [' '] := by
  rintro rfl
  obtain ⟨⟨c, t, e, h⟩, _⟩ := h
  cases e
  exact absurd h (by decide)

theorem items_flat : ∀ {its : List (Option Tok)}, (∀ t ∈ solid its, Knfmt.Doc.TextOk t.str) →
    Knfmt.Doc.Spec.items (flat its) = its.map asItem ∧ Tame (flat its)
  | [], _ => ⟨rfl, trivial⟩
  | none :: l, h => by
    have := items_flat (its := l) h
    exact ⟨by simp [flat, Knfmt.Doc.Spec.items, this.1, asItem], trivial, this.2⟩
  | some t :: l, h => by
    have h1 := h t (by simp [solid])
    have := items_flat (its := l) fun u hu => h u (by
      simp only [solid, List.filterMap_cons, id] at hu ⊢
      exact List.mem_cons_of_mem _ hu)
    exact ⟨by simp [flat, Knfmt.Doc.Spec.items, this.1, asItem, textOk_ne h1], Or.inr h1, this.2⟩

/-- Is this the text of a token? A check that is sufficient for the examples. -/
def tokenCheck (s : List Char) (ty : TT) : Bool :=
  Knfmt.Lexer.opCheck s ty ||
  match s with
  | [] => false
  | c :: t =>
    (Knfmt.Spec.identStart c && t.all Knfmt.Spec.identChar &&
      (decide (ty = .ident) && Knfmt.Lexer.table.all (fun k => k.1 ≠ c :: t) ||
        Knfmt.Lexer.table.any (fun k => k.1 = c :: t && k.2.1 = ty) && decide (ty ≠ .eof))) ||
    (Knfmt.Lexer.isDigit c && t.all Knfmt.Lexer.isNum && decide (ty = .literal))

theorem tokenCheck_ok {s : List Char} {ty : TT} (h : tokenCheck s ty = true) : IsToken s ty := by
  unfold tokenCheck at h
  rw [Bool.or_eq_true] at h
  rcases h with h | h
  · exact Knfmt.Lexer.isToken_op h
  · cases s with
    | nil => cases h
    | cons c t =>
      simp only [Bool.or_eq_true, Bool.and_eq_true] at h
      rcases h with ⟨⟨h1, h2⟩, h3 | h3⟩ | ⟨⟨h1, h2⟩, h3⟩
      · have e : ty = .ident := of_decide_eq_true h3.1
        rw [e]
        exact Knfmt.Lexer.isToken_ident h1 h2 h3.2
      · exact Knfmt.Lexer.isToken_keyword h1 h2 h3.1 (of_decide_eq_true h3.2)
      · have e : ty = .literal := of_decide_eq_true h3
        rw [e]
        exact Knfmt.Lexer.isToken_number h1 h2

theorem exFile_tokens : ∀ t ∈ exFile, IsToken t.str t.ty := by
  have : exFile.all (fun t => tokenCheck t.str t.ty) = true := by decide +kernel
  exact fun t hm => tokenCheck_ok (List.all_eq_true.1 this t hm)

/-- A lexer without alignment of line continuations. -/
def plainCx : Knfmt.Lexer.Ctx := ⟨false, fun s => some s, fun _ => false⟩

/-- The document of the example. -/
def exDoc : Doc := (parserDoc envNo 60 exFile).elim .nil fun x => .group (flat x.1)

set_option maxRecDepth 100000 in
/-- The claim applies: the file is accepted, nothing is recorded, there is such a document, and it is
printed. -/
example : ∃ its, parserDoc envNo 60 exFile = some (its, {}) ∧ Knfmt.Doc.Spec.items exDoc = its.map asItem ∧
    Tame exDoc ∧ (docExec { limit := 30 } false [] exDoc).ub = false := by
  have h1 : ((parserDoc envNo 60 exFile).any fun x => decide (x.2 = {})) = true := by decide +kernel
  have h2 : (docExec { limit := 30 } false [] exDoc).ub = false := by decide +kernel
  unfold exDoc at h2 ⊢
  cases e : parserDoc envNo 60 exFile with
  | none => rw [e] at h1; cases h1
  | some x =>
    obtain ⟨its, g⟩ := x
    rw [e] at h1 h2
    have hg : g = {} := of_decide_eq_true h1
    subst hg
    have hne : ∀ t ∈ exFile, t.ty ≠ .eof := fun t hm => (exFile_tokens t hm).notEof
    have hs := parserExec_tidy (parserExec_of_doc e) hne rfl rfl rfl
    have := items_flat (its := its) fun t hm => Knfmt.Doc.token_text (exFile_tokens t (hs.sublist.subset hm))
    exact ⟨its, rfl, this.1, this.2, h2⟩

/-! ## The condition is needed -/

/-- `int f(int a[static 10]);` -/
def exStatic : List Tok := number 1 [
  (.kInt, "int"), (.ident, "f"), (.lparen, "("), (.kInt, "int"), (.ident, "a"), (.lsquare, "["),
  (.kStatic, "static"), (.literal, "10"), (.rsquare, "]"), (.rparen, ")"), (.semi, ";")]

/-- `enum { A __unused };` -/
def exEnum : List Tok := number 1 [
  (.kEnum, "enum"), (.lbrace, "{"), (.ident, "A"), (.ident, "__unused"), (.rbrace, "}"), (.semi, ";")]

/-- What is printed for a file when all lines of the document are printed as spaces. -/
def printed (ts : List Tok) : Option (List Char) :=
  (parserDoc envNo 60 ts).map fun x => (docExec {} false [] (.group (flat x.1))).buf.reverse

set_option maxRecDepth 100000 in
/-- Finding: the size of an array parameter is printed without the space after `static`. -/
theorem C79_static_glued :
    (parserDoc envNo 60 exStatic).map (fun x => x.2) = some { glued := true } ∧
    printed exStatic = some ['i', 'n', 't', ' ', 'f', '(', 'i', 'n', 't', ' ', 'a', '[', 's', 't', 'a', 't', 'i',
      'c', '1', '0', ']', ')', ';', ' '] := by
  decide +kernel

set_option maxRecDepth 100000 in
/-- Finding: an enumerator and its attribute become one name. -/
theorem C79_enumerator_glued :
    (parserDoc envNo 60 exEnum).map (fun x => x.2) = some { glued := true } ∧
    printed exEnum = some ['e', 'n', 'u', 'm', ' ', '{', 'A', '_', '_', 'u', 'n', 'u', 's', 'e', 'd', '}', ';', ' '] := by
  decide +kernel

set_option maxRecDepth 100000 in
/-- The full claim is wrong: a valid declaration is printed in such a way that two of its tokens are read
as one. -/
theorem C79_statement_false : ¬ C79_statement := by
  intro h
  have ht : ∀ t ∈ exStatic, IsToken t.str t.ty := by
    have : exStatic.all (fun t => tokenCheck t.str t.ty) = true := by decide +kernel
    exact fun t hm => tokenCheck_ok (List.all_eq_true.1 this t hm)
  have h1 : ((parserDoc envNo 60 exStatic).any fun x => decide (solid x.1 = exStatic) &&
      ((tokensOf plainCx (docExec {} false [] (.group (flat x.1))).buf.reverse).any fun y =>
        decide (y.1 = some ['s', 't', 'a', 't', 'i', 'c', '1', '0']))
      && !(docExec {} false [] (.group (flat x.1))).ub) = true := by decide +kernel
  cases e : parserDoc envNo 60 exStatic with
  | none => rw [e] at h1; cases h1
  | some x =>
    obtain ⟨its, g⟩ := x
    rw [e] at h1
    simp only [Option.any_some, Bool.and_eq_true, decide_eq_true_eq, Bool.not_eq_true'] at h1
    obtain ⟨⟨h2, h3⟩, h4⟩ := h1
    have hf := items_flat (its := its) fun t hm => Knfmt.Doc.token_text (ht t (by rw [← h2]; exact hm))
    obtain ⟨out, h5, h6⟩ := h envNo 60 exStatic its g ht e {} rfl (.group (flat its)) hf.1 hf.2 h4 plainCx
    rw [h6] at h3
    obtain ⟨y, hy, hy'⟩ := List.any_eq_true.1 h3
    have hy' := of_decide_eq_true hy'
    unfold spelling at hy
    rcases List.mem_append.1 hy with hy | hy
    · obtain ⟨t, hm, rfl⟩ := List.mem_map.1 hy
      injection hy' with hy'
      have : ∀ t ∈ exStatic, t.str ≠ ['s', 't', 'a', 't', 'i', 'c', '1', '0'] := by decide +kernel
      exact this t (h5.sublist.subset hm) hy'
    · simp only [List.mem_singleton] at hy
      rw [hy] at hy'
      exact absurd hy' (by decide)

end Knfmt.Parse
