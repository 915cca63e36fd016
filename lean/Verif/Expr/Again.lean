import Verif.Expr.Pairs
import Verif.Lexer.IsToken
/-!
# A formatted expression reads back as the same tokens (C77)
-/
namespace Knfmt.ExprDoc
open Knfmt.Lexer
open Knfmt.Spec
open Knfmt.Doc (Doc TextOk Tame)
open Knfmt.Doc.Spec (Item items texts Apart)
open Knfmt.Expr (Ex yield Gram binop assignop prefixop incop)

/-- Operators that are not the start of a longer one. -/
def alone : TT → Bool
  | .lparen | .rparen | .lsquare | .rsquare | .comma | .tilde | .question | .colon | .plusplus | .minusminus
  | .arrow => true
  | _ => false

theorem alone_all {s : List Char} {ty : TT} (h : IsToken s ty) (ha : alone ty = true) (c : Char) :
    joins s c = false := by
  cases ty <;> first
    | exact absurd ha (by decide)
    | exact alone_joins h rfl (by decide +kernel) (by decide) (by decide) (by decide +kernel) c

theorem ident_head {c : Char} {t : List Char} (h : IsToken (c :: t) .ident) :
    isDigit c = false ∧ identStart c = true := by
  have e : kind (c :: t) = if isQuote c || (c = 'L' && t.head?.any isQuote) then 1
    else if isDigit c || (c = '.' && t.head?.any isDigit) then 2
    else if identStart c then 3
    else if operators.any fun o => o.isPrefixOf (c :: t) then 0
    else 4 := rfl
  have hk : kind (c :: t) = 3 := by
    rcases lexeme_inv h.lexeme with ⟨_, _, k, hk, _, h2⟩ | ⟨_, h1⟩ | ⟨_, _, _, _, _, h1⟩ | ⟨hk, _⟩ |
      ⟨_, _, _, _, _, h1⟩ | ⟨_, h1, _⟩
    · exact absurd h2.symm (table_words k hk).1
    · rcases h1 with ⟨_, _, _, _, _, _, _, _, h1⟩ | ⟨_, _, _, _, _, _, _, h1⟩
      · split at h1 <;> exact absurd h1 (by decide)
      · exact absurd h1 h.notEof
    · exact absurd h1 (by decide)
    · exact hk
    · split at h1 <;> exact absurd h1 (by decide)
    · exact absurd h1 (by simp)
  rw [e] at hk
  split at hk
  · omega
  · split at hk
    · omega
    · next h2 =>
      simp only [Bool.or_eq_true, not_or, Bool.not_eq_true] at h2
      split at hk
      · next h3 => exact ⟨h2.1, h3⟩
      · split at hk <;> omega

theorem sizeof_joins {s : List Char} (h : IsToken s .sizeof) : joins s '(' = false := by
  have hk : kind s = 3 := by
    rcases lexeme_inv h.lexeme with ⟨_, _, k, hk, h1, h2⟩ | ⟨_, h1⟩ | ⟨_, _, _, _, _, h1⟩ | ⟨hk, _⟩ |
      ⟨_, _, _, _, _, h1⟩ | ⟨_, _, _, h1⟩
    · rw [← h1]; exact ((table_words k hk).2.2.2.2 h2.symm).2
    · rcases h1 with ⟨_, _, _, _, _, _, _, _, h1⟩ | ⟨_, _, _, _, _, _, _, h1⟩
      · split at h1 <;> exact absurd h1 (by decide)
      · exact absurd h1 h.notEof
    · exact absurd h1 (by decide)
    · exact hk
    · split at h1 <;> exact absurd h1 (by decide)
    · exact absurd h1 h.notEof
  unfold joins; rw [hk]
  show (identChar '(' || (s = ['L'] && isQuote '(')) = false
  rw [show identChar '(' = false by decide, show isQuote '(' = false by decide]; simp

/-- The items of a tree: what they begin and end with, and that neighbours may be neighbours. -/
structure Edge (C : Conf) (e : Ex) : Prop where
  first : ∃ t, (yield e).head? = some t ∧ starter t.ty = true ∧ (eitems C e false).head? = some (.text t.str)
  last : ∃ t, (yield e).getLast? = some t ∧ ender t.ty = true ∧ (eitems C e false).getLast? = some (.text t.str)
  apart : Apart (eitems C e false)
  text : texts (eitems C e false) = (yield e).map (·.str)

/-- All the tokens are tokens. -/
def Toks (l : List Expr.Tok) : Prop := ∀ t ∈ l, IsToken t.str t.ty

theorem Edge.lastJ {C : Conf} {e : Ex} (h : Edge C e) (ht : Toks (yield e)) {s : List Char} {c : Char}
    (hs : (eitems C e false).getLast? = some (.text s))
    (hc : c ∈ [')', ']', '(', '[', ',', '+', '-', '*', '/', '|'] ∨
      (c = '.' ∧ ∀ t, (yield e).getLast? = some t → ¬ Number t.str)) : joins s c = false := by
  obtain ⟨t, h1, h2, h3⟩ := h.last
  rw [h3] at hs
  simp only [Option.some.injEq, Item.text.injEq] at hs
  rw [← hs]
  exact ender_joins (ht t (List.mem_of_getLast? h1)) h2 (hc.imp id fun h => ⟨h.1, h.2 t h1⟩)

theorem Edge.firstJ {C : Conf} {e : Ex} (h : Edge C e) (ht : Toks (yield e)) {c : Char} {s : List Char}
    (hs : (eitems C e false).head? = some (.text (c :: s))) :
    ∃ t, (yield e).head? = some t ∧ starter t.ty = true ∧ t.str = c :: s ∧ IsToken (c :: s) t.ty := by
  obtain ⟨t, h1, h2, h3⟩ := h.first
  rw [h3] at hs
  simp only [Option.some.injEq, Item.text.injEq] at hs
  exact ⟨t, h1, h2, hs, hs ▸ ht t (List.mem_of_head? h1)⟩

theorem apart_one (i : Item) : Apart [i] := by
  rw [apart_cons]
  exact ⟨fun s c t _ h => by simp at h, apart_nil⟩

theorem apart_sep {l : List Item} (h : Apart l) : Apart (.sep :: l) := by
  rw [apart_cons]
  exact ⟨fun s c t h => by simp at h, h⟩

theorem apart_alone {t : Expr.Tok} {l : List Item} (ht : IsToken t.str t.ty) (ha : alone t.ty = true)
    (h : Apart l) : Apart (.text t.str :: l) := by
  rw [apart_cons]
  refine ⟨fun s c _ e _ => ?_, h⟩
  simp only [Item.text.injEq] at e
  rw [← e]
  exact alone_all ht ha c

/-- An operand and an operator right after it. -/
theorem Edge.append {C : Conf} {e : Ex} (h : Edge C e) (ht : Toks (yield e)) {op : Expr.Tok} {x : Char} {r : List Char}
    (hx : op.str = x :: r) {l : List Item} (hl : Apart (.text op.str :: l))
    (hc : x ∈ [')', ']', '(', '[', ',', '+', '-', '*', '/', '|'] ∨
      (x = '.' ∧ ∀ t, (yield e).getLast? = some t → ¬ Number t.str)) :
    Apart (eitems C e false ++ .text op.str :: l) := by
  refine apart_append h.apart hl ?_
  intro s c t hs hh
  simp only [List.head?_cons, Option.some.injEq, Item.text.injEq] at hh
  rw [hx] at hh
  injection hh with hh _
  rw [← hh]
  exact h.lastJ ht hs hc

/-- An operand and white space after it. -/
theorem Edge.appendSep {C : Conf} {e : Ex} (h : Edge C e) {l : List Item} (hl : Apart l) :
    Apart (eitems C e false ++ .sep :: l) := by
  refine apart_append h.apart (apart_sep hl) ?_
  intro s c t hs hh
  simp at hh

theorem texts_text (s : List Char) (l : List Item) : texts (.text s :: l) = s :: texts l := rfl
theorem texts_sep (l : List Item) : texts (.sep :: l) = texts l := rfl
theorem texts_nil : texts [] = [] := rfl

theorem mem_texts {s : List Char} {l : List Item} (h : .text s ∈ l) : s ∈ texts l := by
  induction l with
  | nil => simp at h
  | cons i l ih =>
    rcases List.mem_cons.1 h with h' | h'
    · rw [← h', texts_text]; simp
    · cases i with
      | text t => rw [texts_text]; exact List.mem_cons_of_mem _ (ih h')
      | sep => rw [texts_sep]; exact ih h'

section
variable {Ty : List Expr.Tok → Prop} {name : Expr.Tok → Prop} {C : Conf}

/-- What is required of the documents of the callbacks: they print the tokens of the type, with
white space where it is needed. -/
def Printed (C : Conf) (Ty : List Expr.Tok → Prop) : Prop :=
  ∀ ts, Ty ts → texts (items (C.recDoc ts)) = ts.map (·.str) ∧ Apart (items (C.recDoc ts))

theorem type_rparen (hty : Printed C Ty) {ts : List Expr.Tok} (h : Ty ts) (ht : Toks ts) {r : Expr.Tok}
    {l : List Item} (hr : r.str = [')']) (hl : Apart (.text r.str :: l)) :
    Apart (items (C.recDoc ts) ++ .text r.str :: l) := by
  obtain ⟨h1, h2⟩ := hty ts h
  refine apart_append h2 hl ?_
  intro s c t hs hh
  simp only [List.head?_cons, Option.some.injEq, Item.text.injEq] at hh
  rw [hr] at hh
  injection hh with hh _
  rw [← hh]
  have hm : s ∈ texts (items (C.recDoc ts)) := by
    exact mem_texts (List.mem_of_getLast? hs)
  rw [h1, List.mem_map] at hm
  obtain ⟨t, ht', e⟩ := hm
  rw [← e]
  exact joins_rparen (ht t ht')

theorem str_of {t : Expr.Tok} (h : IsToken t.str t.ty) {ty : TT} (e : t.ty = ty) {x : List Char} (hx : opText ty = some x) :
    t.str = x := token_op h (by rw [e]; exact hx)

theorem incop_cases {ty : TT} (h : incop ty = true) : ty = .plusplus ∨ ty = .minusminus := by
  unfold incop at h
  simpa using h

/-- Expressions of C, whatever the precedence of the operators. `Ty` are the type names. The parser
makes trees that are not in the grammar, such as `(*p)++` for `*p++`. -/
inductive Shaped (Ty : List Expr.Tok → Prop) : Ex → Prop
  | lit {t} : t.ty = .ident ∨ t.ty = .literal ∨ t.ty = .string → Shaped Ty (.lit t)
  | strings {e t} : Shaped Ty e → t.ty = .string → Shaped Ty (.concat e t)
  | parens {l e r} : l.ty = .lparen → r.ty = .rparen → Shaped Ty e → Shaped Ty (.parens l e (some r))
  | call0 {f l r} : l.ty = .lparen → r.ty = .rparen → Shaped Ty f → Shaped Ty (.call f l .null (some r))
  | call {f l a r} : l.ty = .lparen → r.ty = .rparen → Shaped Ty f → Shaped Ty a → Shaped Ty (.call f l a (some r))
  | squares {f l i r} : l.ty = .lsquare → r.ty = .rsquare → Shaped Ty f → Shaped Ty i →
      Shaped Ty (.squares f l i (some r))
  | field {f op t} : (op.ty = .period ∨ op.ty = .arrow) → t.ty = .ident → Shaped Ty f →
      Shaped Ty (.field f op (.lit t))
  | post {e op} : incop op.ty = true → Shaped Ty e → Shaped Ty (.post e op)
  | pre {op e} : incop op.ty = true → Shaped Ty e → Shaped Ty (.pre op e)
  | un {op e} : prefixop op.ty = true → Shaped Ty e → Shaped Ty (.un op e)
  | sizeofE {tk e} : tk.ty = .sizeof → Shaped Ty e → Shaped Ty (.sizeofE tk e)
  | sizeofP {tk l e r} : tk.ty = .sizeof → l.ty = .lparen → r.ty = .rparen → Shaped Ty e →
      Shaped Ty (.sizeofP tk l e (some r))
  | sizeofT {tk l ts r} : tk.ty = .sizeof → l.ty = .lparen → r.ty = .rparen → Ty ts →
      Shaped Ty (.sizeofP tk l (.recov ts) (some r))
  | cast {l ts r e} : l.ty = .lparen → r.ty = .rparen → Ty ts → Shaped Ty e → Shaped Ty (.cast l ts (some r) e)
  | bin {l op r} : (binop op.ty).isSome = true → Shaped Ty l → Shaped Ty r → Shaped Ty (.bin l op r)
  | tern {c q m co t} : q.ty = .question → co.ty = .colon → Shaped Ty c → Shaped Ty m → Shaped Ty t →
      Shaped Ty (.tern c q m (some co) t)
  | assign {l op r} : assignop op.ty = true → Shaped Ty l → Shaped Ty r → Shaped Ty (.bin l op r)
  | comma {l op r} : op.ty = .comma → Shaped Ty l → Shaped Ty r → Shaped Ty (.bin l op r)

/-- The trees of the grammar are among them. -/
theorem gram_shaped {n : Nat} {e : Ex} (h : Gram Ty name n e) : Shaped Ty e := by
  induction h with
  | up _ ih => exact ih
  | ident a _ => exact .lit (Or.inl a)
  | constant a => exact .lit (Or.inr (Or.inl a))
  | string a => exact .lit (Or.inr (Or.inr a))
  | strings1 a b => exact .strings (.lit (Or.inr (Or.inr a))) b
  | strings2 _ b ih => exact .strings ih b
  | parens a b _ ih => exact .parens a b ih
  | call0 a b _ ih => exact .call0 a b ih
  | call a b _ _ ih ih2 => exact .call a b ih ih2
  | squares a b _ _ ih ih2 => exact .squares a b ih ih2
  | field a b _ _ ih => exact .field a b ih
  | post a _ ih => exact .post a ih
  | pre a _ ih => exact .pre a ih
  | un a _ ih => exact .un a ih
  | sizeofE a _ ih => exact .sizeofE a ih
  | sizeofP a b c _ ih => exact .sizeofP a b c ih
  | sizeofT a b c d => exact .sizeofT a b c d
  | cast a b c _ ih => exact .cast a b c ih
  | bin a _ _ ih ih2 => exact .bin (by rw [a]; rfl) ih ih2
  | tern a b _ _ _ ih ih2 ih3 => exact .tern a b ih ih2 ih3
  | assign a _ _ ih ih2 => exact .assign a ih ih2
  | comma a _ _ ih ih2 => exact .comma a ih ih2

theorem shaped_edge (hs : C.simpleSizeof = false) (hty : Printed C Ty) {e : Ex} (h : Shaped Ty e)
    (hcl : Clean C.spaced e) (htok : Toks (yield e)) : Edge C e := by
  have litE : ∀ t : Expr.Tok, starter t.ty = true → ender t.ty = true → Edge C (.lit t) := fun t h1 h2 =>
    ⟨⟨t, rfl, h1, rfl⟩, ⟨t, rfl, h2, rfl⟩, apart_one _, rfl⟩
  induction h with
  | lit h => exact litE _ (by rcases h with h | h | h <;> rw [h] <;> rfl) (by rcases h with h | h | h <;> rw [h] <;> rfl)
  | @strings e t _ h2 ih =>
    have E := ih hcl (fun x hx => htok x (by simp only [yield, List.mem_append]; exact Or.inl hx))
    obtain ⟨x, a, b, c⟩ := E.first
    refine ⟨⟨x, ?_, b, ?_⟩, ⟨t, ?_, by rw [h2]; rfl, ?_⟩, E.appendSep (apart_one _), ?_⟩
    · show (yield e ++ [t]).head? = _
      rw [List.head?_append, a]; rfl
    · show (eitems C e false ++ [Item.sep, Item.text t.str]).head? = _
      rw [List.head?_append, c]; rfl
    · show (yield e ++ [t]).getLast? = _
      rw [List.getLast?_append]; rfl
    · show (eitems C e false ++ [Item.sep, Item.text t.str]).getLast? = _
      rw [List.getLast?_append]; rfl
    · show texts (eitems C e false ++ [Item.sep, Item.text t.str]) = (yield e ++ [t]).map _
      rw [Knfmt.Doc.texts_append, E.text, List.map_append]; rfl
  | @parens l e r h1 h2 _ ih =>
    have hl := htok l (by simp [yield])
    have hr := htok r (by simp [yield])
    have ht : Toks (yield e) := fun x hx => htok x (by simp [yield, hx])
    have E := ih hcl ht
    have hrs := str_of hr h2 (x := [')']) rfl
    refine ⟨⟨l, rfl, by rw [h1]; rfl, rfl⟩, ⟨r, ?_, by rw [h2]; rfl, ?_⟩, ?_, ?_⟩
    · simp [yield, List.getLast?_cons]
    · simp [eitems, List.getLast?_cons]
    · exact apart_alone hl (by rw [h1]; rfl) (E.append ht hrs (apart_one _) (Or.inl (by simp)))
    · simp [eitems, texts_text, Knfmt.Doc.texts_append, E.text, yield, texts_nil]
  | @call0 f l r h1 h2 _ ih =>
    have hl := htok l (by simp [yield])
    have hr := htok r (by simp [yield])
    have ht : Toks (yield f) := fun x hx => htok x (by simp [yield, hx])
    have E := ih hcl.1 ht
    have hls := str_of hl h1 (x := ['(']) rfl
    obtain ⟨x, a, b, c⟩ := E.first
    refine ⟨⟨x, ?_, b, ?_⟩, ⟨r, ?_, by rw [h2]; rfl, ?_⟩, ?_, ?_⟩
    · simp [yield, List.head?_append, a]
    · simp [eitems, List.head?_append, c]
    · simp [yield, List.getLast?_append]
    · simp [eitems, List.getLast?_append]
    · exact E.append ht hls (apart_alone hl (by rw [h1]; rfl) (apart_one _)) (Or.inl (by simp))
    · simp [eitems, texts_text, Knfmt.Doc.texts_append, E.text, yield, texts_nil]
  | @call f l a' r h1 h2 _ _ ih ih2 =>
    have hl := htok l (by simp [yield])
    have hr := htok r (by simp [yield])
    have ht : Toks (yield f) := fun x hx => htok x (by simp [yield, hx])
    have ht2 : Toks (yield a') := fun x hx => htok x (by simp [yield, hx])
    have E := ih hcl.1 ht
    have E2 := ih2 hcl.2 ht2
    have hls := str_of hl h1 (x := ['(']) rfl
    have hrs := str_of hr h2 (x := [')']) rfl
    obtain ⟨x, a, b, c⟩ := E.first
    refine ⟨⟨x, ?_, b, ?_⟩, ⟨r, ?_, by rw [h2]; rfl, ?_⟩, ?_, ?_⟩
    · simp [yield, List.head?_append, a]
    · simp [eitems, List.head?_append, c]
    · simp [yield, List.getLast?_append, List.getLast?_cons]
    · simp [eitems, List.getLast?_append, List.getLast?_cons]
    · exact E.append ht hls (apart_alone hl (by rw [h1]; rfl) (E2.append ht2 hrs (apart_one _) (Or.inl (by simp))))
        (Or.inl (by simp))
    · simp [eitems, texts_text, Knfmt.Doc.texts_append, E.text, E2.text, yield, texts_nil]
  | @squares f l a' r h1 h2 _ _ ih ih2 =>
    have hl := htok l (by simp [yield])
    have hr := htok r (by simp [yield])
    have ht : Toks (yield f) := fun x hx => htok x (by simp [yield, hx])
    have ht2 : Toks (yield a') := fun x hx => htok x (by simp [yield, hx])
    have E := ih hcl.1 ht
    have E2 := ih2 hcl.2 ht2
    have hls := str_of hl h1 (x := ['[']) rfl
    have hrs := str_of hr h2 (x := [']']) rfl
    obtain ⟨x, a, b, c⟩ := E.first
    refine ⟨⟨x, ?_, b, ?_⟩, ⟨r, ?_, by rw [h2]; rfl, ?_⟩, ?_, ?_⟩
    · simp [yield, List.head?_append, a]
    · simp [eitems, List.head?_append, c]
    · simp [yield, List.getLast?_append, List.getLast?_cons]
    · simp [eitems, List.getLast?_append, List.getLast?_cons]
    · exact E.append ht hls (apart_alone hl (by rw [h1]; rfl) (E2.append ht2 hrs (apart_one _) (Or.inl (by simp))))
        (Or.inl (by simp))
    · simp [eitems, texts_text, Knfmt.Doc.texts_append, E.text, E2.text, yield, texts_nil]
  | @field f op t h1 h2 _ ih =>
    have ho := htok op (by simp [yield])
    have hi := htok t (by simp [yield])
    have ht : Toks (yield f) := fun x hx => htok x (by simp [yield, hx])
    have E := ih hcl.1 ht
    obtain ⟨x, a, b, c⟩ := E.first
    refine ⟨⟨x, ?_, b, ?_⟩, ⟨t, ?_, by rw [h2]; rfl, ?_⟩, ?_, ?_⟩
    · simp [yield, List.head?_append, a]
    · simp [eitems, List.head?_append, c]
    · simp [yield, List.getLast?_append, List.getLast?_cons]
    · simp [eitems, List.getLast?_append, List.getLast?_cons]
    · rcases h1 with h1 | h1
      · have hos := str_of ho h1 (x := ['.']) rfl
        refine E.append ht hos ?_ (Or.inr ⟨rfl, hcl.2.2 h1⟩)
        rw [apart_cons]
        refine ⟨fun s c u e hh => ?_, apart_one _⟩
        simp only [Item.text.injEq] at e
        simp only [eitems, List.head?_cons, Option.some.injEq, Item.text.injEq] at hh
        rw [← e, hos]
        rw [h2, hh] at hi
        obtain ⟨d1, d2⟩ := ident_head hi
        cases hj : joins ['.'] c with
        | false => rfl
        | true =>
          exfalso
          rcases joins_op (by decide +kernel) hj with h | ⟨_, h⟩ | ⟨h, _⟩
          · have n : ∀ d ∈ nexts ['.'], d = '.' := by decide +kernel
            rw [n c h] at d2
            exact absurd d2 (by decide)
          · rw [d1] at h; exact absurd h (by decide)
          · exact absurd h (by decide)
      · have hos := str_of ho h1 (x := ['-', '>']) rfl
        exact E.append ht hos (apart_alone ho (by rw [h1]; rfl) (apart_one _)) (Or.inl (by simp))
    · simp [eitems, texts_text, Knfmt.Doc.texts_append, E.text, yield, texts_nil]
  | @post e op h1 _ ih =>
    have ho := htok op (by simp [yield])
    have ht : Toks (yield e) := fun x hx => htok x (by simp [yield, hx])
    have E := ih hcl ht
    obtain ⟨x, a, b, c⟩ := E.first
    refine ⟨⟨x, ?_, b, ?_⟩, ⟨op, ?_, ?_, ?_⟩, ?_, ?_⟩
    · simp [yield, List.head?_append, a]
    · simp [eitems, List.head?_append, c]
    · simp [yield, List.getLast?_append]
    · rcases incop_cases h1 with h | h <;> rw [h] <;> rfl
    · simp [eitems, List.getLast?_append]
    · rcases incop_cases h1 with h | h
      · exact E.append ht (str_of ho h (x := ['+', '+']) rfl) (apart_one _) (Or.inl (by simp))
      · exact E.append ht (str_of ho h (x := ['-', '-']) rfl) (apart_one _) (Or.inl (by simp))
    · simp [eitems, texts_text, Knfmt.Doc.texts_append, E.text, yield, texts_nil]
  | @pre op e h1 _ ih =>
    have ho := htok op (by simp [yield])
    have ht : Toks (yield e) := fun x hx => htok x (by simp [yield, hx])
    have E := ih hcl ht
    obtain ⟨x, a, b, c⟩ := E.last
    refine ⟨⟨op, rfl, ?_, rfl⟩, ⟨x, ?_, b, ?_⟩, ?_, ?_⟩
    · rcases incop_cases h1 with h | h <;> rw [h] <;> rfl
    · simp [yield, List.getLast?_cons, a]
    · simp [eitems, List.getLast?_cons, c]
    · exact apart_alone ho (by rcases incop_cases h1 with h | h <;> rw [h] <;> rfl) E.apart
    · simp [eitems, texts_text, E.text, yield]
  | @un op e h1 _ ih =>
    have ho := htok op (by simp [yield])
    have ht : Toks (yield e) := fun x hx => htok x (by simp [yield, hx])
    have E := ih hcl.1 ht
    obtain ⟨x, a, b, c⟩ := E.last
    refine ⟨⟨op, rfl, ?_, rfl⟩, ⟨x, ?_, b, ?_⟩, ?_, ?_⟩
    · revert h1; cases op.ty <;> simp [prefixop, starter]
    · simp [yield, List.getLast?_cons, a]
    · simp [eitems, List.getLast?_cons, c]
    · show Apart (.text op.str :: eitems C e false)
      rw [apart_cons]
      refine ⟨fun s c u e' hh => ?_, E.apart⟩
      simp only [Item.text.injEq] at e'
      rw [← e']
      obtain ⟨t, t1, t2, _, t4⟩ := E.firstJ ht hh
      exact prefix_joins ho h1 t4 t2 (hcl.2 t t1)
    · simp [eitems, texts_text, E.text, yield]
  | @sizeofE tk e h1 _ ih =>
    have ho := htok tk (by simp [yield])
    have ht : Toks (yield e) := fun x hx => htok x (by simp [yield, hx])
    have E := ih hcl ht
    obtain ⟨x, a, b, c⟩ := E.last
    refine ⟨⟨tk, rfl, by rw [h1]; rfl, rfl⟩, ⟨x, ?_, b, ?_⟩, ?_, ?_⟩
    · simp [yield, List.getLast?_cons, a]
    · simp [eitems, List.getLast?_cons, c, hs]
    · simp only [eitems, hs, Bool.false_eq_true, if_false, List.append_nil]
      rw [apart_cons]
      exact ⟨fun s c t _ h => by simp at h, apart_sep E.apart⟩
    · simp [eitems, texts_text, texts_sep, E.text, yield, hs]
  | @sizeofP tk l e r h1 h2 h3 _ ih =>
    have ho := htok tk (by simp [yield])
    have hl := htok l (by simp [yield])
    have hr := htok r (by simp [yield])
    have ht : Toks (yield e) := fun x hx => htok x (by simp [yield, hx])
    have E := ih hcl ht
    have hls := str_of hl h2 (x := ['(']) rfl
    have hrs := str_of hr h3 (x := [')']) rfl
    refine ⟨⟨tk, rfl, by rw [h1]; rfl, rfl⟩, ⟨r, ?_, by rw [h3]; rfl, ?_⟩, ?_, ?_⟩
    · simp [yield, List.getLast?_append, List.getLast?_cons]
    · simp [eitems, List.getLast?_append, List.getLast?_cons]
    · show Apart (.text tk.str :: .text l.str :: (eitems C e false ++ [.text r.str]))
      rw [apart_cons]
      refine ⟨fun s c u e' hh => ?_, apart_alone hl (by rw [h2]; rfl)
        (E.append ht hrs (apart_one _) (Or.inl (by simp)))⟩
      simp only [List.head?_cons, Option.some.injEq, Item.text.injEq] at hh e'
      rw [hls] at hh
      injection hh with hh _
      rw [← hh, ← e']
      rw [h1] at ho
      exact sizeof_joins ho
    · simp [eitems, texts_text, Knfmt.Doc.texts_append, E.text, yield, texts_nil]
  | @sizeofT tk l ts r h1 h2 h3 h4 =>
    have ho := htok tk (by simp [yield])
    have hl := htok l (by simp [yield])
    have hr := htok r (by simp [yield])
    have ht : Toks ts := fun x hx => htok x (by simp [yield, hx])
    have hls := str_of hl h2 (x := ['(']) rfl
    have hrs := str_of hr h3 (x := [')']) rfl
    refine ⟨⟨tk, rfl, by rw [h1]; rfl, rfl⟩, ⟨r, ?_, by rw [h3]; rfl, ?_⟩, ?_, ?_⟩
    · simp [yield, List.getLast?_append, List.getLast?_cons]
    · simp [eitems, List.getLast?_append, List.getLast?_cons]
    · show Apart (.text tk.str :: .text l.str :: (items (C.recDoc ts) ++ [.text r.str]))
      rw [apart_cons]
      refine ⟨fun s c u e' hh => ?_, apart_alone hl (by rw [h2]; rfl)
        (type_rparen hty h4 ht hrs (apart_one _))⟩
      simp only [List.head?_cons, Option.some.injEq, Item.text.injEq] at hh e'
      rw [hls] at hh
      injection hh with hh _
      rw [← hh, ← e']
      rw [h1] at ho
      exact sizeof_joins ho
    · simp [eitems, texts_text, Knfmt.Doc.texts_append, (hty ts h4).1, yield, texts_nil]
  | @cast l ts r e h1 h2 h3 _ ih =>
    have hl := htok l (by simp [yield])
    have hr := htok r (by simp [yield])
    have ht : Toks ts := fun x hx => htok x (by simp [yield, hx])
    have ht2 : Toks (yield e) := fun x hx => htok x (by simp [yield, hx])
    have E := ih hcl ht2
    have hrs := str_of hr h2 (x := [')']) rfl
    obtain ⟨x, a, b, c⟩ := E.last
    refine ⟨⟨l, rfl, by rw [h1]; rfl, rfl⟩, ⟨x, ?_, b, ?_⟩, ?_, ?_⟩
    · simp [yield, List.getLast?_append, List.getLast?_cons, a]
    · simp [eitems, List.getLast?_append, List.getLast?_cons, c]
    · show Apart (.text l.str :: (items (C.recDoc ts) ++ .text r.str :: eitems C e false))
      exact apart_alone hl (by rw [h1]; rfl)
        (type_rparen hty h3 ht hrs (apart_alone hr (by rw [h2]; rfl) E.apart))
    · simp [eitems, texts_text, Knfmt.Doc.texts_append, (hty ts h3).1, E.text, yield]
  | @bin l op r h1 _ _ ih ih2 =>
    have ho := htok op (by simp [yield])
    have ht : Toks (yield l) := fun x hx => htok x (by simp [yield, hx])
    have ht2 : Toks (yield r) := fun x hx => htok x (by simp [yield, hx])
    have E := ih hcl.1 ht
    have E2 := ih2 hcl.2.1 ht2
    have hnc : op.ty ≠ .comma := by intro h; rw [h] at h1; simp [binop] at h1
    obtain ⟨x, a, b, c⟩ := E.first
    obtain ⟨x', a', b', c'⟩ := E2.last
    cases hsp : (assignFlag op.ty || hasSpaces C op) with
    | true =>
      refine ⟨⟨x, ?_, b, ?_⟩, ⟨x', ?_, b', ?_⟩, ?_, ?_⟩
      · simp [yield, List.head?_append, a]
      · simp [eitems, hnc, hsp, List.head?_append, c]
      · simp [yield, List.getLast?_append, List.getLast?_cons, a']
      · simp [eitems, hnc, hsp, List.getLast?_append, List.getLast?_cons, c']
      · simp only [eitems, hnc, hsp, if_true, if_false]
        refine E.appendSep ?_
        rw [apart_cons]
        exact ⟨fun s c t _ h => by simp at h, apart_sep E2.apart⟩
      · simp [eitems, hnc, hsp, texts_text, texts_sep, Knfmt.Doc.texts_append, E.text, E2.text, yield]
    | false =>
      have hsp' : hasSpaces C op = false := by
        rw [Bool.or_eq_false_iff] at hsp; exact hsp.2
      refine ⟨⟨x, ?_, b, ?_⟩, ⟨x', ?_, b', ?_⟩, ?_, ?_⟩
      · simp [yield, List.head?_append, a]
      · simp [eitems, hnc, hsp, List.head?_append, c]
      · simp [yield, List.getLast?_append, List.getLast?_cons, a']
      · simp [eitems, hnc, hsp, List.getLast?_append, List.getLast?_cons, c']
      · simp only [eitems, hnc, hsp, if_false, Bool.false_eq_true]
        obtain ⟨y, y1, y2, y3⟩ := E2.first
        obtain ⟨d, ys, hd⟩ : ∃ d ys, y.str = d :: ys := by
          obtain ⟨d, ys, hd, _⟩ := (ht2 y (List.mem_of_head? y1)).first
          exact ⟨d, ys, hd⟩
        have hy := ht2 y (List.mem_of_head? y1)
        rw [hd] at hy
        obtain ⟨j1, d', j2, j3⟩ := tight_joins (C := C) ho hsp' hy y2 (fun h h' => hcl.2.2 h h' y y1)
        refine E.append ht j2 ?_ (Or.inl (by rcases j3 with h | h | h <;> rw [h] <;> simp))
        rw [apart_cons]
        refine ⟨fun s c t e hh => ?_, E2.apart⟩
        simp only [Item.text.injEq] at e
        rw [y3, hd] at hh
        simp only [Option.some.injEq, Item.text.injEq, List.cons.injEq] at hh
        rw [← e, ← hh.1]
        exact j1
      · simp [eitems, hnc, hsp, texts_text, Knfmt.Doc.texts_append, E.text, E2.text, yield]
  | @tern cd q m co t h1 h2 _ _ _ ih ih2 ih3 =>
    have hq := htok q (by simp [yield])
    have hc := htok co (by simp [yield])
    have ht : Toks (yield cd) := fun x hx => htok x (by simp [yield, hx])
    have ht2 : Toks (yield m) := fun x hx => htok x (by simp [yield, hx])
    have ht3 : Toks (yield t) := fun x hx => htok x (by simp [yield, hx])
    have E := ih hcl.1 ht
    have E2 := ih2 hcl.2.1 ht2
    have E3 := ih3 hcl.2.2 ht3
    have hm : isNull m = false := by
      cases hm : m <;> first | rfl | skip
      obtain ⟨x, a, _⟩ := E2.first
      rw [hm] at a
      simp [yield] at a
    obtain ⟨x, a, b, c⟩ := E.first
    obtain ⟨x', a', b', c'⟩ := E3.last
    refine ⟨⟨x, ?_, b, ?_⟩, ⟨x', ?_, b', ?_⟩, ?_, ?_⟩
    · simp [yield, List.head?_append, a]
    · simp [eitems, List.head?_append, c]
    · simp [yield, List.getLast?_append, List.getLast?_cons, a']
    · simp [eitems, List.getLast?_append, List.getLast?_cons, c']
    · simp only [eitems, hm, Bool.false_eq_true, if_false, Option.toList_some, List.map_cons, List.map_nil]
      refine E.appendSep (apart_alone hq (by rw [h1]; rfl) ?_)
      rw [List.cons_append, List.append_assoc]
      refine apart_sep (E2.appendSep (apart_alone hc (by rw [h2]; rfl) (apart_sep E3.apart)))
    · simp [eitems, hm, texts_text, texts_sep, Knfmt.Doc.texts_append, E.text, E2.text, E3.text, yield]
  | @assign l op r h1 _ _ ih ih2 =>
    have ht : Toks (yield l) := fun x hx => htok x (by simp [yield, hx])
    have ht2 : Toks (yield r) := fun x hx => htok x (by simp [yield, hx])
    have E := ih hcl.1 ht
    have E2 := ih2 hcl.2.1 ht2
    have hnc : op.ty ≠ .comma := by intro h; rw [h] at h1; simp [assignop] at h1
    have hsp : (assignFlag op.ty || hasSpaces C op) = true := by
      have : assignFlag op.ty = true := by
        revert h1; cases op.ty <;> simp [assignop] <;> decide +kernel
      rw [this]; rfl
    obtain ⟨x, a, b, c⟩ := E.first
    obtain ⟨x', a', b', c'⟩ := E2.last
    refine ⟨⟨x, ?_, b, ?_⟩, ⟨x', ?_, b', ?_⟩, ?_, ?_⟩
    · simp [yield, List.head?_append, a]
    · simp [eitems, hnc, hsp, List.head?_append, c]
    · simp [yield, List.getLast?_append, List.getLast?_cons, a']
    · simp [eitems, hnc, hsp, List.getLast?_append, List.getLast?_cons, c']
    · simp only [eitems, hnc, hsp, if_true, if_false]
      refine E.appendSep ?_
      rw [apart_cons]
      exact ⟨fun s c t _ h => by simp at h, apart_sep E2.apart⟩
    · simp [eitems, hnc, hsp, texts_text, texts_sep, Knfmt.Doc.texts_append, E.text, E2.text, yield]
  | @comma l op r h1 _ _ ih ih2 =>
    have ho := htok op (by simp [yield])
    have ht : Toks (yield l) := fun x hx => htok x (by simp [yield, hx])
    have ht2 : Toks (yield r) := fun x hx => htok x (by simp [yield, hx])
    have E := ih hcl.1 ht
    have E2 := ih2 hcl.2.1 ht2
    have hos := str_of ho h1 (x := [',']) rfl
    obtain ⟨x, a, b, c⟩ := E.first
    obtain ⟨x', a', b', c'⟩ := E2.last
    refine ⟨⟨x, ?_, b, ?_⟩, ⟨x', ?_, b', ?_⟩, ?_, ?_⟩
    · simp [yield, List.head?_append, a]
    · simp [eitems, h1, List.head?_append, c]
    · simp [yield, List.getLast?_append, List.getLast?_cons, a']
    · simp [eitems, h1, List.getLast?_append, List.getLast?_cons, c']
    · simp only [eitems, h1, if_true]
      refine E.append ht hos (apart_alone ho (by rw [h1]; rfl) ?_) (Or.inl (by simp))
      split
      · exact E2.apart
      · exact apart_sep E2.apart
    · simp only [eitems, h1, if_true]
      split <;>
      simp [texts_text, texts_sep, Knfmt.Doc.texts_append, E.text, E2.text, yield]

end

/-! ## Simplification -/

/-- The tokens `expr_doc_sizeof` makes, expr.c:1031-1041. -/
def newL : Expr.Tok := ⟨0, .lparen, ['(']⟩
def newR : Expr.Tok := ⟨0, .rparen, [')']⟩

/-- Specification: `sizeof e` becomes `sizeof(e)`, everywhere. -/
def sizeofs : Ex → Ex
  | .null => .null
  | .lit t => .lit t
  | .un op e => .un op (sizeofs e)
  | .pre op e => .pre op (sizeofs e)
  | .post e op => .post (sizeofs e) op
  | .bin l op r => .bin (sizeofs l) op (sizeofs r)
  | .tern c q m co t => .tern (sizeofs c) q (sizeofs m) co (sizeofs t)
  | .parens l e r => .parens l (sizeofs e) r
  | .call f l a r => .call (sizeofs f) l (sizeofs a) r
  | .squares f l i r => .squares (sizeofs f) l (sizeofs i) r
  | .field l op r => .field (sizeofs l) op (sizeofs r)
  | .cast l ts r e => .cast l ts r (sizeofs e)
  | .sizeofE tk e => .sizeofP tk newL (sizeofs e) (some newR)
  | .sizeofP tk l e r => .sizeofP tk l (sizeofs e) r
  | .concat e t => .concat (sizeofs e) t
  | .recov ts => .recov ts

/-- Specification: the parentheses around the whole expression are removed. -/
def unparen : Ex → Ex
  | .parens _ e _ => e
  | e => e

/-- Specification: what simplification makes out of an expression. -/
def simplified (parens sizeof : Bool) (e : Ex) : Ex :=
  let e := if parens then unparen e else e
  if sizeof then sizeofs e else e

theorem isToken_newL : IsToken newL.str newL.ty := isToken_op (by decide +kernel)
theorem isToken_newR : IsToken newR.str newR.ty := isToken_op (by decide +kernel)

theorem sizeofs_isNull (e : Ex) : isNull (sizeofs e) = isNull e := by cases e <;> rfl

/-- No simplification. -/
def Conf.plain (C : Conf) : Conf := { C with simpleParens := false, simpleSizeof := false }

theorem eitems_plain (C : Conf) (h : C.simpleSizeof = false) (e : Ex) (b : Bool) :
    eitems C e false = eitems C.plain e b := by
  induction e generalizing b <;> simp_all [eitems, Conf.plain, hasSpaces, noSep]

theorem eitems_sizeofs (C : Conf) (h : C.simpleSizeof = true) (e : Ex) :
    eitems C e false = eitems C.plain (sizeofs e) false := by
  induction e <;> simp_all [eitems, sizeofs, Conf.plain, hasSpaces, noSep, sizeofs_isNull, newL, newR]

theorem eitems_simplified (C : Conf) (e : Ex) :
    eitems C e true = eitems C.plain (simplified C.simpleParens C.simpleSizeof e) false := by
  have h1 : ∀ e, eitems C e false = eitems C.plain (if C.simpleSizeof then sizeofs e else e) false := by
    intro e
    cases h : C.simpleSizeof with
    | true => exact eitems_sizeofs C h e
    | false => exact eitems_plain C h e false
  have h2 : C.simpleParens = false → eitems C e true = eitems C e false := by
    intro h
    cases e <;> simp [eitems, h]
  cases h : C.simpleParens with
  | false =>
    rw [h2 h]; exact h1 e
  | true =>
    cases e with
    | parens l e r => simp [eitems, h, simplified, unparen, h1 e]
    | _ => simp only [simplified, unparen, if_true]; rw [← h1]; first | rfl | simp [eitems]

theorem shaped_sizeofs {Ty : List Expr.Tok → Prop} {e : Ex} (h : Shaped Ty e) : Shaped Ty (sizeofs e) := by
  induction h with
  | lit a => exact .lit a
  | strings _ b ih => exact .strings ih b
  | parens a b _ ih => exact .parens a b ih
  | call0 a b _ ih => exact .call0 a b ih
  | call a b _ _ ih ih2 => exact .call a b ih ih2
  | squares a b _ _ ih ih2 => exact .squares a b ih ih2
  | field a b _ ih => exact .field a b ih
  | post a _ ih => exact .post a ih
  | pre a _ ih => exact .pre a ih
  | un a _ ih => exact .un a ih
  | sizeofE a _ ih => exact .sizeofP a rfl rfl ih
  | sizeofP a b c _ ih => exact .sizeofP a b c ih
  | sizeofT a b c d => exact .sizeofT a b c d
  | cast a b c _ ih => exact .cast a b c ih
  | bin a _ _ ih ih2 => exact .bin a ih ih2
  | tern a b _ _ _ ih ih2 ih3 => exact .tern a b ih ih2 ih3
  | assign a _ _ ih ih2 => exact .assign a ih ih2
  | comma a _ _ ih ih2 => exact .comma a ih ih2

theorem shaped_unparen {Ty : List Expr.Tok → Prop} {e : Ex} (h : Shaped Ty e) : Shaped Ty (unparen e) := by
  cases h with
  | parens _ _ h => exact h
  | lit a => exact .lit a
  | strings a b => exact .strings a b
  | call0 a b c => exact .call0 a b c
  | call a b c d => exact .call a b c d
  | squares a b c d => exact .squares a b c d
  | field a b c => exact .field a b c
  | post a b => exact .post a b
  | pre a b => exact .pre a b
  | un a b => exact .un a b
  | sizeofE a b => exact .sizeofE a b
  | sizeofP a b c d => exact .sizeofP a b c d
  | sizeofT a b c d => exact .sizeofT a b c d
  | cast a b c d => exact .cast a b c d
  | bin a b c => exact .bin a b c
  | tern a b c d e => exact .tern a b c d e
  | assign a b c => exact .assign a b c
  | comma a b c => exact .comma a b c

theorem head_sizeofs (e : Ex) : (yield (sizeofs e)).head? = (yield e).head? := by
  induction e <;> simp_all [yield, sizeofs, List.head?_append]

/-- The same first token, and the same last one or the one made by `sizeofs`. -/
def Same (a' a : List Expr.Tok) : Prop :=
  a'.head? = a.head? ∧ ∀ t, a'.getLast? = some t → a.getLast? = some t ∨ t = newR

theorem Same.refl (a : List Expr.Tok) : Same a a := ⟨rfl, fun _ h => Or.inl h⟩

theorem Same.append {a a' b b' : List Expr.Tok} (ha : Same a' a) (hb : Same b' b) : Same (a' ++ b') (a ++ b) := by
  refine ⟨by rw [List.head?_append, List.head?_append, ha.1, hb.1], ?_⟩
  intro t h
  rw [List.getLast?_append] at h ⊢
  cases hx : b'.getLast? with
  | some x =>
    rw [hx, Option.some_or, Option.some.injEq] at h
    rcases hb.2 x hx with h' | h'
    · rw [h', ← h]; simp
    · exact Or.inr (h.symm.trans h')
  | none =>
    rw [hx, Option.none_or] at h
    rw [List.getLast?_eq_none_iff, ← List.head?_eq_none_iff, hb.1, List.head?_eq_none_iff,
      ← List.getLast?_eq_none_iff] at hx
    rw [hx, Option.none_or]
    exact ha.2 t h

theorem Same.cons {a a' : List Expr.Tok} (x : Expr.Tok) (h : Same a' a) : Same (x :: a') (x :: a) :=
  (Same.refl [x]).append h

theorem same_sizeofs (e : Ex) : Same (yield (sizeofs e)) (yield e) := by
  induction e with
  | null => exact .refl _
  | lit _ => exact .refl _
  | recov _ => exact .refl _
  | un op e ih => exact ih.cons op
  | pre op e ih => exact ih.cons op
  | post e op ih => exact ih.append (.refl _)
  | concat e op ih => exact ih.append (.refl _)
  | bin l op r ih ih2 => exact ih.append (ih2.cons op)
  | field l op r ih ih2 => exact ih.append (ih2.cons op)
  | tern c q m co t ih ih2 ih3 => exact ih.append (Same.cons q (ih2.append ((Same.refl _).append ih3)))
  | parens l e r ih => exact Same.cons l (ih.append (.refl _))
  | call f l a r ih ih2 => exact ih.append (Same.cons l (ih2.append (.refl _)))
  | squares f l a r ih ih2 => exact ih.append (Same.cons l (ih2.append (.refl _)))
  | cast l ts r e ih => exact Same.cons l ((Same.refl ts).append ((Same.refl _).append ih))
  | sizeofE tk e ih =>
    refine ⟨rfl, fun t h => Or.inr ?_⟩
    have : (tk :: newL :: (yield (sizeofs e) ++ [newR])).getLast? = some newR := by
      simp [List.getLast?_cons]
    exact (Option.some.inj (this.symm.trans h)).symm
  | sizeofP tk l e r ih => exact Same.cons tk (Same.cons l (ih.append (.refl _)))

theorem last_sizeofs (e : Ex) : ∀ t : Expr.Tok, (yield (sizeofs e)).getLast? = some t →
    (yield e).getLast? = some t ∨ t = newR := (same_sizeofs e).2

theorem not_number_newR : ¬ Number newR.str := by
  rintro ⟨c, r, e, h⟩
  injection e with e _
  rw [← e] at h
  rcases h with h | h <;> exact absurd h (by decide)

theorem clean_sizeofs {sp : Expr.Tok → Bool} {e : Ex} (h : Clean sp e) : Clean sp (sizeofs e) := by
  induction e with
  | un op e ih => exact ⟨ih h.1, by rw [head_sizeofs]; exact h.2⟩
  | bin l op r ih ih2 => exact ⟨ih h.1, ih2 h.2.1, by rw [head_sizeofs]; exact h.2.2⟩
  | field l op r ih ih2 =>
    refine ⟨ih h.1, ih2 h.2.1, ?_⟩
    intro ho t ht
    rcases last_sizeofs l t ht with h' | h'
    · exact h.2.2 ho t h'
    · rw [h']; exact not_number_newR
  | tern c q m co t ih ih2 ih3 => exact ⟨ih h.1, ih2 h.2.1, ih3 h.2.2⟩
  | call f l a r ih ih2 => exact ⟨ih h.1, ih2 h.2⟩
  | squares f l a r ih ih2 => exact ⟨ih h.1, ih2 h.2⟩
  | null | lit _ | recov _ => trivial
  | pre _ _ ih => exact ih h
  | post _ _ ih => exact ih h
  | parens _ _ _ ih => exact ih h
  | cast _ _ _ _ ih => exact ih h
  | sizeofE _ _ ih => exact ih h
  | sizeofP _ _ _ _ ih => exact ih h
  | concat _ _ ih => exact ih h

theorem toks_sizeofs {e : Ex} (h : Toks (yield e)) : Toks (yield (sizeofs e)) := by
  have : ∀ e, ∀ t ∈ yield (sizeofs e), t ∈ yield e ∨ t = newL ∨ t = newR := by
    intro e
    induction e <;> simp only [yield, sizeofs] <;> intro t ht <;> grind
  intro t ht
  rcases this e t ht with h' | h' | h'
  · exact h t h'
  · rw [h']; exact isToken_newL
  · rw [h']; exact isToken_newR

theorem clean_unparen {sp : Expr.Tok → Bool} {e : Ex} (h : Clean sp e) : Clean sp (unparen e) := by
  cases e <;> exact h

theorem toks_unparen {e : Ex} (h : Toks (yield e)) : Toks (yield (unparen e)) := by
  cases e <;> first | exact h | exact fun t ht => h t (by simp [yield]; right; left; exact ht)

/-! ## The result -/

theorem exprDoc_good {C : Conf} (hC : C.Ok) {e : Ex} (ht : ∀ t ∈ yield e, TextOk t.str) : Good (exprDoc C e) := by
  have h := edoc_good hC e { root := true } .nil ht good_nil
  have h1 : Good (if C.hardline then .seq .hardline (.optional (edoc C e { root := true } .nil))
      else edoc C e { root := true } .nil) := by
    split
    · exact good_seq ⟨trivial, trivial⟩ h
    · exact h
  have h2 : ∀ d, Good d → Good (if C.softline then .seq (.softline 0) d else d) := by
    intro d hd
    split
    · exact good_seq (good_soft 0) hd
    · exact hd
  have h3 : ∀ d, Good d → Good (if C.line then .seq .line d else d) := by
    intro d hd
    split
    · exact good_seq good_line hd
    · exact hd
  have h4 : ∀ d, Good d → Good (if C.align > 0 then .indent C.align d else if C.indent > 0 then .indent C.indent d else d) := by
    intro d hd
    split
    · exact hd
    · split <;> exact hd
  have h5 := h4 _ (h3 _ (h2 _ h1))
  exact ⟨⟨Nat.le_refl 1, h5.1⟩, h5.2⟩

theorem exprDoc_items {C : Conf} (hC : C.Ok) {e : Ex} (ht : ∀ t ∈ yield e, TextOk t.str) :
    ∃ n, items (exprDoc C e) = List.replicate n .sep ++ eitems C e true := by
  have h := edoc_items hC e { root := true } .nil ht
  have h0 : items (edoc C e { root := true } .nil) = eitems C e true := by rw [h]; simp [items]
  unfold exprDoc
  simp only [items]
  have ind : ∀ d, items (if C.align > 0 then .indent C.align d else if C.indent > 0 then .indent C.indent d else d) =
      items d := by
    intro d
    split
    · rfl
    · split <;> rfl
  rw [ind]
  cases C.hardline <;> cases C.softline <;> cases C.line <;>
    simp only [items, h0, if_true, if_false, Bool.false_eq_true]
  · exact ⟨0, rfl⟩
  · exact ⟨1, rfl⟩
  · exact ⟨0, rfl⟩
  · exact ⟨1, rfl⟩
  · exact ⟨1, rfl⟩
  · exact ⟨2, rfl⟩
  · exact ⟨1, rfl⟩
  · exact ⟨2, rfl⟩

/-- What is printed for an expression is made of its tokens. -/
theorem expr_spelled (env : Knfmt.Doc.Env) (hd : env.diff = none) (C : Conf) (hC : C.Ok)
    (Ty : List Expr.Tok → Prop) (hty : Printed C Ty) (e : Ex) (h : Shaped Ty e) (hcl : Clean C.spaced e) (ht : Toks (yield e)) :
    (Knfmt.Doc.docExec env false [] (exprDoc C e)).ub = false ∧
    Spelled (Knfmt.Doc.docExec env false [] (exprDoc C e)).buf.reverse
      ((yield (simplified C.simpleParens C.simpleSizeof e)).map fun t => (t.str, t.ty)) ∧
    Shaped Ty (simplified C.simpleParens C.simpleSizeof e) ∧ Clean C.spaced (simplified C.simpleParens C.simpleSizeof e) ∧
    Toks (yield (simplified C.simpleParens C.simpleSizeof e)) := by
  have hto : ∀ t ∈ yield e, TextOk t.str := fun t h => Knfmt.Doc.token_text (ht t h)
  obtain ⟨g1, g2⟩ := exprDoc_good hC hto
  have hub := Knfmt.Doc.doc_exec_ok env hd false [] (exprDoc C e) 2 (by decide) g2
  refine ⟨hub, ?_⟩
  generalize he' : simplified C.simpleParens C.simpleSizeof e = e'
  have hp : Shaped Ty e' ∧ Clean C.spaced e' ∧ Toks (yield e') := by
    rw [← he']
    unfold simplified
    have a : Shaped Ty (if C.simpleParens then unparen e else e) ∧
        Clean C.spaced (if C.simpleParens then unparen e else e) ∧
        Toks (yield (if C.simpleParens then unparen e else e)) := by
      split
      · exact ⟨shaped_unparen h, clean_unparen hcl, toks_unparen ht⟩
      · exact ⟨h, hcl, ht⟩
    dsimp only
    split
    · exact ⟨shaped_sizeofs a.1, clean_sizeofs a.2.1, toks_sizeofs a.2.2⟩
    · exact a
  obtain ⟨p1, p2, p3⟩ := hp
  have E := shaped_edge (C := C.plain) rfl hty p1 p2 p3
  obtain ⟨n, hi⟩ := exprDoc_items hC hto
  rw [eitems_simplified, he'] at hi
  have hsep : ∀ n (l : List Item), texts (List.replicate n .sep ++ l) = texts l ∧
      (Apart l → Apart (List.replicate n .sep ++ l)) := by
    intro n l
    induction n with
    | zero => simp
    | succ n ih =>
      rw [List.replicate_succ, List.cons_append, texts_sep]
      exact ⟨ih.1, fun h => apart_sep (ih.2 h)⟩
  refine ⟨?_, p1, p2, p3⟩
  exact Knfmt.Doc.doc_exec_spelled env hd (exprDoc C e) g1 hub ((yield e').map (fun t => (t.str, t.ty)))
    (by rw [hi, (hsep _ _).1, E.text]; simp)
    (by
      intro x hx
      obtain ⟨t, h1, h2⟩ := List.mem_map.1 hx
      rw [← h2]
      exact p3 t h1)
    (by rw [hi]; exact (hsep _ _).2 E.apart)

/-- **C77** `expr_reads_back_partial`: reading the text printed for an expression gives the tokens of
the expression again, in order, with the same texts and types, and nothing else but white space.
Missing are comments and directives, braces and statements inside of expressions, and the trees that are
not `Clean`, for which it is false. -/
theorem expr_reads_back_partial (env : Knfmt.Doc.Env) (hd : env.diff = none) (C : Conf) (hC : C.Ok)
    (Ty : List Expr.Tok → Prop) (hty : Printed C Ty) (e : Ex) (h : Shaped Ty e) (hcl : Clean C.spaced e) (ht : Toks (yield e)) (cx : Knfmt.Lexer.Ctx) :
    (Knfmt.Doc.docExec env false [] (exprDoc C e)).ub = false ∧
    (∀ out, out = (Knfmt.Doc.docExec env false [] (exprDoc C e)).buf.reverse →
      (tokenizeLoop out cx init).2.map (fun t => (t.tok.str.text out, t.tok.type)) =
        (yield (simplified C.simpleParens C.simpleSizeof e)).map (fun t => (some t.str, t.ty)) ++ [(some [], .eof)] ∧
      ∀ t ∈ (tokenizeLoop out cx init).2, t.prefixes = [] ∧ ∀ u ∈ t.suffixes, u.type = .space) := by
  obtain ⟨hub, hs, _⟩ := expr_spelled env hd C hC Ty hty e h hcl ht
  refine ⟨hub, ?_⟩
  rintro out rfl
  have := read_back _ cx _ hs
  simpa [List.map_map, Function.comp_def] using this

end Knfmt.ExprDoc
