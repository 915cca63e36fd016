import Verif.Expr.Fixed
/-!
# Spaces of the source (C87)

What is printed for an expression written on one line does not depend on the spaces it is written with, but for those
around `*`, `/` and `|`.
-/
namespace Knfmt.Spec

/-- In a text made of tokens and white space, there is white space behind the token number `i`, or between it and the
token in front of it. -/
def Around (text : List Char) (tokens : List (List Char)) (i : Nat) : Prop :=
  (gapsOf text tokens)[i]? = some true ∨ 0 < i ∧ (gapsOf text tokens)[i - 1]? = some true

end Knfmt.Spec

namespace Knfmt.ExprDoc
open Knfmt.Lexer (TT)
open Knfmt.Spec (Spelled gapsOf Around)
open Knfmt.Doc (Doc docExec)
open Knfmt.Expr

/-- **C87**: two texts on one line that consist of the same tokens, and of spaces and tabs, are printed the same if
`*`, `/` and `|` have white space around them in both or in none. -/
def C87_statement : Prop :=
  ∀ (E : Env) (cx : Knfmt.Lexer.Ctx) (C : Conf) (env : Knfmt.Doc.Env) (src src' : List Char)
    (tokens : List (List Char × TT)), Spelled src tokens → Spelled src' tokens → '\n' ∉ src → '\n' ∉ src' →
    (∀ i t, tokens[i]? = some t → t.1 = ['*'] ∨ t.1 = ['/'] ∨ t.1 = ['|'] →
      (Around src (tokens.map (·.1)) i ↔ Around src' (tokens.map (·.1)) i)) →
    format E cx C env src = format E cx C env src'

/-- The operators of an expression that have an operand on both sides. -/
def operators : Ex → List Tok
  | .null | .lit _ | .recov _ => []
  | .un _ e | .pre _ e | .post e _ | .cast _ _ _ e | .sizeofE _ e | .sizeofP _ _ e _ | .parens _ e _ | .concat e _ =>
    operators e
  | .bin l op r => op :: (operators l ++ operators r)
  | .tern c _ m _ t => operators c ++ operators m ++ operators t
  | .call f _ a _ | .squares f _ a _ | .field f _ a => operators f ++ operators a

/-- The document depends on the spaces around operators only. -/
theorem edoc_spaced (C : Conf) (s s' : Tok → Bool) (e : Ex)
    (h : ∀ op ∈ operators e, hasSpaces { C with spaced := s } op = hasSpaces { C with spaced := s' } op) :
    ∀ (c : Ctx) (k : Doc), edoc { C with spaced := s } e c k = edoc { C with spaced := s' } e c k := by
  induction e with
  | null | lit _ | recov _ => intros; rfl
  | un _ e ih | pre _ e ih | post e _ ih | sizeofE _ e ih | sizeofP _ _ e _ ih | concat e _ ih | cast _ _ _ e ih =>
    intro c k
    have := fun c => funext (ih h c)
    simp only [edoc, this]; rfl
  | parens _ e _ ih =>
    intro c k
    have := fun c => funext (ih h c)
    simp only [edoc, this]; rfl
  | bin l op r ih1 ih2 =>
    intro c k
    have h1 := fun c => funext (ih1 (fun op hop => h op (by simp [operators, hop])) c)
    have h2 := fun c => funext (ih2 (fun op hop => h op (by simp [operators, hop])) c)
    have h3 := h op (by simp [operators])
    simp only [edoc, h1, h2, h3]; rfl
  | tern c _ m _ t ih1 ih2 ih3 =>
    intro c k
    have h1 := fun c => funext (ih1 (fun op hop => h op (by simp [operators, hop])) c)
    have h2 := fun c => funext (ih2 (fun op hop => h op (by simp [operators, hop])) c)
    have h3 := fun c => funext (ih3 (fun op hop => h op (by simp [operators, hop])) c)
    simp only [edoc, h1, h2, h3]; rfl
  | call f _ a _ ih1 ih2 | squares f _ a _ ih1 ih2 | field f _ a ih1 ih2 =>
    intro c k
    have h1 := fun c => funext (ih1 (fun op hop => h op (by simp [operators, hop])) c)
    have h2 := fun c => funext (ih2 (fun op hop => h op (by simp [operators, hop])) c)
    simp only [edoc, h1, h2]; rfl

theorem operators_yield {e : Ex} : ∀ op ∈ operators e, op ∈ yield e := by
  induction e <;> simp_all [operators, yield]
  all_goals grind

theorem space_flag {ty : TT} (h : spaceFlag ty = true) : ty = .star ∨ ty = .slash ∨ ty = .pipe := by
  revert h
  unfold spaceFlag
  intro h
  rw [List.any_eq_true] at h
  obtain ⟨k, hk, h⟩ := h
  have : ∀ k ∈ Knfmt.Lexer.keywords, k.2.2.space = true → k.2.1 = .star ∨ k.2.1 = .slash ∨ k.2.1 = .pipe := by decide
  simp only [Bool.and_eq_true, decide_eq_true_eq] at h
  rw [← h.1]
  exact this k hk h.2

theorem around_spaced {src : List Char} {l : List (List Char × TT)} {i : Nat} (hi : i < l.length) :
    Around src (l.map (·.1)) i ↔
      ((gapsOf src (l.map (·.1))).dropLast.getD i false || (gapsOf src (l.map (·.1))).dropLast.getD (i - 1) false) = true := by
  have hlen : (gapsOf src (l.map (·.1))).length = l.length + 1 := by rw [gapsOf_length, List.length_map]
  have key : ∀ j, j < l.length → ((gapsOf src (l.map (·.1))).dropLast.getD j false = true ↔
      (gapsOf src (l.map (·.1)))[j]? = some true) := by
    intro j hj
    rw [List.getD_eq_getElem?_getD, List.getElem?_dropLast, if_pos (by omega)]
    rw [List.getElem?_eq_getElem (by omega)]
    simp
  rw [Bool.or_eq_true, key i hi, key (i - 1) (by omega)]
  unfold Around
  cases i with
  | zero => simp
  | succ i => simp

/-- **C87** `C87_spaces`: the spaces of a source on one line do not matter, but for those around `*`, `/` and `|`. -/
theorem C87_spaces : C87_statement := by
  intro E cx C env src src' l hs hs' hn hn' hg
  obtain ⟨lnos, h1⟩ := scan_line cx hn hs
  obtain ⟨lnos', h2⟩ := scan_line cx hn' hs'
  unfold format
  rw [h1, h2]
  dsimp only
  cases hp : parse E ⟨[], numbered l, false⟩ with
  | none => rfl
  | some x =>
    obtain ⟨e, τ⟩ := x
    dsimp only
    obtain ⟨ts, e1, _, e2⟩ := yield_sublist hp
    have hd : exprDoc (known C e (numbered l) ⟨spaces (gapsOf src (l.map (·.1))).dropLast, lnos⟩) e =
        exprDoc (known C e (numbered l) ⟨spaces (gapsOf src' (l.map (·.1))).dropLast, lnos'⟩) e := by
      have hk : ∀ (G : List Bool) (ln : List Nat), known C e (numbered l) ⟨spaces G, ln⟩ =
          { (known C e (numbered l) ⟨spaces [], []⟩) with
            spaced := fun t => G.getD t.id false || G.getD (t.id - 1) false } := by
        intro G ln
        unfold known
        simp only [moves_line C (spaces_line _ _)]
        congr 1
        · funext x
          rw [sufDoc_line x _ ((spaces_line G ln).at x.id), sufDoc_line x _ ((spaces_line [] []).at x.id)]
        · funext x
          rw [(spaces_line G ln).hasLine, (spaces_line [] []).hasLine]
        · funext x
          cases firstOf e x with
          | none => rfl
          | some y => dsimp only; rw [(spaces_line G ln).hasLine, (spaces_line [] []).hasLine]
        · funext x
          rw [spaces_hasSpaces, spaces_hasSpaces]
      rw [hk, hk (gapsOf src' (l.map (·.1))).dropLast]
      have := edoc_spaced (known C e (numbered l) ⟨spaces [], []⟩)
        (fun t => (gapsOf src (l.map (·.1))).dropLast.getD t.id false || (gapsOf src (l.map (·.1))).dropLast.getD (t.id - 1) false)
        (fun t => (gapsOf src' (l.map (·.1))).dropLast.getD t.id false || (gapsOf src' (l.map (·.1))).dropLast.getD (t.id - 1) false)
        e (by
          intro op hop
          unfold hasSpaces
          cases hf : spaceFlag op.ty with
          | false => rfl
          | true =>
            have hm : op ∈ numbered l := by
              have : numbered l = ts ++ τ.rest := e1
              rw [this]
              exact List.mem_append.2 (Or.inl (e2.subset (operators_yield op hop)))
            obtain ⟨j, hj⟩ := List.mem_iff_getElem?.1 hm
            obtain ⟨hid, hlj⟩ := numbered_at hj
            have hlt : j < l.length := (List.getElem?_eq_some_iff.1 hlj).1
            have hty := space_flag hf
            have htok := spelled_token hs (List.mem_of_getElem? hlj) (by rcases hty with h | h | h <;> (dsimp only; rw [h]; decide))
            have hstr : op.str = ['*'] ∨ op.str = ['/'] ∨ op.str = ['|'] := by
              rcases hty with h | h | h
              · exact Or.inl (str_of htok h rfl)
              · exact Or.inr (Or.inl (str_of htok h rfl))
              · exact Or.inr (Or.inr (str_of htok h rfl))
            have := hg j (op.str, op.ty) hlj hstr
            rw [around_spaced hlt, around_spaced hlt, ← Bool.eq_iff_iff] at this
            simp only [hid]
            rw [this])
      unfold exprDoc
      simp only [this]
    rw [hd]

/-! ## Examples -/

theorem operator_at {rest o : List Char} (k : List Char × TT × Knfmt.Lexer.Flags)
    (h : Knfmt.Spec.LongestOperator rest o) (hk : k ∈ Knfmt.Lexer.keywords ++ Knfmt.Lexer.aliases) (hko : k.1 = o)
    (hd : rest.head? ≠ some '.') (he : k.2.1 ≠ .eof)
    (hf : ∃ c t, o = c :: t ∧ Knfmt.Spec.blank c = false ∧ c ≠ '#') (hl : ¬ ['/', '/'] <+: rest) (hb : ¬ ['/', '*'] <+: rest) :
    Knfmt.Spec.TokenAt rest o k.2.1 :=
  ⟨.operator rest o k h (by rintro ⟨d, r, rfl, _⟩; exact hd rfl) hk hko, he, hf, hl, hb⟩

theorem ident_at {c : Char} {rest : List Char} (h : Knfmt.Spec.identStart c = true)
    (hc : c ≠ '"' ∧ c ≠ '\'' ∧ c ≠ 'L' ∧ c ≠ '#' ∧ c ≠ '/') (hb : Knfmt.Spec.blank c = false)
    (hk : ∀ k ∈ Knfmt.Lexer.keywords ++ Knfmt.Lexer.aliases, k.1 ≠ c :: rest.takeWhile Knfmt.Spec.identChar) :
    Knfmt.Spec.TokenAt (c :: rest) (c :: rest.takeWhile Knfmt.Spec.identChar) .ident := by
  refine ⟨.ident c rest h ?_ hk, by decide, ⟨c, _, rfl, hb, hc.2.2.2.1⟩, ?_, ?_⟩
  · rintro pre q ⟨h1, h2⟩ ⟨t, h3⟩
    rcases h1 with rfl | rfl <;> simp only [List.cons_append, List.nil_append, List.cons.injEq] at h3
    · rcases h2 with rfl | rfl
      · exact hc.1 h3.1.symm
      · exact hc.2.1 h3.1.symm
    · exact hc.2.2.1 h3.1.symm
  all_goals
    rintro ⟨t, h3⟩
    simp only [List.cons_append, List.cons.injEq] at h3
    exact hc.2.2.2.2 h3.1.symm

theorem plus_entry : ∃ k ∈ Knfmt.Lexer.keywords ++ Knfmt.Lexer.aliases, k.1 = ['+'] ∧ k.2.1 = .plus := by decide +kernel
theorem star_entry : ∃ k ∈ Knfmt.Lexer.keywords ++ Knfmt.Lexer.aliases, k.1 = ['*'] ∧ k.2.1 = .star := by decide +kernel

def sumL : List (List Char × TT) := [(['a'], .ident), (['*'], .star), (['b'], .ident), (['+'], .plus), (['c'], .ident)]

/-- The tokens of `a*b + c`, and of the same with other spaces. -/
theorem sum_spelled {g1 g2 g3 g4 : List Char} (h1 : g1 = [] ∨ g1 = [' ']) (h2 : g2 = [] ∨ g2 = [' ']) (h3 : g3 = [] ∨ g3 = [' '])
    (h4 : g4 = [] ∨ g4 = [' ']) : Spelled ('a' :: (g1 ++ '*' :: (g2 ++ 'b' :: (g3 ++ '+' :: (g4 ++ ['c']))))) sumL := by
  have hg : ∀ g, g = [] ∨ g = [' '] → ∀ c ∈ g, Knfmt.Spec.gapChar c = true := by
    rintro g (rfl | rfl) <;> simp [Knfmt.Spec.gapChar]
  have s5 : Spelled (g4 ++ ['c']) [(['c'], .ident)] :=
    .cons g4 ['c'] [] _ _ (hg _ h4) (ident_at (by decide) (by decide) (by decide) (by decide +kernel)) (.nil [] (by simp))
  have s4 : Spelled (g3 ++ '+' :: (g4 ++ ['c'])) [(['+'], .plus), (['c'], .ident)] := by
    obtain ⟨k, hk, h1, h2⟩ := plus_entry
    refine .cons g3 ['+'] _ _ _ (hg _ h3) ?_ s5
    rw [← h2]
    rcases h4 with rfl | rfl <;>
      exact operator_at k (by unfold Knfmt.Spec.LongestOperator; decide +kernel) hk h1 (by decide) (by rw [h2]; decide)
        ⟨'+', [], rfl, by decide, by decide⟩ (by decide) (by decide)
  have s3 : Spelled (g2 ++ 'b' :: (g3 ++ '+' :: (g4 ++ ['c']))) [(['b'], .ident), (['+'], .plus), (['c'], .ident)] := by
    refine .cons g2 ['b'] _ _ _ (hg _ h2) ?_ s4
    rcases h3 with rfl | rfl <;> rcases h4 with rfl | rfl <;> exact ident_at (c := 'b') (by decide) (by decide) (by decide) (by decide +kernel)
  have s2 : Spelled (g1 ++ '*' :: (g2 ++ 'b' :: (g3 ++ '+' :: (g4 ++ ['c'])))) [(['*'], .star), (['b'], .ident), (['+'], .plus), (['c'], .ident)] := by
    obtain ⟨k, hk, e1, e2⟩ := star_entry
    refine .cons g1 ['*'] _ _ _ (hg _ h1) ?_ s3
    rw [← e2]
    rcases h2 with rfl | rfl <;> rcases h3 with rfl | rfl <;> rcases h4 with rfl | rfl <;>
      exact operator_at k (by unfold Knfmt.Spec.LongestOperator; decide +kernel) hk e1 (by decide) (by rw [e2]; decide)
        ⟨'*', [], rfl, by decide, by decide⟩ (by decide) (by decide)
  refine .cons [] ['a'] _ _ _ (by simp) ?_ s2
  rcases h1 with rfl | rfl <;> rcases h2 with rfl | rfl <;> rcases h3 with rfl | rfl <;> rcases h4 with rfl | rfl <;>
    exact ident_at (c := 'a') (by decide) (by decide) (by decide) (by decide +kernel)

/-- Spaces around `+` and in front of `c` do not matter. -/
example : format ints ctx { indent := 4 } {} "a*b+c".toList = format ints ctx { indent := 4 } {} "a*b + c".toList :=
  C87_spaces ints ctx { indent := 4 } {} "a*b+c".toList "a*b + c".toList sumL
    (sum_spelled (g1 := []) (g2 := []) (g3 := []) (g4 := []) (by simp) (by simp) (by simp) (by simp))
    (sum_spelled (g1 := []) (g2 := []) (g3 := [' ']) (g4 := [' ']) (by simp) (by simp) (by simp) (by simp))
    (by decide) (by decide) (by
      intro i t h ht
      have : i = 1 := by
        rcases i with _ | _ | _ | _ | _ | i <;> simp [sumL] at h <;> subst h <;> simp at ht ⊢
      subst this
      unfold Around
      decide +kernel)

example : format ints ctx { indent := 4 } {} "a*b+c".toList = some "a*b + c".toList := by decide +kernel

/-- Those around `*` do. -/
example : format ints ctx { indent := 4 } {} "a * b+c".toList = some "a * b + c".toList := by decide +kernel

end Knfmt.ExprDoc
