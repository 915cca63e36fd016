import Verif.Expr.Remark
import Verif.Doc.Laid
/-!
# A line comment does not swallow code (C89)

The specification is `C89_statement`, with `Laid` from `Verif.Doc.Laid`. It is false of the code, see
`Verif.Expr.RemarkCases`; proved here is `C89_partial`.
-/
namespace Knfmt.ExprDoc
open Knfmt.Lexer (TT)
open Knfmt.Doc (Doc docExec blank Firm slashes core TokenText CommentText wp Pos pieces Sim)
open Knfmt.Doc.Spec
open Knfmt.Util (strwidth)
open Knfmt.Expr
open Knfmt.Lexer (readComment readSuffixes optSpace optLines readTail tokenizeLoop)

/-- A comment, without the white space around it. -/
def Rem.piece? : Rem → Option Piece
  | .comment _ s => some ⟨false, slashes s, core s⟩
  | _ => none

/-- The comments behind the tokens of the source. -/
def comments (t : RTab) : List Piece := t.sufs.flatten.filterMap Rem.piece?

/-- The expression has no part read by a callback: no type and no statement. -/
def Own : Ex → Prop
  | .null | .lit _ => True
  | .un _ e | .pre _ e | .post e _ | .sizeofE _ e | .sizeofP _ _ e _ | .concat e _ | .parens _ e _ => Own e
  | .bin l _ r | .field l _ r | .call l _ r _ | .squares l _ r _ => Own l ∧ Own r
  | .tern c _ m _ t => Own c ∧ Own m ∧ Own t
  | .cast _ _ _ _ | .recov _ => False

/-- **C89**: the text printed for an expression consists of its tokens, in order, and of comments of the source, with
white space between them, and no token is on the same line behind a line comment. -/
def C89_statement : Prop :=
  ∀ (E : Env) (cx : Knfmt.Lexer.Ctx) (C : Conf) (env : Knfmt.Doc.Env) (src out : List Char) (ts : List Tok) (t : RTab)
    (e : Ex) (τ : PS),
    C.simpleParens = false → C.simpleSizeof = false → env.diff = none →
    survey cx src = some (ts, t) → parse E ⟨[], ts, false⟩ = some (e, τ) → yield e = ts → Own e →
    remark E cx C env src = some out →
    ∃ ps o, Laid ps out o ∧ (ps.filter (·.code)).map (·.text) = ts.map (·.str) ∧
      ∀ p ∈ ps, p.code = false → p ∈ comments t

/-! ### The conditions of the theorem -/

/-- No operand is missing, and there is no part read by a callback. -/
def Full : Ex → Prop
  | .null | .cast _ _ _ _ | .recov _ => False
  | .lit _ => True
  | .un _ e | .pre _ e | .post e _ | .sizeofE _ e | .sizeofP _ _ e _ | .concat e _ | .parens _ e _ => Full e
  | .bin l _ r | .field l _ r => Full l ∧ Full r
  | .tern c _ m co t => Full c ∧ (m = .null ∨ Full m) ∧ co.isSome = true ∧ Full t
  | .call f _ a _ | .squares f _ a _ => Full f ∧ (a = .null ∨ Full a)

/-- The binary and ternary operators. -/
def ops : Ex → List Tok
  | .null | .lit _ | .recov _ => []
  | .un _ e | .pre _ e | .post e _ | .sizeofE _ e | .sizeofP _ _ e _ | .concat e _ | .parens _ e _ | .cast _ _ _ e => ops e
  | .bin l op r => op :: (ops l ++ ops r)
  | .field l _ r | .call l _ r _ | .squares l _ r _ => ops l ++ ops r
  | .tern c q m co t => q :: (co.toList ++ (ops c ++ ops m ++ ops t))

/-- The positions before the closing parenthesis of a parenthesised expression, and those of `.` and `->`. -/
def quiets : Ex → List Nat
  | .null | .lit _ | .recov _ => []
  | .un _ e | .pre _ e | .post e _ | .sizeofE _ e | .sizeofP _ _ e _ | .concat e _ | .cast _ _ _ e => quiets e
  | .parens _ e r => r.toList.map (·.id - 1) ++ quiets e
  | .field l op r => op.id :: (quiets l ++ quiets r)
  | .bin l _ r | .call l _ r _ | .squares l _ r _ => quiets l ++ quiets r
  | .tern c _ m _ t => quiets c ++ quiets m ++ quiets t

/-- The positions before the closing parenthesis of a call. -/
def ends : Ex → List Nat
  | .null | .lit _ | .recov _ => []
  | .un _ e | .pre _ e | .post e _ | .sizeofE _ e | .sizeofP _ _ e _ | .concat e _ | .cast _ _ _ e | .parens _ e _ => ends e
  | .call f _ a r => r.toList.map (·.id - 1) ++ (ends f ++ ends a)
  | .bin l _ r | .squares l _ r _ | .field l _ r => ends l ++ ends r
  | .tern c _ m _ t => ends c ++ ends m ++ ends t

/-- The number of parenthesised expressions. -/
def parenCount : Ex → Nat
  | .null | .lit _ | .recov _ => 0
  | .un _ e | .pre _ e | .post e _ | .sizeofE _ e | .sizeofP _ _ e _ | .concat e _ | .cast _ _ _ e => parenCount e
  | .parens _ e _ => parenCount e + 1
  | .bin l _ r | .call l _ r _ | .squares l _ r _ | .field l _ r => parenCount l + parenCount r
  | .tern c _ m _ t => parenCount c + parenCount m + parenCount t

/-- Each line comment is followed by the end of the line. -/
def Ended : List Rem → Prop
  | [] => True
  | .comment _ s :: l => (slashes s = true → l.head? = some (.line true false)) ∧ Ended l
  | _ :: l => Ended l

/-- What comes after a token: no line is left empty, a comment does not end with a new line and the lexer knows
which comments end with the line, and those are followed by the end of the line. -/
structure Fair (l : List Rem) : Prop where
  one : ∀ b, .line b false ∈ l → b = true
  text : ∀ c s, .comment c s ∈ l → CommentText s ∧ c = slashes s
  ended : Ended l

/-- If there is an end of line, it comes last. -/
def LineLast (l : List Rem) : Prop := l.any Rem.isLine = true → l.getLast? = some (.line true false)

/-- The column after the suffixes of a token, if none exceeds the limit; a new line begins in column `ind`. -/
def tail (lim ind : Nat) : List Rem → Nat → Option Nat
  | [], c => some c
  | .space :: l, c | .line _ true :: l, c => tail lim ind l c
  | .line _ false :: l, _ => tail lim ind l ind
  | .comment _ s :: l, c => if strwidth s c ≤ lim then tail lim ind l (strwidth s c) else none

/-- The column after some tokens with a space before each of them, if none exceeds the limit. -/
def row (lim ind : Nat) (t : RTab) : List Tok → Nat → Option Nat
  | [], c => some c
  | x :: xs, c =>
    if strwidth x.str (c + 1) ≤ lim then
      (tail lim ind (t.at x.id) (strwidth x.str (c + 1))).bind (row lim ind t xs)
    else none

/-- The indentation of an expression. -/
def Conf.top (C : Conf) : Nat := if C.align > 0 then C.align else C.indent

/-! ### Moving and removing line breaks -/

theorem at_set {t : RTab} {i j : Nat} {l : List Rem} :
    ({ t with sufs := t.sufs.set i l } : RTab).at j = t.at j ∨ (j = i ∧ ({ t with sufs := t.sufs.set i l } : RTab).at j = l) := by
  unfold RTab.at
  simp only [List.getD_eq_getElem?_getD, List.getElem?_set]
  split
  · rename_i h
    subst h
    split
    · exact Or.inr ⟨rfl, rfl⟩
    · rename_i h
      left
      rw [List.getElem?_eq_none (by omega)]
  · exact Or.inl rfl

theorem ended_append {a b : List Rem} (ha : Ended a) (hb : Ended b) : Ended (a ++ b) := by
  induction a with
  | nil => exact hb
  | cons x a ih =>
    cases x with
    | space => exact ih ha
    | line _ _ => exact ih ha
    | comment c s =>
      refine ⟨fun h => ?_, ih ha.2⟩
      have := ha.1 h
      cases a with
      | nil => simp at this
      | cons y a => simpa using this

theorem fair_append {a b : List Rem} (ha : Fair a) (hb : Fair b) : Fair (a ++ b) where
  one x hx := by
    rcases List.mem_append.1 hx with h | h
    · exact ha.one x h
    · exact hb.one x h
  text c s hx := by
    rcases List.mem_append.1 hx with h | h
    · exact ha.text c s h
    · exact hb.text c s h
  ended := ended_append ha.ended hb.ended

theorem fair_nil : Fair [] := ⟨by simp, by simp, trivial⟩

theorem ended_trim {l : List Rem} (hq : ∀ c s, .comment c s ∈ l → slashes s = false) : Ended (l.map Rem.trim) := by
  induction l with
  | nil => trivial
  | cons x l ih =>
    have ih := ih fun c s h => hq c s (by simp [h])
    cases x with
    | space => exact ih
    | line _ _ => exact ih
    | comment c s => exact ⟨fun h => absurd h (by simp [hq c s (by simp)]), ih⟩

theorem fair_trim {l : List Rem} (h : Fair l) (hq : l.any Rem.isC99 = false) : Fair (l.map Rem.trim) where
  one x hx := by
    obtain ⟨y, _, e⟩ := List.mem_map.1 hx
    cases y <;> simp [Rem.trim] at e
  text c s hx := by
    obtain ⟨y, hy, e⟩ := List.mem_map.1 hx
    cases y with
    | comment c' s' =>
      simp only [Rem.trim, Rem.comment.injEq] at e
      obtain ⟨rfl, rfl⟩ := e
      exact h.text _ _ hy
    | _ => simp [Rem.trim] at e
  ended := by
    refine ended_trim fun c s hx => ?_
    have h1 := (h.text c s hx).2
    rw [List.any_eq_false] at hq
    have h2 := hq _ hx
    cases c with
    | false => exact h1.symm
    | true => simp [Rem.isC99] at h2

/-- The invariant: `Z` are the positions where lines are removed, `W` those that are not asked first. -/
structure Kept (t₀ : RTab) (Z W : Nat → Prop) (t : RTab) : Prop where
  good : ∀ i, Fair (t.at i)
  quiet : ∀ i, W i → (t.at i).any Rem.isC99 = false
  last : ∀ i, ¬ Z i → LineLast (t.at i)
  from_ : ∀ i c s, .comment c s ∈ t.at i → ∃ j, .comment c s ∈ t₀.at j

section
variable {t₀ : RTab} {Z W : Nat → Prop} (hWZ : ∀ i, W i → Z i)
include hWZ

omit hWZ in
theorem kept_trim {t : RTab} (h : Kept t₀ Z W t) {i : Nat} (hz : Z i) (hq : (t.at i).any Rem.isC99 = false) :
    Kept t₀ Z W (t.trim i) := by
  have key : ∀ j, (t.trim i).at j = t.at j ∨ (j = i ∧ (t.trim i).at j = (t.at i).map Rem.trim) := fun j => at_set
  have hm : ∀ c s, .comment c s ∈ (t.at i).map Rem.trim → .comment c s ∈ t.at i := by
    intro c s hx
    obtain ⟨y, hy, e⟩ := List.mem_map.1 hx
    cases y with
    | comment c' s' => simp only [Rem.trim] at e; rwa [← e]
    | _ => simp [Rem.trim] at e
  refine ⟨fun j => ?_, fun j hj => ?_, fun j hj => ?_, fun j c s hx => ?_⟩
  · rcases key j with e | ⟨_, e⟩ <;> rw [e]
    · exact h.good j
    · exact fair_trim (h.good i) hq
  · rcases key j with e | ⟨_, e⟩ <;> rw [e]
    · exact h.quiet j hj
    · rw [List.any_eq_false] at hq ⊢
      intro x hx
      obtain ⟨y, hy, e⟩ := List.mem_map.1 hx
      have := hq y hy
      cases y with
      | comment c' s' => simp only [Rem.trim] at e; rwa [← e]
      | _ => simp only [Rem.trim] at e; subst e; simp [Rem.isC99]
  · rcases key j with e | ⟨e, _⟩
    · rw [e]; exact h.last j hj
    · subst e; exact absurd hz hj
  · rcases key j with e | ⟨_, e⟩ <;> rw [e] at hx
    · exact h.from_ j c s hx
    · exact h.from_ i c s (hm c s hx)

theorem kept_move {t : RTab} (h : Kept t₀ Z W t) {i j : Nat} (hi : ¬ Z i) (hj : ¬ Z j) (hl : t.hasLine i = true) :
    Kept t₀ Z W (t.move i j) := by
  have key : ∀ k, (t.move i j).at k = t.at k ∨ (k = j ∧ (t.move i j).at k = t.at j ++ t.at i) ∨
      (k = i ∧ (t.move i j).at k = []) := by
    intro k
    have h1 := at_set (t := { t with sufs := t.sufs.set j (t.at j ++ t.at i) }) (i := i) (j := k) (l := [])
    have h2 := at_set (t := t) (i := j) (j := k) (l := t.at j ++ t.at i)
    rcases h1 with h1 | h1
    · rcases h2 with h2 | h2
      · exact Or.inl (h1.trans h2)
      · exact Or.inr (Or.inl ⟨h2.1, h1.trans h2.2⟩)
    · exact Or.inr (Or.inr h1)
  refine ⟨fun k => ?_, fun k hk => ?_, fun k hk => ?_, fun k c s hx => ?_⟩
  · rcases key k with e | ⟨_, e⟩ | ⟨_, e⟩ <;> rw [e]
    · exact h.good k
    · exact fair_append (h.good j) (h.good i)
    · exact fair_nil
  · rcases key k with e | ⟨e, _⟩ | ⟨e, _⟩
    · rw [e]; exact h.quiet k hk
    · subst e; exact absurd (hWZ _ hk) hj
    · subst e; exact absurd (hWZ _ hk) hi
  · rcases key k with e | ⟨_, e⟩ | ⟨_, e⟩ <;> rw [e]
    · exact h.last k hk
    · intro _
      rw [List.getLast?_append, h.last i hi hl]
      rfl
    · intro h; simp at h
  · rcases key k with e | ⟨_, e⟩ | ⟨_, e⟩ <;> rw [e] at hx
    · exact h.from_ k c s hx
    · rcases List.mem_append.1 hx with hx | hx
      · exact h.from_ j c s hx
      · exact h.from_ i c s hx
    · cases hx

theorem kept_next {t : RTab} (h : Kept t₀ Z W t) {i : Nat} (hi : ¬ Z i) (hj : ¬ Z (i - 1)) : Kept t₀ Z W (t.nextLine i) := by
  unfold RTab.nextLine
  split
  · exact kept_move hWZ h hi hj (by assumption)
  · exact h

theorem kept_prev {t : RTab} (h : Kept t₀ Z W t) {i : Nat} (hi : ¬ Z i) (hj : ¬ Z (i - 1)) : Kept t₀ Z W (t.prevLine i) := by
  unfold RTab.prevLine
  split
  · rename_i hc
    rw [Bool.and_eq_true] at hc
    exact kept_move hWZ h hj hi hc.1
  · exact h

theorem kept_shifts (C : Conf) (hs : C.simpleParens = false) (e : Ex) (b : Bool) {t : RTab} (h : Kept t₀ Z W t)
    (ho : ∀ op ∈ ops e, ¬ Z op.id ∧ ¬ Z (op.id - 1)) (hq : ∀ i ∈ quiets e, W i) (he : ∀ i ∈ ends e, Z i) :
    Kept t₀ Z W (shifts C e b t) := by
  induction e generalizing b t with
  | null => exact h
  | lit t => exact h
  | recov ts => exact h
  | un op e ih => exact ih false h ho hq he
  | pre op e ih => exact ih false h ho hq he
  | post e op ih => exact ih false h ho hq he
  | cast l ts r e ih => exact ih false h ho hq he
  | sizeofE tk e ih => exact ih false h ho hq he
  | sizeofP tk l e r ih => exact ih false h ho hq he
  | concat e tk ih => exact ih false h ho hq he
  | bin l op r ihl ihr =>
    simp only [shifts]
    have h0 := ho op (by simp [ops])
    refine ihr false (ihl false ?_ (fun x hx => ho x (by simp [ops, hx])) (fun x hx => hq x (by simp [quiets, hx]))
      (fun x hx => he x (by simp [ends, hx]))) (fun x hx => ho x (by simp [ops, hx])) (fun x hx => hq x (by simp [quiets, hx]))
      (fun x hx => he x (by simp [ends, hx]))
    split
    · exact h
    · split
      · exact kept_next hWZ h h0.1 h0.2
      · exact kept_prev hWZ h h0.1 h0.2
  | tern c q m co x ihc ihm ihx =>
    simp only [shifts]
    have h0 := ho q (by simp [ops])
    refine ihx false (ihm false (ihc false ?_ (fun x hx => ho x (by simp [ops, hx])) (fun x hx => hq x (by simp [quiets, hx]))
      (fun x hx => he x (by simp [ends, hx]))) (fun x hx => ho x (by simp [ops, hx])) (fun x hx => hq x (by simp [quiets, hx]))
      (fun x hx => he x (by simp [ends, hx]))) (fun x hx => ho x (by simp [ops, hx])) (fun x hx => hq x (by simp [quiets, hx]))
      (fun x hx => he x (by simp [ends, hx]))
    have h1 : Kept t₀ Z W (if C.breakTernary then t.nextLine q.id else t.prevLine q.id) := by
      split
      · exact kept_next hWZ h h0.1 h0.2
      · exact kept_prev hWZ h h0.1 h0.2
    cases co with
    | none => exact h1
    | some co =>
      have h0 := ho co (by simp [ops])
      simp only
      by_cases hb : C.breakTernary = true
      · rw [if_pos hb] at h1 ⊢
        simp only [hb, if_true]
        exact kept_next hWZ h1 h0.1 h0.2
      · rw [if_neg hb] at h1 ⊢
        simp only [hb]
        exact kept_prev hWZ h1 h0.1 h0.2
  | parens l e r ih =>
    simp only [shifts, hs, Bool.and_false, Bool.false_eq_true, if_false]
    refine ih false ?_ ho (fun x hx => hq x (by simp [quiets, hx])) he
    cases r with
    | none => exact h
    | some r =>
      have := hq (r.id - 1) (by simp [quiets])
      exact kept_trim h (hWZ _ this) (h.quiet _ this)
  | call f l a r ihf iha =>
    simp only [shifts]
    have h1 := ihf false h (fun x hx => ho x (by simp [ops, hx])) (fun x hx => hq x (by simp [quiets, hx]))
      (fun x hx => he x (by simp [ends, hx]))
    refine iha false ?_ (fun x hx => ho x (by simp [ops, hx])) (fun x hx => hq x (by simp [quiets, hx]))
      (fun x hx => he x (by simp [ends, hx]))
    split
    · exact h1
    · cases r with
      | none => exact h1
      | some r =>
        unfold RTab.trimCall
        simp only
        split
        · exact h1
        · rename_i hn
          exact kept_trim h1 (he _ (by simp [ends])) (by
            cases hh : RTab.hasC99 (shifts C f false t) (r.id - 1) with
            | false => exact hh
            | true => exact absurd hh hn)
  | squares f l i r ihf iha =>
    simp only [shifts]
    exact iha false (ihf false h (fun x hx => ho x (by simp [ops, hx])) (fun x hx => hq x (by simp [quiets, hx]))
      (fun x hx => he x (by simp [ends, hx]))) (fun x hx => ho x (by simp [ops, hx])) (fun x hx => hq x (by simp [quiets, hx]))
      (fun x hx => he x (by simp [ends, hx]))
  | field l op r ihl ihr =>
    simp only [shifts]
    have h1 := ihl false h (fun x hx => ho x (by simp [ops, hx])) (fun x hx => hq x (by simp [quiets, hx]))
      (fun x hx => he x (by simp [ends, hx]))
    have := hq op.id (by simp [quiets])
    exact ihr false (kept_trim h1 (hWZ _ this) (h1.quiet _ this)) (fun x hx => ho x (by simp [ops, hx]))
      (fun x hx => hq x (by simp [quiets, hx])) (fun x hx => he x (by simp [ends, hx]))

end

/-! ### The document of an expression -/

theorem row_append {lim ind : Nat} {t : RTab} (a b : List Tok) (c : Nat) :
    row lim ind t (a ++ b) c = (row lim ind t a c).bind (row lim ind t b) := by
  induction a generalizing c with
  | nil => rfl
  | cons x a ih =>
    simp only [List.cons_append, row]
    split
    · cases tail lim ind (t.at x.id) (strwidth x.str (c + 1)) with
      | none => rfl
      | some c' => exact ih c'
    · rfl

theorem row_split {lim ind : Nat} {t : RTab} {a b : List Tok} {c c' : Nat} (h : row lim ind t (a ++ b) c = some c') :
    ∃ m, row lim ind t a c = some m ∧ row lim ind t b m = some c' := by
  rw [row_append] at h
  cases hm : row lim ind t a c with
  | none => rw [hm] at h; cases h
  | some m => rw [hm] at h; exact ⟨m, rfl, h⟩

theorem row_cons {lim ind : Nat} {t : RTab} {x : Tok} {b : List Tok} {c c' : Nat} (h : row lim ind t (x :: b) c = some c') :
    ∃ m, row lim ind t [x] c = some m ∧ row lim ind t b m = some c' := row_split (a := [x]) h

/-- A pending line break ends an open comment. -/
def Closed (s : Pos) : Prop := s.o = true → s.p = true

section
variable {lim I K : Nat}

/-- The suffixes of a token. -/
theorem wp_rem {x : Tok} {Q : Pos → Prop} : ∀ {l : List Rem} {s : Pos} {B B' : Nat}, Fair l → s.c ≤ B →
    (Closed s ∨ l.head? = some (.line true false)) → tail lim (I + K) l B = some B' →
    (∀ s', Closed s' → s'.c ≤ B' → s'.par = s.par →
      (l.getLast? = some (.line true false) → s'.p = true ∧ B' = I + K) → Q s') →
    wp lim I K (remDoc x l) Q s
  | [], s, B, B', _, hB, hs, ht, hQ => by
    cases ht
    rcases hs with hs | hs
    · exact hQ s hs hB rfl (fun h => by simp at h)
    · simp at hs
  | .space :: l, s, B, B', hg, hB, hs, ht, hQ => by
    refine wp_rem (l := l) ⟨fun b h => hg.one b (by simp [h]), fun c s h => hg.text c s (by simp [h]), hg.ended⟩ hB
      (Or.inl (hs.resolve_right (by simp))) ht fun s' h1 h2 h3 h4 => hQ s' h1 h2 h3 fun h => h4 ?_
    cases l with
    | nil => simp at h
    | cons y l => simpa using h
  | .line b true :: l, s, B, B', hg, hB, hs, ht, hQ => by
    refine wp_rem (l := l) ⟨fun b h => hg.one b (by simp [h]), fun c s h => hg.text c s (by simp [h]), hg.ended⟩ hB
      (Or.inl (hs.resolve_right (by simp))) ht fun s' h1 h2 h3 h4 => hQ s' h1 h2 h3 fun h => h4 ?_
    cases l with
    | nil => simp at h
    | cons y l => simpa using h
  | .line false false :: l, s, B, B', hg, hB, hs, ht, hQ => absurd (hg.one false (by simp)) (by simp)
  | .line true false :: l, s, B, B', hg, hB, hs, ht, hQ => by
    show wp lim I K (remDoc x l) Q ⟨true, s.o, I + K, s.par⟩
    have hl : Fair l := ⟨fun b h => hg.one b (by simp [h]), fun c s h => hg.text c s (by simp [h]), hg.ended⟩
    cases l with
    | nil =>
      have e : B' = I + K := by simpa [tail] using ht.symm
      subst e
      exact hQ _ (fun _ => rfl) (Nat.le_refl _) rfl fun _ => ⟨rfl, rfl⟩
    | cons y l =>
      refine wp_rem (l := y :: l) (s := ⟨true, s.o, I + K, s.par⟩) (B := I + K) hl (Nat.le_refl _) (Or.inl fun _ => rfl) ht
        fun s' h1 h2 h3 h4 => hQ s' h1 h2 h3 fun h => h4 (by simpa using h)
  | .comment c z :: l, s, B, B', hg, hB, hs, ht, hQ => by
    have hs : Closed s := hs.resolve_right (by simp)
    have hl : Fair l := ⟨fun b h => hg.one b (by simp [h]), fun c s h => hg.text c s (by simp [h]), hg.ended.2⟩
    have hm := Knfmt.Doc.width_mono z hB
    unfold tail at ht
    split at ht
    · rename_i hlim
      show CommentText z ∧ Closed s ∧ strwidth z s.c ≤ lim ∧ wp lim I K (remDoc x l) Q ⟨false, slashes z, strwidth z s.c, s.par⟩
      refine ⟨(hg.text c z (by simp)).1, hs, Nat.le_trans hm hlim, ?_⟩
      have he := hg.ended.1
      refine wp_rem (l := l) hl hm ?_ ht fun s' h1 h2 h3 h4 => hQ s' h1 h2 h3 fun h => h4 ?_
      · cases hz : slashes z with
        | false => exact Or.inl fun h => by simp at h
        | true => exact Or.inr (he hz)
      · cases l with
        | nil => simp at h
        | cons y l => simpa using h
    · cases ht

variable {C : Conf} {t : RTab} (hsuf : ∀ x, C.suffix x = remDoc x (t.at x.id)) (hgood : ∀ i, Fair (t.at i))
include hsuf hgood

/-- A token with its suffixes. -/
theorem wp_tok {x : Tok} (hf : Firm x.str) {Q : Pos → Prop} {s : Pos} {B B' : Nat} (hs : Closed s) (hB : s.c ≤ B + 1)
    (hr : row lim (I + K) t [x] B = some B')
    (hQ : ∀ s', Closed s' → s'.c ≤ B' → s'.par = s.par →
      ((t.at x.id).getLast? = some (.line true false) → s'.p = true ∧ B' = I + K) → Q s') :
    wp lim I K (tok C x) Q s := by
  unfold row at hr
  split at hr
  · rename_i hlim
    have hm := Knfmt.Doc.width_mono x.str hB
    have e : tail lim (I + K) (t.at x.id) (strwidth x.str (B + 1)) = some B' := by
      cases h : tail lim (I + K) (t.at x.id) (strwidth x.str (B + 1)) with
      | none => rw [h] at hr; cases hr
      | some c => rw [h] at hr; exact hr
    refine ⟨hf, hs, Nat.le_trans hm hlim, ?_⟩
    rw [hsuf]
    exact wp_rem (hgood _) hm (Or.inl fun h => by simp at h) e fun s' h1 h2 h3 h4 => hQ s' h1 h2 h3 h4
  · cases hr

omit hsuf hgood in
theorem row_room {x : Tok} (hn : '\n' ∉ x.str) {B B' : Nat} {xs : List Tok} (hr : row lim (I + K) t (x :: xs) B = some B') :
    B + 1 ≤ lim := by
  unfold row at hr
  split at hr
  · rename_i hlim
    rw [Knfmt.Doc.width_column] at hlim
    exact Nat.le_trans (Knfmt.Doc.column_ge _ _ hn) hlim
  · cases hr

omit hsuf hgood in
theorem full_head {e : Ex} (h : Full e) : ∃ x xs, yield e = x :: xs := by
  induction e with
  | null => exact h.elim
  | cast _ _ _ _ => exact h.elim
  | recov _ => exact h.elim
  | lit x => exact ⟨x, [], rfl⟩
  | un x e => exact ⟨_, _, rfl⟩
  | pre x e => exact ⟨_, _, rfl⟩
  | sizeofE x e => exact ⟨_, _, rfl⟩
  | sizeofP x l e r => exact ⟨_, _, rfl⟩
  | parens x e r => exact ⟨_, _, rfl⟩
  | post e x ih => obtain ⟨y, ys, e'⟩ := ih h; exact ⟨y, ys ++ [x], by simp [yield, e']⟩
  | concat e x ih => obtain ⟨y, ys, e'⟩ := ih h; exact ⟨y, ys ++ [x], by simp [yield, e']⟩
  | bin l x r ih _ => obtain ⟨y, ys, e'⟩ := ih h.1; exact ⟨y, ys ++ x :: yield r, by simp [yield, e']⟩
  | field l x r ih _ => obtain ⟨y, ys, e'⟩ := ih h.1; exact ⟨y, ys ++ x :: yield r, by simp [yield, e']⟩
  | call f x a r ih _ => obtain ⟨y, ys, e'⟩ := ih h.1; exact ⟨y, ys ++ x :: (yield a ++ r.toList), by simp [yield, e']⟩
  | squares f x a r ih _ => obtain ⟨y, ys, e'⟩ := ih h.1; exact ⟨y, ys ++ x :: (yield a ++ r.toList), by simp [yield, e']⟩
  | tern c q m co x ih _ _ =>
    obtain ⟨y, ys, e'⟩ := ih h.1
    exact ⟨y, ys ++ q :: (yield m ++ (co.toList ++ yield x)), by simp [yield, e']⟩

end

theorem wp_soft {lim I K : Nat} {C : Conf} {w : Int} {f : Doc → Doc} {k : Doc} {Q : Pos → Prop} {s : Pos} :
    wp lim I K (soft C w f k) Q s = wp lim I K (f k) Q s := by
  unfold soft
  split
  · rfl
  · split <;> rfl

theorem wp_softIf {lim I K : Nat} {b : Bool} {C : Conf} {w : Int} {f : Doc → Doc} {k : Doc} {Q : Pos → Prop} {s : Pos} :
    wp lim I K (softIf b C w f k) Q s = wp lim I K (f k) Q s := by
  unfold softIf
  split
  · exact wp_soft
  · rfl

/-- The style: nothing is aligned, no parentheses are removed or written. -/
structure Conf.Calm (C : Conf) : Prop where
  operands : C.alignOperands = false
  bracket : C.alignBracket = false
  columns : C.columns = false
  parens : C.simpleParens = false
  sizeof : C.simpleSizeof = false

section
variable {lim I K : Nat} {C : Conf} {T : Talk} {t : RTab} (hC : C.Calm) (hsuf : ∀ x, C.suffix x = remDoc x (t.at x.id))
  (hgood : ∀ i, Fair (t.at i))
include hsuf hgood

/-- An optional token. -/
theorem wp_optTok {r : Option Tok} (hf : ∀ x ∈ r.toList, Firm x.str) {Q : Pos → Prop} {s : Pos} {B B' : Nat}
    (hs : Closed s) (hB : s.c ≤ B) (hr : row lim (I + K) t r.toList B = some B')
    (hQ : ∀ s', Closed s' → s'.c ≤ B' → s'.par = s.par → Q s') :
    wp lim I K (optTok C r) Q s := by
  cases r with
  | none => cases hr; exact hQ s hs hB rfl
  | some x => exact wp_tok hsuf hgood (hf x (by simp)) hs (Nat.le_succ_of_le hB) hr fun s' h1 h2 h3 _ => hQ s' h1 h2 h3

theorem wp_dedent {r : Option Tok} (hf : ∀ x ∈ r.toList, Firm x.str) {Q : Pos → Prop} {s : Pos} {B B' : Nat}
    (hs : Closed s) (hB : s.c ≤ B) (hr : row lim (I + K) t r.toList B = some B')
    (hQ : ∀ s', Closed s' → s'.c ≤ B' → s'.par = s.par → Q s') :
    wp lim I K (dedentTok C r) Q s := by
  cases r with
  | none => cases hr; exact hQ s hs hB rfl
  | some x =>
    exact Or.inr ⟨by omega, wp_tok hsuf hgood (hf x (by simp)) hs (Nat.le_succ_of_le hB) hr
      fun s' h1 h2 h3 _ => hQ s' h1 h2 h3⟩

theorem wp_closing {r : Option Tok} (hf : ∀ x ∈ r.toList, Firm x.str) {Q : Pos → Prop} {s : Pos} {B B' : Nat}
    (hs : Closed s) (hB : s.c ≤ B) (hr : row lim (I + K) t r.toList B = some B')
    (hQ : ∀ s', Closed s' → s'.c ≤ B' → s'.par = s.par → Q s') :
    wp lim I K (closing C T r) Q s := by
  cases r with
  | none => cases hr; exact hQ s hs hB rfl
  | some x =>
    have := wp_tok hsuf hgood (hf x (by simp)) hs (Nat.le_succ_of_le hB) hr
      (Q := Q) fun s' h1 h2 h3 _ => hQ s' h1 h2 h3
    unfold closing
    simp only
    split
    · exact Or.inr ⟨by omega, this⟩
    · exact this

include hC

/-- **The document of an expression keeps line comments closed.** -/
theorem wp_rdoc (e : Ex) (he : Full e)
    (hheld : ∀ x ∈ ops e, T.held x = true → (t.at x.id).getLast? = some (.line true false))
    (hf : ∀ x ∈ yield e, Firm x.str ∧ '\n' ∉ x.str) {c : Ctx} {k : Doc} {Q : Pos → Prop} {s : Pos} {B B' n : Nat}
    (hs : Closed s) (hB : s.c ≤ B + 1) (hn : s.par ≤ n) (hK : n + parenCount e ≤ K)
    (hr : row lim (I + K) t (yield e) B = some B')
    (hk : ∀ s', Closed s' → s'.c ≤ B' → s'.par ≤ n + parenCount e → wp lim I K (kk c k) Q s') :
    wp lim I K (rdoc C T e c k) Q s := by
  have kksub : ∀ (c : Ctx) k, kk c.sub k = k := fun c k => rfl
  induction e generalizing c k Q s B B' n with
  | null => exact he.elim
  | cast _ _ _ _ => exact he.elim
  | recov _ => exact he.elim
  | lit x =>
    show wp lim I K (tok C x) (wp lim I K (kk c k) Q) s
    exact wp_tok hsuf hgood (hf x (by simp [yield])).1 hs hB hr fun s' h1 h2 h3 _ => hk s' h1 h2 (by rw [h3]; exact hn)
  | un op e ih =>
    obtain ⟨m, hr1, hr2⟩ := row_cons hr
    show wp lim I K (tok C op) (wp lim I K (rdoc C T e c.sub (kk c k)) Q) s
    refine wp_tok hsuf hgood (hf op (by simp [yield])).1 hs hB hr1 fun s' h1 h2 h3 _ => ?_
    exact ih he (fun x hx => hheld x (by simp [ops, hx])) (fun x hx => hf x (by simp [yield, hx])) h1 (Nat.le_succ_of_le h2) (by rw [h3]; exact hn) hK hr2 hk
  | pre op e ih =>
    obtain ⟨m, hr1, hr2⟩ := row_cons hr
    show wp lim I K (tok C op) (wp lim I K (rdoc C T e c.sub .nil) (wp lim I K (kk c k) Q)) s
    refine wp_tok hsuf hgood (hf op (by simp [yield])).1 hs hB hr1 fun s' h1 h2 h3 _ => ?_
    exact ih he (fun x hx => hheld x (by simp [ops, hx])) (fun x hx => hf x (by simp [yield, hx])) h1 (Nat.le_succ_of_le h2) (by rw [h3]; exact hn) hK hr2 hk
  | post e op ih =>
    obtain ⟨m, hr1, hr2⟩ := row_split hr
    show wp lim I K (rdoc C T e c.sub .nil) (wp lim I K (tok C op) (wp lim I K (kk c k) Q)) s
    refine ih he (fun x hx => hheld x (by simp [ops, hx])) (fun x hx => hf x (by simp [yield, hx])) hs hB hn hK hr1 fun s' h1 h2 h3 => ?_
    exact wp_tok hsuf hgood (hf op (by simp [yield])).1 h1 (Nat.le_succ_of_le h2) hr2 fun s'' h4 h5 h6 _ =>
      hk s'' h4 h5 (by rw [h6]; exact h3)
  | concat e x ih =>
    obtain ⟨m, hr1, hr2⟩ := row_split hr
    have hroom := row_room (hf x (by simp [yield])).2 hr2
    have hal : alignIf (C.alignOperands && c.ncalls = 0 && !C.prevLine x) x.id
        (rdoc C T e { c.sub with chain := true } (.seq (.group (tok C x)) k)) =
        rdoc C T e { c.sub with chain := true } (.seq (.group (tok C x)) k) := by
      simp [hC.operands, alignIf]
    rw [rdoc]
    split
    · rename_i hc
      refine ih he (fun x hx => hheld x (by simp [ops, hx])) (fun x hx => hf x (by simp [yield, hx])) hs hB hn hK hr1 fun s' h1 h2 h3 => ?_
      have e1 : kk { c with root := false } (.seq (.group (.seq (tok C x) .line)) k) =
          .seq .line (.seq (.group (.seq (tok C x) .line)) k) := by simp [kk, hc]
      rw [e1]
      refine ⟨Nat.le_trans (Nat.succ_le_succ h2) hroom, ?_⟩
      show wp lim I K (tok C x) (wp lim I K .line (wp lim I K k Q)) _
      refine wp_tok hsuf hgood (hf x (by simp [yield])).1 h1 (Nat.succ_le_succ h2) hr2 fun s'' h4 h5 h6 _ => ?_
      have := hk s'' h4 h5 (by rw [h6]; exact h3)
      rw [show kk c k = .seq .line k by simp [kk, hc]] at this
      exact this
    · rename_i hc
      rw [hal]
      refine ih he (fun x hx => hheld x (by simp [ops, hx])) (fun x hx => hf x (by simp [yield, hx])) hs hB hn hK hr1 fun s' h1 h2 h3 => ?_
      refine ⟨Nat.le_trans (Nat.succ_le_succ h2) hroom, ?_⟩
      show wp lim I K (tok C x) (wp lim I K k Q) _
      refine wp_tok hsuf hgood (hf x (by simp [yield])).1 h1 (Nat.succ_le_succ h2) hr2 fun s'' h4 h5 h6 _ => ?_
      have := hk s'' h4 h5 (by rw [h6]; exact h3)
      rw [show kk c k = k by simp [kk, hc]] at this
      exact this
  | sizeofE x e ih =>
    obtain ⟨m, hr1, hr2⟩ := row_cons hr
    obtain ⟨y, ys, ey⟩ := full_head (e := e) he
    have hroom : m + 1 ≤ lim := by
      rw [ey] at hr2
      exact row_room (hf y (by simp [yield, ey])).2 hr2
    rw [rdoc, hC.sizeof]
    show wp lim I K (tok C x) (fun s => [' '] = [' '] ∧ s.c + 1 ≤ lim ∧
      wp lim I K (rdoc C T e c.sub (.seq .nil (kk c k))) Q { s with c := s.c + 1 }) s
    refine wp_tok hsuf hgood (hf x (by simp [yield])).1 hs hB hr1 fun s' h1 h2 h3 _ => ?_
    refine ⟨rfl, Nat.le_trans (Nat.succ_le_succ h2) hroom, ?_⟩
    exact ih he (fun x hx => hheld x (by simp [ops, hx])) (fun x hx => hf x (by simp [yield, hx])) h1 (Nat.succ_le_succ h2) (by rw [h3]; exact hn) hK hr2 hk
  | sizeofP x l e r ih =>
    obtain ⟨m, hr1, hr2⟩ := row_cons hr
    obtain ⟨m2, hr3, hr4⟩ := row_cons hr2
    obtain ⟨m3, hr5, hr6⟩ := row_split hr4
    show wp lim I K (tok C x) (wp lim I K (tok C l) (wp lim I K (rdoc C T e c.sub (.seq (optTok C r) (kk c k))) Q)) s
    refine wp_tok hsuf hgood (hf x (by simp [yield])).1 hs hB hr1 fun s1 a1 a2 a3 _ => ?_
    refine wp_tok hsuf hgood (hf l (by simp [yield])).1 a1 (Nat.le_succ_of_le a2) hr3 fun s2 b1 b2 b3 _ => ?_
    refine ih he (fun x hx => hheld x (by simp [ops, hx])) (fun x hx => hf x (by simp [yield, hx])) b1 (Nat.le_succ_of_le b2) (by rw [b3, a3]; exact hn) hK hr5
      fun s3 c1 c2 c3 => ?_
    exact wp_optTok hsuf hgood (fun x hx => (hf x (by simp [yield]; simp at hx; simp [hx])).1) c1 c2 hr6
      fun s4 d1 d2 d3 => hk s4 d1 d2 (by rw [d3]; exact c3)
  | parens l e r ih =>
    obtain ⟨m, hr1, hr2⟩ := row_cons hr
    obtain ⟨m2, hr3, hr4⟩ := row_split hr2
    rw [rdoc, hC.parens, Bool.and_false]
    simp only [Bool.false_eq_true, if_false]
    show wp lim I K (tok C l) (wp lim I K (indentParens C c (rdoc C T e c.sub (.seq (optTok C r) (kk c k)))) Q) s
    refine wp_tok hsuf hgood (hf l (by simp [yield])).1 hs hB hr1 fun s1 a1 a2 a3 _ => ?_
    have hpc : parenCount (.parens l e r) = parenCount e + 1 := rfl
    have key : ∀ s2 : Pos, s2.par ≤ n + 1 → Closed s2 → s2.c ≤ m →
        wp lim I K (rdoc C T e c.sub (.seq (optTok C r) (kk c k))) Q s2 := by
      intro s2 b1 b2 b3
      refine ih he (fun x hx => hheld x (by simp [ops, hx])) (fun x hx => hf x (by simp [yield, hx])) b2 (Nat.le_succ_of_le b3) b1 (by omega) hr3
        fun s3 c1 c2 c3 => ?_
      exact wp_optTok hsuf hgood (fun x hx => (hf x (by simp [yield]; simp at hx; simp [hx])).1) c1 c2 hr4
        fun s4 d1 d2 d3 => hk s4 d1 d2 (by omega)
    unfold indentParens
    rw [hC.bracket]
    simp only [Bool.false_eq_true, if_false]
    split
    · exact key s1 (by omega) a1 a2
    · exact Or.inl ⟨rfl, by omega, key _ (by show s1.par + 1 ≤ _; omega) a1 a2⟩
  | bin l op r ihl ihr =>
    obtain ⟨m, hr1, hr2⟩ := row_split hr
    obtain ⟨m2, hr3, hr4⟩ := row_cons hr2
    obtain ⟨y, ys, ey⟩ := full_head he.2
    have hroom := row_room (hf op (by simp [yield])).2 hr3
    have hroom2 : m2 + 1 ≤ lim := by
      rw [ey] at hr4
      exact row_room (hf y (by simp [yield, ey])).2 hr4
    have hop := (hf op (by simp [yield])).1
    have hnull : isNull r = false := by cases r <;> first | rfl | exact he.2.elim
    have hpc : parenCount (.bin l op r) = parenCount l + parenCount r := rfl
    have right : ∀ (c' : Ctx) (s2 : Pos), (∀ k, kk c' k = k) → s2.par ≤ n + parenCount l → Closed s2 → s2.c ≤ m2 + 1 →
        wp lim I K (rdoc C T r c' (kk c k)) Q s2 := by
      intro c' s2 hc' b1 b2 b3
      refine ihr he.2 (fun x hx => hheld x (by simp [ops, hx])) (fun x hx => hf x (by simp [yield, hx])) b2 b3 b1 (by omega) hr4
        fun s3 c1 c2 c3 => ?_
      rw [hc']
      exact hk s3 c1 c2 (by omega)
    rw [rdoc]
    simp only [hnull, Bool.false_eq_true, if_false, hC.columns, hC.operands, alignIf, alignAssign]
    show wp lim I K (if op.ty = .comma then _ else _) Q s
    split
    · -- a comma
      show wp lim I K (rdoc C T l c.sub _) (wp lim I K (soft C 3 (rdoc C T r c.sub) (kk c k)) Q) s
      refine ihl he.1 (fun x hx => hheld x (by simp [ops, hx])) (fun x hx => hf x (by simp [yield, hx])) hs hB hn (by omega) hr1 fun s1 a1 a2 a3 => ?_
      show wp lim I K (tok C op) (wp lim I K (if C.nextComma op then .nil else .line) (wp lim I K (soft C 3 (rdoc C T r c.sub) (kk c k)) Q)) s1
      refine wp_tok hsuf hgood hop a1 (Nat.le_succ_of_le a2) hr3 fun s2 b1 b2 b3 _ => ?_
      split
      · show wp lim I K (soft C 3 (rdoc C T r c.sub) (kk c k)) Q s2
        rw [wp_soft]
        exact right c.sub s2 (fun _ => rfl) (by omega) b1 (Nat.le_succ_of_le b2)
      · refine ⟨Nat.le_trans (Nat.succ_le_succ b2) hroom2, ?_⟩
        rw [wp_soft]
        exact right c.sub _ (fun _ => rfl) (by show s2.par ≤ _; omega) b1 (Nat.succ_le_succ b2)
    · split
      · -- an assignment
        show wp lim I K (rdoc C T l _ _) (wp lim I K (softIf _ C 2 (rdoc C T r _) (kk c k)) Q) s
        refine ihl he.1 (fun x hx => hheld x (by simp [ops, hx])) (fun x hx => hf x (by simp [yield, hx])) hs hB hn (by omega) hr1 fun s1 a1 a2 a3 => ?_
        refine ⟨rfl, Nat.le_trans (Nat.succ_le_succ a2) hroom, ?_⟩
        show wp lim I K (tok C op) _ _
        refine wp_tok hsuf hgood hop a1 (Nat.succ_le_succ a2) hr3 fun s2 b1 b2 b3 _ => ?_
        simp only at b3
        refine ⟨rfl, Nat.le_trans (Nat.succ_le_succ b2) hroom2, ?_⟩
        rw [wp_softIf]
        exact right _ _ (fun _ => rfl) (by show s2.par ≤ _; omega) b1 (Nat.succ_le_succ b2)
      · split
        · -- the operator begins the line
          show wp lim I K (rdoc C T l c.sub (if hasSpaces C op then .line else .nil))
            (wp lim I K (tok C op) (wp lim I K (if hasSpaces C op then lit [' '] else .nil)
              (wp lim I K (rdoc C T r c.sub (kk c k)) Q))) s
          refine ihl he.1 (fun x hx => hheld x (by simp [ops, hx])) (fun x hx => hf x (by simp [yield, hx])) hs hB hn (by omega) hr1 fun s1 a1 a2 a3 => ?_
          have rest : ∀ s1 : Pos, Closed s1 → s1.c ≤ m + 1 → s1.par ≤ n + parenCount l →
              wp lim I K (tok C op) (wp lim I K (if hasSpaces C op then lit [' '] else .nil)
              (wp lim I K (rdoc C T r c.sub (kk c k)) Q)) s1 := by
            intro s1 a1 a2 a3
            refine wp_tok hsuf hgood hop a1 a2 hr3 fun s2 b1 b2 b3 _ => ?_
            split
            · refine ⟨rfl, Nat.le_trans (Nat.succ_le_succ b2) hroom2, ?_⟩
              exact right _ _ (fun _ => rfl) (by show s2.par ≤ _; omega) b1 (Nat.succ_le_succ b2)
            · exact right _ _ (fun _ => rfl) (by omega) b1 (Nat.le_succ_of_le b2)
          show wp lim I K (if hasSpaces C op then .line else .nil) _ s1
          by_cases hsp : hasSpaces C op = true
          · have := rest { s1 with c := s1.c + 1 } a1 (Nat.succ_le_succ a2) a3
            simp only [hsp, if_true] at this ⊢
            exact ⟨Nat.le_trans (Nat.succ_le_succ a2) hroom, this⟩
          · have := rest _ a1 (Nat.le_succ_of_le a2) a3
            simp only [hsp, Bool.false_eq_true, if_false] at this ⊢
            exact this
        · -- the operator ends the line
          show wp lim I K (rdoc C T l c.sub _) (wp lim I K (between C T op).2
            (wp lim I K (soft C 2 (rdoc C T r c.sub) (kk c k)) Q)) s
          refine ihl he.1 (fun x hx => hheld x (by simp [ops, hx])) (fun x hx => hf x (by simp [yield, hx])) hs hB hn (by omega) hr1 fun s1 a1 a2 a3 => ?_
          have rest : ∀ s1 : Pos, Closed s1 → s1.c ≤ m + 1 → s1.par ≤ n + parenCount l →
              wp lim I K (tok C op) (wp lim I K (between C T op).1 (wp lim I K (between C T op).2
                (wp lim I K (soft C 2 (rdoc C T r c.sub) (kk c k)) Q))) s1 := by
            intro s1 a1 a2 a3
            refine wp_tok hsuf hgood hop a1 a2 hr3 fun s2 b1 b2 b3 b4 => ?_
            unfold between
            split
            · rename_i hh
              obtain ⟨hp, hm⟩ := b4 (hheld op (by simp [ops]) hh)
              refine ⟨hp, ?_⟩
              show wp lim I K (soft C 2 (rdoc C T r c.sub) (kk c k)) Q _
              rw [wp_soft]
              exact right _ _ (fun _ => rfl) (by show s2.par ≤ _; omega) (fun h => by simp at h)
                (by show I + K ≤ m2 + 1; omega)
            · show wp lim I K (if hasSpaces C op then .line else .nil) (wp lim I K (soft C 2 (rdoc C T r c.sub) (kk c k)) Q) s2
              split
              · refine ⟨Nat.le_trans (Nat.succ_le_succ b2) hroom2, ?_⟩
                rw [wp_soft]
                exact right _ _ (fun _ => rfl) (by show s2.par ≤ _; omega) b1 (Nat.succ_le_succ b2)
              · show wp lim I K (soft C 2 (rdoc C T r c.sub) (kk c k)) Q s2
                rw [wp_soft]
                exact right _ _ (fun _ => rfl) (by omega) b1 (Nat.le_succ_of_le b2)
          show wp lim I K (if hasSpaces C op then lit [' '] else .nil) (wp lim I K (tok C op) (wp lim I K (between C T op).1 _)) s1
          split
          · exact ⟨rfl, Nat.le_trans (Nat.succ_le_succ a2) hroom, rest _ a1 (Nat.succ_le_succ a2) a3⟩
          · exact rest _ a1 (Nat.le_succ_of_le a2) a3
  | field l op r ihl ihr =>
    obtain ⟨m, hr1, hr2⟩ := row_split hr
    obtain ⟨m2, hr3, hr4⟩ := row_cons hr2
    have hpc : parenCount (.field l op r) = parenCount l + parenCount r := rfl
    show wp lim I K (rdoc C T l c.sub (.seq (tok C op) (rdoc C T r c.sub (kk c k)))) Q s
    refine ihl he.1 (fun x hx => hheld x (by simp [ops, hx])) (fun x hx => hf x (by simp [yield, hx])) hs hB hn (by omega) hr1 fun s1 a1 a2 a3 => ?_
    show wp lim I K (tok C op) (wp lim I K (rdoc C T r c.sub (kk c k)) Q) s1
    refine wp_tok hsuf hgood (hf op (by simp [yield])).1 a1 (Nat.le_succ_of_le a2) hr3 fun s2 b1 b2 b3 _ => ?_
    refine ihr he.2 (fun x hx => hheld x (by simp [ops, hx])) (fun x hx => hf x (by simp [yield, hx])) b1 (Nat.le_succ_of_le b2) (by rw [b3]; exact a3) (by omega) hr4
      fun s3 c1 c2 c3 => hk s3 c1 c2 (by omega)
  | squares f l i r ihf ihi =>
    obtain ⟨m, hr1, hr2⟩ := row_split hr
    obtain ⟨m2, hr3, hr4⟩ := row_cons hr2
    obtain ⟨m3, hr5, hr6⟩ := row_split hr4
    have hpc : parenCount (.squares f l i r) = parenCount f + parenCount i := rfl
    show wp lim I K (rdoc C T f c.sub (.seq (tok C l) (rdoc C T i c.sub (.seq (optTok C r) (kk c k))))) Q s
    refine ihf he.1 (fun x hx => hheld x (by simp [ops, hx])) (fun x hx => hf x (by simp [yield, hx])) hs hB hn (by omega) hr1 fun s1 a1 a2 a3 => ?_
    show wp lim I K (tok C l) (wp lim I K (rdoc C T i c.sub (.seq (optTok C r) (kk c k))) Q) s1
    refine wp_tok hsuf hgood (hf l (by simp [yield])).1 a1 (Nat.le_succ_of_le a2) hr3 fun s2 b1 b2 b3 _ => ?_
    have rest : ∀ s3 : Pos, Closed s3 → s3.c ≤ m3 → s3.par ≤ n + parenCount f + parenCount i →
        wp lim I K (.seq (optTok C r) (kk c k)) Q s3 := fun s3 c1 c2 c3 =>
      wp_optTok hsuf hgood (fun x hx => (hf x (by simp [yield]; simp at hx; simp [hx])).1) c1 c2 hr6
        fun s4 d1 d2 d3 => hk s4 d1 d2 (by omega)
    rcases he.2 with rfl | hi
    · cases hr5
      exact rest s2 b1 b2 (by omega)
    · exact ihi hi (fun x hx => hheld x (by simp [ops, hx])) (fun x hx => hf x (by simp [yield, hx])) b1 (Nat.le_succ_of_le b2) (by rw [b3]; exact a3) (by omega) hr5 rest
  | call f l a r ihf iha =>
    obtain ⟨m, hr1, hr2⟩ := row_split hr
    obtain ⟨m2, hr3, hr4⟩ := row_cons hr2
    obtain ⟨m3, hr5, hr6⟩ := row_split hr4
    have hpc : parenCount (.call f l a r) = parenCount f + parenCount a := rfl
    rw [rdoc]
    simp only [alignArgs, hC.bracket, Bool.false_eq_true, if_false]
    show wp lim I K (softIf _ C 2 (rdoc C T f _) _) Q s
    rw [wp_softIf]
    refine ihf he.1 (fun x hx => hheld x (by simp [ops, hx])) (fun x hx => hf x (by simp [yield, hx])) hs hB hn (by omega) hr1 fun s1 a1 a2 a3 => ?_
    show wp lim I K (tok C l) (wp lim I K _ Q) s1
    refine wp_tok hsuf hgood (hf l (by simp [yield])).1 a1 (Nat.le_succ_of_le a2) hr3 fun s2 b1 b2 b3 _ => ?_
    rcases he.2 with rfl | hi
    · cases hr5
      simp only [isNull, if_true]
      exact wp_dedent hsuf hgood (fun x hx => (hf x (by simp [yield]; simp at hx; simp [hx])).1) b1 b2 hr6
        fun s4 d1 d2 d3 => hk s4 d1 d2 (by omega)
    · have hnull : isNull a = false := by cases a <;> first | rfl | exact hi.elim
      simp only [hnull, Bool.false_eq_true, if_false]
      rw [wp_soft]
      refine iha hi (fun x hx => hheld x (by simp [ops, hx])) (fun x hx => hf x (by simp [yield, hx])) b1 (Nat.le_succ_of_le b2) (by rw [b3]; exact a3) (by omega) hr5
        fun s3 c1 c2 c3 => ?_
      exact wp_closing hsuf hgood (fun x hx => (hf x (by simp [yield]; simp at hx; simp [hx])).1) c1 c2 hr6
        fun s4 d1 d2 d3 => hk s4 d1 d2 (by omega)
  | tern cd q m co x ihc ihm ihx =>
    obtain ⟨co, rfl⟩ := Option.isSome_iff_exists.1 he.2.2.1
    obtain ⟨m1, hr1, hr2⟩ := row_split hr
    obtain ⟨m2, hr3, hr4⟩ := row_cons hr2
    obtain ⟨m3, hr5, hr6⟩ := row_split hr4
    obtain ⟨m4, hr7, hr8⟩ := row_cons (x := co) (b := yield x) hr6
    obtain ⟨y, ys, ey⟩ := full_head he.2.2.2
    have room1 := row_room (hf q (by simp [yield])).2 hr3
    have room3 := row_room (hf co (by simp [yield])).2 hr7
    have room4 : m4 + 1 ≤ lim := by
      rw [ey] at hr8
      exact row_room (hf y (by simp [yield, ey])).2 hr8
    have hq := (hf q (by simp [yield])).1
    have hco := (hf co (by simp [yield])).1
    have hpc : parenCount (.tern cd q m (some co) x) = parenCount cd + parenCount m + parenCount x := rfl
    have last : ∀ s1 : Pos, Closed s1 → s1.c ≤ m4 + 1 → s1.par ≤ n + parenCount cd + parenCount m →
        wp lim I K (rdoc C T x c.sub (kk c k)) Q s1 := by
      intro s1 a1 a2 a3
      exact ihx he.2.2.2 (fun x hx => hheld x (by simp [ops, hx])) (fun x hx => hf x (by simp [yield, hx])) a1 a2 a3 (by omega) hr8 fun s2 b1 b2 b3 =>
        hk s2 b1 b2 (by omega)
    rw [rdoc]
    simp only [hC.operands, alignIf, Bool.false_eq_true, if_false]
    show wp lim I K (if C.breakTernary then _ else _) Q s
    split
    · show wp lim I K (rdoc C T cd c.sub .line) (wp lim I K (tok C q) (wp lim I K (if isNull m then .nil else
        .seq (lit [' ']) (soft C 2 (rdoc C T m c.sub) .line)) (wp lim I K (tok C co) (wp lim I K (lit [' '])
          (wp lim I K (rdoc C T x c.sub (kk c k)) Q))))) s
      refine ihc he.1 (fun x hx => hheld x (by simp [ops, hx])) (fun x hx => hf x (by simp [yield, hx])) hs hB hn (by omega) hr1 fun s1 a1 a2 a3 => ?_
      refine ⟨Nat.le_trans (Nat.succ_le_succ a2) room1, ?_⟩
      refine wp_tok hsuf hgood hq a1 (Nat.succ_le_succ a2) hr3 fun s2 b1 b2 b3 _ => ?_
      simp only at b3
      have rest : ∀ s3 : Pos, Closed s3 → s3.c ≤ m3 + 1 → s3.par ≤ n + parenCount cd + parenCount m →
          wp lim I K (tok C co) (wp lim I K (lit [' ']) (wp lim I K (rdoc C T x c.sub (kk c k)) Q)) s3 := by
        intro s3 c1 c2 c3
        refine wp_tok hsuf hgood hco c1 c2 hr7 fun s4 d1 d2 d3 _ => ?_
        exact ⟨rfl, Nat.le_trans (Nat.succ_le_succ d2) room4, last _ d1 (Nat.succ_le_succ d2) (by show s4.par ≤ _; omega)⟩
      rcases he.2.1 with rfl | hm
      · cases hr5
        simp only [isNull, if_true]
        exact rest s2 b1 (Nat.le_succ_of_le b2) (by omega)
      · have hnull : isNull m = false := by cases m <;> first | rfl | exact hm.elim
        have room2 : m2 + 1 ≤ lim := by
          obtain ⟨z, zs, ez⟩ := full_head hm
          rw [ez] at hr5
          exact row_room (hf z (by simp [yield, ez])).2 hr5
        simp only [hnull, Bool.false_eq_true, if_false]
        refine ⟨rfl, Nat.le_trans (Nat.succ_le_succ b2) room2, ?_⟩
        rw [wp_soft]
        refine ihm hm (fun x hx => hheld x (by simp [ops, hx])) (fun x hx => hf x (by simp [yield, hx])) (n := n + parenCount cd) b1 (Nat.succ_le_succ b2)
          (by show s2.par ≤ _; omega) (by omega) hr5 fun s3 c1 c2 c3 => ?_
        exact ⟨Nat.le_trans (Nat.succ_le_succ c2) room3, rest _ c1 (Nat.succ_le_succ c2) c3⟩
    · show wp lim I K (rdoc C T cd c.sub (.seq .line (.seq (tok C q) (if isNull m then .nil else .line))))
        (wp lim I K (if isNull m then .seq (optTok C (some co)) .line
            else soft C 2 (rdoc C T m c.sub) (.seq .line (.seq (optTok C (some co)) .line)))
          (wp lim I K (soft C 2 (rdoc C T x c.sub) (kk c k)) Q)) s
      refine ihc he.1 (fun x hx => hheld x (by simp [ops, hx])) (fun x hx => hf x (by simp [yield, hx])) hs hB hn (by omega) hr1 fun s1 a1 a2 a3 => ?_
      refine ⟨Nat.le_trans (Nat.succ_le_succ a2) room1, ?_⟩
      show wp lim I K (tok C q) _ _
      refine wp_tok hsuf hgood hq a1 (Nat.succ_le_succ a2) hr3 fun s2 b1 b2 b3 _ => ?_
      simp only at b3
      have rest : ∀ s3 : Pos, Closed s3 → s3.c ≤ m3 + 1 → s3.par ≤ n + parenCount cd + parenCount m →
          wp lim I K (tok C co) (wp lim I K .line (wp lim I K (soft C 2 (rdoc C T x c.sub) (kk c k)) Q)) s3 := by
        intro s3 c1 c2 c3
        refine wp_tok hsuf hgood hco c1 c2 hr7 fun s4 d1 d2 d3 _ => ?_
        refine ⟨Nat.le_trans (Nat.succ_le_succ d2) room4, ?_⟩
        rw [wp_soft]
        exact last _ d1 (Nat.succ_le_succ d2) (by show s4.par ≤ _; omega)
      rcases he.2.1 with rfl | hm
      · cases hr5
        simp only [isNull, if_true]
        exact rest s2 b1 (Nat.le_succ_of_le b2) (by omega)
      · have hnull : isNull m = false := by cases m <;> first | rfl | exact hm.elim
        have room2 : m2 + 1 ≤ lim := by
          obtain ⟨z, zs, ez⟩ := full_head hm
          rw [ez] at hr5
          exact row_room (hf z (by simp [yield, ez])).2 hr5
        simp only [hnull, Bool.false_eq_true, if_false]
        refine ⟨Nat.le_trans (Nat.succ_le_succ b2) room2, ?_⟩
        rw [wp_soft]
        refine ihm hm (fun x hx => hheld x (by simp [ops, hx])) (fun x hx => hf x (by simp [yield, hx])) (n := n + parenCount cd) b1 (Nat.succ_le_succ b2)
          (by show s2.par ≤ _; omega) (by omega) hr5 fun s3 c1 c2 c3 => ?_
        exact ⟨Nat.le_trans (Nat.succ_le_succ c2) room3, rest _ c1 (Nat.succ_le_succ c2) c3⟩

end

/-! ### What the document consists of -/

/-- A token and the comments behind it. -/
def uttered (t : RTab) (x : Tok) : List Piece :=
  ⟨true, false, x.str⟩ :: (t.at x.id).filterMap Rem.piece?

theorem pieces_rem {x : Tok} {l : List Rem} (h : Fair l) : pieces (remDoc x l) = l.filterMap Rem.piece? := by
  have h1 := h.one
  clear h
  induction l with
  | nil => rfl
  | cons y l ih =>
    have ih := ih fun b hb => h1 b (by simp [hb])
    cases y with
    | space => rw [List.filterMap_cons_none rfl]; exact ih
    | line a b =>
      cases b with
      | true => rw [List.filterMap_cons_none rfl]; exact ih
      | false =>
        have := h1 a (by simp)
        subst this
        rw [List.filterMap_cons_none rfl]
        simpa [remDoc, pieces] using ih
    | comment c s => simp [remDoc, Rem.piece?, pieces, ih]

section
variable {C : Conf} {T : Talk} {t : RTab} (hC : C.Calm) (hsuf : ∀ x, C.suffix x = remDoc x (t.at x.id))
  (hgood : ∀ i, Fair (t.at i))
include hsuf hgood

theorem pieces_tok {x : Tok} : pieces (tok C x) = uttered t x := by
  simp [tok, pieces, uttered, hsuf, pieces_rem (hgood x.id)]

theorem pieces_opt {x : Option Tok} : pieces (optTok C x) = x.toList.flatMap (uttered t) := by
  cases x with
  | none => rfl
  | some x => simp [optTok, pieces_tok hsuf hgood]

theorem pieces_dedent {x : Option Tok} : pieces (dedentTok C x) = x.toList.flatMap (uttered t) := by
  cases x with
  | none => rfl
  | some x => simp [dedentTok, pieces, pieces_tok hsuf hgood]

theorem pieces_closing {x : Option Tok} : pieces (closing C T x) = x.toList.flatMap (uttered t) := by
  cases x with
  | none => rfl
  | some x =>
    unfold closing
    simp only
    split <;> simp [pieces, pieces_tok hsuf hgood]

omit hsuf hgood in
theorem pieces_kk {c : Ctx} {k : Doc} : pieces (kk c k) = pieces k := by
  unfold kk
  split <;> simp [pieces]

omit hsuf hgood in
theorem pieces_soft {n : Int} {f : Doc → Doc} {k : Doc} : pieces (soft C n f k) = pieces (f k) := by
  unfold soft
  split
  · rfl
  · split <;> simp [pieces]

omit hsuf hgood in
theorem pieces_softIf {b : Bool} {n : Int} {f : Doc → Doc} {k : Doc} : pieces (softIf b C n f k) = pieces (f k) := by
  unfold softIf
  split
  · exact pieces_soft
  · rfl

omit hsuf hgood in
theorem pieces_if {p : Prop} [Decidable p] {a b : Doc} : pieces (if p then a else b) = if p then pieces a else pieces b := by
  split <;> rfl

include hC

theorem pieces_rdoc (e : Ex) (he : Full e) (c : Ctx) (k : Doc) :
    pieces (rdoc C T e c k) = (yield e).flatMap (uttered t) ++ pieces k := by
  have e1 := @pieces_tok C t hsuf hgood
  have e2 := @pieces_opt C t hsuf hgood
  have e3 := @pieces_dedent C t hsuf hgood
  have e4 := @pieces_closing C T t hsuf hgood
  induction e generalizing c k with
  | null => exact he.elim
  | cast _ _ _ _ => exact he.elim
  | recov _ => exact he.elim
  | lit x => simp [rdoc, pieces, yield, e1, pieces_kk]
  | un op e ih => simp [rdoc, pieces, yield, e1, pieces_kk, ih he]
  | pre op e ih => simp [rdoc, pieces, yield, e1, pieces_kk, ih he]
  | post e op ih => simp [rdoc, pieces, yield, e1, pieces_kk, ih he]
  | concat e x ih =>
    simp only [rdoc, hC.operands, alignIf, Bool.false_and, Bool.false_eq_true, if_false]
    split <;> simp [pieces, yield, e1, ih he]
  | sizeofE x e ih => simp [rdoc, pieces, yield, e1, pieces_kk, ih he, hC.sizeof, lit]
  | sizeofP x l e r ih => simp [rdoc, pieces, yield, e1, e2, pieces_kk, ih he]
  | parens l e r ih =>
    rw [rdoc, hC.parens, Bool.and_false]
    simp only [indentParens, hC.bracket, Bool.false_eq_true, if_false]
    split <;> simp [pieces, yield, e1, e2, pieces_kk, ih he]
  | field l op r ihl ihr => simp [rdoc, pieces, yield, e1, pieces_kk, ihl he.1, ihr he.2]
  | bin l op r ihl ihr => 
    have hnull : isNull r = false := by cases r <;> first | rfl | exact he.2.elim
    rw [rdoc]
    simp only [hnull, Bool.false_eq_true, if_false, hC.columns, hC.operands, alignIf, alignAssign]
    have hb : pieces (between C T op).1 = [] ∧ pieces (between C T op).2 = [] := by
      unfold between
      split
      · exact ⟨rfl, rfl⟩
      · simp only [pieces_if]
        constructor <;> (try split) <;> rfl
    simp [pieces, yield, pieces_if, pieces_soft, pieces_softIf, e1, pieces_kk, ihl he.1, ihr he.2, hb, lit]
  | squares f l i r ihf ihi =>
    rcases he.2 with rfl | hi
    · simp [rdoc, pieces, yield, e1, e2, pieces_kk, ihf he.1]
    · simp [rdoc, pieces, yield, e1, e2, pieces_kk, ihf he.1, ihi hi]
  | call f l a r ihf iha =>
    simp only [rdoc, alignArgs, hC.bracket, Bool.false_eq_true, if_false]
    rcases he.2 with rfl | hi
    · simp [pieces, yield, e1, e3, pieces_kk, ihf he.1, isNull, pieces_softIf]
    · have hnull : isNull a = false := by cases a <;> first | rfl | exact hi.elim
      simp [pieces, yield, e1, e4, pieces_kk, ihf he.1, iha hi, hnull, pieces_softIf, pieces_soft]
  | tern cd q m co x ihc ihm ihx =>
    rw [rdoc]
    simp only [hC.operands, alignIf, Bool.false_eq_true, if_false]
    rcases he.2.1 with rfl | hm
    · simp [pieces, yield, e1, e2, pieces_kk, ihc he.1, ihx he.2.2.2, isNull, pieces_soft, pieces_if, lit]
    · have hnull : isNull m = false := by cases m <;> first | rfl | exact hm.elim
      simp [pieces, yield, e1, e2, pieces_kk, ihc he.1, ihx he.2.2.2, ihm hm, hnull, pieces_soft, pieces_if, lit]

end

/-! ### Where the positions are -/

/-- The tokens are consecutive. -/
def Seqd (a : Nat) (l : List Tok) : Prop := l.map (·.id) = List.range' a l.length

theorem seqd_append {a : Nat} {x y : List Tok} (h : Seqd a (x ++ y)) : Seqd a x ∧ Seqd (a + x.length) y := by
  unfold Seqd at *
  rw [List.map_append, List.length_append, ← List.range'_append_1] at h
  have := List.append_inj h (by simp)
  exact this

theorem seqd_cons {a : Nat} {x : Tok} {y : List Tok} (h : Seqd a (x :: y)) : x.id = a ∧ Seqd (a + 1) y := by
  unfold Seqd at *
  rw [List.map_cons, List.length_cons, List.range'_succ] at h
  simpa using h

/-- The operators are inside of the expression and away from the other positions. -/
structure Places (e : Ex) (a n : Nat) : Prop where
  op : ∀ o ∈ ops e, a < o.id ∧ o.id + 1 < a + n
  pos : ∀ i ∈ quiets e ++ ends e, a ≤ i ∧ i + 1 < a + n
  away : ∀ o ∈ ops e, ∀ i ∈ quiets e ++ ends e, o.id ≠ i ∧ o.id - 1 ≠ i

theorem full_length {e : Ex} (h : Full e) : 0 < (yield e).length := by
  obtain ⟨y, ys, e⟩ := full_head h
  simp [e]

theorem places_none {e : Ex} {a n : Nat} (h1 : ops e = []) (h2 : quiets e = []) (h3 : ends e = []) : Places e a n :=
  ⟨by simp [h1], by simp [h2, h3], by simp [h1]⟩

theorem places_sub {e e' : Ex} {a n b m : Nat} (h : Places e a n) (h1 : ops e' = ops e) (h2 : quiets e' = quiets e)
    (h3 : ends e' = ends e) (hb : b ≤ a) (hm : a + n ≤ b + m) : Places e' b m := by
  refine ⟨fun o ho => ?_, fun i hi => ?_, ?_⟩
  · rw [h1] at ho
    have := h.op o ho
    omega
  · rw [h2, h3] at hi
    have := h.pos i hi
    omega
  · rw [h1, h2, h3]
    exact h.away

theorem places_r {r : Option Tok} {a : Nat} (h : Seqd a r.toList) : ∀ i ∈ r.toList.map (·.id - 1), i = a - 1 ∧ r.toList.length = 1 := by
  cases r with
  | none => simp
  | some r => 
    have := (seqd_cons (x := r) (y := []) h).1
    intro i hi
    simp at hi
    simp; omega

theorem places (e : Ex) (he : e = .null ∨ Full e) {a : Nat} (h : Seqd a (yield e)) : Places e a (yield e).length := by
  induction e generalizing a with
  | null => exact places_none rfl rfl rfl
  | lit x => exact places_none rfl rfl rfl
  | recov _ => rcases he with he | he <;> cases he
  | cast _ _ _ _ => rcases he with he | he <;> cases he
  | un op e ih =>
    rcases he with he | he
    · cases he
    exact places_sub (ih (Or.inr he) (seqd_cons h).2) rfl rfl rfl (by omega) (by simp [yield]; omega)
  | pre op e ih =>
    rcases he with he | he
    · cases he
    exact places_sub (ih (Or.inr he) (seqd_cons h).2) rfl rfl rfl (by omega) (by simp [yield]; omega)
  | post e op ih =>
    rcases he with he | he
    · cases he
    exact places_sub (ih (Or.inr he) (seqd_append h).1) rfl rfl rfl (by omega) (by simp [yield])
  | concat e op ih =>
    rcases he with he | he
    · cases he
    exact places_sub (ih (Or.inr he) (seqd_append h).1) rfl rfl rfl (by omega) (by simp [yield])
  | sizeofE x e ih =>
    rcases he with he | he
    · cases he
    exact places_sub (ih (Or.inr he) (seqd_cons h).2) rfl rfl rfl (by omega) (by simp [yield]; omega)
  | sizeofP x l e r ih =>
    rcases he with he | he
    · cases he
    exact places_sub (ih (Or.inr he) (seqd_append (seqd_cons (seqd_cons h).2).2).1) rfl rfl rfl (by omega)
      (by simp [yield]; omega)
  | parens l e r ih =>
    rcases he with he | he
    · cases he
    have h2 := seqd_append (seqd_cons h).2
    have ih := ih (Or.inr he) h2.1
    have hr := places_r h2.2
    have hl := full_length he
    refine ⟨fun o ho => ?_, fun i hi => ?_, fun o ho i hi => ?_⟩
    · have := ih.op o ho
      simp [yield]; omega
    · simp only [quiets, ends, List.append_assoc, List.mem_append (s := List.map _ _)] at hi
      simp only [yield, List.length_cons, List.length_append]
      rcases hi with hi | hi
      · have := hr i hi
        omega
      · have := ih.pos i hi
        omega
    · simp only [quiets, ends, List.append_assoc, List.mem_append (s := List.map _ _)] at hi
      rcases hi with hi | hi
      · have := hr i hi
        have := ih.op o ho
        omega
      · exact ih.away o ho i hi
  | bin l op r ihl ihr =>
    rcases he with he | he
    · cases he
    have h1 := seqd_append h
    have h2 := seqd_cons h1.2
    have ihl := ihl (Or.inr he.1) h1.1
    have ihr := ihr (Or.inr he.2) h2.2
    have hl := full_length he.1
    have hr := full_length he.2
    have hlen : (yield (.bin l op r)).length = (yield l).length + 1 + (yield r).length := by simp [yield]; omega
    rw [hlen]
    obtain ⟨l1, l2, l3⟩ := ihl
    obtain ⟨r1, r2, r3⟩ := ihr
    refine ⟨fun o ho => ?_, fun i hi => ?_, fun o ho i hi => ?_⟩
    · simp only [ops, List.mem_cons, List.mem_append] at ho
      grind
    · simp only [quiets, ends, List.mem_append] at *
      grind
    · simp only [ops, quiets, ends, List.mem_cons, List.mem_append] at *
      grind
  | field l op r ihl ihr =>
    rcases he with he | he
    · cases he
    have h1 := seqd_append h
    have h2 := seqd_cons h1.2
    have ihl := ihl (Or.inr he.1) h1.1
    have ihr := ihr (Or.inr he.2) h2.2
    have hl := full_length he.1
    have hr := full_length he.2
    have hlen : (yield (.field l op r)).length = (yield l).length + 1 + (yield r).length := by simp [yield]; omega
    rw [hlen]
    obtain ⟨l1, l2, l3⟩ := ihl
    obtain ⟨r1, r2, r3⟩ := ihr
    refine ⟨fun o ho => ?_, fun i hi => ?_, fun o ho i hi => ?_⟩
    · simp only [ops, List.mem_append] at ho
      grind
    · simp only [quiets, ends, List.mem_append, List.mem_cons] at *
      grind
    · simp only [ops, quiets, ends, List.mem_cons, List.mem_append] at *
      grind
  | call f l x r ihf iha =>
    rcases he with he | he
    · cases he
    have h1 := seqd_append h
    have h2 := seqd_cons h1.2
    have h3 := seqd_append h2.2
    obtain ⟨l1, l2, l3⟩ := ihf (Or.inr he.1) h1.1
    obtain ⟨r1, r2, r3⟩ := iha he.2 h3.1
    have hr := places_r h3.2
    have hl := full_length he.1
    have hlen : (yield (.call f l x r)).length = (yield f).length + 1 + (yield x).length + r.toList.length := by
      simp [yield]; omega
    rw [hlen]
    refine ⟨fun o ho => ?_, fun i hi => ?_, fun o ho i hi => ?_⟩
    · simp only [ops, List.mem_append] at ho
      grind
    · simp only [quiets, ends, List.mem_append (s := List.map _ _), List.mem_append] at *
      grind
    · simp only [ops, quiets, ends, List.mem_append] at *
      grind
  | squares f l x r ihf iha =>
    rcases he with he | he
    · cases he
    have h1 := seqd_append h
    have h2 := seqd_cons h1.2
    have h3 := seqd_append h2.2
    obtain ⟨l1, l2, l3⟩ := ihf (Or.inr he.1) h1.1
    obtain ⟨r1, r2, r3⟩ := iha he.2 h3.1
    have hl := full_length he.1
    have hlen : (yield (.squares f l x r)).length = (yield f).length + 1 + (yield x).length + r.toList.length := by
      simp [yield]; omega
    rw [hlen]
    refine ⟨fun o ho => ?_, fun i hi => ?_, fun o ho i hi => ?_⟩
    · simp only [ops, List.mem_append] at ho
      grind
    · simp only [quiets, ends, List.mem_append] at *
      grind
    · simp only [ops, quiets, ends, List.mem_append] at *
      grind
  | tern c q m co x ihc ihm ihx =>
    rcases he with he | he
    · cases he
    obtain ⟨co, rfl⟩ := Option.isSome_iff_exists.1 he.2.2.1
    have h1 := seqd_append h
    have h2 := seqd_cons h1.2
    have h3 := seqd_append h2.2
    have h4 := seqd_cons (x := co) (y := yield x) h3.2
    obtain ⟨l1, l2, l3⟩ := ihc (Or.inr he.1) h1.1
    obtain ⟨m1, m2, m3⟩ := ihm he.2.1 h3.1
    obtain ⟨r1, r2, r3⟩ := ihx (Or.inr he.2.2.2) h4.2
    have hl := full_length he.1
    have hr := full_length he.2.2.2
    have hlen : (yield (.tern c q m (some co) x)).length = (yield c).length + 1 + (yield m).length + 1 + (yield x).length := by
      simp [yield]; omega
    rw [hlen]
    refine ⟨fun o ho => ?_, fun i hi => ?_, fun o ho i hi => ?_⟩
    · simp only [ops, List.mem_cons, List.mem_append, Option.toList] at ho
      grind
    · simp only [quiets, ends, List.mem_append] at *
      grind
    · simp only [ops, quiets, ends, List.mem_cons, List.mem_append, Option.toList] at *
      grind

/-! ### The theorem -/

theorem seqd_zipIdx {α : Type} (f : α × Nat → Tok) (hf : ∀ x, (f x).id = x.2) (l : List α) (n : Nat) :
    Seqd n ((l.zipIdx n).map f) := by
  unfold Seqd
  induction l generalizing n with
  | nil => rfl
  | cons y l ih =>
    rw [List.zipIdx_cons, List.map_cons, List.map_cons, List.length_cons, List.range'_succ, ih (n + 1), hf]

theorem survey_seqd {cx : Knfmt.Lexer.Ctx} {src : List Char} {ts : List Tok} {t : RTab}
    (h : survey cx src = some (ts, t)) : Seqd 0 ts := by
  unfold survey at h
  simp only at h
  split at h
  · simp only [Option.some.injEq, Prod.mk.injEq] at h
    rw [← h.1]
    exact seqd_zipIdx _ (fun _ => rfl) _ 0
  · cases h

theorem trimmed_type (cx : Knfmt.Lexer.Ctx) (inp : List Char) (t : Knfmt.Lexer.Tok) :
    (Knfmt.Lexer.trimmed cx inp t).type = t.type := by
  unfold Knfmt.Lexer.trimmed
  split
  · rfl
  · split <;> rfl

theorem readComment_type {inp : List Char} {cx : Knfmt.Lexer.Ctx} {b : Bool} {lx : Knfmt.Lexer.Lx} {t : Knfmt.Lexer.Tok}
    (h : (readComment inp cx b lx).2 = some t) : t.type = .comment := by
  unfold readComment at h
  simp only at h
  split at h
  · cases h
  · simp only [Option.some.injEq] at h
    rw [← h, trimmed_type]
    split <;> rfl

theorem readSuffixes_type (inp : List Char) (cx : Knfmt.Lexer.Ctx) (ss : List Knfmt.Lexer.Tok) (lx : Knfmt.Lexer.Lx)
    (h : ∀ t ∈ ss, t.type = .comment) : ∀ t ∈ (readSuffixes inp cx ss lx).2, t.type = .comment := by
  induction hm : inp.length - lx.st.off using Nat.strongRecOn generalizing lx ss with
  | ind m ih =>
  subst hm
  rw [readSuffixes]
  split
  · exact h
  · rename_i lx1 c hc
    have h2 : ∀ t ∈ ss ++ [c], t.type = .comment := by
      intro t ht
      rcases List.mem_append.1 ht with ht | ht
      · exact h t ht
      · simp only [List.mem_singleton] at ht
        subst ht
        exact readComment_type (by rw [hc])
    split
    · exact ih _ (by assumption) _ _ h2 rfl
    · exact h2

/-- What comes after a token: comments or spaces, then perhaps the end of the line. -/
theorem readTail_shape (inp : List Char) (cx : Knfmt.Lexer.Ctx) (d : Bool) (lx : Knfmt.Lexer.Lx) :
    ∃ a b, ((readTail inp cx d lx).2.filterMap (remOf inp)) = a ++ b ∧ a.any Rem.isLine = false ∧
      (b = [] ∨ ∃ one, b = [.line one false]) := by
  unfold readTail
  simp only
  have h1 : ∀ t ∈ (if d = true then (lx, []) else readSuffixes inp cx [] lx).2, t.type = .comment := by
    split
    · simp
    · exact readSuffixes_type inp cx [] lx (by simp)
  generalize (if d = true then (lx, []) else readSuffixes inp cx [] lx) = u at h1
  have h2 : ((optSpace inp cx u.2 u.1).2.filterMap (remOf inp)).any Rem.isLine = false := by
    unfold optSpace
    simp only
    split
    · split
      · rfl
      · rfl
    · rw [List.any_eq_false]
      intro x hx
      obtain ⟨t, ht, e⟩ := List.mem_filterMap.1 hx
      rw [remOf, if_pos (h1 t ht)] at e
      simp only [Option.some.injEq] at e
      rw [← e]
      simp [Rem.isLine]
  generalize optSpace inp cx u.2 u.1 = v at h2
  unfold optLines
  simp only
  split
  · exact ⟨_, [.line _ false], by rw [List.filterMap_append]; rfl, h2, Or.inr ⟨_, rfl⟩⟩
  · exact ⟨_, [], by simp, h2, Or.inl rfl⟩

theorem tokenizeLoop_shape (inp : List Char) (cx : Knfmt.Lexer.Ctx) (lx : Knfmt.Lexer.Lx) :
    ∀ x ∈ (tokenizeLoop inp cx lx).2, ∃ a b, (x.suffixes.filterMap (remOf inp)) = a ++ b ∧ a.any Rem.isLine = false ∧
      (b = [] ∨ ∃ one, b = [.line one false]) := by
  induction hm : inp.length - lx.st.off using Nat.strongRecOn generalizing lx with
  | ind m ih =>
  subst hm
  intro x hx
  rw [tokenizeLoop] at hx
  simp only at hx
  have hr : ∀ y, y = (Knfmt.Lexer.read inp cx lx).2 → ∃ a b, (y.suffixes.filterMap (remOf inp)) = a ++ b ∧ a.any Rem.isLine = false ∧
      (b = [] ∨ ∃ one, b = [.line one false]) := by
    rintro y rfl
    exact readTail_shape _ _ _ _
  split at hx
  · exact hr x (by simpa using hx)
  · split at hx
    · rename_i hlt
      rcases List.mem_cons.1 hx with h | h
      · exact hr x h
      · exact ih _ hlt _ rfl x h
    · exact hr x (by simpa using hx)

/-- If no line is left empty, the end of the line comes last. -/
theorem survey_last {cx : Knfmt.Lexer.Ctx} {src : List Char} {ts : List Tok} {t : RTab}
    (h : survey cx src = some (ts, t)) (hone : ∀ i b, .line b false ∈ t.at i → b = true) (i : Nat) : LineLast (t.at i) := by
  unfold survey at h
  simp only at h
  split at h
  · simp only [Option.some.injEq, Prod.mk.injEq] at h
    have hone := hone i
    rw [← h.2] at hone ⊢
    revert hone
    unfold RTab.at
    simp only [List.getD_eq_getElem?_getD, List.getElem?_map]
    cases hx : (tokenizeLoop src cx Knfmt.Lexer.init).2.dropLast[i]? with
    | none => intro _ h; simp at h
    | some x =>
      simp only [Option.map_some, Option.getD_some]
      intro hone
      obtain ⟨a, b, e, h1, h2⟩ := tokenizeLoop_shape src cx Knfmt.Lexer.init x
        (List.dropLast_subset _ (List.mem_of_getElem? hx))
      rw [e] at hone ⊢
      intro hl
      rcases h2 with rfl | ⟨o, rfl⟩
      · simp [h1] at hl
      · rw [hone o (by simp)]
        simp
  · cases h
theorem comment_mem {t : RTab} {i : Nat} {c : Bool} {s : List Char} (h : .comment c s ∈ t.at i) :
    ⟨false, slashes s, core s⟩ ∈ comments t := by
  unfold comments
  rw [List.mem_filterMap]
  refine ⟨.comment c s, ?_, rfl⟩
  unfold RTab.at at h
  rw [List.getD_eq_getElem?_getD] at h
  cases hi : t.sufs[i]? with
  | none => rw [hi] at h; simp at h
  | some l =>
    rw [hi] at h
    exact List.mem_flatten.2 ⟨l, List.mem_of_getElem? hi, h⟩

/-- **C89, for an expression that fits and has no blank line inside**: it has no missing operand, each line comment in
it is followed by the end of its line, there is none after `.` and `->` and before the closing parenthesis of a
parenthesised expression, and no line, made as in the source, exceeds the column limit. -/
theorem C89_partial {E : Env} {cx : Knfmt.Lexer.Ctx} {C : Conf} {env : Knfmt.Doc.Env} {src out : List Char} {ts : List Tok}
    {t : RTab} {e : Ex} {τ : PS} (hC : C.Calm) (hh : C.hardline = false) (ht : C.top < 2 ^ 27) (hd : env.diff = none)
    (hsv : survey cx src = some (ts, t)) (hp : parse E ⟨[], ts, false⟩ = some (e, τ)) (hy : yield e = ts) (he : Full e)
    (hfair : ∀ i, Fair (t.at i))
    (hq : ∀ i ∈ quiets e, (t.at i).any Rem.isC99 = false) (hfirm : ∀ x ∈ ts, Firm x.str ∧ '\n' ∉ x.str)
    (hIK : C.top + parenCount e ≤ env.limit)
    (hroom : (row env.limit (C.top + parenCount e) (shifts C e true t) ts 0).isSome = true)
    (hr : remark E cx C env src = some out) :
    ∃ ps o, Laid ps out o ∧ (ps.filter (·.code)).map (·.text) = ts.map (·.str) ∧
      ∀ p ∈ ps, p.code = false → p ∈ comments t := by
  have hpl := places e (Or.inr he) (a := 0) (by rw [hy]; exact survey_seqd hsv)
  have hk : Kept t (fun i => i ∈ quiets e ++ ends e) (fun i => i ∈ quiets e) (shifts C e true t) :=
    kept_shifts (fun i hi => List.mem_append_left _ hi) C hC.parens e true
      ⟨hfair, hq, fun i _ => survey_last hsv (fun i => (hfair i).one) i, fun i c s h => ⟨i, h⟩⟩
      (fun op hop => ⟨fun h => (hpl.away op hop _ h).1 rfl, fun h => (hpl.away op hop _ h).2 rfl⟩)
      (fun i hi => hi) (fun i hi => List.mem_append_right _ hi)
  have hout : out = (docExec env false [] (sayDoc C e ts t)).buf.reverse := by
    unfold remark at hr
    rw [hsv] at hr
    simp only [hp] at hr
    split at hr
    · exact (Option.some.inj hr).symm
    · cases hr
  obtain ⟨B', hB⟩ := Option.isSome_iff_exists.1 hroom
  rw [← hy] at hB hfirm
  generalize ht' : shifts C e true t = t' at hk hB
  have hC' : (learn C e ts t').Calm := ⟨hC.1, hC.2, hC.3, hC.4, hC.5⟩
  have hlim : 0 + 1 ≤ env.limit := by
    obtain ⟨y, ys, ey⟩ := full_head he
    rw [ey] at hB
    exact row_room (hfirm y (by simp [ey])).2 hB
  have wp1 : ∀ c, c ≤ 1 → wp env.limit C.top (parenCount e) (rdoc (learn C e ts t') (talk t') e { root := true } .nil)
      (fun _ => True) ⟨false, false, c, 0⟩ := by
    intro c hc
    refine wp_rdoc hC' (t := t') (fun _ => rfl) hk.good e he (fun x hx hxh => ?_) hfirm (fun h => by simp at h) (B := 0) hc
      (n := 0) (Nat.le_refl _) (by omega) hB fun _ _ _ _ => trivial
    have hz := fun h => (hpl.away x hx _ h).1 rfl
    simp only [talk, Bool.and_eq_true] at hxh
    exact hk.last _ hz hxh.2
  have pc : pieces (rdoc (learn C e ts t') (talk t') e { root := true } .nil) = ts.flatMap (uttered t') := by
    rw [pieces_rdoc hC' (t := t') (fun _ => rfl) hk.good e he, hy]
    simp [pieces]
  have key : ∃ o, Laid (ts.flatMap (uttered t')) out o := by
    rw [hout, sayDoc, ht', remarkDoc]
    have h1 : (learn C e ts t').hardline = false := hh
    simp only [h1, Bool.false_eq_true, if_false]
    generalize hD : (if (learn C e ts t').line = true then _ else _ : Doc) = D
    have hw : wp env.limit C.top (parenCount e) D (fun _ => True) ⟨false, false, 0, 0⟩ ∧ pieces D = ts.flatMap (uttered t') := by
      rw [← hD]
      split <;> split
      · exact ⟨⟨hlim, wp1 _ (Nat.le_refl _)⟩, by simpa [pieces] using pc⟩
      · exact ⟨⟨hlim, wp1 _ (Nat.le_refl _)⟩, by simpa [pieces] using pc⟩
      · exact ⟨wp1 _ (Nat.zero_le _), by simpa [pieces] using pc⟩
      · exact ⟨wp1 _ (Nat.zero_le _), pc⟩
    have htop : (if (learn C e ts t').align > 0 then Doc.indent (learn C e ts t').align D
        else if (learn C e ts t').indent > 0 then .indent (learn C e ts t').indent D else D) =
        if C.top > 0 then .indent C.top D else D := by
      show (if C.align > 0 then Doc.indent C.align D else if C.indent > 0 then .indent C.indent D else D) = _
      unfold Conf.top
      split
      · simp [*]
      · rfl
    rw [htop, ← hw.2]
    exact Knfmt.Doc.exec_top hd hIK ht (Nat.le_refl _) hw.1
  obtain ⟨o, ho⟩ := key
  refine ⟨_, o, ho, ?_, ?_⟩
  · clear ho pc hy
    have hc : ∀ l : List Rem, (l.filterMap Rem.piece?).filter (·.code) = [] := by
      intro l
      rw [List.filter_eq_nil_iff]
      intro p hp
      obtain ⟨x, _, hx⟩ := List.mem_filterMap.1 hp
      cases x with
      | comment c s => simp only [Rem.piece?, Option.some.injEq] at hx; subst hx; simp
      | _ => simp [Rem.piece?] at hx
    have : ∀ l : List Tok, ((l.flatMap (uttered t')).filter (·.code)).map (·.text) = l.map (·.str) := by
      intro l
      induction l with
      | nil => rfl
      | cons x l ih => simp [uttered, List.filter_append, hc, ih]
    exact this ts
  · intro p hp hcode
    obtain ⟨x, _, hx⟩ := List.mem_flatMap.1 hp
    unfold uttered at hx
    rcases List.mem_cons.1 hx with rfl | hx
    · cases hcode
    · obtain ⟨y, hy1, hy2⟩ := List.mem_filterMap.1 hx
      cases y with
      | comment c s =>
        simp only [Rem.piece?, Option.some.injEq] at hy2
        subst hy2
        obtain ⟨j, hj⟩ := hk.from_ _ _ _ hy1
        exact comment_mem hj
      | _ => simp [Rem.piece?] at hy2

end Knfmt.ExprDoc
