import Verif.Doc.Lemmas
import Verif.Lexer.Theorems
/-! C48: formatting selected lines only. -/
namespace Knfmt.Doc.Spec

open Knfmt.Spec

/-- The tokens of a document, from left to right. -/
def toks : Doc → List Tok
  | .seq d ds => toks d ++ toks ds
  | .group d | .indent _ d | .noindent d | .optional d | .minimize _ _ d
  | .scope d | .maxlines _ d => toks d
  | .literal _ (some tk) => [tk]
  | .verbatim _ tk => [tk]
  | _ => []

/-- The groups of a document. -/
def groups : Doc → List Doc
  | .seq d ds => groups d ++ groups ds
  | .group d => .group d :: groups d
  | .indent _ d | .noindent d | .optional d | .minimize _ _ d
  | .scope d | .maxlines _ d => groups d
  | _ => []

/-- The line on which a token ends, or the one after it if it ends with a line feed. -/
def last (tk : Tok) : Nat := tk.lno + countlines tk.str

/-- The lines of the input from `a` and up to `b`, not including it. Lines are counted from
one and include their line feed. -/
def lineRange (inp : List Char) (a b : Nat) : List Char :=
  (((splitLines inp).drop (a - 1)).take (b - a)).flatten

/-- The lines of the input from `a` on. -/
def linesFrom (inp : List Char) (a : Nat) : List Char := ((splitLines inp).drop (a - 1)).flatten

/-- Verbatim documents are made of tokens, and at least one line break is allowed in a
row. -/
def WellMade : Doc → Prop
  | .seq d ds => WellMade d ∧ WellMade ds
  | .group d | .indent _ d | .noindent d | .optional d | .minimize _ _ d | .scope d => WellMade d
  | .maxlines n d => 1 ≤ n ∧ WellMade d
  | .verbatim s tk => s = tk.str
  | _ => True

/-- The tokens are found in the order of the input. -/
structure InOrder (inp : List Char) (d : Doc) : Prop where
  order : (toks d).Pairwise fun a b => last a ≤ b.lno
  bound : ∀ t ∈ toks d, 1 ≤ t.lno ∧ last t ≤ (splitLines inp).length
  made : WellMade d

/-- Where the formatting of selected lines may stop: after the range, or after a line
with a token of a group that has a selected token. -/
def Stop (chunks : List Diff.Chunk) (root : Doc) (e : Nat) : Prop :=
  (∃ c ∈ chunks, e = c.end_ + 1) ∨
  ∃ g ∈ groups root, (∃ s ∈ toks g, s.diff = true) ∧ ∃ t ∈ toks g, e = t.lno + 1

/-- The same; a token starting before that is formatted as a whole. -/
def End (chunks : List Diff.Chunk) (root : Doc) (e : Nat) : Prop :=
  Stop chunks root e ∨ ∃ e₀, Stop chunks root e₀ ∧ e₀ ≤ e ∧ ∃ v ∈ toks root, v.lno < e₀ ∧ e = last v

/-- A selected token starts on one of the lines from `x` up to `e`. -/
def Selected (root : Doc) (x e : Nat) : Prop :=
  ∃ s ∈ toks root, s.diff = true ∧ x ≤ s.lno ∧ s.lno < e

/-- `Tiles b t`: the text `t` stands for the lines before `b`. It consists of lines copied
byte for byte and of any text in place of lines of which at least one is selected. -/
inductive Tiles (inp : List Char) (chunks : List Diff.Chunk) (root : Doc) : Nat → List Char → Prop
  | start : Tiles inp chunks root 1 []
  | copy {b x : Nat} {t : List Char} : Tiles inp chunks root b t → b ≤ x →
      x ≤ (splitLines inp).length → Tiles inp chunks root x (t ++ lineRange inp b x)
  | format {x e : Nat} {t f : List Char} : Tiles inp chunks root x t → Selected root x e →
      End chunks root e → Tiles inp chunks root e (t ++ f)

end Knfmt.Doc.Spec

namespace Knfmt.Doc
open Knfmt.Util Knfmt.Doc.Spec Knfmt.Spec Knfmt.Lexer

variable {inp : List Char} {chunks : List Diff.Chunk} {root : Doc}

/-! ## Lines -/

theorem splitLines_ends (s : List Char) :
    ∀ l ∈ (splitLines s).dropLast, ∃ x, l = x ++ ['\n'] := by
  induction s with
  | nil => simp [splitLines]
  | cons c s ih =>
    rw [splitLines]
    split
    · next h =>
      intro l hl
      rw [List.dropLast_cons_of_ne_nil (splitLines_ne s)] at hl
      rcases List.mem_cons.mp hl with rfl | hl
      · exact ⟨[], rfl⟩
      · exact ih l hl
    · next h =>
      cases hs : splitLines s with
      | nil => exact absurd hs (splitLines_ne s)
      | cons x ls =>
        rw [hs] at ih
        dsimp only
        intro l hl
        cases ls with
        | nil => simp at hl
        | cons y ls =>
          rw [List.dropLast_cons_of_ne_nil (by simp)] at hl ih
          rcases List.mem_cons.mp hl with rfl | hl
          · obtain ⟨z, hz⟩ := ih x (List.mem_cons_self ..)
            exact ⟨c :: z, by rw [hz]; rfl⟩
          · exact ih l (List.mem_cons_of_mem _ hl)

/-- Lines before the last one end with a line feed. -/
theorem lineRange_end (inp : List Char) (a b : Nat) (hb : b ≤ (splitLines inp).length) (ha : 1 ≤ a) :
    (b ≤ a ∧ lineRange inp a b = []) ∨ ∃ x, lineRange inp a b = x ++ ['\n'] := by
  unfold lineRange
  generalize hL : (((splitLines inp).drop (a - 1)).take (b - a)) = L
  have hsub : ∀ l ∈ L, l ∈ (splitLines inp).dropLast := by
    intro l hl
    rw [← hL] at hl
    obtain ⟨i, hi, e⟩ := List.getElem_of_mem hl
    rw [List.getElem_take, List.getElem_drop] at e
    rw [List.length_take, List.length_drop] at hi
    rw [← e]
    have : a - 1 + i < (splitLines inp).dropLast.length := by
      rw [List.length_dropLast]; omega
    rw [show (splitLines inp)[a - 1 + i]'(by omega) = (splitLines inp).dropLast[a - 1 + i] from
      (List.getElem_dropLast this).symm]
    exact List.getElem_mem this
  rcases List.eq_nil_or_concat L with rfl | ⟨L', l, rfl⟩
  · left
    refine ⟨?_, rfl⟩
    have := congrArg List.length hL
    rw [List.length_take, List.length_drop] at this
    simp at this
    omega
  · right
    obtain ⟨x, hx⟩ := splitLines_ends inp l (hsub l (by simp))
    exact ⟨L'.flatten ++ x, by rw [hx]; simp⟩

/-- What the printer asks the lexer for. -/
structure GetsLines (inp : List Char) (de : DiffEnv) : Prop where
  copy : ∀ b x, 1 ≤ b → b ≤ x → x ≤ (splitLines inp).length →
    de.getLines b x = .text (lineRange inp b x)
  rest : ∀ b, 1 ≤ b → b ≤ (splitLines inp).length → de.getLines b 0 = .text (linesFrom inp b)
  beyond : ∀ b, (splitLines inp).length < b → de.getLines b 0 = .fail
  undef : ∀ b x, 1 ≤ x → x < b → b ≤ (splitLines inp).length → de.getLines b x = .undefined

/-- The lexer does. -/
theorem getsLines (inp : List Char) (cx : Ctx) (chunks : List Diff.Chunk) :
    GetsLines inp ⟨chunks, getLines inp (tokenizeLoop inp cx init).1⟩ := by
  refine ⟨?_, ?_, ?_, ?_⟩
  · intro b x h1 h2 h3
    have := get_lines_exact inp cx b x h1 (Or.inl h2)
    rw [if_neg (by omega), if_neg (by omega)] at this
    exact this
  · intro b h1 h2
    have := get_lines_exact inp cx b 0 h1 (Or.inr rfl)
    rw [if_neg (by omega), if_pos rfl] at this
    exact this
  · intro b h1
    have := get_lines_exact inp cx b 0 (by omega) (Or.inr rfl)
    rw [if_pos (by omega)] at this
    exact this
  · intro b x h1 h2 h3
    obtain ⟨_, h4, h5⟩ := line_table_complete inp cx
    have hlen : (tokenizeLoop inp cx init).1.lines.length = (splitLines inp).length := by
      rw [h4, splitLines_length]
    show getLines inp (tokenizeLoop inp cx init).1 b x = _
    unfold getLines
    rw [hlen, if_neg (by omega), if_neg (by omega), h5 (b - 1) (by omega)]
    dsimp only
    have hx : (if x = 0 then inp.length else (tokenizeLoop inp cx init).1.lines[x - 1]?.getD 0) =
        ((splitLines inp).take (x - 1)).flatten.length := by
      rw [if_neg (by omega), h5 (x - 1) (by omega), Option.getD_some]
    rw [hx, if_pos]
    rcases lineRange_end inp x b h3 h1 with h | ⟨y, h⟩
    · omega
    · have e : (splitLines inp).take (b - 1) =
          (splitLines inp).take (x - 1) ++ ((splitLines inp).drop (x - 1)).take (b - x) := by
        have : b - 1 = (x - 1) + (b - x) := by omega
        rw [this, List.take_add]
      rw [e, List.flatten_append, List.length_append]
      have := congrArg List.length h
      unfold lineRange at this
      rw [this]
      simp

/-! ## Tiles -/

theorem Spec.Tiles.pos {b : Nat} {t : List Char} (h : Tiles inp chunks root b t) : 1 ≤ b := by
  induction h with
  | start => exact Nat.le_refl _
  | copy _ h1 _ ih => omega
  | format _ h1 _ ih =>
    obtain ⟨s, _, _, h2, h3⟩ := h1
    omega

theorem Spec.Tiles.drop {b : Nat} {t : List Char} (h : Tiles inp chunks root b t) :
    ∀ (t' : List Char) (c : Char), t = t' ++ [c] → blank c = true → Tiles inp chunks root b t' := by
  induction h with
  | start => intro t' c e; simp at e
  | @copy b x t h1 h2 h3 ih =>
    intro t' c e hc
    rcases lineRange_end inp b x h3 h1.pos with h | ⟨y, h⟩
    · have hx : x = b := by omega
      rw [h.2, List.append_nil] at e
      subst hx
      exact ih t' c e hc
    · rw [h, ← List.append_assoc] at e
      have := (List.append_inj' e rfl).2
      simp only [List.cons.injEq, and_true] at this
      rw [← this] at hc
      simp [blank] at hc
  | @format x e' t f h1 h2 h3 ih =>
    intro t' c e hc
    rcases List.eq_nil_or_concat f with rfl | ⟨f', c', rfl⟩
    · rw [List.append_nil] at e
      have := (ih t' c e hc).format (f := []) h2 h3
      simpa using this
    · rw [List.concat_eq_append, ← List.append_assoc] at e
      have := (List.append_inj' e rfl).1
      rw [← this]
      exact h1.format h2 h3

/-- The buffer, last byte first, ends with text in place of the lines from somewhere up to
`e`, one of which is selected. -/
def Open (inp : List Char) (chunks : List Diff.Chunk) (root : Doc) (e : Nat) (b : List Char) : Prop :=
  ∃ x t f, b.reverse = t ++ f ∧ Tiles inp chunks root x t ∧ Selected root x e

theorem Open.push {e : Nat} {b : List Char} (h : Open inp chunks root e b) (c : Char) :
    Open inp chunks root e (c :: b) := by
  obtain ⟨x, t, f, h1, h2, h3⟩ := h
  exact ⟨x, t, f ++ [c], by rw [List.reverse_cons, h1]; simp, h2, h3⟩

theorem Open.drop {e : Nat} {b : List Char} {c : Char} (h : Open inp chunks root e (c :: b))
    (hc : blank c = true) : Open inp chunks root e b := by
  obtain ⟨x, t, f, h1, h2, h3⟩ := h
  rw [List.reverse_cons] at h1
  rcases List.eq_nil_or_concat f with rfl | ⟨f', c', rfl⟩
  · rw [List.append_nil] at h1
    exact ⟨x, b.reverse, [], by simp, h2.drop _ c h1.symm hc, h3⟩
  · rw [List.concat_eq_append, ← List.append_assoc] at h1
    exact ⟨x, t, f', (List.append_inj' h1 rfl).1, h2, h3⟩

theorem Open.mono {e e' : Nat} {b : List Char} (h : Open inp chunks root e b) (he : e ≤ e') :
    Open inp chunks root e' b := by
  obtain ⟨x, t, f, h1, h2, s, h3, h4, h5, h6⟩ := h
  exact ⟨x, t, f, h1, h2, s, h3, h4, h5, by omega⟩

theorem Open.tiles {e : Nat} {b : List Char} (h : Open inp chunks root e b)
    (he : End chunks root e) : Tiles inp chunks root e b.reverse := by
  obtain ⟨x, t, f, h1, h2, h3⟩ := h
  rw [h1]
  exact h2.format h3 he

/-! ## How the buffer changes -/

/-- The buffer changes by adding bytes, only blanks if `m`, and dropping blanks. -/
def Ext (m : Bool) (b b' : List Char) : Prop :=
  ∀ P : List Char → Prop, (∀ c b, P b → (m = true → blank c = true) → P (c :: b)) →
    (∀ c b, blank c = true → P (c :: b) → P b) → P b → P b'

theorem Ext.refl (m : Bool) (b : List Char) : Ext m b b := fun _ _ _ h => h

theorem Ext.trans {m : Bool} {a b c : List Char} (h : Ext m a b) (k : Ext m b c) : Ext m a c :=
  fun P h1 h2 h3 => k P h1 h2 (h P h1 h2 h3)

theorem Ext.weaken {m : Bool} {a b : List Char} (h : Ext true a b) : Ext m a b :=
  fun P h1 h2 h3 => h P (fun c b hb hc => h1 c b hb (fun _ => hc rfl)) h2 h3

theorem Ext.blanks {m : Bool} (w b : List Char) (hw : ∀ c ∈ w, blank c = true) : Ext m b (w ++ b) := by
  intro P h1 h2 h3
  induction w with
  | nil => exact h3
  | cons c w ih =>
    exact h1 _ _ (ih fun c hc => hw c (List.mem_cons_of_mem _ hc)) fun _ => hw c (List.mem_cons_self ..)

theorem Ext.text (s b : List Char) : Ext false b (s ++ b) := by
  intro P h1 h2 h3
  induction s with
  | nil => exact h3
  | cons c s ih => exact h1 _ _ ih (by simp)

theorem Ext.dropped {m : Bool} (w b : List Char) (hw : ∀ c ∈ w, blank c = true) : Ext m (w ++ b) b := by
  intro P h1 h2 h3
  induction w with
  | nil => exact h3
  | cons c w ih =>
    exact ih (fun c hc => hw c (List.mem_cons_of_mem _ hc)) (h2 _ _ (hw c (List.mem_cons_self ..)) h3)

theorem ext_trim (m : Bool) (σ : St) : Ext m σ.buf (trimSpaces σ).buf := by
  obtain ⟨w, e, hw, _⟩ := trimLoop_spec σ.buf σ.col
  have := Ext.dropped (m := m) w (trimLoop σ.buf σ.col).1 hw
  rw [← e] at this
  exact this

theorem ext_indent (m : Bool) (env : Env) (σ : St) (n : Nat) : Ext m σ.buf (printIndent env σ n).buf := by
  obtain ⟨w, c, p, e, hw⟩ := printIndent_spec env σ n
  rw [e]
  exact .blanks w σ.buf hw

theorem ext_emitLine (env : Env) (f : PF) (m : Bool) (σ : St) : Ext m σ.buf (emitLine env f m σ).buf := by
  have hn : Ext m σ.buf (newLine env f m σ).buf := by
    have e : (newLine env f m σ).buf =
        if m then (trimSpaces σ).buf else '\n' :: (trimSpaces σ).buf := rfl
    rw [e]
    cases m with
    | true => exact ext_trim _ σ
    | false => exact (ext_trim _ σ).trans (.text ['\n'] _)
  unfold emitLine
  split
  · exact .refl _ _
  · split
    · exact hn.trans (ext_indent m env _ _)
    · exact hn

theorem ext_emitText (env : Env) (m : Bool) (s : List Char) (σ : St) :
    Ext m σ.buf (emitText env m s σ).buf := by
  have e : (emitText env m s σ).buf = if m then σ.buf else s.reverse ++ σ.buf := rfl
  rw [e]
  cases m with
  | true => exact .refl _ _
  | false => exact .text _ _

theorem ext_print (env : Env) (σ : St) (s : List Char) (f : PF) :
    Ext (isMute env σ && !f.force) σ.buf (print env σ s f).1.buf := by
  generalize hm : (isMute env σ && !f.force) = m
  have hp : ∀ τ : St, τ.buf = σ.buf → Ext m σ.buf (emitPending env f m τ).buf := by
    intro τ h
    rw [← h]
    exact ext_emitLine env _ _ { τ with refit := true, newline := false, muteline := τ.muteline || m }
  have hl : ∀ τ : St, τ.buf = σ.buf → Ext m σ.buf (emitLine env f m τ).buf := by
    intro τ h
    rw [← h]
    exact ext_emitLine env f m τ
  have ht : ∀ τ : St, τ.buf = σ.buf → Ext m σ.buf (emitText env m s τ).buf := by
    intro τ h
    rw [← h]
    exact ext_emitText env m s τ
  unfold print
  rw [hm]
  dsimp only
  by_cases hn : σ.newline = true
  · rw [if_pos hn]
    by_cases h1 : s = [' ']
    · rw [if_pos h1]; exact .refl _ _
    · rw [if_neg h1]
      by_cases h2 : decide (s = ['\n']) = true
      · rw [if_pos h2]; exact hp _ rfl
      · rw [if_neg h2]
        refine Ext.trans ?_ (ext_emitText env m s _)
        exact hp _ rfl
  · rw [if_neg hn]
    by_cases h2 : decide (s = ['\n']) = true
    · rw [if_pos h2]; exact hl _ rfl
    · rw [if_neg h2]; exact ht _ rfl

end Knfmt.Doc
