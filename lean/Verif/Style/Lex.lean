import Verif.Style.Spec
import Verif.Common
/-!
# The tokens of a .clang-format file and its text
-/
namespace Knfmt.Style

open Knfmt.Style.Spec (Gap Word Num)

/-- All keywords. -/
def all : List Kw :=
  [.After, .Align, .AlignAfterOpenBracket, .AlignAfterOperator, .AlignEscapedNewlines, 
   .AlignOperands, .AlignWithSpaces, .All, .AllDefinitions, .Always, .AlwaysBreak, 
   .AlwaysBreakAfterReturnType, .BasedOnStyle, .Chromium, .Google, .InheritParentConfig, .LLVM, 
   .Microsoft, .OpenBSD, .Before, .BitFieldColonSpacing, .BlockIndent, .Both, .BraceWrapping, 
   .AfterCaseLabel, .AfterClass, .AfterControlStatement, .AfterEnum, .AfterExternBlock, 
   .AfterFunction, .AfterNamespace, .AfterObjCDeclaration, .AfterStruct, .AfterUnion, 
   .BeforeCatch, .BeforeElse, .BeforeLambdaBody, .BeforeWhile, .IndentBraces, .SplitEmptyFunction, 
   .SplitEmptyNamespace, .SplitEmptyRecord, .BreakBeforeBinaryOperators, .Allman, .Attach, 
   .Custom, .GNU, .Linux, .Mozilla, .Stroustrup, .WebKit, .Whitesmiths, .BreakBeforeBraces, 
   .BreakBeforeTernaryOperators, .CaseInsensitive, .CaseSensitive, .ColumnLimit, 
   .ContinuationIndentWidth, .DontAlign, .False, .ForContinuationAndIndentation, .ForIndentation, 
   .IncludeBlocks, .Merge, .Preserve, .Regroup, .IncludeCategories, .IncludeGuards, .IndentWidth, 
   .Language, .Cpp, .CSharp, .Java, .JavaScript, .Json, .ObjC, .Proto, .TableGen, .TextProto, 
   .Verilog, .Left, .MultiLine, .Never, .NonAssignment, .None, .Priority, .Regex, .Right, 
   .SortIncludes, .SortPriority, .TopLevel, .TopLevelDefinitions, .True, .UseTab]

theorem mem_all (k : Kw) : k ∈ all := by cases k <;> decide

theorem find_name_all : ∀ k ∈ all, k ≠ .CaseInsensitive →
    (find (Spec.name k)).map (·.ty) = some (.kw k) := by decide +kernel

/-- The text of a token type that is in the table. -/
def tyName : Ty → Option (List Char)
  | .kw k => some (Spec.name k)
  | .colon => some [':']
  | .seq => some ['-']
  | .int => some "Integer".toList
  | .docBegin => some "---".toList
  | .docEnd => some "...".toList
  | _ => none

theorem table_key_all : ∀ e ∈ table, tyName e.ty = some e.key := by decide +kernel

theorem find_key {s : List Char} {e : Opt} (h : find s = some e) : e.key = s ∧ e ∈ table := by
  unfold find at h
  exact ⟨by simpa using List.find?_some h, List.mem_of_find?_eq_some h⟩

theorem find_name {k : Kw} (h : k ≠ .CaseInsensitive) : ∃ e, find (Spec.name k) = some e ∧ e.ty = .kw k := by
  have := find_name_all k (mem_all k) h
  rw [Option.map_eq_some_iff] at this
  exact this

theorem name_ne : ∀ k ∈ all, Spec.name k ≠ [] := by decide +kernel

/-- The type of a word. -/
theorem keyword_ty (s : List Char) : (keyword s).text = s ∧ (keyword s).int = 0 ∧
    ((keyword s).ty = .unknown ∨ tyName (keyword s).ty = some s) := by
  unfold keyword
  split
  · exact ⟨rfl, rfl, Or.inl rfl⟩
  · split
    · exact ⟨rfl, rfl, Or.inl rfl⟩
    · next e he =>
      obtain ⟨h1, h2⟩ := find_key he
      have h3 := table_key_all e h2
      exact ⟨rfl, rfl, Or.inr (by rw [← h1]; exact h3)⟩

theorem keyword_name {k : Kw} (h : k ≠ .CaseInsensitive) : keyword (Spec.name k) = ⟨.kw k, Spec.name k, 0⟩ := by
  obtain ⟨e, he, ht⟩ := find_name h
  unfold keyword
  rw [if_neg (name_ne k (mem_all k)), he]
  simp only [ht]

theorem eatLines_split (s old p : List Char) (h : old = p ++ s)
    (hp : ∀ c ∈ p, c ∈ [' ', '\t', '\n', '\r', '\x0c']) :
    ∃ g, old = g ++ eatLines old s ∧ ∀ c ∈ g, c ∈ [' ', '\t', '\n', '\r', '\x0c'] := by
  induction s generalizing old p with
  | nil => exact ⟨[], rfl, by simp⟩
  | cons c s ih =>
    rw [eatLines]
    split
    · next hc =>
      obtain ⟨g, hg, hb⟩ := ih s [] rfl (by simp)
      refine ⟨p ++ c :: g, ?_, ?_⟩
      · rw [h]
        conv => lhs; rw [hg]
        simp
      · intro x hx
        rcases List.mem_append.mp hx with hx | hx
        · exact hp x hx
        · rcases List.mem_cons.mp hx with rfl | hx
          · subst hc; decide
          · exact hb x hx
    · split
      · next hc =>
        refine ih old (p ++ [c]) (by rw [h]; simp) ?_
        intro x hx
        rcases List.mem_append.mp hx with hx | hx
        · exact hp x hx
        · rw [List.mem_singleton] at hx
          subst hx
          simp only [Bool.or_eq_true, decide_eq_true_eq] at hc
          rcases hc with (rfl | rfl) | rfl <;> decide
      · exact ⟨[], rfl, by simp⟩

theorem eatSpaces_split (s : List Char) :
    ∃ g, s = g ++ eatSpaces s ∧ ∀ c ∈ g, c ∈ [' ', '\t', '\n', '\r', '\x0c'] := by
  refine ⟨s.takeWhile fun c => c = ' ' || c = '\x0c' || c = '\t', (List.takeWhile_append_dropWhile).symm, ?_⟩
  intro c hc
  have := mem_takeWhile_imp hc
  simp only [Bool.or_eq_true, decide_eq_true_eq] at this
  rcases this with (rfl | rfl) | rfl <;> decide

theorem skip_split (got : Bool) (s : List Char) :
    ∃ g, s = g ++ skip got s ∧ ∀ c ∈ g, c ∈ [' ', '\t', '\n', '\r', '\x0c'] := by
  induction got, s using skip.induct with
  | case1 got s l h =>
    rw [skip, if_pos h]
    exact eatLines_split s s [] rfl (by simp)
  | case2 got s l h r hr ih =>
    rw [skip, if_neg h]
    simp only
    rw [dif_pos hr]
    obtain ⟨g1, h1, b1⟩ := eatLines_split s s [] rfl (by simp)
    obtain ⟨g2, h2, b2⟩ := eatSpaces_split (eatLines s s)
    obtain ⟨g3, h3, b3⟩ := ih
    refine ⟨g1 ++ g2 ++ g3, ?_, ?_⟩
    · conv => lhs; rw [h1, h2]
      rw [List.append_assoc, List.append_assoc]
      exact congrArg (g1 ++ ·) (congrArg (g2 ++ ·) h3)
    · intro c hc
      rcases List.mem_append.mp hc with hc | hc
      · rcases List.mem_append.mp hc with hc | hc
        · exact b1 c hc
        · exact b2 c hc
      · exact b3 c hc
  | case3 got s l h r hr =>
    rw [skip, if_neg h]
    simp only
    rw [dif_neg hr]
    exact eatLines_split s s [] rfl (by simp)

theorem gap_blanks {g s : List Char} (h : ∀ c ∈ g, c ∈ [' ', '\t', '\n', '\r', '\x0c']) (hs : Gap s) :
    Gap (g ++ s) := by
  induction g with
  | nil => exact hs
  | cons c g ih => exact .blank (h c (by simp)) (ih fun x hx => h x (by simp [hx]))

theorem wrap_range (x : Int) : -2147483648 ≤ wrap x ∧ wrap x ≤ 2147483647 := by
  unfold wrap Int.bmod
  simp only
  omega

theorem wrap_id {x : Int} (h1 : -2147483648 ≤ x) (h2 : x ≤ 2147483647) : wrap x = x := by
  unfold wrap Int.bmod
  simp only
  omega

theorem decimal_ge (d : List Char) (n : Nat) :
    n ≤ d.foldl (fun n c => 10 * n + (c.toNat - 48)) n := by
  induction d generalizing n with
  | nil => exact Nat.le_refl _
  | cons c d ih => exact Nat.le_trans (show n ≤ 10 * n + (c.toNat - 48) by omega) (ih _)

theorem digits_eq (d : List Char) (n : Nat)
    (h : d.foldl (fun n c => 10 * n + (c.toNat - 48)) n ≤ 2147483647) :
    digits (n : Int) d = ((d.foldl (fun n c => 10 * n + (c.toNat - 48)) n : Nat) : Int) := by
  induction d generalizing n with
  | nil => rfl
  | cons c d ih =>
    rw [List.foldl_cons] at h ⊢
    have h1 := decimal_ge d (10 * n + (c.toNat - 48))
    rw [← ih _ h, digits]
    have h2 : wrap ((n : Int) * 10) = (n : Int) * 10 := wrap_id (by omega) (by omega)
    simp only [h2, ne_eq, not_true, if_false]
    rw [wrap_id (by omega) (by omega)]
    have h3 : (n : Int) * 10 + ((c.toNat - 48 : Nat) : Int) = ((10 * n + (c.toNat - 48) : Nat) : Int) := by omega
    rw [h3]

theorem isDigit_iff {c : Char} : isDigit c = true ↔ '0' ≤ c ∧ c ≤ '9' := by
  simp [isDigit]

theorem integerRest_num {string : Bool} {neg : Bool} {s : List Char} {c : Char} {l : List Char}
    (hs : s = c :: l) (hc : isDigit c = true) :
    ∃ w, s = w ++ (integerRest string (if neg then -1 else 1) s).2 ∧
      Num ((if string then ['\''] else []) ++ (if neg then ['-'] else []) ++ w)
        (integerRest string (if neg then -1 else 1) s).1 := by
  have h0 : s = s.takeWhile isDigit ++ s.dropWhile isDigit := List.takeWhile_append_dropWhile.symm
  have hne : s.takeWhile isDigit ≠ [] := by rw [hs, List.takeWhile_cons, if_pos hc]; simp
  have hd : ∀ c ∈ s.takeWhile isDigit, '0' ≤ c ∧ c ≤ '9' := fun c hc => isDigit_iff.mp (mem_takeWhile_imp hc)
  have hv : Spec.decimal (s.takeWhile isDigit) ≤ 2147483647 →
      (integerRest string (if neg then -1 else 1) s).1 =
        if (if neg then ['-'] else []) = ([] : List Char) then (Spec.decimal (s.takeWhile isDigit) : Int)
        else -(Spec.decimal (s.takeWhile isDigit) : Int) := by
    intro h
    have h2 : digits 0 (s.takeWhile isDigit) = (Spec.decimal (s.takeWhile isDigit) : Int) :=
      digits_eq (s.takeWhile isDigit) 0 h
    simp only [integerRest]
    rw [h2]
    cases neg
    · simp only [if_true, Bool.false_eq_true, if_false, Int.mul_one]
      exact wrap_id (by omega) (by omega)
    · simp only [if_true, List.cons_ne_nil, if_false]
      rw [Int.mul_neg, Int.mul_one]
      exact wrap_id (by omega) (by omega)
  have hr := wrap_range (digits 0 (s.takeWhile isDigit) * (if neg then -1 else 1))
  cases string
  · refine ⟨s.takeWhile isDigit, ?_, [], if neg then ['-'] else [], s.takeWhile isDigit, [], ?_, ?_, ?_, hne, hd,
      hr.1, hr.2, hv⟩
    · simp [integerRest]
    · simp
    · exact Or.inl ⟨rfl, rfl⟩
    · cases neg <;> simp
  · refine ⟨s.takeWhile isDigit ++ (s.dropWhile isDigit).take 1, ?_, ['\''], if neg then ['-'] else [],
      s.takeWhile isDigit, (s.dropWhile isDigit).take 1, ?_, ?_, ?_, hne, hd, hr.1, hr.2, hv⟩
    · simp only [integerRest, if_true]
      rw [List.append_assoc, List.take_append_drop]
      exact h0
    · simp
    · exact Or.inr ⟨rfl, by simp; omega⟩
    · cases neg <;> simp

theorem integerBody_split {string : Bool} {s₀ s r : List Char} {i : Int}
    (hs : s₀ = (if string then ['\''] else []) ++ s) (h : integerBody string s₀ s = (some i, r)) :
    ∃ w, s₀ = w ++ r ∧ Num w i := by
  unfold integerBody at h
  split at h
  · simp at h
  · next c l =>
    split at h
    · next hc =>
      simp only [Prod.mk.injEq, Option.some.injEq] at h
      obtain ⟨w, h1, h2⟩ := integerRest_num (string := string) (neg := false) (s := c :: l) rfl hc
      simp only [Bool.false_eq_true, if_false] at h1 h2
      rw [h.1] at h2
      rw [h.2] at h1
      refine ⟨_, ?_, h2⟩
      rw [hs, h1]
      simp
    · split at h
      · next hc =>
        split at h
        · simp at h
        · next d l =>
          split at h
          · next hd =>
            simp only [Prod.mk.injEq, Option.some.injEq] at h
            obtain ⟨w, h1, h2⟩ := integerRest_num (string := string) (neg := true) (s := d :: l) rfl hd
            simp only [if_true] at h1 h2
            rw [h.1] at h2
            rw [h.2] at h1
            refine ⟨_, ?_, h2⟩
            rw [hs, h1, hc]
            simp
          · simp at h
      · simp at h

theorem readInteger_split {s r : List Char} {i : Int} (h : readInteger s = (some i, r)) :
    ∃ w, s = w ++ r ∧ Num w i := by
  unfold readInteger at h
  split at h
  · next t => exact integerBody_split (string := true) (by simp) h
  · exact integerBody_split (string := false) (by simp) h

theorem integerBody_none {string : Bool} {s₀ s r : List Char} (h : integerBody string s₀ s = (none, r)) :
    r = s₀ ∨ r = [] := by
  unfold integerBody at h
  split at h
  · simp_all
  · split at h
    · simp at h
    · split at h
      · split at h
        · simp_all
        · split at h
          · simp at h
          · simp_all
      · simp_all

theorem readInteger_none {s r : List Char} (h : readInteger s = (none, r)) : r = s ∨ r = [] := by
  unfold readInteger at h
  split at h <;> exact integerBody_none h

theorem afterLine_split {s r : List Char} (h : afterLine s = some r) : ∃ b, s = b ++ '\n' :: r ∧ '\n' ∉ b := by
  induction s with
  | nil => simp [afterLine] at h
  | cons c s ih =>
    rw [afterLine] at h
    split at h
    · next hc =>
      simp only [Option.some.injEq] at h
      subst h hc
      exact ⟨[], rfl, by simp⟩
    · next hc =>
      obtain ⟨b, h1, h2⟩ := ih h
      refine ⟨c :: b, by rw [h1]; rfl, ?_⟩
      simp only [List.mem_cons, not_or]
      exact ⟨fun e => hc e.symm, h2⟩

theorem quoted_split {s b r : List Char} (h : quoted s = some (b, r)) : s = b ++ '\'' :: r ∧ '\'' ∉ b := by
  induction s generalizing b with
  | nil => simp [quoted] at h
  | cons c s ih =>
    rw [quoted] at h
    split at h
    · next hc =>
      simp only [Option.some.injEq, Prod.mk.injEq] at h
      obtain ⟨rfl, rfl⟩ := h
      subst hc
      exact ⟨rfl, by simp⟩
    · next hc =>
      rw [Option.map_eq_some_iff] at h
      obtain ⟨⟨b', r'⟩, h1, h2⟩ := h
      simp only [Prod.mk.injEq] at h2
      obtain ⟨rfl, rfl⟩ := h2
      obtain ⟨h3, h4⟩ := ih h1
      refine ⟨by rw [h3]; rfl, ?_⟩
      simp only [List.mem_cons, not_or]
      exact ⟨fun e => hc e.symm, h4⟩

/-- The bytes a token is made of. -/
def Lexeme (t : Tok) (w : List Char) : Prop :=
  (t.ty = .int ∧ Num w t.int) ∨ (∃ x, Word w x ∧ (t = keyword x ∨ t = quotedTok x))

/-- A token is read after a gap. -/
theorem read_split {s r : List Char} {t : Tok} (h : read s = .tok t r) :
    ∃ g w, s = g ++ w ++ r ∧ Gap g ∧ Lexeme t w := by
  induction hn : s.length using Nat.strongRecOn generalizing s with
  | _ n ih =>
    have h2 := readInteger_le (skip false s)
    have h3 := skip_le false s
    obtain ⟨g, hg, hb⟩ := skip_split false s
    unfold read at h
    split at h
    · next i r' he =>
      simp only [Read.tok.injEq] at h
      obtain ⟨w, h4, h5⟩ := readInteger_split he
      obtain ⟨rfl, rfl⟩ := h
      refine ⟨g, w, ?_, by simpa using gap_blanks hb .nil, Or.inl ⟨rfl, h5⟩⟩
      rw [List.append_assoc, ← h4]
      exact hg
    · simp at h
    · next c u he =>
      have hs : skip false s = c :: u := by
        rcases readInteger_none he with e | e
        · exact e.symm
        · simp at e
      rw [hs] at hg
      rw [he] at h2
      simp only [List.length_cons] at h2
      split at h
      · next hc =>
        split at h
        · simp at h
        · next r' hr =>
          have h4 := afterLine_lt hr
          obtain ⟨b, h5, h6⟩ := afterLine_split hr
          obtain ⟨g', w, h7, h8, h9⟩ := ih r'.length (by omega) h rfl
          refine ⟨g ++ ('#' :: b ++ '\n' :: g'), w, ?_, gap_blanks hb (.comment h6 h8), h9⟩
          rw [hg, h5, h7, hc]
          simp
      · split at h
        · simp only [Read.tok.injEq] at h
          obtain ⟨rfl, rfl⟩ := h
          refine ⟨g, c :: u.takeWhile wordChar, ?_, by simpa using gap_blanks hb .nil,
            Or.inr ⟨_, Or.inl rfl, Or.inl rfl⟩⟩
          rw [List.append_assoc, List.cons_append, List.takeWhile_append_dropWhile]
          exact hg
        · split at h
          · simp only [Read.tok.injEq] at h
            obtain ⟨rfl, rfl⟩ := h
            refine ⟨g, c :: u.takeWhile (· = c), ?_, by simpa using gap_blanks hb .nil,
              Or.inr ⟨_, Or.inl rfl, Or.inl rfl⟩⟩
            rw [List.append_assoc, List.cons_append, List.takeWhile_append_dropWhile]
            exact hg
          · split at h
            · next hc =>
              split at h
              · simp at h
              · next b r' hq =>
                simp only [Read.tok.injEq] at h
                obtain ⟨rfl, rfl⟩ := h
                refine ⟨g, '\'' :: b ++ ['\''], ?_, by simpa using gap_blanks hb .nil,
                  Or.inr ⟨_, Or.inr rfl, Or.inr rfl⟩⟩
                rw [hg, hc, (quoted_split hq).1]
                simp
            · simp at h

theorem tokenize_cons {s : List Char} {t : Tok} {ts : List Tok} (h : tokenize s = some (t :: ts)) :
    ∃ r, read s = .tok t r ∧ tokenize r = some ts := by
  unfold tokenize at h
  split at h
  · simp at h
  · simp at h
  · next t' r he =>
    rw [Option.map_eq_some_iff] at h
    obtain ⟨us, h1, h2⟩ := h
    simp only [List.cons.injEq] at h2
    obtain ⟨rfl, rfl⟩ := h2
    exact ⟨r, he, h1⟩

theorem tokenize_tok {s r : List Char} {t : Tok} (h : read s = .tok t r) :
    tokenize s = (tokenize r).map (t :: ·) := by
  rw [tokenize]
  split
  · next he => rw [h] at he; simp at he
  · next he => rw [h] at he; simp at he
  · next t' r' he =>
    rw [h] at he
    simp only [Read.tok.injEq] at he
    obtain ⟨rfl, rfl⟩ := he
    rfl

theorem tokenize_eof {s : List Char} (h : read s = .eof) : tokenize s = some [] := by
  rw [tokenize]
  split
  · rfl
  · next he => rw [h] at he; simp at he
  · next he => rw [h] at he; simp at he

theorem tokenize_drop {s : List Char} {pre ts : List Tok} (h : tokenize s = some (pre ++ ts)) :
    ∃ p r, s = p ++ r ∧ tokenize r = some ts := by
  induction pre generalizing s with
  | nil => exact ⟨[], s, rfl, h⟩
  | cons t pre ih =>
    obtain ⟨r, h1, h2⟩ := tokenize_cons h
    obtain ⟨g, w, h3, _, _⟩ := read_split h1
    obtain ⟨p, r', h4, h5⟩ := ih h2
    exact ⟨g ++ w ++ p, r', by rw [h3, h4]; simp, h5⟩

/-- Three tokens that follow each other. -/
theorem tokenize_three {s : List Char} {pre post : List Tok} {a b c : Tok}
    (h : tokenize s = some (pre ++ a :: b :: c :: post)) :
    ∃ p wa g1 wb g2 wc q, s = p ++ wa ++ g1 ++ wb ++ g2 ++ wc ++ q ∧ Lexeme a wa ∧ Gap g1 ∧ Lexeme b wb ∧
      Gap g2 ∧ Lexeme c wc := by
  obtain ⟨p, r, h1, h2⟩ := tokenize_drop h
  obtain ⟨r1, h3, h4⟩ := tokenize_cons h2
  obtain ⟨r2, h5, h6⟩ := tokenize_cons h4
  obtain ⟨r3, h7, h8⟩ := tokenize_cons h6
  obtain ⟨g, wa, e1, _, l1⟩ := read_split h3
  obtain ⟨g1, wb, e2, k1, l2⟩ := read_split h5
  obtain ⟨g2, wc, e3, k2, l3⟩ := read_split h7
  exact ⟨p ++ g, wa, g1, wb, g2, wc, r3, by rw [h1, e1, e2, e3]; simp, l1, k1, l2, k2, l3⟩

/-- There are no more tokens than bytes. -/
theorem tokenize_length {s : List Char} {ts : List Tok} (h : tokenize s = some ts) : ts.length ≤ s.length := by
  induction ts generalizing s with
  | nil => simp
  | cons t ts ih =>
    obtain ⟨r, h1, h2⟩ := tokenize_cons h
    have := read_lt h1
    have := ih h2
    simp only [List.length_cons]
    omega

theorem quotedTok_ty (x : List Char) : (quotedTok x).ty = .str ∨ quotedTok x = keyword x := by
  unfold quotedTok
  split
  · exact Or.inl rfl
  · exact Or.inr rfl

theorem lexeme_kw {t : Tok} {w : List Char} {k : Kw} (h : Lexeme t w) (ht : t.ty = .kw k) :
    Word w (Spec.name k) := by
  rcases h with ⟨h, _⟩ | ⟨x, hw, h⟩
  · rw [h] at ht; simp at ht
  · have h1 : t = keyword x := by
      rcases h with h | h
      · exact h
      · rcases quotedTok_ty x with h2 | h2
        · rw [h, h2] at ht; simp at ht
        · rw [h, h2]
    have h2 := (keyword_ty x).2.2
    rw [← h1, ht] at h2
    simp only [tyName, reduceCtorEq, false_or, Option.some.injEq] at h2
    rw [h2]
    exact hw

theorem lexeme_colon {t : Tok} {w : List Char} (h : Lexeme t w) (ht : t.ty = .colon) : Word w [':'] := by
  rcases h with ⟨h, _⟩ | ⟨x, hw, h⟩
  · rw [h] at ht; simp at ht
  · have h1 : t = keyword x := by
      rcases h with h | h
      · exact h
      · rcases quotedTok_ty x with h2 | h2
        · rw [h, h2] at ht; simp at ht
        · rw [h, h2]
    have h2 := (keyword_ty x).2.2
    rw [← h1, ht] at h2
    simp only [tyName, reduceCtorEq, false_or, Option.some.injEq] at h2
    rw [h2]
    exact hw

theorem lexeme_int {t : Tok} {w : List Char} (h : Lexeme t w) (ht : t.ty = .int) :
    Num w t.int ∨ (t.int = 0 ∧ Word w "Integer".toList) := by
  rcases h with ⟨_, h⟩ | ⟨x, hw, h⟩
  · exact Or.inl h
  · have h1 : t = keyword x := by
      rcases h with h | h
      · exact h
      · rcases quotedTok_ty x with h2 | h2
        · rw [h, h2] at ht; simp at ht
        · rw [h, h2]
    have h2 := (keyword_ty x).2.2
    rw [← h1, ht] at h2
    simp only [tyName, reduceCtorEq, false_or, Option.some.injEq] at h2
    refine Or.inr ⟨?_, ?_⟩
    · rw [h1]; exact (keyword_ty x).2.1
    · rw [h2]
      exact hw

end Knfmt.Style
