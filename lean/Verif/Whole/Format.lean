import Verif.Whole.Attached
import Verif.Parser.Region
import Verif.Parse.Theorems
/-!
# From the source to the output (C73)

The lexer (`Verif.Lexer`), the parser (`Verif.Parse`), the documents of tokens (`Verif.Parser.Token`) and
the printer (`Verif.Doc`) put together. What the parser does besides, that is the groups, indentations,
white space and line breaks it adds and the comments it moves from a token to the next one or the other way
around, is left open: the theorems hold for all of them, see `Document`. Branches of preprocessor
conditionals, recovery from errors, simplifications and diffs are not part of this.
-/
namespace Knfmt.Whole
open Knfmt.Lexer (Token Lx Ctx tokenizeLoop init TT piecesOf JoinOk)
open Knfmt.Parser (text docTok docToken docPrefixes docPrefix docSuffixes acts Act Builds formatVerbatim)
open Knfmt.Doc (Doc Env docExec)
open Knfmt.Doc.Spec (Event events visible rtrim space Renders)

/-! ## Specification -/

/-- A text as it is printed: without the blanks at its end, and not at all if it is white space. -/
def shown (s : List Char) : List (List Char) :=
  if ∃ c ∈ s, space c = false then [rtrim s] else []

/-- The comments and directives attached to a token. -/
def comments (T : Token) : List Lexer.Tok :=
  (T.prefixes ++ T.suffixes).filter fun t => decide (t.type ≠ .space)

/-- `out` consists of texts with white space around them, those of the tokens in the given order and
those of the comments in any order. Line feeds may be missing at the end. -/
def Consists (out : List Char) (tokens comments : List (List Char)) : Prop :=
  ∃ (parts : List (Bool × List Char)) (k : Nat),
    Renders (parts.map (·.2)) (out ++ List.replicate k '\n') ∧
    (parts.filter (·.1)).map (·.2) = tokens ∧
    ((parts.filter (!·.1)).map (·.2)).Perm comments

/-- No semicolon follows a semicolon or a right brace. -/
def NoRedundant (ts : List Token) : Prop :=
  ∀ x y T U, ts = x ++ T :: U :: y → T.tok.type = .semi ∨ T.tok.type = .rbrace → U.tok.type ≠ .semi

/-! ## The model -/

/-- Removal of the tokens to be discarded, lexer.c:124-128, see `lexer_remove`, lexer.c:526-548. What is in
front of such a token goes to the next one. What is behind it is white space, which is left out here. -/
def removeDiscarded : List Token → List Token
  | [] => []
  | T :: ts =>
    if T.tok.flags.discard then
      match removeDiscarded ts with
      | [] => []
      | U :: us => { U with prefixes := T.prefixes ++ U.prefixes } :: us
    else T :: removeDiscarded ts

/-- The tokens of a file, `lexer_tokenize`, lexer.c:77-144. -/
def lexed (inp : List Char) (cx : Ctx) : List Token := removeDiscarded (tokenizeLoop inp cx init).2

/-- A token as seen by the parser, which does not care about comments. -/
def parseTok (inp : List Char) (T : Token) (i : Nat) : Parse.Tok :=
  { id := i, ty := T.tok.type, str := text inp T.tok, lno := T.tok.lno, cno := T.tok.cno.getD 1 }

/-- The tokens of a file as seen by the parser, without the one for the end of the file. -/
def parseToks (inp : List Char) (ts : List Token) : List Parse.Tok :=
  ts.dropLast.zipIdx.map fun p => parseTok inp p.1 p.2

/-- The tokens for which `parser_exec` has `parser_doc_token` called, parser.c:138-170: those reached by
`parser_root`, and the one for the end of the file if it has prefixes, parser.c:143-147. -/
def printed (ts : List Token) (out : List Parse.Tok) : List Token :=
  out.filterMap (fun t => ts[t.id]?) ++
    match ts.getLast? with
    | none => []
    | some T => if T.prefixes = [] then [] else [T]

/-- The tokens added to a document. -/
def tokensOf : List Act → List Token
  | [] => []
  | .token T :: l => T :: tokensOf l
  | .other _ :: l => tokensOf l

/-- A document of the parser's own: white space. All calls of `doc_literal` with a text other than a blank
are for tests only, expr.c:1019-1036. -/
def Silent (d : Doc) : Prop := ∀ e ∈ events d, ∃ s, e = .text s ∧ ∀ c ∈ s, space c = true

/-- The white space attached to tokens is not printed, or as white space. There is none in front of them. -/
def Spaced (inp : List Char) (es : List Token) : Prop :=
  ∀ T ∈ es, (∀ t ∈ T.prefixes, t.type ≠ .space) ∧
    ∀ t ∈ T.suffixes, t.type = .space →
      t.flags.discard = true ∨ t.flags.optline = true ∨ ∀ c ∈ text inp t, space c = true

/-- The tokens `es` are the tokens `ts`, with comments moved, lines removed or added.
Comments are moved by `token_move_next_line` and `token_move_prev_line`, expr.c:1313-1341, and
`token_move_prefixes` and `token_move_suffixes`, e.g. parser-stmt.c:568, parser-braces.c:354; lines are
removed by `token_trim` and added by `token_add_optline`, token.c. -/
def Arranged (inp : List Char) (es ts : List Token) : Prop :=
  es.map (·.tok) = ts.map (·.tok) ∧ (es.flatMap comments).Perm (ts.flatMap comments) ∧ Spaced inp es

/-- `Arranged` with every comment where it was. -/
def InPlace (inp : List Char) (es ts : List Token) : Prop :=
  es.map (fun T => (T.prefixes, T.tok, T.suffixes.filter fun t => decide (t.type ≠ .space))) =
    ts.map (fun T => (T.prefixes, T.tok, T.suffixes.filter fun t => decide (t.type ≠ .space))) ∧
  Spaced inp es

/-- `d` is a document of `parser_exec`, parser.c:122-195, for the tokens `ts`: in whatever groups,
indentations and the like, it has the documents of the tokens and white space of the parser's own. `R`
tells how the tokens added differ from `ts`. -/
def Document (R : List Token → List Token → Prop) (inp : List Char) (lx : Lx) (ts : List Token) (d : Doc) :
    Prop :=
  ∃ l : List Act, Builds d (Parser.parserExec inp lx l).1 ∧
    (∀ e, Act.other e ∈ l → Silent e) ∧ R (tokensOf l) ts

/-! ## Documents -/

/-- No comment of the tokens turns formatting off or on. -/
def Plain (es : List Token) : Prop :=
  ∀ T ∈ es, ∀ t ∈ T.prefixes, t.flags.cfOn = false ∧ t.flags.cfOff = false

/-- The documents of one step. -/
def actDocs (inp : List Char) : Act → List Doc
  | .token T => T.prefixes.map (fun t => .verbatim (text inp t) (docTok inp t)) ++
      .literal (text inp T.tok) (some (docTok inp T.tok)) :: docSuffixes inp T.suffixes
  | .other d => [d]

theorem docPrefixes_plain (inp : List Char) (lx : Lx) (ts : List Lexer.Tok) (σ : Parser.St)
    (h : ∀ t ∈ ts, t.flags.cfOn = false ∧ t.flags.cfOff = false) :
    docPrefixes inp lx false ts σ = (ts.map (fun t => .verbatim (text inp t) (docTok inp t)), σ) := by
  induction ts with
  | nil => rfl
  | cons t ts ih =>
    obtain ⟨h1, h2⟩ := h t (by simp)
    have hx : docPrefix inp lx false t σ = ([.verbatim (text inp t) (docTok inp t)], σ) := by
      simp [docPrefix, h1, h2]
    rw [docPrefixes, hx]
    simp only
    rw [ih (fun t ht => h t (by simp [ht]))]
    rfl

theorem acts_plain (inp : List Char) (lx : Lx) (l : List Act) (h : Plain (tokensOf l)) :
    acts inp lx l {} = (l.flatMap (actDocs inp), {}) := by
  induction l with
  | nil => rfl
  | cons a l ih =>
    cases a with
    | token T =>
      have h1 : docToken inp lx false false T {} = (actDocs inp (.token T), {}) := by
        have := docPrefixes_plain inp lx T.prefixes {} (h T (by simp [tokensOf]))
        simp [docToken, this, actDocs]
      rw [acts, h1]
      simp only [List.flatMap_cons]
      rw [ih (fun T hT => h T (by simp [tokensOf, hT]))]
    | other d =>
      rw [acts, ih h]
      simp [actDocs]

/-- The texts of one step; those of tokens are marked. -/
def actTexts (inp : List Char) : Act → List (Bool × List Char)
  | .token T => T.prefixes.map (fun t => (false, text inp t)) ++ (true, text inp T.tok) ::
      (T.suffixes.filter fun t => !t.flags.discard && !t.flags.optline).map fun t => (false, text inp t)
  | .other d => (events d).filterMap fun
      | .text s => some (false, s)
      | .mute _ => none

theorem actDocs_events (inp : List Char) (a : Act) (h : ∀ d, a = .other d → Silent d) :
    (actDocs inp a).flatMap events = (actTexts inp a).map fun p => .text p.2 := by
  cases a with
  | token T =>
    simp only [actDocs, actTexts, List.flatMap_append, List.flatMap_cons, List.map_append, List.map_cons,
      List.map_map, events]
    have h1 : ∀ ts : List Lexer.Tok, (ts.map fun t => Doc.verbatim (text inp t) (docTok inp t)).flatMap events =
        ts.map ((fun p : Bool × List Char => Event.text p.2) ∘ fun t => (false, text inp t)) := by
      intro ts
      induction ts with
      | nil => rfl
      | cons t ts ih =>
        simp only [List.map_cons, List.flatMap_cons, ih, events]; rfl
    have h2 : ∀ ts : List Lexer.Tok, (docSuffixes inp ts).flatMap events =
        (ts.filter fun t => !t.flags.discard && !t.flags.optline).map
          ((fun p : Bool × List Char => Event.text p.2) ∘ fun t => (false, text inp t)) := by
      intro ts
      induction ts with
      | nil => rfl
      | cons t ts ih =>
        rw [docSuffixes, List.flatMap_cons, List.flatMap_append, ← docSuffixes, ih]
        cases hd : t.flags.discard <;> cases ho : t.flags.optline <;> simp [hd, ho, events]
    rw [h1, h2]
    rfl
  | other d =>
    have hs := h d rfl
    simp only [actDocs, actTexts, List.flatMap_cons, List.flatMap_nil, List.append_nil]
    unfold Silent at hs
    generalize events d = es at hs ⊢
    induction es with
    | nil => rfl
    | cons e es ih =>
      obtain ⟨s, rfl, _⟩ := hs e (by simp)
      simp only [List.filterMap_cons, List.map_cons]
      rw [← ih (fun e he => hs e (by simp [he]))]

theorem visible_texts (ps : List (Bool × List Char)) :
    visible (ps.map fun p => Event.text p.2) 0 =
      (ps.flatMap fun p => (shown p.2).map fun s => (p.1, s)).map (·.2) := by
  induction ps with
  | nil => rfl
  | cons p ps ih =>
    rw [List.map_cons, visible, List.flatMap_cons, List.map_append, ← ih]
    by_cases h : ∃ c ∈ p.2, space c = false
    · rw [if_pos ⟨rfl, h⟩, shown, if_pos h]; rfl
    · rw [if_neg (fun e => h e.2), shown, if_neg h]; rfl

/-- What is printed of a document for tokens without comments that turn formatting off. -/
theorem visible_document {inp : List Char} {lx : Lx} {l : List Act} {d : Doc}
    (hb : Builds d (Parser.parserExec inp lx l).1) (ho : ∀ e, Act.other e ∈ l → Silent e)
    (hp : Plain (tokensOf l)) :
    visible (events d) 0 =
      ((l.flatMap (actTexts inp)).flatMap fun p => (shown p.2).map fun s => (p.1, s)).map (·.2) := by
  rw [← visible_texts]
  congr 1
  unfold Builds at hb
  rw [hb]
  unfold Parser.parserExec
  simp only [acts_plain inp lx l hp, formatVerbatim, List.append_nil]
  clear hb hp
  induction l with
  | nil => rfl
  | cons a l ih =>
    rw [List.flatMap_cons, List.flatMap_append, List.flatMap_cons, List.map_append,
      ih (fun e he => ho e (by simp [he])), actDocs_events inp a (fun e he => ho e (by simp [he]))]

/-! ## Tokens and comments -/

theorem shown_silent {s : List Char} (h : ∀ c ∈ s, space c = true) : shown s = [] := by
  unfold shown
  rw [if_neg]
  rintro ⟨c, hc, hf⟩
  rw [h c hc] at hf
  cases hf

/-- The texts of tokens among all texts. -/
theorem marked_texts (inp : List Char) (l : List Act) :
    ((l.flatMap (actTexts inp)).filter (·.1)).map (·.2) = (tokensOf l).map fun T => text inp T.tok := by
  induction l with
  | nil => rfl
  | cons a l ih =>
    rw [List.flatMap_cons, List.filter_append, List.map_append, ih]
    cases a with
    | token T =>
      have h1 : ∀ ts : List Lexer.Tok, (ts.map fun t => (false, text inp t)).filter (·.1) = [] := by
        intro ts; simp [List.filter_eq_nil_iff]
      simp [actTexts, tokensOf, List.filter_append, h1]
    | other d =>
      have : ((events d).filterMap (fun
          | .text s => some (false, s)
          | .mute _ => none)).filter (·.1) = [] := by
        rw [List.filter_eq_nil_iff]
        intro p hp
        obtain ⟨e, _, he⟩ := List.mem_filterMap.1 hp
        cases e <;> simp at he
        subst he; simp
      simp [actTexts, tokensOf, this]

/-- A suffix that is not printed, or as white space only. -/
def Space (inp : List Char) (t : Lexer.Tok) : Prop :=
  t.flags.discard = true ∨ t.flags.optline = true ∨ ∀ c ∈ text inp t, space c = true

theorem suffix_texts (inp : List Char) (ts : List Lexer.Tok)
    (h1 : ∀ t ∈ ts, t.type ≠ .space → t.flags.discard = false ∧ t.flags.optline = false)
    (h2 : ∀ t ∈ ts, t.type = .space → Space inp t) :
    ((ts.filter fun t => !t.flags.discard && !t.flags.optline).flatMap fun t => shown (text inp t)) =
      (ts.filter fun t => decide (t.type ≠ .space)).flatMap fun t => shown (text inp t) := by
  induction ts with
  | nil => rfl
  | cons t ts ih =>
    have ih := ih (fun t ht => h1 t (by simp [ht])) (fun t ht => h2 t (by simp [ht]))
    by_cases hs : t.type = .space
    · have hr : (t :: ts).filter (fun t => decide (t.type ≠ .space)) =
          ts.filter (fun t => decide (t.type ≠ .space)) := by simp [hs]
      rw [hr, ← ih, List.filter_cons]
      split
      · next hf =>
        simp only [Bool.and_eq_true, Bool.not_eq_true'] at hf
        have : ∀ c ∈ text inp t, space c = true := by
          rcases h2 t (by simp) hs with h | h | h
          · rw [hf.1] at h; cases h
          · rw [hf.2] at h; cases h
          · exact h
        simp [shown_silent this]
      · rfl
    · obtain ⟨h3, h4⟩ := h1 t (by simp) hs
      simp [h3, h4, hs, ih]

/-- The texts of comments among all texts that are shown. -/
theorem unmarked_texts (inp : List Char) (l : List Act) (ho : ∀ e, Act.other e ∈ l → Silent e)
    (h0 : ∀ T ∈ tokensOf l, ∀ t ∈ T.prefixes, t.type ≠ .space)
    (h1 : ∀ T ∈ tokensOf l, ∀ t ∈ T.suffixes, t.type ≠ .space →
      t.flags.discard = false ∧ t.flags.optline = false)
    (h2 : ∀ T ∈ tokensOf l, ∀ t ∈ T.suffixes, t.type = .space → Space inp t) :
    (((l.flatMap (actTexts inp)).filter (!·.1)).flatMap fun p => shown p.2) =
      (tokensOf l).flatMap fun T => (comments T).flatMap fun t => shown (text inp t) := by
  induction l with
  | nil => rfl
  | cons a l ih =>
    rw [List.flatMap_cons, List.filter_append, List.flatMap_append]
    cases a with
    | token T =>
      rw [ih (fun e he => ho e (by simp [he])) (fun U hU => h0 U (by simp [tokensOf, hU]))
        (fun U hU => h1 U (by simp [tokensOf, hU])) (fun U hU => h2 U (by simp [tokensOf, hU]))]
      simp only [tokensOf, List.flatMap_cons]
      congr 1
      have f1 : ∀ ts : List Lexer.Tok, (ts.map fun t => (false, text inp t)).filter (!·.1) =
          ts.map fun t => (false, text inp t) := by
        intro ts; rw [List.filter_eq_self]; simp
      have f2 : ∀ ts : List Lexer.Tok, (ts.map fun t => (false, text inp t)).flatMap (fun p => shown p.2) =
          ts.flatMap fun t => shown (text inp t) := by
        intro ts; rw [List.flatMap_map]
      have f3 : T.prefixes.filter (fun t => decide (t.type ≠ .space)) = T.prefixes := by
        rw [List.filter_eq_self]
        intro t ht
        simpa using h0 T (by simp [tokensOf]) t ht
      simp only [actTexts, List.filter_append, f1, List.flatMap_append, f2, List.filter_cons,
        Bool.not_true, Bool.false_eq_true, if_false, comments, f3]
      rw [suffix_texts inp T.suffixes (h1 T (by simp [tokensOf])) (h2 T (by simp [tokensOf]))]
    | other d =>
      rw [ih (fun e he => ho e (by simp [he])) h0 h1 h2]
      have : ((actTexts inp (.other d)).filter (!·.1)).flatMap (fun p => shown p.2) = [] := by
        rw [List.flatMap_eq_nil_iff]
        intro p hp
        have hp := (List.mem_filter.1 hp).1
        obtain ⟨e, he, hx⟩ := List.mem_filterMap.1 hp
        obtain ⟨s, rfl, hs⟩ := ho d (by simp) e he
        simp at hx
        subst hx
        exact shown_silent hs
      rw [this]; rfl

/-! ## The tokens handed to the parser and back -/

theorem zipIdx_get (ts : List Token) : ∀ (l pre suf : List Token), ts = pre ++ l ++ suf →
    (l.zipIdx pre.length).filterMap (fun p => ts[p.2]?) = l := by
  intro l
  induction l with
  | nil => intro pre suf _; rfl
  | cons T l ih =>
    intro pre suf h
    rw [List.zipIdx_cons, List.filterMap_cons]
    have h1 : ts[pre.length]? = some T := by rw [h]; simp
    have h2 := ih (pre ++ [T]) suf (by rw [h]; simp)
    simp only [List.length_append, List.length_cons, List.length_nil, Nat.zero_add] at h2
    simp only [h1]
    rw [h2]

theorem parseToks_back (inp : List Char) (ts : List Token) :
    (parseToks inp ts).filterMap (fun t => ts[t.id]?) = ts.dropLast := by
  unfold parseToks
  rw [List.filterMap_map]
  have : (ts.dropLast.zipIdx 0).filterMap (fun p => ts[p.2]?) = ts.dropLast := by
    rcases List.eq_nil_or_concat ts with h | ⟨l, T, h⟩
    · subst h; rfl
    · exact zipIdx_get ts ts.dropLast [] [T] (by subst h; simp)
  exact this

theorem parseToks_types (inp : List Char) (ts : List Token) :
    (parseToks inp ts).map (·.ty) = ts.dropLast.map (·.tok.type) := by
  unfold parseToks
  rw [List.map_map]
  generalize ts.dropLast = l
  have : ∀ (l : List Token) (n : Nat),
      (l.zipIdx n).map ((fun t : Parse.Tok => t.ty) ∘ fun p => parseTok inp p.1 p.2) = l.map (·.tok.type) := by
    intro l
    induction l with
    | nil => intro n; rfl
    | cons T l ih => intro n; rw [List.zipIdx_cons, List.map_cons, ih, List.map_cons]; rfl
  exact this l 0

/-- A file without redundant semicolons that is parsed without a mishap is printed with all its tokens. -/
theorem parse_all {inp : List Char} {ts : List Token} {E : Parse.Env} {fuel : Nat} {out : List Parse.Tok}
    {gl : Bool} (he : ∀ T ∈ ts.dropLast, T.tok.type ≠ .eof) (hn : NoRedundant ts.dropLast)
    (hp : Parse.parserExec E fuel (parseToks inp ts) = some (out, { glued := gl })) :
    out.filterMap (fun t => ts[t.id]?) = ts.dropLast := by
  have htypes := parseToks_types inp ts
  have ht : ∀ t ∈ parseToks inp ts, t.ty ≠ .eof := by
    intro t ht
    have := List.mem_map_of_mem (f := fun t : Parse.Tok => t.ty) ht
    rw [htypes] at this
    obtain ⟨u, hu, e⟩ := List.mem_map.1 this
    exact e ▸ he u hu
  have := Parse.C64_all_tokens_kept_partial E fuel _ out _ ht hp rfl rfl rfl ?_
  · rw [this]; exact parseToks_back inp ts
  · intro x y t u hx he
    rw [hx] at htypes
    simp only [List.map_append, List.map_cons] at htypes
    obtain ⟨a, b, e1, e2, e3⟩ := List.map_eq_append_iff.1 htypes.symm
    obtain ⟨T, b, rfl, e4, e5⟩ := List.map_eq_cons_iff.1 e3
    obtain ⟨U, b, rfl, e6, e7⟩ := List.map_eq_cons_iff.1 e5
    rw [← e6]
    exact hn a b T U e1 (by rw [e4]; exact he)

/-! ## The whole -/

theorem trim_renders {env : Env} {trim : Bool} {d : Doc} (hv : env.diff = none)
    (hu : (docExec env trim [] d).ub = false) :
    ∃ k, Renders (visible (events d) 0) ((docExec env trim [] d).buf.reverse ++ List.replicate k '\n') := by
  obtain ⟨x, h1, h2⟩ := Doc.doc_exec_renders env hv trim d hu
  rcases h2 with h2 | ⟨_, k, h2, _⟩
  · exact ⟨0, by rw [h2]; simpa using h1⟩
  · exact ⟨k, by rw [← h2]; exact h1⟩

theorem flatMap_filter_fst (b : Bool) (f : List Char → List (List Char)) (ps : List (Bool × List Char)) :
    ((ps.flatMap fun p => (f p.2).map fun s => (p.1, s)).filter fun p => p.1 == b).map (·.2) =
      (ps.filter fun p => p.1 == b).flatMap fun p => f p.2 := by
  induction ps with
  | nil => rfl
  | cons p ps ih =>
    rw [List.flatMap_cons, List.filter_append, List.map_append, ih, List.filter_cons]
    by_cases h : (p.1 == b) = true
    · rw [if_pos h, List.flatMap_cons]
      congr 1
      rw [List.filter_eq_self.2]
      · rw [List.map_map]
        exact List.map_id _
      · intro q hq
        obtain ⟨s, _, rfl⟩ := List.mem_map.1 hq
        exact h
    · rw [if_neg h]
      rw [List.filter_eq_nil_iff.2]
      · rfl
      · intro q hq
        obtain ⟨s, _, rfl⟩ := List.mem_map.1 hq
        exact h

/-- What the lexer has read, as far as it matters here. -/
structure Source (inp : List Char) (ts : List Token) : Prop where
  last : ∃ l T, ts = l ++ [T] ∧ T.tok.type = .eof ∧ ∀ U ∈ l, U.tok.type ≠ .eof
  att : ∀ T ∈ ts, ∀ t ∈ T.suffixes, Att inp t
  pre : ∀ T ∈ ts, ∀ t ∈ T.prefixes, t.type ≠ .space ∧ t.flags.discard = false ∧ t.flags.optline = false
  eof : ∀ T ∈ ts, T.tok.type = .eof → ∀ t ∈ T.suffixes, t.type = .space

theorem source (inp : List Char) (cx : Ctx) : Source inp (tokenizeLoop inp cx init).2 where
  last := Lexer.one_eof_token inp cx
  att := fun T hT => (tokenize_att cx init (Lexer.init_inv inp) T hT).2
  pre := fun T hT t ht => by
    have h := prefix_type cx init (Lexer.init_inv inp) T hT t ht
    rcases (tokenize_att cx init (Lexer.init_inv inp) T hT).1 t ht with h1 | h1
    · exact h1
    · exact absurd h1.1 h
  eof := eof_suffixes cx init (Lexer.init_inv inp)

/-! ## Discarded tokens -/

theorem removeDiscarded_tok (ts : List Token) (l : List Token) (T : Token) (h : ts = l ++ [T])
    (hT : T.tok.flags.discard = false) :
    (removeDiscarded ts).map (·.tok) = (ts.filter fun T => !T.tok.flags.discard).map (·.tok) ∧
    removeDiscarded ts ≠ [] := by
  induction l generalizing ts with
  | nil => subst h; simp [removeDiscarded, hT]
  | cons U l ih =>
    subst h
    obtain ⟨h1, h2⟩ := ih _ rfl
    rw [List.cons_append, removeDiscarded]
    split
    · next hd =>
      split
      · next he => exact absurd he h2
      · next V vs he =>
        rw [he] at h1
        refine ⟨?_, by simp⟩
        rw [List.filter_cons, if_neg (by simp [hd]), ← h1]
        rfl
    · next hd =>
      refine ⟨?_, by simp⟩
      rw [List.filter_cons, if_pos (by simpa using hd), List.map_cons, List.map_cons, h1]

/-- Every prefix and every suffix left was there before. -/
theorem removeDiscarded_mem (ts : List Token) : ∀ T ∈ removeDiscarded ts,
    (∃ U ∈ ts, T.tok = U.tok ∧ T.suffixes = U.suffixes) ∧ ∀ t ∈ T.prefixes, ∃ U ∈ ts, t ∈ U.prefixes := by
  induction ts with
  | nil => simp [removeDiscarded]
  | cons U ts ih =>
    rw [removeDiscarded]
    split
    · split
      · simp
      · next V vs he =>
        intro T hT
        rcases List.mem_cons.1 hT with h | h
        · subst h
          obtain ⟨⟨W, hW, e1, e2⟩, h2⟩ := ih V (by rw [he]; simp)
          refine ⟨⟨W, by simp [hW], e1, e2⟩, ?_⟩
          intro t ht
          rcases List.mem_append.1 ht with h | h
          · exact ⟨U, by simp, h⟩
          · obtain ⟨X, hX, h⟩ := h2 t h
            exact ⟨X, by simp [hX], h⟩
        · obtain ⟨⟨W, hW, e⟩, h2⟩ := ih T (by rw [he]; simp [h])
          refine ⟨⟨W, by simp [hW], e⟩, ?_⟩
          intro t ht
          obtain ⟨X, hX, h⟩ := h2 t ht
          exact ⟨X, by simp [hX], h⟩
    · intro T hT
      rcases List.mem_cons.1 hT with h | h
      · subst h
        exact ⟨⟨T, by simp, rfl, rfl⟩, fun t ht => ⟨T, by simp, ht⟩⟩
      · obtain ⟨⟨W, hW, e⟩, h2⟩ := ih T h
        refine ⟨⟨W, by simp [hW], e⟩, ?_⟩
        intro t ht
        obtain ⟨X, hX, h⟩ := h2 t ht
        exact ⟨X, by simp [hX], h⟩

/-- The comments are all there if none follows a discarded token. -/
theorem removeDiscarded_comments (ts : List Token) (l : List Token) (T : Token) (h : ts = l ++ [T])
    (hT : T.tok.flags.discard = false)
    (hs : ∀ U ∈ ts, U.tok.flags.discard = true → ∀ t ∈ U.suffixes, t.type = .space) :
    (removeDiscarded ts).flatMap comments = ts.flatMap comments := by
  induction l generalizing ts with
  | nil => subst h; simp [removeDiscarded, hT]
  | cons U l ih =>
    subst h
    have h1 := ih _ rfl (fun V hV => hs V (by simp at hV ⊢; exact Or.inr hV))
    have h2 := (removeDiscarded_tok _ l T rfl hT).2
    rw [List.cons_append, removeDiscarded]
    split
    · next hd =>
      split
      · next he => exact absurd he h2
      · next V vs he =>
        rw [he] at h1
        rw [List.flatMap_cons, List.flatMap_cons, ← h1, List.flatMap_cons]
        have : comments U = U.prefixes.filter fun t => decide (t.type ≠ .space) := by
          have h0 : U.suffixes.filter (fun t => decide (t.type ≠ .space)) = [] := by
            rw [List.filter_eq_nil_iff]
            intro t ht
            simpa using hs U (by simp) hd t ht
          rw [comments, List.filter_append, h0, List.append_nil]
        rw [this, ← List.append_assoc]
        congr 1
        simp [comments, List.filter_append]
    · rw [List.flatMap_cons, List.flatMap_cons, h1]

/-- The token for the end of the file is not discarded. -/
theorem eof_kept {inp : List Char} (cx : Ctx) (T : Token) (hT : T ∈ (tokenizeLoop inp cx init).2)
    (h : T.tok.type = .eof) : T.tok.flags.discard = false := by
  cases hd : T.tok.flags.discard with
  | false => rfl
  | true =>
    have := (discard_backslash cx T hT hd).1
    rw [h] at this
    cases this

theorem last_kept {inp : List Char} (cx : Ctx) : ∃ l T, (tokenizeLoop inp cx init).2 = l ++ [T] ∧
    T.tok.flags.discard = false := by
  obtain ⟨l, T, h1, h2, _⟩ := Lexer.one_eof_token inp cx
  exact ⟨l, T, h1, eof_kept cx T (by rw [h1]; simp) h2⟩

theorem lexed_tok (inp : List Char) (cx : Ctx) : (lexed inp cx).map (·.tok) =
    ((tokenizeLoop inp cx init).2.filter fun T => !T.tok.flags.discard).map (·.tok) := by
  obtain ⟨l, T, h1, h2⟩ := last_kept (inp := inp) cx
  exact (removeDiscarded_tok _ l T h1 h2).1

theorem lexed_comments (inp : List Char) (cx : Ctx) : (lexed inp cx).flatMap comments =
    (tokenizeLoop inp cx init).2.flatMap comments := by
  obtain ⟨l, T, h1, h2⟩ := last_kept (inp := inp) cx
  exact removeDiscarded_comments _ l T h1 h2 (discard_suffixes cx init (Lexer.init_inv inp))

theorem lexed_source (inp : List Char) (cx : Ctx) : Source inp (lexed inp cx) := by
  have hs := source inp cx
  have hm := removeDiscarded_mem (tokenizeLoop inp cx init).2
  refine ⟨?_, ?_, ?_, ?_⟩
  · obtain ⟨l, T, h1, h2, h3⟩ := hs.last
    have ht := lexed_tok inp cx
    rw [h1, List.filter_append, List.map_append] at ht
    have hk := eof_kept cx T (by rw [h1]; simp) h2
    rw [show [T].filter (fun T => !T.tok.flags.discard) = [T] by simp [hk]] at ht
    obtain ⟨a, b, e1, e2, e3⟩ := List.map_eq_append_iff.1 ht
    obtain ⟨U, c, rfl, e4, e5⟩ := List.map_eq_cons_iff.1 e3
    have := List.map_eq_nil_iff.1 e5
    subst this
    refine ⟨a, U, e1, by rw [e4]; exact h2, ?_⟩
    intro V hV
    have := List.mem_map_of_mem (f := fun T : Token => T.tok) hV
    rw [e2] at this
    obtain ⟨W, hW, e⟩ := List.mem_map.1 this
    rw [← e]
    exact h3 W (List.mem_filter.1 hW).1
  · intro T hT t ht
    obtain ⟨⟨U, hU, e1, e2⟩, _⟩ := hm T hT
    exact hs.att U hU t (e2 ▸ ht)
  · intro T hT t ht
    obtain ⟨U, hU, h⟩ := (hm T hT).2 t ht
    exact hs.pre U hU t h
  · intro T hT he t ht
    obtain ⟨⟨U, hU, e1, e2⟩, _⟩ := hm T hT
    exact hs.eof U hU (e1 ▸ he) t (e2 ▸ ht)

/-! ## The end of the file -/

/-- Nothing is lost if the token for the end of the file is not printed, unless it holds text. -/
theorem printed_all {inp : List Char} {ts : List Token} {out : List Parse.Tok} (hs : Source inp ts)
    (ho : out.filterMap (fun t => ts[t.id]?) = ts.dropLast)
    (he : ∀ T, ts.getLast? = some T → text inp T.tok = []) :
    (∀ T ∈ printed ts out, T ∈ ts) ∧
    ((printed ts out).map fun T => text inp T.tok).flatMap shown =
      (ts.map fun T => text inp T.tok).flatMap shown ∧
    (printed ts out).flatMap comments = ts.flatMap comments := by
  obtain ⟨l, T, h1, h2, _⟩ := hs.last
  have hl : ts.getLast? = some T := by rw [h1]; simp
  have hd : ts.dropLast = l := by rw [h1]; simp
  have ht := he T hl
  unfold printed
  rw [ho, hd, hl]
  simp only
  split
  · next hp =>
    refine ⟨?_, ?_, ?_⟩
    · intro U hU
      rw [h1]; simp at hU ⊢; exact Or.inl hU
    · rw [h1, List.map_append, List.flatMap_append]
      simp [ht, shown]
    · rw [h1, List.flatMap_append]
      have : comments T = [] := by
        unfold comments
        rw [hp, List.nil_append, List.filter_eq_nil_iff]
        intro t htm
        simpa using hs.eof T (by rw [h1]; simp) h2 t htm
      simp [this]
  · rw [← h1]
    exact ⟨fun U hU => hU, rfl, rfl⟩

/-! ## The whole -/

/-- C73: a file that is accepted is printed with all its tokens in order and all its comments and
directives, and nothing but white space otherwise. Backslashes that are not part of a directive, a comment
or a literal are left out. -/
theorem format_keeps_tokens_partial (inp : List Char) (cx : Ctx) (E : Parse.Env) (fuel : Nat)
    (out : List Parse.Tok) (gl : Bool) (d : Doc) (env : Env) (trim : Bool)
    (hm : ∀ t ∈ piecesOf inp cx, t.flags.cfOn = false ∧ t.flags.cfOff = false)
    (hn : NoRedundant (lexed inp cx).dropLast)
    (he : ∀ T, (lexed inp cx).getLast? = some T → text inp T.tok = [])
    (hp : Parse.parserExec E fuel (parseToks inp (lexed inp cx)) = some (out, { glued := gl }))
    (hd : Document (Arranged inp) inp (tokenizeLoop inp cx init).1 (printed (lexed inp cx) out) d)
    (hv : env.diff = none) (hu : (docExec env trim [] d).ub = false) :
    Consists (docExec env trim [] d).buf.reverse
      ((((tokenizeLoop inp cx init).2.filter fun T => !T.tok.flags.discard).map
        fun T => text inp T.tok).flatMap shown)
      (((tokenizeLoop inp cx init).2.flatMap comments).flatMap fun t => shown (text inp t)) := by
  have hs := lexed_source inp cx
  have hmm : ∀ T ∈ lexed inp cx, ∀ t ∈ T.prefixes ++ T.suffixes,
      t.flags.cfOn = false ∧ t.flags.cfOff = false := by
    intro T hT t ht
    obtain ⟨⟨U, hU, e1, e2⟩, h2⟩ := removeDiscarded_mem _ T hT
    refine hm t ?_
    unfold piecesOf Lexer.allPieces
    rw [List.mem_flatMap]
    rcases List.mem_append.1 ht with h | h
    · obtain ⟨V, hV, h⟩ := h2 t h
      exact ⟨V, hV, by simp [Lexer.Token.pieces, h]⟩
    · exact ⟨U, hU, by rw [e2] at h; simp [Lexer.Token.pieces, h]⟩
  rw [← lexed_comments inp cx]
  have htoks : ((tokenizeLoop inp cx init).2.filter fun T => !T.tok.flags.discard).map
      (fun T => text inp T.tok) = (lexed inp cx).map fun T => text inp T.tok := by
    have := congrArg (List.map (text inp)) (lexed_tok inp cx)
    simp only [List.map_map] at this
    exact this.symm
  rw [htoks]
  have hall := parse_all (by
    obtain ⟨l, T, h1, _, h3⟩ := hs.last
    rw [h1]; simpa using h3) hn hp
  obtain ⟨l, hb, hsil, ha1, ha2, ha3⟩ := hd
  obtain ⟨hq1, hq2, hq3⟩ := printed_all hs hall he
  rw [hq3] at ha2
  -- comments of the tokens added are comments of the source
  have hcom : ∀ T ∈ tokensOf l, ∀ t ∈ T.prefixes ++ T.suffixes, t.type ≠ .space →
      ∃ U ∈ lexed inp cx, t ∈ U.prefixes ++ U.suffixes := by
    intro T hT t ht hne
    have : t ∈ (tokensOf l).flatMap comments := by
      rw [List.mem_flatMap]
      exact ⟨T, hT, by unfold comments; rw [List.mem_filter]; exact ⟨ht, by simpa using hne⟩⟩
    have := ha2.mem_iff.1 this
    rw [List.mem_flatMap] at this
    obtain ⟨U, hU, hc⟩ := this
    exact ⟨U, hU, (List.mem_filter.1 hc).1⟩
  have hplain : Plain (tokensOf l) := by
    intro T hT t ht
    obtain ⟨U, hU, h⟩ := hcom T hT t (by simp [ht]) ((ha3 T hT).1 t ht)
    exact hmm U hU t h
  have hflags : ∀ T ∈ tokensOf l, ∀ t ∈ T.suffixes, t.type ≠ .space →
      t.flags.discard = false ∧ t.flags.optline = false := by
    intro T hT t ht hne
    obtain ⟨U, hU, h⟩ := hcom T hT t (by simp [ht]) hne
    rcases List.mem_append.1 h with h | h
    · exact (hs.pre U hU t h).2
    · rcases hs.att U hU t h with h | h
      · exact h.2
      · exact absurd h.1 hne
  obtain ⟨k, hr⟩ := trim_renders (trim := trim) hv hu
  rw [visible_document hb hsil hplain] at hr
  refine ⟨_, k, hr, ?_, ?_⟩
  · have h1 := flatMap_filter_fst true shown (l.flatMap (actTexts inp))
    simp only [beq_true] at h1
    rw [h1, ← hq2]
    have h2 := congrArg (List.flatMap shown) (marked_texts inp l)
    rw [List.flatMap_map] at h2
    rw [h2]
    have := congrArg (List.map (text inp)) ha1
    simp only [List.map_map] at this
    exact congrArg (List.flatMap shown) this
  · have h1 := flatMap_filter_fst false shown (l.flatMap (actTexts inp))
    simp only [beq_false] at h1
    rw [h1, unmarked_texts inp l hsil (fun T hT => (ha3 T hT).1) hflags (fun T hT => (ha3 T hT).2)]
    have : ((tokensOf l).flatMap fun T => (comments T).flatMap fun t => shown (text inp t)) =
        ((tokensOf l).flatMap comments).flatMap fun t => shown (text inp t) := by
      rw [List.flatMap_assoc]
    rw [this]
    exact ha2.flatMap_right _

/-! ## Nothing moves -/

open Knfmt.Spec (nonblank blank)
open Knfmt.Lexer (nonblank_append)

/-- A token with all that is attached to it but white space. -/
def core (T : Token) : List Lexer.Tok :=
  T.prefixes ++ T.tok :: T.suffixes.filter fun t => decide (t.type ≠ .space)

theorem blank_of_space {c : Char} (h : space c = true) : blank c = true := by
  simp only [space, Bool.or_eq_true, decide_eq_true_eq] at h
  rcases h with (h | h) | h <;> subst h <;> decide

theorem nonblank_space {s : List Char} (h : ∀ c ∈ s, space c = true) : nonblank s = [] :=
  Lexer.nonblank_blank s fun c hc => blank_of_space (h c hc)

theorem renders_nonblank : ∀ {ps : List (List Char)} {x : List Char}, Renders ps x →
    nonblank x = nonblank ps.flatten
  | [], x, h => by rw [nonblank_space h]; rfl
  | p :: ps, x, h => by
    obtain ⟨w, rest, rfl, hw, hr⟩ := h
    rw [List.flatten_cons, nonblank_append, nonblank_append, nonblank_append, nonblank_space hw,
      renders_nonblank hr, List.nil_append]

theorem rtrim_nonblank (s : List Char) : nonblank (rtrim s) = nonblank s := by
  obtain ⟨w, h1, h2, _⟩ := Doc.rtrim_spec s
  have h3 : s = rtrim s ++ w.reverse := by
    have := congrArg List.reverse h1
    simpa using this
  conv => rhs; rw [h3]
  rw [nonblank_append, Lexer.nonblank_blank w.reverse, List.append_nil]
  intro c hc
  have := h2 c (by simpa using hc)
  refine blank_of_space ?_
  simp only [Doc.blank, decide_eq_true_eq, Bool.or_eq_true] at this
  rcases this with h | h <;> subst h <;> decide

theorem shown_nonblank (s : List Char) : nonblank (shown s).flatten = nonblank s := by
  unfold shown
  split
  · simp [rtrim_nonblank]
  · next h =>
    rw [nonblank_space (s := s)]
    · rfl
    · intro c hc
      cases hs : space c with
      | true => rfl
      | false => exact absurd ⟨c, hc, hs⟩ h

theorem flatMap_shown_nonblank (ps : List (Bool × List Char)) :
    nonblank (((ps.flatMap fun p => (shown p.2).map fun s => (p.1, s)).map (·.2)).flatten) =
      nonblank (ps.flatMap (·.2)) := by
  induction ps with
  | nil => rfl
  | cons p ps ih =>
    rw [List.flatMap_cons, List.map_append, List.flatten_append, nonblank_append, ih, List.flatMap_cons,
      nonblank_append]
    congr 1
    rw [← shown_nonblank p.2]
    congr 2
    rw [List.map_map]
    exact List.map_id _

/-- What the texts of one step add. -/
theorem actTexts_nonblank (inp : List Char) (l : List Act) (ho : ∀ e, Act.other e ∈ l → Silent e)
    (h1 : ∀ T ∈ tokensOf l, ∀ t ∈ T.suffixes, t.type ≠ .space →
      t.flags.discard = false ∧ t.flags.optline = false)
    (h2 : ∀ T ∈ tokensOf l, ∀ t ∈ T.suffixes, t.type = .space → Space inp t) :
    nonblank ((l.flatMap (actTexts inp)).flatMap (·.2)) =
      nonblank ((tokensOf l).flatMap fun T => (core T).flatMap (text inp)) := by
  induction l with
  | nil => rfl
  | cons a l ih =>
    rw [List.flatMap_cons, List.flatMap_append, nonblank_append]
    cases a with
    | token T =>
      rw [ih (fun e he => ho e (by simp [he])) (fun U hU => h1 U (by simp [tokensOf, hU]))
        (fun U hU => h2 U (by simp [tokensOf, hU]))]
      simp only [tokensOf, List.flatMap_cons, nonblank_append]
      congr 1
      have f : ∀ ts : List Lexer.Tok, (ts.map fun t => (false, text inp t)).flatMap (·.2) =
          ts.flatMap (text inp) := by
        intro ts; rw [List.flatMap_map]
      simp only [actTexts, core, List.flatMap_append, List.flatMap_cons, f, nonblank_append]
      congr 2
      have h1 := h1 T (by simp [tokensOf])
      have h2 := h2 T (by simp [tokensOf])
      generalize T.suffixes = ts at h1 h2
      induction ts with
      | nil => rfl
      | cons t ts ih =>
        have ih := ih (fun t ht => h1 t (by simp [ht])) (fun t ht => h2 t (by simp [ht]))
        by_cases hs : t.type = .space
        · have hr : (t :: ts).filter (fun t => decide (t.type ≠ .space)) =
              ts.filter (fun t => decide (t.type ≠ .space)) := by simp [hs]
          rw [hr, ← ih, List.filter_cons]
          split
          · next hf =>
            simp only [Bool.and_eq_true, Bool.not_eq_true'] at hf
            have : ∀ c ∈ text inp t, space c = true := by
              rcases h2 t (by simp) hs with h | h | h
              · rw [hf.1] at h; cases h
              · rw [hf.2] at h; cases h
              · exact h
            rw [List.flatMap_cons, nonblank_append, nonblank_space this, List.nil_append]
          · rfl
        · obtain ⟨h3, h4⟩ := h1 t (by simp) hs
          rw [List.filter_cons, if_pos (by simp [h3, h4]), List.filter_cons, if_pos (by simpa using hs),
            List.flatMap_cons, List.flatMap_cons, nonblank_append, nonblank_append, ih]
    | other d =>
      rw [ih (fun e he => ho e (by simp [he])) h1 h2]
      have : nonblank ((actTexts inp (.other d)).flatMap (·.2)) = [] := by
        refine nonblank_space ?_
        intro c hc
        obtain ⟨p, hp, hc⟩ := List.mem_flatMap.1 hc
        obtain ⟨e, he, hx⟩ := List.mem_filterMap.1 hp
        obtain ⟨s, rfl, hs⟩ := ho d (by simp) e he
        simp at hx
        subst hx
        exact hs c hc
      rw [this]; rfl

theorem inPlace_core {inp : List Char} {es ts : List Token} (h : InPlace inp es ts) :
    es.flatMap core = ts.flatMap core := by
  have := congrArg (List.flatMap fun p : List Lexer.Tok × Lexer.Tok × List Lexer.Tok => p.1 ++ p.2.1 :: p.2.2) h.1
  rw [List.flatMap_map, List.flatMap_map] at this
  exact this

theorem removeDiscarded_core (ts : List Token) (l : List Token) (T : Token) (h : ts = l ++ [T])
    (hT : T.tok.flags.discard = false) :
    (removeDiscarded ts).flatMap core =
      ts.flatMap fun T => if T.tok.flags.discard then T.prefixes else core T := by
  induction l generalizing ts with
  | nil => subst h; simp [removeDiscarded, hT]
  | cons U l ih =>
    subst h
    have h1 := ih _ rfl
    have h2 := (removeDiscarded_tok _ l T rfl hT).2
    rw [List.cons_append, removeDiscarded, List.flatMap_cons]
    split
    · next hd =>
      split
      · next he => exact absurd he h2
      · next V vs he =>
        rw [he] at h1
        rw [List.flatMap_cons, ← h1, List.flatMap_cons]
        simp [core]
    · rw [List.flatMap_cons, h1]

/-- The texts of a file without its white space, piece by piece. -/
theorem core_pieces {inp : List Char} (ts : List Token) (hs : ∀ T ∈ ts, ∀ t ∈ T.suffixes, Att inp t)
    (hd : ∀ T ∈ ts, T.tok.flags.discard = false) :
    nonblank ((ts.flatMap fun T => if T.tok.flags.discard then T.prefixes else core T).flatMap (text inp)) =
      nonblank ((Lexer.allPieces ts).flatMap (text inp)) := by
  induction ts with
  | nil => rfl
  | cons T ts ih =>
    rw [Lexer.allPieces, List.flatMap_cons, List.flatMap_cons, List.flatMap_append, List.flatMap_append,
      nonblank_append, nonblank_append, ih (fun U hU => hs U (by simp [hU])) (fun U hU => hd U (by simp [hU])),
      hd T (by simp), ← Lexer.allPieces]
    congr 1
    simp only [Bool.false_eq_true, if_false, core, Lexer.Token.pieces, List.flatMap_append,
      List.flatMap_cons, nonblank_append]
    congr 2
    have hs := hs T (by simp)
    generalize T.suffixes = ss at hs
    induction ss with
    | nil => rfl
    | cons t ss ih =>
      have ih := ih (fun t ht => hs t (by simp [ht]))
      rcases hs t (by simp) with h | h
      · rw [List.filter_cons, if_pos (by simpa using h.1), List.flatMap_cons, List.flatMap_cons,
          nonblank_append, nonblank_append, ih]
      · rw [List.filter_cons, if_neg (by simpa using h.1), List.flatMap_cons, nonblank_append, ← ih,
          Lexer.nonblank_blank (text inp t) h.2.1, List.nil_append]

/-- C73, as long as no comment is moved: the output has the characters of the source in the same order,
except for white space. -/
theorem format_text_partial (inp : List Char) (cx : Ctx) (E : Parse.Env) (fuel : Nat)
    (out : List Parse.Tok) (gl : Bool) (d : Doc) (env : Env) (trim : Bool)
    (hj : ∀ t ∈ piecesOf inp cx, JoinOk t)
    (ha : ∀ x x', cx.align x = some x' → nonblank x' = nonblank x)
    (hm : ∀ t ∈ piecesOf inp cx, t.flags.cfOn = false ∧ t.flags.cfOff = false)
    (hb : ∀ T ∈ (tokenizeLoop inp cx init).2, T.tok.type ≠ .backslash)
    (hn : NoRedundant (lexed inp cx).dropLast)
    (he : ∀ T, (lexed inp cx).getLast? = some T → text inp T.tok = [])
    (hp : Parse.parserExec E fuel (parseToks inp (lexed inp cx)) = some (out, { glued := gl }))
    (hd : Document (InPlace inp) inp (tokenizeLoop inp cx init).1 (printed (lexed inp cx) out) d)
    (hv : env.diff = none) (hu : (docExec env trim [] d).ub = false) :
    nonblank (docExec env trim [] d).buf.reverse = nonblank inp := by
  have hs := lexed_source inp cx
  have hdis : ∀ T ∈ (tokenizeLoop inp cx init).2, T.tok.flags.discard = false := by
    intro T hT
    cases h : T.tok.flags.discard with
    | false => rfl
    | true => exact absurd (discard_backslash cx T hT h).1 (hb T hT)
  have hmm : ∀ T ∈ lexed inp cx, ∀ t ∈ T.prefixes ++ T.suffixes,
      t.flags.cfOn = false ∧ t.flags.cfOff = false := by
    intro T hT t ht
    obtain ⟨⟨U, hU, e1, e2⟩, h2⟩ := removeDiscarded_mem _ T hT
    refine hm t ?_
    unfold piecesOf Lexer.allPieces
    rw [List.mem_flatMap]
    rcases List.mem_append.1 ht with h | h
    · obtain ⟨V, hV, h⟩ := h2 t h
      exact ⟨V, hV, by simp [Lexer.Token.pieces, h]⟩
    · exact ⟨U, hU, by rw [e2] at h; simp [Lexer.Token.pieces, h]⟩
  have hall := parse_all (by
    obtain ⟨l, T, h1, _, h3⟩ := hs.last
    rw [h1]; simpa using h3) hn hp
  obtain ⟨l, hbu, hsil, hpl⟩ := hd
  obtain ⟨hq1, -, -⟩ := printed_all hs hall he
  have hmem : ∀ T ∈ tokensOf l, ∃ U ∈ lexed inp cx, T.prefixes = U.prefixes ∧
      ∀ t ∈ T.suffixes, t.type ≠ .space → t ∈ U.suffixes := by
    intro T hT
    have := List.mem_map_of_mem
      (f := fun T : Token => (T.prefixes, T.tok, T.suffixes.filter fun t => decide (t.type ≠ .space))) hT
    rw [hpl.1] at this
    obtain ⟨U, hU, e⟩ := List.mem_map.1 this
    simp only [Prod.mk.injEq] at e
    refine ⟨U, hq1 U hU, e.1.symm, ?_⟩
    intro t ht hne
    have : t ∈ T.suffixes.filter fun t => decide (t.type ≠ .space) := by
      rw [List.mem_filter]; exact ⟨ht, by simpa using hne⟩
    rw [← e.2.2] at this
    exact (List.mem_filter.1 this).1
  have hplain : Plain (tokensOf l) := by
    intro T hT t ht
    obtain ⟨U, hU, e, _⟩ := hmem T hT
    exact hmm U hU t (by rw [e] at ht; simp [ht])
  have hflags : ∀ T ∈ tokensOf l, ∀ t ∈ T.suffixes, t.type ≠ .space →
      t.flags.discard = false ∧ t.flags.optline = false := by
    intro T hT t ht hne
    obtain ⟨U, hU, _, h⟩ := hmem T hT
    rcases hs.att U hU t (h t ht hne) with h | h
    · exact h.2
    · exact absurd h.1 hne
  obtain ⟨k, hr⟩ := trim_renders (trim := trim) hv hu
  rw [visible_document hbu hsil hplain] at hr
  have h1 := renders_nonblank hr
  rw [flatMap_shown_nonblank, actTexts_nonblank inp l hsil hflags (fun T hT => (hpl.2 T hT).2),
    nonblank_append, nonblank_space (s := List.replicate k '\n') (by simp [space]), List.append_nil] at h1
  rw [h1, ← Lexer.tokenize_nonblank_partial inp cx hj ha]
  have h2 : ((tokensOf l).flatMap fun T => (core T).flatMap (text inp)) =
      ((tokensOf l).flatMap core).flatMap (text inp) := by rw [List.flatMap_assoc]
  rw [h2, inPlace_core hpl]
  have h3 := core_pieces (inp := inp) _ (source inp cx).att hdis
  unfold piecesOf
  refine Eq.trans ?_ h3
  obtain ⟨l0, T0, e1, e2⟩ := last_kept (inp := inp) cx
  rw [← removeDiscarded_core _ l0 T0 e1 e2]
  change nonblank (((printed (lexed inp cx) out).flatMap core).flatMap (text inp)) =
    nonblank (((lexed inp cx).flatMap core).flatMap (text inp))
  -- the token for the end of the file
  obtain ⟨l1, T, h4, h5, _⟩ := hs.last
  have hl : (lexed inp cx).getLast? = some T := by rw [h4]; simp
  have hdr : (lexed inp cx).dropLast = l1 := by rw [h4]; simp
  have ht := he T hl
  unfold printed
  rw [hall, hdr, hl]
  simp only
  split
  · next hpre =>
    rw [h4, List.flatMap_append, List.flatMap_append, List.flatMap_append, List.flatMap_append,
      nonblank_append, nonblank_append]
    congr 1
    have : T.suffixes.filter (fun t => decide (t.type ≠ .space)) = [] := by
      rw [List.filter_eq_nil_iff]
      intro t htm
      simpa using hs.eof T (by rw [h4]; simp) h5 t htm
    simp only [List.flatMap_nil, List.flatMap_cons, core, hpre, this, ht, List.nil_append, List.append_nil]
  · rw [← h4]

/-! ## The claims apply -/

open Knfmt.Parser (plainCtx)

/-- A parser that starts a line after each `;`, `{` and `}` and adds a blank after all other tokens. -/
def lineActs : List Token → List Act
  | [] => []
  | T :: ts =>
    .token T :: (if T.tok.type = .eof then lineActs ts
      else if T.tok.type = .semi ∨ T.tok.type = .lbrace ∨ T.tok.type = .rbrace then
        .other .hardline :: lineActs ts
      else .other (.literal [' '] none) :: lineActs ts)

/-- Its document. -/
def lineDoc (inp : List Char) (ts : List Token) : Doc :=
  Doc.concat (Parser.parserExec inp (tokenizeLoop inp plainCtx init).1 (lineActs ts)).1

theorem events_concat (ds : List Doc) : events (Doc.concat ds) = ds.flatMap events := by
  induction ds with
  | nil => rfl
  | cons d ds ih => rw [List.flatMap_cons, ← ih]; rfl

theorem lineActs_tokens (ts : List Token) : tokensOf (lineActs ts) = ts := by
  induction ts with
  | nil => rfl
  | cons T ts ih =>
    rw [lineActs, tokensOf]
    congr 1
    split
    · exact ih
    · split <;> exact ih

theorem lineActs_silent (ts : List Token) : ∀ e, Act.other e ∈ lineActs ts → Silent e := by
  induction ts with
  | nil => intro e h; simp [lineActs] at h
  | cons T ts ih =>
    intro e h
    rw [lineActs] at h
    simp only [List.mem_cons, reduceCtorEq, false_or] at h
    split at h
    · exact ih e h
    · split at h
      · rcases List.mem_cons.1 h with h | h
        · cases h
          intro x hx
          simp [events] at hx
        · exact ih e h
      · rcases List.mem_cons.1 h with h | h
        · cases h
          intro x hx
          simp only [events, List.mem_singleton] at hx
          exact ⟨_, hx, by decide⟩
        · exact ih e h

/-- White space read by the lexer is not printed, or as white space. -/
theorem source_spaced {inp : List Char} {ts es : List Token} (hs : Source inp ts) (h : ∀ T ∈ es, T ∈ ts) :
    Spaced inp es := by
  intro T hT
  refine ⟨fun t ht => (hs.pre T (h T hT) t ht).1, ?_⟩
  intro t ht hsp
  rcases hs.att T (h T hT) t ht with h1 | h1
  · exact absurd hsp h1.1
  · rcases h1.2.2 with h2 | h2
    · exact Or.inl h2
    · refine Or.inr (Or.inr ?_)
      intro c hc
      simp [text, h2, Lexer.Str.text] at hc
      subst hc; decide

/-- There are such documents for all files. -/
theorem lineDoc_document (inp : List Char) (ts : List Token) (h : ∀ T ∈ ts, T ∈ lexed inp plainCtx) :
    Document (InPlace inp) inp (tokenizeLoop inp plainCtx init).1 ts (lineDoc inp ts) ∧
    Document (Arranged inp) inp (tokenizeLoop inp plainCtx init).1 ts (lineDoc inp ts) := by
  have hsp := source_spaced (lexed_source inp plainCtx) h
  refine ⟨⟨lineActs ts, events_concat _, lineActs_silent ts, ?_⟩,
    ⟨lineActs ts, events_concat _, lineActs_silent ts, ?_⟩⟩
  · rw [lineActs_tokens]; exact ⟨rfl, hsp⟩
  · rw [lineActs_tokens]; exact ⟨rfl, List.Perm.refl _, hsp⟩

/-- A test for `NoRedundant`. -/
def noRedundant : List Token → Bool
  | T :: U :: ts =>
    !(decide (T.tok.type = .semi ∨ T.tok.type = .rbrace) && decide (U.tok.type = .semi)) &&
      noRedundant (U :: ts)
  | _ => true

theorem noRedundant_sound : ∀ {ts : List Token}, noRedundant ts = true → NoRedundant ts := by
  intro ts h x
  induction x generalizing ts with
  | nil =>
    intro y T U e
    subst e
    intro h1 h2
    simp [noRedundant, h1, h2] at h
  | cons V x ih =>
    intro y T U e
    subst e
    refine ih (ts := x ++ T :: U :: y) ?_ y T U rfl
    cases x with
    | nil => simp only [List.cons_append, List.nil_append, noRedundant, Bool.and_eq_true] at h ⊢; exact h.2
    | cons W x => simp only [List.cons_append, noRedundant, Bool.and_eq_true] at h ⊢; exact h.2

/-- The tokens printed. -/
def accepted (inp : List Char) : Option (List Token) :=
  (Parse.parserExec Parse.envNo 60 (parseToks inp (lexed inp plainCtx))).bind fun r =>
    if r.2 = {} then some (printed (lexed inp plainCtx) r.1) else none

/-- The output. -/
def output (inp : List Char) : Option (List Char) :=
  (accepted inp).map fun ts => (docExec { limit := 80 } true [] (lineDoc inp ts)).buf.reverse

/-- A function with comments and a directive. -/
def exSource : List Char :=
  "#define A 1\n/* f */\nint f ( int a )\n{ return a+A ; // a\n}\n/* end */\n".toList

set_option maxRecDepth 100000 in
example : output exSource =
    some "#define A 1\n/* f */\nint f ( int a ) {\nreturn a + A ; // a\n}\n/* end */\n".toList := by
  decide +kernel


set_option maxRecDepth 100000 in
/-- The hypotheses of `format_text_partial` and `format_keeps_tokens_partial` are met. -/
example : ∃ out : List Parse.Tok,
    (∀ t ∈ piecesOf exSource plainCtx, JoinOk t) ∧
    (∀ x x', plainCtx.align x = some x' → nonblank x' = nonblank x) ∧
    (∀ t ∈ piecesOf exSource plainCtx, t.flags.cfOn = false ∧ t.flags.cfOff = false) ∧
    (∀ T ∈ (tokenizeLoop exSource plainCtx init).2, T.tok.type ≠ .backslash) ∧
    NoRedundant (lexed exSource plainCtx).dropLast ∧
    (∀ T, (lexed exSource plainCtx).getLast? = some T → text exSource T.tok = []) ∧
    Parse.parserExec Parse.envNo 60 (parseToks exSource (lexed exSource plainCtx)) = some (out, {}) ∧
    Document (InPlace exSource) exSource (tokenizeLoop exSource plainCtx init).1
      (printed (lexed exSource plainCtx) out) (lineDoc exSource (printed (lexed exSource plainCtx) out)) ∧
    (docExec { limit := 80 } true [] (lineDoc exSource (printed (lexed exSource plainCtx) out))).ub = false := by
  have h : ((Parse.parserExec Parse.envNo 60 (parseToks exSource (lexed exSource plainCtx))).any fun r =>
      decide (r.2 = {}) && decide ((docExec { limit := 80 } true []
        (lineDoc exSource (printed (lexed exSource plainCtx) r.1))).ub = false)) = true := by
    decide +kernel
  cases e : Parse.parserExec Parse.envNo 60 (parseToks exSource (lexed exSource plainCtx)) with
  | none => rw [e] at h; cases h
  | some r =>
    rw [e] at h
    simp only [Option.any_some, Bool.and_eq_true, decide_eq_true_eq] at h
    have hn : NoRedundant (lexed exSource plainCtx).dropLast := noRedundant_sound (by decide +kernel)
    have he : ∀ T, (lexed exSource plainCtx).getLast? = some T → text exSource T.tok = [] := by
      have : ((lexed exSource plainCtx).getLast?.all fun T => decide (text exSource T.tok = [])) = true := by
        decide +kernel
      intro T hT
      rw [hT] at this
      exact of_decide_eq_true this
    have hr : r = (r.1, {}) := by rw [← h.1]
    refine ⟨r.1, ?_, ?_, ?_, ?_, hn, he, by rw [hr], ?_, h.2⟩
    · unfold JoinOk; decide +kernel
    · intro x x' hx; cases hx
    · decide +kernel
    · decide +kernel
    · have hs := lexed_source exSource plainCtx
      have hall := parse_all (inp := exSource) (E := Parse.envNo) (fuel := 60) (out := r.1) (by
        obtain ⟨l, T, h1, _, h3⟩ := hs.last
        rw [h1]; simpa using h3) hn (by rw [e, hr])
      exact (lineDoc_document exSource _ (printed_all hs hall he).1).1

/-! ## The conditions are needed -/

set_option maxRecDepth 100000 in
/-- Finding: a string that is not terminated, and everything after it, is lost without an error. -/
theorem format_loses_end :
    output "int x;\n\"abc);\nint y;\n".toList = some "int x ;\n".toList ∧
    (∀ T, (lexed "int x;\n\"abc);\nint y;\n".toList plainCtx).getLast? = some T →
      text "int x;\n\"abc);\nint y;\n".toList T.tok = "\"abc);\nint y;\n".toList) := by
  constructor
  · decide +kernel
  · have : ((lexed "int x;\n\"abc);\nint y;\n".toList plainCtx).getLast?.all fun T =>
        decide (text "int x;\n\"abc);\nint y;\n".toList T.tok = "\"abc);\nint y;\n".toList)) = true := by
      decide +kernel
    intro T hT
    rw [hT] at this
    exact of_decide_eq_true this

set_option maxRecDepth 100000 in
/-- Finding: so is a byte at the end of the file that is no part of any token. -/
theorem format_loses_byte : output "int x;\n@".toList = some "int x ;\n".toList := by
  decide +kernel

set_option maxRecDepth 100000 in
/-- It is not lost if there is a comment in front of it. -/
example : output "int x;\n/* c */\n@".toList = some "int x ;\n/* c */\n@".toList := by
  decide +kernel

set_option maxRecDepth 100000 in
/-- Backslashes between tokens are removed. -/
theorem format_drops_backslash : output "int \\\nx;\n".toList = some "int x ;\n".toList := by
  decide +kernel

set_option maxRecDepth 100000 in
/-- Finding: a comment between two semicolons on a line is lost, see `Verif.Stream.Semi`. -/
theorem format_loses_comment :
    output "int f(void) { x = 1; /* c */; }\n".toList = some "int f ( void ) {\nx = 1 ;\n}\n".toList := by
  decide +kernel

end Knfmt.Whole
