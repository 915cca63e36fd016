import Verif.Stream.Edit
/-!
# Redundant semicolons, parser.c:365-392 and parser-decl.c:252-260 (C74)

Branches, which `lexer_pop` may take instead of a token, are not followed.
-/
namespace Knfmt.Spec

open Knfmt.Stream Knfmt.Lexer

/-- What is attached to one token. -/
def around (t : Node) : List Fix := t.prefixes ++ t.suffixes

/-- A token without what is attached to it. -/
def bare (t : Node) : Nat × TT × Flags × Nat := (t.id, t.type, t.flags, t.lno)

end Knfmt.Spec

namespace Knfmt.Stream

open Knfmt.Lexer (TT Flags)
open Knfmt.Spec (attached comments around bare)

/-- The first loop of `parser_semi`, parser.c:380-384: the number of semicolons that follow on the line of
`semi`. -/
def semisAfter (semi : Node) : List Node → Nat
  | [] => 0
  | t :: ts => if t.type = .semi ∧ semi.lno = t.lno then semisAfter semi ts + 1 else 0

/-- The second loop, parser.c:386-389, in which `n` semicolons after the one at position `k` are removed.
The position of the lexer is that of the token at `k` whenever the loop starts over. -/
def dropSemis (ts : List Node) (k : Nat) : Nat → Option (List Node)
  | 0 => some ts
  | n + 1 =>
    match ts[k + 1]? with
    | none => none
    | some semi =>
      match remove ts (some semi.id) (k + 1) with
      | none => none
      | some (ts, _) => dropSemis ts k n

/-- `parser_semi`, parser.c:365-392, at a semicolon at position `k`: the tokens afterwards and the position
of the one which is emitted. -/
def parserSemi (ts : List Node) (k : Nat) : Option (List Node × Nat) :=
  match ts[k]? with
  | none => none
  | some semi =>
    if semi.type ≠ .semi then none
    else
      match semisAfter semi (ts.drop (k + 1)) with
      | 0 => some (ts, k)
      | n + 1 => (dropSemis ts k n).map fun ts => (ts, k + 1)

/-- `while (lexer_if(lx, TOKEN_SEMI, &nx)) lexer_remove(lx, nx)`, parser-decl.c:256-257, after the semicolon
at position `k`. The first argument bounds the number of rounds. -/
def trimSemis : Nat → List Node → Nat → Option (List Node)
  | 0, _, _ => none
  | fuel + 1, ts, k =>
    match ts[k + 1]? with
    | none => some ts
    | some nx =>
      if nx.type ≠ .semi then some ts
      else
        match remove ts (some nx.id) (k + 1) with
        | none => none
        | some (ts, _) => trimSemis fuel ts k

theorem semisAfter_le (semi : Node) (ts : List Node) : semisAfter semi ts ≤ ts.length := by
  induction ts with
  | nil => simp [semisAfter]
  | cons t ts ih => rw [semisAfter]; split <;> simp <;> omega

theorem semisAfter_eq (semi : Node) (mid post : List Node) (hm : ∀ t ∈ mid, t.type = .semi ∧ t.lno = semi.lno)
    (hp : ∀ t, post.head? = some t → ¬ (t.type = .semi ∧ t.lno = semi.lno)) :
    semisAfter semi (mid ++ post) = mid.length := by
  induction mid with
  | nil =>
    cases post with
    | nil => rfl
    | cons t post =>
      have := hp t rfl
      rw [List.nil_append, semisAfter, if_neg (fun h => this ⟨h.1, h.2.symm⟩)]; rfl
  | cons t mid ih =>
    have := hm t (by simp)
    rw [List.cons_append, semisAfter, if_pos ⟨this.1, this.2.symm⟩, ih fun t ht => hm t (by simp [ht])]
    rfl

theorem dropSemis_eq (pre : List Node) (semi : Node) (mid post : List Node) (last : Node)
    (hm : ∀ t ∈ mid, t.type = .semi) :
    dropSemis (pre ++ semi :: (mid ++ last :: post)) pre.length mid.length =
      some (pre ++ { semi with suffixes := semi.suffixes ++ mid.flatMap (·.suffixes) } ::
        { last with prefixes := mid.flatMap (·.prefixes) ++ last.prefixes } :: post) := by
  induction hn : mid.length generalizing mid semi last with
  | zero =>
    have := List.length_eq_zero_iff.1 hn
    subst this
    simp [dropSemis]
  | succ n ih =>
    obtain ⟨t, mid, rfl⟩ := List.exists_cons_of_length_eq_add_one hn
    simp only [List.length_cons, Nat.add_right_cancel_iff] at hn
    have ht : t.type ≠ .eof := by rw [hm t (by simp)]; decide
    have e : (pre ++ semi :: (t :: mid ++ last :: post))[pre.length + 1]? = some t := by
      rw [List.getElem?_append_right (by omega)]; simp
    rw [dropSemis, e]
    dsimp only
    cases mid with
    | nil =>
      simp only [List.length_nil] at hn
      subst hn
      rw [List.cons_append, List.nil_append, remove_mid _ _ _ _ _ _ ht]
      simp [dropSemis]
    | cons u mid =>
      rw [List.cons_append, List.cons_append, remove_mid _ _ _ _ _ _ ht]
      dsimp only
      have := ih { semi with suffixes := semi.suffixes ++ t.suffixes }
        ({ u with prefixes := t.prefixes ++ u.prefixes } :: mid) last (by
          intro v hv
          rcases List.mem_cons.1 hv with rfl | hv
          · exact hm u (by simp)
          · exact hm v (by simp [hv])) (by simpa using hn)
      rw [List.cons_append] at this
      rw [this]
      simp

/-- What `parser_semi` does. -/
theorem parserSemi_eq (pre : List Node) (semi : Node) (mid post : List Node) (last : Node)
    (hs : semi.type = .semi)
    (hm : ∀ t ∈ mid ++ [last], t.type = .semi ∧ t.lno = semi.lno)
    (hp : ∀ t, post.head? = some t → ¬ (t.type = .semi ∧ t.lno = semi.lno)) :
    parserSemi (pre ++ semi :: (mid ++ last :: post)) pre.length =
      some (pre ++ { semi with suffixes := semi.suffixes ++ mid.flatMap (·.suffixes) } ::
        { last with prefixes := mid.flatMap (·.prefixes) ++ last.prefixes } :: post, pre.length + 1) := by
  have e : (pre ++ semi :: (mid ++ last :: post))[pre.length]? = some semi := by simp
  have e2 : (pre ++ semi :: (mid ++ last :: post)).drop (pre.length + 1) = (mid ++ [last]) ++ post := by
    simp [List.drop_append]
  rw [parserSemi, e]
  dsimp only
  rw [if_neg (by simpa using hs), e2, semisAfter_eq semi _ post hm hp]
  simp only [List.length_append, List.length_singleton]
  rw [dropSemis_eq pre semi mid post last fun t ht => (hm t (by simp [ht])).1]
  rfl

/-- `comments` of tokens put together. -/
theorem comments_append (a b : List Node) : comments (a ++ b) = comments a ++ comments b := by
  simp [comments, attached]

/-- **C74 (partial).** Of several semicolons on a line, the last one is printed and none of the others. What
follows is not changed. Comments are kept if and only if there are none in front of the first semicolon
and none behind any but the last one. Missing: that they are always kept, see `semi_loses_comment`. -/
theorem semi_comments_partial (pre : List Node) (semi : Node) (mid post : List Node) (last : Node)
    (hs : semi.type = .semi)
    (hm : ∀ t ∈ mid ++ [last], t.type = .semi ∧ t.lno = semi.lno)
    (hp : ∀ t, post.head? = some t → ¬ (t.type = .semi ∧ t.lno = semi.lno)) :
    ∃ ts k t, parserSemi (pre ++ (semi :: (mid ++ [last])) ++ post) pre.length = some (ts, k) ∧
      ts[k]? = some t ∧ bare t = bare last ∧ ts.take pre.length = pre ∧ ts.drop (k + 1) = post ∧
      ((comments [t]).Perm (comments (semi :: (mid ++ [last]))) ↔
        ∀ f ∈ semi.prefixes ++ (semi :: mid).flatMap (·.suffixes), f.type = .space) := by
  have e : pre ++ (semi :: (mid ++ [last])) ++ post = pre ++ semi :: (mid ++ last :: post) := by simp
  rw [e]
  refine ⟨_, _, { last with prefixes := mid.flatMap (·.prefixes) ++ last.prefixes },
    parserSemi_eq pre semi mid post last hs hm hp, ?_, rfl, by simp, ?_, ?_⟩
  · rw [List.getElem?_append_right (by omega)]; simp
  · rw [List.drop_append, show pre.length + 1 + 1 - pre.length = 2 from by omega,
      List.drop_eq_nil_of_le (by omega)]
    rfl
  · have hall : ∀ xs : List Fix, xs.filter (fun f => decide (f.type ≠ .space)) = [] ↔ ∀ f ∈ xs, f.type = .space := by
      intro xs
      rw [List.filter_eq_nil_iff]
      constructor
      · intro h f hf; simpa using h f hf
      · intro h f hf; simpa using h f hf
    have hmid : ∀ l : List Node, (attached l).Perm (l.flatMap (·.prefixes) ++ l.flatMap (·.suffixes)) := by
      intro l
      induction l with
      | nil => simp [attached]
      | cons a l ih =>
        simp only [attached, List.flatMap_cons, List.append_assoc] at ih ⊢
        apply List.Perm.append_left
        exact ((ih.append_left a.suffixes).trans (List.perm_append_comm_assoc ..))
    have hc : (comments (semi :: (mid ++ [last]))).Perm
        ((semi.prefixes ++ (semi :: mid).flatMap (·.suffixes)).filter (fun f => decide (f.type ≠ .space)) ++
          comments [{ last with prefixes := mid.flatMap (·.prefixes) ++ last.prefixes }]) := by
      simp only [comments, ← List.filter_append]
      apply List.Perm.filter
      simp only [attached, List.flatMap_cons, List.flatMap_append, List.append_assoc, List.flatMap_nil,
        List.append_nil]
      apply List.Perm.append_left
      apply List.Perm.append_left
      have := hmid mid
      simp only [attached] at this
      refine (this.append_right _).trans ?_
      rw [List.append_assoc, ← List.append_assoc, ← List.append_assoc (List.flatMap _ mid)]
      simp only [List.append_assoc]
      exact List.perm_append_comm_assoc ..
    constructor
    · intro h
      rw [← hall]
      have := (h.trans hc).length_eq
      rw [List.length_append] at this
      exact List.length_eq_zero_iff.1 (by omega)
    · intro h
      rw [(hall _).2 h, List.nil_append] at hc
      exact hc.symm

/-- A semicolon alone on its line is printed as it is. -/
theorem semi_alone (pre : List Node) (semi : Node) (post : List Node) (hs : semi.type = .semi)
    (hp : ∀ t, post.head? = some t → ¬ (t.type = .semi ∧ t.lno = semi.lno)) :
    parserSemi (pre ++ semi :: post) pre.length = some (pre ++ semi :: post, pre.length) := by
  have e : (pre ++ semi :: post)[pre.length]? = some semi := by simp
  have e2 : (pre ++ semi :: post).drop (pre.length + 1) = [] ++ post := by simp [List.drop_append]
  rw [parserSemi, e]
  dsimp only
  rw [if_neg (by simpa using hs), e2, semisAfter_eq semi [] post (by simp) hp]
  rfl

/-- `x = 1; /* c */; }` on one line. -/
def commentBetween : List Node :=
  [⟨0, .ident, {}, 1, [], []⟩, ⟨1, .semi, {}, 1, [], [⟨10, .comment, {}⟩]⟩, ⟨2, .semi, {}, 1, [], []⟩,
   ⟨3, .rbrace, {}, 1, [], []⟩, ⟨4, .eof, {}, 2, [], []⟩]

/-- Finding: a comment between two semicolons on a line is lost. -/
theorem semi_loses_comment : (parserSemi commentBetween 1).map (fun r =>
      ((r.1[r.2]?).map fun t => (t.id, (comments [t]).map (·.id)))) = some (some (2, [])) ∧
    (comments commentBetween).map (·.id) = [10] := by decide +kernel

/-- The hypotheses of `semi_comments_partial` are met, with comments kept. -/
example : ∃ ts k t, parserSemi [⟨0, .ident, {}, 1, [], []⟩, ⟨1, .semi, {}, 1, [], []⟩,
      ⟨2, .semi, {}, 1, [⟨9, .comment, {}⟩], []⟩, ⟨3, .semi, {}, 1, [], [⟨10, .comment, {}⟩]⟩,
      ⟨4, .eof, {}, 2, [], []⟩] 1 = some (ts, k) ∧ ts[k]? = some t ∧ (comments [t]).map (·.id) = [9, 10] := by
  refine ⟨_, _, _, rfl, rfl, ?_⟩
  decide +kernel

/-- **C74.** Semicolons after a declaration are removed, on whatever line they are. The one that ends the
declaration and all other tokens stay, and so does everything attached to any of them. -/
theorem trim_semis (pre : List Node) (semi : Node) (mid post : List Node) (nx : Node) (fuel : Nat)
    (hm : ∀ t ∈ mid, t.type = .semi) (hn : nx.type ≠ .semi) (hf : mid.length < fuel) :
    ∃ ts, trimSemis fuel (pre ++ semi :: (mid ++ nx :: post)) pre.length = some ts ∧
      ts.map bare = (pre ++ semi :: nx :: post).map bare ∧
      (attached ts).Perm (attached (pre ++ semi :: (mid ++ nx :: post))) ∧
      ts.flatMap (·.prefixes) = (pre ++ semi :: (mid ++ nx :: post)).flatMap (·.prefixes) ∧
      ts.flatMap (·.suffixes) = (pre ++ semi :: (mid ++ nx :: post)).flatMap (·.suffixes) := by
  induction fuel generalizing mid semi nx with
  | zero => omega
  | succ fuel ih =>
    cases mid with
    | nil =>
      have e : (pre ++ semi :: nx :: post)[pre.length + 1]? = some nx := by
        rw [List.getElem?_append_right (by omega)]; simp
      refine ⟨_, ?_, rfl, List.Perm.refl _, rfl, rfl⟩
      rw [List.nil_append, trimSemis, e]
      dsimp only
      rw [if_pos hn]
    | cons t mid =>
      have e : (pre ++ semi :: (t :: mid ++ nx :: post))[pre.length + 1]? = some t := by
        rw [List.getElem?_append_right (by omega)]; simp
      have ht : t.type = .semi := hm t (by simp)
      have hte : t.type ≠ .eof := by rw [ht]; decide
      rw [trimSemis, e]
      dsimp only
      rw [if_neg (by simpa using ht)]
      simp only [List.length_cons] at hf
      have key : ∀ mid' nx', mid' ++ nx' :: post = (match mid ++ nx :: post with
            | [] => []
            | u :: us => { u with prefixes := t.prefixes ++ u.prefixes } :: us) →
          mid'.length = mid.length → (∀ t ∈ mid', t.type = .semi) → nx'.type ≠ .semi → nx'.id = nx.id →
          bare nx' = bare nx → ∃ ts, trimSemis fuel (pre ++ { semi with suffixes := semi.suffixes ++ t.suffixes } ::
            (mid' ++ nx' :: post)) pre.length = some ts ∧
          ts.map bare = (pre ++ semi :: nx :: post).map bare ∧
          (attached ts).Perm (attached (pre ++ { semi with suffixes := semi.suffixes ++ t.suffixes } ::
            (mid' ++ nx' :: post))) ∧
          ts.flatMap (·.prefixes) = (pre ++ semi :: (mid' ++ nx' :: post)).flatMap (·.prefixes) ∧
          ts.flatMap (·.suffixes) = (pre ++ { semi with suffixes := semi.suffixes ++ t.suffixes } ::
            (mid' ++ nx' :: post)).flatMap (·.suffixes) := by
        intro mid' nx' _ hl hm' hn' _ hb
        obtain ⟨ts, h1, h2, h3, h4, h5⟩ := ih { semi with suffixes := semi.suffixes ++ t.suffixes } mid' nx' hm' hn'
          (by omega)
        refine ⟨ts, h1, ?_, h3, ?_, h5⟩
        · rw [h2]; simp [bare] at hb ⊢; exact hb
        · rw [h4]; simp
      have fin : ∀ (us : List Node) (u : Node) (rest : List Node), mid ++ nx :: post = u :: rest →
          us = { u with prefixes := t.prefixes ++ u.prefixes } :: rest →
          (attached (pre ++ { semi with suffixes := semi.suffixes ++ t.suffixes } :: us)).Perm
            (attached (pre ++ semi :: (t :: mid ++ nx :: post))) ∧
          (pre ++ semi :: us).flatMap (·.prefixes) = (pre ++ semi :: (t :: mid ++ nx :: post)).flatMap (·.prefixes) ∧
          (pre ++ { semi with suffixes := semi.suffixes ++ t.suffixes } :: us).flatMap (·.suffixes) =
            (pre ++ semi :: (t :: mid ++ nx :: post)).flatMap (·.suffixes) := by
        intro us u rest h1 h2
        subst h2
        rw [List.cons_append, h1]
        refine ⟨?_, by simp, by simp⟩
        simp only [attached, List.flatMap_append, List.flatMap_cons, List.append_assoc]
        apply List.Perm.append_left
        apply List.Perm.append_left
        apply List.Perm.append_left
        rw [← List.append_assoc, ← List.append_assoc t.prefixes]
        exact (List.perm_append_comm ..).append_right _
      cases mid with
      | nil =>
        rw [List.cons_append, List.nil_append, remove_mid _ _ _ _ _ _ hte]
        dsimp only
        obtain ⟨ts, h1, h2, h3, h4, h5⟩ := key [] { nx with prefixes := t.prefixes ++ nx.prefixes } rfl rfl (by simp)
          hn rfl rfl
        obtain ⟨f1, f2, f3⟩ := fin _ nx post rfl rfl
        exact ⟨ts, h1, h2, h3.trans f1, h4.trans f2, h5.trans f3⟩
      | cons u mid =>
        rw [List.cons_append, List.cons_append, remove_mid _ _ _ _ _ _ hte]
        dsimp only
        obtain ⟨ts, h1, h2, h3, h4, h5⟩ := key ({ u with prefixes := t.prefixes ++ u.prefixes } :: mid) nx rfl rfl (by
          intro v hv
          rcases List.mem_cons.1 hv with rfl | hv
          · exact hm u (by simp)
          · exact hm v (by simp [hv])) hn rfl rfl
        obtain ⟨f1, f2, f3⟩ := fin _ u (mid ++ nx :: post) rfl rfl
        exact ⟨ts, h1, h2, h3.trans f1, h4.trans f2, h5.trans f3⟩

/-- `int x; /* c */;` followed by a comment and another semicolon: the comments are kept. -/
example : (trimSemis 5 [⟨0, .ident, {}, 1, [], []⟩, ⟨1, .semi, {}, 1, [], [⟨10, .comment, {}⟩]⟩,
      ⟨2, .semi, {}, 1, [], []⟩, ⟨3, .semi, {}, 2, [⟨11, .comment, {}⟩], []⟩, ⟨4, .eof, {}, 2, [], []⟩] 1).map
    (fun ts => ts.map fun t => (t.id, t.prefixes.map (·.id), t.suffixes.map (·.id))) =
      some [(0, [], []), (1, [], [10]), (4, [11], [])] := by decide +kernel

end Knfmt.Stream
