import Verif.Diff.Lemmas
/-!
# C08, C09: selection of lines by a diff
-/
namespace Knfmt.Diff

open Knfmt.Spec.Udiff

/-- C09: looking up a line gives the first range containing it, if there is one. -/
theorem get_chunk_spec (cs : List Chunk) (lno : Nat) :
    (∀ c, getChunk cs lno = some c ↔
      ∃ pre post, cs = pre ++ c :: post ∧ c.beg ≤ lno ∧ lno ≤ c.end_ ∧
        ∀ d ∈ pre, ¬ (d.beg ≤ lno ∧ lno ≤ d.end_)) ∧
    (getChunk cs lno = none ↔ ∀ d ∈ cs, ¬ (d.beg ≤ lno ∧ lno ≤ d.end_)) := by
  induction cs with
  | nil => simp [getChunk]
  | cons d cs ih =>
    unfold getChunk
    by_cases h : lno ≥ d.beg ∧ lno ≤ d.end_
    · rw [if_pos h]
      refine ⟨?_, ?_⟩
      · intro c
        constructor
        · intro hc
          simp at hc; subst hc
          exact ⟨[], cs, rfl, h.1, h.2, by simp⟩
        · rintro ⟨pre, post, e, h1, h2, h3⟩
          cases pre with
          | nil => simp at e; simp [e.1]
          | cons x pre =>
            simp at e
            exact absurd ⟨h.1, h.2⟩ (h3 d (by simp [e.1]))
      · simp only [reduceCtorEq, false_iff]
        intro hh
        exact hh d (List.mem_cons_self ..) ⟨h.1, h.2⟩
    · rw [if_neg h]
      refine ⟨?_, ?_⟩
      · intro c
        rw [ih.1 c]
        constructor
        · rintro ⟨pre, post, e, h1, h2, h3⟩
          refine ⟨d :: pre, post, by simp [e], h1, h2, ?_⟩
          intro x hx
          rcases List.mem_cons.mp hx with rfl | hx
          · exact h
          · exact h3 x hx
        · rintro ⟨pre, post, e, h1, h2, h3⟩
          cases pre with
          | nil => simp at e; rw [e.1] at h; exact absurd ⟨h1, h2⟩ h
          | cons x pre =>
            simp at e
            exact ⟨pre, post, e.2, h1, h2, fun y hy => h3 y (List.mem_cons_of_mem _ hy)⟩
      · rw [ih.2]
        constructor
        · intro hh x hx
          rcases List.mem_cons.mp hx with rfl | hx
          · exact h
          · exact hh x hx
        · intro hh x hx
          exact hh x (List.mem_cons_of_mem _ hx)

example : getChunk [⟨3, 5⟩, ⟨4, 9⟩] 5 = some ⟨3, 5⟩ ∧ getChunk [⟨3, 5⟩, ⟨4, 9⟩] 10 = none := by decide

theorem getChunk_isSome (cs : List Chunk) (n : Nat) : (getChunk cs n).isSome ↔ Sel cs n := by
  rw [Option.isSome_iff_ne_none, ne_eq, (get_chunk_spec cs n).2]
  simp [Sel]

/-- The path `p` a section stands for. When knfmt is started `gitNdirs` directories
below the top of the repository and the file does not exist, that many leading
components are dropped as far as there are any. -/
def PathIs (env : Env) (s : Section) (p : List Char) : Prop :=
  if env.gitNdirs = 0 ∨ s.newPath.head? = some '/' ∨ env.present s.newPath = true then p = s.newPath
  else ∃ cs : List (List Char), s.newPath = (cs.map (· ++ ['/'])).flatten ++ p ∧
    (∀ c ∈ cs, '/' ∉ c) ∧ (cs.length = env.gitNdirs ∨ (cs.length < env.gitNdirs ∧ '/' ∉ p))

theorem iterate_trimPrefix (n : Nat) (s : List Char) :
    ∃ cs : List (List Char), s = (cs.map (· ++ ['/'])).flatten ++ iterate trimPrefix n s ∧
      (∀ c ∈ cs, '/' ∉ c) ∧ (cs.length = n ∨ (cs.length < n ∧ '/' ∉ iterate trimPrefix n s)) := by
  induction n generalizing s with
  | zero => exact ⟨[], rfl, by simp, Or.inl rfl⟩
  | succ n ih =>
    rw [iterate]
    by_cases hs : '/' ∈ s
    · obtain ⟨cs, h1, h2, h3⟩ := ih (trimPrefix s)
      have e : s = s.takeWhile (· ≠ '/') ++ '/' :: trimPrefix s := by
        unfold trimPrefix
        rw [if_pos hs]
        clear h1 h2 h3 ih
        induction s with
        | nil => simp at hs
        | cons c s ih =>
          by_cases hc : c = '/'
          · subst hc; simp
          · simp [Ne.symm hc] at hs
            simpa [hc] using ih hs
      refine ⟨s.takeWhile (· ≠ '/') :: cs, ?_, ?_, ?_⟩
      · rw [List.map_cons, List.flatten_cons, List.append_assoc, ← h1, List.append_assoc]
        exact e
      · intro c hc
        rcases List.mem_cons.mp hc with rfl | hc
        · intro hm
          have := Knfmt.mem_takeWhile_imp hm
          simp at this
        · exact h2 c hc
      · rcases h3 with h | ⟨h, h'⟩
        · left; simp [h]
        · right; exact ⟨by simp; omega, h'⟩
    · have e : ∀ m, iterate trimPrefix m s = s := by
        intro m
        induction m with
        | zero => rfl
        | succ m ihm => rw [iterate, trimPrefix, if_neg hs, ihm]
      have e1 : trimPrefix s = s := by rw [trimPrefix, if_neg hs]
      refine ⟨[], ?_, by simp, Or.inr ⟨by simp, ?_⟩⟩
      · rw [e1, e]; simp
      · rw [e1, e]; exact hs

theorem matchPath_section (env : Env) (s : Section) (hok : s.Ok) :
    ∃ p, matchPath env ("+++ ".toList ++ s.path ++ s.rest) = some p ∧ PathIs env s p := by
  unfold matchPath
  rw [rePath_section s hok]
  simp only
  have e : (if s.path.take 2 = ['b', '/'] then trimPrefix s.path else s.path) = s.newPath := by
    unfold Section.newPath
    split
    · next h =>
      cases hp : s.path with
      | nil => simp [hp] at h
      | cons a p =>
        cases p with
        | nil => simp [hp] at h
        | cons b p =>
          simp [hp] at h
          obtain ⟨rfl, rfl⟩ := h
          simp [trimPrefix]
    · next h =>
      split
      · next p hp => simp [hp] at h
      · rfl
  rw [e]
  by_cases hc : env.gitNdirs > 0 ∧ s.newPath.head? ≠ some '/' ∧ env.present s.newPath = false
  · rw [if_pos hc]
    refine ⟨_, rfl, ?_⟩
    unfold PathIs
    rw [if_neg]
    · exact iterate_trimPrefix _ _
    · rintro (h | h | h)
      · omega
      · exact hc.2.1 h
      · rw [hc.2.2] at h; simp at h
  · rw [if_neg hc]
    refine ⟨_, rfl, ?_⟩
    unfold PathIs
    rw [if_pos]
    refine Decidable.byContradiction fun hn => hc ?_
    simp only [not_or] at hn
    exact ⟨by omega, hn.2.1, by simpa using hn.2.2⟩

theorem parseLoop_sections (env : Env) (ds : List Section) (hok : ∀ s ∈ ds, s.Ok) (post : List Line) (hpost : ∀ l ∈ post, Junk l)
    (files : List FileDiff) :
    ∃ new : List FileDiff, parseLoop env ((ds.map Section.render).flatten ++ post) files = some (files ++ new) ∧
      new.length = ds.length ∧
      ∀ (i : Nat) (f : FileDiff) (s : Section), new[i]? = some f → ds[i]? = some s →
        PathIs env s f.path ∧ ∀ n, Sel f.chunks n ↔ n ∈ s.added := by
  induction ds generalizing files with
  | nil =>
    refine ⟨[], ?_, rfl, by simp⟩
    have := parseLoop_junks env post [] files hpost
    rw [List.append_nil] at this
    simp only [List.map_nil, List.flatten_nil, List.nil_append, List.append_nil]
    rw [this, parseLoop]
  | cons s ds ih =>
    have hs := hok s (List.mem_cons_self ..)
    have hj : ∀ l ∈ s.junk, Junk l := hs.junk
    rw [List.map_cons, List.flatten_cons, List.append_assoc]
    unfold Section.render
    obtain ⟨p, hp, hpath⟩ := matchPath_section env s hs
    rw [List.append_assoc, parseLoop_junks _ _ _ _ hj, List.cons_append, parseLoop, hp]
    simp only
    obtain ⟨cs, e, hc, hsel⟩ := parseLoop_hunks env s.hunks hs.hunks
      ((ds.map Section.render).flatten ++ post) files ⟨p, []⟩ (by intro c hc; simp at hc)
    obtain ⟨new, e2, hl, hh⟩ := ih (fun s hm => hok s (List.mem_cons_of_mem _ hm)) (files ++ [⟨p, cs⟩])
    refine ⟨⟨p, cs⟩ :: new, ?_, by simp [hl], ?_⟩
    · show parseLoop env ((s.hunks.map Hunk.render).flatten ++ ((ds.map Section.render).flatten ++ post)) _ = _
      rw [e, e2, List.append_assoc]
      rfl
    · intro i f s' hf hs'
      cases i with
      | zero =>
        simp at hf hs'
        subst hf hs'
        refine ⟨hpath, ?_⟩
        intro n
        simp only [hsel]
        simp [Sel, Section.added]
      | succ i =>
        simp at hf hs'
        exact hh i f s' hf hs'

theorem getLines_unlines (ls : List Line) (h : ∀ l ∈ ls, '\n' ∉ l ∧ '\x00' ∉ l) :
    getLines (unlines ls) = ls := by
  induction ls with
  | nil => simp [unlines, getLines]
  | cons l ls ih =>
    have hl := h l (List.mem_cons_self ..)
    have e : unlines (l :: ls) = l ++ '\n' :: unlines ls := by simp [unlines]
    have ih := ih (fun l hm => h l (List.mem_cons_of_mem _ hm))
    have ht : (l ++ '\n' :: unlines ls).takeWhile (· ≠ '\n') = l := by
      have : ∀ k : List Char, '\n' ∉ k → (k ++ '\n' :: unlines ls).takeWhile (· ≠ '\n') = k := by
        intro k hk
        induction k with
        | nil => simp
        | cons c k ihk =>
          simp at hk
          simp [Ne.symm hk.1]
          simpa using ihk hk.2
      exact this l hl.1
    have hz : l.takeWhile (· ≠ '\x00') = l := by
      have : ∀ k : List Char, '\x00' ∉ k → k.takeWhile (· ≠ '\x00') = k := by
        intro k hk
        induction k with
        | nil => rfl
        | cons c k ihk =>
          simp at hk
          simp [Ne.symm hk.1]
          simpa using ihk hk.2
      exact this l hl.2
    rw [e]
    cases hs : l ++ '\n' :: unlines ls with
    | nil => simp at hs
    | cons c s =>
      rw [getLines, ← hs, ht, hz]
      congr 1
      have : (l ++ '\n' :: unlines ls).drop (l.length + 1) = unlines ls := by
        rw [show l ++ '\n' :: unlines ls = (l ++ ['\n']) ++ unlines ls by simp]
        apply List.drop_left'
        simp
      rw [this, ih]

/-- C08: for a well formed unified diff, `knfmt -D` considers the files of the diff in
order, and a line is selected if and only if it is an added line of some hunk of that
file in the numbering of the new file. Missing: `\ No newline at end of file` in front of
added lines, see `diff_parse_no_newline_marker`. -/
theorem diff_parse_selection_partial (env : Env) (ds : List Section) (hok : ∀ s ∈ ds, s.Ok) (post : List Line)
    (hpost : ∀ l ∈ post, ¬ "+++".toList <+: l ∧ ¬ "@@".toList <+: l)
    (hchars : ∀ l ∈ (ds.map Section.render).flatten ++ post, '\n' ∉ l ∧ '\x00' ∉ l) :
    ∃ files, diffParse env (unlines ((ds.map Section.render).flatten ++ post)) = some files ∧
      files.length = ds.length ∧
      ∀ (i : Nat) (f : FileDiff) (s : Section), files[i]? = some f → ds[i]? = some s →
        PathIs env s f.path ∧ ∀ n, (getChunk f.chunks n).isSome ↔ n ∈ s.added := by
  obtain ⟨new, e, hl, h⟩ := parseLoop_sections env ds hok post hpost []
  refine ⟨new, ?_, hl, ?_⟩
  · rw [diffParse, getLines_unlines _ hchars, e]
    rfl
  · intro i f s hf hs
    obtain ⟨h1, h2⟩ := h i f s hf hs
    exact ⟨h1, fun n => by rw [getChunk_isSome, h2]⟩

/-- A section with two hunks. -/
def exSection : Section where
  junk := ["diff --git a/x.c b/x.c".toList, "--- a/x.c".toList]
  path := "b/x.c".toList
  rest := []
  hunks := [
    { old := ⟨"1".toList, some "2".toList⟩, new := ⟨"1".toList, some "4".toList⟩, heading := [],
      lines := [.ctx "a".toList, .del "b".toList, .add "c".toList, .add "d".toList, .blank] },
    { old := ⟨"9".toList, none⟩, new := ⟨"12".toList, none⟩, heading := " f(void)".toList,
      lines := [.del "q".toList, .add "r".toList] }]

/-- The hypotheses of `diff_parse_selection_partial` are met, and lines are selected. -/
example : exSection.Ok ∧ (∀ l ∈ exSection.render, '\n' ∉ l ∧ '\x00' ∉ l) ∧ exSection.added = [2, 3, 12] := by
  refine ⟨⟨by decide, ?_, by simp [exSection], ?_⟩, by decide, by decide⟩
  · simp [exSection, space]
  · intro h hh
    have marker : ∀ {L : List HLine}, HLine.nonl ∉ L → ∀ ls rs, L = ls ++ HLine.nonl :: rs →
        ∀ r ∈ rs, r.isNew = false := fun hn ls rs e => absurd (by simp [e]) hn
    simp [exSection] at hh
    rcases hh with rfl | rfl
    · exact ⟨⟨by simp [IsNumber], by simp [IsNumber]⟩, ⟨by simp [IsNumber], by simp [IsNumber]⟩,
        by simp, by decide, by decide, by decide, marker (by decide)⟩
    · exact ⟨⟨by simp [IsNumber], by simp [IsNumber]⟩, ⟨by simp [IsNumber], by simp [IsNumber]⟩,
        ⟨by decide, by decide⟩, by decide, by decide, by decide, marker (by decide)⟩

example : (parseLoop ⟨0, fun _ => false⟩ exSection.render []) =
    some [⟨"x.c".toList, [⟨2, 3⟩, ⟨12, 12⟩]⟩] := by decide +kernel

/-- Started two directories down. -/
example : (parseLoop ⟨2, fun _ => false⟩ ["+++ b/a/b/c/x.c".toList] []) = some [⟨"c/x.c".toList, []⟩] := by
  decide +kernel

/-- C08 is false for diffs with a `\ No newline at end of file` marker in front of an
added line: the marker is counted as a line of the new file, and the line added is not
selected. This is what `diff -u` prints when the last line of a file is changed. -/
theorem diff_parse_no_newline_marker :
    let hunk : Hunk := ⟨⟨"1".toList, none⟩, ⟨"1".toList, none⟩, [],
      [.del "a".toList, .nonl, .add "b".toList]⟩
    hunk.added = [1] ∧
      parseLoop ⟨0, fun _ => false⟩ ("+++ x".toList :: hunk.render) [] = some [⟨"x".toList, []⟩] := by
  decide +kernel

/-- C08: a hunk in front of the first file name is an error, and so is a diff that ends
before all the lines announced by a hunk have been seen. -/
theorem diff_parse_rejects (env : Env) (h : Hunk) (hok : h.Ok) (h0 : h.new.len ≠ 0) :
    (∀ ls, parseLoop env (h.header :: ls) [] = none) ∧
    (∀ ls files, (ls.filter (fun l => l.head? ≠ some '-')).length < h.new.len →
      parseLoop env (h.header :: ls) files = none) := by
  have hst := hok.start h0
  have hsm := hok.small
  constructor
  · intro ls
    rw [parseLoop, matchPath_header, matchChunk_header h hok, if_neg h0]
    rfl
  · intro ls files hl
    rw [parseLoop, matchPath_header, matchChunk_header h hok, if_neg h0]
    simp only
    split
    · rfl
    · next fe hf =>
      have := hunkLoop_short ls (decimal h.new.start) (decimal h.new.start + h.new.len - 1) fe.chunks
        (by omega) (by omega)
      split
      · rfl
      · next cs rest he => rw [this] at he; simp at he

end Knfmt.Diff
