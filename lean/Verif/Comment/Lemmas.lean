import Verif.Comment.Model
import Verif.Util.Props
import Verif.Common
namespace Knfmt.Comment

open Knfmt.Util Knfmt.Spec

/-- The lines of a comment without line terminators; the comment ends in a line
feed, so there is one per line feed. -/
def glue (crlf : Bool) : List (List Char) → List Char
  | [] => []
  | l :: ls => l ++ (if crlf then ['\r'] else []) ++ ['\n'] ++ glue crlf ls

/-- What happens to one line. -/
def trimLine (usetabs : Bool) (l : List Char) : List Char :=
  let ws := l.takeWhile isBlank
  let body := l.dropWhile isBlank
  if ws ≠ [] ∧ (body.head? = some '*' ∨ body.head? = some '/') then
    (strindent (strwidth ws 0) usetabs 0).1 ++ rskipws body
  else rskipws l

theorem rskipws_append_space (a : List Char) (c : Char) (hc : isSpace c = true) :
    rskipws (a ++ [c]) = rskipws a := by
  simp [rskipws, hc]

theorem rskipws_append_spaces (a b : List Char) (hb : ∀ c ∈ b, isSpace c = true) :
    rskipws (a ++ b) = rskipws a := by
  induction b generalizing a with
  | nil => simp
  | cons c b ih =>
    rw [show a ++ c :: b = (a ++ [c]) ++ b by simp, ih _ (fun c hc => hb c (List.mem_cons_of_mem _ hc)),
      rskipws_append_space _ _ (hb c (List.mem_cons_self ..))]

/-- `rskipws` removes a suffix of white space. -/
theorem rskipws_decomp (s : List Char) :
    ∃ w, s = rskipws s ++ w ∧ ∀ c ∈ w, isSpace c = true := by
  refine ⟨(s.reverse.takeWhile isSpace).reverse, ?_, ?_⟩
  · rw [rskipws, ← List.reverse_append, List.takeWhile_append_dropWhile, List.reverse_reverse]
  · intro c hc
    exact mem_takeWhile_imp (List.mem_reverse.mp hc)

theorem rskipws_last (s : List Char) (c : Char) (h : (rskipws s).getLast? = some c) :
    isSpace c = false := by
  rw [rskipws, List.getLast?_reverse] at h
  have := List.head?_dropWhile_not isSpace s.reverse
  rw [h] at this
  simpa using this

theorem rskipws_of_last (s : List Char) (h : ∀ c, s.getLast? = some c → isSpace c = false) :
    rskipws s = s := by
  rw [rskipws]
  cases hr : s.reverse with
  | nil => simp at hr; simp [hr]
  | cons c t =>
    have : s.getLast? = some c := by rw [← List.head?_reverse, hr]; rfl
    rw [List.dropWhile_cons_of_neg (by simp [h c this]), ← hr, List.reverse_reverse]

theorem rskipws_idem (s : List Char) : rskipws (rskipws s) = rskipws s :=
  rskipws_of_last _ (rskipws_last s)

theorem rskipws_append_nonempty (a b : List Char) (hb : rskipws b ≠ []) :
    rskipws (a ++ b) = a ++ rskipws b := by
  obtain ⟨w, hw, hsp⟩ := rskipws_decomp b
  conv => lhs; rw [hw, ← List.append_assoc]
  rw [rskipws_append_spaces _ _ hsp]
  apply rskipws_of_last
  intro c hc
  rw [getLast?_append_ne _ _ hb] at hc
  exact rskipws_last b c hc

theorem nextline_append (l rest : List Char) (h : '\n' ∉ l) :
    nextline (l ++ '\n' :: rest) = some (l ++ ['\n'], rest) := by
  induction l with
  | nil => simp [nextline]
  | cons c l ih =>
    simp at h
    rw [List.cons_append]
    unfold nextline
    rw [if_neg (Ne.symm h.1), ih h.2]
    simp

theorem blank_ne_nl {c : Char} (h : isBlank c = true) : c ≠ '\n' := by
  rintro rfl; simp [isBlank] at h

theorem takeWhile_blank (l rest : List Char) :
    (l ++ '\n' :: rest).takeWhile isBlank = l.takeWhile isBlank ∧
    (l ++ '\n' :: rest).dropWhile isBlank = l.dropWhile isBlank ++ '\n' :: rest := by
  induction l with
  | nil => simp [isBlank]
  | cons c l ih =>
    simp only [List.cons_append, List.takeWhile_cons, List.dropWhile_cons]
    split <;> simp [ih]

theorem trimLoop_nil (usetabs crlf : Bool) : trimLoop usetabs crlf [] = some [] := by
  unfold trimLoop
  have h : leading usetabs [] = some ([], []) := by simp [leading, skipws]
  have hn : nextline [] = none := rfl
  grind

/-- One iteration on a complete line. -/
theorem trimLoop_line (usetabs crlf : Bool) (l rest : List Char) (h : '\n' ∉ l) :
    trimLoop usetabs crlf (l ++ '\n' :: rest) =
      (trimLoop usetabs crlf rest).map
        (fun r => trimLine usetabs l ++ (if crlf then ['\r'] else []) ++ ['\n'] ++ r) := by
  have hsplit := List.takeWhile_append_dropWhile (p := isBlank) (l := l)
  have key : ∃ o b, leading usetabs (l ++ '\n' :: rest) = some (o, b ++ '\n' :: rest) ∧
      '\n' ∉ b ∧ o ++ rskipws (b ++ ['\n']) = trimLine usetabs l := by
    have hb : '\n' ∉ l.dropWhile isBlank := fun hm => h (by
      rw [← hsplit]; exact List.mem_append_right _ hm)
    unfold leading skipws trimLine
    simp only [takeWhile_blank]
    by_cases hw : l.takeWhile isBlank = []
    · simp only [hw, if_true]
      refine ⟨[], l, rfl, h, ?_⟩
      simp [rskipws_append_space _ _ (show isSpace '\n' = true by decide)]
    · simp only [hw, if_false]
      cases hd : l.dropWhile isBlank with
      | nil =>
        simp only [List.nil_append]
        rw [if_neg (by decide)]
        refine ⟨[], l, rfl, h, ?_⟩
        simp [rskipws_append_space _ _ (show isSpace '\n' = true by decide)]
      | cons c b =>
        simp only [List.cons_append, List.head?_cons, Option.some.injEq]
        by_cases hc : c = '*' ∨ c = '/'
        · rw [if_pos hc]
          rw [hd] at hb
          refine ⟨_, c :: b, rfl, hb, ?_⟩
          rw [if_pos ⟨hw, hc⟩,
            rskipws_append_space _ _ (show isSpace '\n' = true by decide)]
        · rw [if_neg hc]
          refine ⟨[], l, rfl, h, ?_⟩
          rw [if_neg (fun hh => hc hh.2)]
          simp [rskipws_append_space _ _ (show isSpace '\n' = true by decide)]
  obtain ⟨o, b, h1, h2, h3⟩ := key
  rw [trimLoop]
  have hn := nextline_append b rest h2
  split
  · next hl => rw [h1] at hl; simp at hl
  · next out s' hl =>
    rw [h1] at hl
    obtain ⟨rfl, rfl⟩ : o = out ∧ b ++ '\n' :: rest = s' := by simpa using hl
    split
    · next hn' => rw [hn] at hn'; simp at hn'
    · next line r hn' =>
      rw [hn] at hn'
      obtain ⟨rfl, rfl⟩ : b ++ ['\n'] = line ∧ rest = r := by simpa using hn'
      rw [← h3]

/-- Every text ending in a line feed is a sequence of lines. -/
theorem exists_lines (s : List Char) (h : s.getLast? = some '\n') :
    ∃ ls : List (List Char), ls ≠ [] ∧ (∀ l ∈ ls, '\n' ∉ l) ∧ s = glue false ls := by
  induction s with
  | nil => simp at h
  | cons c s ih =>
    by_cases hs : s = []
    · subst hs
      simp at h; subst h
      exact ⟨[[]], by simp, by simp, rfl⟩
    · have hl : s.getLast? = some '\n' := by
        rw [← h, List.getLast?_cons, List.getLast?_eq_some_getLast hs]; simp
      obtain ⟨ls, hne, hm, he⟩ := ih hl
      by_cases hc : c = '\n'
      · refine ⟨[] :: ls, by simp, ?_, by simp [glue, he, hc]⟩
        intro l hl; simp at hl; rcases hl with rfl | hl
        · simp
        · exact hm l hl
      · cases ls with
        | nil => simp at hne
        | cons l ls =>
          refine ⟨(c :: l) :: ls, by simp, ?_, by simp [glue, he]⟩
          intro k hk; simp at hk; rcases hk with rfl | hk
          · have := hm l (List.mem_cons_self ..)
            simp [this, Ne.symm hc]
          · exact hm k (List.mem_cons_of_mem _ hk)

theorem trimLoop_glue (usetabs crlf : Bool) (ls : List (List Char)) (h : ∀ l ∈ ls, '\n' ∉ l) :
    trimLoop usetabs crlf (glue false ls) = some (glue crlf (ls.map (trimLine usetabs))) := by
  induction ls with
  | nil => exact trimLoop_nil ..
  | cons l ls ih =>
    have : glue false (l :: ls) = l ++ '\n' :: glue false ls := by simp [glue]
    rw [this, trimLoop_line _ _ _ _ (h l (List.mem_cons_self ..)),
      ih (fun l hl => h l (List.mem_cons_of_mem _ hl))]
    rfl

theorem rskipws_no_nl {l : List Char} (h : '\n' ∉ l) : '\n' ∉ rskipws l := by
  obtain ⟨w, hw, _⟩ := rskipws_decomp l
  intro hm
  exact h (by rw [hw]; exact List.mem_append_left _ hm)

theorem strindent_blank (n pos : Nat) (usetabs : Bool) :
    ∀ c ∈ (strindent n usetabs pos).1, isBlank c = true := by
  rw [strindent_bytes]
  intro c hc
  split at hc
  · simp at hc; rcases hc with hc | hc <;> simp [hc.2, isBlank]
  · simp at hc; simp [hc.2, isBlank]

theorem trimLine_no_nl (usetabs : Bool) {l : List Char} (h : '\n' ∉ l) :
    '\n' ∉ trimLine usetabs l := by
  unfold trimLine
  simp only
  split
  · intro hm
    rcases List.mem_append.mp hm with hm | hm
    · exact blank_ne_nl (strindent_blank _ _ _ _ hm) rfl
    · refine rskipws_no_nl (l := l.dropWhile isBlank) ?_ hm
      intro hm
      exact h (by rw [← List.takeWhile_append_dropWhile (p := isBlank) (l := l)]
                  exact List.mem_append_right _ hm)
  · exact rskipws_no_nl h

theorem blank_isSpace {c : Char} (h : isBlank c = true) : isSpace c = true := by
  simp [isBlank] at h
  rcases h with rfl | rfl <;> decide

theorem rskipws_cons_nonspace (c : Char) (b : List Char) (hc : isSpace c = false) :
    ∃ t, rskipws (c :: b) = c :: t := by
  obtain ⟨w, hw, hsp⟩ := rskipws_decomp (c :: b)
  cases hr : rskipws (c :: b) with
  | nil =>
    rw [hr] at hw
    have := hsp c (by rw [show w = c :: b by simpa using hw.symm]; simp)
    rw [hc] at this; simp at this
  | cons d t =>
    rw [hr] at hw
    simp at hw
    exact ⟨t, by rw [hw.1]⟩

/-- Non-blank characters of a line are kept. -/
theorem trimLine_nonspace (usetabs : Bool) (l : List Char) :
    (trimLine usetabs l).filter (fun c => !isSpace c) = l.filter (fun c => !isSpace c) := by
  have hr : ∀ s : List Char, (rskipws s).filter (fun c => !isSpace c) = s.filter (fun c => !isSpace c) := by
    intro s
    obtain ⟨w, hw, hsp⟩ := rskipws_decomp s
    conv => rhs; rw [hw, List.filter_append]
    have : w.filter (fun c => !isSpace c) = [] := by
      rw [List.filter_eq_nil_iff]; intro c hc; simp [hsp c hc]
    rw [this, List.append_nil]
  unfold trimLine
  simp only
  split
  · rw [List.filter_append, hr]
    conv => rhs; rw [← List.takeWhile_append_dropWhile (p := isBlank) (l := l), List.filter_append]
    congr 1
    have h1 : ((strindent (strwidth (l.takeWhile isBlank) 0) usetabs 0).1).filter (fun c => !isSpace c) = [] := by
      rw [List.filter_eq_nil_iff]; intro c hc; simp [blank_isSpace (strindent_blank _ _ _ _ hc)]
    have h2 : (l.takeWhile isBlank).filter (fun c => !isSpace c) = [] := by
      rw [List.filter_eq_nil_iff]; intro c hc; simp [blank_isSpace (mem_takeWhile_imp hc)]
    rw [h1, h2]
  · exact hr l

theorem trimLine_last (usetabs : Bool) (l : List Char) (c : Char)
    (h : (trimLine usetabs l).getLast? = some c) : isSpace c = false := by
  unfold trimLine at h
  simp only at h
  split at h
  · next hc =>
    obtain ⟨d, b, hd⟩ : ∃ d b, l.dropWhile isBlank = d :: b := by
      cases hb : l.dropWhile isBlank with
      | nil => rw [hb] at hc; simp at hc
      | cons d b => exact ⟨d, b, rfl⟩
    have hds : isSpace d = false := by
      rw [hd] at hc; simp at hc
      rcases hc.2 with rfl | rfl <;> decide
    obtain ⟨t, ht⟩ := rskipws_cons_nonspace d b hds
    rw [hd, ht, getLast?_append_ne _ _ (by simp)] at h
    rw [← ht] at h
    exact rskipws_last _ _ h
  · exact rskipws_last _ _ h

theorem takeWhile_blank_append (a : List Char) (c : Char) (b : List Char)
    (ha : ∀ x ∈ a, isBlank x = true) (hc : isBlank c = false) :
    (a ++ c :: b).takeWhile isBlank = a ∧ (a ++ c :: b).dropWhile isBlank = c :: b := by
  induction a with
  | nil => simp [hc]
  | cons x a ih =>
    have := ih (fun y hy => ha y (List.mem_cons_of_mem _ hy))
    simp [ha x (List.mem_cons_self ..), this]

/-- A carriage return at the end of the line makes no difference. -/
theorem trimLine_idem (usetabs : Bool) (l suffix : List Char) (hs : suffix = [] ∨ suffix = ['\r']) :
    trimLine usetabs (trimLine usetabs l ++ suffix) = trimLine usetabs l := by
  have hsp : ∀ c ∈ suffix, isSpace c = true := by
    intro c hc; rcases hs with rfl | rfl
    · simp at hc
    · simp at hc; subst hc; decide
  have hnb : ∀ c ∈ suffix, isBlank c = false ∧ c ≠ '*' ∧ c ≠ '/' := by
    intro c hc; rcases hs with rfl | rfl
    · simp at hc
    · simp at hc; subst hc; decide
  by_cases hc : l.takeWhile isBlank ≠ [] ∧
      ((l.dropWhile isBlank).head? = some '*' ∨ (l.dropWhile isBlank).head? = some '/')
  · obtain ⟨d, b, hd⟩ : ∃ d b, l.dropWhile isBlank = d :: b := by
      cases hb : l.dropWhile isBlank with
      | nil => rw [hb] at hc; simp at hc
      | cons d b => exact ⟨d, b, rfl⟩
    have hds : isSpace d = false ∧ isBlank d = false := by
      rw [hd] at hc; simp at hc
      rcases hc.2 with rfl | rfl <;> decide
    obtain ⟨t, ht⟩ := rskipws_cons_nonspace d b hds.1
    have e1 : trimLine usetabs l = (strindent (strwidth (l.takeWhile isBlank) 0) usetabs 0).1 ++ d :: t := by
      unfold trimLine; simp only; rw [if_pos hc, hd, ht]
    rw [e1]
    generalize hw : strwidth (l.takeWhile isBlank) 0 = w
    have hpos : 0 < w := by
      rw [← hw, (strwidth_spec _ _).2]
      cases hl : l.takeWhile isBlank with
      | nil => simp [hl] at hc
      | cons x xs =>
        have : ∀ (y : List Char) (n : Nat), (∀ c ∈ y, isBlank c = true) → n ≤ column n y := by
          intro y
          induction y with
          | nil => intro n _; exact Nat.le_refl _
          | cons z y ih =>
            intro n hy
            rw [column_cons]
            refine Nat.le_trans ?_ (ih _ (fun c hc => hy c (List.mem_cons_of_mem _ hc)))
            have := blank_ne_nl (hy z (List.mem_cons_self ..))
            simp only [advance, this, if_false, nextTabStop]
            split <;> omega
        have hm : ∀ c ∈ x :: xs, isBlank c = true := by
          rw [← hl]; intro c hc; exact mem_takeWhile_imp hc
        rw [column_cons]
        refine Nat.lt_of_lt_of_le ?_ (this xs _ (fun c hc => hm c (List.mem_cons_of_mem _ hc)))
        have := blank_ne_nl (hm x (List.mem_cons_self ..))
        simp only [advance, this, if_false, nextTabStop]
        split <;> omega
    have hcol := strindent_width w 0 usetabs (Or.inl rfl)
    obtain ⟨tw, dw⟩ := takeWhile_blank_append _ d (t ++ suffix) (strindent_blank w 0 usetabs) hds.2
    unfold trimLine
    simp only
    rw [List.append_assoc, List.cons_append, tw, dw, (strwidth_spec _ _).2, hcol, Nat.zero_add, if_pos]
    · congr 1
      rw [← List.cons_append, rskipws_append_spaces _ _ hsp, ← ht, rskipws_idem]
    · refine ⟨?_, ?_⟩
      · intro he; rw [he] at hcol; simp [column] at hcol; omega
      · rw [hd] at hc; simpa using hc.2
  · have e1 : trimLine usetabs l = rskipws l := by
      unfold trimLine; simp only; rw [if_neg hc]
    rw [e1]
    have hno : ¬ ((rskipws l ++ suffix).takeWhile isBlank ≠ [] ∧
        (((rskipws l ++ suffix).dropWhile isBlank).head? = some '*' ∨
          ((rskipws l ++ suffix).dropWhile isBlank).head? = some '/')) := by
      intro hh
      apply hc
      have hsplit := List.takeWhile_append_dropWhile (p := isBlank) (l := rskipws l ++ suffix)
      cases hdr : (rskipws l ++ suffix).dropWhile isBlank with
      | nil => rw [hdr] at hh; simp at hh
      | cons d b =>
        rw [hdr] at hh hsplit
        have hdd : d = '*' ∨ d = '/' := by simpa using hh.2
        have hdb : isBlank d = false := by rcases hdd with rfl | rfl <;> decide
        -- `d` lies within `rskipws l`
        have hsuf : ∃ b', b = b' ++ suffix ∧
            rskipws l = (rskipws l ++ suffix).takeWhile isBlank ++ d :: b' := by
          rcases hs with rfl | rfl
          · exact ⟨b, by simp, by simpa using hsplit.symm⟩
          · rcases List.eq_nil_or_concat b with rfl | ⟨b', x, rfl⟩
            · have := congrArg List.getLast? hsplit
              simp at this
              rcases hdd with rfl | rfl <;> simp at this
            · have h1 := congrArg List.getLast? hsplit
              simp only [List.concat_eq_append, ← List.cons_append, ← List.append_assoc,
                List.getLast?_concat, Option.some.injEq] at h1
              subst h1
              refine ⟨b', by simp, ?_⟩
              have h2 := congrArg List.dropLast hsplit
              rw [List.dropLast_concat, List.concat_eq_append, ← List.cons_append,
                ← List.append_assoc, List.dropLast_concat] at h2
              exact h2.symm
        obtain ⟨b', rfl, hrl⟩ := hsuf
        obtain ⟨w, hw, _⟩ := rskipws_decomp l
        rw [hrl, List.append_assoc, List.cons_append] at hw
        have := takeWhile_blank_append _ d (b' ++ w)
          (fun x hx => mem_takeWhile_imp (l := rskipws l ++ suffix) hx) hdb
        rw [← hw] at this
        rw [this.1, this.2]
        exact ⟨hh.1, by simpa using hdd⟩
    unfold trimLine
    simp only
    rw [if_neg hno, rskipws_append_spaces _ _ hsp, rskipws_idem]

end Knfmt.Comment
