import Verif.Simple.Printf
/-!
# The newline of an error message: what is removed and what stays
-/
namespace Knfmt.Printf

open Knfmt.Expr (Tok)

namespace Spec

/-- The functions, and how many arguments are in front of the format. -/
def functions : List (String × Nat) := [
  ("perror", 0), ("warn", 0), ("warnx", 0), ("vwarn", 0), ("vwarnx", 0),
  ("err", 1), ("errx", 1), ("verr", 1), ("verrx", 1), ("warnc", 1), ("vwarnc", 1),
  ("errc", 2), ("verrc", 2)]

/-- A part of a string literal: a character, or a backslash and the character it escapes. -/
def Unit (u : List Char) : Prop :=
  (∃ c, c ≠ '"' ∧ c ≠ '\\' ∧ u = [c]) ∨ ∃ c, u = ['\\', c]

/-- `s` is the string literal made of the parts `us`. -/
def Literal (us : List (List Char)) (s : List Char) : Prop :=
  (∀ u ∈ us, Unit u) ∧ s = ['"'] ++ us.flatten ++ ['"']

/-- The token at `j` is the end of the format of the call starting at `i`: the name of a function
and a parenthesis, followed by arguments of a single token and then by one or many strings, the
last one of them is at `j`. -/
def Format (ts : List Tok) (i j : Nat) : Prop :=
  ∃ (pre : List Tok) (f lp : Tok) (args : List (Tok × Tok)) (strs : List Tok) (s : Tok)
    (rest : List Tok) (name : String),
    ts = pre ++ [f, lp] ++ args.flatMap (fun a => [a.1, a.2]) ++ strs ++ [s] ++ rest ∧
    pre.length = i ∧ f.ty = .ident ∧ lp.ty = .lparen ∧ (∀ a ∈ args, a.2.ty = .comma) ∧
    (∀ t ∈ strs, t.ty = .string) ∧ s.ty = .string ∧ (∀ t, rest.head? = some t → t.ty ≠ .string) ∧
    (name, args.length) ∈ functions ∧ f.str = name.toList ∧
    j = i + 2 + 2 * args.length + strs.length

end Spec

theorem identify_iff (tk : Tok) (n : Nat) :
    identify tk = some n ↔
      tk.ty = .ident ∧ ∃ name : String, (name, n) ∈ Spec.functions ∧ tk.str = name.toList := by
  unfold identify Spec.functions
  constructor
  · intro h
    split at h
    · simp at h
    · next hi =>
      have hi : tk.ty = .ident := by simpa using hi
      refine ⟨hi, ?_⟩
      split at h
      · next hn =>
        simp only [Option.some.injEq] at h; subst h
        rcases hn with h | h | h | h | h
        · exact ⟨"perror", by simp, h⟩
        · exact ⟨"vwarn", by simp, h⟩
        · exact ⟨"vwarnx", by simp, h⟩
        · exact ⟨"warn", by simp, h⟩
        · exact ⟨"warnx", by simp, h⟩
      · split at h
        · next hn =>
          simp only [Option.some.injEq] at h; subst h
          rcases hn with h | h | h | h | h | h
          · exact ⟨"err", by simp, h⟩
          · exact ⟨"errx", by simp, h⟩
          · exact ⟨"verr", by simp, h⟩
          · exact ⟨"verrx", by simp, h⟩
          · exact ⟨"vwarnc", by simp, h⟩
          · exact ⟨"warnc", by simp, h⟩
        · split at h
          · next hn =>
            simp only [Option.some.injEq] at h; subst h
            rcases hn with h | h
            · exact ⟨"errc", by simp, h⟩
            · exact ⟨"verrc", by simp, h⟩
          · simp at h
  · rintro ⟨hi, name, hm, hs⟩
    simp only [List.mem_cons, Prod.mk.injEq, List.not_mem_nil, or_false] at hm
    rw [hs, hi]
    rcases hm with ⟨rfl, rfl⟩ | ⟨rfl, rfl⟩ | ⟨rfl, rfl⟩ | ⟨rfl, rfl⟩ | ⟨rfl, rfl⟩ | ⟨rfl, rfl⟩ |
      ⟨rfl, rfl⟩ | ⟨rfl, rfl⟩ | ⟨rfl, rfl⟩ | ⟨rfl, rfl⟩ | ⟨rfl, rfl⟩ | ⟨rfl, rfl⟩ | ⟨rfl, rfl⟩ <;>
      decide +kernel

theorem skipArgs_iff (k : Nat) (ts : List Tok) (n : Nat) (m : Nat) (rest : List Tok) :
    skipArgs k ts n = some (m, rest) ↔
      ∃ args : List (Tok × Tok), args.length = k ∧ (∀ a ∈ args, a.2.ty = .comma) ∧
        ts = args.flatMap (fun a => [a.1, a.2]) ++ rest ∧ m = n + 2 * k := by
  induction k generalizing ts n with
  | zero =>
    simp only [skipArgs, Option.some.injEq, Prod.mk.injEq]
    constructor
    · rintro ⟨rfl, rfl⟩
      exact ⟨[], rfl, by simp, by simp, by simp⟩
    · rintro ⟨args, h0, -, h, h2⟩
      rw [List.length_eq_zero_iff.mp h0] at h
      simp only [List.flatMap_nil, List.nil_append] at h
      exact ⟨by omega, h⟩
  | succ k ih =>
    constructor
    · intro h
      match ts, h with
      | a :: c :: ts, h =>
        rw [skipArgs] at h
        split at h
        · next hc =>
          obtain ⟨args, hl, hall, e, hm⟩ := (ih ts (n + 2)).mp h
          refine ⟨(a, c) :: args, by simp [hl], ?_, by simp [e], by omega⟩
          intro x hx
          rcases List.mem_cons.mp hx with rfl | hx
          · exact hc
          · exact hall x hx
        · simp at h
      | [], h => simp [skipArgs] at h
      | [_], h => simp [skipArgs] at h
    · rintro ⟨args, hl, hall, e, hm⟩
      match args, hl with
      | (a, c) :: args, hl =>
        have hc : c.ty = .comma := hall (a, c) (by simp)
        have hr := (ih (args.flatMap (fun a => [a.1, a.2]) ++ rest) (n + 2)).mpr
          ⟨args, by simpa using hl, fun x hx => hall x (by simp [hx]), rfl, by omega⟩
        rw [e]
        simp only [List.flatMap_cons, List.cons_append, List.nil_append]
        rw [skipArgs, if_pos hc]
        exact hr

theorem lastString_spec (ts : List Tok) (n : Nat) (last : Option Nat) :
    ∃ strs rest : List Tok, ts = strs ++ rest ∧ (∀ t ∈ strs, t.ty = .string) ∧
      (∀ t, rest.head? = some t → t.ty ≠ .string) ∧
      lastString ts n last = if strs = [] then last else some (n + strs.length - 1) := by
  induction ts generalizing n last with
  | nil => exact ⟨[], [], rfl, by simp, by simp, by simp [lastString]⟩
  | cons t ts ih =>
    by_cases ht : t.ty = .string
    · obtain ⟨strs, rest, e, h1, h2, h3⟩ := ih (n + 1) (some n)
      refine ⟨t :: strs, rest, by simp [e], ?_, h2, ?_⟩
      · intro x hx
        rcases List.mem_cons.mp hx with rfl | hx
        · exact ht
        · exact h1 x hx
      · rw [lastString, if_pos ht, h3]
        by_cases hs : strs = []
        · simp [hs]
        · simp only [hs, if_false, List.cons_ne_nil, List.length_cons]
          congr 1
          have := List.length_pos_iff.mpr hs
          omega
    · refine ⟨[], t :: ts, rfl, by simp, ?_, by rw [lastString, if_neg ht]; simp⟩
      intro x hx
      simp only [List.head?_cons, Option.some.injEq] at hx
      rw [← hx]; exact ht

/-- Runs of strings are unique. -/
theorem run_unique {a b c d : List Tok} (e : a ++ b = c ++ d) (ha : ∀ t ∈ a, t.ty = .string)
    (hc : ∀ t ∈ c, t.ty = .string) (hb : ∀ t, b.head? = some t → t.ty ≠ .string)
    (hd : ∀ t, d.head? = some t → t.ty ≠ .string) : a = c ∧ b = d := by
  induction a generalizing c with
  | nil =>
    cases c with
    | nil => exact ⟨rfl, e⟩
    | cons x c =>
      simp only [List.nil_append] at e
      exact absurd (hc x (by simp)) (hb x (by rw [e]; rfl))
  | cons x a ih =>
    cases c with
    | nil =>
      simp only [List.nil_append] at e
      exact absurd (ha x (by simp)) (hd x (by rw [← e]; rfl))
    | cons y c =>
      simp only [List.cons_append, List.cons.injEq] at e
      obtain ⟨rfl, e⟩ := e
      obtain ⟨h1, h2⟩ := ih e (fun t ht => ha t (by simp [ht])) (fun t ht => hc t (by simp [ht]))
      exact ⟨by rw [h1], h2⟩

/-- The token found is the one of the specification. -/
theorem find_iff (ts : List Tok) (i j : Nat) :
    Spec.Format ts i j ↔ ∃ tk argno k, ts[i]? = some tk ∧ identify tk = some argno ∧
      findInner argno (ts.drop i) = some k ∧ j = i + k := by
  constructor
  · rintro ⟨pre, f, lp, args, strs, s, rest, name, e, hi, hf, hlp, hargs, hstrs, hs, hrest, hname, hn,
      hj⟩
    have hd : ts.drop i = f :: lp :: (args.flatMap (fun a => [a.1, a.2]) ++ (strs ++ [s] ++ rest)) := by
      rw [e, ← hi]
      simp
    refine ⟨f, args.length, 2 + 2 * args.length + strs.length, ?_, ?_, ?_, by omega⟩
    · have := congrArg List.head? hd
      rw [List.head?_drop] at this
      exact this
    · exact (identify_iff f args.length).mpr ⟨hf, name, hname, hn⟩
    · rw [hd, findInner, if_pos ⟨hf, hlp⟩]
      rw [(skipArgs_iff args.length _ 2 (2 + 2 * args.length) (strs ++ [s] ++ rest)).mpr
        ⟨args, rfl, hargs, rfl, rfl⟩]
      dsimp only
      obtain ⟨ss, r, e', h1, h2, h3⟩ := lastString_spec (strs ++ [s] ++ rest) (2 + 2 * args.length) none
      obtain ⟨hu, -⟩ := run_unique e' (by
        intro t ht
        rcases List.mem_append.mp ht with ht | ht
        · exact hstrs t ht
        · rw [List.mem_singleton.mp ht]; exact hs) h1 hrest h2
      rw [h3, ← hu]
      simp
  · rintro ⟨tk, argno, k, hi, hid, hf, hj⟩
    have hlt : i < ts.length := by
      rcases Nat.lt_or_ge i ts.length with h | h
      · exact h
      · rw [List.getElem?_eq_none h] at hi; simp at hi
    have hhd : (ts.drop i).head? = some tk := by rw [List.head?_drop]; exact hi
    generalize hdd : ts.drop i = d at hf hhd
    match d, hf with
    | f :: lp :: r, hf =>
      simp only [List.head?_cons, Option.some.injEq] at hhd
      subst hhd
      rw [findInner] at hf
      split at hf
      · next hc =>
        split at hf
        · simp at hf
        · next m r' hsk =>
          obtain ⟨args, hl, hall, er, hm⟩ := (skipArgs_iff argno r 2 m r').mp hsk
          obtain ⟨strs, rest, es, h1, h2, h3⟩ := lastString_spec r' m none
          rw [h3] at hf
          split at hf
          · simp at hf
          · next hne =>
            simp only [Option.some.injEq] at hf
            obtain ⟨-, name, hname, hn⟩ := (identify_iff f argno).mp hid
            have hsl := List.dropLast_concat_getLast hne
            refine ⟨ts.take i, f, lp, args, strs.dropLast, strs.getLast hne, rest, name, ?_, ?_, hc.1,
              hc.2, hall, ?_, ?_, h2, by rw [hl]; exact hname, hn, ?_⟩
            · calc ts = ts.take i ++ ts.drop i := (List.take_append_drop i ts).symm
                _ = ts.take i ++ (f :: lp :: (args.flatMap (fun a => [a.1, a.2]) ++
                      ((strs.dropLast ++ [strs.getLast hne]) ++ rest))) := by rw [hdd, er, es, hsl]
                _ = _ := by simp
            · simp; omega
            · intro t ht
              exact h1 t (List.dropLast_subset _ ht)
            · exact h1 _ (List.getLast_mem hne)
            · have := List.length_pos_iff.mpr hne
              simp only [List.length_dropLast]
              omega
      · simp at hf
    | [], hf => simp [findInner] at hf
    | [_], hf => simp [findInner] at hf

theorem unit_ne_nil {u : List Char} (h : Spec.Unit u) : u ≠ [] := by
  rcases h with ⟨c, -, -, rfl⟩ | ⟨c, rfl⟩ <;> simp

theorem hasLine_iff (s : List Char) : hasLine s = true ↔ ∃ p, s = p ++ ['\\', 'n', '"'] := by
  unfold hasLine
  simp only [Bool.and_eq_true, decide_eq_true_eq]
  constructor
  · rintro ⟨h, e⟩
    exact ⟨s.take (s.length - 3), by rw [← e, List.take_append_drop]⟩
  · rintro ⟨p, rfl⟩
    simp

theorem flatten_last {us : List (List Char)} {p : List Char} {c : Char} (hu : ∀ u ∈ us, Spec.Unit u)
    (h : us.flatten = p ++ [c]) :
    ∃ us' u, us = us' ++ [u] ∧ ((u = [c] ∧ c ≠ '"' ∧ c ≠ '\\' ∧ us'.flatten = p) ∨
      (u = ['\\', c] ∧ us'.flatten ++ ['\\'] = p)) := by
  rcases List.eq_nil_or_concat us with rfl | ⟨us', u, rfl⟩
  · simp at h
  · refine ⟨us', u, by simp, ?_⟩
    rcases hu u (by simp) with ⟨d, h1, h2, rfl⟩ | ⟨d, rfl⟩
    · simp only [List.concat_eq_append, List.flatten_append, List.flatten_cons, List.flatten_nil,
        List.append_nil] at h
      obtain ⟨hh, hd⟩ := List.append_inj' h rfl
      simp only [List.cons.injEq, and_true] at hd
      subst hd
      exact Or.inl ⟨rfl, h1, h2, hh⟩
    · simp only [List.concat_eq_append, List.flatten_append, List.flatten_cons, List.flatten_nil,
        List.append_nil] at h
      have h : (us'.flatten ++ ['\\']) ++ [d] = p ++ [c] := by simpa using h
      obtain ⟨hh, hd⟩ := List.append_inj' h rfl
      simp only [List.cons.injEq, and_true] at hd
      subst hd
      exact Or.inr ⟨rfl, hh⟩

/-- The end of a literal decides. -/
theorem hasLine_literal {us : List (List Char)} {s : List Char} (h : Spec.Literal us s) :
    hasLine s = true ↔
      (∃ us', us = us' ++ [['\\', 'n']]) ∨ ∃ us', us = us' ++ [['\\', '\\'], ['n']] := by
  obtain ⟨hu, rfl⟩ := h
  rw [hasLine_iff]
  constructor
  · rintro ⟨p, e⟩
    have e : ['"'] ++ us.flatten = p ++ ['\\', 'n'] := by
      have e' : (['"'] ++ us.flatten) ++ ['"'] = (p ++ ['\\', 'n']) ++ ['"'] := by simpa using e
      exact (List.append_inj' e' rfl).1
    cases p with
    | nil => simp at e
    | cons q p =>
      have e : us.flatten = (p ++ ['\\']) ++ ['n'] := by
        simp only [List.cons_append, List.nil_append, List.cons.injEq] at e
        simpa using e.2
      obtain ⟨us', u, rfl, h | h⟩ := flatten_last hu e
      · obtain ⟨us'', v, rfl, h' | h'⟩ := flatten_last (fun u hu' => hu u (by simp [hu'])) h.2.2.2
        · exact absurd rfl h'.2.2.1
        · right
          exact ⟨us'', by rw [h.1, h'.1]; simp⟩
      · left
        exact ⟨us', by rw [h.1]⟩
  · rintro (⟨us', rfl⟩ | ⟨us', rfl⟩)
    · exact ⟨'"' :: us'.flatten, by simp⟩
    · exact ⟨'"' :: us'.flatten ++ ['\\'], by simp⟩

theorem sanitize_eq {p : List Char} (h : '\x00' ∉ p) :
    sanitize ('"' :: p ++ ['\\', 'n', '"']) = '"' :: p ++ ['"'] := by
  have ht : ((p ++ ['\\', 'n', '"']).takeWhile (fun c => decide (c ≠ '\x00'))) = p ++ ['\\', 'n', '"'] := by
    rw [List.takeWhile_append_of_pos]
    · rfl
    · intro c hc
      simp only [decide_eq_true_eq]
      rintro rfl
      exact h hc
  unfold sanitize
  simp only [List.cons_append, List.drop_one, List.tail_cons, ht]
  rw [if_pos (by simp)]
  simp

/-- A literal has only one list of parts. -/
theorem literal_unique {us vs : List (List Char)} {s : List Char} (h1 : Spec.Literal us s)
    (h2 : Spec.Literal vs s) : us = vs := by
  obtain ⟨hu, e1⟩ := h1
  obtain ⟨hv, e2⟩ := h2
  have e : us.flatten = vs.flatten := by
    have := e1.symm.trans e2
    exact List.append_cancel_left (List.append_cancel_right this)
  clear e1 e2
  induction us generalizing vs with
  | nil =>
    cases vs with
    | nil => rfl
    | cons v vs =>
      have := unit_ne_nil (hv v (by simp))
      simp only [List.flatten_nil, List.flatten_cons] at e
      exact absurd (List.append_eq_nil_iff.mp e.symm).1 this
  | cons u us ih =>
    cases vs with
    | nil =>
      have := unit_ne_nil (hu u (by simp))
      simp only [List.flatten_nil, List.flatten_cons] at e
      exact absurd (List.append_eq_nil_iff.mp e).1 this
    | cons v vs =>
      have key : u = v ∧ us.flatten = vs.flatten := by
        rcases hu u (by simp) with ⟨c, h1, h2, rfl⟩ | ⟨c, rfl⟩ <;>
          rcases hv v (by simp) with ⟨d, h3, h4, rfl⟩ | ⟨d, rfl⟩ <;>
          simp only [List.flatten_cons, List.cons_append, List.nil_append, List.cons.injEq] at e
        · exact ⟨by rw [e.1], e.2⟩
        · exact absurd e.1 h2
        · exact absurd e.1.symm h4
        · exact ⟨by rw [e.2.1], e.2.2⟩
      rw [key.1, ih (fun u h => hu u (by simp [h])) (fun u h => hv u (by simp [h])) key.2]

theorem simple_of_format {ts : List Tok} {i j : Nat} {t : Tok} (h : Spec.Format ts i j)
    (ht : ts[j]? = some t) :
    simpleExprPrintf ts i =
      if hasLine t.str then ts.set j { t with str := sanitize t.str } else ts := by
  obtain ⟨tk, argno, k, h1, h2, h3, rfl⟩ := (find_iff ts i j).mp h
  simp only [simpleExprPrintf, h1, h2, h3, ht]

/-- C34. Only the text of the end of the format of a call of one of the functions can be changed,
and of a plain string literal exactly the escaped newline in front of the closing quote is removed, if
there is one.

Partial: literals ending in an escaped backslash and the letter n, wide literals and literals
with a NUL in them are changed in other ways, see `simplify_printf_fails`. -/
theorem simplify_printf_partial (ts : List Tok) (i : Nat) :
    ((∀ j, ¬ Spec.Format ts i j) → simpleExprPrintf ts i = ts) ∧
    ∀ j, Spec.Format ts i j → ∃ t, ts[j]? = some t ∧ t.ty = .string ∧
      (∃ s, simpleExprPrintf ts i = ts.set j { t with str := s }) ∧
      ∀ us, Spec.Literal us t.str → '\x00' ∉ t.str → (∀ us', us ≠ us' ++ [['\\', '\\'], ['n']]) →
        (∀ us', us = us' ++ [['\\', 'n']] →
          ∃ s, Spec.Literal us' s ∧ simpleExprPrintf ts i = ts.set j { t with str := s }) ∧
        ((∀ us', us ≠ us' ++ [['\\', 'n']]) → simpleExprPrintf ts i = ts) := by
  constructor
  · intro h
    unfold simpleExprPrintf
    split
    · rfl
    · next tk h1 =>
      split
      · rfl
      · next argno h2 =>
        split
        · rfl
        · next k h3 => exact absurd ((find_iff ts i (i + k)).mpr ⟨tk, argno, k, h1, h2, h3, rfl⟩) (h _)
  · intro j hf
    have hf' := hf
    obtain ⟨pre, f, lp, args, strs, t, rest, name, e, hi, -, -, -, -, hs, -, -, -, hj⟩ := hf'
    have hlen : ∀ l : List (Tok × Tok), (l.flatMap fun a => [a.1, a.2]).length = 2 * l.length := by
      intro l
      induction l with
      | nil => rfl
      | cons a l ih => simp only [List.flatMap_cons, List.length_append, ih, List.length_cons, List.length_nil]; omega
    have ht : ts[j]? = some t := by
      rw [e, List.append_assoc, List.getElem?_append_right (by simp [hlen]; omega)]
      have : j - (pre ++ [f, lp] ++ args.flatMap (fun a => [a.1, a.2]) ++ strs).length = 0 := by
        simp [hlen]; omega
      rw [this]; rfl
    have hset : ts.set j t = ts := by
      obtain ⟨hlt, hget⟩ := List.getElem?_eq_some_iff.mp ht
      rw [← hget]
      exact List.set_getElem_self hlt
    have hsim := simple_of_format hf ht
    refine ⟨t, ht, hs, ?_, ?_⟩
    · rw [hsim]
      split
      · exact ⟨_, rfl⟩
      · exact ⟨t.str, hset.symm⟩
    · intro us hl hnul hbs
      constructor
      · rintro us' rfl
        refine ⟨['"'] ++ us'.flatten ++ ['"'], ⟨fun u hu => hl.1 u (by simp [hu]), rfl⟩, ?_⟩
        rw [hsim, if_pos ((hasLine_literal hl).mpr (Or.inl ⟨us', rfl⟩))]
        have ht' : t.str = '"' :: us'.flatten ++ ['\\', 'n', '"'] := by rw [hl.2]; simp
        rw [ht', sanitize_eq]
        · rfl
        · intro hm
          apply hnul
          rw [ht']
          simp only [List.cons_append, List.mem_cons, List.mem_append]
          exact Or.inr (Or.inl hm)
      · intro hn
        rw [hsim, if_neg]
        intro hc
        rcases (hasLine_literal hl).mp hc with ⟨us', rfl⟩ | ⟨us', rfl⟩
        · exact hn us' rfl
        · exact hbs us' rfl

/-- The tokens of a call of `warnx` with a single string. -/
def warnx (s : String) : List Tok :=
  [⟨0, .ident, "warnx".toList⟩, ⟨1, .lparen, ['(']⟩, ⟨2, .string, s.toList⟩, ⟨3, .rparen, [')']⟩]

theorem warnx_format (s : String) : Spec.Format (warnx s) 0 2 :=
  ⟨[], ⟨0, .ident, "warnx".toList⟩, ⟨1, .lparen, ['(']⟩, [], [], ⟨2, .string, s.toList⟩,
    [⟨3, .rparen, [')']⟩], "warnx", rfl, rfl, rfl, rfl, by simp, by simp, rfl, by simp,
    by simp [Spec.functions], rfl, rfl⟩

/-- The full statement of C34 is false: in `"C:\\n"` the backslash is escaped and there is no newline,
but what is written is `"C:\"`, which is not a string literal. Out of `L"a\n"` comes `""a"`. -/
theorem simplify_printf_fails :
    (Spec.Format (warnx "\"C:\\\\n\"") 0 2 ∧
      Spec.Literal [['C'], [':'], ['\\', '\\'], ['n']] "\"C:\\\\n\"".toList ∧
      simpleExprPrintf (warnx "\"C:\\\\n\"") 0 = warnx "\"C:\\\"" ∧
      ¬ ∃ us, Spec.Literal us "\"C:\\\"".toList) ∧
    simpleExprPrintf (warnx "L\"a\\n\"") 0 = warnx "\"\"a\"" := by
  refine ⟨⟨warnx_format _, ⟨?_, rfl⟩, by decide +kernel, ?_⟩, by decide +kernel⟩
  · intro u hu
    simp only [List.mem_cons, List.not_mem_nil, or_false] at hu
    rcases hu with rfl | rfl | rfl | rfl
    · exact Or.inl ⟨'C', by decide, by decide, rfl⟩
    · exact Or.inl ⟨':', by decide, by decide, rfl⟩
    · exact Or.inr ⟨'\\', rfl⟩
    · exact Or.inl ⟨'n', by decide, by decide, rfl⟩
  · rintro ⟨us, hu, e⟩
    have e : us.flatten = ['C', ':'] ++ ['\\'] := by
      have e' : ['"'] ++ (['C', ':'] ++ ['\\']) ++ ['"'] = ['"'] ++ us.flatten ++ ['"'] := e
      exact (List.append_cancel_left (List.append_cancel_right e')).symm
    obtain ⟨us', u, rfl, h | h⟩ := flatten_last hu e
    · exact h.2.2.1 rfl
    · have h2 : us'.flatten ++ ['\\'] = ['C'] ++ [':'] := h.2
      have := (List.append_inj' h2 rfl).2
      exact absurd this (by decide)

/-- A call meeting the hypotheses: `errc(1, e, "a" "b\n", x)`. -/
def errcCall (s : String) : List Tok :=
  [⟨0, .ident, "errc".toList⟩, ⟨1, .lparen, ['(']⟩, ⟨2, .literal, ['1']⟩, ⟨3, .comma, [',']⟩,
   ⟨4, .ident, ['e']⟩, ⟨5, .comma, [',']⟩, ⟨6, .string, "\"a\"".toList⟩, ⟨7, .string, s.toList⟩,
   ⟨8, .comma, [',']⟩, ⟨9, .ident, ['x']⟩, ⟨10, .rparen, [')']⟩]

example : Spec.Format (errcCall "\"b\\n\"") 0 7 ∧
    Spec.Literal [['b'], ['\\', 'n']] "\"b\\n\"".toList ∧ '\x00' ∉ "\"b\\n\"".toList ∧
    simpleExprPrintf (errcCall "\"b\\n\"") 0 = errcCall "\"b\"" := by
  refine ⟨⟨[], ⟨0, .ident, "errc".toList⟩, ⟨1, .lparen, ['(']⟩,
    [(⟨2, .literal, ['1']⟩, ⟨3, .comma, [',']⟩), (⟨4, .ident, ['e']⟩, ⟨5, .comma, [',']⟩)],
    [⟨6, .string, "\"a\"".toList⟩], ⟨7, .string, "\"b\\n\"".toList⟩,
    [⟨8, .comma, [',']⟩, ⟨9, .ident, ['x']⟩, ⟨10, .rparen, [')']⟩], "errc", rfl, rfl, rfl, rfl, ?_, ?_,
    rfl, ?_, by simp [Spec.functions], rfl, rfl⟩, ⟨?_, rfl⟩, by decide +kernel, by decide +kernel⟩
  · simp
  · simp
  · simp
  · intro u hu
    simp only [List.mem_cons, List.not_mem_nil, or_false] at hu
    rcases hu with rfl | rfl
    · exact Or.inl ⟨'b', by decide, by decide, rfl⟩
    · exact Or.inr ⟨'n', rfl⟩

example : simpleExprPrintf (errcCall "\"b\\\\n\\n\"") 0 = errcCall "\"b\\\\n\"" := by decide +kernel

end Knfmt.Printf
