import Verif.Stream.Props
/-! # Editing the token stream, lexer.c:471-548 and token.c:449-531 (C16) -/
namespace Knfmt.Stream

open Knfmt.Lexer (TT Flags)

/-- A comment, directive or space attached to a token: an element of `tk_prefixes` or
`tk_suffixes`. `id` stands for its address. -/
structure Fix where
  id : Nat
  type : TT
  flags : Flags := {}
deriving DecidableEq, Repr

/-- A token in `lx_tokens`, token.h:183-230. `id` stands for its address. Columns and text
are not modelled. -/
structure Node where
  id : Nat
  type : TT
  flags : Flags := {}
  lno : Nat := 0
  prefixes : List Fix := []
  suffixes : List Fix := []
deriving DecidableEq, Repr

/-- `clang_token_move_prefixes`, clang.c:414-423: the list of `dst` afterwards, that of `src`
is empty. The update of branch flags in `token_move_prefix`, clang.c:1358-1374, is modelled
in `Verif.Stream.Branch`. -/
def movePrefixes (src dst : List Fix) : List Fix :=
  if h : src = [] then dst else movePrefixes src.dropLast (src.getLast h :: dst)
termination_by src.length
decreasing_by
  have := List.length_pos_iff.mpr h
  simp; omega

/-- `token_move_suffixes`, token.c:507-517: the list of `dst` afterwards, that of `src` is
empty. -/
def moveSuffixes : List Fix → List Fix → List Fix
  | [], dst => dst
  | x :: src, dst => moveSuffixes src (dst ++ [x])

/-- `token_move_suffixes_if`, token.c:519-531: the lists of `src` and `dst` afterwards. -/
def moveSuffixesIf (type : TT) : List Fix → List Fix → List Fix × List Fix
  | [], dst => ([], dst)
  | x :: src, dst =>
    if x.type ≠ type then
      let r := moveSuffixesIf type src dst
      (x :: r.1, r.2)
    else moveSuffixesIf type src (dst ++ [x])

/-- `lexer_remove`, lexer.c:525-548, of the token at position `i`; `none` if an assertion
fails. The second component is `st_tk`. -/
def remove (ts : List Node) (st : Option Nat) (i : Nat) : Option (List Node × Option Nat) :=
  match ts[i]?, ts[i + 1]? with
  | some tk, some nx =>
    if tk.type = .eof then none
    else
      let nx := { nx with prefixes := movePrefixes tk.prefixes nx.prefixes }
      let ts := ts.set (i + 1) nx
      let ts :=
        match (if i = 0 then none else ts[i - 1]?) with
        | some pv => ts.set (i - 1) { pv with suffixes := moveSuffixes tk.suffixes pv.suffixes }
        | none => ts.set (i + 1) { nx with suffixes := moveSuffixes tk.suffixes nx.suffixes }
      let st :=
        if st = some tk.id then (if i = 0 then none else (ts[i - 1]?).map (·.id)) else st
      some (ts.eraseIdx i, st)
  | _, _ => none

/-- `lexer_copy_token_list`, lexer.c:1040-1052: fresh addresses from `n` on. -/
def copyFixes (n : Nat) : List Fix → List Fix
  | [] => []
  | x :: xs => { x with id := n } :: copyFixes (n + 1) xs

/-- The token made by `lexer_copy_after`, lexer.c:476-479; `n` is the first fresh address. -/
def copied (after src : Node) (n : Nat) : Node :=
  { src with
    id := n, lno := after.lno
    prefixes := copyFixes (n + 1) src.prefixes
    suffixes := copyFixes (n + 1 + src.prefixes.length) src.suffixes }

/-- `lexer_copy_after`, lexer.c:471-482, after the token at position `i`. -/
def copyAfter (ts : List Node) (i : Nat) (src : Node) (n : Nat) : Option (List Node) :=
  match ts[i]? with
  | none => none
  | some after =>
    some (ts.insertIdx (i + 1) (copied after src n))

/-- The token made by `lexer_insert_after`, lexer.c:490-492, and `token_flags_inherit`,
token.c:533-537. -/
def inserted (after defn : Node) (n : Nat) : Node :=
  { defn with
    id := n, lno := after.lno, prefixes := [], suffixes := []
    flags := { defn.flags with diff := defn.flags.diff || after.flags.diff } }

/-- `lexer_insert_after`, lexer.c:484-495. -/
def insertAfter (ts : List Node) (i : Nat) (defn : Node) (n : Nat) : Option (List Node) :=
  match ts[i]? with
  | none => none
  | some after =>
    some (ts.insertIdx (i + 1) (inserted after defn n))

/-- The position of a token after the one at position `k` is taken out. -/
def shifted (i k : Nat) : Nat := if k < i then i - 1 else i

/-- `lexer_move_after`, lexer.c:497-504: the token at position `k` is put after the one at
position `i`. -/
def moveAfter (ts : List Node) (i k : Nat) : Option (List Node) :=
  match ts[i]?, ts[k]? with
  | some after, some tk =>
    if i = k then none
    else some ((ts.eraseIdx k).insertIdx (shifted i k + 1) { tk with lno := after.lno })
  | _, _ => none

/-- The first loop of `token_list_swap`, token.c:458-468: the lists `src` and `tmp`. As the
loop looks at the first token of `src` in every one of its `n` rounds, `before` is that token
if `src` does not run empty. -/
def swapOut (keep : Flags → Bool) : Nat → List Fix → List Fix → List Fix × List Fix
  | 0, src, tmp => (src, tmp)
  | _ + 1, [], tmp => ([], tmp)
  | n + 1, x :: src, tmp =>
    if keep x.flags then swapOut keep n (x :: src) tmp else swapOut keep n src (tmp ++ [x])

/-- The second loop of `token_list_swap`, token.c:470-479: `dst` and what is inserted into
`src`, in order. -/
def swapIn (keep : Flags → Bool) : List Fix → List Fix × List Fix
  | [] => ([], [])
  | x :: dst =>
    let r := swapIn keep dst
    if keep x.flags then (x :: r.1, r.2) else (r.1, x :: r.2)

/-- `token_list_swap`, token.c:449-486: the lists `src` and `dst` afterwards. -/
def swapLists (keepSrc keepDst : Flags → Bool) (src dst : List Fix) : List Fix × List Fix :=
  let a := swapOut keepSrc src.length src []
  let b := swapIn keepDst dst
  (b.2 ++ a.1, moveSuffixes a.2 b.1)

/-- `token_is_first`, token.c:394-401. -/
def isFirst (ts : List Node) (k : Nat) : Bool :=
  match (if k = 0 then none else ts[k - 1]?), ts[k]? with
  | some pv, some tk => decide (pv.lno ≠ tk.lno)
  | _, _ => true

/-- `lexer_move_before`, lexer.c:506-523: the token at position `k` is put before the one at
position `i`. -/
def moveBefore (ts : List Node) (i k : Nat) : Option (List Node) :=
  match ts[i]?, ts[k]? with
  | some before, some mv =>
    if i = k then none
    else
      let keepDst : Flags → Bool := if isFirst ts k then (·.optspace) else fun _ => false
      let s := swapLists (·.optline) keepDst before.suffixes mv.suffixes
      let mv := { mv with
        lno := before.lno, prefixes := movePrefixes before.prefixes mv.prefixes, suffixes := s.2 }
      let before := { before with prefixes := [], suffixes := s.1 }
      some (((ts.set i before).eraseIdx k).insertIdx (shifted i k) mv)
  | _, _ => none

end Knfmt.Stream

namespace Knfmt.Spec

open Knfmt.Stream

/-- What is attached to the tokens, in the order of the text. -/
def attached (ts : List Node) : List Fix := ts.flatMap fun t => t.prefixes ++ t.suffixes

/-- Comments and directives: what is attached, without spaces. -/
def comments (ts : List Node) : List Fix := (attached ts).filter fun f => f.type ≠ .space

end Knfmt.Spec

namespace Knfmt.Stream

open Knfmt.Lexer (TT Flags)
open Knfmt.Spec (attached comments)

theorem movePrefixes_eq (src dst : List Fix) : movePrefixes src dst = src ++ dst := by
  induction hm : src.length using Nat.strongRecOn generalizing src dst with
  | ind m ih =>
    subst hm
    rw [movePrefixes]
    split
    · rename_i h; simp [h]
    · rename_i h
      have := List.length_pos_iff.mpr h
      rw [ih src.dropLast.length (by simp; omega) _ _ rfl]
      conv => rhs; rw [← List.dropLast_concat_getLast h]
      simp

theorem moveSuffixes_eq (src dst : List Fix) : moveSuffixes src dst = dst ++ src := by
  induction src generalizing dst with
  | nil => simp [moveSuffixes]
  | cons x src ih => simp [moveSuffixes, ih]

theorem moveSuffixesIf_eq (ty : TT) (src dst : List Fix) :
    moveSuffixesIf ty src dst
      = (src.filter (fun f => f.type ≠ ty), dst ++ src.filter (fun f => f.type = ty)) := by
  induction src generalizing dst with
  | nil => simp [moveSuffixesIf]
  | cons x src ih =>
    by_cases h : x.type = ty
    · simp [moveSuffixesIf, h, ih]
    · simp [moveSuffixesIf, h, ih]

/-! ## Removing -/

/-- What `lexer_remove` does to a token between others. -/
theorem remove_mid (pre post : List Node) (pv tk nx : Node) (st : Option Nat) (h : tk.type ≠ .eof) :
    remove (pre ++ pv :: tk :: nx :: post) st (pre.length + 1)
      = some (pre ++ { pv with suffixes := pv.suffixes ++ tk.suffixes }
          :: { nx with prefixes := tk.prefixes ++ nx.prefixes } :: post,
        if st = some tk.id then some pv.id else st) := by
  have e1 : (pre ++ pv :: tk :: nx :: post)[pre.length + 1]? = some tk := by
    rw [List.getElem?_append_right (by omega)]; simp
  have e2 : (pre ++ pv :: tk :: nx :: post)[pre.length + 1 + 1]? = some nx := by
    rw [List.getElem?_append_right (by omega)]
    rw [show pre.length + 1 + 1 - pre.length = 2 from by omega]; rfl
  simp only [remove, e1, e2, if_neg h, movePrefixes_eq, moveSuffixes_eq]
  rw [if_neg (by omega : ¬ pre.length + 1 = 0)]
  have e3 : ∀ x : Node, (pre ++ pv :: tk :: nx :: post).set (pre.length + 1 + 1) x
      = pre ++ pv :: tk :: x :: post := by
    intro x
    rw [List.set_append_right _ _ (by omega)]
    rw [show pre.length + 1 + 1 - pre.length = 2 from by omega]; rfl
  simp only [e3]
  have e4 : ∀ x : Node, (pre ++ pv :: tk :: x :: post)[pre.length + 1 - 1]? = some pv := by
    intro x; simp
  simp only [e4]
  have e5 : ∀ x y : Node, (pre ++ pv :: tk :: x :: post).set (pre.length + 1 - 1) y
      = pre ++ y :: tk :: x :: post := by
    intro x y; simp
  simp only [e5]
  have e6 : ∀ x y : Node, (pre ++ y :: tk :: x :: post).eraseIdx (pre.length + 1)
      = pre ++ y :: x :: post := by
    intro x y
    rw [List.eraseIdx_append_of_length_le (by omega)]
    rw [show pre.length + 1 - pre.length = 1 from by omega]; rfl
  simp only [e6]
  congr 2
  split
  · simp
  · rfl

/-- What `lexer_remove` does to the first token. -/
theorem remove_first (post : List Node) (tk nx : Node) (st : Option Nat) (h : tk.type ≠ .eof) :
    remove (tk :: nx :: post) st 0
      = some ({ nx with prefixes := tk.prefixes ++ nx.prefixes
                        suffixes := nx.suffixes ++ tk.suffixes } :: post,
        if st = some tk.id then none else st) := by
  simp [remove, h, movePrefixes_eq, moveSuffixes_eq]

/-- A token that is not the last is the first, or between others. -/
theorem split_at {ts : List Node} {i : Nat} (h : i + 1 < ts.length) :
    (i = 0 ∧ ∃ tk nx post, ts = tk :: nx :: post ∧ ts[i]? = some tk) ∨
    ∃ pre pv tk nx post, ts = pre ++ pv :: tk :: nx :: post ∧ i = pre.length + 1 ∧
      ts[i]? = some tk := by
  cases i with
  | zero =>
    left
    match ts, h with
    | tk :: nx :: post, _ => exact ⟨rfl, tk, nx, post, rfl, rfl⟩
  | succ i =>
    right
    have hi : i < ts.length := by omega
    obtain ⟨tk, hk⟩ : ∃ tk, ts[i + 1]? = some tk := ⟨_, List.getElem?_eq_getElem (by omega)⟩
    refine ⟨ts.take i, ts[i], tk, ts[i + 2], ts.drop (i + 3), ?_, by simp; omega, hk⟩
    have hk' : ts[i + 1] = tk := by
      rw [List.getElem?_eq_getElem (by omega)] at hk; simpa using hk
    rw [← hk']
    rw [List.getElem_cons_drop, List.getElem_cons_drop, List.getElem_cons_drop]
    simp

/-- **C16.** Every token but the end of file can be removed. The other tokens stay, in their
order; what was attached to the token before it in the text is on the next token, what was
attached after it on the previous one, and nothing that was attached to any token is lost. -/
theorem remove_keeps (ts : List Node) (st : Option Nat) (i : Nat) (tk : Node)
    (hi : i + 1 < ts.length) (hk : ts[i]? = some tk) (he : tk.type ≠ .eof) :
    ∃ ts' st', remove ts st i = some (ts', st') ∧
      ts'.map (fun t => (t.id, t.type, t.flags, t.lno))
        = (ts.eraseIdx i).map (fun t => (t.id, t.type, t.flags, t.lno)) ∧
      (attached ts').Perm (attached ts) ∧
      ts'.flatMap (·.prefixes) = ts.flatMap (·.prefixes) ∧
      (0 < i → ts'.flatMap (·.suffixes) = ts.flatMap (·.suffixes)) := by
  rcases split_at hi with ⟨rfl, tk', nx, post, rfl, hk'⟩ | ⟨pre, pv, tk', nx, post, rfl, rfl, hk'⟩
  · rw [hk] at hk'
    obtain rfl := Option.some.inj hk'
    refine ⟨_, _, remove_first post tk nx st he, by simp, ?_, by simp, by simp⟩
    simp only [attached, List.flatMap_cons, List.append_assoc]
    apply List.Perm.append_left
    have : (tk.suffixes ++ (nx.prefixes ++ (nx.suffixes ++ List.flatMap (fun t => t.prefixes ++ t.suffixes) post))).Perm
        (nx.prefixes ++ (nx.suffixes ++ (tk.suffixes ++ List.flatMap (fun t => t.prefixes ++ t.suffixes) post))) := by
      rw [← List.append_assoc nx.prefixes, ← List.append_assoc nx.prefixes]
      exact List.perm_append_comm_assoc ..
    exact this.symm
  · rw [hk] at hk'
    obtain rfl := Option.some.inj hk'
    refine ⟨_, _, remove_mid pre post pv tk nx st he, ?_, ?_, by simp, by simp⟩
    · rw [List.eraseIdx_append_of_length_le (by omega)]
      rw [show pre.length + 1 - pre.length = 1 from by omega]
      simp
    · simp only [attached, List.flatMap_append, List.flatMap_cons, List.append_assoc]
      apply List.Perm.append_left
      apply List.Perm.append_left
      apply List.Perm.append_left
      rw [← List.append_assoc tk.suffixes, ← List.append_assoc tk.prefixes (tk.suffixes)]
      exact (List.perm_append_comm ..).append_right _

/-- **C16 (partial).** Removing a token keeps everything attached to the tokens in the order
of the text if the token is not the first and has something attached only on one side; or if
it is the first and has nothing attached after it. Missing: the other cases, in which the
order changes, see `remove_reorders` and `remove_first_reorders`. -/
theorem remove_in_order_partial (ts : List Node) (st : Option Nat) (i : Nat) (tk : Node)
    (hi : i + 1 < ts.length) (hk : ts[i]? = some tk) (he : tk.type ≠ .eof)
    (h : tk.suffixes = [] ∨ (0 < i ∧ tk.prefixes = [])) :
    ∃ ts' st', remove ts st i = some (ts', st') ∧ attached ts' = attached ts := by
  rcases split_at hi with ⟨rfl, tk', nx, post, rfl, hk'⟩ | ⟨pre, pv, tk', nx, post, rfl, rfl, hk'⟩
  · rw [hk] at hk'
    obtain rfl := Option.some.inj hk'
    refine ⟨_, _, remove_first post tk nx st he, ?_⟩
    rcases h with h | h
    · simp [attached, h]
    · omega
  · rw [hk] at hk'
    obtain rfl := Option.some.inj hk'
    refine ⟨_, _, remove_mid pre post pv tk nx st he, ?_⟩
    rcases h with h | ⟨_, h⟩
    · simp [attached, h]
    · simp [attached, h]

/-- `a`, then `/* 1 */` on a line of its own, `{ /* 2 */` and `b`. -/
def braceBetween : List Node :=
  [⟨0, .ident, {}, 1, [], []⟩,
   ⟨1, .lbrace, {}, 2, [⟨10, .comment, {}⟩], [⟨11, .comment, {}⟩]⟩,
   ⟨2, .ident, {}, 3, [], []⟩, ⟨3, .eof, {}, 4, [], []⟩]

/-- Removing a token with a comment on either side swaps the two comments: the full claim of
C16 fails. -/
theorem remove_reorders :
    (remove braceBetween none 1).map (fun r => (comments r.1).map (·.id)) = some [11, 10] ∧
    (comments braceBetween).map (·.id) = [10, 11] := by decide +kernel

/-- `\ /* 1 */` and then `b` with `/* 2 */` before it. -/
def commentAfterFirst : List Node :=
  [⟨1, .backslash, {}, 2, [], [⟨11, .comment, {}⟩]⟩,
   ⟨2, .ident, {}, 3, [⟨12, .comment, {}⟩], []⟩, ⟨3, .eof, {}, 4, [], []⟩]

/-- Removing the first token puts the comment after it behind the comments of the next. -/
theorem remove_first_reorders :
    (remove commentAfterFirst none 0).map (fun r => (comments r.1).map (·.id)) = some [12, 11] ∧
    (comments commentAfterFirst).map (·.id) = [11, 12] := by decide +kernel

/-- The position in the list of the token the lexer is at; 0 stands for before the first. -/
def posOf (ts : List Node) (st : Option Nat) : Nat :=
  match st with
  | none => 0
  | some id => (ts.findIdx (fun t => t.id == id)) + 1

/-- **C16.** The lexer does not stay on the removed token: the token it would read next is
the one that came after. -/
theorem remove_position (ts : List Node) (i : Nat) (tk : Node) (hi : i + 1 < ts.length)
    (hk : ts[i]? = some tk) (he : tk.type ≠ .eof) (hd : (ts.map (·.id)).Nodup) :
    ∃ ts' st', remove ts (some tk.id) i = some (ts', st') ∧ posOf ts' st' = i ∧
      (ts'[posOf ts' st']?).map (·.id) = (ts[i + 1]?).map (·.id) := by
  rcases split_at hi with ⟨rfl, tk', nx, post, rfl, hk'⟩ | ⟨pre, pv, tk', nx, post, rfl, rfl, hk'⟩
  · rw [hk] at hk'
    obtain rfl := Option.some.inj hk'
    refine ⟨_, _, remove_first post tk nx _ he, by simp [posOf], by simp [posOf]⟩
  · rw [hk] at hk'
    obtain rfl := Option.some.inj hk'
    have hpos : ∀ (a b : List Fix), posOf (pre ++ { pv with suffixes := a }
        :: { nx with prefixes := b } :: post) (some pv.id) = pre.length + 1 := by
      intro a b
      simp only [posOf]
      have hn : ∀ t ∈ pre, (t.id == pv.id) = false := by
        intro t ht
        rw [List.map_append, List.nodup_append] at hd
        have := hd.2.2 t.id (List.mem_map_of_mem ht) pv.id (by simp)
        simpa using this
      rw [List.findIdx_append]
      have : List.findIdx (fun t => t.id == pv.id) pre = pre.length := by
        rw [List.findIdx_eq_length]
        intro t ht; simpa using hn t ht
      rw [this]
      simp [List.findIdx_cons]
    refine ⟨_, _, remove_mid pre post pv tk nx _ he, ?_, ?_⟩
    · simp only [if_true]; exact hpos _ _
    · simp only [if_true, hpos]
      rw [List.getElem?_append_right (by omega), List.getElem?_append_right (by omega)]
      rw [show pre.length + 1 - pre.length = 1 from by omega,
        show pre.length + 1 + 1 - pre.length = 2 from by omega]
      rfl

/-! ## Inserting, copying and moving -/

theorem eraseIdx_insertIdx {α : Type} (xs : List α) (i : Nat) (x : α) (h : i ≤ xs.length) :
    (xs.insertIdx i x).eraseIdx i = xs ∧ (xs.insertIdx i x)[i]? = some x := by
  induction xs generalizing i with
  | nil =>
    have : i = 0 := by simpa using h
    subst this; simp
  | cons y ys ih =>
    cases i with
    | zero => simp
    | succ i => simpa using ih i (by simpa using h)

/-- **C16.** Inserting puts one token, without comments, right after the given one; all other
tokens stay as they are. The new one is part of a diff if the one before it is. -/
theorem insert_keeps (ts : List Node) (i : Nat) (after defn : Node) (n : Nat)
    (h : ts[i]? = some after) :
    ∃ ts', insertAfter ts i defn n = some ts' ∧ ts'.eraseIdx (i + 1) = ts ∧
      ∃ new, ts'[i + 1]? = some new ∧ new.id = n ∧ new.type = defn.type ∧
        new.prefixes = [] ∧ new.suffixes = [] ∧ new.lno = after.lno ∧
        (after.flags.diff = true → new.flags.diff = true) := by
  have hi : i + 1 ≤ ts.length := by
    have := (List.getElem?_eq_some_iff.mp h).1; omega
  refine ⟨ts.insertIdx (i + 1) (inserted after defn n), by simp only [insertAfter, h],
    (eraseIdx_insertIdx ts (i + 1) _ hi).1, inserted after defn n,
    (eraseIdx_insertIdx ts (i + 1) _ hi).2, rfl, rfl, rfl, rfl, rfl, ?_⟩
  intro h; simp [inserted, h]

theorem copyFixes_map (n : Nat) (xs : List Fix) :
    (copyFixes n xs).map (fun f => (f.type, f.flags)) = xs.map (fun f => (f.type, f.flags)) := by
  induction xs generalizing n with
  | nil => rfl
  | cons x xs ih => simp [copyFixes, ih]

/-- **C16.** A copy goes right after the given token and has copies of all comments; all
other tokens stay as they are. -/
theorem copy_keeps (ts : List Node) (i : Nat) (after src : Node) (n : Nat)
    (h : ts[i]? = some after) :
    ∃ ts', copyAfter ts i src n = some ts' ∧ ts'.eraseIdx (i + 1) = ts ∧
      ∃ new, ts'[i + 1]? = some new ∧ new.type = src.type ∧ new.flags = src.flags ∧
        new.prefixes.map (fun f => (f.type, f.flags))
          = src.prefixes.map (fun f => (f.type, f.flags)) ∧
        new.suffixes.map (fun f => (f.type, f.flags))
          = src.suffixes.map (fun f => (f.type, f.flags)) := by
  have hi : i + 1 ≤ ts.length := by
    have := (List.getElem?_eq_some_iff.mp h).1; omega
  exact ⟨ts.insertIdx (i + 1) (copied after src n), by simp only [copyAfter, h],
    (eraseIdx_insertIdx ts (i + 1) _ hi).1, copied after src n,
    (eraseIdx_insertIdx ts (i + 1) _ hi).2, rfl, rfl, copyFixes_map _ _, copyFixes_map _ _⟩

theorem eraseIdx_getElem? (ts : List Node) (i k : Nat) (h : i ≠ k) :
    (ts.eraseIdx k)[shifted i k]? = ts[i]? := by
  rw [List.getElem?_eraseIdx]
  unfold shifted
  by_cases hk : k < i
  · rw [if_pos hk, if_neg (by omega)]
    congr 1; omega
  · rw [if_neg hk, if_pos (by omega)]

/-- **C16.** Moving a token takes it, with its comments, right after the given one; all
others stay as they are, in their order. -/
theorem moveAfter_keeps (ts : List Node) (i k : Nat) (after tk : Node) (hi : ts[i]? = some after)
    (hk : ts[k]? = some tk) (hne : i ≠ k) :
    ∃ ts' j, moveAfter ts i k = some ts' ∧ ts'.eraseIdx (j + 1) = ts.eraseIdx k ∧
      ts'[j]? = some after ∧ ts'[j + 1]? = some { tk with lno := after.lno } := by
  have hi' := (List.getElem?_eq_some_iff.mp hi).1
  have hk' := (List.getElem?_eq_some_iff.mp hk).1
  have hj := eraseIdx_getElem? ts i k hne
  have hlen : shifted i k + 1 ≤ (ts.eraseIdx k).length := by
    rw [hi] at hj
    have := (List.getElem?_eq_some_iff.mp hj).1; omega
  refine ⟨_, shifted i k, by simp only [moveAfter, hi, hk, if_neg hne],
    (eraseIdx_insertIdx _ _ _ hlen).1, ?_, (eraseIdx_insertIdx _ _ _ hlen).2⟩
  rw [List.getElem?_insertIdx_of_lt (by omega), hj, hi]

theorem swapOut_stuck (keep : Flags → Bool) (n : Nat) (x : Fix) (src tmp : List Fix)
    (h : keep x.flags = true) : swapOut keep n (x :: src) tmp = (x :: src, tmp) := by
  induction n with
  | zero => rfl
  | succ n ih => simp [swapOut, h, ih]

theorem swapOut_eq (keep : Flags → Bool) (src tmp : List Fix) :
    swapOut keep src.length src tmp
      = (src.dropWhile (fun f => !keep f.flags), tmp ++ src.takeWhile (fun f => !keep f.flags)) := by
  induction src generalizing tmp with
  | nil => simp [swapOut]
  | cons x src ih =>
    by_cases h : keep x.flags = true
    · rw [swapOut_stuck _ _ _ _ _ h]; simp [h]
    · simp [swapOut, h, ih]

theorem swapIn_eq (keep : Flags → Bool) (dst : List Fix) :
    swapIn keep dst = (dst.filter (fun f => keep f.flags), dst.filter (fun f => !keep f.flags)) := by
  induction dst with
  | nil => rfl
  | cons x dst ih =>
    by_cases h : keep x.flags = true <;> simp [swapIn, h, ih]

theorem swapLists_eq (ks kd : Flags → Bool) (src dst : List Fix) :
    swapLists ks kd src dst
      = (dst.filter (fun f => !kd f.flags) ++ src.dropWhile (fun f => !ks f.flags),
         dst.filter (fun f => kd f.flags) ++ src.takeWhile (fun f => !ks f.flags)) := by
  simp [swapLists, swapOut_eq, swapIn_eq, moveSuffixes_eq]

theorem swapLists_perm (ks kd : Flags → Bool) (src dst : List Fix) :
    ((swapLists ks kd src dst).1 ++ (swapLists ks kd src dst).2).Perm (src ++ dst) := by
  rw [swapLists_eq]
  simp only
  have h1 := List.filter_append_perm (fun f : Fix => kd f.flags) dst
  have h2 : src.takeWhile (fun f => !ks f.flags) ++ src.dropWhile (fun f => !ks f.flags) = src :=
    List.takeWhile_append_dropWhile
  rw [List.perm_iff_count] at *
  intro a
  have h1 := h1 a
  have h2 := congrArg (List.count a) h2
  simp only [List.count_append] at *
  have h3 : List.count a (List.filter (fun x => !decide (kd x.flags = true)) dst)
      = List.count a (List.filter (fun f => !kd f.flags) dst) := by simp
  simp at h1 h2 h3
  omega

/-- **C16.** Moving a token before another: all others stay, in their order, and nothing that
was attached to any of them is lost; what came before the other token comes before the moved
one now. -/
theorem moveBefore_keeps (ts : List Node) (i k : Nat) (before mv : Node)
    (hi : ts[i]? = some before) (hk : ts[k]? = some mv) (hne : i ≠ k) :
    ∃ ts' j before' mv', moveBefore ts i k = some ts' ∧
      ts'.eraseIdx j = (ts.set i before').eraseIdx k ∧
      ts'[j]? = some mv' ∧ ts'[j + 1]? = some before' ∧
      before'.id = before.id ∧ before'.type = before.type ∧ mv'.id = mv.id ∧ mv'.type = mv.type ∧
      mv'.prefixes = before.prefixes ++ mv.prefixes ∧ before'.prefixes = [] ∧
      (before'.suffixes ++ mv'.suffixes).Perm (before.suffixes ++ mv.suffixes) := by
  have hi' := (List.getElem?_eq_some_iff.mp hi).1
  have hk' := (List.getElem?_eq_some_iff.mp hk).1
  have hset : ∀ b' : Node, (ts.set i b')[i]? = some b' := by
    intro b'; rw [List.getElem?_set_self]; exact hi'
  have hj : ∀ b' : Node, ((ts.set i b').eraseIdx k)[shifted i k]? = some b' := by
    intro b'
    rw [eraseIdx_getElem? _ i k hne, hset]
  have hlen : ∀ b' : Node, shifted i k < ((ts.set i b').eraseIdx k).length := fun b' =>
    (List.getElem?_eq_some_iff.mp (hj b')).1
  let kd : Flags → Bool := if isFirst ts k then (·.optspace) else fun _ => false
  let s := swapLists (·.optline) kd before.suffixes mv.suffixes
  let mv' : Node := { mv with
        lno := before.lno, prefixes := movePrefixes before.prefixes mv.prefixes, suffixes := s.2 }
  let before' : Node := { before with prefixes := [], suffixes := s.1 }
  refine ⟨((ts.set i before').eraseIdx k).insertIdx (shifted i k) mv', shifted i k, before', mv',
    ?_, (eraseIdx_insertIdx _ _ _ (Nat.le_of_lt (hlen _))).1,
    (eraseIdx_insertIdx _ _ _ (Nat.le_of_lt (hlen _))).2, ?_, rfl, rfl, rfl, rfl,
    movePrefixes_eq _ _, rfl, swapLists_perm _ _ _ _⟩
  · simp only [moveBefore, hi, hk, if_neg hne]; rfl
  · rw [List.getElem?_insertIdx_of_gt (by omega)]
    exact hj before'

/-- The swap of suffixes stops at the first token it must preserve: a comment after a line
break that is preserved stays behind, though only the line break was to be. -/
theorem swap_stops_early : swapLists (·.optline) (fun _ => false)
    [⟨1, .space, { optline := true }⟩, ⟨2, .comment, {}⟩] []
    = ([⟨1, .space, { optline := true }⟩, ⟨2, .comment, {}⟩], []) := by decide

/-! ## Concrete cases -/

example : (remove braceBetween (some 1) 1).map (fun r => (r.1.map (·.id), r.2))
    = some ([0, 2, 3], some 0) := by decide +kernel

example : (moveBefore braceBetween 1 2).map (·.map fun t => (t.id, t.prefixes.map (·.id),
    t.suffixes.map (·.id))) = some [(0, [], []), (2, [10], [11]), (1, [], []), (3, [], [])] := by
  decide +kernel

example : (moveAfter braceBetween 2 0).map (·.map (·.id)) = some [1, 2, 0, 3] := by
  decide +kernel

example : (insertAfter braceBetween 1 ⟨99, .semi, {}, 0, [], []⟩ 50).map (·.map (·.id))
    = some [0, 1, 50, 2, 3] := by decide +kernel

theorem copyFixes_ids (n : Nat) (xs : List Fix) :
    (copyFixes n xs).map (·.id) = List.range' n xs.length := by
  induction xs generalizing n with
  | nil => rfl
  | cons x xs ih => simp [copyFixes, ih, List.range'_succ]

/-- **C16.** A copied token and the copies of its comments are new: their addresses are
different from each other, and from all those below the first fresh one. -/
theorem copy_fresh (after src : Node) (n : Nat) :
    ((copied after src n).id :: ((copied after src n).prefixes ++ (copied after src n).suffixes).map
        (·.id)).Nodup ∧
      ∀ a ∈ (copied after src n).id ::
        ((copied after src n).prefixes ++ (copied after src n).suffixes).map (·.id), n ≤ a := by
  have e : (copied after src n).id ::
      ((copied after src n).prefixes ++ (copied after src n).suffixes).map (·.id) =
      List.range' n (1 + src.prefixes.length + src.suffixes.length) := by
    simp only [copied, List.map_append, copyFixes_ids]
    rw [List.range'_append_1, show 1 + src.prefixes.length + src.suffixes.length =
      (src.prefixes.length + src.suffixes.length) + 1 by omega, List.range'_succ]
  rw [e]
  exact ⟨List.nodup_range', fun a ha => by simp at ha; exact ha.1⟩

/-- A token is the first of its line if the token before it, if there is one, is on
another line. -/
theorem is_first_iff (ts : List Node) (k : Nat) (tk : Node) (h : ts[k]? = some tk) :
    isFirst ts k = true ↔ ∀ pv, k ≠ 0 → ts[k - 1]? = some pv → pv.lno ≠ tk.lno := by
  unfold isFirst
  by_cases hk : k = 0
  · simp [hk]
  · rw [if_neg hk, h]
    cases ts[k - 1]? with
    | none => simp
    | some pv => simp [hk]

end Knfmt.Stream
