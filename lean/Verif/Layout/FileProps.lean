import Verif.Layout.FileSpec
import Verif.Layout.Props
/-! # The layout of function definitions (C91) -/
namespace Knfmt.Layout
open Knfmt.Expr (Tok Ex)
open Knfmt.Doc (Doc Spot run hasBit blank)
open Knfmt.Util Knfmt.Spec
open Knfmt.Layout.Spec

/-! ## Hypotheses -/

/-- The tokens of a function; its statements are as in C90. -/
structure Func.Ok (typ : List Tok → List Char) (f : Func) : Prop where
  kind : f.typ.Ok
  name : Word f.name
  params : ∀ p ∈ f.params, p.Ok
  body : Goods typ f.body

theorem tells_proto {S : FileStyle} (hc : S.cont < 2 ^ 27) {f : Func} (hn : Word f.name) (hp : ∀ p ∈ f.params, p.Ok) :
    Tells (protoDoc S f) (protoText f) := by
  unfold protoDoc argsDoc protoText
  refine tells_group (says_seq (tells_lit hn).says (says_seq (tells_lit (by simp [Word])).says ?_))
  cases hps : f.params with
  | nil => exact says_seq (s := []) (says_indent tells_nil.says hc) (tells_lit (by simp [Word])).says
  | cons p ps =>
    have := says_seq (says_indent (says_params (ps := p :: ps) (by simp) (hps ▸ hp)) hc) tells_nil.says
    simpa using this

/-! ## Functions -/

section
variable {lim : Nat} {tabs : Bool} {S : FileStyle} {typ : List Tok → List Char}

theorem run_hard {f : Spot} (h : f.nl < 2) : run lim tabs true false 2 0 .hardline f = some (f.feed tabs 0) := by
  rw [run, if_pos h]

/-- Nothing is written for an indentation of zero. -/
theorem strindent_none (tabs : Bool) : (Knfmt.Util.strindent 0 tabs 0).1 = [] := by
  cases tabs <;> simp [Knfmt.Util.strindent, Knfmt.Util.strindentSpaces_eq, Knfmt.Util.strindentTabs_eq]

theorem feed_plain {f : Spot} (h : f.edge ≠ .empty) : f.feed tabs 0 = ⟨'\n' :: f.txt.dropWhile blank, 0, f.nl + 1, .plain⟩ := by
  unfold Spot.feed
  rw [if_neg h]
  have e : (Knfmt.Util.strindent 0 tabs 0).1 = [] := strindent_none tabs
  rw [e]
  rfl

/-- The type, and the new line after it. -/
theorem run_ruled {f : Spot} {t : Typ} (ht : t.Ok) (hp : f.edge = .plain) (hc : f.col = 0) (hw : Within lim 0 (typeText t ++ [' ']))
    (b : Bool) : ∃ g, run lim tabs true false 2 0 (.seq (typeDoc (some ⟨1, 0, false⟩) t.stars t.words) (if b then .hardline else .nil)) f = some g ∧
      g.edge = .plain ∧ g.txt = (if b then typeText t ++ ['\n'] else typeNext t).reverse ++ f.txt ∧
      g.col = strwidth (if b then typeText t ++ ['\n'] else typeNext t) 0 := by
  have hr : Room lim (typeNext t) f := by
    have h1 := type_firm ht
    refine ⟨hp, ?_, ?_⟩
    · unfold typeNext
      simp only [List.mem_append, not_or]
      exact ⟨h1.1, by split <;> simp⟩
    · rw [hc]
      unfold typeNext
      split
      · exact within_last hw
      · simpa using within_last (within_append hw).1
  have h1 := tells_ruled ht.1 (fun w hw => (ht.2 w hw).word) t.stars lim tabs true false 2 0 f hr
  have hne : typeNext t ≠ [] := by
    obtain ⟨_, u, c, h, _⟩ := type_firm ht
    simp [typeNext, h]
  have h1 : run lim tabs true false 2 0 (typeDoc (some ⟨1, 0, false⟩) t.stars t.words) f = some (f.put (typeNext t)) := h1
  have ht' : (f.put (typeNext t)).txt = (typeNext t).reverse ++ f.txt := rfl
  have hc' : (f.put (typeNext t)).col = strwidth (typeNext t) 0 := by rw [← hc]; rfl
  have hn : (f.put (typeNext t)).nl = 0 := by unfold Spot.put; rw [if_neg hne]
  have he : (f.put (typeNext t)).edge = .plain := hp
  cases b with
  | false => exact ⟨_, by rw [run_seq, h1, Option.bind_some]; exact run_nil _ _, he, ht', hc'⟩
  | true =>
    refine ⟨_, by rw [run_seq, h1, Option.bind_some]; exact run_hard (by omega), rfl, ?_, ?_⟩
    · rw [feed_plain (by rw [he]; decide)]
      show '\n' :: _ = _
      rw [ht', next_drop ht]
      simp
    · simp only [if_true]
      rw [strwidth_add]
      rfl

theorem proto_flat {f : Func} (hn : Word f.name) (hp : ∀ p ∈ f.params, p.Ok) : '\n' ∉ protoText f := by
  unfold protoText
  simp only [List.mem_append, not_or]
  refine ⟨hn.2, by simp, joined_flat (by simp) (fun w hw => ?_), by simp⟩
  obtain ⟨p, h, rfl⟩ := List.mem_map.mp hw
  exact param_flat (hp p h)

theorem proto_solid (f : Func) (X : List Char) : ((protoText f).reverse ++ X).dropWhile blank = (protoText f).reverse ++ X := by
  unfold protoText
  simp [blank]

/-- The lines after a function. -/
theorem run_close {f : Spot} {T : List Char} {c : Nat} {a : After} (h : Ends f T c a) (last : Bool) :
    ∃ g n, run lim tabs true false 2 0 (.seq .hardline (if last then .nil else .hardline)) f = some g ∧ g.edge = .plain ∧ g.col = 0 ∧
      g.txt = List.replicate n '\n' ++ T ∧ if last then n = 1 ∨ n = 2 else n = 2 := by
  by_cases ha : a = .blank
  · obtain ⟨h1, h2⟩ := h.shut ha
    have e : f.feed tabs 0 = ⟨'\n' :: '\n' :: T, 0, 2, .plain⟩ := by
      have e0 : (Knfmt.Util.strindent 0 tabs 0).1 = [] := strindent_none tabs
      unfold Spot.feed
      rw [if_pos h1, h2, e0, h.text]
      rfl
    refine ⟨⟨'\n' :: '\n' :: T, 0, 2, .plain⟩, 2, ?_, rfl, rfl, rfl, by cases last <;> simp⟩
    rw [run_seq, run_hard (by omega), Option.bind_some, e]
    cases last with
    | true => exact run_nil _ _
    | false =>
      show run lim tabs true false 2 0 .hardline _ = _
      rw [run, if_neg (by simp), if_pos rfl]
  · obtain ⟨h1, h2, h3⟩ := h.col ha
    have e : f.feed tabs 0 = ⟨'\n' :: T, 0, 1, .plain⟩ := by
      rw [feed_plain h1, h.text, h.solid, h3]
    cases last with
    | true =>
      refine ⟨⟨'\n' :: T, 0, 1, .plain⟩, 1, ?_, rfl, rfl, rfl, .inl rfl⟩
      rw [run_seq, run_hard (by omega), Option.bind_some, e]
      exact run_nil _ _
    | false =>
      refine ⟨⟨'\n' :: '\n' :: T, 0, 2, .plain⟩, 2, ?_, rfl, rfl, rfl, rfl⟩
      rw [run_seq, run_hard (by omega), Option.bind_some, e]
      show run lim tabs true false 2 0 .hardline _ = _
      rw [run_hard (by simp), feed_plain (by simp)]
      rfl

/-- A function definition. -/
theorem run_def (hS : Fair S.toStyle typ) {fn : Func} (hg : fn.Ok typ) {f : Spot} (hp : f.edge = .plain) (hc : f.col = 0)
    (hw : Within lim 0 (defText (hand S.toStyle tabs typ) S.breakType S.wrap fn)) (ht : Within lim 0 (typeText fn.typ ++ [' '])) (last : Bool) :
    ∃ g n, run lim tabs true false 2 0 (defDoc S fn last) f = some g ∧ g.edge = .plain ∧ g.col = 0 ∧
      g.txt = List.replicate n '\n' ++ ((defText (hand S.toStyle tabs typ) S.breakType S.wrap fn).reverse ++ f.txt) ∧
      if last then n = 1 ∨ n = 2 else n = 2 := by
  have hw := hw
  unfold defText at hw ⊢
  -- the type
  obtain ⟨f1, e1, p1, t1, c1⟩ := run_ruled (lim := lim) (tabs := tabs) hg.kind hp hc ht S.breakType
  have w1 := (within_append hw).2
  rw [← c1] at w1
  -- the name and the arguments
  have hnn : '\n' ∉ protoText fn := proto_flat hg.name hg.params
  have r2 : Room lim (protoText fn) f1 := room w1 hnn p1
  have e2 := tells_proto (S := S) hS.cont hg.name hg.params lim tabs true false 2 0 f1 r2
  have w2 := (within_append w1).2
  have n2 : (f1.put (protoText fn)).nl = 0 := by
    unfold Spot.put
    rw [if_neg (by unfold protoText; simp)]
  have p2 : (f1.put (protoText fn)).edge = .plain := p1
  -- the left brace
  obtain ⟨f3, e3, p3, t3, c3⟩ : ∃ g, run lim tabs true false 2 0 (if S.wrap then .hardline else lit [' ']) (f1.put (protoText fn)) = some g ∧
      g.edge = .plain ∧ g.txt = (if S.wrap then ['\n'] else [' ']).reverse ++ ((protoText fn).reverse ++ f1.txt) ∧
      g.col = strwidth (if S.wrap then ['\n'] else [' ']) (strwidth (protoText fn) f1.col) := by
    cases S.wrap with
    | true =>
      refine ⟨_, run_hard (by omega), rfl, ?_, rfl⟩
      rw [feed_plain (by rw [p2]; decide)]
      show '\n' :: ((protoText fn).reverse ++ f1.txt).dropWhile blank = _
      rw [proto_solid]
      rfl
    | false => exact ⟨_, run_brk p2 (by decide) (by simp) false 2 0, p2, rfl, rfl⟩
  have w3 := (within_append w2).2
  rw [← c3] at w3
  -- the statements
  have e0 : body (hand S.toStyle tabs typ) fn.opn fn.body = ['{'] ++ (emptyLine (trimOpen fn.opn fn.body) ++
      (inside (hand S.toStyle tabs typ) (if false then 0 else 0 + 1) fn.body ++ ((hand S.toStyle tabs typ).nl 0 ++ ['}']))) := by
    exact body_open _ fn.opn fn.body
  rw [e0] at w3 ⊢
  have h0 := run_brk (lim := lim) (tabs := tabs) (s := ['{']) (f := f3) p3 (by simp) (by simp) false 2 0
  obtain ⟨f4, e4, k4, _⟩ := run_after (lim := lim) (tabs := tabs) (f := f3.put ['{']) p3 rfl (solid_cons (by decide) _) true false 2 0
    (trimOpen fn.opn fn.body)
  have hz : 0 * S.width = 0 := Nat.zero_mul _
  have h5 := run_body hS (run_list hS fn.body).1 hg.body false 0 _ k4 (trimOpen_nil fn.opn) rfl (within_append w3).2
    (k := afterDoc fn.aft) (P := fun g => Ends g _ _ fn.aft) (fun p hp => hp.after false false 2 _ fn.aft)
  rw [hz] at h5
  obtain ⟨f5, e5, k5⟩ := h5
  -- the lines after the right brace
  obtain ⟨g, n, e6, p6, c6, t6, l6⟩ := run_close (lim := lim) (tabs := tabs) k5 last
  refine ⟨g, n, ?_, p6, c6, ?_, l6⟩
  · rw [run_seq, Option.bind_eq_some_iff] at e1
    obtain ⟨f0, e1, e1'⟩ := e1
    rw [defDoc, run_seq, e1, Option.bind_some, run_seq, e1', Option.bind_some, run_seq, e2, Option.bind_some, run_seq, e3, Option.bind_some,
      run_seq, h0, Option.bind_some, run_seq, e4, Option.bind_some, run_seq, e5, Option.bind_some, e6]
  · have t4 : (f3.put ['{']).txt = '{' :: f3.txt := rfl
    rw [t6, t4, t3, t1]
    simp

/-- The functions of a file. -/
theorem run_file (hS : Fair S.toStyle typ) : ∀ {fs : List Func}, (∀ f ∈ fs, f.Ok typ) → (∀ f ∈ fs, Within lim 0 (typeText f.typ ++ [' '])) →
    Within lim 0 (fileText (hand S.toStyle tabs typ) S.breakType S.wrap fs) → ∀ {f : Spot}, f.edge = .plain → f.col = 0 →
    ∃ g n, run lim tabs true false 2 0 (fileDoc S fs) f = some g ∧ g.edge = .plain ∧
      (n = 0 ∨ (n = 1 ∧ fs ≠ [])) ∧
      g.txt = List.replicate n '\n' ++ ((fileText (hand S.toStyle tabs typ) S.breakType S.wrap fs).reverse ++ f.txt)
  | [], _, _, _, f, hp, _ => ⟨f, 0, run_nil _ _, hp, .inl rfl, rfl⟩
  | [fn], hg, ht, hw, f, hp, hc => by
    obtain ⟨g, n, e, p, _, t, l⟩ := run_def hS (hg fn (List.mem_cons_self ..)) hp hc (within_append hw).1 (ht fn (List.mem_cons_self ..)) true
    simp only [if_true] at l
    rcases l with rfl | rfl
    · exact ⟨g, 0, e, p, .inl rfl, by rw [t]; simp [fileText]⟩
    · exact ⟨g, 1, e, p, .inr ⟨rfl, by simp⟩, by rw [t]; simp [fileText, List.replicate]⟩
  | fn :: fn2 :: fs, hg, ht, hw, f, hp, hc => by
    have e0 : fileText (hand S.toStyle tabs typ) S.breakType S.wrap (fn :: fn2 :: fs) =
      defText (hand S.toStyle tabs typ) S.breakType S.wrap fn ++ (['\n', '\n'] ++ fileText (hand S.toStyle tabs typ) S.breakType S.wrap (fn2 :: fs)) := rfl
    rw [e0] at hw ⊢
    obtain ⟨g, n, e, p, c, t, l⟩ := run_def hS (hg fn (List.mem_cons_self ..)) hp hc (within_append hw).1 (ht fn (List.mem_cons_self ..)) false
    simp only [Bool.false_eq_true, if_false] at l
    subst l
    obtain ⟨g', m, e', p', l', t'⟩ := run_file hS (fs := fn2 :: fs) (fun x hx => hg x (List.mem_cons_of_mem _ hx))
      (fun x hx => ht x (List.mem_cons_of_mem _ hx)) (by
        have := (within_append (within_append hw).2).2
        rw [← strwidth_add, strwidth_add] at this
        exact this) p c
    refine ⟨g', m, ?_, p', ?_, ?_⟩
    · show run lim tabs true false 2 0 (.seq (defDoc S fn false) (fileDoc S (fn2 :: fs))) f = _
      rw [run_seq, e, Option.bind_some, e']
    · rcases l' with rfl | ⟨rfl, _⟩
      · exact .inl rfl
      · exact .inr ⟨rfl, by simp⟩
    · rw [t', t]
      simp [List.replicate]

/-- A file ends in a right brace and a new line. -/
theorem file_end (H : Hand) (b w : Bool) : ∀ {fs : List Func}, fs ≠ [] → ∃ t, fileText H b w fs = t ++ ['}', '\n']
  | [], h => absurd rfl h
  | [f], _ => by
    have : ∃ t, body H f.opn f.body = t ++ ['}'] := by
      cases f.body with
      | nil => exact ⟨['{'] ++ H.nl 0, by simp [body]⟩
      | cons s r => exact ⟨['{'] ++ ((if isDecls s then [] else emptyLine f.opn) ++ (inside H 1 (.cons s r) ++ H.nl 0)), by simp [body]⟩
    obtain ⟨t, e⟩ := this
    refine ⟨(if b then typeText f.typ ++ ['\n'] else typeNext f.typ) ++ (protoText f ++ ((if w then ['\n'] else [' ']) ++ t)), ?_⟩
    simp only [fileText, defText, e, List.append_assoc]
    simp
  | f :: f2 :: fs, _ => by
    obtain ⟨t, e⟩ := file_end H b w (fs := f2 :: fs) (by simp)
    refine ⟨defText H b w f ++ (['\n', '\n'] ++ t), ?_⟩
    show defText H b w f ++ (['\n', '\n'] ++ fileText H b w (f2 :: fs)) = _
    rw [e]
    simp

/-- C91: a file of function definitions is printed with exactly one empty line between two functions and none at the
end. If the style says so, the type of a function is on a line of its own, and so is its left brace; the arguments are
on one line, and the statements are as in C90. Missing: what is missing in C90, lines over the limit, declarations
between functions, attributes, K&R arguments and a style that aligns after the bracket. -/
theorem C91_partial {env : Knfmt.Doc.Env} (hd : env.diff = none) (hS : Fair S.toStyle typ) {fs : List Func} (hg : ∀ f ∈ fs, f.Ok typ)
    (ht : ∀ f ∈ fs, Within env.limit 0 (typeText f.typ ++ [' ']))
    (hw : Within env.limit 0 (fileText (hand S.toStyle env.useTabs typ) S.breakType S.wrap fs)) :
    (Knfmt.Doc.docExec env true [] (fileDoc S fs)).buf.reverse = fileText (hand S.toStyle env.useTabs typ) S.breakType S.wrap fs ∧
      (Knfmt.Doc.docExec env true [] (fileDoc S fs)).ub = false := by
  obtain ⟨g, n, h1, h3, h4, h2⟩ := run_file hS hg ht hw (f := ⟨[], 0, 0, .plain⟩) rfl rfl
  have h := Knfmt.Doc.run_sound (env := env) (σ := {}) hd h1
    ⟨rfl, rfl, rfl, by decide, fun i h => by simp at h, fun _ => rfl, fun _ => rfl, fun h => by simp at h⟩ rfl
    (fun _ => by simp) (fun _ => ⟨rfl, rfl, rfl, rfl, rfl⟩)
  have hx : Knfmt.Doc.docExec env true [] (fileDoc S fs) = { Knfmt.Doc.exec env (fileDoc S fs) {} with
      buf := Knfmt.Doc.trimLines (Knfmt.Doc.exec env (fileDoc S fs) {}).buf } := by
    unfold Knfmt.Doc.docExec Knfmt.Doc.diffExit
    simp [hd]
  rw [hx]
  refine ⟨?_, h.2.1.ub⟩
  show (Knfmt.Doc.trimLines (Knfmt.Doc.exec env (fileDoc S fs) {}).buf).reverse = _
  rw [h.1.buf (by simp [h3]), h2]
  by_cases hf : fs = []
  · subst hf
    have : n = 0 := by simpa using h4
    subst this
    rfl
  · obtain ⟨t, e⟩ := file_end (hand S.toStyle env.useTabs typ) S.breakType S.wrap hf
    rw [e]
    have e1 : ∀ X : List Char, Knfmt.Doc.trimLines ('\n' :: '}' :: X) = '\n' :: '}' :: X := by
      intro X
      rw [Knfmt.Doc.trimLines]
      simp
    rcases h4 with rfl | ⟨rfl, _⟩
    · simp [e1]
    · simp only [List.replicate, List.reverse_append, List.reverse_cons, List.reverse_nil, List.nil_append, List.cons_append, List.append_nil]
      rw [Knfmt.Doc.trimLines, e1]
      simp

/-- A function without what the printer does not keep. -/
def Func.norm (f : Func) : Func := { f with opn := f.opn.norm, body := f.body.norm, aft := .none }

theorem def_norm (H : Hand) (b w : Bool) (f : Func) : defText H b w f.norm = defText H b w f := by
  show (if b then typeText f.typ ++ ['\n'] else typeNext f.typ) ++ (protoText f ++ ((if w then ['\n'] else [' ']) ++
    Spec.body H f.opn.norm f.body.norm)) = _
  rw [body_norm]
  rfl

theorem file_norm (H : Hand) (b w : Bool) : ∀ fs : List Func, fileText H b w (fs.map Func.norm) = fileText H b w fs
  | [] => rfl
  | [f] => by
    show defText H b w f.norm ++ ['\n'] = _
    rw [def_norm]
    rfl
  | f :: f2 :: fs => by
    show defText H b w f.norm ++ (['\n', '\n'] ++ fileText H b w ((f2 :: fs).map Func.norm)) = _
    rw [def_norm, file_norm H b w (f2 :: fs)]
    rfl

/-- C91: the lines and empty lines between functions in the source make no difference, nor do the lines in them, except
for empty lines between statements. -/
theorem C91_source_partial {env : Knfmt.Doc.Env} (hd : env.diff = none) (hS : Fair S.toStyle typ) {fs fs' : List Func}
    (he : fs.map Func.norm = fs'.map Func.norm) (hg : ∀ f ∈ fs, f.Ok typ) (hg' : ∀ f ∈ fs', f.Ok typ)
    (ht : ∀ f ∈ fs, Within env.limit 0 (typeText f.typ ++ [' ']))
    (hw : Within env.limit 0 (fileText (hand S.toStyle env.useTabs typ) S.breakType S.wrap fs)) :
    (Knfmt.Doc.docExec env true [] (fileDoc S fs)).buf = (Knfmt.Doc.docExec env true [] (fileDoc S fs')).buf := by
  have e : fileText (hand S.toStyle env.useTabs typ) S.breakType S.wrap fs = fileText (hand S.toStyle env.useTabs typ) S.breakType S.wrap fs' := by
    rw [← file_norm _ _ _ fs, he, file_norm]
  have ht' : ∀ f ∈ fs', Within env.limit 0 (typeText f.typ ++ [' ']) := by
    intro f hf
    have : f.norm ∈ fs.map Func.norm := he ▸ List.mem_map_of_mem hf
    obtain ⟨f0, h0, e0⟩ := List.mem_map.mp this
    have e1 : f.typ = f0.typ := (congrArg Func.typ e0).symm
    rw [e1]
    exact ht f0 h0
  have h1 := (C91_partial hd hS hg ht hw).1
  have h2 := (C91_partial hd hS hg' ht' (e ▸ hw)).1
  rw [e, ← h2] at h1
  exact List.reverse_inj.mp h1

end

/-! ## An example -/

namespace Example

/-- The style of OpenBSD. -/
def knf : FileStyle := { style with breakType := true, wrap := true }
/-- Types and braces on the line of the name. -/
def compact : FileStyle := { style with breakType := false, wrap := false }

/-- `int main(int argc, char *argv[])` with the statements of the example, `static const char **f(void)` with no
statement, and `void g()`. -/
def funcs (a : After) : List Func :=
  [⟨⟨[['i', 'n', 't']], 0⟩, ['m', 'a', 'i', 'n'],
    [⟨⟨[['i', 'n', 't']], 0⟩, some (['a', 'r', 'g', 'c'], [])⟩, ⟨⟨[['c', 'h', 'a', 'r']], 1⟩, some (['a', 'r', 'g', 'v'], [none])⟩],
    .line, prog, a⟩,
   ⟨⟨[['s', 't', 'a', 't', 'i', 'c'], ['c', 'h', 'a', 'r']], 2⟩, ['f'], [⟨⟨[['v', 'o', 'i', 'd']], 0⟩, none⟩], .line, .nil, a⟩,
   ⟨⟨[['v', 'o', 'i', 'd']], 0⟩, ['g'], [], .line, .cons (.expr (call 'f') .blank) .nil, a⟩]

theorem funcs_ok (a : After) : ∀ f ∈ funcs a, f.Ok typ := by
  have hw : ∀ c : Char, c ≠ '\n' → blank c = false → ∀ t, '\n' ∉ t → Firm (t ++ [c]) := fun c h1 h2 t h3 =>
    ⟨by simp [h3]; exact fun h => h1 h.symm, t, c, rfl, h2⟩
  have f1 : Firm ['i', 'n', 't'] := hw 't' (by decide) (by decide) ['i', 'n'] (by decide)
  have f2 : Firm ['c', 'h', 'a', 'r'] := hw 'r' (by decide) (by decide) ['c', 'h', 'a'] (by decide)
  have f3 : Firm ['s', 't', 'a', 't', 'i', 'c'] := hw 'c' (by decide) (by decide) ['s', 't', 'a', 't', 'i'] (by decide)
  have f4 : Firm ['v', 'o', 'i', 'd'] := hw 'd' (by decide) (by decide) ['v', 'o', 'i'] (by decide)
  intro f hf
  simp only [funcs, List.mem_cons, List.not_mem_nil, or_false] at hf
  rcases hf with rfl | rfl | rfl
  · refine ⟨by simp [Typ.Ok, f1], by simp [Word], ?_, good⟩
    simp [Param.Ok, Typ.Ok, f1, f2, Word]
  · refine ⟨by simp [Typ.Ok, f2, f3], by simp [Word], ?_, by simp [Goods, Tolds]⟩
    simp [Param.Ok, Typ.Ok, f4]
  · refine ⟨by simp [Typ.Ok, f4], by simp [Word], by simp, ?_⟩
    simp [Goods, Tolds, Told, Words, Word, name, call]

/-- The text in the style of OpenBSD. -/
def knfText : List Char :=
  "int\nmain(int argc, char *argv[])\n".toList ++ text ++ "\n\nstatic char **\nf(void)\n{\n}\n\nvoid\ng()\n{\n\tf();\n}\n".toList
/-- The text in the other style. -/
def compactText : List Char :=
  "int main(int argc, char *argv[]) ".toList ++ text ++ "\n\nstatic char **f(void) {\n}\n\nvoid g() {\n\tf();\n}\n".toList

example : (Knfmt.Doc.docExec { limit := 80, useTabs := true } true [] (fileDoc knf (funcs .blank))).buf.reverse = knfText := by
  have h : fileText (hand knf.toStyle true typ) knf.breakType knf.wrap (funcs .blank) = knfText := by decide +kernel
  rw [← h]
  exact (C91_partial (S := knf) (env := { limit := 80, useTabs := true }) rfl fair (funcs_ok _) (by decide +kernel)
    (by show Within 80 0 (fileText (hand knf.toStyle true typ) knf.breakType knf.wrap (funcs .blank)); rw [h]; decide +kernel)).1

example : (Knfmt.Doc.docExec { limit := 80, useTabs := true } true [] (fileDoc compact (funcs .line))).buf.reverse = compactText := by
  have h : fileText (hand compact.toStyle true typ) compact.breakType compact.wrap (funcs .line) = compactText := by decide +kernel
  rw [← h]
  exact (C91_partial (S := compact) (env := { limit := 80, useTabs := true }) rfl fair (funcs_ok _) (by decide +kernel)
    (by show Within 80 0 (fileText (hand compact.toStyle true typ) compact.breakType compact.wrap (funcs .line)); rw [h]; decide +kernel)).1

/-- The same for `C91_source_partial`. -/
example : (Knfmt.Doc.docExec { limit := 80, useTabs := true } true [] (fileDoc knf (funcs .blank))).buf =
    (Knfmt.Doc.docExec { limit := 80, useTabs := true } true [] (fileDoc knf (funcs .line))).buf := by
  have h : fileText (hand knf.toStyle true typ) knf.breakType knf.wrap (funcs .blank) = knfText := by decide +kernel
  exact C91_source_partial (S := knf) (env := { limit := 80, useTabs := true }) rfl fair rfl (funcs_ok _) (funcs_ok _) (by decide +kernel)
    (by show Within 80 0 (fileText (hand knf.toStyle true typ) knf.breakType knf.wrap (funcs .blank)); rw [h]; decide +kernel)

end Example

end Knfmt.Layout
