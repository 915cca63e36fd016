import Verif.Layout.DeclRun
/-! # The layout of statements (C90) -/
namespace Knfmt.Layout
open Knfmt.Expr (Tok Ex)
open Knfmt.Doc (Doc Spot run hasBit blank)
open Knfmt.ExprDoc (Conf)
open Knfmt.Util Knfmt.Spec
open Knfmt.Layout.Spec

section
variable {lim : Nat} {tabs : Bool} {S : Style} {typ : List Tok → List Char}

theorem top_col {s : Stmt} (h : isDecls s = true) (d c : Nat) : strwidth ((hand S tabs typ).top d s) c = d * S.width := by
  cases s <;> simp [isDecls] at h
  exact nl_col d c

theorem not_decls {s : Stmt} (h : isBlock s = true) {p : Prop} (h' : isDecls s = true) : p := by
  cases s <;> simp [isDecls, isBlock] at h h'

variable (lim tabs S typ) in
/-- The claim for statements; declarations begin at the indentation. -/
def DocOk (s : Stmt) : Prop :=
  Good typ s → ∀ nx d f, f.edge = .plain → (isDecls s = true → (lead s f).col = d * S.width) →
    Within lim (lead s f).col (lay (hand S tabs typ) d s) →
    ∃ g, run lim tabs true false 2 (d * S.width) (doc S nx s) f = some g ∧
      Ends g ((lay (hand S tabs typ) d s).reverse ++ (lead s f).txt) (strwidth (lay (hand S tabs typ) d s) (lead s f).col)
        (left nx (ending s))

theorem docOk {s : Stmt} (hs : isLabel s = false)
    (h : Good typ s → ∀ nx d f, f.edge = .plain → Within lim f.col (lay (hand S tabs typ) d s) →
      ∃ g, run lim tabs true false 2 (d * S.width) (doc S nx s) f = some g ∧
        Ends g ((lay (hand S tabs typ) d s).reverse ++ f.txt) (strwidth (lay (hand S tabs typ) d s) f.col) (left nx (ending s))) :
    DocOk lim tabs S typ s := by
  intro hg nx d f hp _
  have : lead s f = f := by unfold lead; rw [if_neg (by simp [hs])]
  rw [this]
  exact h hg nx d f hp

/-- What is known after the right brace of a block. -/
structure Closed (p : Spot) (T txt : List Char) (col : Nat) : Prop where
  txt : p.txt = T.reverse ++ txt
  solid : p.txt.dropWhile blank = p.txt
  col : p.col = strwidth T col
  edge : p.edge = .plain
  nl : p.nl = 0

variable (lim tabs S typ) in
/-- The claim for blocks after the left brace. -/
def BracedOk (s : Stmt) : Prop :=
  Good typ s → isBlock s = true → ∀ d T, lay (hand S tabs typ) d s = ['{'] ++ T → ∀ f txt col, Ends f txt col .none → Within lim col T →
    ∀ (k : Doc) (P : Spot → Prop), (∀ p, Closed p T txt col → ∃ g, run lim tabs false false 2 (d * S.width) k p = some g ∧ P g) →
    ∃ g, run lim tabs true false 2 (d * S.width) (braced S k s) f = some g ∧ P g

variable (lim tabs S typ) in
/-- The claim for `else`. -/
def ElseOk (r : Else) : Prop :=
  GoodElse typ r → ∀ nx d t f txt col, Ends f txt col (left (if isNone r then nx else .els) (ending t)) →
    Within lim col (layElse (hand S tabs typ) d ((hand S tabs typ).before d t) r) →
    ∃ g, run lim tabs true false 2 (d * S.width) (elseDoc S nx (isBlock t) r) f = some g ∧
      Ends g ((layElse (hand S tabs typ) d ((hand S tabs typ).before d t) r).reverse ++ txt)
        (strwidth (layElse (hand S tabs typ) d ((hand S tabs typ).before d t) r) col) (left nx (endingElse (ending t) r))

variable (lim tabs S typ) in
/-- The claim for the statements of a block. -/
def ItemsOk (b : Stmts) : Prop :=
  Goods typ b → ∀ s r, b = .cons s r → ∀ d T, T = lay (hand S tabs typ) d s ++ rest (hand S tabs typ) d (emptyLine (ending s).2) r →
    ∀ f, f.edge = .plain → (isDecls s = true → (lead s f).col = d * S.width) → Within lim (lead s f).col T →
    ∃ g, run lim tabs true false 2 (d * S.width) (items S b) f = some g ∧
      Ends g (T.reverse ++ (lead s f).txt) (strwidth T (lead s f).col) .none

variable (lim tabs S typ) in
/-- The claim for the statements of a case. -/
def CaseOk (b : Stmts) : Prop :=
  Goods typ b → ∀ nx d x f txt col, Ends f txt col (left (if isNil b then nx else .other) x) →
    Within lim col (rest (hand S tabs typ) d (emptyLine x.2) b) →
    ∃ g, run lim tabs true false 2 (d * S.width) (caseItems S nx b) f = some g ∧
      Ends g ((rest (hand S tabs typ) d (emptyLine x.2) b).reverse ++ txt)
        (strwidth (rest (hand S tabs typ) d (emptyLine x.2) b) col) (left nx (endingList x b))

variable (lim tabs S typ) in
/-- The claims for lists of statements. -/
def ListOk (b : Stmts) : Prop :=
  ItemsOk lim tabs S typ b ∧ CaseOk lim tabs S typ b ∧ ∀ s r, b = .cons s r → DocOk lim tabs S typ s ∧ CaseOk lim tabs S typ r

/-- A block after its left brace; `a` is what comes before its first line. -/
theorem run_body (hS : Fair S typ) {b : Stmts} (hb : ItemsOk lim tabs S typ b) (hg : Goods typ b) (switch : Bool) (d : Nat) (a : After)
    {f : Spot} {txt : List Char} {col : Nat} (hf : Ends f txt col a) (ha : isNil b = true → a = .none) {T : List Char}
    (hT : T = emptyLine a ++ (inside (hand S tabs typ) (if switch then d else d + 1) b ++ ((hand S tabs typ).nl d ++ ['}'])))
    (hw : Within lim col T) {k : Doc} {P : Spot → Prop}
    (hk : ∀ p, Closed p T txt col → ∃ g, run lim tabs false false 2 (d * S.width) k p = some g ∧ P g) :
    ∃ g, run lim tabs true false 2 (d * S.width) (bodyDoc S switch (isNil b) (items S b) k) f = some g ∧ P g := by
  -- the statements
  have h1 : ∃ g, run lim tabs true false 2 (d * S.width) (if switch then (if isNil b then Doc.nil else .seq .hardline (items S b))
      else .indent S.width (if isNil b then .nil else .seq .hardline (items S b))) f = some g ∧
      Ends g ((emptyLine a ++ inside (hand S tabs typ) (if switch then d else d + 1) b).reverse ++ txt)
        (strwidth (emptyLine a ++ inside (hand S tabs typ) (if switch then d else d + 1) b) col) .none := by
    have e0 : run lim tabs true false 2 (d * S.width) (if switch then (if isNil b then Doc.nil else .seq .hardline (items S b))
      else .indent S.width (if isNil b then .nil else .seq .hardline (items S b))) f =
      run lim tabs true false 2 ((if switch then d else d + 1) * S.width) (if isNil b then .nil else .seq .hardline (items S b)) f := by
      cases switch with
      | true => rfl
      | false => exact run_indent_brk hS d _ f
    rw [e0]
    cases b with
    | nil =>
      have ha := ha rfl
      subst ha
      refine ⟨f, run_nil true f, ?_⟩
      exact hf.of rfl (strwidth_nil col).symm rfl
    | cons s r =>
      obtain ⟨f1, e1, p1, t1, c1⟩ := run_start (lim := lim) (tabs := tabs) (S := S) (typ := typ) hf (if switch then d else d + 1) s
      have hw' : Within lim (lead s f1).col (lay (hand S tabs typ) (if switch then d else d + 1) s ++
          rest (hand S tabs typ) (if switch then d else d + 1) (emptyLine (ending s).2) r) := by
        rw [hT, inside] at hw
        have := (within_append hw).2
        rw [List.append_assoc] at this
        have := (within_append this).2
        rw [c1, strwidth_add]
        exact (within_append this).1
      obtain ⟨g, e2, h2⟩ := hb hg s r rfl _ _ rfl f1 p1 (fun h => by rw [c1, strwidth_add, top_col h]) hw'
      refine ⟨g, ?_, h2.of ?_ ?_ rfl⟩
      · show run lim tabs true false 2 _ (.seq .hardline (items S (.cons s r))) f = _
        rw [run_seq, e1, Option.bind_some, e2]
      · rw [t1, inside]; simp
      · rw [c1, inside, ← strwidth_add]; simp
  obtain ⟨g, e1, h1⟩ := h1
  obtain ⟨f2, e2, p2, t2, c2⟩ := run_feed (lim := lim) (tabs := tabs) (S := S) (typ := typ) h1 d
  have hT2 : T = (emptyLine a ++ inside (hand S tabs typ) (if switch then d else d + 1) b) ++ ((hand S tabs typ).nl d ++ ['}']) := by
    rw [hT]; simp
  have hr : Room lim ['}'] f2 := by
    rw [hT2] at hw
    have := (within_append (within_append hw).2).2
    refine room (t := []) (by rw [c2]; simpa [emptyLine] using this) (by simp) p2
  obtain ⟨q, e3, h3⟩ := hk (f2.put ['}']) ⟨by show ['}'].reverse ++ f2.txt = _; rw [t2, hT2]; simp [emptyLine],
    solid_cons (by decide) _, by show strwidth ['}'] f2.col = _; rw [c2, hT2, ← strwidth_add, ← strwidth_add]; simp [emptyLine], p2, rfl⟩
  refine ⟨q, ?_, h3⟩
  rw [bodyDoc, run_seq, e1, Option.bind_some, run_seq, e2, Option.bind_some, run_group hr, run_seq, lit, run_lit hr (by simp), Option.bind_some, e3]


/-- What comes after a block. -/
theorem Closed.after {p : Spot} {T txt : List Char} {col : Nat} (h : Closed p T txt col) (brk o : Bool) (mx cur : Nat) (a : After) :
    ∃ g, run lim tabs brk o mx cur (afterDoc a) p = some g ∧ Ends g (T.reverse ++ txt) (strwidth T col) a := by
  obtain ⟨g, h1, h2, _⟩ := run_after (lim := lim) (tabs := tabs) h.edge h.nl h.solid brk o mx cur a
  exact ⟨g, h1, h2.of h.txt h.col rfl⟩

theorem lay_block {H : Hand} {s : Stmt} (h : isBlock s = true) (d : Nat) : ∃ T, lay H d s = ['{'] ++ T := by
  cases s <;> simp [isBlock] at h
  exact ⟨_, by rw [lay]⟩

theorem left_block {s : Stmt} (h : isBlock s = true) (nx : Next) : left nx (ending s) = trimBrace nx (braceAfter s) := by
  cases s <;> simp [isBlock] at h
  rfl

/-- The statement of a loop or condition with the head `t`. -/
theorem run_arm (hS : Fair S typ) {s : Stmt} (hd : DocOk lim tabs S typ s) (hb : BracedOk lim tabs S typ s) (hg : Good typ s) {h : Doc → Doc}
    {f : Spot} {d : Nat} {t t' : List Char} {c : Char} (ht : t = t' ++ [c]) (hc : blank c = false) (hp : f.edge = .plain)
    (hh : ∀ (k : Doc) (P : Spot → Prop), (∀ o mx, ∃ g, run lim tabs false o mx (d * S.width) k (f.put t) = some g ∧ P g) →
      ∃ g, run lim tabs true false 2 (d * S.width) (h k) f = some g ∧ P g)
    (hw : Within lim f.col (t ++ (hand S tabs typ).arm d s (fun d => lay (hand S tabs typ) d s))) (nx : Next) :
    ∃ g, run lim tabs true false 2 (d * S.width)
        (armDoc S h (isBlock s) (doc S nx s) (braced S (afterDoc (trimBrace nx (braceAfter s))) s)) f = some g ∧
      Ends g ((t ++ (hand S tabs typ).arm d s (fun d => lay (hand S tabs typ) d s)).reverse ++ f.txt)
        (strwidth (t ++ (hand S tabs typ).arm d s (fun d => lay (hand S tabs typ) d s)) f.col) (left nx (ending s)) := by
  cases hB : isBlock s with
  | true =>
    obtain ⟨T, hT⟩ := lay_block (H := hand S tabs typ) hB d
    simp only [Hand.arm, hB, if_true, hT] at hw ⊢
    have hw2 := (within_append hw).2
    have hr : Room lim ([' '] ++ ['{']) (f.put t) := by
      refine room (t := T) ?_ (by decide) hp
      show Within lim (strwidth t f.col) _
      simpa using hw2
    obtain ⟨g1, e1, rfl⟩ := hh (.seq (lit [' ']) (lit ['{'])) (fun g => g = (f.put t).put ([' '] ++ ['{']))
      (fun o mx => ⟨_, by rw [run_seq, lit, run_lit hr.left (by simp), Option.bind_some, lit, run_lit hr.right (by simp), put_put], rfl⟩)
    have he : Ends (((f.put t).put ([' '] ++ ['{'])) : Spot) _ _ .none := ends_put (f := f.put t) hp [' '] (by decide)
    have hw3 : Within lim (strwidth ([' '] ++ ['{']) (f.put t).col) T := by
      have : t ++ ([' '] ++ (['{'] ++ T)) = (t ++ ([' '] ++ ['{'])) ++ T := by simp
      rw [this] at hw
      have := (within_append hw).2
      rw [strwidth_add] at this
      exact this
    obtain ⟨g, e2, h2⟩ := hb hg hB d T hT _ _ _ he hw3 (afterDoc (trimBrace nx (braceAfter s)))
      (fun g => Ends g _ _ (trimBrace nx (braceAfter s))) (fun p hp => hp.after _ _ _ _ _)
    refine ⟨g, ?_, h2.of ?_ ?_ (left_block hB nx).symm⟩
    · rw [armDoc, if_pos rfl, run_seq, e1, Option.bind_some, e2]
    · show T.reverse ++ (([' '] ++ ['{']).reverse ++ (t.reverse ++ f.txt)) = _
      simp
    · show strwidth T (strwidth ([' '] ++ ['{']) (strwidth t f.col)) = _
      rw [← strwidth_add, ← strwidth_add]
      simp
  | false =>
    simp only [Hand.arm, hB, Bool.false_eq_true, if_false] at hw ⊢
    obtain ⟨g1, e1, rfl⟩ := hh .nil (fun g => g = f.put t) (fun o mx => ⟨_, run_nil _ _, rfl⟩)
    have he : Ends (f.put t) (t.reverse ++ f.txt) (strwidth t f.col) .none := by rw [ht]; exact ends_put hp t' hc
    obtain ⟨f2, e2, p2, t2, c2⟩ := run_start (lim := lim) (tabs := tabs) (S := S) (typ := typ) he (d + 1) s
    simp only [emptyLine, List.nil_append] at t2 c2
    obtain ⟨g, e3, h3⟩ := hd hg nx (d + 1) f2 p2 (fun h => by rw [c2, top_col h]) (by
      rw [c2]; exact (within_append (within_append hw).2).2)
    refine ⟨g, ?_, h3.of ?_ ?_ rfl⟩
    · rw [armDoc, if_neg (by simp), run_seq, e1, Option.bind_some, run_indent_brk hS, run_seq, e2, Option.bind_some, e3]
    · rw [t2]; simp
    · rw [c2, ← strwidth_add, ← strwidth_add]

/-- The statement of `for`. -/
theorem run_forArm (hS : Fair S typ) {s : Stmt} (hd : DocOk lim tabs S typ s) (hg : Good typ s) {h : Doc → Doc}
    {f : Spot} {d : Nat} {t t' : List Char} {c : Char} (ht : t = t' ++ [c]) (hc : blank c = false) (hp : f.edge = .plain)
    (hh : ∀ (k : Doc) (P : Spot → Prop), (∀ o mx, ∃ g, run lim tabs false o mx (d * S.width) k (f.put t) = some g ∧ P g) →
      ∃ g, run lim tabs true false 2 (d * S.width) (h k) f = some g ∧ P g)
    (hw : Within lim f.col (t ++ (hand S tabs typ).arm d s (fun d => lay (hand S tabs typ) d s))) (nx : Next) :
    ∃ g, run lim tabs true false 2 (d * S.width) (forArm S h (isBlock s) (doc S nx s)) f = some g ∧
      Ends g ((t ++ (hand S tabs typ).arm d s (fun d => lay (hand S tabs typ) d s)).reverse ++ f.txt)
        (strwidth (t ++ (hand S tabs typ).arm d s (fun d => lay (hand S tabs typ) d s)) f.col) (left nx (ending s)) := by
  cases hB : isBlock s with
  | true =>
    simp only [Hand.arm, hB, if_true] at hw ⊢
    have hw2 := (within_append hw).2
    have hr : Room lim [' '] (f.put t) := room hw2 (by decide) hp
    obtain ⟨g1, e1, rfl⟩ := hh (lit [' ']) (fun g => g = (f.put t).put [' '])
      (fun o mx => ⟨_, by rw [lit, run_lit hr (by simp)], rfl⟩)
    obtain ⟨g, e2, h2⟩ := hd hg nx d ((f.put t).put [' ']) hp (not_decls hB) (by rw [lead_block hB]; exact (within_append hw2).2)
    rw [lead_block hB] at h2
    refine ⟨g, ?_, h2.of ?_ ?_ rfl⟩
    · rw [forArm, if_pos rfl, run_seq, e1, Option.bind_some, e2]
    · show _ ++ ([' '].reverse ++ (t.reverse ++ f.txt)) = _
      simp
    · show strwidth _ (strwidth [' '] (strwidth t f.col)) = _
      rw [← strwidth_add, ← strwidth_add]
  | false =>
    simp only [Hand.arm, hB, Bool.false_eq_true, if_false] at hw ⊢
    obtain ⟨g1, e1, rfl⟩ := hh .nil (fun g => g = f.put t) (fun o mx => ⟨_, run_nil _ _, rfl⟩)
    have he : Ends (f.put t) (t.reverse ++ f.txt) (strwidth t f.col) .none := by rw [ht]; exact ends_put hp t' hc
    obtain ⟨f2, e2, p2, t2, c2⟩ := run_start (lim := lim) (tabs := tabs) (S := S) (typ := typ) he (d + 1) s
    simp only [emptyLine, List.nil_append] at t2 c2
    obtain ⟨g, e3, h3⟩ := hd hg nx (d + 1) f2 p2 (fun h => by rw [c2, top_col h]) (by
      rw [c2]; exact (within_append (within_append hw).2).2)
    refine ⟨g, ?_, h3.of ?_ ?_ rfl⟩
    · rw [forArm, if_neg (by simp), run_seq, e1, Option.bind_some, run_indent_brk hS, run_seq, e2, Option.bind_some, e3]
    · rw [t2]; simp
    · rw [c2, ← strwidth_add, ← strwidth_add]

/-- The statement of `else`. -/
theorem run_elseArm (hS : Fair S typ) {s : Stmt} (hd : DocOk lim tabs S typ s) (hg : Good typ s)
    {f : Spot} {d : Nat} (hp : f.edge = .plain)
    (hw : Within lim f.col (['e', 'l', 's', 'e'] ++ (hand S tabs typ).arm d s (fun d => lay (hand S tabs typ) d s))) (nx : Next) :
    ∃ g, run lim tabs true false 2 (d * S.width) (elseArm S (isBlock s) (doc S nx s)) f = some g ∧
      Ends g ((['e', 'l', 's', 'e'] ++ (hand S tabs typ).arm d s (fun d => lay (hand S tabs typ) d s)).reverse ++ f.txt)
        (strwidth (['e', 'l', 's', 'e'] ++ (hand S tabs typ).arm d s (fun d => lay (hand S tabs typ) d s)) f.col)
        (left nx (ending s)) := by
  have e1 : ∀ k : Doc, run lim tabs true false 2 (d * S.width) (.seq (lit ['e', 'l', 's', 'e']) (.seq (lit [' ']) k)) f =
      run lim tabs true false 2 (d * S.width) k ((f.put ['e', 'l', 's', 'e']).put [' ']) := by
    intro k
    rw [run_seq, run_brk hp (by simp) (by simp), Option.bind_some, run_seq,
      run_brk (f := f.put ['e', 'l', 's', 'e']) hp (by simp) (by simp), Option.bind_some]
  rw [elseArm, e1]
  cases hB : isBlock s with
  | true =>
    simp only [Hand.arm, hB, if_true] at hw ⊢
    obtain ⟨g, e2, h2⟩ := hd hg nx d ((f.put ['e', 'l', 's', 'e']).put [' ']) hp (not_decls hB)
      (by rw [lead_block hB]; exact (within_append (within_append hw).2).2)
    rw [lead_block hB] at h2
    refine ⟨g, e2, h2.of ?_ ?_ rfl⟩
    · show _ ++ ([' '].reverse ++ (['e', 'l', 's', 'e'].reverse ++ f.txt)) = _
      simp
    · show strwidth _ (strwidth [' '] (strwidth ['e', 'l', 's', 'e'] f.col)) = _
      rw [← strwidth_add, ← strwidth_add]
  | false =>
    simp only [Hand.arm, hB, Bool.false_eq_true, if_false] at hw ⊢
    -- the space is trimmed
    have he : Ends (f.put ['e', 'l', 's', 'e']) (['e', 'l', 's', 'e'].reverse ++ f.txt) (strwidth ['e', 'l', 's', 'e'] f.col) .none :=
      ends_put hp ['e', 'l', 's'] (by decide)
    obtain ⟨f2, e2, p2, t2, c2⟩ := run_start (lim := lim) (tabs := tabs) (S := S) (typ := typ) he (d + 1) s
    have e2' : run lim tabs true false 2 ((d + 1) * S.width) .hardline ((f.put ['e', 'l', 's', 'e']).put [' ']) = some f2 := by
      rw [← e2, run, run, if_pos (by show 0 < 2; omega), if_pos (by show 0 < 2; omega)]
      unfold Spot.feed Spot.put
      simp only [hp]
      rfl
    simp only [emptyLine, List.nil_append] at t2 c2
    obtain ⟨g, e3, h3⟩ := hd hg nx (d + 1) f2 p2 (fun h => by rw [c2, top_col h]) (by
      rw [c2]; exact (within_append (within_append hw).2).2)
    refine ⟨g, ?_, h3.of ?_ ?_ rfl⟩
    · rw [run_indent_brk hS, run_seq, e2', Option.bind_some, e3]
    · rw [t2]; simp
    · rw [c2, ← strwidth_add, ← strwidth_add]

/-- A semicolon after a text. -/
theorem semi_ends {f : Spot} {t : List Char} (h : Room lim (t ++ [';']) f) (brk o : Bool) (mx cur : Nat) (a : After) :
    ∃ g, run lim tabs brk o mx cur (semiDoc a) (f.put t) = some g ∧
      Ends g ((t ++ [';']).reverse ++ f.txt) (strwidth (t ++ [';']) f.col) a := by
  obtain ⟨g, e, hE⟩ := run_semi (lim := lim) (tabs := tabs) h.right brk o mx cur a
  refine ⟨g, e, hE.of ?_ ?_ rfl⟩
  · show _ ++ (t.reverse ++ f.txt) = _
    simp
  · show strwidth [';'] (strwidth t f.col) = _
    rw [← strwidth_add]

theorem left_els_block {t : Stmt} (h : isBlock t = true) : left .els (ending t) = .none := by
  rw [left_block h]
  rfl

/-- The white space before `else`. -/
theorem run_gapElse {t : Stmt} {d : Nat} {f : Spot} {txt : List Char} {col : Nat} (hf : Ends f txt col (left .els (ending t))) :
    ∃ p, run lim tabs true false 2 (d * S.width) (elseGap (isBlock t)) f = some p ∧ p.edge = .plain ∧
      p.txt = ((hand S tabs typ).before d t).reverse ++ txt ∧ p.col = strwidth ((hand S tabs typ).before d t) col := by
  cases hB : isBlock t with
  | true =>
    rw [left_els_block hB] at hf
    have hp := hf.flat rfl
    refine ⟨f.put [' '], ?_, hp, ?_, ?_⟩
    · rw [elseGap, if_pos rfl, run_brk hp (by simp) (by simp)]
    · rw [Hand.before, hB, ← hf.text]; rfl
    · rw [Hand.before, hB, ← (hf.col (by simp)).2.1]; rfl
  | false =>
    obtain ⟨p, e, hp, pt, pc⟩ := run_feed (lim := lim) (tabs := tabs) (S := S) (typ := typ) hf d
    refine ⟨p, ?_, hp, ?_, ?_⟩
    · rw [elseGap, if_neg (by simp), e]
    · rw [pt, Hand.before, hB, left_els]; rfl
    · rw [pc, Hand.before, hB, left_els]; rfl

mutual
theorem run_stmt (hS : Fair S typ) : ∀ s : Stmt, DocOk lim tabs S typ s ∧ BracedOk lim tabs S typ s
  | .expr e a => by
    refine ⟨docOk rfl fun hg nx d f hp hw => ?_, fun _ h => by simp [isBlock] at h⟩
    rw [lay] at hw ⊢
    have hl : '\n' ∉ (hand S tabs typ).expr e := words_line _ _ hg
    have hr : Room lim ((hand S tabs typ).expr e ++ [';']) f := room (t := []) (by simpa using hw) (by simp [hl]) hp
    rw [doc, run_exprK (C := S.expr) (hS.mild.set hS.cont (by omega) false) hg hr.left]
    exact semi_ends hr _ _ _ _ _
  | .label sp l b => by
    refine ⟨fun hg nx d f hp _ hw => ?_, fun _ h => by simp [isBlock] at h⟩
    have hl : lead (.label sp l b) f = f.trim := rfl
    rw [hl, lay] at hw ⊢
    have hp' : f.trim.edge = .plain := hp
    have h1 : '\n' ∉ (if sp then [' '] else []) ++ (l ++ [':']) := by
      have := hg.2
      cases sp <;> simpa using this
    have hr : Room lim ((if sp then [' '] else []) ++ (l ++ [':'])) f.trim := room (t := []) (by simpa using hw) h1 hp'
    have h2 : ∀ c, run lim tabs true false 2 c (if sp then lit [' '] else .nil) f.trim = some (f.trim.put (if sp then [' '] else [])) := by
      intro c
      cases sp with
      | false => exact run_nil _ _
      | true => exact run_lit hr.left (by simp) _ _
    have e0 : ((if sp then [' '] else []) ++ (l ++ [':']) : List Char) = ((if sp then [' '] else []) ++ l) ++ [':'] := by simp
    have hE : ((f.trim.put ((if sp then [' '] else []) ++ (l ++ [':']))).txt).dropWhile blank =
        (f.trim.put ((if sp then [' '] else []) ++ (l ++ [':']))).txt := by
      rw [e0]
      have := (ends_put (f := f.trim) hp' ((if sp then [' '] else []) ++ l) (c := ':') (by decide)).solid
      exact this
    obtain ⟨g, e1, k1, _⟩ := run_after (lim := lim) (tabs := tabs) (f := f.trim.put ((if sp then [' '] else []) ++ (l ++ [':']))) hp'
      (by simp [Spot.put]) hE true false 2 0 (trimSemi nx (if b then .blank else .line))
    refine ⟨g, ?_, k1.of rfl rfl rfl⟩
    rw [doc, run, if_pos hp, run_seq, h2, Option.bind_some, run_seq, lit, run_lit hr.right.left hg.1, Option.bind_some, run_seq, lit,
      run_lit hr.right.right (by simp), Option.bind_some, put_put, put_put]
    exact e1
  | .ret none a => by
    refine ⟨docOk rfl fun hg nx d f hp hw => ?_, fun _ h => by simp [isBlock] at h⟩
    rw [lay] at hw ⊢
    have hr : Room lim (['r', 'e', 't', 'u', 'r', 'n'] ++ [';']) f := room (t := []) (by simpa using hw) (by simp) hp
    rw [doc, run_group hr, run_seq, lit, run_lit hr.left (by simp), Option.bind_some]
    exact semi_ends hr _ _ _ _ _
  | .ret (some e) a => by
    refine ⟨docOk rfl fun hg nx d f hp hw => ?_, fun _ h => by simp [isBlock] at h⟩
    rw [lay] at hw ⊢
    have hl : '\n' ∉ (hand S tabs typ).expr e := words_line _ _ (hg e rfl)
    have hr : Room lim (['r', 'e', 't', 'u', 'r', 'n'] ++ ([' '] ++ ((hand S tabs typ).expr e ++ [';']))) f :=
      room (t := []) (by simpa using hw) (by simp [hl]) hp
    have h2 := hr.right.right
    have hx : gap S.expr.line ++ say typ (spacing S.expr) S.expr.nextComma e = (hand S tabs typ).expr e := rfl
    rw [doc, run_group hr, run_seq, lit, run_lit hr.left (by simp), Option.bind_some, run_seq, lit, run_lit hr.right.left (by simp),
      Option.bind_some, run_exprK (C := S.expr) (hS.mild.set hS.cont (by omega) false) (hg e rfl) h2.left, hx, put_put, put_put]
    have e1 : ['r', 'e', 't', 'u', 'r', 'n'] ++ ([' '] ++ ((hand S tabs typ).expr e ++ [';'])) =
      (['r', 'e', 't', 'u', 'r', 'n'] ++ ([' '] ++ (hand S tabs typ).expr e)) ++ [';'] := by simp
    rw [e1] at hr ⊢
    rw [List.append_assoc] at hr ⊢
    exact semi_ends hr _ _ _ _ _
  | .jump kw a => by
    refine ⟨docOk rfl fun hg nx d f hp hw => ?_, fun _ h => by simp [isBlock] at h⟩
    rw [lay] at hw ⊢
    have hr : Room lim (kw ++ [';']) f := room (t := []) (by simpa using hw) (by simp [hg.2]) hp
    rw [doc, run_seq, lit, run_lit hr.left hg.1, Option.bind_some]
    exact semi_ends hr _ _ _ _ _
  | .goto l a => by
    refine ⟨docOk rfl fun hg nx d f hp hw => ?_, fun _ h => by simp [isBlock] at h⟩
    rw [lay] at hw ⊢
    have hr : Room lim (['g', 'o', 't', 'o'] ++ ([' '] ++ (l ++ [';']))) f := room (t := []) (by simpa using hw) (by simp [hg.2]) hp
    have h2 := hr.right.right
    rw [doc, run_group hr, run_seq, lit, run_lit hr.left (by simp), Option.bind_some, run_seq, run_line hr.right.left,
      Option.bind_some, run_seq, lit, run_lit h2.left hg.1, Option.bind_some, put_put, put_put]
    have e1 : ['g', 'o', 't', 'o'] ++ ([' '] ++ (l ++ [';'])) = (['g', 'o', 't', 'o'] ++ ([' '] ++ l)) ++ [';'] := by simp
    rw [e1] at hr ⊢
    exact semi_ends hr _ _ _ _ _
  | .semi a => by
    refine ⟨docOk rfl fun hg nx d f hp hw => ?_, fun _ h => by simp [isBlock] at h⟩
    rw [lay] at hw ⊢
    have hr : Room lim ([] ++ [';']) f := room (t := []) (by simpa using hw) (by simp) hp
    exact semi_ends hr _ _ _ _ _
  | .block b a => by
    have hb := run_list hS b
    refine ⟨docOk rfl fun hg nx d f hp hw => ?_, fun hg _ d T hT f txt col hf hw k P hk => ?_⟩
    · rw [lay] at hw ⊢
      have hr : Room lim ['{'] f := room hw (by simp) hp
      have he : Ends (f.put ['{']) _ _ .none := ends_put (f := f) hp [] (by decide)
      obtain ⟨g, e1, h1⟩ := run_body hS hb.1 hg false d .none he (fun _ => rfl) rfl (within_append hw).2
        (k := afterDoc (trimBrace nx a)) (P := fun g => Ends g _ _ (trimBrace nx a)) (fun p hp => hp.after _ _ _ _ _)
      refine ⟨g, ?_, h1.of ?_ ?_ rfl⟩
      · rw [doc, run_seq, lit, run_lit hr (by simp), Option.bind_some, e1]
      · simp [emptyLine]
      · rw [← strwidth_add]; simp [emptyLine]
    · rw [lay] at hT
      have hT := List.append_cancel_left hT
      refine run_body hS hb.1 hg false d .none hf (fun _ => rfl) ?_ hw hk
      rw [← hT]; rfl
  | .loop kw sp e s => by
    have ih := run_stmt hS s
    refine ⟨docOk rfl fun hg nx d f hp hw => ?_, fun _ h => by simp [isBlock] at h⟩
    obtain ⟨h1, h2, h3⟩ := hg
    have e1 : lay (hand S tabs typ) d (.loop kw sp e s) =
        headText (hand S tabs typ) false kw sp e ++ (hand S tabs typ).arm d s (fun d => lay (hand S tabs typ) d s) := by
      rw [lay, headText]; simp
    rw [e1] at hw ⊢
    rw [doc]
    refine run_arm hS ih.1 ih.2 h3 (t' := kw ++ ((if sp then [' '] else []) ++ (['('] ++ (hand S tabs typ).opt e))) (c := ')')
      (by simp [headText]) (by decide) hp (fun k P hk => ?_) hw nx
    exact run_head hS h1 h2 (room hw (head_line h1 h2) hp) hk
  | .loop3 x y z s => by
    have ih := run_stmt hS s
    refine ⟨docOk rfl fun hg nx d f hp hw => ?_, fun _ h => by simp [isBlock] at h⟩
    obtain ⟨h1, h2, h3, h4⟩ := hg
    have e1 : lay (hand S tabs typ) d (.loop3 x y z s) =
        forText (hand S tabs typ) x y z ++ (hand S tabs typ).arm d s (fun d => lay (hand S tabs typ) d s) := by
      rw [lay, forText]; simp
    rw [e1] at hw ⊢
    rw [doc]
    refine run_forArm hS ih.1 h4 (t' := ['f', 'o', 'r'] ++ ([' '] ++ (['('] ++ ((hand S tabs typ).opt x ++ ([';'] ++
        ((hand S tabs typ).pad y ++ ([';'] ++ (hand S tabs typ).pad z))))))) (c := ')')
      (by simp [forText]) (by decide) hp (fun k P hk => ?_) hw nx
    exact run_for hS h1 h2 h3 (room hw (for_line h1 h2 h3) hp) hk
  | .cond e t r => by
    have ih := run_stmt hS t
    have ihr := run_else hS r
    refine ⟨docOk rfl fun hg nx d f hp hw => ?_, fun _ h => by simp [isBlock] at h⟩
    obtain ⟨h1, h2, h3⟩ := hg
    have e1 : lay (hand S tabs typ) d (.cond e t r) =
        (headText (hand S tabs typ) false ['i', 'f'] true (some e) ++ (hand S tabs typ).arm d t (fun d => lay (hand S tabs typ) d t)) ++
          layElse (hand S tabs typ) d ((hand S tabs typ).before d t) r := by
      rw [lay, headText]; simp [Hand.opt]
    rw [e1] at hw ⊢
    have he : ∀ x ∈ some e, Words typ x := by intro x hx; cases hx; exact h1
    have hkw : Word ['i', 'f'] := ⟨by simp, by simp⟩
    obtain ⟨g, e2, k2⟩ := run_arm hS ih.1 ih.2 h2 (t' := ['i', 'f'] ++ ([' '] ++ (['('] ++ (hand S tabs typ).expr e))) (c := ')')
      (by simp [headText, Hand.opt]) (by decide) hp
      (fun k P hk => run_head hS (sp := true) (elif := false) hkw he (room (within_append hw).1 (head_line hkw he) hp) hk)
      (within_append hw).1 (if isNone r then nx else .els)
    obtain ⟨g', e3, k3⟩ := ihr h3 nx d t g _ _ k2 (within_append hw).2
    refine ⟨g', ?_, k3.of ?_ ?_ rfl⟩
    · rw [doc, run_seq, e2, Option.bind_some, e3]
    · simp
    · rw [← strwidth_add]
  | .doWhile s e a => by
    have ih := run_stmt hS s
    refine ⟨docOk rfl fun hg nx d f hp hw => ?_, fun _ h => by simp [isBlock] at h⟩
    obtain ⟨h1, h2, h3⟩ := hg
    have he : ∀ x ∈ some e, Words typ x := by intro x hx; cases hx; exact h2
    have hkw : Word ['w', 'h', 'i', 'l', 'e'] := ⟨by simp, by simp⟩
    have e1 : lay (hand S tabs typ) d (.doWhile s e a) =
        ['d', 'o'] ++ ((hand S tabs typ).arm d s (fun d => lay (hand S tabs typ) d s) ++
          ((if isBlock s then [' '] else (hand S tabs typ).next d s) ++
            (headText (hand S tabs typ) false ['w', 'h', 'i', 'l', 'e'] true (some e) ++ [';']))) := by
      rw [lay, headText]; simp [Hand.opt]
    rw [e1] at hw ⊢
    -- the end
    have hend : ∀ (p : Spot), p.edge = .plain →
        Within lim p.col (headText (hand S tabs typ) false ['w', 'h', 'i', 'l', 'e'] true (some e) ++ [';']) → ∀ (brk : Bool),
        ∃ g, run lim tabs brk false 2 (d * S.width) (headDoc S false ['w', 'h', 'i', 'l', 'e'] true (some e) (semiDoc (trimSemi nx a))) p = some g ∧
          Ends g ((headText (hand S tabs typ) false ['w', 'h', 'i', 'l', 'e'] true (some e) ++ [';']).reverse ++ p.txt)
            (strwidth (headText (hand S tabs typ) false ['w', 'h', 'i', 'l', 'e'] true (some e) ++ [';']) p.col) (trimSemi nx a) := by
      intro p hp hw brk
      have hl := head_line (S := S) (tabs := tabs) (elif := false) (sp := true) hkw he
      have hr : Room lim (headText (hand S tabs typ) false ['w', 'h', 'i', 'l', 'e'] true (some e) ++ [';']) p :=
        room (t := []) (by simpa using hw) (by simp only [List.mem_append, not_or]; exact ⟨hl, by simp⟩) hp
      exact run_head hS hkw he hr.left (fun o mx => semi_ends hr _ _ _ _ _)
    have hdo := run_brk (lim := lim) (tabs := tabs) (s := ['d', 'o']) hp (by simp) (by simp) false 2 (d * S.width)
    cases hB : isBlock s with
    | true =>
      obtain ⟨T, hT⟩ := lay_block (H := hand S tabs typ) hB d
      simp only [Hand.arm, hB, if_true, hT] at hw ⊢
      have hw2 := (within_append hw).2
      have hw3 := (within_append (within_append hw2).1).2
      have hw4 := (within_append hw2).2
      have he : Ends ((((f.put ['d', 'o']).put [' ']).put ['{']) : Spot) _ _ .none :=
        ends_put (f := (f.put ['d', 'o']).put [' ']) hp [] (by decide)
      obtain ⟨g, e2, k2⟩ := ih.2 h1 hB d T hT _ _ _ he (within_append hw3).2
        (.seq (afterDoc (braceAfter s)) (.seq (lit [' ']) (headDoc S false ['w', 'h', 'i', 'l', 'e'] true (some e) (semiDoc (trimSemi nx a)))))
        (fun g => Ends g ((['d', 'o'] ++ (([' '] ++ (['{'] ++ T)) ++ ([' '] ++
          (headText (hand S tabs typ) false ['w', 'h', 'i', 'l', 'e'] true (some e) ++ [';'])))).reverse ++ f.txt)
          (strwidth (['d', 'o'] ++ (([' '] ++ (['{'] ++ T)) ++ ([' '] ++
          (headText (hand S tabs typ) false ['w', 'h', 'i', 'l', 'e'] true (some e) ++ [';'])))) f.col) (trimSemi nx a))
        (fun p hp => by
          obtain ⟨q, e5, h5, h6⟩ := run_after (lim := lim) (tabs := tabs) hp.edge hp.nl hp.solid false false 2 (d * S.width) (braceAfter s)
          have hb : braceAfter s ≠ .blank := by
            have := h3 rfl hB
            cases s <;> simp [isBlock] at hB
            exact this
          have hq := h6 rfl hb
          have hcol : q.col = strwidth (['d', 'o'] ++ ([' '] ++ (['{'] ++ T))) f.col := by
            rw [(h5.col hb).2.1, hp.col, ← strwidth_add]
            show strwidth _ (strwidth [' '] (strwidth ['d', 'o'] f.col)) = _
            rw [← strwidth_add, ← strwidth_add]
            simp
          have htxt : q.txt = (['d', 'o'] ++ ([' '] ++ (['{'] ++ T))).reverse ++ f.txt := by
            rw [h5.text, hp.txt]
            show T.reverse ++ (([] ++ ['{']).reverse ++ ([' '].reverse ++ (['d', 'o'].reverse ++ f.txt))) = _
            simp
          have hw5 : Within lim q.col ([' '] ++ (headText (hand S tabs typ) false ['w', 'h', 'i', 'l', 'e'] true (some e) ++ [';'])) := by
            rw [hcol, strwidth_add]; exact hw4
          have hr : Room lim [' '] q := room hw5 (by simp) hq
          obtain ⟨g, e7, h7⟩ := hend (q.put [' ']) hq (within_append hw5).2 false
          refine ⟨g, ?_, h7.of ?_ ?_ rfl⟩
          · rw [run_seq, e5, Option.bind_some, run_seq, lit, run_lit hr (by simp), Option.bind_some, e7]
          · show _ ++ ([' '].reverse ++ q.txt) = _
            rw [htxt]; simp
          · show strwidth _ (strwidth [' '] q.col) = _
            rw [hcol, ← strwidth_add, ← strwidth_add]; simp)
      refine ⟨g, ?_, k2⟩
      rw [doc, hB]
      simp only [if_true]
      rw [run_seq, hdo, Option.bind_some, run_seq, run_brk (f := f.put ['d', 'o']) hp (by simp) (by simp), Option.bind_some, run_seq,
        run_brk (f := (f.put ['d', 'o']).put [' ']) hp (by simp) (by simp), Option.bind_some, e2]
    | false =>
      simp only [Hand.arm, hB, Bool.false_eq_true, if_false] at hw ⊢
      have hw2 := (within_append hw).2
      have hw3 := (within_append hw2).1
      have hw4 := (within_append hw2).2
      have he : Ends (f.put ['d', 'o']) _ _ .none := ends_put (f := f) hp ['d'] (by decide)
      obtain ⟨f2, e2, p2, t2, c2⟩ := run_start (lim := lim) (tabs := tabs) (S := S) (typ := typ) he (d + 1) s
      simp only [emptyLine, List.nil_append] at t2 c2
      obtain ⟨g, e3, k3⟩ := ih.1 h1 .other (d + 1) f2 p2 (fun h => by rw [c2, top_col h]) (by rw [c2]; exact (within_append hw3).2)
      rw [left_other] at k3
      obtain ⟨f4, e4, p4, t4, c4⟩ := run_feed (lim := lim) (tabs := tabs) (S := S) (typ := typ) k3 d
      have hc : f4.col = strwidth ((hand S tabs typ).next d s) (strwidth ((hand S tabs typ).top (d + 1) s ++ lay (hand S tabs typ) (d + 1) s)
          (strwidth ['d', 'o'] f.col)) := by
        rw [c4, c2, ← strwidth_add (Hand.top _ _ _)]; rfl
      obtain ⟨g5, e5, k5⟩ := hend f4 p4 (by rw [hc]; exact (within_append hw4).2) true
      refine ⟨g5, ?_, k5.of ?_ ?_ rfl⟩
      · rw [doc, hB]
        simp only [Bool.false_eq_true, if_false]
        rw [run_seq, hdo, Option.bind_some, run_seq, run_indent_brk hS, run_seq]
        have e2' : run lim tabs true false 2 ((d + 1) * S.width) .hardline (f.put ['d', 'o']) = some f2 := e2
        rw [e2', Option.bind_some, e3, Option.bind_some, run_seq, e4, Option.bind_some, e5]
      · rw [t4, t2]; simp [Hand.next]
      · rw [hc, ← strwidth_add, ← strwidth_add, ← strwidth_add]
  | .switch e b a => by
    have hb := run_list hS b
    refine ⟨docOk rfl fun hg nx d f hp hw => ?_, fun _ h => by simp [isBlock] at h⟩
    obtain ⟨h1, h2⟩ := hg
    have he : ∀ x ∈ some e, Words typ x := by intro x hx; cases hx; exact h1
    have hkw : Word ['s', 'w', 'i', 't', 'c', 'h'] := ⟨by simp, by simp⟩
    have e1 : lay (hand S tabs typ) d (.switch e b a) =
        (headText (hand S tabs typ) false ['s', 'w', 'i', 't', 'c', 'h'] true (some e) ++ ([' '] ++ ['{'])) ++
          (inside (hand S tabs typ) d b ++ ((hand S tabs typ).nl d ++ ['}'])) := by
      rw [lay, headText]; simp [Hand.opt]
    rw [e1] at hw ⊢
    have hl := head_line (S := S) (tabs := tabs) (elif := false) (sp := true) hkw he
    have hr : Room lim (headText (hand S tabs typ) false ['s', 'w', 'i', 't', 'c', 'h'] true (some e) ++ ([' '] ++ ['{'])) f :=
      room hw (by simp only [List.mem_append, not_or]; exact ⟨hl, by simp⟩) hp
    have h3 := hr.right
    obtain ⟨g1, e2, rfl⟩ := run_head (tabs := tabs) (brk := true) (o := false) (mx := 2) (cur := d * S.width) hS hkw he hr.left
      (k := .seq (lit [' ']) (lit ['{'])) (P := fun g => g = (f.put _).put ([' '] ++ ['{']))
      (fun o mx => ⟨_, by rw [run_seq, lit, run_lit h3.left (by simp), Option.bind_some, lit, run_lit h3.right (by simp), put_put], rfl⟩)
    have hE : Ends (((f.put (headText (hand S tabs typ) false ['s', 'w', 'i', 't', 'c', 'h'] true (some e))).put ([' '] ++ ['{'])) : Spot) _ _ .none :=
      ends_put (f := f.put _) hp [' '] (by decide)
    obtain ⟨g, e3, k3⟩ := run_body hS hb.1 h2 true d .none hE (fun _ => rfl) rfl
      (by have := (within_append hw).2; rw [strwidth_add] at this; exact this)
      (k := afterDoc (trimBrace nx a)) (P := fun g => Ends g _ _ (trimBrace nx a)) (fun p hp => hp.after _ _ _ _ _)
    refine ⟨g, ?_, k3.of ?_ ?_ rfl⟩
    · rw [doc, run_seq, e2, Option.bind_some, e3]
    · show _ ++ (([' '] ++ ['{']).reverse ++ ((headText (hand S tabs typ) false ['s', 'w', 'i', 't', 'c', 'h'] true (some e)).reverse ++ f.txt)) = _
      simp [emptyLine]
    · show strwidth _ (strwidth ([' '] ++ ['{']) (strwidth (headText (hand S tabs typ) false ['s', 'w', 'i', 't', 'c', 'h'] true (some e)) f.col)) = _
      rw [← strwidth_add, ← strwidth_add]
      simp [emptyLine]
  | .case e b => by
    have hb := run_list hS b
    refine ⟨docOk rfl fun hg nx d f hp hw => ?_, fun _ h => by simp [isBlock] at h⟩
    obtain ⟨h1, h2⟩ := hg
    have e1 : lay (hand S tabs typ) d (.case e b) = caseText (hand S tabs typ) e ++ below (hand S tabs typ) d b := by
      cases e <;> rw [lay, caseText] <;> simp
    have hlast : ∃ t', caseText (hand S tabs typ) e = t' ++ [':'] := by
      cases e with
      | none => exact ⟨_, rfl⟩
      | some e => exact ⟨['c', 'a', 's', 'e'] ++ ([' '] ++ (hand S tabs typ).expr e), by rw [caseText]; simp⟩
    rw [e1] at hw ⊢
    have hr := room hw (case_line h1) hp
    have hw2 := (within_append hw).2
    cases hB : startsBlock b with
    | true =>
      cases b with
      | nil => simp [startsBlock] at hB
      | cons s r =>
        have hBs : isBlock s = true := hB
        obtain ⟨i1, i2⟩ := hb.2.2 s r rfl
        have e2 : below (hand S tabs typ) d (.cons s r) = [' '] ++ (lay (hand S tabs typ) d s ++
            rest (hand S tabs typ) (d + 1) (emptyLine (ending s).2) r) := by
          rw [below, Hand.arm, hBs]; simp
        rw [e2] at hw2 ⊢
        have hr2 : Room lim [' '] (f.put (caseText (hand S tabs typ) e)) := room hw2 (by simp) hp
        have hw3 := (within_append hw2).2
        obtain ⟨g, e3, k3⟩ := i1 h2.1 (if isNil r then nx else .other) d ((f.put (caseText (hand S tabs typ) e)).put [' ']) hp (not_decls hBs)
          (by rw [lead_block hBs]; exact (within_append hw3).1)
        rw [lead_block hBs] at k3
        obtain ⟨g', e4, k4⟩ := i2 h2.2 nx (d + 1) (ending s) g _ _ k3 (within_append hw3).2
        refine ⟨g', ?_, k4.of ?_ ?_ rfl⟩
        · rw [doc, hB, if_pos rfl, run_seq, run_case hS h1 hr, run_line hr2, Option.bind_some, run_seq, caseFirst, e3, Option.bind_some,
            run_indent_brk hS, caseRest, e4]
        · show _ ++ (_ ++ ([' '].reverse ++ ((caseText (hand S tabs typ) e).reverse ++ f.txt))) = _
          simp
        · show strwidth _ (strwidth _ (strwidth [' '] (strwidth (caseText (hand S tabs typ) e) f.col))) = _
          rw [← strwidth_add, ← strwidth_add, ← strwidth_add]
    | false =>
      have e2 : below (hand S tabs typ) d b = rest (hand S tabs typ) (d + 1) (emptyLine After.none) b := by
        cases b with
        | nil => rw [below, rest]
        | cons s r =>
          have hBs : isBlock s = false := hB
          rw [below, rest, Hand.arm, hBs]; simp [emptyLine]
      rw [e2] at hw2 ⊢
      obtain ⟨t', ht⟩ := hlast
      have hE : Ends (f.put (caseText (hand S tabs typ) e)) ((t' ++ [':']).reverse ++ f.txt) (strwidth (t' ++ [':']) f.col) .none := by
        rw [ht]; exact ends_put hp t' (by decide)
      obtain ⟨g, e3, k3⟩ := hb.2.1 h2 nx (d + 1) (false, .none) (f.put (caseText (hand S tabs typ) e))
        ((t' ++ [':']).reverse ++ f.txt) (strwidth (t' ++ [':']) f.col)
        (hE.of rfl rfl (by unfold left trimSemi; simp)) (by rw [← ht]; exact hw2)
      refine ⟨g, ?_, k3.of ?_ ?_ rfl⟩
      · rw [doc, hB, if_neg (by simp), run_seq, run_case hS h1 hr, run_nil, Option.bind_some, run_indent_brk hS, e3]
      · rw [← ht]; simp
      · rw [← ht, ← strwidth_add]

  | .decls b => by
    refine ⟨fun hg nx d f hp hcol hw => ?_, fun _ h => by simp [isBlock] at h⟩
    have hg : Block.Ok typ b := hg
    have hc := hcol rfl
    have hl : lead (.decls b) f = f := rfl
    rw [hl] at hc hw ⊢
    rw [lay, doc]
    rw [lay, hc] at hw
    exact run_decls (lim := lim) hS tabs d nx hg.some hg.decls hg.close hg.small hw hp hc

theorem run_else (hS : Fair S typ) : ∀ r : Else, ElseOk lim tabs S typ r
  | .none => by
    intro _ nx d t f txt col hf _
    refine ⟨f, run_nil true f, ?_⟩
    rw [layElse, strwidth_nil]
    exact hf
  | .elif e t2 r => by
    have ih := run_stmt hS t2
    have ihr := run_else hS r
    intro hg nx d t f txt col hf hw
    obtain ⟨h1, h2, h3⟩ := hg
    have he : ∀ x ∈ some e, Words typ x := by intro x hx; cases hx; exact h1
    have hkw : Word ['i', 'f'] := ⟨by simp, by simp⟩
    have e1 : layElse (hand S tabs typ) d ((hand S tabs typ).before d t) (.elif e t2 r) =
        (hand S tabs typ).before d t ++ ((headText (hand S tabs typ) true ['i', 'f'] true (some e) ++
          (hand S tabs typ).arm d t2 (fun d => lay (hand S tabs typ) d t2)) ++
          layElse (hand S tabs typ) d ((hand S tabs typ).before d t2) r) := by
      rw [layElse, headText]; simp [Hand.opt]
    rw [e1] at hw ⊢
    obtain ⟨p, e2, hp, pt, pc⟩ := run_gapElse hf
    have hw2 := (within_append hw).2
    rw [← pc] at hw2
    obtain ⟨g, e3, k3⟩ := run_arm hS ih.1 ih.2 h2 (t' := ['e', 'l', 's', 'e'] ++ ([' '] ++ (['i', 'f'] ++ ([' '] ++ (['('] ++ (hand S tabs typ).expr e))))) (c := ')')
      (by simp [headText, Hand.opt]) (by decide) hp
      (fun k P hk => run_head hS (sp := true) (elif := true) hkw he (room (within_append hw2).1 (head_line hkw he) hp) hk)
      (within_append hw2).1 (if isNone r then nx else .els)
    obtain ⟨g', e4, k4⟩ := ihr h3 nx d t2 g _ _ k3 (within_append hw2).2
    refine ⟨g', ?_, k4.of ?_ ?_ rfl⟩
    · rw [elseDoc, run_seq, e2, Option.bind_some, run_seq, e3, Option.bind_some, e4]
    · rw [pt]; simp
    · rw [pc, ← strwidth_add, ← strwidth_add]
  | .els s => by
    have ih := run_stmt hS s
    intro hg nx d t f txt col hf hw
    rw [layElse] at hw ⊢
    obtain ⟨p, e2, hp, pt, pc⟩ := run_gapElse hf
    have hw2 := (within_append hw).2
    rw [← pc] at hw2
    obtain ⟨g, e3, k3⟩ := run_elseArm hS ih.1 hg hp hw2 nx
    refine ⟨g, ?_, k3.of ?_ ?_ rfl⟩
    · rw [elseDoc, run_seq, e2, Option.bind_some, e3]
    · rw [pt]; simp
    · rw [pc, ← strwidth_add]

theorem run_list (hS : Fair S typ) : ∀ b : Stmts, ListOk lim tabs S typ b
  | .nil => by
    refine ⟨fun _ s r h => by simp at h, fun _ nx d x f txt col hf _ => ⟨f, run_nil true f, ?_⟩, fun s r h => by simp at h⟩
    rw [rest, strwidth_nil]
    exact hf
  | .cons s r => by
    have ih := run_stmt hS s
    have ihr := run_list hS r
    refine ⟨fun hg s' r' h d T hT f hp hcol hw => ?_, fun hg nx d x f txt col hf hw => ?_, fun s' r' h => ?_⟩
    · cases h
      subst hT
      obtain ⟨g, e1, k1⟩ := ih.1 hg.1 (if isNil r then .rbrace else .other) d f hp hcol (within_append hw).1
      cases r with
      | nil =>
        refine ⟨g, ?_, k1.of ?_ ?_ (left_rbrace _)⟩
        · rw [items, run_seq, e1, Option.bind_some]
          exact run_nil true g
        · rw [rest]; simp
        · rw [rest]; simp
      | cons s2 r2 =>
        have k1 := k1.of rfl rfl (left_other (ending s))
        obtain ⟨f2, e2, p2, t2, c2⟩ := run_start (lim := lim) (tabs := tabs) (S := S) (typ := typ) k1 d s2
        have hw2 := (within_append hw).2
        rw [rest] at hw2 ⊢
        obtain ⟨g', e3, k3⟩ := ihr.1 hg.2 s2 r2 rfl d _ rfl f2 p2 (fun h => by rw [c2, strwidth_add, top_col h]) (by
          rw [c2, strwidth_add]; exact (within_append (within_append hw2).2).2)
        refine ⟨g', ?_, k3.of ?_ ?_ rfl⟩
        · rw [items, run_seq, e1, Option.bind_some]
          show run lim tabs true false 2 _ (.seq .hardline (items S (.cons s2 r2))) g = _
          rw [run_seq, e2, Option.bind_some, e3]
        · rw [t2]; simp
        · rw [c2, ← strwidth_add, ← strwidth_add]; simp
    · have hf := hf.of rfl rfl (left_other x)
      obtain ⟨f2, e2, p2, t2, c2⟩ := run_start (lim := lim) (tabs := tabs) (S := S) (typ := typ) hf d s
      rw [rest] at hw ⊢
      have hw2 := (within_append (within_append hw).2).2
      rw [← strwidth_add, ← c2] at hw2
      obtain ⟨g, e1, k1⟩ := ih.1 hg.1 (if isNil r then nx else .other) d f2 p2 (fun h => by rw [c2, strwidth_add, top_col h]) (within_append hw2).1
      obtain ⟨g', e3, k3⟩ := ihr.2.1 hg.2 nx d (ending s) g _ _ k1 (within_append hw2).2
      refine ⟨g', ?_, k3.of ?_ ?_ rfl⟩
      · rw [caseItems, run_seq, e2, Option.bind_some, run_seq, e1, Option.bind_some, e3]
      · rw [t2]; simp
      · rw [c2, ← strwidth_add, ← strwidth_add]; simp
    · cases h
      exact ⟨ih.1, ihr.2.1⟩
end

theorem trimOpen_nil (a : After) {b : Stmts} (h : isNil b = true) : trimOpen a b = .none := by
  cases b <;> simp [isNil] at h
  rfl

theorem body_open (H : Hand) (a : After) (b : Stmts) :
    body H a b = ['{'] ++ (emptyLine (trimOpen a b) ++ (inside H 1 b ++ (H.nl 0 ++ ['}']))) := by
  cases b with
  | nil => rfl
  | cons s r => cases s <;> cases a <;> rfl

/-- The body of a function. -/
theorem run_func (hS : Fair S typ) {a : After} {b : Stmts} (hg : Goods typ b) (hw : Within lim 0 (body (hand S tabs typ) a b)) :
    ∃ g, run lim tabs true false 2 0 (funcDoc S a b) ⟨[], 0, 0, .plain⟩ = some g ∧ g.txt = (body (hand S tabs typ) a b).reverse ∧
      g.edge = .plain := by
  have e1 : body (hand S tabs typ) a b = ['{'] ++ (emptyLine (trimOpen a b) ++
      (inside (hand S tabs typ) (if false then 0 else 0 + 1) b ++ ((hand S tabs typ).nl 0 ++ ['}']))) := by
    exact body_open _ a b
  rw [e1] at hw ⊢
  have h0 := run_brk (lim := lim) (tabs := tabs) (s := ['{']) (f := ⟨[], 0, 0, .plain⟩) rfl (by simp) (by simp) false 2 0
  obtain ⟨f, e2, h2, _⟩ := run_after (lim := lim) (tabs := tabs) (f := Spot.put ['{'] ⟨[], 0, 0, .plain⟩) rfl rfl (solid_cons (by decide) _) true false 2 0
    (trimOpen a b)
  have hz : 0 * S.width = 0 := Nat.zero_mul _
  have h3 := run_body hS (run_list hS b).1 hg false 0 _ h2 (trimOpen_nil a) rfl (within_append hw).2
    (k := .nil) (P := fun g => g.txt = _ ∧ g.edge = .plain) (fun p hp => ⟨p, run_nil _ p, hp.txt, hp.edge⟩)
  rw [hz] at h3
  obtain ⟨g, e3, h3, h4⟩ := h3
  refine ⟨g, ?_, ?_, h4⟩
  · rw [funcDoc, run_seq, h0, Option.bind_some, run_seq, e2, Option.bind_some, e3]
  · rw [h3]
    show _ ++ (['{'].reverse ++ []) = _
    simp

/-- C90: the statements of a function are printed one per line, each indented by the number of statements it is nested
in, as written down in `body`. Missing: comments, preprocessor directives, structures with fields, lines longer than
the limit, simple passes. -/
theorem C90_partial {env : Knfmt.Doc.Env} (hd : env.diff = none) (hS : Fair S typ) (a : After) {b : Stmts} (hg : Goods typ b)
    (hw : Within env.limit 0 (body (hand S env.useTabs typ) a b)) :
    (Knfmt.Doc.docExec env false [] (funcDoc S a b)).buf.reverse = body (hand S env.useTabs typ) a b ∧
      (Knfmt.Doc.docExec env false [] (funcDoc S a b)).ub = false := by
  obtain ⟨g, h1, h2, h3⟩ := run_func hS hg hw
  have h := Knfmt.Doc.run_sound (env := env) (σ := {}) hd h1
    ⟨rfl, rfl, rfl, by decide, fun i h => by simp at h, fun _ => rfl, fun _ => rfl, fun h => by simp at h⟩ rfl
    (fun _ => by simp) (fun _ => ⟨rfl, rfl, rfl, rfl, rfl⟩)
  have hx : Knfmt.Doc.docExec env false [] (funcDoc S a b) = Knfmt.Doc.exec env (funcDoc S a b) {} := by
    unfold Knfmt.Doc.docExec Knfmt.Doc.diffExit
    simp [hd]
  rw [hx]
  refine ⟨?_, h.2.1.ub⟩
  rw [h.1.buf (by simp [h3]), h2, List.reverse_reverse]

/-! ## The lines of the source -/

/-- An empty line or not. -/
def After.norm : After → After
  | .blank => .blank
  | _ => .line

mutual
/-- The source with each statement on lines of its own, with the same empty lines. Declarations are left as they are. -/
def Stmt.norm : Stmt → Stmt
  | .expr e a => .expr e a.norm
  | .ret e a => .ret e a.norm
  | .jump kw a => .jump kw a.norm
  | .goto l a => .goto l a.norm
  | .semi a => .semi a.norm
  | .label sp l b => .label sp l b
  | .block b a => .block b.norm a.norm
  | .loop kw sp e s => .loop kw sp e s.norm
  | .loop3 x y z s => .loop3 x y z s.norm
  | .cond e t r => .cond e t.norm r.norm
  | .doWhile s e a => .doWhile s.norm e a.norm
  | .switch e b a => .switch e b.norm a.norm
  | .case e b => .case e b.norm
  | .decls b => .decls b
def Else.norm : Else → Else
  | .none => .none
  | .elif e t r => .elif e t.norm r.norm
  | .els s => .els s.norm
def Stmts.norm : Stmts → Stmts
  | .nil => .nil
  | .cons s r => .cons s.norm r.norm
end

theorem After.norm_line (a : After) : emptyLine a.norm = emptyLine a := by cases a <;> rfl

theorem isBlock_norm (s : Stmt) : isBlock s.norm = isBlock s := by cases s <;> rfl

/-- The same end, but for the line. -/
def Alike (x y : Bool × After) : Prop := x.1 = y.1 ∧ emptyLine x.2 = emptyLine y.2

mutual
theorem ending_norm : ∀ s : Stmt, Alike (ending s.norm) (ending s)
  | .expr e a => ⟨rfl, a.norm_line⟩
  | .ret e a => ⟨rfl, a.norm_line⟩
  | .jump kw a => ⟨rfl, a.norm_line⟩
  | .goto l a => ⟨rfl, a.norm_line⟩
  | .semi a => ⟨rfl, a.norm_line⟩
  | .label sp l b => ⟨rfl, rfl⟩
  | .block b a => ⟨rfl, a.norm_line⟩
  | .loop kw sp e s => by simpa only [Stmt.norm, ending] using ending_norm s
  | .loop3 x y z s => by simpa only [Stmt.norm, ending] using ending_norm s
  | .cond e t r => by simpa only [Stmt.norm, ending] using endingElse_norm r _ _ (ending_norm t)
  | .doWhile s e a => ⟨rfl, a.norm_line⟩
  | .switch e b a => ⟨rfl, a.norm_line⟩
  | .case e b => by simpa only [Stmt.norm, ending] using endingList_norm b _ _ ⟨rfl, rfl⟩
  | .decls b => ⟨rfl, rfl⟩
theorem endingElse_norm : ∀ (r : Else) (x y : Bool × After), Alike x y → Alike (endingElse x r.norm) (endingElse y r)
  | .none, x, y, h => h
  | .elif e t r, x, y, _ => by simpa only [Else.norm, endingElse] using endingElse_norm r _ _ (ending_norm t)
  | .els s, x, y, _ => by simpa only [Else.norm, endingElse] using ending_norm s
theorem endingList_norm : ∀ (b : Stmts) (x y : Bool × After), Alike x y → Alike (endingList x b.norm) (endingList y b)
  | .nil, x, y, h => h
  | .cons s r, x, y, _ => by simpa only [Stmts.norm, endingList] using endingList_norm r _ _ (ending_norm s)
end

theorem next_norm (H : Hand) (d : Nat) (s : Stmt) : H.next d s.norm = H.next d s := by
  unfold Hand.next
  rw [(ending_norm s).2]

theorem top_norm (H : Hand) (d : Nat) (s : Stmt) : H.top d s.norm = H.top d s := by
  cases s <;> rfl

theorem before_norm (H : Hand) (d : Nat) (s : Stmt) : H.before d s.norm = H.before d s := by
  unfold Hand.before
  rw [(ending_norm s).1, (ending_norm s).2, isBlock_norm]

theorem arm_norm (H : Hand) (d : Nat) (s : Stmt) (h : ∀ d, lay H d s.norm = lay H d s) :
    H.arm d s.norm (fun d => lay H d s.norm) = H.arm d s (fun d => lay H d s) := by
  unfold Hand.arm
  rw [isBlock_norm, top_norm]
  simp only [h]

mutual
theorem lay_norm (H : Hand) : ∀ (s : Stmt) (d : Nat), lay H d s.norm = lay H d s
  | .expr e a, d => by simp only [Stmt.norm, lay]
  | .ret none a, d => by simp only [Stmt.norm, lay]
  | .ret (some e) a, d => by simp only [Stmt.norm, lay]
  | .jump kw a, d => by simp only [Stmt.norm, lay]
  | .goto l a, d => by simp only [Stmt.norm, lay]
  | .semi a, d => by simp only [Stmt.norm, lay]
  | .label sp l b, d => by simp only [Stmt.norm, lay]
  | .block b a, d => by simp only [Stmt.norm, lay, (list_norm H b).1]
  | .loop kw sp e s, d => by simp only [Stmt.norm, lay, arm_norm H d s (lay_norm H s)]
  | .loop3 x y z s, d => by simp only [Stmt.norm, lay, arm_norm H d s (lay_norm H s)]
  | .cond e t r, d => by simp only [Stmt.norm, lay, arm_norm H d t (lay_norm H t), before_norm, else_norm H r]
  | .doWhile s e a, d => by simp only [Stmt.norm, lay, next_norm]; rw [arm_norm H d s (lay_norm H s), isBlock_norm]
  | .switch e b a, d => by simp only [Stmt.norm, lay, (list_norm H b).1]
  | .case none b, d => by simp only [Stmt.norm, lay, (list_norm H b).2.1]
  | .case (some e) b, d => by simp only [Stmt.norm, lay, (list_norm H b).2.1]
  | .decls b, d => rfl
theorem else_norm (H : Hand) : ∀ (r : Else) (d : Nat) (x : List Char), layElse H d x r.norm = layElse H d x r
  | .none, d, x => rfl
  | .elif e t r, d, x => by simp only [Else.norm, layElse, arm_norm H d t (lay_norm H t), before_norm, else_norm H r]
  | .els s, d, x => by simp only [Else.norm, layElse, arm_norm H d s (lay_norm H s)]
theorem list_norm (H : Hand) : ∀ b : Stmts, (∀ d, inside H d b.norm = inside H d b) ∧ (∀ d, below H d b.norm = below H d b) ∧
    ∀ d x, rest H d x b.norm = rest H d x b
  | .nil => ⟨fun _ => rfl, fun _ => rfl, fun _ _ => rfl⟩
  | .cons s r => by
    refine ⟨fun d => ?_, fun d => ?_, fun d x => ?_⟩
    · simp only [Stmts.norm, inside, lay_norm H s, top_norm, (ending_norm s).2, (list_norm H r).2.2]
    · simp only [Stmts.norm, below, arm_norm H d s (lay_norm H s), (ending_norm s).2, (list_norm H r).2.2]
    · simp only [Stmts.norm, rest, lay_norm H s, top_norm, (ending_norm s).2, (list_norm H r).2.2]
end

theorem body_norm (H : Hand) (a : After) (b : Stmts) : body H a.norm b.norm = body H a b := by
  cases b with
  | nil => rfl
  | cons s r =>
    have := (list_norm H (.cons s r)).1 1
    simp only [Stmts.norm] at this ⊢
    have hi : isDecls s.norm = isDecls s := by cases s <;> rfl
    rw [body, body, this, a.norm_line, hi]

/-- C90: it makes no difference where the lines of the source end: two functions with the same statements and the same
empty lines are printed alike. The settings may differ in everything that is found out from the source and has no
effect on the text of an expression on one line. -/
theorem C90_source_partial {env : Knfmt.Doc.Env} (hd : env.diff = none) {S' : Style} (hS : Fair S typ) (hS' : Fair S' typ)
    (hh : hand S env.useTabs typ = hand S' env.useTabs typ) {a a' : After} {b b' : Stmts}
    (ha : a.norm = a'.norm) (hb : b.norm = b'.norm) (hg : Goods typ b) (hg' : Goods typ b')
    (hw : Within env.limit 0 (body (hand S env.useTabs typ) a b)) :
    (Knfmt.Doc.docExec env false [] (funcDoc S a b)).buf = (Knfmt.Doc.docExec env false [] (funcDoc S' a' b')).buf := by
  have e : body (hand S env.useTabs typ) a b = body (hand S' env.useTabs typ) a' b' := by
    rw [← body_norm _ a b, ← body_norm _ a' b', ha, hb, hh]
  have h1 := (C90_partial hd hS a hg hw).1
  have h2 := (C90_partial hd hS' a' hg' (e ▸ hw)).1
  rw [e, ← h2] at h1
  exact List.reverse_inj.mp h1

end

/-! ## An example -/

instance : (lim c : Nat) → (s : List Char) → Decidable (Within lim c s)
  | lim, c, [] => inferInstanceAs (Decidable (c ≤ lim))
  | lim, c, x :: s =>
    have := instDecidableWithin lim (advance c x) s
    inferInstanceAs (Decidable (c ≤ lim ∧ Within lim (advance c x) s))

namespace Example

/-- An identifier. -/
def name (c : Char) : Ex := .lit ⟨0, .ident, [c]⟩
/-- A call without arguments. -/
def call (c : Char) : Ex := .call (name c) ⟨0, .lparen, ['(']⟩ .null (some ⟨0, .rparen, [')']⟩)
/-- Steps of eight columns. -/
def style : Style := { width := 8, cont := 4, conf := {} }
/-- Types do not occur. -/
def typ : List Tok → List Char := fun _ => []

/-- `while (x) { f(); break; }`, an empty line, `if (a) g(); else do h(); while (b);` and
`switch (v) { case A: case B: { ; } return a = b; }`, ` l:`, an empty line and `goto l;`. -/
def prog : Stmts :=
  .cons (.loop ['w', 'h', 'i', 'l', 'e'] true (some (name 'x'))
    (.block (.cons (.expr (call 'f') .none) (.cons (.jump ['b', 'r', 'e', 'a', 'k'] .none) .nil)) .blank))
  (.cons (.cond (name 'a') (.expr (call 'g') .none) (.els (.doWhile (.expr (call 'h') .line) (name 'b') .line)))
  (.cons (.switch (name 'v')
    (.cons (.case (some (name 'A')) .nil) (.cons (.case (some (name 'B'))
      (.cons (.block (.cons (.semi .none) .nil) .line)
      (.cons (.ret (some (.bin (name 'a') ⟨0, .equal, ['=']⟩ (name 'b'))) .blank) .nil))) .nil)) .line)
  (.cons (.label true ['l'] true) (.cons (.goto ['l'] .blank) .nil))))

/-- The text of the example. -/
def text : List Char :=
  "{\n\twhile (x) {\n\t\tf();\n\t\tbreak;\n\t}\n\n\tif (a)\n\t\tg();\n\telse\n\t\tdo\n\t\t\th();\n\t\twhile (b);\n\tswitch (v) {\n\tcase A:\n\tcase B: {\n\t\t;\n\t}\n\t\treturn a = b;\n\t}\n l:\n\n\tgoto l;\n}".toList

theorem fair : Fair style typ where
  mild := ⟨rfl, rfl, rfl, rfl, rfl, fun _ => rfl, fun _ _ _ _ _ _ f _ => run_nil false f, by decide, by decide⟩
  cont := by decide
  width := by decide
  place := fun _ => by show 0 < _; omega

/-- A style in which everything is aligned, at columns that depend on the statement. -/
def other : Style where
  width := 8
  cont := 4
  conf := { alignOperands := true, alignBracket := true, breakBinary := true, hasLine := fun t => t.id = 3 }
  place := fun e => match e with | .lit _ => 7 | _ => 12

theorem fair_other : Fair other typ where
  mild := ⟨rfl, rfl, rfl, rfl, rfl, fun _ => rfl, fun _ _ _ _ _ _ f _ => run_nil false f, by decide, by decide⟩
  cont := by decide
  width := by decide
  place := fun e => by cases e <;> (show _ < 134217728; simp [other])

theorem good : Goods typ prog := by
  simp [prog, Goods, Tolds, Told, ToldElse, Words, Word, name, call, isBlock]

/-- The hypotheses of `C90_partial` hold for the example, and this is what is printed. -/
example : (Knfmt.Doc.docExec { limit := 80, useTabs := true } false [] (funcDoc style .none prog)).buf.reverse = text := by
  have h : body (hand style true typ) .none prog = text := by decide +kernel
  rw [← h]
  exact (C90_partial (env := { limit := 80, useTabs := true }) rfl fair .none good (by show Within 80 0 (body (hand style true typ) .none prog); rw [h]; decide +kernel)).1

/-- The same in the other style. -/
example : (Knfmt.Doc.docExec { limit := 80, useTabs := true } false [] (funcDoc other .none prog)).buf.reverse = text := by
  have h : body (hand other true typ) .none prog = text := by decide +kernel
  rw [← h]
  exact (C90_partial (env := { limit := 80, useTabs := true }) rfl fair_other .none good (by show Within 80 0 (body (hand other true typ) .none prog); rw [h]; decide +kernel)).1

/-- The same for `C90_source_partial`. -/
example : (Knfmt.Doc.docExec { limit := 80, useTabs := true } false [] (funcDoc style .none prog)).buf =
    (Knfmt.Doc.docExec { limit := 80, useTabs := true } false [] (funcDoc other .line prog.norm)).buf := by
  have h : body (hand style true typ) .none prog = text := by decide +kernel
  exact C90_source_partial (env := { limit := 80, useTabs := true }) rfl fair fair_other rfl rfl rfl good
    (by simp [prog, Stmts.norm, Stmt.norm, Else.norm, Goods, Tolds, Told, ToldElse, Words, Word, name, call, isBlock])
    (by show Within 80 0 (body (hand style true typ) .none prog); rw [h]; decide +kernel)

/-- `do { f(); }`, an empty line, `while (x);`. -/
def loop (a : After) : Stmts := .cons (.doWhile (.block (.cons (.expr (call 'f') .line) .nil) a) (name 'x') .line) .nil

/-- `while` comes on a line of its own, with a space in front of it. -/
theorem dowhile_blank : (Knfmt.Doc.docExec { limit := 80, useTabs := true } false [] (funcDoc style .none (loop .blank))).buf.reverse =
    "{\n\tdo {\n\t\tf();\n\t}\n\t while (x);\n}".toList := by decide +kernel

/-- When this is formatted again, it is on the line of the right brace. -/
theorem dowhile_again : (Knfmt.Doc.docExec { limit := 80, useTabs := true } false [] (funcDoc style .none (loop .line))).buf.reverse =
    "{\n\tdo {\n\t\tf();\n\t} while (x);\n}".toList := by decide +kernel

end Example

/-- The property does not hold for all functions: after an empty line, `while` does not come where it should. -/
theorem C90_statement_false : ¬ ∀ (env : Knfmt.Doc.Env) (S : Style) (typ : List Tok → List Char) (a : After) (b : Stmts), env.diff = none →
    Fair S typ → Tolds false typ b → Within env.limit 0 (body (hand S env.useTabs typ) a b) →
    (Knfmt.Doc.docExec env false [] (funcDoc S a b)).buf.reverse = body (hand S env.useTabs typ) a b := by
  intro h
  have hb : body (hand Example.style true Example.typ) .none (Example.loop .blank) = "{\n\tdo {\n\t\tf();\n\t} while (x);\n}".toList := by
    decide +kernel
  have := h { limit := 80, useTabs := true } Example.style Example.typ .none (Example.loop .blank) rfl Example.fair
    (by simp [Example.loop, Tolds, Told, Words, Word, Example.name, Example.call])
    (by show Within 80 0 (body (hand Example.style true Example.typ) .none (Example.loop .blank)); rw [hb]; decide +kernel)
  rw [Example.dowhile_blank, hb] at this
  exact absurd this (by decide +kernel)

end Knfmt.Layout
