import Verif.Simple.StmtProps
/-!
# A second run finds nothing left to simplify (C81): braces
-/
namespace Knfmt.Stmt

open Knfmt.Lexer (TT)
open Knfmt.Stream (Node Fix)

namespace Spec

/-- `c`, reported by the second run, is what the body `b` of the first run has become: it has braces if they were
needed, or as before if it was not to be changed. It may be changed if `b` may, is printed on as many lines, and
if it had braces before the braces have the same comments and enclose the same tokens. -/
structure Became (diffparse : Bool) (ts ts2 : List Node) (bs bs2 : List Body) (b c : Body) : Prop where
  changeable : Changeable diffparse ts2 c ↔ Changeable diffparse ts b
  changed : Changeable diffparse ts b → (c.braces = true ↔ ∃ x ∈ bs, Needs diffparse ts bs x)
  kept : ¬ Changeable diffparse ts b → c.braces = b.braces
  lines : ManyLines c ↔ ManyLines b
  empty : c.braces = true → b.braces = true → (Empty ts2 bs2 c ↔ Empty ts bs b)
  commented : c.braces = true → b.braces = true → (Commented ts2 c ↔ Commented ts b)

/-- A body without braces consists of a semicolon or of several tokens. -/
def Several (ts : List Node) (bs : List Body) : Prop := ∀ b ∈ bs, b.braces = false → ¬ Empty ts bs b

end Spec

theorem addBraces_all {ts : List Node} {n : Nat} {ss : List Stmt} (h : ∀ s ∈ ss, s.ignore = true ∨ s.braces = true) :
    addBraces ts n ss = some ts := by
  induction ss generalizing ts n with
  | nil => rfl
  | cons s ss ih =>
    unfold addBraces
    rw [if_pos (by rcases h s (by simp) with h | h <;> simp [h])]
    exact ih (fun s hs => h s (by simp [hs]))

theorem removeBraces_none {ts : List Node} {st : Option Nat} {ss : List Stmt}
    (h : ∀ s ∈ ss, s.ignore = true ∨ s.braces = false) : removeBraces ts st ss = some ts := by
  induction ss generalizing ts st with
  | nil => rfl
  | cons s ss ih =>
    unfold removeBraces
    rw [if_pos (by rcases h s (by simp) with h | h <;> simp [h])]
    exact ih (fun s hs => h s (by simp [hs]))

/-- **C81**, braces: a second run, in which the bodies are those left by the first one, changes nothing. Missing:
more than 32 bodies, and bodies that are printed on more lines without their braces, see `braces_twice_fails`. -/
theorem braces_twice_partial (diffparse : Bool) (ts ts2 : List Node) (st2 : Option Nat) (n2 : Nat)
    (bs bs2 : List Body) (h2 : Spec.Reported ts2 n2 bs2) (hlen : bs2.length ≤ 32) (hl : bs2.length = bs.length)
    (hs : Spec.Several ts bs) (hs2 : Spec.Several ts2 bs2)
    (hb : ∀ p ∈ bs.zip bs2, Spec.Became diffparse ts ts2 bs bs2 p.1 p.2) :
    simpleStmt diffparse ts2 st2 n2 bs2 = some ts2 := by
  have hpair : ∀ c ∈ bs2, ∃ b ∈ bs, Spec.Became diffparse ts ts2 bs bs2 b c := by
    intro c hc
    obtain ⟨i, hi, rfl⟩ := List.getElem_of_mem hc
    have hi' : i < bs.length := hl ▸ hi
    refine ⟨bs[i], List.getElem_mem hi', hb (bs[i], bs2[i]) ?_⟩
    have : (bs.zip bs2)[i]'(by simp; omega) = (bs[i], bs2[i]) := by simp
    rw [← this]
    exact List.getElem_mem _
  have hpair' : ∀ b ∈ bs, ∃ c ∈ bs2, Spec.Became diffparse ts ts2 bs bs2 b c := by
    intro b hb'
    obtain ⟨i, hi, rfl⟩ := List.getElem_of_mem hb'
    have hi' : i < bs2.length := hl ▸ hi
    refine ⟨bs2[i], List.getElem_mem hi', hb (bs[i], bs2[i]) ?_⟩
    have : (bs.zip bs2)[i]'(by simp; omega) = (bs[i], bs2[i]) := by simp
    rw [← this]
    exact List.getElem_mem _
  have hneed : (∃ c ∈ bs2, Spec.Needs diffparse ts2 bs2 c) ↔ ∃ b ∈ bs, Spec.Needs diffparse ts bs b := by
    constructor
    · rintro ⟨c, hc, hn⟩
      obtain ⟨b, hb', hbc⟩ := hpair c hc
      rcases hn with ⟨k1, k2⟩ | ⟨k1, k2⟩
      · have hk : ¬ Spec.Changeable diffparse ts b := fun h => k1 (hbc.changeable.mpr h)
        exact ⟨b, hb', Or.inl ⟨hk, (hbc.kept hk) ▸ k2⟩⟩
      · have hk := hbc.changeable.mp k1
        rcases k2 with k2 | k2 | k2
        · cases hcb : c.braces with
          | false => exact absurd k2 (hs2 c hc hcb)
          | true => exact (hbc.changed hk).mp hcb
        · exact ⟨b, hb', Or.inr ⟨hk, Or.inr (Or.inl (hbc.lines.mp k2))⟩⟩
        · exact (hbc.changed hk).mp k2.1
    · rintro ⟨b, hb', hn⟩
      obtain ⟨c, hc, hbc⟩ := hpair' b hb'
      have hall : ∃ x ∈ bs, Spec.Needs diffparse ts bs x := ⟨b, hb', hn⟩
      rcases hn with ⟨k1, k2⟩ | ⟨k1, k2⟩
      · exact ⟨c, hc, Or.inl ⟨fun h => k1 (hbc.changeable.mp h), (hbc.kept k1).trans k2⟩⟩
      · have hcb := (hbc.changed k1).mpr hall
        refine ⟨c, hc, Or.inr ⟨hbc.changeable.mpr k1, ?_⟩⟩
        rcases k2 with k2 | k2 | k2
        · cases hbb : b.braces with
          | false => exact absurd k2 (hs b hb' hbb)
          | true => exact Or.inl ((hbc.empty hcb hbb).mpr k2)
        · exact Or.inr (Or.inl (hbc.lines.mpr k2))
        · exact Or.inr (Or.inr ((hbc.commented hcb k2.1).mpr k2))
  have hig : ∀ c ∈ bs2, (stmtOf diffparse ts2 c).ignore = false → Spec.Changeable diffparse ts2 c :=
    fun c hc h => (ignore_iff h2 hc).mp h
  unfold simpleStmt
  simp only [record_eq hlen]
  by_cases hnil : bs2 = []
  · subst hnil; rfl
  · rw [if_neg (by simpa using hnil)]
    by_cases hN : ∃ c ∈ bs2, Spec.Needs diffparse ts2 bs2 c
    · rw [if_pos ((need_iff h2).mpr hN)]
      apply addBraces_all
      intro s hs'
      obtain ⟨c, hc, rfl⟩ := List.mem_map.mp hs'
      cases hi : (stmtOf diffparse ts2 c).ignore with
      | true => exact Or.inl rfl
      | false =>
        obtain ⟨b, -, hbc⟩ := hpair c hc
        exact Or.inr ((hbc.changed (hbc.changeable.mp (hig c hc hi))).mpr (hneed.mp hN))
    · rw [if_neg (fun h => hN ((need_iff h2).mp h))]
      apply removeBraces_none
      intro s hs'
      obtain ⟨c, hc, rfl⟩ := List.mem_map.mp hs'
      cases hi : (stmtOf diffparse ts2 c).ignore with
      | true => exact Or.inl rfl
      | false =>
        obtain ⟨b, -, hbc⟩ := hpair c hc
        right
        cases hcb : c.braces with
        | false => exact hcb
        | true => exact absurd (hneed.mpr ((hbc.changed (hbc.changeable.mp (hig c hc hi))).mp hcb)) hN

/-! ## Cases -/

/-- `if (a)`, a comment on a line of its own, `{ b; }`. -/
private def first : List Node :=
  [⟨0, .kIf, {}, 1, [], []⟩, ⟨1, .lparen, {}, 1, [], []⟩, ⟨2, .ident, {}, 1, [], []⟩, ⟨3, .rparen, {}, 1, [], []⟩,
   ⟨4, .lbrace, {}, 3, [⟨50, .comment, {}⟩], []⟩, ⟨5, .ident, {}, 3, [], []⟩, ⟨6, .semi, {}, 3, [], []⟩,
   ⟨7, .rbrace, {}, 3, [], []⟩, ⟨8, .eof, {}, 4, [], []⟩]

/-- `if (a)`, the comment, `b;`. -/
private def second : List Node :=
  [⟨0, .kIf, {}, 1, [], []⟩, ⟨1, .lparen, {}, 1, [], []⟩, ⟨2, .ident, {}, 1, [], []⟩, ⟨3, .rparen, {}, 1, [], []⟩,
   ⟨5, .ident, {}, 3, [⟨50, .comment, {}⟩], []⟩, ⟨6, .semi, {}, 3, [], []⟩, ⟨8, .eof, {}, 4, [], []⟩]

/-- **C81 is false** for a comment in front of a left brace: the braces are removed as the body is printed on one
line, and the comment becomes a part of the body. It is then printed on two lines, and the second run adds the
braces again. -/
theorem braces_twice_fails :
    simpleStmt false first none 100 [⟨4, 7, true, ['\n', '\t', 'b', ';']⟩] = some second ∧
    (simpleStmt false second none 100
        [⟨5, 8, false, ['\n', '\t', '/', '*', 'c', '*', '/', '\n', '\t', 'b', ';']⟩]).map (·.map (·.type)) =
      some [.kIf, .lparen, .ident, .rparen, .lbrace, .ident, .semi, .rbrace, .eof] := by
  constructor <;> decide +kernel

private def body : List Body := [⟨5, 8, false, ['\n', '\t', 'b', ';']⟩]

private theorem reported : Spec.Reported second 100 body where
  nodup := by decide
  used := by decide
  eof := by decide
  inside := by
    intro b hb x hx
    simp only [body, List.mem_singleton] at hb
    subst hb
    rcases hx with rfl | rfl <;> decide
  lbrace := by
    intro b hb hbr
    simp only [body, List.mem_singleton] at hb
    subst hb
    cases hbr
  rbrace := by
    intro b hb hbr
    simp only [body, List.mem_singleton] at hb
    subst hb
    cases hbr
  once := by simp [body]
  apart := by
    intro b hb c hc h1 h2
    simp only [body, List.mem_singleton] at hb hc
    subst hb; subst hc
    decide

/-- The hypotheses hold: `if (a) b;` is left as it is. -/
example : simpleStmt false second none 100 body = some second := by
  have hno : ¬ ∃ x ∈ body, Spec.Needs false second body x := by
    rw [← need_iff reported]
    decide +kernel
  have hnb : ∀ b ∈ body, b.braces = false := by decide
  have hch : ∀ b ∈ body, Spec.Changeable false second b := by
    intro b hb
    rw [← ignore_iff reported hb]
    simp only [body, List.mem_singleton] at hb
    subst hb
    decide +kernel
  have hse : Spec.Several second body := fun b hb _ he => hno ⟨b, hb, Or.inr ⟨hch b hb, Or.inl he⟩⟩
  refine braces_twice_partial false second second none 100 body body reported (by decide) rfl hse hse ?_
  intro p hp
  obtain ⟨b, c⟩ := p
  have hm : b = c ∧ b ∈ body := by
    simp only [body, List.zip_cons_cons, List.zip_nil_right, List.mem_singleton, Prod.mk.injEq] at hp ⊢
    exact ⟨hp.1.trans hp.2.symm, hp.1⟩
  obtain ⟨rfl, hm⟩ := hm
  exact ⟨Iff.rfl, fun _ => by simp [hnb b hm, hno], fun _ => rfl, Iff.rfl, fun _ _ => Iff.rfl, fun _ _ => Iff.rfl⟩

end Knfmt.Stmt
