import Verif.Lexer.Cover
/-! # Operators are read by longest match (C13) -/
namespace Knfmt.Spec

open Knfmt.Lexer

/-- The operators and punctuators of token.h: the keywords that do not start with a
letter or an underscore. -/
def operators : List (List Char) :=
  (keywords.map (·.1)).filter (fun k => k.head?.any (fun c => !(isAlpha c || c = '_')))

/-- `o` is the longest operator `rest` starts with. -/
def LongestOperator (rest o : List Char) : Prop :=
  o ∈ operators ∧ o <+: rest ∧ ∀ o' ∈ operators, o' <+: rest → o'.length ≤ o.length

/-- `rest` starts with a number such as `.5`. -/
def StartsFraction (rest : List Char) : Prop :=
  ∃ d rest', rest = '.' :: d :: rest' ∧ isDigit d = true

end Knfmt.Spec

namespace Knfmt.Lexer

open Knfmt.Spec

/-- Entries of the keyword table. -/
def table : List (List Char × TT × Flags) := keywords ++ aliases

/-- Operators other than the ellipsis can be read one byte at a time. -/
theorem operators_closed : ∀ o ∈ operators, o ≠ ['.', '.', '.'] →
    ∀ n, n < o.length → ∃ k ∈ table, k.1 = o.take (n + 1) := by
  decide +kernel

theorem operators_nonempty : ∀ o ∈ operators, o ≠ [] := by decide +kernel

/-- A keyword that some operator extends is marked as ambiguous. -/
theorem operators_ambiguous : ∀ k ∈ table, ∀ o ∈ operators, k.1 <+: o → k.1 ≠ o →
    k.2.2.ambiguous = true := by
  decide +kernel

theorem ambiguous_operator : ∀ k ∈ table, k.2.2.ambiguous = true → k.1 ∈ operators := by
  decide +kernel

theorem table_operator : ∀ k ∈ table, k.1 ∈ operators ∨ k.1.head?.any (fun c => isAlpha c || c = '_') := by
  decide +kernel

theorem table_nonempty : ∀ k ∈ table, k.1 ≠ [] := by decide +kernel

theorem table_alpha_long : ∀ k ∈ table, k.1.length = 1 → k.1 ∈ operators := by decide +kernel

theorem table_period : ∀ k ∈ table, k.2.1 = .period ↔ k.1 = ['.'] := by decide +kernel

theorem ellipsis_found : (findKeyword1 ['.', '.', '.']).isSome = true ∧
    ∀ k ∈ table, k.1 = ['.', '.', '.'] → k.2.2.ambiguous = false := by decide +kernel

theorem table_types : ∀ k ∈ table, k.2.1 ≠ .comment ∧ k.2.1 ≠ .space ∧ k.2.1 ≠ .eof ∧
    k.2.1 ≠ .cppDefine := by decide +kernel

/-- Only a backslash is discarded. -/
theorem table_discard : ∀ k ∈ table, k.2.2.discard = true ↔ k.1 = ['\\'] := by decide +kernel

theorem findKeyword1_some {key : List Char} {k : List Char × TT × Flags}
    (h : findKeyword1 key = some k) : k ∈ table ∧ k.1 = key := by
  unfold findKeyword1 at h
  exact ⟨List.mem_of_find?_eq_some h, by have := List.find?_some h; simpa using this⟩

theorem findKeyword1_none {key : List Char} (h : findKeyword1 key = none) :
    ∀ k ∈ table, k.1 ≠ key := by
  unfold findKeyword1 at h
  rw [List.find?_eq_none] at h
  intro k hk he
  exact h k hk (by simpa using he)

theorem findKeyword_eq {inp : List Char} {lx : Lx} {st : St} (h : st.off < lx.st.off) :
    findKeyword inp lx st = findKeyword1 (seg inp st.off lx.st.off) := by
  unfold findKeyword slice
  rw [if_neg (by omega)]; rfl

theorem findKeyword_empty {inp : List Char} {lx : Lx} {st : St} (h : st.off = lx.st.off) :
    findKeyword inp lx st = none := by
  unfold findKeyword slice
  rw [if_pos (by omega)]; rfl

theorem seg_prefix (inp : List Char) (a b : Nat) : seg inp a b <+: inp.drop a :=
  List.take_prefix _ _

theorem seg_take (inp : List Char) {a n b : Nat} (h : a + n ≤ b) :
    seg inp a (a + n) = (seg inp a b).take n := by
  unfold seg
  rw [List.take_take]; congr 1; omega

theorem prefix_take {o s : List Char} {n : Nat} (h : o <+: s) (hn : n ≤ o.length) :
    o.take n = s.take n := by
  obtain ⟨t, rfl⟩ := h
  rw [List.take_append_of_le_length hn]

/-- An operator that the input starts with and that is at least `n` bytes long: its first
`n` bytes are found in the table, unless it is the ellipsis. -/
theorem operator_take {inp : List Char} {a n : Nat} {o : List Char} (ho : o ∈ operators)
    (hp : o <+: inp.drop a) (hn : 0 < n) (hlen : n ≤ o.length) (he : o ≠ ['.', '.', '.']) :
    findKeyword1 (seg inp a (a + n)) ≠ none := by
  obtain ⟨k, hk, hke⟩ := operators_closed o ho he (n - 1) (by omega)
  rw [show n - 1 + 1 = n by omega, prefix_take hp hlen] at hke
  intro h
  refine findKeyword1_none h k hk ?_
  rw [hke]; unfold seg; congr 1; omega

/-- State of the loop of `clang_keyword`. -/
structure KwState (inp : List Char) (st : St) (lx : Lx) (pv : Option (List Char × TT × Flags)) :
    Prop where
  inv : Inv inp lx
  saved : Saved inp lx st
  ell : st.off + 1 < lx.st.off → ¬ ['.', '.', '.'] <+: inp.drop st.off
  pv : match pv with
    | none => (lx.st.eof = false ∧ lx.st.off = st.off + 1) ∨ (lx.st.eof = true ∧ lx.st.off = st.off)
    | some k => k ∈ table ∧ k.2.2.ambiguous = true ∧
      ((lx.st.eof = false ∧ st.off + 1 < lx.st.off ∧ k.1 = seg inp st.off (lx.st.off - 1)) ∨
       (lx.st.eof = true ∧ st.off < lx.st.off ∧ k.1 = seg inp st.off lx.st.off ∧ k.1 ≠ ['.']))

/-- Outcome of the loop of `clang_keyword`. -/
structure KwResult (inp : List Char) (st : St) (lx : Lx) (r : Lx × Option (List Char × TT × Flags)) :
    Prop where
  inv : Inv inp r.1
  lines : lx.lines <+: r.1.lines
  off : st.off ≤ r.1.st.off
  some : ∀ k, r.2 = some k → k ∈ table ∧ k.1 = seg inp st.off r.1.st.off ∧
    LongestOperator (inp.drop st.off) k.1 ∧ st.off < r.1.st.off
  none : r.2 = none → (∀ o ∈ operators, ¬ o <+: inp.drop st.off) ∨ StartsFraction (inp.drop st.off)

theorem KwResult.trans {inp : List Char} {st : St} {a b : Lx} {r : Lx × Option (List Char × TT × Flags)}
    (h : a.lines <+: b.lines) (hr : KwResult inp st b r) : KwResult inp st a r :=
  ⟨hr.inv, h.trans hr.lines, hr.off, hr.some, hr.none⟩

theorem drop_getElem? (inp : List Char) (a : Nat) (c : Char) (h : inp[a]? = some c) :
    inp.drop a = c :: inp.drop (a + 1) := by
  have hlt := (List.getElem?_eq_some_iff.mp h).1
  rw [List.drop_eq_getElem_cons hlt]
  congr 1
  have := List.getElem?_eq_getElem hlt
  rw [this] at h; simpa using h

theorem readEllipsis_spec {inp : List Char} {lx : Lx} {st : St} (hi : Inv inp lx)
    (hs : Saved inp lx st) (hst : lx.st.off = st.off + 1) (hd : inp[st.off]? = some '.')
    (r : Lx × Option (List Char × TT × Flags)) (hr : readEllipsis inp lx st = r) :
    Step inp lx r.1 ∧
    (∀ k, r.2 = some k → k ∈ table ∧ k.1 = ['.', '.', '.'] ∧ r.1.st.off = st.off + 3 ∧
      seg inp st.off r.1.st.off = ['.', '.', '.']) ∧
    (r.2 = none → r.1.st = lx.st ∧ ¬ ['.', '.', '.'] <+: inp.drop st.off) := by
  have hrest : inp.drop st.off = '.' :: inp.drop (st.off + 1) := drop_getElem? _ _ _ hd
  unfold readEllipsis at hr
  split at hr
  · next hg =>
    subst hr
    refine ⟨Step.refl hi, by simp, fun _ => ⟨rfl, ?_⟩⟩
    have := hi.st.eof ((getc_none hi).mp hg)
    intro hp
    rw [hrest, List.drop_of_length_le (by omega)] at hp
    have := hp.length_le
    simp at this
  · next c lx1 hg =>
    obtain ⟨g1, g1'⟩ := getc_some hi hg
    split at hr
    · next hc =>
      subst hr
      refine ⟨Step.reset hi g1, by simp, fun _ => ⟨rfl, ?_⟩⟩
      intro hp
      obtain ⟨t, ht⟩ := hp
      have h1 : inp[st.off + 1]? = some '.' := by
        have := congrArg (fun l => l[1]?) ht
        simp only [List.getElem?_drop] at this
        simpa using this.symm
      rcases g1' with h | h
      · rw [hst] at h; rw [h1] at h
        simp at h; exact hc h.1.symm
      · have := (List.getElem?_eq_some_iff.mp h1).1
        omega
    · next hc =>
      have hc : c = '.' := by simpa using hc
      subst hc
      have g1' := g1'.resolve_right (by simp)
      split at hr
      · next hg2 =>
        subst hr
        have := (getc_none g1.inv).mp hg2
        rw [g1'.2.2.1] at this; simp at this
      · next c2 lx2 hg2 =>
        obtain ⟨g2, g2'⟩ := getc_some g1.inv hg2
        split at hr
        · next hc2 =>
          subst hr
          refine ⟨Step.reset hi (g1.trans g2), by simp, fun _ => ⟨rfl, ?_⟩⟩
          intro hp
          obtain ⟨t, ht⟩ := hp
          have h1 : inp[st.off + 2]? = some '.' := by
            have := congrArg (fun l => l[2]?) ht
            simp only [List.getElem?_drop] at this
            simpa using this.symm
          rcases g2' with h | h
          · rw [g1'.2.1, hst] at h; rw [h1] at h
            simp at h; exact hc2 h.1.symm
          · have := (List.getElem?_eq_some_iff.mp h1).1
            omega
        · next hc2 =>
          have hc2 : c2 = '.' := by simpa using hc2
          subst hc2
          have g2' := g2'.resolve_right (by simp)
          have hoff : lx2.st.off = st.off + 3 := by omega
          have hd1 : inp[st.off + 1]? = some '.' := by rw [← hst]; exact g1'.1
          have hd2 : inp[st.off + 2]? = some '.' := by
            have := g2'.1; rw [g1'.2.1, hst] at this; exact this
          have hseg : seg inp st.off lx2.st.off = ['.', '.', '.'] := by
            unfold seg
            rw [hoff, hrest, drop_getElem? _ _ _ hd1, drop_getElem? _ _ _ hd2,
              show st.off + 3 - st.off = 3 by omega]
            simp
          have hfk : findKeyword inp lx2 st = findKeyword1 ['.', '.', '.'] := by
            rw [findKeyword_eq (by omega), hseg]
          subst hr
          refine ⟨g1.trans g2, ?_, ?_⟩
          · intro k hk
            simp only [hfk] at hk
            obtain ⟨a, b⟩ := findKeyword1_some hk
            exact ⟨a, b, hoff, hseg⟩
          · intro hn
            simp only [hfk] at hn
            have := ellipsis_found.1
            rw [hn] at this; simp at this

/-- `clang_keyword` reads the longest operator. -/
theorem keywordLoop_spec (inp : List Char) (st : St) (lx : Lx) (pv : Option (List Char × TT × Flags))
    (hs : KwState inp st lx pv) (r : Lx × Option (List Char × TT × Flags))
    (hr : keywordLoop inp st lx pv = r) : KwResult inp st lx r := by
  induction hm : left inp lx using Nat.strongRecOn generalizing lx pv with
  | ind m ih =>
  subst hm
  rw [keywordLoop] at hr
  obtain ⟨hi, hsv, hell, hpv⟩ := hs
  split at hr
  · -- the bytes read so far are not in the table
    next hf =>
    subst hr
    cases pv with
    | none =>
      simp only at hpv
      rcases hpv with ⟨he, ho⟩ | ⟨he, ho⟩
      · obtain ⟨u1, u2, u3⟩ := ungetc_inv hi he (by omega)
        refine ⟨u1, by rw [u3]; exact List.prefix_refl _, by simp only; omega, by simp, fun _ => Or.inl ?_⟩
        intro o ho' hp
        rw [findKeyword_eq (by omega), ho] at hf
        have hne := operators_nonempty o ho'
        have hl : 0 < o.length := List.length_pos_iff.mpr hne
        by_cases hel : o = ['.', '.', '.']
        · have hd : ['.'] ∈ operators := by decide +kernel
          refine operator_take hd ?_ (by omega) (Nat.le_refl 1) (by decide) hf
          subst hel
          exact List.IsPrefix.trans (by decide) hp
        · exact operator_take ho' hp (by omega) hl hel hf
      · refine ⟨by unfold ungetc; rw [he]; exact hi, by unfold ungetc; rw [he]; exact List.prefix_refl _,
          by unfold ungetc; rw [he]; simp only [if_true]; omega, by simp, fun _ => Or.inl ?_⟩
        intro o ho' hp
        have h1 := hi.st.eof he
        rw [List.drop_of_length_le (by omega)] at hp
        exact operators_nonempty o ho' (List.prefix_nil.mp hp)
    | some k =>
      simp only at hpv
      obtain ⟨hk, hka, ⟨he, ho, hks⟩ | ⟨he, ho, hks, hkp⟩⟩ := hpv
      · obtain ⟨u1, u2, u3⟩ := ungetc_inv hi he (by omega)
        have hoff : (ungetc inp lx).st.off = lx.st.off - 1 := by omega
        refine ⟨u1, by rw [u3]; exact List.prefix_refl _, by simp only; omega, ?_, by simp⟩
        intro k' hk'
        simp only [Option.some.injEq] at hk'
        subst hk'
        refine ⟨hk, by simp only [hoff]; exact hks, ⟨ambiguous_operator k hk hka, ?_, ?_⟩, by simp only; omega⟩
        · rw [hks]; exact seg_prefix _ _ _
        · intro o ho' hp
          apply Nat.le_of_not_lt
          intro hlt
          have hkl : k.1.length = lx.st.off - 1 - st.off := by
            rw [hks]; exact seg_length _ (by have := hi.st.le; omega)
          rw [findKeyword_eq (by omega)] at hf
          refine operator_take (n := lx.st.off - st.off) ho' hp (by omega) (by omega) ?_ ?_
          · rintro rfl; exact hell ho hp
          · rw [show st.off + (lx.st.off - st.off) = lx.st.off by omega]; exact hf
      · exfalso
        rw [findKeyword_eq ho] at hf
        exact findKeyword1_none hf k hk hks
  · next tmp hf =>
    have hlt : st.off < lx.st.off := by
      rcases Nat.lt_or_ge st.off lx.st.off with h | h
      · exact h
      · rw [findKeyword_empty (by have := hsv.off; omega)] at hf; simp at hf
    rw [findKeyword_eq hlt] at hf
    obtain ⟨htm, hts⟩ := findKeyword1_some hf
    have hpre : tmp.1 <+: inp.drop st.off := by rw [hts]; exact seg_prefix _ _ _
    have hseglen : tmp.1.length = lx.st.off - st.off := by
      rw [hts]; exact seg_length _ hi.st.le
    have hop : tmp.2.2.ambiguous = true ∨ tmp.1 ∈ operators := by
      cases pv with
      | none =>
        simp only at hpv
        right
        rcases hpv with ⟨he, ho⟩ | ⟨he, ho⟩
        · exact table_alpha_long tmp htm (by omega)
        · omega
      | some k =>
        simp only at hpv
        right
        obtain ⟨hk, hka, h⟩ := hpv
        have hko := ambiguous_operator k hk hka
        rcases table_operator tmp htm with h' | h'
        · exact h'
        · exfalso
          have hne := table_nonempty k hk
          have hhead : tmp.1.head? = k.1.head? := by
            have hkp : k.1 <+: tmp.1 := by
              rw [hts]
              rcases h with ⟨_, h1, h2⟩ | ⟨_, h1, h2, _⟩
              · rw [h2]
                exact ⟨seg inp (lx.st.off - 1) lx.st.off, seg_append inp (by omega) (by omega)⟩
              · rw [h2]; exact List.prefix_refl _
            obtain ⟨t, ht⟩ := hkp
            rw [← ht]
            cases hk1 : k.1 with
            | nil => exact absurd hk1 hne
            | cons => rfl
          rw [hhead] at h'
          simp only [operators, List.mem_filter] at hko
          cases hh : k.1.head? with
          | none => simp [hh] at h'
          | some c =>
            rw [hh] at h' hko
            have h1 := hko.2
            simp only [Option.any_some] at h' h1
            rw [h'] at h1; simp at h1
    split at hr
    · -- not ambiguous
      next hna =>
      subst hr
      have hop := hop.resolve_left (by simp [hna])
      refine ⟨hi, List.prefix_refl _, by simp only; omega, ?_, by simp⟩
      intro k hk
      simp only [Option.some.injEq] at hk
      subst hk
      refine ⟨htm, hts, ⟨hop, hpre, ?_⟩, hlt⟩
      intro o ho hp
      apply Nat.le_of_not_lt
      intro hl
      have := operators_ambiguous tmp htm o ho (List.prefix_of_prefix_length_le hpre hp (by omega))
        (by intro h; rw [h] at hl; omega)
      rw [hna] at this; simp at this
    · next hamb =>
      have hamb : tmp.2.2.ambiguous = true := by simpa using hamb
      have hopm := ambiguous_operator tmp htm hamb
      -- nothing longer can match if the input ends here
      have hend : lx.st.off = inp.length → LongestOperator (inp.drop st.off) tmp.1 := by
        intro he
        refine ⟨hopm, hpre, ?_⟩
        intro o ho hp
        have := hp.length_le
        rw [List.length_drop] at this
        omega
      split at hr
      · next hper =>
        have htp := (table_period tmp htm).mp hper
        have ho1 : lx.st.off = st.off + 1 := by rw [htp] at hseglen; simp at hseglen; omega
        have hdot : inp[st.off]? = some '.' := by
          have : (inp.drop st.off)[0]? = some '.' := by
            obtain ⟨t, ht⟩ := hpre
            rw [← ht, htp]; rfl
          rw [List.getElem?_drop] at this; exact this
        have heof : lx.st.eof = false := by
          cases pv with
          | none =>
            simp only at hpv
            rcases hpv with h | h
            · exact h.1
            · omega
          | some k =>
            simp only at hpv
            obtain ⟨hk, hka, ⟨he, _⟩ | ⟨he, ho, hks, hkp⟩⟩ := hpv
            · exact he
            · exact absurd (by rw [hks, ← hts, htp]) hkp
        split at hr
        · next hg =>
          have := (getc_none hi).mp hg
          rw [heof] at this; simp at this
        · next peek lx1 hg =>
          obtain ⟨g1, g1'⟩ := getc_some hi hg
          split at hr
          · next hdig =>
            subst hr
            refine ⟨g1.inv, g1.lines, by have := g1.off; simp only; omega, by simp, fun _ => Or.inr ?_⟩
            rcases g1' with h | h
            · refine ⟨peek, inp.drop (st.off + 2), ?_, hdig⟩
              rw [drop_getElem? _ _ _ hdot, drop_getElem? _ (st.off + 1) peek (by rw [← ho1]; exact h.1)]
            · rw [h.2.1] at hdig; exact absurd hdig (by decide)
          · next hdig =>
            obtain ⟨u1, u2, u3, u4, u5⟩ := ungetc_getc hi hg
            obtain ⟨e1, e2, e3⟩ := readEllipsis_spec u1.inv (hsv.step u1) (by omega) hdot _ rfl
            simp only at hr
            split at hr
            · next kw hkw =>
              obtain ⟨f1, f2, f3, f4⟩ := e2 kw hkw
              subst hr
              refine ⟨e1.inv, (u1.trans e1).lines, by simp only; omega, ?_, by simp⟩
              intro k hk
              simp only [Option.some.injEq] at hk
              subst hk
              have hkop : kw.1 ∈ operators := by rw [f2]; decide +kernel
              refine ⟨f1, by simp only; rw [f4, f2], ⟨hkop, ?_, ?_⟩, by simp only; omega⟩
              · rw [f2, ← f4]; exact seg_prefix _ _ _
              · intro o ho hp
                apply Nat.le_of_not_lt
                intro hl
                have hkpre : kw.1 <+: inp.drop st.off := by rw [f2, ← f4]; exact seg_prefix _ _ _
                have := operators_ambiguous kw f1 o ho (List.prefix_of_prefix_length_le hkpre hp (by omega))
                  (by intro h; rw [h] at hl; omega)
                rw [ellipsis_found.2 kw f1 f2] at this; simp at this
            · next hkw =>
              obtain ⟨f1, f2⟩ := e3 hkw
              split at hr
              · next hg2 =>
                have heo := e1.inv.st.eof ((getc_none e1.inv).mp hg2)
                have hoff2 : (readEllipsis inp (ungetc inp lx1) st).1.st.off = lx.st.off := by
                  rw [f1, u2]
                subst hr
                refine ⟨e1.inv, (u1.trans e1).lines, by simp only; omega, ?_, by simp⟩
                intro k hk
                simp only [Option.some.injEq] at hk
                subst hk
                exact ⟨htm, by simp only [hoff2]; exact hts, hend (by omega), by simp only; omega⟩
              · next c2 lx2 hg2 =>
                obtain ⟨g2, g2'⟩ := getc_some e1.inv hg2
                have hoff2 : (readEllipsis inp (ungetc inp lx1) st).1.st.off = lx.st.off := by
                  rw [f1, u2]
                have hleft : left inp lx2 < left inp lx := by
                  have h1 := getc_left hg2
                  have h2 : left inp (readEllipsis inp (ungetc inp lx1) st).1 ≤ left inp lx := by
                    unfold left; rw [hoff2, heof]
                    split <;> simp
                  omega
                rw [dif_pos hleft] at hr
                -- the end of file indication has already been consumed by the look ahead
                have hnl : inp[lx.st.off]? = some c2 ∧ lx2.st.off = lx.st.off + 1 ∧ lx2.st.eof = false := by
                  rcases g2' with h | h
                  · rw [hoff2] at h; exact ⟨h.1, h.2.1, h.2.2.1⟩
                  · exfalso
                    rcases g1' with h' | h'
                    · have := (List.getElem?_eq_some_iff.mp h'.1).1
                      omega
                    · have : (ungetc inp lx1).st.eof = true := by
                        unfold ungetc; rw [h'.2.2.2]; simp
                      rw [← f1] at this
                      rw [this] at h; simp at h
                refine KwResult.trans ((u1.trans e1).trans g2).lines
                  (ih _ hleft lx2 (some tmp) ⟨g2.inv, hsv.step ((u1.trans e1).trans g2), fun _ => f2, ?_⟩ hr rfl)
                simp only
                refine ⟨htm, hamb, Or.inl ⟨hnl.2.2, by omega, ?_⟩⟩
                rw [hts, hnl.2.1, Nat.add_sub_cancel]
      · next hper =>
        have htp : tmp.1 ≠ ['.'] := fun h => hper ((table_period tmp htm).mpr h)
        have hnoell : ¬ ['.', '.', '.'] <+: inp.drop st.off := by
          intro hp
          have h1 : ['.'] <+: inp.drop st.off := List.IsPrefix.trans (by decide) hp
          rcases Nat.lt_or_ge (st.off + 1) lx.st.off with h | h
          · exact hell h hp
          · apply htp
            have hl : tmp.1.length = 1 := by omega
            exact (List.IsPrefix.eq_of_length (List.prefix_of_prefix_length_le hpre h1 (by simp; omega)) (by simpa using hl))
        split at hr
        · next hg =>
          have heo := hi.st.eof ((getc_none hi).mp hg)
          subst hr
          refine ⟨hi, List.prefix_refl _, by simp only; omega, ?_, by simp⟩
          intro k hk
          simp only [Option.some.injEq] at hk
          subst hk
          exact ⟨htm, hts, hend heo, hlt⟩
        · next c2 lx2 hg2 =>
          obtain ⟨g2, g2'⟩ := getc_some hi hg2
          rw [dif_pos (getc_left hg2)] at hr
          refine KwResult.trans g2.lines
            (ih _ (getc_left hg2) lx2 (some tmp) ⟨g2.inv, hsv.step g2, fun _ => hnoell, ?_⟩ hr rfl)
          simp only
          refine ⟨htm, hamb, ?_⟩
          rcases g2' with h | h
          · left
            exact ⟨h.2.2.1, by omega, by rw [hts, h.2.1, Nat.add_sub_cancel]⟩
          · right
            refine ⟨by rw [h.2.2.2], by rw [h.2.2.2]; exact hlt, ?_, htp⟩
            rw [hts, h.2.2.2]

/-- `clang_keyword`. Position `p` is where the lexer is after skipping blanks. -/
theorem readKeyword_spec {inp : List Char} {lx : Lx} (cx : Ctx) (hi : Inv inp lx)
    (r : Lx × Option Tok) (hr : readKeyword inp cx lx = r) :
    ∃ p, lx.st.off ≤ p ∧ AllIn inp Blank lx.st.off p ∧ p ≤ inp.length ∧
    Inv inp r.1 ∧ lx.lines <+: r.1.lines ∧ p ≤ r.1.st.off ∧
    (∀ t, r.2 = some t → Good inp cx p r.1.st.off t ∧ t.off = p ∧ t.stop = r.1.st.off ∧
      p < r.1.st.off ∧ (∃ k ∈ table, t.type = k.2.1 ∧ t.raw inp = k.1 ∧
        t.flags = { k.2.2 with diff := cx.diff t.lno }) ∧ t.joined = false ∧
      LongestOperator (inp.drop p) (t.raw inp)) ∧
    (r.2 = none → r.1.st.off = p ∧
      ((∀ o ∈ operators, ¬ o <+: inp.drop p) ∨ StartsFraction (inp.drop p))) := by
  obtain ⟨e1, e2, e3, e4, e5⟩ := eatLinesAndSpaces_spec hi lx.st
  refine ⟨(eatLinesAndSpaces inp lx lx.st).1.st.off, e1.off, e2, e1.inv.st.le, ?_⟩
  unfold readKeyword at hr
  simp only at hr
  split at hr
  · next hg =>
    subst hr
    refine ⟨e1.inv, e1.lines, Nat.le_refl _, by simp, fun _ => ⟨rfl, Or.inl ?_⟩⟩
    intro o ho hp
    have := e1.inv.st.eof ((getc_none e1.inv).mp hg)
    rw [List.drop_of_length_le (by omega)] at hp
    exact operators_nonempty o ho (List.prefix_nil.mp hp)
  · next c lx1 hg =>
    obtain ⟨g1, g1'⟩ := getc_some e1.inv hg
    have hk := keywordLoop_spec inp (eatLinesAndSpaces inp lx lx.st).1.st lx1 none
      ⟨g1.inv, e1.inv.saved.step g1, ?_, ?_⟩ _ rfl
    · obtain ⟨k1, k2, k3, k4, k5⟩ := hk
      have hstep : Step inp (eatLinesAndSpaces inp lx lx.st).1
          (keywordLoop inp (eatLinesAndSpaces inp lx lx.st).1.st lx1 none).1 :=
        ⟨k1, g1.lines.trans k2, k3⟩
      split at hr
      · next hn =>
        subst hr
        have hre := Step.reset e1.inv hstep
        exact ⟨hre.inv, (e1.trans hre).lines, Nat.le_refl _, by simp, fun _ => ⟨rfl, k5 hn⟩⟩
      · next kw hkw =>
        obtain ⟨m1, m2, m3, m4⟩ := k4 kw hkw
        subst hr
        refine ⟨k1, (e1.trans hstep).lines, k3, ?_, by simp⟩
        intro t ht
        simp only [Option.some.injEq] at ht
        have hsv := e1.inv.saved.step hstep
        have hloc := emit_located cx kw.2.1 kw.2.2 k1 hsv
        have hraw : t.raw inp = kw.1 := by rw [← ht]; exact m2.symm
        have hty : t.type = kw.2.1 := by rw [← ht]; rfl
        have htt := table_types kw m1
        refine ⟨⟨by rw [← ht]; exact ⟨hloc.le, hloc.stop, hloc.lno, hloc.cno⟩, Or.inl ⟨by rw [← ht]; rfl, kw.1, by rw [← ht]; rfl, ?_⟩, by rw [← ht]; exact Nat.le_refl _, by rw [← ht]; exact AllIn.empty _ _ _, by rw [← ht]; exact Nat.le_refl _, by rw [← ht]; exact AllIn.empty _ _ _⟩,
          by rw [← ht]; rfl, by rw [← ht]; rfl, m4, ⟨kw, m1, hty, hraw, by rw [← ht]; rfl⟩, by rw [← ht]; rfl, by rw [hraw]; exact m3⟩
        rw [hraw, hty]
        unfold TextOf
        split
        · next h => exact absurd h htt.1
        · next h => exact absurd h htt.2.2.2
        · next h => exact absurd h htt.2.1
        · rfl
    · intro h
      rcases g1' with h' | h'
      · omega
      · rw [h'.2.2.2] at h; simp at h; omega
    · simp only
      rcases g1' with h' | h'
      · left; exact ⟨h'.2.2.1, h'.2.1⟩
      · right; rw [h'.2.2.2]; exact ⟨rfl, rfl⟩

end Knfmt.Lexer
