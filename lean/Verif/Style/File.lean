import Verif.Style.FileTok
/-!
# Reading the entries of a .clang-format file
-/
namespace Knfmt.Style

open Knfmt.Style.Spec (IsWord Value Written Word Numeric Valid Invalid Entry words OtherKey Plain Ignored update
  Reads)

/-- The documents are read, after some number of rounds. -/
def Ev (env : Env) (nested : Bool) (st : State) (ts : List Tok) (o : Out) : Prop :=
  ∃ n, documents env n nested st ts = some o

/-- The document is not skipped. -/
def Ours (ts : List Tok) : Prop := documentLanguage ts = .kw .None ∨ documentLanguage ts = .kw .Cpp

theorem not_skip {nested : Bool} {ts : List Tok} (h : nested = true ∨ Ours ts) :
    ¬ (nested = false ∧ documentLanguage ts ≠ .kw .None ∧ documentLanguage ts ≠ .kw .Cpp) := by
  rintro ⟨h1, h2, h3⟩
  rcases h with h | h | h
  · rw [h1] at h; simp at h
  · exact h2 h
  · exact h3 h

theorem ev_nil (env : Env) (nested : Bool) (st : State) : Ev env nested st [] (.none, st, []) := ⟨1, rfl⟩

theorem ev_unknown {env : Env} {nested : Bool} {st : State} {t : Tok} {us : List Tok} {o : Out}
    (hl : nested = true ∨ Ours (t :: us)) (h1 : t.ty ≠ .seq) (h2 : t.ty ≠ .docBegin) (h3 : t.ty ≠ .docEnd)
    (hs : t.so = none) (h : Ev env nested st (unknown (t :: us)) o) : Ev env nested st (t :: us) o := by
  obtain ⟨n, h⟩ := h
  refine ⟨n + 1, ?_⟩
  rw [documents_cons, if_neg (not_skip hl), if_neg h1, if_neg h2, if_neg h3, hs]
  exact h

theorem ev_doc {env : Env} {nested : Bool} {st : State} {t : Tok} {us : List Tok} {o : Out}
    (hl : nested = true ∨ Ours (t :: us)) (h1 : t.ty = .docBegin ∨ t.ty = .docEnd)
    (h : Ev env nested st us o) : Ev env nested st (t :: us) o := by
  obtain ⟨n, h⟩ := h
  refine ⟨n + 1, ?_⟩
  rw [documents_cons, if_neg (not_skip hl), if_neg (by rcases h1 with h1 | h1 <;> simp [h1])]
  rcases h1 with h1 | h1
  · rw [if_pos h1]; exact h
  · rw [if_neg (by simp [h1]), if_pos h1]; exact h

theorem ev_foreign {env : Env} {st : State} {t : Tok} {us : List Tok} {o : Out} (hl : ¬ Ours (t :: us))
    (h : Ev env false st (skipDocument (t :: us)) o) : Ev env false st (t :: us) o := by
  obtain ⟨n, h⟩ := h
  refine ⟨n + 1, ?_⟩
  rw [documents_cons, if_pos ⟨rfl, fun e => hl (Or.inl e), fun e => hl (Or.inr e)⟩]
  exact h

theorem ev_option {env : Env} {nested : Bool} {st st' : State} {k : Kw} {t : Tok} {us ts' : List Tok} {r : Res}
    {o : Out} (hl : nested = true ∨ Ours (t :: us)) (ht : t.ty = .kw k) (ho : Spec.isOption k = true)
    (hsc : scopeOf k = st.scope) (hp : ∃ n, soParse env (documents env n) n (entry k) st (t :: us) = some (r, st', ts'))
    (hr : r = .good ∨ r = .skip) (h : Ev env nested st' ts' o) : Ev env nested st (t :: us) o := by
  obtain ⟨n, h⟩ := h
  obtain ⟨m, hp⟩ := hp
  refine ⟨max n m + 1, ?_⟩
  rw [documents_cons, if_neg (not_skip hl), if_neg (by simp [ht]), if_neg (by simp [ht]), if_neg (by simp [ht]),
    so_kw ht, if_pos ho]
  simp only
  rw [if_neg (by
    show ¬ (entry k).scope ≠ st.scope
    rw [← hsc]
    exact fun h => h rfl)]
  rw [soParse_mono (documents_mono env (Nat.le_max_right n m)) (Nat.le_max_right n m) hp]
  have h' := documents_mono env (Nat.le_max_left n m) _ _ _ _ h
  rcases hr with rfl | rfl
  · exact h'
  · exact h'

theorem ev_stop {env : Env} {st : State} {k : Kw} {t : Tok} {us : List Tok} (ht : t.ty = .kw k)
    (ho : Spec.isOption k = true) (hsc : scopeOf k ≠ st.scope) : Ev env true st (t :: us) (.none, st, t :: us) := by
  refine ⟨1, ?_⟩
  rw [documents_cons, if_neg (by simp), if_neg (by simp [ht]), if_neg (by simp [ht]), if_neg (by simp [ht]),
    so_kw ht, if_pos ho]
  simp only
  rw [if_pos (show (entry k).scope ≠ st.scope from hsc)]

/-! ## One option -/

theorem lexIf_ne {ty : Ty} {t : Tok} {ts : List Tok} (h : t.ty ≠ ty) : lexIf ty (t :: ts) = none := by
  unfold lexIf
  exact if_neg h

theorem enumValue_of {t : Tok} {ts : List Tok} {v : Kw} (ht : t.ty = .kw v) (vs : List Kw) (hv : v ∈ vs) :
    enumValue (t :: ts) vs = some (v, ts) := by
  induction vs with
  | nil => simp at hv
  | cons x vs ih =>
    rw [enumValue]
    by_cases hx : x = v
    · subst hx
      rw [lexIf_cons ht]
    · rw [lexIf_ne (by rw [ht]; simpa using fun e => hx e.symm)]
      exact ih (by
        rcases List.mem_cons.mp hv with h | h
        · exact absurd h.symm hx
        · exact h)

theorem enumValue_none {t : Tok} {ts : List Tok} (vs : List Kw) (h : ∀ v ∈ vs, t.ty ≠ .kw v) :
    enumValue (t :: ts) vs = none := by
  induction vs with
  | nil => rfl
  | cons x vs ih =>
    rw [enumValue, lexIf_ne (h x (by simp))]
    exact ih fun v hv => h v (by simp [hv])

theorem parseEnum_good {k v : Kw} {st : State} {a b c : Tok} {us : List Tok} (ha : a.ty = .kw k) (hb : b.ty = .colon)
    (hc : c.ty = .kw v) (hv : v ∈ Spec.values k) (hk : Spec.isBool k = false) :
    parseEnum (entry k) k st (a :: b :: c :: us) = (.good, set st k (.kw v), us) := by
  unfold parseEnum
  rw [show (entry k).ty = .kw k from rfl, lexIf_cons ha]
  simp only
  rw [lexIf_cons hb, show (entry k).vals = Spec.values k by simp [entry, hk]]
  simp only
  rw [enumValue_of hc _ hv]

theorem parseEnum_skip {k : Kw} {st : State} {a b c : Tok} {us : List Tok} (ha : a.ty = .kw k) (hb : b.ty = .colon)
    (hc : ∀ v ∈ Spec.values k, c.ty ≠ .kw v) (hk : Spec.isBool k = false) :
    parseEnum (entry k) k st (a :: b :: c :: us) = (.skip, st, us) := by
  unfold parseEnum
  rw [show (entry k).ty = .kw k from rfl, lexIf_cons ha]
  simp only
  rw [lexIf_cons hb, show (entry k).vals = Spec.values k by simp [entry, hk]]
  simp only
  rw [enumValue_none _ hc]
  rfl

theorem parseIntegerImpl_good {k : Kw} {a b c : Tok} {us : List Tok} (ha : a.ty = .kw k) (hb : b.ty = .colon)
    (hc : c.ty = .int) : parseIntegerImpl (entry k) (a :: b :: c :: us) = (.good, c.int, us) := by
  unfold parseIntegerImpl
  rw [show (entry k).ty = .kw k from rfl, lexIf_cons ha]
  simp only
  rw [lexIf_cons hb]
  simp only
  rw [lexIf_cons hc]

theorem parseIntegerImpl_skip {k : Kw} {a b c : Tok} {us : List Tok} (ha : a.ty = .kw k) (hb : b.ty = .colon)
    (hc : c.ty ≠ .int) : parseIntegerImpl (entry k) (a :: b :: c :: us) = (.skip, 0, us) := by
  unfold parseIntegerImpl
  rw [show (entry k).ty = .kw k from rfl, lexIf_cons ha]
  simp only
  rw [lexIf_cons hb]
  simp only
  rw [lexIf_ne hc]
  rfl

theorem set_set (st : State) (k : Kw) (x y : Val) : set (set st k x) k y = set st k y := by
  unfold set
  simp only [State.mk.injEq, and_true]
  funext z
  by_cases hz : z = k <;> simp [hz]

theorem set_vals (st : State) (k : Kw) (x : Val) : (set st k x).vals k = x := by simp [set]

theorem kinds_values_all : ∀ k ∈ all, (Spec.isNumber k = true → Spec.values k = []) ∧
    (Spec.isCategory k = false → Spec.isBrace k = false → scopeOf k = none) ∧
    (Spec.isBrace k = true → scopeOf k = some .BraceWrapping) ∧
    (Spec.values k ≠ [] → Spec.isOption k = true) ∧ (Spec.isNumber k = true → Spec.isOption k = true) ∧
    (Spec.isBrace k = true → k ≠ .BasedOnStyle ∧ k ≠ .Language ∧ Spec.isCategory k = false) ∧
    (Spec.isNumber k = true → k ≠ .BasedOnStyle ∧ k ≠ .Language) := by decide +kernel

/-- An option is set to a valid value. -/
theorem soParse_valid {env : Env} {docs : Docs} {n : Nat} {k : Kw} {v : Val} {w : List Char} {st : State}
    {a b : Tok} {us : List Tok} (ha : a.ty = .kw k) (hb : b.ty = .colon) (hv : Valid k w v)
    (hcat : Spec.isCategory k = false)
    (hbase : k = .BasedOnStyle → st.depth ≠ 0 ∨ v = .kw .OpenBSD ∨ v = .kw .InheritParentConfig ∨
      ∃ b, v = .kw b ∧ env.dump b = none) :
    ∃ r, soParse env docs n (entry k) st (a :: b :: tokOf w :: us) = some (r, set st k v, us) ∧
      (r = .good ∨ r = .skip) := by
  have hall := kinds_values_all k (mem_all k)
  unfold soParse
  rw [show (entry k).ty = .kw k from rfl, show (entry k).parse = some (parseOf k) from rfl]
  cases hv with
  | @named x hx hci hw =>
    have hc := tokOf_named hci hw
    have ho : Spec.isOption k = true := hall.2.2.2.1 (List.ne_nil_of_mem hx)
    rcases kinds_all k (mem_all k) ho with ⟨hp, h⟩ | ⟨hp, h, h'⟩ | ⟨hp, h, h', h''⟩ | ⟨hp, rfl⟩ | ⟨hp, rfl⟩ |
      ⟨hp, rfl⟩ | ⟨hp, rfl⟩ | ⟨hp, rfl⟩ | ⟨hp, rfl⟩ | ⟨hp, h⟩ | ⟨hp, rfl⟩ <;> rw [hp] <;> simp only
    · obtain ⟨hvs, hao⟩ := values_bool_all k (mem_all k) h
      have hn : Spec.named k x = .kw x := by
        unfold Spec.named
        rw [if_neg (by simp [hao]), if_neg (by simp [hao])]
      rw [hn]
      refine ⟨.good, ?_, Or.inl rfl⟩
      unfold parseBool
      rw [show (entry k).ty = .kw k from rfl, lexIf_cons ha]
      simp only
      rw [lexIf_cons hb]
      simp only
      rw [hvs] at hx
      simp only [List.mem_cons, List.not_mem_nil, or_false] at hx
      rcases hx with rfl | rfl
      · rw [lexIf_cons hc]
      · rw [lexIf_ne (by rw [hc]; simp)]
        simp only
        rw [lexIf_cons hc]
    · have hn : Spec.named k x = .kw x := by
        unfold Spec.named
        rw [if_neg (by simp [h']), if_neg (by simp [h'])]
      rw [hn]
      exact ⟨.good, by rw [parseEnum_good ha hb hc hx h], Or.inl rfl⟩
    · rw [hall.1 h] at hx; simp at hx
    · simp [Spec.values, Spec.isBool] at hx
    · refine ⟨.good, ?_, Or.inl rfl⟩
      unfold parseAlignOperands
      rw [parseEnum_good ha hb hc hx rfl]
      simp only [set_vals, set_set]
      unfold Spec.named
      by_cases h1 : x = .True
      · subst h1; simp
      · by_cases h2 : x = .False
        · subst h2; simp
        · simp [h1, h2]
    · have hn : Spec.named .BasedOnStyle x = .kw x := by simp [Spec.named]
      rw [hn] at hbase ⊢
      unfold parseBasedOnStyle
      rw [parseEnum_good ha hb hc hx rfl]
      simp only [set_vals]
      rw [show (set st .BasedOnStyle (.kw x)).depth = st.depth from rfl]
      by_cases hd : st.depth > 0
      · rw [if_pos hd]
        exact ⟨_, rfl, Or.inr rfl⟩
      · rw [if_neg hd]
        by_cases hx' : (decide (x = .OpenBSD) || decide (x = .InheritParentConfig)) = true
        · rw [if_pos hx']
          exact ⟨_, rfl, Or.inl rfl⟩
        · rw [if_neg hx']
          rcases hbase rfl with h | h | h | ⟨y, h, hy⟩
          · omega
          · simp only [Val.kw.injEq] at h; simp [h] at hx'
          · simp only [Val.kw.injEq] at h; simp [h] at hx'
          · simp only [Val.kw.injEq] at h
            rw [h, hy]
            exact ⟨_, rfl, Or.inr rfl⟩
    · simp [Spec.values, Spec.isBool] at hx
    · simp [Spec.values, Spec.isBool] at hx
    · simp [Spec.values, Spec.isBool] at hx
    · rcases h with rfl | rfl <;> simp [Spec.values, Spec.isBool] at hx
    · simp [Spec.values, Spec.isBool] at hx
  | @number d hk hd hw hfit hg =>
    obtain ⟨hc, hi⟩ := tokOf_number hd hw hfit
    have hu : u32 (tokOf w).int = Spec.decimal d := by
      rw [hi]; unfold u32; omega
    have ho : Spec.isOption k = true := hall.2.2.2.2.1 hk
    rcases kinds_all k (mem_all k) ho with ⟨hp, h⟩ | ⟨hp, h, h'⟩ | ⟨hp, h, h', h''⟩ | ⟨hp, rfl⟩ | ⟨hp, rfl⟩ |
      ⟨hp, rfl⟩ | ⟨hp, rfl⟩ | ⟨hp, rfl⟩ | ⟨hp, rfl⟩ | ⟨hp, h⟩ | ⟨hp, rfl⟩ <;> rw [hp] <;> simp only
    · have := (values_bool_all k (mem_all k) h).1
      rw [hall.1 hk] at this
      simp at this
    · exfalso
      have : ∀ k ∈ all, parseOf k = .enum → Spec.isNumber k = false := by decide +kernel
      rw [this k (mem_all k) hp] at hk
      simp at hk
    · refine ⟨.good, ?_, Or.inl rfl⟩
      unfold parseInteger
      rw [parseIntegerImpl_good ha hb hc]
      simp only [hu]
      unfold Spec.number
      rw [if_neg (by simp [h'])]
    · simp [Spec.isNumber] at hk
    · simp [Spec.isNumber] at hk
    · simp [Spec.isNumber] at hk
    · refine ⟨.good, ?_, Or.inl rfl⟩
      unfold parseColumnLimit parseInteger
      rw [parseIntegerImpl_good ha hb hc]
      simp only [hu, set_vals, set_set]
      unfold Spec.number
      by_cases h0 : Spec.decimal d = 0
      · simp [h0]
      · rw [if_neg (by simpa using h0), if_neg (by simp [h0])]
    · simp [Spec.isNumber] at hk
    · refine ⟨.good, ?_, Or.inl rfl⟩
      unfold parseIncludeGuards
      rw [parseIntegerImpl_good ha hb hc]
      simp only
      rw [if_neg (by rw [hi]; have := hg rfl; omega), hu]
      simp [Spec.number]
    · rcases h with rfl | rfl <;> simp [Spec.isNumber] at hk
    · simp [Spec.isNumber] at hk

/-- An option is not changed by an invalid value. -/
theorem soParse_invalid {env : Env} {docs : Docs} {n : Nat} {k : Kw} {w : List Char} {st : State}
    {a b : Tok} {us : List Tok} (ha : a.ty = .kw k) (hb : b.ty = .colon) (hv : Invalid k w)
    (hcat : Spec.isCategory k = false) (hk : Spec.values k ≠ [] ∨ Spec.isNumber k = true) :
    soParse env docs n (entry k) st (a :: b :: tokOf w :: us) = some (.skip, st, us) := by
  have hall := kinds_values_all k (mem_all k)
  obtain ⟨h1, h2, h3, h4, h5⟩ := hv
  have hty := (value_tok h1).2.2.2
  have hc : ∀ v ∈ Spec.values k, (tokOf w).ty ≠ .kw v := fun v hv e => h2 v hv (hty.kw v e)
  have hi : Spec.isNumber k = true → (tokOf w).ty ≠ .int := by
    intro hn e
    rcases hty.int e with h | h
    · exact h3 hn h
    · exact h4 h
  have ho : Spec.isOption k = true := by
    rcases hk with hk | hk
    · exact hall.2.2.2.1 hk
    · exact hall.2.2.2.2.1 hk
  unfold soParse
  rw [show (entry k).ty = .kw k from rfl, show (entry k).parse = some (parseOf k) from rfl]
  rcases kinds_all k (mem_all k) ho with ⟨hp, h⟩ | ⟨hp, h, h'⟩ | ⟨hp, h, h', h''⟩ | ⟨hp, rfl⟩ | ⟨hp, rfl⟩ |
    ⟨hp, rfl⟩ | ⟨hp, rfl⟩ | ⟨hp, rfl⟩ | ⟨hp, rfl⟩ | ⟨hp, h⟩ | ⟨hp, rfl⟩ <;> rw [hp] <;> simp only
  · obtain ⟨hvs, hao⟩ := values_bool_all k (mem_all k) h
    rw [hvs] at hc
    unfold parseBool
    rw [show (entry k).ty = .kw k from rfl, lexIf_cons ha]
    simp only
    rw [lexIf_cons hb]
    simp only
    rw [lexIf_ne (hc .True (by simp)), lexIf_ne (hc .False (by simp))]
    rfl
  · rw [parseEnum_skip ha hb hc h]
  · unfold parseInteger
    rw [parseIntegerImpl_skip ha hb (hi h)]
  · simp [Spec.values, Spec.isBool, Spec.isNumber] at hk
  · unfold parseAlignOperands
    rw [parseEnum_skip ha hb hc rfl]
  · unfold parseBasedOnStyle
    rw [parseEnum_skip ha hb hc rfl]
  · unfold parseColumnLimit parseInteger
    rw [parseIntegerImpl_skip ha hb (hi rfl)]
  · simp [Spec.values, Spec.isBool, Spec.isNumber] at hk
  · unfold parseIncludeGuards
    rw [parseIntegerImpl_skip ha hb (hi rfl)]
  · rcases h with rfl | rfl <;> simp [Spec.isCategory] at hcat
  · simp [Spec.isCategory] at hcat

end Knfmt.Style
