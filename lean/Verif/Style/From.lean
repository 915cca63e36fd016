import Verif.Style.Lex
/-!
# Reading a .clang-format file ends, and where the value of an option comes from
-/
namespace Knfmt.Style

/-- The scope of an option. -/
def scopeOf (k : Kw) : Option Kw :=
  if Spec.isBrace k then some .BraceWrapping
  else if Spec.isCategory k then some .IncludeCategories
  else none

/-- The function that parses an option. -/
def parseOf (k : Kw) : Parse :=
  match k with
  | .AlignOperands => .alignOperands
  | .BasedOnStyle => .basedOnStyle
  | .BraceWrapping => .nested
  | .ColumnLimit => .columnLimit
  | .IncludeCategories => .includeCategories
  | .IncludeGuards => .includeGuards
  | .Priority => .priority
  | .SortPriority => .priority
  | .Regex => .regex
  | .ContinuationIndentWidth => .integer
  | .IndentWidth => .integer
  | k => if Spec.isBool k then .bool else .enum

/-- The entry of an option. -/
def entry (k : Kw) : Opt :=
  ⟨scopeOf k, Spec.name k, .kw k, some (parseOf k), if Spec.isBool k then [] else Spec.values k⟩

theorem so_all : ∀ k ∈ all, (table.find? fun e => e.ty = .kw k && e.parse.isSome) =
    if Spec.isOption k then some (entry k) else none := by decide +kernel

theorem so_kw {t : Tok} {k : Kw} (h : t.ty = .kw k) :
    t.so = if Spec.isOption k then some (entry k) else none := by
  unfold Tok.so
  rw [h]
  exact so_all k (mem_all k)

theorem so_other_all : ∀ e ∈ table, e.parse.isSome = true → match e.ty with | .kw _ => True | _ => False := by
  intro e he
  revert e
  have : ∀ e ∈ table, e.parse.isSome = true → (match e.ty with | .kw _ => true | _ => false) = true := by
    decide +kernel
  intro e he hp
  have h := this e he hp
  revert h
  cases e.ty <;> simp

theorem so_some {t : Tok} {e : Opt} (h : t.so = some e) :
    ∃ k, t.ty = .kw k ∧ e = entry k ∧ Spec.isOption k = true := by
  have h1 : e.ty = t.ty ∧ e.parse.isSome = true := by
    unfold Tok.so at h
    simpa using List.find?_some h
  have h2 := so_other_all e (List.mem_of_find?_eq_some h) h1.2
  rw [h1.1] at h2
  cases ht : t.ty with
  | kw k =>
    rw [so_kw ht] at h
    split at h
    · next ho =>
      simp only [Option.some.injEq] at h
      exact ⟨k, rfl, h.symm, ho⟩
    · simp at h
  | _ => rw [ht] at h2; exact h2.elim

/-- A token that is a value of an option, and what it means. -/
inductive TokMeans (k : Kw) (c : Tok) : Val → Prop where
  | named {v : Kw} : v ∈ Spec.values k → c.ty = .kw v → TokMeans k c (Spec.named k v)
  | number : Spec.isNumber k = true → c.ty = .int → TokMeans k c (Spec.integer k c.int)

/-- The tokens set an option. -/
def Src (ts : List Tok) (k : Kw) (v : Val) : Prop :=
  ∃ pre a b c post, ts = pre ++ a :: b :: c :: post ∧ a.ty = .kw k ∧ b.ty = .colon ∧ TokMeans k c v

/-- The tokens, or those of the style they are based on, set an option. -/
def From (env : Env) (depth : Nat) (ts : List Tok) (k : Kw) (v : Val) : Prop :=
  Src ts k v ∨ (depth = 0 ∧ ∃ b text us, Src ts .BasedOnStyle (.kw b) ∧ env.dump b = some text ∧
    tokenize text = some us ∧ Src us k v)

theorem src_suffix {ts us : List Tok} {k : Kw} {v : Val} (h : us <:+ ts) (hs : Src us k v) : Src ts k v := by
  obtain ⟨p, rfl⟩ := h
  obtain ⟨pre, a, b, c, post, rfl, h1, h2, h3⟩ := hs
  exact ⟨p ++ pre, a, b, c, post, by simp, h1, h2, h3⟩

theorem from_suffix {env : Env} {d : Nat} {ts us : List Tok} {k : Kw} {v : Val} (h : us <:+ ts)
    (hs : From env d us k v) : From env d ts k v := by
  rcases hs with hs | ⟨hd, b, text, ws, h1, h2, h3, h4⟩
  · exact Or.inl (src_suffix h hs)
  · exact Or.inr ⟨hd, b, text, ws, src_suffix h h1, h2, h3, h4⟩

/-- What holds of a style before and after something was parsed. -/
structure Inv (env : Env) (st : State) (ts : List Tok) (st' : State) (ts' : List Tok) : Prop where
  suffix : ts' <:+ ts
  scope : st'.scope = st.scope
  depth : st'.depth = st.depth
  vals : ∀ k, k ≠ .IncludeCategories → st'.vals k = st.vals k ∨ From env st.depth ts k (st'.vals k)

theorem Inv.refl (env : Env) (st : State) {ts ts' : List Tok} (h : ts' <:+ ts) : Inv env st ts st ts' :=
  ⟨h, rfl, rfl, fun _ _ => Or.inl rfl⟩

theorem Inv.trans {env : Env} {st st₁ st₂ : State} {ts ts₁ ts₂ : List Tok} (h : Inv env st ts st₁ ts₁)
    (h' : Inv env st₁ ts₁ st₂ ts₂) : Inv env st ts st₂ ts₂ := by
  refine ⟨h'.suffix.trans h.suffix, h'.scope.trans h.scope, h'.depth.trans h.depth, ?_⟩
  intro k hk
  rcases h'.vals k hk with e | e
  · rw [e]; exact h.vals k hk
  · rw [h.depth] at e
    exact Or.inr (from_suffix h.suffix e)

theorem Inv.set {env : Env} {st : State} {ts ts' : List Tok} {k : Kw} {v : Val} (h : ts' <:+ ts)
    (hs : Src ts k v) : Inv env st ts (Style.set st k v) ts' := by
  refine ⟨h, rfl, rfl, ?_⟩
  intro x _
  simp only [Style.set]
  by_cases hx : x = k
  · subst hx
    rw [if_pos rfl]
    exact Or.inr (Or.inl hs)
  · rw [if_neg hx]
    exact Or.inl rfl

theorem lexIf_some {ty : Ty} {ts us : List Tok} {t : Tok} (hty : ty ≠ .eof) (h : lexIf ty ts = some (t, us)) :
    ts = t :: us ∧ t.ty = ty := by
  unfold lexIf at h
  split at h
  · next hp =>
    cases ts with
    | nil => exact absurd hp.symm hty
    | cons a ts =>
      simp only [pop, Option.some.injEq, Prod.mk.injEq] at h hp
      obtain ⟨rfl, rfl⟩ := h
      exact ⟨rfl, hp⟩
  · simp at h

theorem lexIf_cons {ty : Ty} {ts : List Tok} {t : Tok} (h : t.ty = ty) : lexIf ty (t :: ts) = some (t, ts) := by
  unfold lexIf
  exact if_pos h

theorem pop_suffix (ts : List Tok) : (pop ts).2 <:+ ts := by
  cases ts with
  | nil => exact List.suffix_refl _
  | cons t ts => exact List.suffix_cons t ts

theorem suffix_tail {t : Tok} {ts us : List Tok} (h : us <:+ ts) : us <:+ t :: ts :=
  h.trans (List.suffix_cons t ts)

/-- The outcome of parsing an option that the tokens start with. -/
def Step (env : Env) (st : State) (ts : List Tok) (o : Out) : Prop :=
  Inv env st ts o.2.1 o.2.2 ∧ o.1 ≠ .none ∧ o.2.2.length < ts.length

theorem step_refl {env : Env} {st : State} {t : Tok} {ts ts' : List Tok} {r : Res} (hr : r ≠ .none)
    (h : ts' <:+ ts) : Step env st (t :: ts) (r, st, ts') :=
  ⟨Inv.refl env st (suffix_tail h), hr, Nat.lt_succ_of_le h.length_le⟩

theorem values_bool_all : ∀ k ∈ all, Spec.isBool k = true → Spec.values k = [.True, .False] ∧
    k ≠ .AlignOperands := by decide +kernel

theorem parseBool_step {env : Env} {k : Kw} {st : State} {t : Tok} {ts : List Tok} (ht : t.ty = .kw k)
    (hk : Spec.isBool k = true) : Step env st (t :: ts) (parseBool (entry k) k st (t :: ts)) := by
  obtain ⟨hv, hk'⟩ := values_bool_all k (mem_all k) hk
  have hn : ∀ v, Spec.named k v = .kw v := by
    intro v
    unfold Spec.named
    rw [if_neg (by simp [hk']), if_neg (by simp [hk'])]
  have he : (entry k).ty = .kw k := rfl
  unfold parseBool
  rw [he, lexIf_cons ht]
  simp only
  split
  · exact step_refl (by simp) (List.suffix_refl _)
  · next b us h1 =>
    obtain ⟨rfl, hb⟩ := lexIf_some (by simp) h1
    split
    · next c vs h2 =>
      obtain ⟨rfl, hc⟩ := lexIf_some (by simp) h2
      refine ⟨Inv.set ⟨[t, b, c], rfl⟩ ⟨[], t, b, c, vs, rfl, ht, hb, ?_⟩, by simp, by simp; omega⟩
      rw [← hn .True]
      exact .named (by rw [hv]; simp) hc
    · split
      · next c vs h2 =>
        obtain ⟨rfl, hc⟩ := lexIf_some (by simp) h2
        refine ⟨Inv.set ⟨[t, b, c], rfl⟩ ⟨[], t, b, c, vs, rfl, ht, hb, ?_⟩, by simp, by simp; omega⟩
        rw [← hn .False]
        exact .named (by rw [hv]; simp) hc
      · exact step_refl (by simp) (suffix_tail (pop_suffix us))

theorem enumValue_some {ts us : List Tok} {vs : List Kw} {v : Kw} (h : enumValue ts vs = some (v, us)) :
    v ∈ vs ∧ ∃ c, ts = c :: us ∧ c.ty = .kw v := by
  induction vs with
  | nil => simp [enumValue] at h
  | cons x vs ih =>
    rw [enumValue] at h
    split at h
    · next c ws h1 =>
      simp only [Option.some.injEq, Prod.mk.injEq] at h
      obtain ⟨rfl, rfl⟩ := h
      obtain ⟨h2, h3⟩ := lexIf_some (by simp) h1
      exact ⟨by simp, c, h2, h3⟩
    · obtain ⟨h2, h3⟩ := ih h
      exact ⟨by simp [h2], h3⟩

/-- The cases of `parse_enum`. -/
theorem parseEnum_cases {k : Kw} {st : State} {t : Tok} {ts : List Tok} (ht : t.ty = .kw k)
    (hk : Spec.isBool k = false) :
    (∃ r ts', parseEnum (entry k) k st (t :: ts) = (r, st, ts') ∧ r ≠ .none ∧ r ≠ .good ∧ ts' <:+ ts) ∨
    (∃ b c us v, ts = b :: c :: us ∧ b.ty = .colon ∧ c.ty = .kw v ∧ v ∈ Spec.values k ∧
      parseEnum (entry k) k st (t :: ts) = (.good, set st k (.kw v), us)) := by
  have he : (entry k).ty = .kw k := rfl
  have hv : (entry k).vals = Spec.values k := by simp [entry, hk]
  unfold parseEnum
  rw [he, lexIf_cons ht, hv]
  simp only
  split
  · exact Or.inl ⟨_, _, rfl, by simp, by simp, List.suffix_refl _⟩
  · next b us h1 =>
    obtain ⟨rfl, hb⟩ := lexIf_some (by simp) h1
    split
    · next v vs h2 =>
      obtain ⟨h3, c, rfl, hc⟩ := enumValue_some h2
      exact Or.inr ⟨b, c, vs, v, rfl, hb, hc, h3, rfl⟩
    · exact Or.inl ⟨_, _, rfl, by simp, by simp, suffix_tail (pop_suffix us)⟩

theorem parseEnum_step {env : Env} {k : Kw} {st : State} {t : Tok} {ts : List Tok} (ht : t.ty = .kw k)
    (hk : Spec.isBool k = false) (hk' : k ≠ .AlignOperands) :
    Step env st (t :: ts) (parseEnum (entry k) k st (t :: ts)) := by
  have hn : ∀ v, Spec.named k v = .kw v := by
    intro v
    unfold Spec.named
    rw [if_neg (by simp [hk']), if_neg (by simp [hk'])]
  rcases parseEnum_cases (st := st) (ts := ts) ht hk with ⟨r, ts', h1, h2, h3, h4⟩ | ⟨b, c, us, v, rfl, hb, hc, hv, h1⟩
  · rw [h1]; exact step_refl h2 h4
  · rw [h1]
    refine ⟨Inv.set ⟨[t, b, c], rfl⟩ ⟨[], t, b, c, us, rfl, ht, hb, ?_⟩, by simp, by simp; omega⟩
    rw [← hn v]
    exact .named hv hc

theorem parseAlignOperands_step {env : Env} {st : State} {t : Tok} {ts : List Tok} (ht : t.ty = .kw .AlignOperands) :
    Step env st (t :: ts) (parseAlignOperands (entry .AlignOperands) .AlignOperands st (t :: ts)) := by
  unfold parseAlignOperands
  rcases parseEnum_cases (st := st) (ts := ts) ht rfl with ⟨r, ts', h1, h2, h3, h4⟩ | ⟨b, c, us, v, rfl, hb, hc, hv, h1⟩
  · rw [h1]
    split
    · next h => simp only [Prod.mk.injEq] at h; exact absurd h.1 h3
    · exact step_refl h2 h4
  · rw [h1]
    simp only
    have hs : (set st .AlignOperands (.kw v)).vals .AlignOperands = .kw v := by simp [set]
    rw [hs]
    have key : ∀ x, x = Spec.named .AlignOperands v →
        Inv env st (t :: b :: c :: us) (set st .AlignOperands x) us := by
      rintro x rfl
      exact Inv.set ⟨[t, b, c], rfl⟩ ⟨[], t, b, c, us, rfl, ht, hb, .named hv hc⟩
    have hss : ∀ x, set (set st .AlignOperands (.kw v)) .AlignOperands x = set st .AlignOperands x := by
      intro x
      unfold set
      simp only [State.mk.injEq, and_true]
      funext y
      by_cases hy : y = .AlignOperands <;> simp [hy]
    refine ⟨?_, by simp, by simp; omega⟩
    by_cases h1 : v = .True
    · subst h1
      rw [if_pos rfl, hss]
      exact key _ rfl
    · by_cases h2 : v = .False
      · subst h2
        rw [if_neg (by simp), if_pos rfl, hss]
        exact key _ rfl
      · rw [if_neg (by simp [h1]), if_neg (by simp [h2])]
        exact key _ (by simp [Spec.named, h1, h2])

/-- The cases of `parse_integer_impl`. -/
theorem parseIntegerImpl_cases {k : Kw} {t : Tok} {ts : List Tok} (ht : t.ty = .kw k) :
    (∃ r i ts', parseIntegerImpl (entry k) (t :: ts) = (r, i, ts') ∧ r ≠ .none ∧ r ≠ .good ∧ ts' <:+ ts) ∨
    (∃ b c us, ts = b :: c :: us ∧ b.ty = .colon ∧ c.ty = .int ∧
      parseIntegerImpl (entry k) (t :: ts) = (.good, c.int, us)) := by
  have he : (entry k).ty = .kw k := rfl
  unfold parseIntegerImpl
  rw [he, lexIf_cons ht]
  simp only
  split
  · exact Or.inl ⟨_, _, _, rfl, by simp, by simp, List.suffix_refl _⟩
  · next b us h1 =>
    obtain ⟨rfl, hb⟩ := lexIf_some (by simp) h1
    split
    · next c vs h2 =>
      obtain ⟨rfl, hc⟩ := lexIf_some (by simp) h2
      exact Or.inr ⟨b, c, vs, rfl, hb, hc, rfl⟩
    · exact Or.inl ⟨_, _, _, rfl, by simp, by simp, suffix_tail (pop_suffix us)⟩

theorem parseInteger_step {env : Env} {k : Kw} {st : State} {t : Tok} {ts : List Tok} (ht : t.ty = .kw k)
    (hk : Spec.isNumber k = true) (h1 : k ≠ .ColumnLimit) (h2 : k ≠ .IncludeGuards) :
    Step env st (t :: ts) (parseInteger (entry k) k st (t :: ts)) := by
  unfold parseInteger
  rcases parseIntegerImpl_cases (ts := ts) ht with ⟨r, i, ts', e, hr, hg, hs⟩ | ⟨b, c, us, rfl, hb, hc, e⟩
  · rw [e]
    split
    · next h => simp only [Prod.mk.injEq] at h; exact absurd h.1 hg
    · next h =>
      simp only [Prod.mk.injEq] at h
      obtain ⟨rfl, rfl, rfl⟩ := h
      exact step_refl hr hs
  · rw [e]
    simp only
    refine ⟨Inv.set ⟨[t, b, c], rfl⟩ ⟨[], t, b, c, us, rfl, ht, hb, ?_⟩, by simp, by simp; omega⟩
    have : Spec.integer k c.int = .int (u32 c.int) := by
      unfold Spec.integer Spec.number u32
      rw [if_neg (by simp [h2]), if_neg (by simp [h1])]
    rw [← this]
    exact .number hk hc

theorem parseColumnLimit_step {env : Env} {st : State} {t : Tok} {ts : List Tok} (ht : t.ty = .kw .ColumnLimit) :
    Step env st (t :: ts) (parseColumnLimit (entry .ColumnLimit) .ColumnLimit st (t :: ts)) := by
  unfold parseColumnLimit parseInteger
  rcases parseIntegerImpl_cases (ts := ts) ht with ⟨r, i, ts', e, hr, hg, hs⟩ | ⟨b, c, us, rfl, hb, hc, e⟩
  · rw [e]
    cases r with
    | good => exact absurd rfl hg
    | none => exact absurd rfl hr
    | skip => exact step_refl hr hs
    | fail => exact step_refl hr hs
  · rw [e]
    simp only
    have hs : (set st .ColumnLimit (.int (u32 c.int))).vals .ColumnLimit = .int (u32 c.int) := by simp [set]
    have hss : ∀ x y, set (set st .ColumnLimit x) .ColumnLimit y = set st .ColumnLimit y := by
      intro x y
      unfold set
      simp only [State.mk.injEq, and_true]
      funext z
      by_cases hz : z = .ColumnLimit <;> simp [hz]
    rw [hs, hss]
    have key : ∀ x, x = Spec.integer .ColumnLimit c.int →
        Inv env st (t :: b :: c :: us) (set st .ColumnLimit x) us := by
      rintro x rfl
      exact Inv.set ⟨[t, b, c], rfl⟩ ⟨[], t, b, c, us, rfl, ht, hb, .number rfl hc⟩
    have hi : Spec.integer .ColumnLimit c.int = if u32 c.int = 0 then .int 4294967295 else .int (u32 c.int) := by
      unfold Spec.integer Spec.number u32
      simp
    refine ⟨?_, by simp, by simp; omega⟩
    by_cases h0 : u32 c.int = 0
    · rw [if_pos (by rw [h0])]
      exact key _ (by rw [hi, if_pos h0])
    · rw [if_neg (by simpa using h0)]
      exact key _ (by rw [hi, if_neg h0])

theorem parseIncludeGuards_step {env : Env} {st : State} {t : Tok} {ts : List Tok} (ht : t.ty = .kw .IncludeGuards) :
    Step env st (t :: ts) (parseIncludeGuards (entry .IncludeGuards) .IncludeGuards st (t :: ts)) := by
  unfold parseIncludeGuards
  rcases parseIntegerImpl_cases (ts := ts) ht with ⟨r, i, ts', e, hr, hg, hs⟩ | ⟨b, c, us, rfl, hb, hc, e⟩
  · rw [e]
    split
    · next h => simp only [Prod.mk.injEq] at h; exact absurd h.1 hg
    · next h =>
      simp only [Prod.mk.injEq] at h
      obtain ⟨rfl, rfl, rfl⟩ := h
      exact step_refl hr hs
  · rw [e]
    simp only
    have key : ∀ x, x = Spec.integer .IncludeGuards c.int →
        Inv env st (t :: b :: c :: us) (set st .IncludeGuards x) us := by
      rintro x rfl
      exact Inv.set ⟨[t, b, c], rfl⟩ ⟨[], t, b, c, us, rfl, ht, hb, .number rfl hc⟩
    have hss : ∀ x y, set (set st .IncludeGuards x) .IncludeGuards y = set st .IncludeGuards y := by
      intro x y
      unfold set
      simp only [State.mk.injEq, and_true]
      funext z
      by_cases hz : z = .IncludeGuards <;> simp [hz]
    split
    · next h0 =>
      rw [hss]
      exact ⟨key _ (by simp [Spec.integer, h0]), by simp, by simp; omega⟩
    · next h0 =>
      exact ⟨key _ (by simp [Spec.integer, Spec.number, u32, h0]), by simp, by simp; omega⟩

theorem Inv.cats {env : Env} {st : State} {ts ts' : List Tok} (f : Category → Category) (h : ts' <:+ ts) :
    Inv env st ts (onLastCat f st) ts' := ⟨h, rfl, rfl, fun _ _ => Or.inl rfl⟩

theorem parsePriority_step {env : Env} {k : Kw} {st : State} {t : Tok} {ts : List Tok} (ht : t.ty = .kw k) :
    Step env st (t :: ts) (parsePriority (entry k) k st (t :: ts)) := by
  unfold parsePriority
  rcases parseIntegerImpl_cases (ts := ts) ht with ⟨r, i, ts', e, hr, hg, hs⟩ | ⟨b, c, us, rfl, hb, hc, e⟩
  · rw [e]
    split
    · next h => simp only [Prod.mk.injEq] at h; exact absurd h.1 hg
    · next h =>
      simp only [Prod.mk.injEq] at h
      obtain ⟨rfl, rfl, rfl⟩ := h
      exact step_refl hr hs
  · rw [e]
    exact ⟨Inv.cats _ ⟨[t, b, c], rfl⟩, by simp, by simp; omega⟩

theorem parseRegex_step {env : Env} {st : State} {t : Tok} {ts : List Tok} (ht : t.ty = .kw .Regex) :
    Step env st (t :: ts) (parseRegex env (entry .Regex) st (t :: ts)) := by
  unfold parseRegex
  rw [show (entry .Regex).ty = .kw .Regex from rfl, lexIf_cons ht]
  simp only
  split
  · exact step_refl (by simp) (List.suffix_refl _)
  · next b us h1 =>
    obtain ⟨rfl, hb⟩ := lexIf_some (by simp) h1
    split
    · exact step_refl (by simp) (suffix_tail (pop_suffix us))
    · next c vs h2 =>
      obtain ⟨rfl, hc⟩ := lexIf_some (by simp) h2
      split
      · exact ⟨Inv.cats _ ⟨[t, b, c], rfl⟩, by simp, by simp; omega⟩
      · exact ⟨Inv.cats _ ⟨[t, b, c], rfl⟩, by simp, by simp; omega⟩

/-- `style_parse_yaml_documents` is done and keeps the invariant, if there are at most `m` tokens and, unless
the style is a base, at most `b` bytes in a base style. -/
def Total (env : Env) (b : Nat) (docs : Docs) (m : Nat) : Prop :=
  ∀ nested st ts, (if st.depth = 0 then b else 0) + ts.length ≤ m →
    ∃ o, docs nested st ts = some o ∧ (o.1 = .none ∨ o.1 = .fail) ∧ Inv env st ts o.2.1 o.2.2

theorem parseNested_step {env : Env} {b m : Nat} {docs : Docs} {k : Kw} {st : State} {t : Tok} {ts : List Tok}
    (hd : Total env b docs m) (ht : t.ty = .kw k) (hm : (if st.depth = 0 then b else 0) + (t :: ts).length ≤ m + 1) :
    ∃ o, parseNested docs (entry k) k st (t :: ts) = some o ∧ Step env st (t :: ts) o := by
  unfold parseNested
  rw [show (entry k).ty = .kw k from rfl, lexIf_cons ht]
  simp only
  split
  · exact ⟨_, rfl, step_refl (by simp) (List.suffix_refl _)⟩
  · next c us h1 =>
    obtain ⟨rfl, hb⟩ := lexIf_some (by simp) h1
    obtain ⟨o, h2, -, h3⟩ := hd true { st with scope := some k } us (by simp only [List.length_cons] at hm ⊢; omega)
    obtain ⟨r, st', ts'⟩ := o
    rw [h2]
    refine ⟨_, rfl, ⟨suffix_tail (suffix_tail h3.suffix), rfl, h3.depth, ?_⟩, by simp, ?_⟩
    · intro x hx
      rcases h3.vals x hx with e | e
      · exact Or.inl e
      · exact Or.inr (from_suffix (suffix_tail (suffix_tail (List.suffix_refl _))) e)
    · have := h3.suffix.length_le
      simp only [List.length_cons] at this ⊢
      omega

theorem categories_inv {env : Env} {b m : Nat} {docs : Docs} (hd : Total env b docs m) :
    ∀ n st ts, ts.length < n → (if st.depth = 0 then b else 0) + ts.length ≤ m + 1 →
      ∃ o, categories docs n st ts = some o ∧ Inv env st ts o.1 o.2 := by
  intro n
  induction n with
  | zero => intro st ts h; omega
  | succ n ih =>
    intro st ts hn hm
    rw [categories]
    split
    · exact ⟨_, rfl, Inv.refl env st (List.suffix_refl _)⟩
    · next c us h1 =>
      obtain ⟨rfl, hb⟩ := lexIf_some (by simp) h1
      simp only [List.length_cons] at hn hm
      obtain ⟨o, h2, -, h3⟩ := hd true { st with cats := st.cats ++ [{}] } us (by simp only; omega)
      obtain ⟨r, st', ts'⟩ := o
      rw [h2]
      simp only
      have hl := h3.suffix.length_le
      have hdep : st'.depth = st.depth := h3.depth
      simp only at hl
      obtain ⟨o, h4, h5⟩ := ih st' ts' (by omega) (by rw [hdep]; omega)
      refine ⟨o, h4, Inv.trans (st₁ := st') (ts₁ := ts') ⟨suffix_tail h3.suffix, h3.scope, h3.depth, ?_⟩ h5⟩
      intro x hx
      rcases h3.vals x hx with e | e
      · exact Or.inl e
      · exact Or.inr (from_suffix (suffix_tail (List.suffix_refl _)) e)

theorem parseIncludeCategories_step {env : Env} {b m n : Nat} {docs : Docs} {st : State} {t : Tok}
    {ts : List Tok} (hd : Total env b docs m) (ht : t.ty = .kw .IncludeCategories) (hn : ts.length < n)
    (hm : (if st.depth = 0 then b else 0) + (t :: ts).length ≤ m + 1) :
    ∃ o, parseIncludeCategories docs n (entry .IncludeCategories) .IncludeCategories st (t :: ts) = some o ∧
      Step env st (t :: ts) o := by
  unfold parseIncludeCategories
  rw [show (entry .IncludeCategories).ty = .kw .IncludeCategories from rfl, lexIf_cons ht]
  simp only
  split
  · exact ⟨_, rfl, step_refl (by simp) (List.suffix_refl _)⟩
  · next c us h1 =>
    obtain ⟨rfl, hb⟩ := lexIf_some (by simp) h1
    simp only [List.length_cons] at hn hm
    obtain ⟨o, h2, h3⟩ := categories_inv hd n { st with scope := some .IncludeCategories } us (by omega)
      (by simp only; omega)
    rw [h2]
    obtain ⟨st', ts'⟩ := o
    refine ⟨_, rfl, ⟨suffix_tail (suffix_tail h3.suffix), rfl, h3.depth, ?_⟩, by simp, ?_⟩
    · intro x hx
      simp only [set]
      rw [if_neg hx]
      rcases h3.vals x hx with e | e
      · exact Or.inl e
      · exact Or.inr (from_suffix (suffix_tail (suffix_tail (List.suffix_refl _))) e)
    · have := h3.suffix.length_le
      simp only [List.length_cons] at this ⊢
      omega

/-- The most bytes a base style has. -/
def Bounded (env : Env) (b : Nat) : Prop := ∀ k text, env.dump k = some text → text.length ≤ b

theorem parseBasedOnStyle_step {env : Env} {b m : Nat} {docs : Docs} {st : State} {t : Tok} {ts : List Tok}
    (hd : Total env b docs m) (hb : Bounded env b) (ht : t.ty = .kw .BasedOnStyle)
    (hm : (if st.depth = 0 then b else 0) + (t :: ts).length ≤ m + 1) :
    ∃ o, parseBasedOnStyle env docs (entry .BasedOnStyle) .BasedOnStyle st (t :: ts) = some o ∧
      Step env st (t :: ts) o := by
  unfold parseBasedOnStyle
  have hs := parseEnum_step (env := env) (st := st) (ts := ts) ht rfl (by simp)
  rcases parseEnum_cases (st := st) (ts := ts) ht rfl with ⟨r, ts', h1, h2, h3, h4⟩ | ⟨y, c, us, v, rfl, hy, hc, hv, h1⟩
  · rw [h1] at hs ⊢
    split
    · next h => simp only [Prod.mk.injEq] at h; exact absurd h.1 h3
    · exact ⟨_, rfl, hs⟩
  · rw [h1] at hs ⊢
    simp only
    have hsrc : Src (t :: y :: c :: us) .BasedOnStyle (.kw v) := by
      refine ⟨[], t, y, c, us, rfl, ht, hy, ?_⟩
      have : Spec.named .BasedOnStyle v = .kw v := by simp [Spec.named]
      rw [← this]
      exact .named hv hc
    have hs' : ∀ r, r ≠ Res.none → Step env st (t :: y :: c :: us) (r, set st .BasedOnStyle (.kw v), us) :=
      fun r hr => ⟨hs.1, hr, hs.2.2⟩
    split
    · exact ⟨_, rfl, hs' _ (by simp)⟩
    · next hdep =>
      have hdep : st.depth = 0 := by
        have : (set st .BasedOnStyle (.kw v)).depth = st.depth := rfl
        rw [this] at hdep
        omega
      have hval : (set st .BasedOnStyle (.kw v)).vals .BasedOnStyle = .kw v := by simp [set]
      rw [hval]
      simp only
      split
      · exact ⟨_, rfl, hs' _ (by simp)⟩
      · split
        · exact ⟨_, rfl, hs' _ (by simp)⟩
        · next text htext =>
          unfold parseYaml
          split
          · next hp =>
            split at hp
            · simp at hp
            · next ws hws =>
              exfalso
              obtain ⟨o, h5, -, h6⟩ := hd false { set st .BasedOnStyle (.kw v) with depth := st.depth + 1 } ws (by
                have := tokenize_length hws
                have := hb v text htext
                simp only [hdep, List.length_cons, if_true] at hm ⊢
                simp only [Nat.zero_add, if_false, Nat.one_ne_zero]
                omega)
              have h5' : docs false { set st .BasedOnStyle (.kw v) with
                  depth := (set st .BasedOnStyle (.kw v)).depth + 1 } ws = some o := h5
              rw [h5'] at hp
              simp at hp
          · next err st' hp =>
            split at hp
            · simp only [Option.some.injEq, Prod.mk.injEq] at hp
              obtain ⟨rfl, rfl⟩ := hp
              exact ⟨_, rfl, hs' .fail (by simp)⟩
            · next ws hws =>
              obtain ⟨o, h5, -, h6⟩ := hd false { set st .BasedOnStyle (.kw v) with depth := st.depth + 1 } ws (by
                have := tokenize_length hws
                have := hb v text htext
                simp only [hdep, List.length_cons, if_true] at hm ⊢
                simp only [Nat.zero_add, if_false, Nat.one_ne_zero]
                omega)
              have h5' : docs false { set st .BasedOnStyle (.kw v) with
                  depth := (set st .BasedOnStyle (.kw v)).depth + 1 } ws = some o := h5
              rw [h5'] at hp
              obtain ⟨r, st'', ts''⟩ := o
              simp only [Option.some.injEq, Prod.mk.injEq] at hp
              obtain ⟨rfl, rfl⟩ := hp
              refine ⟨_, rfl, ⟨⟨[t, y, c], rfl⟩, h6.scope, ?_, ?_⟩, ?_, ?_⟩
              · have := h6.depth
                simp only at this ⊢
                omega
              · intro x hx
                simp only
                rcases h6.vals x hx with e | e
                · simp only at e
                  rw [e]
                  exact hs.1.vals x hx
                · rcases e with e | ⟨e, _⟩
                  · exact Or.inr (Or.inr ⟨hdep, v, text, ws, hsrc, htext, hws, e⟩)
                  · simp at e
              · simp only
                split <;> simp
              · simp only [List.length_cons]; omega

theorem kinds_all : ∀ k ∈ all, Spec.isOption k = true →
    (parseOf k = .bool ∧ Spec.isBool k = true) ∨
    (parseOf k = .enum ∧ Spec.isBool k = false ∧ k ≠ .AlignOperands) ∨
    (parseOf k = .integer ∧ Spec.isNumber k = true ∧ k ≠ .ColumnLimit ∧ k ≠ .IncludeGuards) ∨
    (parseOf k = .nested ∧ k = .BraceWrapping) ∨
    (parseOf k = .alignOperands ∧ k = .AlignOperands) ∨ (parseOf k = .basedOnStyle ∧ k = .BasedOnStyle) ∨
    (parseOf k = .columnLimit ∧ k = .ColumnLimit) ∨ (parseOf k = .includeCategories ∧ k = .IncludeCategories) ∨
    (parseOf k = .includeGuards ∧ k = .IncludeGuards) ∨
    (parseOf k = .priority ∧ (k = .Priority ∨ k = .SortPriority)) ∨ (parseOf k = .regex ∧ k = .Regex) := by
  decide +kernel

theorem soParse_step {env : Env} {b m n : Nat} {docs : Docs} {st : State} {t : Tok} {ts : List Tok} {k : Kw}
    (hd : Total env b docs m) (hb : Bounded env b) (ht : t.ty = .kw k) (ho : Spec.isOption k = true)
    (hn : ts.length < n) (hm : (if st.depth = 0 then b else 0) + (t :: ts).length ≤ m + 1) :
    ∃ o, soParse env docs n (entry k) st (t :: ts) = some o ∧ Step env st (t :: ts) o := by
  unfold soParse
  rw [show (entry k).ty = .kw k from rfl, show (entry k).parse = some (parseOf k) from rfl]
  rcases kinds_all k (mem_all k) ho with ⟨hp, h⟩ | ⟨hp, h, h'⟩ | ⟨hp, h, h', h''⟩ | ⟨hp, rfl⟩ | ⟨hp, rfl⟩ |
    ⟨hp, rfl⟩ | ⟨hp, rfl⟩ | ⟨hp, rfl⟩ | ⟨hp, rfl⟩ | ⟨hp, _⟩ | ⟨hp, rfl⟩ <;> rw [hp] <;> simp only
  · exact ⟨_, rfl, parseBool_step ht h⟩
  · exact ⟨_, rfl, parseEnum_step ht h h'⟩
  · exact ⟨_, rfl, parseInteger_step ht h h' h''⟩
  · exact parseNested_step hd ht hm
  · exact ⟨_, rfl, parseAlignOperands_step ht⟩
  · exact parseBasedOnStyle_step hd hb ht hm
  · exact ⟨_, rfl, parseColumnLimit_step ht⟩
  · exact parseIncludeCategories_step hd ht hn hm
  · exact ⟨_, rfl, parseIncludeGuards_step ht⟩
  · exact ⟨_, rfl, parsePriority_step ht⟩
  · exact ⟨_, rfl, parseRegex_step ht⟩

theorem skipDocument_suffix (ts : List Tok) : skipDocument ts <:+ ts := by
  induction ts with
  | nil => exact List.suffix_refl _
  | cons t ts ih =>
    rw [skipDocument]
    split
    · exact List.suffix_cons t ts
    · exact suffix_tail ih

theorem skipDocument_lt (t : Tok) (ts : List Tok) : (skipDocument (t :: ts)).length < (t :: ts).length := by
  rw [skipDocument]
  split
  · simp
  · exact Nat.lt_succ_of_le (skipDocument_suffix ts).length_le

theorem skipSequence_suffix (ts : List Tok) : skipSequence ts <:+ ts := by
  induction ts using skipSequence.induct with
  | case1 => exact List.suffix_refl _
  | case2 t h => rw [skipSequence, if_pos h]; exact List.nil_suffix
  | case3 t h => rw [skipSequence, if_neg h]; exact List.suffix_refl _
  | case4 t u ts h ih => rw [skipSequence, if_pos h]; exact suffix_tail (suffix_tail ih)
  | case5 t u ts h => rw [skipSequence, if_neg h]; exact List.suffix_refl _

theorem unknown_suffix (t : Tok) (ts : List Tok) : unknown (t :: ts) <:+ ts := by
  unfold unknown
  rw [show (pop (t :: ts)).2 = ts from rfl]
  have h1 : (match lexIf .colon ts with | some (_, ts) => ts | none => ts) <:+ ts := by
    split
    · next u us h =>
      obtain ⟨rfl, -⟩ := lexIf_some (by simp) h
      exact List.suffix_cons u us
    · exact List.suffix_refl _
  have h2 : ∀ us : List Tok, (if (pop us).1.ty = .seq then skipSequence us else (pop us).2) <:+ us := by
    intro us
    split
    · exact skipSequence_suffix _
    · exact pop_suffix _
  exact (h2 _).trans h1

theorem documents_cons (env : Env) (n : Nat) (nested : Bool) (st : State) (t : Tok) (us : List Tok) :
    documents env (n + 1) nested st (t :: us) =
      if nested = false ∧ documentLanguage (t :: us) ≠ .kw .None ∧ documentLanguage (t :: us) ≠ .kw .Cpp then
        documents env n nested st (skipDocument (t :: us))
      else if t.ty = .seq then some (.none, st, t :: us)
      else if t.ty = .docBegin then documents env n nested st us
      else if t.ty = .docEnd then documents env n nested st us
      else
        match t.so with
        | none => documents env n nested st (unknown (t :: us))
        | some e =>
          if e.scope ≠ st.scope then some (.none, st, t :: us)
          else
            match soParse env (documents env n) n e st (t :: us) with
            | none => none
            | some (.fail, st, ts) => some (.fail, st, ts)
            | some (.none, st, ts) => documents env n nested st (unknown ts)
            | some (_, st, ts) => documents env n nested st ts := rfl

theorem documents_nil (env : Env) (n : Nat) (nested : Bool) (st : State) :
    documents env (n + 1) nested st [] = some (.none, st, []) := rfl

/-- Reading ends. -/
theorem documents_total {env : Env} {b : Nat} (hb : Bounded env b) (n : Nat) : Total env b (documents env (n + 1)) n := by
  induction n with
  | zero =>
    intro nested st ts hm
    have : ts = [] := by
      cases ts with
      | nil => rfl
      | cons t ts => simp only [List.length_cons] at hm; omega
    subst this
    exact ⟨_, rfl, Or.inl rfl, Inv.refl env st (List.suffix_refl _)⟩
  | succ n ih =>
    intro nested st ts hm
    cases ts with
    | nil => exact ⟨_, rfl, Or.inl rfl, Inv.refl env st (List.suffix_refl _)⟩
    | cons t us =>
      rw [documents_cons]
      simp only [List.length_cons] at hm
      have cont : ∀ st' ts', Inv env st (t :: us) st' ts' → ts'.length < (t :: us).length →
          ∃ o, documents env (n + 1) nested st' ts' = some o ∧ (o.1 = .none ∨ o.1 = .fail) ∧
            Inv env st (t :: us) o.2.1 o.2.2 := by
        intro st' ts' hi hl
        simp only [List.length_cons] at hl
        obtain ⟨o, h1, h2, h3⟩ := ih nested st' ts' (by rw [hi.depth]; omega)
        exact ⟨o, h1, h2, hi.trans h3⟩
      split
      · exact cont st _ (Inv.refl env st (skipDocument_suffix _)) (skipDocument_lt t us)
      · split
        · exact ⟨_, rfl, Or.inl rfl, Inv.refl env st (List.suffix_refl _)⟩
        · split
          · exact cont st us (Inv.refl env st (List.suffix_cons t us)) (by simp)
          · split
            · exact cont st us (Inv.refl env st (List.suffix_cons t us)) (by simp)
            · split
              · exact cont st _ (Inv.refl env st (suffix_tail (unknown_suffix t us)))
                  (Nat.lt_succ_of_le (unknown_suffix t us).length_le)
              · next e he =>
                obtain ⟨k, hk, rfl, ho⟩ := so_some he
                split
                · exact ⟨_, rfl, Or.inl rfl, Inv.refl env st (List.suffix_refl _)⟩
                · obtain ⟨o, h1, h2⟩ := soParse_step (n := n + 1) (st := st) (ts := us) ih hb hk ho (by omega)
                    (show _ ≤ n + 1 by simp only [List.length_cons]; omega)
                  rw [h1]
                  obtain ⟨r, st', ts'⟩ := o
                  obtain ⟨h3, h4, h5⟩ := h2
                  cases r with
                  | none => exact absurd rfl h4
                  | good => exact cont st' ts' h3 h5
                  | skip => exact cont st' ts' h3 h5
                  | fail => exact ⟨_, rfl, Or.inr rfl, h3⟩

/-- One is done whenever the other is, with the same outcome. -/
def Le (d d' : Docs) : Prop := ∀ x st ts o, d x st ts = some o → d' x st ts = some o

theorem parseNested_mono {d d' : Docs} (h : Le d d') {e : Opt} {k : Kw} {st : State} {ts : List Tok} {o : Out}
    (ho : parseNested d e k st ts = some o) : parseNested d' e k st ts = some o := by
  unfold parseNested at ho ⊢
  split at ho
  · exact ho
  · split at ho
    · exact ho
    · next h1 =>
      split at ho
      · simp at ho
      · next h2 => rw [h _ _ _ _ h2]; exact ho

theorem categories_mono {d d' : Docs} (h : Le d d') : ∀ n m (st : State) (ts : List Tok) (o : State × List Tok),
    n ≤ m → categories d n st ts = some o → categories d' m st ts = some o := by
  intro n
  induction n with
  | zero => intro m st ts o _ ho; simp [categories] at ho
  | succ n ih =>
    intro m st ts o hm ho
    cases m with
    | zero => omega
    | succ m =>
      rw [categories] at ho ⊢
      split at ho
      · exact ho
      · split at ho
        · simp at ho
        · next h2 =>
          rw [h _ _ _ _ h2]
          exact ih m _ _ _ (by omega) ho

theorem parseIncludeCategories_mono {d d' : Docs} (h : Le d d') {n m : Nat} (hm : n ≤ m) {e : Opt} {k : Kw}
    {st : State} {ts : List Tok} {o : Out} (ho : parseIncludeCategories d n e k st ts = some o) :
    parseIncludeCategories d' m e k st ts = some o := by
  unfold parseIncludeCategories at ho ⊢
  split at ho
  · exact ho
  · split at ho
    · exact ho
    · next h1 =>
      split at ho
      · simp at ho
      · next h2 => rw [categories_mono h _ _ _ _ _ hm h2]; exact ho

theorem parseYaml_mono {d d' : Docs} (h : Le d d') {st : State} {text : List Char} {o : Bool × State}
    (ho : parseYaml d st text = some o) : parseYaml d' st text = some o := by
  unfold parseYaml at ho ⊢
  split at ho
  · exact ho
  · split at ho
    · simp at ho
    · next h2 => rw [h _ _ _ _ h2]; exact ho

theorem parseBasedOnStyle_mono {d d' : Docs} (h : Le d d') {env : Env} {e : Opt} {k : Kw} {st : State}
    {ts : List Tok} {o : Out} (ho : parseBasedOnStyle env d e k st ts = some o) :
    parseBasedOnStyle env d' e k st ts = some o := by
  unfold parseBasedOnStyle at ho ⊢
  split at ho
  · split at ho
    · next h1 => rw [if_pos h1]; exact ho
    · next h1 =>
      rw [if_neg h1]
      split at ho
      · split at ho
        · next h2 => rw [if_pos h2]; exact ho
        · next h2 =>
          rw [if_neg h2]
          split at ho
          · exact ho
          · split at ho
            · simp at ho
            · next h3 =>
              simp only [parseYaml_mono h h3]
              exact ho
      · exact ho
  · exact ho

theorem soParse_mono {d d' : Docs} (h : Le d d') {n m : Nat} (hm : n ≤ m) {env : Env} {e : Opt} {st : State}
    {ts : List Tok} {o : Out} (ho : soParse env d n e st ts = some o) : soParse env d' m e st ts = some o := by
  obtain ⟨scope, key, ty, parse, vals⟩ := e
  cases ty with
  | kw k =>
    cases parse with
    | none => exact ho
    | some p =>
      cases p with
      | nested => exact parseNested_mono h ho
      | basedOnStyle => exact parseBasedOnStyle_mono h ho
      | includeCategories => exact parseIncludeCategories_mono h hm ho
      | _ => exact ho
  | _ => simpa [soParse] using ho

theorem documents_mono_succ (env : Env) (n : Nat) : Le (documents env n) (documents env (n + 1)) := by
  induction n with
  | zero => intro x st ts o ho; simp [documents] at ho
  | succ n ih =>
    intro x st ts o ho
    cases ts with
    | nil => exact ho
    | cons t us =>
      rw [documents_cons] at ho ⊢
      split at ho
      · next h => rw [if_pos h]; exact ih _ _ _ _ ho
      · next h =>
        rw [if_neg h]
        split at ho
        · next h => rw [if_pos h]; exact ho
        · next h =>
          rw [if_neg h]
          split at ho
          · next h => rw [if_pos h]; exact ih _ _ _ _ ho
          · next h =>
            rw [if_neg h]
            split at ho
            · next h => rw [if_pos h]; exact ih _ _ _ _ ho
            · next h =>
              rw [if_neg h]
              split at ho
              · exact ih _ _ _ _ ho
              · split at ho
                · next h => rw [if_pos h]; exact ho
                · next h =>
                  rw [if_neg h]
                  split at ho
                  · simp at ho
                  · next h2 => rw [soParse_mono ih (Nat.le_succ n) h2]; exact ho
                  · next h2 => rw [soParse_mono ih (Nat.le_succ n) h2]; exact ih _ _ _ _ ho
                  · next r st' ts' h3 h4 h2 =>
                    rw [soParse_mono ih (Nat.le_succ n) h2]
                    cases r with
                    | none => exact (h4 rfl).elim
                    | fail => exact (h3 rfl).elim
                    | good => exact ih _ _ _ _ ho
                    | skip => exact ih _ _ _ _ ho

theorem documents_mono (env : Env) {n m : Nat} (h : n ≤ m) : Le (documents env n) (documents env m) := by
  induction m with
  | zero =>
    have : n = 0 := by omega
    subst this
    exact fun _ _ _ _ ho => ho
  | succ m ih =>
    by_cases hn : n = m + 1
    · subst hn; exact fun _ _ _ _ ho => ho
    · exact fun x st ts o ho => documents_mono_succ env m x st ts o (ih (by omega) x st ts o ho)

theorem parseBuffer_mono {env : Env} {n m : Nat} (h : n ≤ m) {text : Option (List Char)} {st : State}
    (hs : parseBuffer env n text = some st) : parseBuffer env m text = some st := by
  cases text with
  | none => exact hs
  | some text =>
    simp only [parseBuffer, Option.map_eq_some_iff] at hs ⊢
    obtain ⟨o, h1, h2⟩ := hs
    exact ⟨o, parseYaml_mono (documents_mono env h) h1, h2⟩

end Knfmt.Style
