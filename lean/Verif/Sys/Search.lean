/-!
# fs.c: searching the directories upwards for a file
-/
namespace Knfmt.Search

/-- What the search sees of the file system: the directory opened by `..`, the device and inode of a
directory and the file opened in it; `none` if the call fails. It does not change during
the search. -/
structure FS (D F : Type) where
  up : D → Option D
  stat : D → Option (Nat × Nat)
  file : D → Option F

variable {D F : Type}

/-- The loop of `searchpath`, fs.c:40-58: the file and the number of levels. The outer `none` means
that the loop is not done after the given number of rounds. -/
def loop (fs : FS D F) : Nat → D → Nat × Nat → Nat → Option (Option (F × Nat))
  | 0, _, _, _ => none
  | n + 1, d, id, i =>
    match fs.file d with
    | some f => some (some (f, i))
    | none =>
      match fs.up d with
      | none => some none
      | some p =>
        match fs.stat p with
        | none => some none
        | some id' => if id = id' then some none else loop fs n p id' (i + 1)

/-- `searchpath`, fs.c:21-65; `cwd` is `none` if the working directory cannot be opened. -/
def searchpath (fs : FS D F) (rounds : Nat) (cwd : Option D) : Option (Option (F × Nat)) :=
  match cwd with
  | none => some none
  | some d =>
    match fs.stat d with
    | none => some none
    | some id => loop fs rounds d id 0

/-- The configuration chosen by `style_parse`, style.c:361-390. -/
inductive Config (F : Type) where
  | failed
  | dflt
  | text (f : F)
deriving DecidableEq, Repr

/-- `style_parse`, style.c:361-390, without the parser: `given` is the path given on the command line
as what is read from it, `read` gives the content of a file, `none` on failure. -/
def styleParse (fs : FS D F) (rounds : Nat) (cwd : Option D) (given : Option (Option F)) :
    Option (Config F) :=
  match given with
  | some none => some .failed
  | some (some f) => some (.text f)
  | none => (searchpath fs rounds cwd).map fun
    | none => .dflt
    | some (f, _) => .text f

namespace Spec

/-- `a` is `k` levels above `d`, and all the directories on the way can be opened. -/
inductive Above (fs : FS D F) : D → Nat → D → Prop where
  | here (d : D) : Above fs d 0 d
  | up {d p a : D} {k : Nat} : fs.up d = some p → p ≠ d → Above fs p k a → Above fs d (k + 1) a

/-- Directories have an identity and form a tree: every directory that can be opened can be examined,
different directories have different identities, and going upwards ends, at the root which is above
itself or at a directory that cannot be opened. -/
structure Tree (fs : FS D F) (rank : D → Nat) : Prop where
  stat : ∀ d, (fs.stat d).isSome
  inj : ∀ d e, fs.stat d = fs.stat e → d = e
  up : ∀ d p, fs.up d = some p → p = d ∨ rank p < rank d

/-- The nearest directory with the file. -/
def Nearest (fs : FS D F) (d : D) (k : Nat) (f : F) : Prop :=
  ∃ a, Above fs d k a ∧ fs.file a = some f ∧ ∀ j b, j < k → Above fs d j b → fs.file b = none

end Spec

theorem above_fun {fs : FS D F} {d : D} {k : Nat} {a b : D} (h1 : Spec.Above fs d k a)
    (h2 : Spec.Above fs d k b) : a = b := by
  induction h1 with
  | here => cases h2; rfl
  | up e _ _ ih =>
    cases h2 with
    | up e' _ h2 =>
      rw [e] at e'
      simp only [Option.some.injEq] at e'
      subst e'
      exact ih h2

/-- More rounds change nothing. -/
theorem loop_mono {fs : FS D F} {n m : Nat} (hnm : n ≤ m) {d : D} {id : Nat × Nat} {i : Nat}
    {r : Option (F × Nat)} (h : loop fs n d id i = some r) : loop fs m d id i = some r := by
  induction n generalizing m d id i with
  | zero => simp [loop] at h
  | succ n ih =>
    obtain ⟨m, rfl⟩ : ∃ k, m = k + 1 := ⟨m - 1, by omega⟩
    rw [loop] at h ⊢
    split at h
    · exact h
    · split at h
      · exact h
      · split at h
        · exact h
        · split at h
          · next he => rw [if_pos he]; exact h
          · next he => rw [if_neg he]; exact ih (by omega) h

theorem loop_ends {fs : FS D F} {rank : D → Nat} (hT : Spec.Tree fs rank) (n : Nat) (d : D)
    (id : Nat × Nat) (i : Nat) (hid : fs.stat d = some id) (hn : rank d < n) :
    ∃ r, loop fs n d id i = some r := by
  induction n generalizing d id i with
  | zero => omega
  | succ n ih =>
    rw [loop]
    split
    · exact ⟨_, rfl⟩
    · split
      · exact ⟨_, rfl⟩
      · next p hp =>
        split
        · exact ⟨_, rfl⟩
        · next id' hs =>
          split
          · exact ⟨_, rfl⟩
          · next hne =>
            rcases hT.up d p hp with rfl | hr
            · rw [hid] at hs; simp only [Option.some.injEq] at hs; exact absurd hs hne
            · exact ih p id' (i + 1) hs (by omega)

theorem loop_spec {fs : FS D F} {rank : D → Nat} (hT : Spec.Tree fs rank) (n : Nat) (d : D)
    (id : Nat × Nat) (i : Nat) (hid : fs.stat d = some id) (r : Option (F × Nat))
    (h : loop fs n d id i = some r) :
    match r with
    | none => ∀ k a, Spec.Above fs d k a → fs.file a = none
    | some (f, m) => ∃ k, m = i + k ∧ Spec.Nearest fs d k f := by
  induction n generalizing d id i with
  | zero => simp [loop] at h
  | succ n ih =>
    rw [loop] at h
    split at h
    · next f hf =>
      simp only [Option.some.injEq] at h
      subst h
      exact ⟨0, rfl, d, .here d, hf, fun j b hj => by omega⟩
    · next hf =>
      split at h
      · next hu =>
        simp only [Option.some.injEq] at h
        subst h
        intro k a ha
        cases ha with
        | here => exact hf
        | up e _ _ => rw [hu] at e; simp at e
      · next p hp =>
        have hst := hT.stat p
        split at h
        · next hs => rw [hs] at hst; simp at hst
        · next id' hs =>
          split at h
          · next he =>
            simp only [Option.some.injEq] at h
            subst h
            have : p = d := hT.inj p d (by rw [hs, hid, he])
            subst this
            intro k a ha
            cases ha with
            | here => exact hf
            | up e hne _ =>
              rw [hp] at e
              simp only [Option.some.injEq] at e
              exact absurd e.symm hne
          · next he =>
            have hpd : p ≠ d := by
              rintro rfl
              rw [hs] at hid
              simp only [Option.some.injEq] at hid
              exact he hid.symm
            have := ih p id' (i + 1) hs h
            match r with
            | none =>
              intro k a ha
              cases ha with
              | here => exact hf
              | up e _ ha =>
                rw [hp] at e
                simp only [Option.some.injEq] at e
                subst e
                exact this _ a ha
            | some (f, m) =>
              obtain ⟨k, hk, a, ha, hfa, hmin⟩ := this
              refine ⟨k + 1, by omega, a, .up hp hpd ha, hfa, ?_⟩
              intro j b hj hb
              cases hb with
              | here => exact hf
              | up e _ hb =>
                rw [hp] at e
                simp only [Option.some.injEq] at e
                subst e
                exact hmin _ b (by omega) hb

/-- C46. The search for the configuration ends, and what it finds is the one in the nearest directory
that has one, starting with the working directory and going upwards as long as directories can be
opened; the number of levels is the number of directories gone upwards. Nothing is found only if no
directory has one. -/
theorem nearest_configuration (fs : FS D F) (rank : D → Nat) (hT : Spec.Tree fs rank) (d : D) :
    (∃ n r, searchpath fs n (some d) = some r) ∧
    ∀ n r, searchpath fs n (some d) = some r →
      (∀ f k, r = some (f, k) ↔ Spec.Nearest fs d k f) ∧
      (r = none ↔ ∀ k a, Spec.Above fs d k a → fs.file a = none) := by
  have hsome := hT.stat d
  obtain ⟨id, hid⟩ := Option.isSome_iff_exists.mp hsome
  constructor
  · obtain ⟨r, hr⟩ := loop_ends hT (rank d + 1) d id 0 hid (by omega)
    exact ⟨rank d + 1, r, by simp only [searchpath, hid]; exact hr⟩
  · intro n r h
    simp only [searchpath, hid] at h
    have key := loop_spec hT n d id 0 hid r h
    match r with
    | none =>
      dsimp only at key
      refine ⟨?_, ?_⟩
      · intro f k
        constructor
        · intro h; simp at h
        · rintro ⟨a, ha, hf, -⟩
          rw [key k a ha] at hf; simp at hf
      · exact ⟨fun _ => key, fun _ => rfl⟩
    | some (f, m) =>
      obtain ⟨k, hk, hN⟩ := key
      have hm : m = k := by omega
      subst hm
      refine ⟨?_, ?_⟩
      · intro f' k'
        constructor
        · intro e
          simp only [Option.some.injEq, Prod.mk.injEq] at e
          rw [← e.1, ← e.2]
          exact hN
        · rintro ⟨b, hb, hfb, hminb⟩
          obtain ⟨a, ha, hfa, hmina⟩ := hN
          have : m = k' := by
            rcases Nat.lt_trichotomy m k' with hlt | he | hlt
            · rw [hminb m a hlt ha] at hfa; simp at hfa
            · exact he
            · rw [hmina k' b hlt hb] at hfb; simp at hfb
          subst this
          have := above_fun ha hb
          subst this
          rw [hfa] at hfb
          simp only [Option.some.injEq] at hfb
          rw [hfb]
      · constructor
        · intro h; simp at h
        · intro h
          obtain ⟨a, ha, hfa, -⟩ := hN
          rw [h m a ha] at hfa; simp at hfa

/-- C46, the configuration used: the given one, which is an error if it cannot be read, otherwise
the nearest one, otherwise the default. -/
theorem configuration_used (fs : FS D F) (rank : D → Nat) (hT : Spec.Tree fs rank) (d : D) :
    ∃ n, (∀ f, styleParse fs n (some d) (some (some f)) = some (.text f)) ∧
      styleParse fs n (some d) (some none) = some .failed ∧
      ∃ c, styleParse fs n (some d) none = some c ∧ c ≠ .failed ∧
        (∀ f, c = .text f ↔ ∃ k, Spec.Nearest fs d k f) ∧
        (c = .dflt ↔ ∀ k a, Spec.Above fs d k a → fs.file a = none) := by
  obtain ⟨⟨n, r, h⟩, hall⟩ := nearest_configuration fs rank hT d
  obtain ⟨h1, h2⟩ := hall n r h
  refine ⟨n, fun _ => rfl, rfl, ?_⟩
  match r with
  | none =>
    refine ⟨.dflt, by simp only [styleParse, h, Option.map_some], by simp, ?_, ?_⟩
    · intro f
      constructor
      · intro h; simp at h
      · rintro ⟨k, hk⟩
        exact absurd ((h1 f k).mpr hk) (by simp)
    · exact ⟨fun _ => h2.mp rfl, fun _ => rfl⟩
  | some (f, k) =>
    refine ⟨.text f, by simp only [styleParse, h, Option.map_some], by simp, ?_, ?_⟩
    · intro f'
      constructor
      · intro e
        simp only [Config.text.injEq] at e
        exact ⟨k, (h1 f' k).mp (by rw [e])⟩
      · rintro ⟨k', hk'⟩
        have := (h1 f' k').mpr hk'
        simp only [Option.some.injEq, Prod.mk.injEq] at this
        rw [this.1]
    · constructor
      · intro e; simp at e
      · intro e
        exact absurd (h2.mpr e) (by simp)

/-- Without any assumption about the file system: what is found is the nearest one. -/
theorem found_nearest (fs : FS D F) (n : Nat) (d : D) (f : F) (k : Nat)
    (h : searchpath fs n (some d) = some (some (f, k))) :
    ∃ dirs : Nat → D, dirs 0 = d ∧ (∀ j < k, fs.up (dirs j) = some (dirs (j + 1)) ∧ fs.file (dirs j) = none) ∧
      fs.file (dirs k) = some f := by
  unfold searchpath at h
  dsimp only at h
  split at h
  · simp at h
  · next id _ =>
    suffices H : ∀ n d id i, loop fs n d id i = some (some (f, k)) → i ≤ k ∧ ∃ dirs : Nat → D, dirs i = d ∧
        (∀ j, i ≤ j → j < k → fs.up (dirs j) = some (dirs (j + 1)) ∧ fs.file (dirs j) = none) ∧
        fs.file (dirs k) = some f by
      obtain ⟨-, dirs, h0, h1, h2⟩ := H n d id 0 h
      exact ⟨dirs, h0, fun j hj => h1 j (by omega) hj, h2⟩
    intro n
    induction n with
    | zero => intro d id i h; simp [loop] at h
    | succ n ih =>
      intro d id i h
      rw [loop] at h
      split at h
      · next g hf =>
        simp only [Option.some.injEq, Prod.mk.injEq] at h
        obtain ⟨rfl, rfl⟩ := h
        exact ⟨Nat.le_refl _, fun _ => d, rfl, fun j h1 h2 => by omega, hf⟩
      · next hf =>
        split at h
        · simp at h
        · next p hp =>
          split at h
          · simp at h
          · split at h
            · simp at h
            · obtain ⟨hik, dirs, h0, h1, h2⟩ := ih _ _ _ h
              refine ⟨by omega, fun j => if j = i then d else dirs j, by simp, ?_, ?_⟩
              · intro j hij hjk
                by_cases hj : j = i
                · subst hj
                  dsimp only
                  rw [if_pos (rfl : j = j), if_neg (show ¬ j + 1 = j by omega), h0]
                  exact ⟨hp, hf⟩
                · simp only [if_neg hj]
                  rw [if_neg (by omega)]
                  exact h1 j (by omega) hjk
              · dsimp only
                rw [if_neg (by omega)]
                exact h2

/-- Directories numbered by their depth, with a file in the root and in the directories
whose depth is a multiple of five. -/
def nested : FS Nat String where
  up d := some (d - 1)
  stat d := some (1, d)
  file d := if d % 5 = 0 then some s!"{d}" else none

example : Spec.Tree nested id where
  stat _ := rfl
  inj d e h := by simpa [nested] using h
  up d p h := by
    simp only [nested, Option.some.injEq] at h
    simp only [id]; omega

example : searchpath nested 10 (some 8) = some (some ("5", 3)) := by decide +kernel
example : searchpath ({ nested with file := fun _ => none } : FS Nat String) 10 (some 8) = some none := by decide +kernel

/-- A directory that cannot be opened hides the ones above it. -/
example : searchpath ({ nested with up := fun d => if d = 7 then none else nested.up d } : FS Nat String) 10 (some 8) =
    some none := by decide +kernel

end Knfmt.Search
