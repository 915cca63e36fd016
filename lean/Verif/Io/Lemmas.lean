import Verif.Io.Model
namespace Knfmt.Io

theorem dirBase_append (p : Path) : (dirBase p).1 ++ (dirBase p).2 = p := by
  induction p with
  | nil => rfl
  | cons c s ih =>
    unfold dirBase
    split
    · simp [ih]
    · split <;> simp

theorem tmpName_ne (p suffix : Path) : tmpName p suffix ≠ p := by
  intro h
  have := congrArg List.length h
  have h2 := congrArg List.length (dirBase_append p)
  simp [tmpName] at this h2
  omega

theorem clearSetid_idem (m : Nat) : clearSetid (clearSetid m) = clearSetid m := by
  unfold clearSetid
  rw [Nat.and_assoc]
  rfl

/-- The temporary file exists and nothing else has changed. -/
structure Base (j : Job) (fs0 fs : FS) (tmp : Path) (ino : Ino) : Prop where
  name : ∃ suffix : List Char, suffix.length = 8 ∧ '/' ∉ suffix ∧ tmp = tmpName j.path suffix
  freshDir : fs0.dir tmp = none
  freshIno : fs0.files ino = none
  dir : ∀ q, fs.dir q = if q = tmp then some (.file ino) else fs0.dir q
  files : ∀ i, i ≠ ino → fs.files i = fs0.files i

/-- The attributes of the original, up to cleared set-id bits. -/
def AttrOk (j : Job) (fs0 : FS) (a : Attr) : Prop :=
  ∃ f, fs0.files j.fd = some f ∧ a.uid = f.attr.uid ∧ a.gid = f.attr.gid ∧
    (a.mode = f.attr.mode ∨ a.mode = clearSetid f.attr.mode)

/-- The rename has happened. -/
def Replaced (j : Job) (fs0 fs : FS) : Prop :=
  ∃ ino a, fs0.files ino = none ∧
    (∀ q, fs.dir q = if q = j.path then some (.file ino) else fs0.dir q) ∧
    (∀ i, i ≠ ino → fs.files i = fs0.files i) ∧
    fs.files ino = some ⟨j.dst, a⟩ ∧ AttrOk j fs0 a

/-- A call other than `close` has failed. -/
def Failed (tr : List (Call × Bool)) : Prop := ∃ c, (c, true) ∈ tr ∧ c ≠ Call.close

/-- The invariant of `filewrite`. -/
def Inv (j : Job) (fs0 fs : FS) (tr : List (Call × Bool)) : Pc → Prop
  | .mkstemp => fs = fs0 ∧ j.src ≠ j.dst ∧ tr = []
  | .write tmp ino rem => Base j fs0 fs tmp ino ∧ ¬ Failed tr ∧ j.src ≠ j.dst ∧
      ∃ w a, fs.files ino = some ⟨w, a⟩ ∧ w ++ rem = j.dst
  | .fstatTmp tmp ino => Base j fs0 fs tmp ino ∧ ¬ Failed tr ∧ j.src ≠ j.dst ∧
      ∃ a, fs.files ino = some ⟨j.dst, a⟩
  | .fstatOrig tmp ino s => Base j fs0 fs tmp ino ∧ ¬ Failed tr ∧ j.src ≠ j.dst ∧
      fs.files ino = some ⟨j.dst, s⟩
  | .fchmod tmp ino s d => Base j fs0 fs tmp ino ∧ ¬ Failed tr ∧ j.src ≠ j.dst ∧
      fs.files ino = some ⟨j.dst, s⟩ ∧ ∃ f, fs0.files j.fd = some f ∧ f.attr = d
  | .fchown tmp ino s d => Base j fs0 fs tmp ino ∧ ¬ Failed tr ∧ j.src ≠ j.dst ∧
      ∃ m, fs.files ino = some ⟨j.dst, ⟨m, s.uid, s.gid⟩⟩ ∧ (m = d.mode ∨ m = clearSetid d.mode) ∧
        ∃ f, fs0.files j.fd = some f ∧ f.attr = d
  | .rename tmp ino => Base j fs0 fs tmp ino ∧ ¬ Failed tr ∧ j.src ≠ j.dst ∧
      ∃ a, fs.files ino = some ⟨j.dst, a⟩ ∧ AttrOk j fs0 a
  | .closeOk => Replaced j fs0 fs ∧ ¬ Failed tr ∧ j.src ≠ j.dst
  | .errClose tmp => (∃ ino, Base j fs0 fs tmp ino) ∧ Failed tr ∧ j.src ≠ j.dst
  | .errUnlink tmp => (∃ ino, Base j fs0 fs tmp ino) ∧ Failed tr ∧ j.src ≠ j.dst
  | .done 0 => ¬ Failed tr ∧ ((j.src = j.dst ∧ fs = fs0 ∧ tr = []) ∨ (j.src ≠ j.dst ∧ Replaced j fs0 fs))
  | .done 1 => Failed tr ∧ j.src ≠ j.dst ∧
      (((∀ q, fs.dir q = fs0.dir q) ∧ ∀ i, (fs0.files i).isSome → fs.files i = fs0.files i) ∨
        ∃ tmp ino, Base j fs0 fs tmp ino ∧ (Call.unlink tmp, true) ∈ tr)
  | .done _ => False

theorem Base.ne {j fs0 fs tmp ino} (h : Base j fs0 fs tmp ino) : tmp ≠ j.path := by
  obtain ⟨s, _, _, rfl⟩ := h.name
  exact tmpName_ne _ _

theorem Base.old {j fs0 fs tmp ino} (h : Base j fs0 fs tmp ino) {i : Ino}
    (hi : (fs0.files i).isSome) : fs.files i = fs0.files i := by
  apply h.files
  rintro rfl
  rw [h.freshIno] at hi; simp at hi

theorem Base.modify {j fs0 fs tmp ino} (h : Base j fs0 fs tmp ino) (g : File → File) :
    Base j fs0 (fs.modify ino g) tmp ino := by
  unfold FS.modify
  split
  · exact h
  · refine ⟨h.name, h.freshDir, h.freshIno, h.dir, ?_⟩
    intro i hi
    simp [FS.setFile, hi, h.files i hi]

theorem files_modify {fs : FS} {ino : Ino} {f : File} (h : fs.files ino = some f) (g : File → File) :
    (fs.modify ino g).files ino = some (g f) := by
  simp [FS.modify, h, FS.setFile]

theorem not_failed_append {tr : List (Call × Bool)} (h : ¬ Failed tr) (c : Call) :
    ¬ Failed (tr ++ [(c, false)]) := by
  rintro ⟨d, hd, hne⟩
  rcases List.mem_append.mp hd with hd | hd
  · exact h ⟨d, hd, hne⟩
  · simp at hd

theorem not_failed_close {tr : List (Call × Bool)} (h : ¬ Failed tr) (b : Bool) :
    ¬ Failed (tr ++ [(.close, b)]) := by
  rintro ⟨d, hd, hne⟩
  rcases List.mem_append.mp hd with hd | hd
  · exact h ⟨d, hd, hne⟩
  · simp at hd; exact hne hd.1

theorem failed_append (tr : List (Call × Bool)) (c : Call) (hc : c ≠ .close) :
    Failed (tr ++ [(c, true)]) := ⟨c, by simp, hc⟩

theorem failed_mono {tr : List (Call × Bool)} (h : Failed tr) (tr' : List (Call × Bool)) :
    Failed (tr ++ tr') := by
  obtain ⟨c, hc, hne⟩ := h
  exact ⟨c, List.mem_append_left _ hc, hne⟩

theorem inv_whileWrite {j fs0 fs tr tmp ino rem} (hb : Base j fs0 fs tmp ino) (hf : ¬ Failed tr)
    (hn : j.src ≠ j.dst) (h : ∃ w a, fs.files ino = some ⟨w, a⟩ ∧ w ++ rem = j.dst) :
    Inv j fs0 fs tr (whileWrite tmp ino rem) := by
  unfold whileWrite
  split
  · exact ⟨hb, hf, hn, h⟩
  · next hl =>
    have : rem = [] := by cases rem with | nil => rfl | cons => simp at hl
    subst this
    obtain ⟨w, a, hw, he⟩ := h
    refine ⟨hb, hf, hn, a, ?_⟩
    rw [hw, ← he, List.append_nil]

theorem inv_ifChown {j fs0 fs tr tmp ino} {s d : Attr} (hb : Base j fs0 fs tmp ino) (hf : ¬ Failed tr)
    (hn : j.src ≠ j.dst)
    (h : ∃ m, fs.files ino = some ⟨j.dst, ⟨m, s.uid, s.gid⟩⟩ ∧ (m = d.mode ∨ m = clearSetid d.mode))
    (hd : ∃ f, fs0.files j.fd = some f ∧ f.attr = d) :
    Inv j fs0 fs tr (ifChown tmp ino s d) := by
  unfold ifChown
  split
  · obtain ⟨m, h1, h2⟩ := h
    exact ⟨hb, hf, hn, m, h1, h2, hd⟩
  · next hc =>
    obtain ⟨m, h1, h2⟩ := h
    obtain ⟨f, hf1, rfl⟩ := hd
    simp only [ne_eq, not_or, Decidable.not_not] at hc
    exact ⟨hb, hf, hn, _, h1, f, hf1, hc.1, hc.2, h2⟩

theorem inv_start (j : Job) (fs0 : FS) : Inv j fs0 fs0 [] j.start := by
  unfold Job.start
  split
  · next h => exact ⟨by rintro ⟨c, hc, _⟩; simp at hc, Or.inl ⟨h, rfl, rfl⟩⟩
  · next h => exact ⟨rfl, h, rfl⟩

theorem inv_step {j fs0 fs tr pc} (r : Reply) (hfd : (fs0.files j.fd).isSome)
    (h : Inv j fs0 fs tr pc) :
    Inv j fs0 (step j fs pc r).1 (tr ++ (step j fs pc r).2.2.toList) (step j fs pc r).2.1 := by
  cases pc with
  | mkstemp =>
    obtain ⟨rfl, hn, rfl⟩ := h
    simp only [step]
    split
    · refine ⟨failed_append _ _ (by simp), hn, Or.inl ⟨fun _ => rfl, fun _ _ => rfl⟩⟩
    · next hc =>
      simp only [not_or, Option.isSome_iff_ne_none, ne_eq, Decidable.not_not] at hc
      obtain ⟨_, hl, hs, hd, hi⟩ := hc
      apply inv_whileWrite
      · refine ⟨⟨r.suffix, hl, hs, rfl⟩, hd, hi, ?_, ?_⟩
        · intro q; simp [FS.setFile, FS.setDir]
        · intro i hi; simp [FS.setFile, FS.setDir, hi]
      · exact not_failed_append (by rintro ⟨c, hc, _⟩; simp at hc) _
      · exact hn
      · exact ⟨[], r.attr, by simp [FS.setFile], rfl⟩
  | write tmp ino rem =>
    obtain ⟨hb, hf, hn, w, a, hw, he⟩ := h
    simp only [step]
    split
    · exact ⟨⟨ino, hb⟩, failed_append _ _ (by simp), hn⟩
    · apply inv_whileWrite (hb.modify _) (not_failed_append hf _) hn
      refine ⟨w ++ rem.take r.n, a, by rw [files_modify hw], ?_⟩
      rw [List.append_assoc, List.take_append_drop, he]
  | fstatTmp tmp ino =>
    obtain ⟨hb, hf, hn, a, ha⟩ := h
    simp only [step, ha]
    cases r.fail with
    | false => exact ⟨hb, not_failed_append hf _, hn, ha⟩
    | true => exact ⟨⟨ino, hb⟩, failed_append _ _ (by simp), hn⟩
  | fstatOrig tmp ino s =>
    obtain ⟨hb, hf, hn, ha⟩ := h
    obtain ⟨f, hf0⟩ := Option.isSome_iff_exists.mp hfd
    simp only [step, hb.old hfd, hf0]
    cases r.fail with
    | false =>
      simp only
      unfold ifChmod
      split
      · exact ⟨hb, not_failed_append hf _, hn, ha, f, hf0, rfl⟩
      · next hm =>
        apply inv_ifChown hb (not_failed_append hf _) hn _ ⟨f, hf0, rfl⟩
        exact ⟨s.mode, ha, Or.inl (by simpa using hm)⟩
    | true => exact ⟨⟨ino, hb⟩, failed_append _ _ (by simp), hn⟩
  | fchmod tmp ino s d =>
    obtain ⟨hb, hf, hn, ha, hd⟩ := h
    simp only [step]
    split
    · exact ⟨⟨ino, hb⟩, failed_append _ _ (by simp), hn⟩
    · apply inv_ifChown (hb.modify _) (not_failed_append hf _) hn _ hd
      refine ⟨_, by rw [files_modify ha]; rfl, ?_⟩
      split
      · exact Or.inr rfl
      · exact Or.inl rfl
  | fchown tmp ino s d =>
    obtain ⟨hb, hf, hn, m, ha, hm, f, hf0, rfl⟩ := h
    simp only [step]
    split
    · exact ⟨⟨ino, hb⟩, failed_append _ _ (by simp), hn⟩
    · refine ⟨hb.modify _, not_failed_append hf _, hn, (sysFchown r f.attr.uid f.attr.gid ⟨j.dst, m, s.uid, s.gid⟩).attr,
        by rw [files_modify ha]; rfl, f, hf0, rfl, rfl, ?_⟩
      simp only [sysFchown]
      split
      · rcases hm with rfl | rfl
        · exact Or.inr rfl
        · exact Or.inr (clearSetid_idem _)
      · exact hm
  | rename tmp ino =>
    obtain ⟨hb, hf, hn, a, ha, hok⟩ := h
    simp only [step]
    split
    · exact ⟨⟨ino, hb⟩, failed_append _ _ (by simp), hn⟩
    · refine ⟨⟨ino, a, hb.freshIno, ?_, hb.files, ha, hok⟩, not_failed_append hf _, hn⟩
      intro q
      simp only [FS.setDir]
      by_cases h1 : q = tmp
      · subst h1; simp [hb.ne, hb.freshDir]
      · simp [h1, hb.dir]
  | closeOk =>
    obtain ⟨hr, hf, hn⟩ := h
    exact ⟨not_failed_close hf _, Or.inr ⟨hn, hr⟩⟩
  | errClose tmp =>
    obtain ⟨hb, hf, hn⟩ := h
    exact ⟨hb, failed_mono hf _, hn⟩
  | errUnlink tmp =>
    obtain ⟨⟨ino, hb⟩, hf, hn⟩ := h
    simp only [step]
    split
    · refine ⟨failed_mono hf _, hn, Or.inr ⟨tmp, ino, hb, by simp⟩⟩
    · refine ⟨failed_mono hf _, hn, Or.inl ⟨?_, fun i hi => hb.old hi⟩⟩
      intro q
      simp only [FS.setDir, hb.dir]
      by_cases h1 : q = tmp
      · subst h1; simp [hb.freshDir]
      · simp [h1]
  | done code => simpa [step] using h

theorem inv_run {j fs0 fs tr pc} (rs : List Reply) (hfd : (fs0.files j.fd).isSome)
    (h : Inv j fs0 fs tr pc) :
    Inv j fs0 (run j fs pc rs).1 (tr ++ (run j fs pc rs).2.2) (run j fs pc rs).2.1 := by
  induction rs generalizing fs tr pc with
  | nil => simpa [run] using h
  | cons r rs ih =>
    have := ih (inv_step r hfd h)
    simpa [run, List.append_assoc] using this

/-- Upper bound on the number of calls left, if every write makes progress. -/
def steps : Pc → Nat
  | .mkstemp => 0
  | .write _ _ rem => rem.length + 9
  | .fstatTmp .. => 8
  | .fstatOrig .. => 7
  | .fchmod .. => 6
  | .fchown .. => 5
  | .rename .. => 4
  | .errClose _ => 2
  | .closeOk => 1
  | .errUnlink _ => 1
  | .done _ => 0

theorem steps_whileWrite (tmp : Path) (ino : Ino) (rem : List Char) :
    steps (whileWrite tmp ino rem) ≤ rem.length + 9 := by
  unfold whileWrite; split <;> simp [steps]

theorem steps_step (j : Job) (fs : FS) (pc : Pc) (r : Reply) (hr : 1 ≤ r.n) (hpc : pc ≠ .mkstemp) :
    (step j fs pc r).2.1 ≠ .mkstemp ∧ steps (step j fs pc r).2.1 ≤ steps pc - 1 := by
  cases pc with
  | mkstemp => simp at hpc
  | write tmp ino rem =>
    simp only [step]
    split
    · simp [steps]
    · simp only [whileWrite]
      split <;> simp_all [steps]
      omega
  | fstatTmp tmp ino => simp only [step]; split <;> simp [steps]
  | fstatOrig tmp ino s =>
    simp only [step]; split
    · unfold ifChmod ifChown; split
      · simp [steps]
      · split <;> simp [steps]
    · simp [steps]
  | fchmod tmp ino s d =>
    simp only [step]; split
    · simp [steps]
    · unfold ifChown; split <;> simp [steps]
  | fchown tmp ino s d => simp only [step]; split <;> simp [steps]
  | rename tmp ino => simp only [step]; split <;> simp [steps]
  | closeOk => simp [step, steps]
  | errClose tmp => simp [step, steps]
  | errUnlink tmp => simp only [step]; split <;> simp [steps]
  | done c => simp [step, steps]

theorem run_done (j : Job) (fs : FS) (pc : Pc) (rs : List Reply) (hr : ∀ r ∈ rs, 1 ≤ r.n)
    (hpc : pc ≠ .mkstemp) (hl : steps pc ≤ rs.length) : ∃ c, (run j fs pc rs).2.1 = .done c := by
  induction rs generalizing fs pc with
  | nil =>
    cases pc <;> simp [steps] at hl <;> simp_all [run]
  | cons r rs ih =>
    have h := steps_step j fs pc r (hr r (List.mem_cons_self ..)) hpc
    simp only [run]
    apply ih
    · exact fun r hm => hr r (List.mem_cons_of_mem _ hm)
    · exact h.1
    · simp at hl; omega

/-! ## fileprint -/

def PrintInv (out0 dst out : List Char) : PrintPc → Prop
  | .write rem => ∃ w, out = out0 ++ w ∧ w ++ rem = dst
  | .done 0 => out = out0 ++ dst
  | .done _ => ∃ w rem, out = out0 ++ w ∧ w ++ rem = dst

theorem printInv_loop {out0 dst out rem w : List Char} (h1 : out = out0 ++ w) (h2 : w ++ rem = dst) :
    PrintInv out0 dst out (printLoop rem) := by
  unfold printLoop
  split
  · exact ⟨w, h1, h2⟩
  · next hl =>
    have : rem = [] := by cases rem with | nil => rfl | cons => simp at hl
    subst this
    rw [← h2, List.append_nil]
    exact h1

theorem printInv_run {out0 dst out : List Char} {pc : PrintPc} (rs : List Reply)
    (h : PrintInv out0 dst out pc) :
    PrintInv out0 dst (printRun out pc rs).1 (printRun out pc rs).2 := by
  induction rs generalizing out pc with
  | nil => exact h
  | cons r rs ih =>
    simp only [printRun]
    apply ih
    cases pc with
    | write rem =>
      obtain ⟨w, h1, h2⟩ := h
      simp only [printStep]
      split
      · exact ⟨w, rem, h1, h2⟩
      · apply printInv_loop (w := w ++ rem.take r.n)
        · rw [h1, List.append_assoc]
        · rw [List.append_assoc, List.take_append_drop, h2]
    | done c => exact h

theorem printRun_done (out : List Char) (c : Nat) (rs : List Reply) :
    printRun out (.done c) rs = (out, .done c) := by
  induction rs with
  | nil => rfl
  | cons r rs ih => simpa [printRun, printStep] using ih

theorem run_done_eq (j : Job) (fs : FS) (c : Nat) (rs : List Reply) :
    run j fs (.done c) rs = (fs, .done c, []) := by
  induction rs with
  | nil => rfl
  | cons r rs ih => simp [run, step, ih]

end Knfmt.Io
