import Verif.Io.Lemmas
/-!
# C01-C07: files, crashes, exit status
-/
namespace Knfmt.Io

/-- The file argument has been read: its path leads to the inode behind the
descriptor, which holds the source text. -/
def Opened (fs : FS) (j : Job) : Prop :=
  fs.resolve 40 j.path = some j.fd ∧ ∃ a, fs.files j.fd = some ⟨j.src, a⟩

theorem resolve_frame {fs fs' : FS} {p : Path} {i : Ino} {n : Nat}
    (hd : ∀ q, (fs.dir q).isSome → fs'.dir q = fs.dir q) (h : fs.resolve n p = some i) :
    fs'.resolve n p = some i := by
  induction n generalizing p with
  | zero => simp [FS.resolve] at h
  | succ n ih =>
    unfold FS.resolve at h ⊢
    cases hp : fs.dir p with
    | none => simp [hp] at h
    | some e =>
      rw [hd p (by simp [hp])]
      cases e with
      | file k => simpa [hp] using h
      | symlink t =>
        simp only [hp] at h ⊢
        exact ih h

theorem base_lookup {j : Job} {fs0 fs : FS} {tmp : Path} {ino : Ino} (hb : Base j fs0 fs tmp ino)
    {p : Path} {i : Ino} {f : File} (h : fs0.resolve 40 p = some i) (hf : fs0.files i = some f) :
    fs.lookup p = some f := by
  have : fs.resolve 40 p = some i := by
    refine resolve_frame (fs := fs0) ?_ h
    intro q hq
    rw [hb.dir, if_neg]
    rintro rfl
    rw [hb.freshDir] at hq; simp at hq
  rw [FS.lookup, this, Option.bind_some, hb.old (by simp [hf]), hf]

theorem replaced_lookup {j : Job} {fs0 fs : FS} (h : Replaced j fs0 fs) :
    ∃ a, fs.lookup j.path = some ⟨j.dst, a⟩ ∧ AttrOk j fs0 a := by
  obtain ⟨ino, a, _, hd, _, hf, ha⟩ := h
  refine ⟨a, ?_, ha⟩
  have : fs.resolve 40 j.path = some ino := by
    unfold FS.resolve
    rw [hd, if_pos rfl]
  rw [FS.lookup, this, Option.bind_some, hf]

/-- All states reachable by `filewrite`, classified: nothing has changed; a temporary
file exists in addition; the file has been replaced. -/
theorem run_cases (j : Job) (fs : FS) (rs : List Reply) (ho : Opened fs j) :
    let r := run j fs j.start rs
    ((∀ q, r.1.dir q = fs.dir q) ∧ ∀ i, (fs.files i).isSome → r.1.files i = fs.files i) ∨
      (∃ tmp ino, Base j fs r.1 tmp ino) ∨ Replaced j fs r.1 := by
  intro r
  have hfd : (fs.files j.fd).isSome := by obtain ⟨_, a, h⟩ := ho; simp [h]
  have h := inv_run rs hfd (inv_start j fs)
  rw [List.nil_append] at h
  change Inv j fs r.1 r.2.2 r.2.1 at h
  generalize r.2.1 = pc at h
  cases pc with
  | mkstemp => left; rw [h.1]; exact ⟨fun _ => rfl, fun _ _ => rfl⟩
  | write tmp ino rem => exact Or.inr (Or.inl ⟨_, _, h.1⟩)
  | fstatTmp tmp ino => exact Or.inr (Or.inl ⟨_, _, h.1⟩)
  | fstatOrig tmp ino s => exact Or.inr (Or.inl ⟨_, _, h.1⟩)
  | fchmod tmp ino s d => exact Or.inr (Or.inl ⟨_, _, h.1⟩)
  | fchown tmp ino s d => exact Or.inr (Or.inl ⟨_, _, h.1⟩)
  | rename tmp ino => exact Or.inr (Or.inl ⟨_, _, h.1⟩)
  | closeOk => exact Or.inr (Or.inr h.1)
  | errClose tmp => obtain ⟨⟨ino, hb⟩, _⟩ := h; exact Or.inr (Or.inl ⟨_, _, hb⟩)
  | errUnlink tmp => obtain ⟨⟨ino, hb⟩, _⟩ := h; exact Or.inr (Or.inl ⟨_, _, hb⟩)
  | done c =>
    match c with
    | 0 =>
      rcases h.2 with ⟨_, h, _⟩ | ⟨_, h⟩
      · left; rw [h]; exact ⟨fun _ => rfl, fun _ _ => rfl⟩
      · exact Or.inr (Or.inr h)
    | 1 =>
      rcases h.2.2 with h | ⟨tmp, ino, hb, _⟩
      · exact Or.inl h
      · exact Or.inr (Or.inl ⟨_, _, hb⟩)
    | _ + 2 => exact h.elim

/-- C01: after any number of system calls, with any replies, the path gives either
the complete original bytes, with the original attributes, or the complete formatted
bytes. -/
theorem filewrite_atomic (j : Job) (fs : FS) (rs : List Reply) (ho : Opened fs j) :
    let fs' := (run j fs j.start rs).1
    fs'.lookup j.path = fs.lookup j.path ∨ ∃ a, fs'.lookup j.path = some ⟨j.dst, a⟩ := by
  intro fs'
  obtain ⟨hr, a, hf⟩ := ho
  have h0 : fs.lookup j.path = some ⟨j.src, a⟩ := by rw [FS.lookup, hr, Option.bind_some, hf]
  rcases run_cases j fs rs ⟨hr, a, hf⟩ with h | ⟨tmp, ino, hb⟩ | h
  · left
    rw [h0]
    have : fs'.resolve 40 j.path = some j.fd := resolve_frame (fun q _ => h.1 q) hr
    rw [FS.lookup, this, Option.bind_some, h.2 _ (by simp [hf]), hf]
  · left; rw [h0]; exact base_lookup hb hr hf
  · right
    obtain ⟨a, ha, _⟩ := replaced_lookup h
    exact ⟨a, ha⟩

/-- C01, other files: whatever happens, every path not given to knfmt and existing
before keeps its directory entry, and every file existing before keeps its content
and attributes (in particular other hard links to the file, and the target of a
symbolic link). -/
theorem filewrite_frame (j : Job) (fs : FS) (rs : List Reply) (ho : Opened fs j) :
    let fs' := (run j fs j.start rs).1
    (∀ q, q ≠ j.path → (fs.dir q).isSome → fs'.dir q = fs.dir q) ∧
      (∀ i, (fs.files i).isSome → fs'.files i = fs.files i) := by
  intro fs'
  rcases run_cases j fs rs ho with h | ⟨tmp, ino, hb⟩ | h
  · exact ⟨fun q _ _ => h.1 q, h.2⟩
  · refine ⟨?_, fun i hi => hb.old hi⟩
    intro q _ hq
    rw [hb.dir, if_neg]
    rintro rfl
    rw [hb.freshDir] at hq; simp at hq
  · obtain ⟨ino, a, hfr, hd, hfi, _⟩ := h
    refine ⟨fun q hq _ => by rw [hd, if_neg hq], ?_⟩
    intro i hi
    apply hfi
    rintro rfl
    rw [hfr] at hi; simp at hi

/-- C01: at most one extra name exists at any time, a hidden file in the directory of
the path. -/
theorem filewrite_temporary (j : Job) (fs : FS) (rs : List Reply) (ho : Opened fs j) (q : Path)
    (h0 : fs.dir q = none) (h1 : ((run j fs j.start rs).1.dir q).isSome) :
    ∃ suffix : List Char, suffix.length = 8 ∧ '/' ∉ suffix ∧ q = tmpName j.path suffix := by
  rcases run_cases j fs rs ho with h | ⟨tmp, ino, hb⟩ | h
  · rw [h.1, h0] at h1; simp at h1
  · rw [hb.dir] at h1
    split at h1
    · next he => rw [he]; exact hb.name
    · rw [h0] at h1; simp at h1
  · obtain ⟨ino, a, _, hd, _⟩ := h
    rw [hd] at h1
    split at h1
    · next he =>
      subst he
      have := ho.1
      unfold FS.resolve at this
      rw [h0] at this; simp at this
    · rw [h0] at h1; simp at h1

/-- C02: `filewrite` reports an error exactly if a call other than `close` failed
(or it is still running). -/
theorem filewrite_error_iff (j : Job) (fs : FS) (rs : List Reply) (ho : Opened fs j) (code : Nat)
    (hd : (run j fs j.start rs).2.1 = .done code) :
    (code = 0 ∨ code = 1) ∧
      (code = 1 ↔ ∃ c, (c, true) ∈ (run j fs j.start rs).2.2 ∧ c ≠ Call.close) := by
  have hfd : (fs.files j.fd).isSome := by obtain ⟨_, a, h⟩ := ho; simp [h]
  have h := inv_run rs hfd (inv_start j fs)
  rw [List.nil_append, hd] at h
  match code with
  | 0 => exact ⟨Or.inl rfl, by simpa [Failed] using h.1⟩
  | 1 => exact ⟨Or.inr rfl, by simpa [Failed] using h.1⟩
  | _ + 2 => exact h.elim

/-- C02: a failed in-place rewrite leaves every name and every file as they were:
original content and attributes at the path, no temporary file, unless removing the
temporary file failed as well. -/
theorem filewrite_failed (j : Job) (fs : FS) (rs : List Reply) (ho : Opened fs j)
    (hd : (run j fs j.start rs).2.1 = .done 1)
    (hu : ∀ p, (Call.unlink p, true) ∉ (run j fs j.start rs).2.2) :
    let fs' := (run j fs j.start rs).1
    (∀ q, fs'.dir q = fs.dir q) ∧ (∀ i, (fs.files i).isSome → fs'.files i = fs.files i) ∧
      fs'.lookup j.path = fs.lookup j.path := by
  intro fs'
  obtain ⟨hr, a, hf⟩ := ho
  have hfd : (fs.files j.fd).isSome := by simp [hf]
  have h := inv_run rs hfd (inv_start j fs)
  rw [List.nil_append, hd] at h
  rcases h.2.2 with h | ⟨tmp, _, _, hm⟩
  · refine ⟨h.1, h.2, ?_⟩
    have : fs'.resolve 40 j.path = some j.fd := resolve_frame (fun q _ => h.1 q) hr
    rw [FS.lookup, FS.lookup, this, hr, Option.bind_some, Option.bind_some, h.2 _ hfd]
  · exact absurd hm (hu tmp)

/-- C02: even if removing the temporary file failed, the path is as it was. -/
theorem filewrite_failed_path (j : Job) (fs : FS) (rs : List Reply) (ho : Opened fs j)
    (hd : (run j fs j.start rs).2.1 = .done 1) :
    (run j fs j.start rs).1.lookup j.path = fs.lookup j.path := by
  obtain ⟨hr, a, hf⟩ := ho
  have hfd : (fs.files j.fd).isSome := by simp [hf]
  have h := inv_run rs hfd (inv_start j fs)
  rw [List.nil_append, hd] at h
  rcases h.2.2 with h | ⟨tmp, ino, hb, _⟩
  · have : (run j fs j.start rs).1.resolve 40 j.path = some j.fd := resolve_frame (fun q _ => h.1 q) hr
    rw [FS.lookup, FS.lookup, this, hr, Option.bind_some, Option.bind_some, h.2 _ hfd]
  · rw [base_lookup hb hr hf, FS.lookup, hr, Option.bind_some, hf]

/-- C03: if nothing changed, no system call is made at all and success is reported. -/
theorem filewrite_unchanged (j : Job) (fs : FS) (rs : List Reply) (h : j.src = j.dst) :
    run j fs j.start rs = (fs, .done 0, []) := by
  rw [Job.start, if_pos h, run_done_eq]

/-- C03, converse: if something changed, success implies that the path was replaced. -/
theorem filewrite_changed (j : Job) (fs : FS) (rs : List Reply) (ho : Opened fs j)
    (hne : j.src ≠ j.dst) (hd : (run j fs j.start rs).2.1 = .done 0) :
    ∃ a, (run j fs j.start rs).1.lookup j.path = some ⟨j.dst, a⟩ := by
  have hfd : (fs.files j.fd).isSome := by obtain ⟨_, a, h⟩ := ho; simp [h]
  have h := inv_run rs hfd (inv_start j fs)
  rw [List.nil_append, hd] at h
  rcases h.2 with ⟨he, _⟩ | ⟨_, h⟩
  · exact absurd he hne
  · obtain ⟨a, ha, _⟩ := replaced_lookup h
    exact ⟨a, ha⟩

/-- C04: whatever the sizes accepted by `write(2)`, standard output receives a prefix
of the formatted text, and all of it on success. -/
theorem fileprint_prefix (out dst : List Char) (rs : List Reply) :
    let r := printRun out (printLoop dst) rs
    (∃ w rem, r.1 = out ++ w ∧ w ++ rem = dst) ∧ (r.2 = .done 0 → r.1 = out ++ dst) := by
  intro r
  have h := printInv_run rs (printInv_loop (out0 := out) (out := out) (w := []) (rem := dst) (by simp) rfl)
  change PrintInv out dst r.1 r.2 at h
  generalize r.2 = pc at h
  cases pc with
  | write rem =>
    obtain ⟨w, h1, h2⟩ := h
    exact ⟨⟨w, rem, h1, h2⟩, by simp⟩
  | done c =>
    match c with
    | 0 => exact ⟨⟨dst, [], h, by simp⟩, fun _ => h⟩
    | _ + 1 => exact ⟨h, by simp⟩

/-- C04: the temporary file holds a prefix of the formatted text at every moment; the
formatted text is never observable incomplete under the path (`filewrite_atomic`). -/
theorem filewrite_prefix (j : Job) (fs : FS) (rs : List Reply) (ho : Opened fs j)
    (tmp : Path) (ino : Ino) (rem : List Char)
    (hd : (run j fs j.start rs).2.1 = .write tmp ino rem) :
    ∃ w a, (run j fs j.start rs).1.lookup tmp = some ⟨w, a⟩ ∧ w ++ rem = j.dst := by
  have hfd : (fs.files j.fd).isSome := by obtain ⟨_, a, h⟩ := ho; simp [h]
  have h := inv_run rs hfd (inv_start j fs)
  rw [List.nil_append, hd] at h
  obtain ⟨hb, _, _, w, a, hw, he⟩ := h
  refine ⟨w, a, ?_, he⟩
  have : (run j fs j.start rs).1.resolve 40 tmp = some ino := by
    unfold FS.resolve
    rw [hb.dir, if_pos rfl]
  rw [FS.lookup, this, Option.bind_some, hw]

/-- Both loops end if every write accepts at least one byte. -/
theorem filewrite_terminates (j : Job) (fs : FS) (rs : List Reply) (hr : ∀ r ∈ rs, 1 ≤ r.n)
    (hl : j.dst.length + 10 ≤ rs.length) : ∃ c, (run j fs j.start rs).2.1 = .done c := by
  unfold Job.start
  split
  · exact ⟨0, by rw [run_done_eq]⟩
  · cases rs with
    | nil => simp at hl
    | cons r rs =>
      simp only [run]
      have key : ∀ s : FS × Pc × Option (Call × Bool), s = step j fs .mkstemp r →
          s.2.1 ≠ .mkstemp ∧ steps s.2.1 ≤ j.dst.length + 9 := by
        rintro s rfl
        simp only [step]
        split
        · simp [steps]
        · refine ⟨?_, steps_whileWrite ..⟩
          unfold whileWrite; split <;> simp
      obtain ⟨h1, h2⟩ := key _ rfl
      apply run_done _ _ _ _ (fun r hm => hr r (List.mem_cons_of_mem _ hm)) h1
      simp at hl; omega

/-- A `write(2)` returning 0 forever keeps the loop going; the claim above needs its
hypothesis. -/
theorem filewrite_zero_writes (j : Job) (fs : FS) (tmp : Path) (ino : Ino) (c : Char)
    (rem : List Char) (n : Nat) :
    (run j fs (.write tmp ino (c :: rem)) (List.replicate n { n := 0 })).2.1 =
      .write tmp ino (c :: rem) := by
  induction n generalizing fs with
  | zero => rfl
  | succ n ih =>
    rw [List.replicate_succ]
    simp only [run, step, whileWrite]
    simpa using ih _

/-- C07: after a successful rewrite the path has the formatted content, the owner and
group of the original and its mode, up to set-id bits cleared by the kernel. -/
theorem filewrite_attr (j : Job) (fs : FS) (rs : List Reply) (ho : Opened fs j)
    (hne : j.src ≠ j.dst) (hd : (run j fs j.start rs).2.1 = .done 0) :
    ∃ f a, fs.lookup j.path = some f ∧
      (run j fs j.start rs).1.lookup j.path = some ⟨j.dst, a⟩ ∧
      a.uid = f.attr.uid ∧ a.gid = f.attr.gid ∧
      (a.mode = f.attr.mode ∨ a.mode = clearSetid f.attr.mode) := by
  have hfd : (fs.files j.fd).isSome := by obtain ⟨_, a, h⟩ := ho; simp [h]
  have h := inv_run rs hfd (inv_start j fs)
  rw [List.nil_append, hd] at h
  rcases h.2 with ⟨he, _⟩ | ⟨_, h⟩
  · exact absurd he hne
  · obtain ⟨a, ha, f, hf, h1, h2, h3⟩ := replaced_lookup h
    refine ⟨f, a, ?_, ha, h1, h2, h3⟩
    rw [FS.lookup, ho.1, Option.bind_some, hf]

/-- C07: a file without set-id bits keeps its attributes exactly. -/
theorem filewrite_attr_exact_partial (j : Job) (fs : FS) (rs : List Reply) (ho : Opened fs j)
    (hne : j.src ≠ j.dst) (hd : (run j fs j.start rs).2.1 = .done 0) (f : File)
    (hf : fs.lookup j.path = some f) (hs : clearSetid f.attr.mode = f.attr.mode) :
    (run j fs j.start rs).1.lookup j.path = some ⟨j.dst, f.attr⟩ := by
  obtain ⟨g, a, hg, ha, h1, h2, h3⟩ := filewrite_attr j fs rs ho hne hd
  rw [hf] at hg
  simp at hg; subst hg
  rw [hs, or_self] at h3
  rw [ha]
  cases a; cases hfa : f.attr
  simp_all

/-! ### A concrete run -/

/-- A file `d/f` with content `ab`, owned by 1000:100, mode 644. -/
def exFs : FS where
  dir p := if p = "d/f".toList then some (.file 7) else none
  files i := if i = 7 then some ⟨"ab".toList, ⟨0o100644, 1000, 100⟩⟩ else none

def exJob : Job := { path := "d/f".toList, src := "ab".toList, dst := "abc".toList, fd := 7 }

/-- A call that succeeds. -/
def ok : Reply := {}

/-- Short writes, success everywhere. -/
def exReplies : List Reply :=
  [{ suffix := "12345678".toList, ino := 9 }, { n := 1 }, { n := 2 }, ok, ok, ok, ok, ok, ok]

/-- The hypotheses are satisfiable, and the run has the expected effects. -/
example : Opened exFs exJob := ⟨by decide, ⟨0o100644, 1000, 100⟩, by decide⟩

example : (run exJob exFs exJob.start exReplies).2.1 = .done 0 ∧
    (run exJob exFs exJob.start exReplies).1.lookup "d/f".toList =
      some ⟨"abc".toList, ⟨0o100644, 1000, 100⟩⟩ ∧
    (run exJob exFs exJob.start exReplies).1.dir "d/.f.12345678".toList = none := by
  decide

/-- Failure of the rename: error, original kept, temporary file removed. -/
example : (run exJob exFs exJob.start (exReplies.take 7 ++ [{ fail := true }, ok, ok])).2.1 = .done 1 ∧
    (run exJob exFs exJob.start (exReplies.take 7 ++ [{ fail := true }, ok, ok])).1.lookup "d/f".toList =
      some ⟨"ab".toList, ⟨0o100644, 1000, 100⟩⟩ ∧
    (run exJob exFs exJob.start (exReplies.take 7 ++ [{ fail := true }, ok, ok])).1.dir
      "d/.f.12345678".toList = none := by
  decide

/-- C07 is false with set-id bits: `fchmod` is called before `fchown`, which clears
them. The full statement fails on this run. -/
theorem filewrite_setid_lost :
    ∃ (j : Job) (fs : FS) (rs : List Reply) (f : File), Opened fs j ∧ j.src ≠ j.dst ∧
      (run j fs j.start rs).2.1 = .done 0 ∧ fs.lookup j.path = some f ∧
      (run j fs j.start rs).1.lookup j.path ≠ some ⟨j.dst, f.attr⟩ := by
  refine ⟨exJob, ⟨exFs.dir, fun i =>
      if i = 7 then some ⟨"ab".toList, ⟨0o104755, 1000, 100⟩⟩ else none⟩,
    [{ suffix := "12345678".toList, ino := 9 }, { n := 3 }, ok, ok, ok, { clears := true }, ok, ok],
    ⟨"ab".toList, ⟨0o104755, 1000, 100⟩⟩, ?_⟩
  exact ⟨⟨by decide, ⟨0o104755, 1000, 100⟩, by decide⟩, by decide, by decide, by decide, by decide⟩

/-- In-place formatting through a symbolic link replaces the link by a regular file;
the file it led to keeps the original content. -/
theorem filewrite_symlink (j : Job) (fs : FS) (rs : List Reply) (ho : Opened fs j) (t : Path)
    (_hs : fs.dir j.path = some (.symlink t)) (hne : j.src ≠ j.dst)
    (hd : (run j fs j.start rs).2.1 = .done 0) :
    (∃ i, (run j fs j.start rs).1.dir j.path = some (.file i)) ∧
      (run j fs j.start rs).1.files j.fd = fs.files j.fd := by
  have hfd : (fs.files j.fd).isSome := by obtain ⟨_, a, h⟩ := ho; simp [h]
  have h := inv_run rs hfd (inv_start j fs)
  rw [List.nil_append, hd] at h
  rcases h.2 with ⟨he, _⟩ | ⟨_, ino, a, hfr, hdir, hfi, _⟩
  · exact absurd he hne
  · refine ⟨⟨ino, by rw [hdir, if_pos rfl]⟩, ?_⟩
    apply hfi
    rintro rfl
    rw [hfr] at hfd; simp at hfd

example : Opened ⟨fun p => if p = "l".toList then some (.symlink "d/f".toList) else exFs.dir p,
    exFs.files⟩ { exJob with path := "l".toList } :=
  ⟨by decide, ⟨0o100644, 1000, 100⟩, by decide⟩

/-! ## C05, C06 -/

/-- One file on its own, in a fresh process: new world and status. -/
def alone (op : Options) (fmt : Path → List Char → Option (List Char)) (w : World) (a : Arg) :
    Option (World × Nat) :=
  (fileformat op fmt w ⟨[], []⟩ a).map (fun r => (r.1, r.2.2))

/-- Formatting files one after the other, each in a process of its own, remembering
whether one of them failed. -/
def oneByOne (op : Options) (fmt : Path → List Char → Option (List Char)) :
    World → List Arg → Option (World × List Nat)
  | w, [] => some (w, [])
  | w, a :: as =>
    match alone op fmt w a with
    | none => none
    | some (w, code) => (oneByOne op fmt w as).map (fun r => (r.1, code :: r.2))

/-- C05: a run over several files does what separate runs over each of them do, in
order, whether or not earlier ones failed; the exit status is non-zero if and only if
that of one of them is. -/
theorem fileLoop_oneByOne (op : Options) (fmt : Path → List Char → Option (List Char)) (w : World)
    (e : Nat) (as : List Arg) :
    (fileLoop op fmt w ⟨[], []⟩ e as).map (fun r => (r.1, r.2.2)) =
      (oneByOne op fmt w as).map
        (fun r => (r.1, if r.2.all (· = 0) then e else 1)) := by
  induction as generalizing w e with
  | nil => simp [fileLoop, oneByOne]
  | cons a as ih =>
    simp only [fileLoop, oneByOne, alone]
    cases fileformat op fmt w ⟨[], []⟩ a with
    | none => rfl
    | some r =>
      obtain ⟨w1, c1, code⟩ := r
      simp only [Option.map_some]
      rw [ih]
      cases oneByOne op fmt w1 as with
      | none => rfl
      | some r =>
        simp only [Option.map_some, Option.map_some, Option.some.injEq, Prod.mk.injEq, true_and,
          List.all_cons]
        by_cases hc : code = 0
        · simp [hc]
        · simp [hc]

/-- C05: as `fileLoop_oneByOne`, for the whole program. -/
theorem main_exit_status (op : Options) (fmt : Path → List Char → Option (List Char)) (w w' : World)
    (args : List Arg) (stdin : Arg) (code : Nat) (hop : op.diffparse = false) (hargs : args ≠ [])
    (h : main op true fmt args stdin none w = some (w', code)) :
    ∃ codes, oneByOne op fmt w args = some (w', codes) ∧ codes.length = args.length ∧
      (code = 0 ↔ ∀ c ∈ codes, c = 0) ∧ (code = 0 ∨ code = 1) := by
  have hl : args.length ≠ 0 := by simpa using hargs
  have hfl : filelist op args stdin none = some args := by simp [filelist, hop, hl]
  unfold main at h
  simp [hop, hl, hfl] at h
  obtain ⟨c1, h⟩ := h
  have := fileLoop_oneByOne op fmt w 0 args
  rw [h] at this
  cases ho : oneByOne op fmt w args with
  | none => rw [ho] at this; simp at this
  | some r =>
    obtain ⟨w2, codes⟩ := r
    rw [ho] at this
    simp only [Option.map_some, Option.some.injEq, Prod.mk.injEq] at this
    refine ⟨codes, by rw [this.1], ?_, ?_, ?_⟩
    · clear this h hfl hl hargs
      induction args generalizing w codes w2 with
      | nil => simp [oneByOne] at ho; simp [ho.2]
      | cons a as ih =>
        simp only [oneByOne] at ho
        split at ho
        · simp at ho
        · next w3 c3 _ =>
          cases hr : oneByOne op fmt w3 as with
          | none => rw [hr] at ho; simp at ho
          | some r =>
            rw [hr] at ho; simp at ho
            rw [← ho.2]; simp
            exact ih w3 _ _ hr
    · rw [this.2]; simp
    · rw [this.2]; split <;> simp

/-- The status of one file: what it means to fail, per mode. -/
theorem alone_status (op : Options) (fmt : Path → List Char → Option (List Char)) (w w' : World)
    (a : Arg) (code : Nat) (h : alone op fmt w a = some (w', code)) :
    code = 0 ↔ ∃ i f text, w.fs.resolve 40 a.path = some i ∧ w.fs.files i = some f ∧ a.readFail = none ∧
      fmt a.path f.data = some text ∧
      (if op.diff then text = f.data
       else if op.inplace then
        text = f.data ∧ w' = w ∨ text ≠ f.data ∧ ∃ at', w'.fs.lookup a.path = some ⟨text, at'⟩ ∧
          w' = { w with fs := w'.fs } ∧ ∀ c, (c, true) ∈
            (run ⟨a.path, f.data, text, i⟩ w.fs .mkstemp a.replies).2.2 → c = .close
       else w' = { w with out := w.out ++ text } ∧
        (printRun w.out (printLoop text) a.replies).2 = .done 0) := by
  unfold alone fileformat at h
  cases hr : w.fs.resolve 40 a.path with
  | none =>
    simp [fileRead, hr] at h
    simp [← h.2]
  | some i =>
    cases hf : w.fs.files i with
    | none =>
      simp [fileRead, hr, hf] at h
      simp [← h.2, hf]
    | some f =>
      cases hrf : a.readFail with
      | some n =>
        simp [fileRead, hr, hf, hrf] at h
        simp [← h.2]
      | none =>
        simp only [fileRead, hr, hf, hrf, List.nil_append] at h
        cases ht : fmt a.path f.data with
        | none =>
          simp [ht] at h
          simp [← h.2, hf, ht]
        | some text =>
          simp only [ht] at h
          have ho : Opened w.fs ⟨a.path, f.data, text, i⟩ := ⟨hr, f.attr, hf⟩
          constructor
          · rintro rfl
            refine ⟨i, f, text, rfl, hf, rfl, ht, ?_⟩
            by_cases hd : op.diff
            · simp only [hd, if_true] at h ⊢
              split at h
              · next he => exact he.symm
              · simp at h
            · by_cases hi : op.inplace
              · simp only [hd, hi, if_true, if_false, Bool.false_eq_true] at h ⊢
                split at h
                · next code hdone =>
                  simp only [Option.map_some, Option.some.injEq, Prod.mk.injEq] at h
                  obtain ⟨hw, rfl⟩ := h
                  by_cases he : text = f.data
                  · left
                    refine ⟨he, ?_⟩
                    rw [← hw, filewrite_unchanged _ _ _ he.symm]
                  · right
                    refine ⟨he, ?_⟩
                    obtain ⟨at', ha⟩ := filewrite_changed _ _ _ ho (fun hh => he hh.symm) hdone
                    refine ⟨at', by rw [← hw]; exact ha, by rw [← hw], ?_⟩
                    intro c hc
                    have := (filewrite_error_iff _ _ _ ho 0 hdone).2
                    simp only [Nat.zero_ne_one, false_iff, not_exists, not_and, ne_eq,
                      Decidable.not_not] at this
                    apply this
                    rw [Job.start, if_neg (fun hh => he hh.symm)]
                    exact hc
                · simp at h
              · simp only [hd, hi, if_false, Bool.false_eq_true] at h ⊢
                split at h
                · next code hdone =>
                  simp only [Option.map_some, Option.some.injEq, Prod.mk.injEq] at h
                  obtain ⟨hw, rfl⟩ := h
                  refine ⟨?_, hdone⟩
                  rw [← hw, (fileprint_prefix w.out text a.replies).2 hdone]
                · simp at h
          · rintro ⟨i', f', text', hi', hf', _, ht', hx⟩
            simp at hi'; subst hi'
            rw [hf] at hf'; simp at hf'; subst hf'
            rw [ht] at ht'; simp at ht'; subst ht'
            by_cases hd : op.diff
            · simp only [hd, if_true] at h hx
              rw [if_pos hx.symm] at h
              simp at h; exact h.2.symm
            · by_cases hi : op.inplace
              · simp only [hd, hi, if_true, if_false, Bool.false_eq_true] at h hx
                rcases hx with ⟨he, _⟩ | ⟨he, _, _, _, hc⟩
                · rw [filewrite_unchanged _ _ _ he.symm] at h
                  simp at h; exact h.2.symm
                · split at h
                  · next code hdone =>
                    simp only [Option.map_some, Option.some.injEq, Prod.mk.injEq] at h
                    obtain ⟨_, rfl⟩ := h
                    have := filewrite_error_iff _ _ _ ho _ hdone
                    rcases this.1 with h0 | h1
                    · exact h0
                    · obtain ⟨c, hm, hne⟩ := this.2.mp h1
                      rw [Job.start, if_neg (fun hh => he hh.symm)] at hm
                      exact absurd (hc c hm) hne
                  · simp at h
              · simp only [hd, hi, if_false, Bool.false_eq_true] at h hx
                rw [hx.2] at h
                simp at h; exact h.2.symm

/-- C06: diff output takes precedence over in-place rewriting, which takes precedence
over printing; each mode has only its own effect. -/
theorem alone_mode (op : Options) (fmt : Path → List Char → Option (List Char)) (w w' : World)
    (a : Arg) (code : Nat) (h : alone op fmt w a = some (w', code)) :
    (op.diff → w'.fs = w.fs ∧ w'.out = w.out) ∧
    (¬ op.diff → op.inplace → w'.out = w.out ∧ w'.diffs = w.diffs) ∧
    (¬ op.diff → ¬ op.inplace → w'.fs = w.fs ∧ w'.diffs = w.diffs) := by
  unfold alone fileformat at h
  split at h
  · simp at h; simp [← h.1]
  · split at h
    · simp at h; simp [← h.1]
    · by_cases hd : op.diff
      · simp only [hd, if_true] at h
        split at h <;> simp at h <;> simp [hd, ← h.1]
      · by_cases hi : op.inplace
        · simp only [hd, hi, if_true, if_false, Bool.false_eq_true] at h
          split at h
          · simp at h; simp [hd, hi, ← h.1]
          · simp at h
        · simp only [hd, hi, if_false, Bool.false_eq_true] at h
          split at h
          · simp at h; simp [hd, hi, ← h.1]
          · simp at h

/-- C06: a file that cannot be read or is rejected has no effect in any mode and
fails. -/
theorem alone_rejected (op : Options) (fmt : Path → List Char → Option (List Char)) (w : World)
    (a : Arg) (h : ∀ f, w.fs.lookup a.path = some f → a.readFail ≠ none ∨ fmt a.path f.data = none) :
    alone op fmt w a = some (w, 1) := by
  unfold alone fileformat
  cases hr : w.fs.resolve 40 a.path with
  | none => simp [fileRead, hr]
  | some i =>
    cases hf : w.fs.files i with
    | none => simp [fileRead, hr, hf]
    | some f =>
      have hl : w.fs.lookup a.path = some f := by rw [FS.lookup, hr, Option.bind_some, hf]
      cases hrf : a.readFail with
      | some n => simp [fileRead, hr, hf, hrf]
      | none =>
        have := h f hl
        simp [hrf] at this
        simp [fileRead, hr, hf, hrf, this]

/-- C03: a file that is formatted already is left alone in diff and in-place mode, and
counts as a success. -/
theorem alone_unchanged (op : Options) (fmt : Path → List Char → Option (List Char)) (w : World)
    (a : Arg) (f : File) (hl : w.fs.lookup a.path = some f) (hr : a.readFail = none)
    (ht : fmt a.path f.data = some f.data) (hm : op.diff = true ∨ op.inplace = true) :
    alone op fmt w a = some (w, 0) := by
  unfold FS.lookup at hl
  cases hi : w.fs.resolve 40 a.path with
  | none => simp [hi] at hl
  | some i =>
    simp [hi] at hl
    unfold alone fileformat
    simp only [fileRead, hi, hl, hr, List.nil_append, ht]
    by_cases hd : op.diff
    · simp [hd]
    · have hp : op.inplace = true := by simpa [hd] using hm
      simp only [hd, hp, if_true, if_false, Bool.false_eq_true]
      rw [filewrite_unchanged _ _ _ rfl]
      rfl

/-- C03, C05: in diff mode a file whose formatting differs has its diff printed (if the
processes involved work) and counts as a failure. -/
theorem alone_diff (op : Options) (fmt : Path → List Char → Option (List Char)) (w : World)
    (a : Arg) (f : File) (text : List Char) (hl : w.fs.lookup a.path = some f)
    (hr : a.readFail = none) (ht : fmt a.path f.data = some text) (hne : f.data ≠ text)
    (hm : op.diff = true) :
    alone op fmt w a =
      some ({ w with diffs := w.diffs ++ if a.diffOk then [(a.path, f.data, text)] else [] }, 1) := by
  unfold FS.lookup at hl
  cases hi : w.fs.resolve 40 a.path with
  | none => simp [hi] at hl
  | some i =>
    simp [hi] at hl
    unfold alone fileformat
    simp [fileRead, hi, hl, hr, ht, hm, hne]

/-- C06: misuse of the options, an unreadable configuration and an unusable diff have no
effect and give a non-zero status. -/
theorem main_usage (op : Options) (styleOk : Bool) (fmt : Path → List Char → Option (List Char))
    (w : World) (args : List Arg) (stdin : Arg) (d : Option (List Arg))
    (h : (op.diffparse = true ∧ args ≠ []) ∨
      (op.diffparse = false ∧ op.inplace = true ∧ args = []) ∨ styleOk = false ∨
      (op.diffparse = true ∧ d = none)) :
    main op styleOk fmt args stdin d w = some (w, 1) := by
  unfold main
  split
  · rfl
  · next hn =>
    split
    · rfl
    · next hs =>
      simp only [not_or, not_and] at hn
      rcases h with ⟨h1, h2⟩ | ⟨h1, h2, h3⟩ | h | ⟨h1, h2⟩
      · exfalso; apply hn.1 h1
        exact List.length_pos_iff.mpr h2
      · exfalso; apply hn.2 (by simp [h1]) h2; simp [h3]
      · simp [h] at hs
      · simp [filelist, h1, h2]

/-- A run over three files, the first missing: the others are formatted, status 1. -/
example :
    let w : World := ⟨exFs, [], []⟩
    let a : Arg := { path := "d/f".toList, replies := exReplies }
    let fmt := fun (_ : Path) (s : List Char) => some (s ++ "c".toList)
    (main { inplace := true } true fmt [{ path := "x".toList }, a] a none w).map (·.2) = some 1 ∧
    ((main { inplace := true } true fmt [{ path := "x".toList }, a] a none w).bind
      (fun r => r.1.fs.lookup "d/f".toList)) = some ⟨"abc".toList, ⟨0o100644, 1000, 100⟩⟩ := by
  decide

end Knfmt.Io
