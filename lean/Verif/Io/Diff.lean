import Verif.Io.Model
/-!
# knfmt.c, libks/tmp.c: showing a diff (C82)

`filediff` makes one system call per step, as `filewrite` does in Io/Model. The operating system may fail any
call and write fewer bytes than asked for.
-/
namespace Knfmt.Io

/-- The file system, the offsets of open files, the files opened and not closed, and what diff(1) was run on:
the name and both texts. -/
structure DSys where
  fs : FS
  off : Ino → Nat
  opened : List Ino
  shown : List (Path × List Char × List Char)

/-- Where `filediff`, knfmt.c:247-297, or the function `KS_tmpfd` called by it, libks/tmp.c:27-73, is. `made`
are the files made so far. -/
inductive DPc where
  | mkstemp (made : List Ino)
  | unlink (made : List Ino) (tmp : Path) (ino : Ino)
  | write (made : List Ino) (ino : Ino) (rem : List Char)
  | lseek (made : List Ino) (ino : Ino)
  | errClose (made : List Ino) (ino : Ino)
  | fork (s d : Ino)
  | exec (s d : Ino)
  | waitpid (s d : Ino)
  | close (fds : List Ino)
  | done (code : Nat)
deriving DecidableEq, Repr

/-- The calls made, for traces. -/
inductive DCall where
  | mkstemp | unlink | write | lseek | close | fork | exec | waitpid
deriving DecidableEq, Repr

/-- The text for the next file: the source first, knfmt.c:260-266. -/
def Job.next (j : Job) (made : List Ino) : List Char := if made = [] then j.src else j.dst

/-- `snprintf` and `mkstemp`, libks/tmp.c:37-43. -/
def tmpfdName (suffix : List Char) : Path :=
  ['/', 't', 'm', 'p', '/', 'l', 'i', 'b', 'k', 's', '.'] ++ suffix

/-- knfmt.c:257-258. -/
def Job.diffStart (j : Job) : DPc := if j.src = j.dst then .done 0 else .mkstemp []

/-- knfmt.c:290-296: close what is open, return 1. -/
def closeLoop (fds : List Ino) : DPc := if fds = [] then .done 1 else .close fds

/-- The head of the loop, libks/tmp.c:49. -/
def tmpfdLoop (made : List Ino) (ino : Ino) (rem : List Char) : DPc :=
  if rem.length > 0 then .write made ino rem else .lseek made ino

/-- After a file was made, knfmt.c:262-268. -/
def diffNext (made : List Ino) (ino : Ino) : DPc :=
  match made with
  | [] => .mkstemp [ino]
  | s :: _ => .fork s ino

/-- What diff(1) reads from `/dev/fd/N`, which may share the offset with the descriptor. -/
def DSys.content (s : DSys) (i : Ino) : List Char :=
  match s.fs.files i with
  | none => []
  | some f => f.data.drop (s.off i)

/-- One system call. That `/dev/fd/N` fits in the buffer, libks/tmp.c:61-65, is not checked. The child is
taken to read the files before the parent goes on; it has descriptors of its own. -/
def diffStep (j : Job) (s : DSys) (pc : DPc) (r : Reply) : DSys × DPc × Option (DCall × Bool) :=
  match pc with
  | .mkstemp made =>
    -- libks/tmp.c:41-45
    if r.fail ∨ r.suffix.length ≠ 8 ∨ '/' ∈ r.suffix ∨ (s.fs.dir (tmpfdName r.suffix)).isSome ∨
        (s.fs.files r.ino).isSome then
      (s, closeLoop made, some (.mkstemp, true))
    else
      ({ s with
          fs := (s.fs.setDir (tmpfdName r.suffix) (some (.file r.ino))).setFile r.ino ⟨[], r.attr⟩
          off := fun i => if i = r.ino then 0 else s.off i
          opened := s.opened ++ [r.ino] },
        .unlink made (tmpfdName r.suffix) r.ino, some (.mkstemp, false))
  | .unlink made tmp ino =>
    -- libks/tmp.c:46-47
    if r.fail then (s, .errClose made ino, some (.unlink, true))
    else ({ s with fs := s.fs.setDir tmp none }, tmpfdLoop made ino (j.next made), some (.unlink, false))
  | .write made ino rem =>
    -- libks/tmp.c:49-57
    if r.fail then (s, .errClose made ino, some (.write, true))
    else
      ({ s with
          fs := s.fs.modify ino (fun f => { f with data := f.data ++ rem.take r.n })
          off := fun i => if i = ino then s.off ino + (rem.take r.n).length else s.off i },
        tmpfdLoop made ino (rem.drop r.n), some (.write, false))
  | .lseek made ino =>
    -- libks/tmp.c:58-59
    if r.fail then (s, .errClose made ino, some (.lseek, true))
    else ({ s with off := fun i => if i = ino then 0 else s.off i }, diffNext made ino, some (.lseek, false))
  | .errClose made ino =>
    -- libks/tmp.c:70-72, then knfmt.c:262 or 266
    ({ s with opened := s.opened.erase ino }, closeLoop made, some (.close, r.fail))
  | .fork a b =>
    -- knfmt.c:269-273
    if r.fail then (s, closeLoop [a, b], some (.fork, true)) else (s, .exec a b, some (.fork, false))
  | .exec a b =>
    -- knfmt.c:274-283
    if r.fail then (s, .waitpid a b, some (.exec, true))
    else ({ s with shown := s.shown ++ [(j.path, s.content a, s.content b)] }, .waitpid a b, some (.exec, false))
  | .waitpid a b => (s, closeLoop [a, b], some (.waitpid, r.fail))   -- knfmt.c:285-288
  | .close [] => (s, .done 1, none)
  | .close (i :: fds) =>
    -- knfmt.c:291-294
    ({ s with opened := s.opened.erase i }, closeLoop fds, some (.close, r.fail))
  | .done code => (s, .done code, none)

/-- Run against a list of replies. -/
def diffRun (j : Job) : DSys → DPc → List Reply → DSys × DPc × List (DCall × Bool)
  | s, pc, [] => (s, pc, [])
  | s, pc, r :: rs =>
    let t := diffStep j s pc r
    let u := diffRun j t.1 t.2.1 rs
    (u.1, u.2.1, t.2.2.toList ++ u.2.2)

/-! ## The invariant -/

/-- The descriptors open at a point. -/
def DPc.fds : DPc → List Ino
  | .mkstemp made => made
  | .unlink made _ ino | .write made ino _ | .lseek made ino | .errClose made ino => made ++ [ino]
  | .fork s d | .exec s d | .waitpid s d => [s, d]
  | .close fds => fds
  | .done _ => []

/-- The file has the text and is read from its beginning. -/
def Complete (s : DSys) (i : Ino) (text : List Char) : Prop :=
  ∃ f, s.fs.files i = some f ∧ f.data = text ∧ s.off i = 0

/-- The files made so far, knfmt.c:260-268. -/
def MadeOk (j : Job) (s : DSys) : List Ino → Prop
  | [] => True
  | [a] => Complete s a j.src
  | _ => False

/-- What is known at a point. -/
def PcOk (j : Job) (s0 s : DSys) : DPc → Prop
  | .mkstemp made => MadeOk j s made ∧ s.shown = s0.shown
  | .unlink made tmp ino => MadeOk j s made ∧ s.shown = s0.shown ∧ (s0.fs.dir tmp = none ∧ ∃ x, tmp = tmpfdName x) ∧ ino ∉ made ∧
      (∃ f, s.fs.files ino = some f ∧ f.data = []) ∧ s.off ino = 0
  | .write made ino rem => MadeOk j s made ∧ s.shown = s0.shown ∧ ino ∉ made ∧ rem ≠ [] ∧
      ∃ f, s.fs.files ino = some f ∧ f.data ++ rem = j.next made
  | .lseek made ino => MadeOk j s made ∧ s.shown = s0.shown ∧ ino ∉ made ∧
      ∃ f, s.fs.files ino = some f ∧ f.data = j.next made
  | .errClose made _ => MadeOk j s made ∧ s.shown = s0.shown
  | .fork a b | .exec a b => Complete s a j.src ∧ Complete s b j.dst ∧ s.shown = s0.shown
  | .waitpid _ _ | .close _ | .done _ => s.shown = s0.shown ∨ s.shown = s0.shown ++ [(j.path, j.src, j.dst)]

structure DInv (j : Job) (s0 s : DSys) (pc : DPc) : Prop where
  ok : PcOk j s0 s pc
  dir : ∀ p, s.fs.dir p = s0.fs.dir p ∨ (s0.fs.dir p = none ∧ ∃ x, p = tmpfdName x)
  files : ∀ i f, s0.fs.files i = some f → s.fs.files i = some f
  opened : s.opened.Perm (s0.opened ++ pc.fds)
  fresh : ∀ i ∈ pc.fds, s0.fs.files i = none

theorem closeLoop_fds (l : List Ino) : (closeLoop l).fds = l := by
  unfold closeLoop; split
  · next h => rw [h]; rfl
  · rfl

theorem closeLoop_ok {j : Job} {s0 s : DSys} (l : List Ino)
    (h : s.shown = s0.shown ∨ s.shown = s0.shown ++ [(j.path, j.src, j.dst)]) : PcOk j s0 s (closeLoop l) := by
  unfold closeLoop; split <;> exact h

theorem tmpfdLoop_fds (made : List Ino) (ino : Ino) (rem : List Char) :
    (tmpfdLoop made ino rem).fds = made ++ [ino] := by unfold tmpfdLoop; split <;> rfl

theorem diffNext_fds {j : Job} {s : DSys} {made : List Ino} {ino : Ino} (h : MadeOk j s made) :
    (diffNext made ino).fds = made ++ [ino] := by
  cases made with
  | nil => rfl
  | cons a l =>
    cases l with
    | nil => rfl
    | cons b l => exact h.elim

theorem madeOk_of {j : Job} {s s' : DSys} {made : List Ino} (h : MadeOk j s made)
    (he : ∀ i ∈ made, s'.fs.files i = s.fs.files i ∧ s'.off i = s.off i) : MadeOk j s' made := by
  cases made with
  | nil => trivial
  | cons a l =>
    cases l with
    | nil =>
      obtain ⟨f, h1, h2, h3⟩ := h
      obtain ⟨e1, e2⟩ := he a (by simp)
      exact ⟨f, e1.trans h1, h2, e2.trans h3⟩
    | cons b l => exact h.elim

theorem content_complete {s : DSys} {i : Ino} {t : List Char} (h : Complete s i t) : s.content i = t := by
  obtain ⟨f, h1, h2, h3⟩ := h
  simp [DSys.content, h1, h2, h3]

theorem perm_erase_last {a b : List Ino} {l made : List Ino} {x : Ino} (h : l.Perm (a ++ (made ++ [x])))
    (hb : b = l.erase x) : b.Perm (a ++ made) := by
  rw [hb]
  have h1 : l.Perm (x :: (a ++ made)) := by
    refine h.trans ?_
    rw [← List.append_assoc]
    exact List.perm_append_comm
  exact (h1.erase x).trans (by rw [List.erase_cons_head])

theorem perm_erase_first {a b : List Ino} {l rest : List Ino} {x : Ino} (h : l.Perm (a ++ x :: rest))
    (hb : b = l.erase x) : b.Perm (a ++ rest) := by
  rw [hb]
  have h1 : l.Perm (x :: (a ++ rest)) := h.trans List.perm_middle
  exact (h1.erase x).trans (by rw [List.erase_cons_head])

theorem modify_other {fs : FS} {i k : Ino} {g : File → File} (h : k ≠ i) : (fs.modify i g).files k = fs.files k := by
  unfold FS.modify
  split
  · rfl
  · simp [FS.setFile, h]

theorem modify_self {fs : FS} {i : Ino} {g : File → File} {f : File} (h : fs.files i = some f) :
    (fs.modify i g).files i = some (g f) := by
  unfold FS.modify
  rw [h]
  simp [FS.setFile]

theorem modify_dir {fs : FS} {i : Ino} {g : File → File} : (fs.modify i g).dir = fs.dir := by
  unfold FS.modify
  split <;> rfl

theorem tmpfdLoop_ok {j : Job} {s0 s : DSys} {made : List Ino} {ino : Ino} {rem : List Char} {f : File}
    (h1 : MadeOk j s made) (h2 : s.shown = s0.shown) (h3 : ino ∉ made) (h4 : s.fs.files ino = some f)
    (h5 : f.data ++ rem = j.next made) : PcOk j s0 s (tmpfdLoop made ino rem) := by
  unfold tmpfdLoop
  split
  · next h => exact ⟨h1, h2, h3, List.length_pos_iff.mp h, f, h4, h5⟩
  · next h =>
    have : rem = [] := by
      cases rem with
      | nil => rfl
      | cons c r => simp at h
    subst this
    exact ⟨h1, h2, h3, f, h4, by simpa using h5⟩

/-- The invariant is kept by every call, whatever the operating system answers. -/
theorem DInv.step {j : Job} {s0 s : DSys} {pc : DPc} (h : DInv j s0 s pc) (r : Reply) :
    DInv j s0 (diffStep j s pc r).1 (diffStep j s pc r).2.1 := by
  obtain ⟨hp, hdir, hf, ho, hfr⟩ := h
  cases pc with
  | mkstemp made =>
    simp only [diffStep]
    split
    · exact ⟨closeLoop_ok _ (Or.inl hp.2), hdir, hf, by rw [closeLoop_fds]; exact ho, by rw [closeLoop_fds]; exact hfr⟩
    · next hn =>
      simp only [not_or, Option.not_isSome_iff_eq_none] at hn
      obtain ⟨-, -, -, hname, hino⟩ := hn
      have hnm : r.ino ∉ made := by
        intro hm
        obtain ⟨h1, -⟩ := hp
        cases made with
        | nil => cases hm
        | cons a l =>
          cases l with
          | nil =>
            obtain ⟨f, g1, -⟩ := h1
            rw [List.mem_singleton.mp hm] at hino
            rw [hino] at g1; cases g1
          | cons b l => exact h1.elim
      have hne0 : s0.fs.files r.ino = none := by
        cases he : s0.fs.files r.ino with
        | none => rfl
        | some f => rw [hf _ _ he] at hino; cases hino
      refine ⟨⟨madeOk_of hp.1 ?_, hp.2, ?_, hnm, ⟨⟨[], r.attr⟩, by simp [FS.setFile], rfl⟩, by simp⟩, ?_, ?_, ?_, ?_⟩
      · intro i hi
        have : i ≠ r.ino := fun e => hnm (e ▸ hi)
        simp [FS.setFile, FS.setDir, this]
      · refine ⟨?_, _, rfl⟩
        rcases hdir (tmpfdName r.suffix) with h | h
        · rw [← h]; exact hname
        · exact h.1
      · intro p
        by_cases hq : p = tmpfdName r.suffix
        · right
          subst hq
          refine ⟨?_, _, rfl⟩
          rcases hdir (tmpfdName r.suffix) with h | h
          · rw [← h]; exact hname
          · exact h.1
        · simp only [FS.setFile, FS.setDir, if_neg hq]
          exact hdir p
      · intro i f he
        have : i ≠ r.ino := fun e => by rw [e, hne0] at he; cases he
        simp only [FS.setFile, FS.setDir, if_neg this]
        exact hf i f he
      · simp only [DPc.fds] at ho ⊢
        rw [← List.append_assoc]
        exact ho.append_right _
      · intro i hi
        simp only [DPc.fds, List.mem_append, List.mem_singleton] at hi
        rcases hi with hi | rfl
        · exact hfr i hi
        · exact hne0
  | unlink made tmp ino =>
    simp only [diffStep]
    obtain ⟨h1, h2, h3, h4, ⟨f, h5, h6⟩, h7⟩ := hp
    split
    · exact ⟨⟨h1, h2⟩, hdir, hf, ho, hfr⟩
    · refine ⟨tmpfdLoop_ok (f := f) (madeOk_of h1 (fun i hi => ⟨rfl, rfl⟩)) h2 h4 h5 (by rw [h6]; rfl), ?_, hf,
        by rw [tmpfdLoop_fds]; exact ho, by rw [tmpfdLoop_fds]; exact hfr⟩
      intro p
      by_cases hq : p = tmp
      · left
        rw [hq]
        simp [FS.setDir, h3.1]
      · simp only [FS.setDir, if_neg hq]
        exact hdir p
  | write made ino rem =>
    simp only [diffStep]
    obtain ⟨h1, h2, h3, h4, f, h5, h6⟩ := hp
    split
    · exact ⟨⟨h1, h2⟩, hdir, hf, ho, hfr⟩
    · refine ⟨tmpfdLoop_ok (f := { f with data := f.data ++ rem.take r.n }) (madeOk_of h1 ?_) h2 h3 (modify_self h5) ?_, ?_, ?_,
        by rw [tmpfdLoop_fds]; exact ho, by rw [tmpfdLoop_fds]; exact hfr⟩
      · intro i hi
        have : i ≠ ino := fun e => h3 (e ▸ hi)
        exact ⟨modify_other this, if_neg this⟩
      · rw [List.append_assoc, List.take_append_drop, h6]
      · intro p
        show (s.fs.modify ino _).dir p = _ ∨ _
        rw [modify_dir]
        exact hdir p
      · intro i g he
        have : i ≠ ino := fun e => by
          have := hfr ino (by simp [DPc.fds])
          rw [e, this] at he; cases he
        exact (modify_other this).trans (hf i g he)
  | lseek made ino =>
    simp only [diffStep]
    obtain ⟨h1, h2, h3, f, h5, h6⟩ := hp
    split
    · exact ⟨⟨h1, h2⟩, hdir, hf, ho, hfr⟩
    · have hm : MadeOk j { s with off := fun i => if i = ino then 0 else s.off i } made :=
        madeOk_of h1 (fun i hi => ⟨rfl, if_neg (fun e : i = ino => h3 (e ▸ hi))⟩)
      refine ⟨?_, hdir, hf, by rw [diffNext_fds h1]; exact ho, by rw [diffNext_fds h1]; exact hfr⟩
      cases made with
      | nil => exact ⟨⟨f, h5, h6, by simp⟩, h2⟩
      | cons a l =>
        cases l with
        | nil => exact ⟨hm, ⟨f, h5, h6, by simp⟩, h2⟩
        | cons b l => exact h1.elim
  | errClose made ino =>
    simp only [diffStep]
    refine ⟨closeLoop_ok _ (Or.inl hp.2), hdir, hf, ?_, ?_⟩
    · rw [closeLoop_fds]
      exact perm_erase_last ho rfl
    · rw [closeLoop_fds]
      intro i hi
      exact hfr i (by simp [DPc.fds, hi])
  | fork a b =>
    simp only [diffStep]
    split
    · exact ⟨closeLoop_ok (j := j) [a, b] (Or.inl hp.2.2), hdir, hf, by rw [closeLoop_fds]; exact ho, by rw [closeLoop_fds]; exact hfr⟩
    · exact ⟨hp, hdir, hf, ho, hfr⟩
  | exec a b =>
    simp only [diffStep]
    split
    · exact ⟨Or.inl hp.2.2, hdir, hf, ho, hfr⟩
    · refine ⟨Or.inr ?_, hdir, hf, ho, hfr⟩
      show s.shown ++ [(j.path, s.content a, s.content b)] = _
      rw [content_complete hp.1, content_complete hp.2.1, hp.2.2]
  | waitpid a b =>
    simp only [diffStep]
    exact ⟨closeLoop_ok _ hp, hdir, hf, by rw [closeLoop_fds]; exact ho, by rw [closeLoop_fds]; exact hfr⟩
  | close fds =>
    cases fds with
    | nil => exact ⟨hp, hdir, hf, ho, hfr⟩
    | cons i fds =>
      simp only [diffStep]
      refine ⟨closeLoop_ok _ hp, hdir, hf, ?_, ?_⟩
      · rw [closeLoop_fds]
        exact perm_erase_first ho rfl
      · rw [closeLoop_fds]
        intro k hk
        exact hfr k (by simp [DPc.fds, hk])
  | done code => exact ⟨hp, hdir, hf, ho, hfr⟩

theorem DInv.run {j : Job} {s0 s : DSys} {pc : DPc} (h : DInv j s0 s pc) (rs : List Reply) :
    DInv j s0 (diffRun j s pc rs).1 (diffRun j s pc rs).2.1 := by
  induction rs generalizing s pc with
  | nil => exact h
  | cons r rs ih => exact ih (h.step r)

theorem DInv.start (j : Job) (s0 : DSys) : DInv j s0 s0 j.diffStart := by
  unfold Job.diffStart
  split
  · exact ⟨Or.inl rfl, fun _ => Or.inl rfl, fun _ _ h => h, by simp [DPc.fds], fun _ h => by cases h⟩
  · exact ⟨⟨trivial, rfl⟩, fun _ => Or.inl rfl, fun _ _ h => h, by simp [DPc.fds], fun _ h => by cases h⟩

/-- The status is not changed by calls. -/
theorem not_done_zero {j : Job} {s : DSys} {pc : DPc} (r : Reply) (h : pc ≠ .done 0) :
    (diffStep j s pc r).2.1 ≠ .done 0 := by
  have hc : ∀ l, closeLoop l ≠ .done 0 := by intro l; unfold closeLoop; split <;> simp
  have ht : ∀ m i rem, tmpfdLoop m i rem ≠ .done 0 := by intro m i rem; unfold tmpfdLoop; split <;> simp
  have hn : ∀ m i, diffNext m i ≠ .done 0 := by intro m i; unfold diffNext; split <;> simp
  cases pc with
  | mkstemp made => simp only [diffStep]; split <;> simp [hc]
  | unlink made tmp ino => simp only [diffStep]; split <;> simp [ht]
  | write made ino rem => simp only [diffStep]; split <;> simp [ht]
  | lseek made ino => simp only [diffStep]; split <;> simp [hn]
  | errClose made ino => simp [diffStep, hc]
  | fork a b => simp only [diffStep]; split <;> simp [hc]
  | exec a b => simp only [diffStep]; split <;> simp
  | waitpid a b => simp [diffStep, hc]
  | close fds => cases fds <;> simp [diffStep, hc]
  | done code => simpa [diffStep] using h

theorem not_done_zero_run {j : Job} {s : DSys} {pc : DPc} (rs : List Reply) (h : pc ≠ .done 0) :
    (diffRun j s pc rs).2.1 ≠ .done 0 := by
  induction rs generalizing s pc with
  | nil => exact h
  | cons r rs ih => exact ih (not_done_zero r h)

theorem done_run (j : Job) (s : DSys) (code : Nat) (rs : List Reply) :
    diffRun j s (.done code) rs = (s, .done code, []) := by
  induction rs with
  | nil => rfl
  | cons r rs ih => simp [diffRun, diffStep, ih]

/-- **C82.** Whatever the operating system answers and wherever the process is stopped: diff(1) was not run, or
once and on the source and the output, both complete. No file that existed was changed, and no name but those of
temporary files was added. -/
theorem diff_complete (j : Job) (s0 : DSys) (rs : List Reply) :
    ((diffRun j s0 j.diffStart rs).1.shown = s0.shown ∨
      (diffRun j s0 j.diffStart rs).1.shown = s0.shown ++ [(j.path, j.src, j.dst)]) ∧
    (∀ i f, s0.fs.files i = some f → (diffRun j s0 j.diffStart rs).1.fs.files i = some f) ∧
    (∀ p, (diffRun j s0 j.diffStart rs).1.fs.dir p = s0.fs.dir p ∨ (s0.fs.dir p = none ∧
      ∃ x, p = ['/', 't', 'm', 'p', '/', 'l', 'i', 'b', 'k', 's', '.'] ++ x)) := by
  have h := (DInv.start j s0).run rs
  refine ⟨?_, h.files, h.dir⟩
  have hp := h.ok
  cases hpc : (diffRun j s0 j.diffStart rs).2.1 with
  | mkstemp made => rw [hpc] at hp; exact Or.inl hp.2
  | unlink made tmp ino => rw [hpc] at hp; exact Or.inl hp.2.1
  | write made ino rem => rw [hpc] at hp; exact Or.inl hp.2.1
  | lseek made ino => rw [hpc] at hp; exact Or.inl hp.2.1
  | errClose made ino => rw [hpc] at hp; exact Or.inl hp.2
  | fork a b => rw [hpc] at hp; exact Or.inl hp.2.2
  | exec a b => rw [hpc] at hp; exact Or.inl hp.2.2
  | waitpid a b => rw [hpc] at hp; exact hp
  | close fds => rw [hpc] at hp; exact hp
  | done code => rw [hpc] at hp; exact hp

/-- **C82**, the result: 0 exactly if there is nothing to show, and then nothing is done; and all files are closed
again. -/
theorem diff_result (j : Job) (s0 : DSys) (rs : List Reply) (code : Nat)
    (h : (diffRun j s0 j.diffStart rs).2.1 = .done code) :
    (code = 0 ↔ j.src = j.dst) ∧ (j.src = j.dst → (diffRun j s0 j.diffStart rs).1 = s0) ∧
    (diffRun j s0 j.diffStart rs).1.opened.Perm s0.opened := by
  have hi := (DInv.start j s0).run rs
  have ho := hi.opened
  rw [h] at ho
  refine ⟨?_, ?_, by simpa [DPc.fds] using ho⟩
  · constructor
    · intro hc
      by_cases he : j.src = j.dst
      · exact he
      · refine absurd (hc ▸ h) (not_done_zero_run rs ?_)
        unfold Job.diffStart
        rw [if_neg he]
        simp
    · intro he
      unfold Job.diffStart at h
      rw [if_pos he, done_run] at h
      cases h
      rfl
  · intro he
    unfold Job.diffStart
    rw [if_pos he, done_run]

/-! ## If nothing fails -/

/-- Names after calls none of which failed to remove one. -/
def Tidy (s0 s : DSys) : DPc → Prop
  | .unlink _ tmp _ => s0.fs.dir tmp = none ∧ ∀ p, p ≠ tmp → s.fs.dir p = s0.fs.dir p
  | _ => ∀ p, s.fs.dir p = s0.fs.dir p

theorem tidy_other {s0 s : DSys} {pc : DPc} (h : ∀ p, s.fs.dir p = s0.fs.dir p)
    (hn : ∀ m t i, pc ≠ .unlink m t i) : Tidy s0 s pc := by
  cases pc with
  | unlink m t i => exact absurd rfl (hn m t i)
  | _ => exact h

theorem tidy_step {j : Job} {s0 s : DSys} {pc : DPc} (h : Tidy s0 s pc) (r : Reply)
    (hf : (diffStep j s pc r).2.2 ≠ some (.unlink, true)) : Tidy s0 (diffStep j s pc r).1 (diffStep j s pc r).2.1 := by
  have hc : ∀ l m t i, closeLoop l ≠ .unlink m t i := by intro l m t i; unfold closeLoop; split <;> simp
  have ht : ∀ m i rem m' t i', tmpfdLoop m i rem ≠ .unlink m' t i' := by
    intro m i rem m' t i'; unfold tmpfdLoop; split <;> simp
  have hn : ∀ m i m' t i', diffNext m i ≠ .unlink m' t i' := by intro m i m' t i'; unfold diffNext; split <;> simp
  cases pc with
  | mkstemp made =>
    simp only [diffStep]
    split
    · exact tidy_other h (hc _)
    · next hx =>
      simp only [not_or, Option.not_isSome_iff_eq_none] at hx
      refine ⟨?_, ?_⟩
      · rw [← h]; exact hx.2.2.2.1
      · intro p hp
        simp only [FS.setFile, FS.setDir, if_neg hp]
        exact h p
  | unlink made tmp ino =>
    simp only [diffStep] at hf ⊢
    split
    · next hx => simp [hx] at hf
    · refine tidy_other ?_ (ht _ _ _)
      intro p
      by_cases hp : p = tmp
      · subst hp; simp [FS.setDir, h.1]
      · simp only [FS.setDir, if_neg hp]; exact h.2 p hp
  | write made ino rem =>
    simp only [diffStep]
    split
    · exact h
    · refine tidy_other ?_ (ht _ _ _)
      intro p
      show (s.fs.modify ino _).dir p = _
      rw [modify_dir]
      exact h p
  | lseek made ino =>
    simp only [diffStep]
    split
    · exact h
    · exact tidy_other h (hn _ _)
  | errClose made ino => exact tidy_other h (hc _)
  | fork a b =>
    simp only [diffStep]
    split
    · exact tidy_other h (hc [a, b])
    · exact h
  | exec a b =>
    simp only [diffStep]
    split
    · exact h
    · exact h
  | waitpid a b => exact tidy_other h (hc [a, b])
  | close fds =>
    cases fds with
    | nil => exact h
    | cons i fds => exact tidy_other h (hc _)
  | done code => exact h

theorem tidy_run {j : Job} {s0 s : DSys} {pc : DPc} (h : Tidy s0 s pc) (rs : List Reply)
    (hf : (.unlink, true) ∉ (diffRun j s pc rs).2.2) :
    Tidy s0 (diffRun j s pc rs).1 (diffRun j s pc rs).2.1 := by
  induction rs generalizing s pc with
  | nil => exact h
  | cons r rs ih =>
    simp only [diffRun, List.mem_append, Option.mem_toList, not_or] at hf
    exact ih (tidy_step h r hf.1) hf.2

/-- **C82**, temporary files: unless removing one fails, none has a name when the function returns. -/
theorem diff_leaves_nothing (j : Job) (s0 : DSys) (rs : List Reply) (code : Nat)
    (h : (diffRun j s0 j.diffStart rs).2.1 = .done code)
    (hf : (.unlink, true) ∉ (diffRun j s0 j.diffStart rs).2.2) :
    ∀ p, (diffRun j s0 j.diffStart rs).1.fs.dir p = s0.fs.dir p := by
  have h0 : Tidy s0 s0 j.diffStart := by
    refine tidy_other (fun _ => rfl) ?_
    intro m t i
    unfold Job.diffStart
    split <;> simp
  have := tidy_run (j := j) h0 rs hf
  rw [h] at this
  exact this

/-- What is left to be done at a point. -/
def Shown (j : Job) (s0 s : DSys) : DPc → Prop
  | .waitpid _ _ | .close _ => s.shown = s0.shown ++ [(j.path, j.src, j.dst)]
  | .errClose _ _ => False
  | .done c => c = 1 → s.shown = s0.shown ++ [(j.path, j.src, j.dst)]
  | _ => True

theorem shown_step {j : Job} {s0 s : DSys} {pc : DPc} (hi : DInv j s0 s pc) (h : Shown j s0 s pc) (r : Reply)
    (hf : ∀ c, (diffStep j s pc r).2.2 = some (c, true) → c = .close ∨ c = .waitpid) :
    Shown j s0 (diffStep j s pc r).1 (diffStep j s pc r).2.1 := by
  have hc : ∀ (t : DSys) l, t.shown = s0.shown ++ [(j.path, j.src, j.dst)] → Shown j s0 t (closeLoop l) := by
    intro t l ht; unfold closeLoop; split
    · intro _; exact ht
    · exact ht
  have ht : ∀ (t : DSys) m i rem, Shown j s0 t (tmpfdLoop m i rem) := by
    intro t m i rem; unfold tmpfdLoop; split <;> trivial
  have hn : ∀ (t : DSys) m i, Shown j s0 t (diffNext m i) := by
    intro t m i; unfold diffNext; split <;> trivial
  cases pc with
  | mkstemp made =>
    simp only [diffStep] at hf ⊢
    split
    · next hx => simp [hx] at hf
    · trivial
  | unlink made tmp ino =>
    simp only [diffStep] at hf ⊢
    split
    · next hx => simp [hx] at hf
    · exact ht _ _ _ _
  | write made ino rem =>
    simp only [diffStep] at hf ⊢
    split
    · next hx => simp [hx] at hf
    · exact ht _ _ _ _
  | lseek made ino =>
    simp only [diffStep] at hf ⊢
    split
    · next hx => simp [hx] at hf
    · exact hn _ _ _
  | errClose made ino => exact h.elim
  | fork a b =>
    simp only [diffStep] at hf ⊢
    split
    · next hx => simp [hx] at hf
    · trivial
  | exec a b =>
    simp only [diffStep] at hf ⊢
    split
    · next hx => simp [hx] at hf
    · show s.shown ++ [(j.path, s.content a, s.content b)] = _
      rw [content_complete hi.ok.1, content_complete hi.ok.2.1, hi.ok.2.2]
  | waitpid a b => exact hc s [a, b] h
  | close fds =>
    cases fds with
    | nil => exact fun _ => h
    | cons i fds => exact hc _ _ h
  | done code => exact h

theorem shown_run {j : Job} {s0 s : DSys} {pc : DPc} (hi : DInv j s0 s pc) (h : Shown j s0 s pc) (rs : List Reply)
    (hf : ∀ c, (c, true) ∈ (diffRun j s pc rs).2.2 → c = .close ∨ c = .waitpid) :
    Shown j s0 (diffRun j s pc rs).1 (diffRun j s pc rs).2.1 := by
  induction rs generalizing s pc with
  | nil => exact h
  | cons r rs ih =>
    refine ih (hi.step r) (shown_step hi h r ?_) ?_
    · intro c hc
      exact hf c (by simp [diffRun, hc])
    · intro c hc
      exact hf c (by simp [diffRun, hc])

theorem done_one {j : Job} {s : DSys} {pc : DPc} (rs : List Reply) (h : ∀ c, pc = .done c → c = 0 ∨ c = 1) {code : Nat}
    (hd : (diffRun j s pc rs).2.1 = .done code) : code = 0 ∨ code = 1 := by
  induction rs generalizing s pc with
  | nil => exact h code hd
  | cons r rs ih =>
    refine ih ?_ hd
    have hc : ∀ l c, closeLoop l = .done c → c = 0 ∨ c = 1 := by
      intro l c; unfold closeLoop; split
      · intro h; cases h; exact Or.inr rfl
      · intro h; cases h
    have ht : ∀ m i rem c, tmpfdLoop m i rem = .done c → c = 0 ∨ c = 1 := by
      intro m i rem c; unfold tmpfdLoop; split <;> (intro h; cases h)
    have hn : ∀ m i c, diffNext m i = .done c → c = 0 ∨ c = 1 := by
      intro m i c; unfold diffNext; split <;> (intro h; cases h)
    cases pc with
    | mkstemp made => simp only [diffStep]; split <;> first | exact hc _ | (intro c h; cases h)
    | unlink made tmp ino => simp only [diffStep]; split <;> first | exact ht _ _ _ | (intro c h; cases h)
    | write made ino rem => simp only [diffStep]; split <;> first | exact ht _ _ _ | (intro c h; cases h)
    | lseek made ino => simp only [diffStep]; split <;> first | exact hn _ _ | (intro c h; cases h)
    | errClose made ino => exact hc _
    | fork a b => simp only [diffStep]; split <;> first | exact hc _ | (intro c h; cases h)
    | exec a b => simp only [diffStep]; split <;> (intro c h; cases h)
    | waitpid a b => exact hc [a, b]
    | close fds =>
      cases fds with
      | nil => intro c h; cases h; exact Or.inr rfl
      | cons i fds => exact hc _
    | done code' => exact h

/-- **C82**, the other direction: if there is a difference and no call failed but for those that close files or
wait, diff(1) was run on the source and the output. -/
theorem diff_shown (j : Job) (s0 : DSys) (rs : List Reply) (code : Nat) (hne : j.src ≠ j.dst)
    (h : (diffRun j s0 j.diffStart rs).2.1 = .done code)
    (hf : ∀ c, (c, true) ∈ (diffRun j s0 j.diffStart rs).2.2 → c = .close ∨ c = .waitpid) :
    (diffRun j s0 j.diffStart rs).1.shown = s0.shown ++ [(j.path, j.src, j.dst)] := by
  have hs : j.diffStart = .mkstemp [] := by unfold Job.diffStart; rw [if_neg hne]
  have h1 := shown_run (j := j) (DInv.start j s0) (by rw [hs]; trivial) rs hf
  rw [h] at h1
  refine h1 ?_
  rcases done_one rs (by rw [hs]; intro c hc; cases hc) h with rfl | rfl
  · exact absurd ((diff_result j s0 rs 0 h).1.mp rfl) hne
  · rfl

/-! ## The function ends -/

/-- Calls left at a point, if writing makes progress. -/
def DPc.left (j : Job) : DPc → Nat
  | .mkstemp made => if made = [] then j.src.length + j.dst.length + 12 else j.dst.length + 9
  | .unlink made _ _ => if made = [] then j.src.length + j.dst.length + 11 else j.dst.length + 8
  | .write made _ rem => if made = [] then rem.length + j.dst.length + 10 else rem.length + 7
  | .lseek made _ => if made = [] then j.dst.length + 10 else 7
  | .errClose made _ => made.length + 2
  | .fork _ _ => 6
  | .exec _ _ => 5
  | .waitpid _ _ => 4
  | .close fds => fds.length + 1
  | .done _ => 0

theorem closeLoop_left (j : Job) (l : List Ino) : (closeLoop l).left j ≤ l.length + 1 := by
  unfold closeLoop; split
  · exact Nat.zero_le _
  · exact Nat.le_refl _

theorem tmpfdLoop_left (j : Job) (made : List Ino) (i : Ino) (rem : List Char) :
    (tmpfdLoop made i rem).left j = if made = [] then rem.length + j.dst.length + 10 else rem.length + 7 := by
  unfold tmpfdLoop; split
  · rfl
  · next h =>
    have : rem.length = 0 := by omega
    rw [this]
    simp [DPc.left]

theorem left_step {j : Job} {s0 s : DSys} {pc : DPc} (hi : DInv j s0 s pc) (r : Reply) (hn : 0 < r.n)
    (h : 0 < pc.left j) : (diffStep j s pc r).2.1.left j < pc.left j := by
  have hm : ∀ made, MadeOk j s made → made.length ≤ 1 := by
    intro made h
    match made, h with
    | [], _ => simp
    | [a], _ => simp
  cases pc with
  | mkstemp made =>
    have hl := hm made hi.ok.1
    simp only [diffStep]
    split
    · refine Nat.lt_of_le_of_lt (closeLoop_left j made) ?_
      simp only [DPc.left]; split <;> omega
    · simp only [DPc.left]; split <;> omega
  | unlink made tmp ino =>
    have hl := hm made hi.ok.1
    simp only [diffStep]
    split
    · simp only [DPc.left]; split <;> omega
    · rw [tmpfdLoop_left]; simp only [DPc.left, Job.next]; split <;> omega
  | write made ino rem =>
    have hl := hm made hi.ok.1
    have hr : 0 < rem.length := List.length_pos_iff.mpr hi.ok.2.2.2.1
    simp only [diffStep]
    split
    · simp only [DPc.left]; split <;> omega
    · rw [tmpfdLoop_left]; simp only [DPc.left, List.length_drop]; split <;> omega
  | lseek made ino =>
    have hl := hm made hi.ok.1
    simp only [diffStep]
    split
    · simp only [DPc.left]; split <;> omega
    · cases made with
      | nil => simp [diffNext, DPc.left]
      | cons a l => simp [diffNext, DPc.left]
  | errClose made ino =>
    refine Nat.lt_of_le_of_lt (closeLoop_left j made) ?_
    simp only [DPc.left]; omega
  | fork a b => simp only [diffStep]; split <;> simp [closeLoop, DPc.left]
  | exec a b => simp only [diffStep]; split <;> simp [DPc.left]
  | waitpid a b => simp [diffStep, closeLoop, DPc.left]
  | close fds =>
    cases fds with
    | nil => simp [diffStep, DPc.left]
    | cons i fds =>
      refine Nat.lt_of_le_of_lt (closeLoop_left j fds) ?_
      simp only [DPc.left, List.length_cons]
      omega
  | done code => simp [DPc.left] at h

theorem left_run {j : Job} {s0 s : DSys} {pc : DPc} (hi : DInv j s0 s pc) (rs : List Reply)
    (hn : ∀ r ∈ rs, 0 < r.n) : (diffRun j s pc rs).2.1.left j ≤ pc.left j - rs.length := by
  induction rs generalizing s pc with
  | nil => exact Nat.le_refl _
  | cons r rs ih =>
    have h1 := ih (hi.step r) (fun r hr => hn r (by simp [hr]))
    have h2 : (diffStep j s pc r).2.1.left j ≤ pc.left j - 1 := by
      by_cases h : 0 < pc.left j
      · have := left_step hi r (hn r (by simp)) h
        omega
      · cases pc with
        | close fds => simp [DPc.left] at h
        | done code => exact Nat.zero_le _
        | mkstemp made => simp only [DPc.left] at h; split at h <;> omega
        | unlink made _ _ => simp only [DPc.left] at h; split at h <;> omega
        | write made _ _ => simp only [DPc.left] at h; split at h <;> omega
        | lseek made _ => simp only [DPc.left] at h; split at h <;> omega
        | errClose made _ => simp [DPc.left] at h
        | fork _ _ => simp [DPc.left] at h
        | exec _ _ => simp [DPc.left] at h
        | waitpid _ _ => simp [DPc.left] at h
    simp only [diffRun, List.length_cons]
    omega

/-- **C82**, the end: if every write accepts a byte, the function returns after at most so many calls. -/
theorem diff_ends (j : Job) (s0 : DSys) (rs : List Reply) (hn : ∀ r ∈ rs, 0 < r.n)
    (hl : j.src.length + j.dst.length + 13 ≤ rs.length) :
    ∃ code, (diffRun j s0 j.diffStart rs).2.1 = .done code := by
  have h1 := left_run (DInv.start j s0) rs hn
  have h2 : j.diffStart.left j ≤ j.src.length + j.dst.length + 12 := by
    unfold Job.diffStart; split <;> simp [DPc.left]
  have h3 : (diffRun j s0 j.diffStart rs).2.1.left j = 0 := by omega
  cases hpc : (diffRun j s0 j.diffStart rs).2.1 with
  | done code => exact ⟨code, rfl⟩
  | close fds => rw [hpc] at h3; simp [DPc.left] at h3
  | mkstemp made => rw [hpc] at h3; simp only [DPc.left] at h3; split at h3 <;> omega
  | unlink made _ _ => rw [hpc] at h3; simp only [DPc.left] at h3; split at h3 <;> omega
  | write made _ _ => rw [hpc] at h3; simp only [DPc.left] at h3; split at h3 <;> omega
  | lseek made _ => rw [hpc] at h3; simp only [DPc.left] at h3; split at h3 <;> omega
  | errClose made _ => rw [hpc] at h3; simp [DPc.left] at h3
  | fork _ _ => rw [hpc] at h3; simp [DPc.left] at h3
  | exec _ _ => rw [hpc] at h3; simp [DPc.left] at h3
  | waitpid _ _ => rw [hpc] at h3; simp [DPc.left] at h3

/-! ## A case -/

private def exFs : FS := { dir := fun _ => none, files := fun _ => none }
private def exSys : DSys := { fs := exFs, off := fun _ => 0, opened := [], shown := [] }
private def exJob : Job := { path := ['a', '.', 'c'], src := ['x', ' ', ';'], dst := ['x', ';'], fd := 9 }
private def suf (c : Char) : List Char := List.replicate 8 c

/-- The source is written in two parts. -/
private def exReplies : List Reply :=
  [{ suffix := suf 'a', ino := 1 }, {}, { n := 1 }, { n := 2 }, {}, { suffix := suf 'b', ino := 2 }, {}, { n := 5 }, {},
    {}, {}, {}, {}, {}]

example : (diffRun exJob exSys exJob.diffStart exReplies).1.shown = [(['a', '.', 'c'], ['x', ' ', ';'], ['x', ';'])] := by
  decide +kernel
example : (diffRun exJob exSys exJob.diffStart exReplies).2.1 = .done 1 := by decide +kernel
example : ∀ c ∈ (diffRun exJob exSys exJob.diffStart exReplies).2.2, c.2 = false := by decide +kernel

end Knfmt.Io
