/-!
# knfmt.c: reading, writing and replacing files

`filewrite`, `fileattr` and `fileprint` are modelled as machines making one system
call per step. The operating system answers each call with a `Reply`: it may fail
any call, write fewer bytes than asked for, choose the name and inode of temporary
files, and clear set-id bits. Stopping after any number of steps is a crash.

Not modelled: other processes, directories as objects, loss of power (knfmt calls no
`fsync`), the contents of diagnostics.
-/
namespace Knfmt.Io

abbrev Path := List Char
abbrev Ino := Nat

/-- The part of `struct stat` used by `fileattr`, knfmt.c:395-401. -/
structure Attr where
  mode : Nat
  uid : Nat
  gid : Nat
deriving DecidableEq, Repr

/-- A regular file. -/
structure File where
  data : List Char
  attr : Attr
deriving DecidableEq, Repr

/-- A directory entry. -/
inductive Entry where
  | file (i : Ino)
  | symlink (target : Path)
deriving DecidableEq, Repr

/-- A file system: names and inodes, so that hard links and symbolic links exist. -/
structure FS where
  dir : Path → Option Entry
  files : Ino → Option File

/-- Follow symbolic links, giving up after `n` of them (`ELOOP`). -/
def FS.resolve (fs : FS) : Nat → Path → Option Ino
  | 0, _ => none
  | n + 1, p =>
    match fs.dir p with
    | none => none
    | some (.file i) => some i
    | some (.symlink t) => fs.resolve n t

/-- What opening the path for reading gives. -/
def FS.lookup (fs : FS) (p : Path) : Option File :=
  (fs.resolve 40 p).bind fs.files

def FS.setDir (fs : FS) (p : Path) (e : Option Entry) : FS :=
  { fs with dir := fun q => if q = p then e else fs.dir q }

def FS.setFile (fs : FS) (i : Ino) (f : File) : FS :=
  { fs with files := fun j => if j = i then some f else fs.files j }

/-- Change an existing file. -/
def FS.modify (fs : FS) (i : Ino) (g : File → File) : FS :=
  match fs.files i with
  | none => fs
  | some f => fs.setFile i (g f)

/-- The answer of the operating system to one call. Fields that make no sense for
the call are ignored. -/
structure Reply where
  /-- The call fails. -/
  fail : Bool := false
  /-- `write`: number of bytes accepted. -/
  n : Nat := 0
  /-- `mkstemp`: replacement of the `XXXXXXXX`. -/
  suffix : List Char := []
  /-- `mkstemp`: inode of the new file. -/
  ino : Ino := 0
  /-- `mkstemp`: attributes of the new file. -/
  attr : Attr := ⟨0o100600, 0, 0⟩
  /-- `fchmod`, `fchown`: set-id bits are cleared. -/
  clears : Bool := false

/-- System calls, for traces. -/
inductive Call where
  | mkstemp (template : Path)
  | write (len : Nat)
  | fstat
  | fchmod (mode : Nat)
  | fchown (uid gid : Nat)
  | rename (src dst : Path)
  | close
  | unlink (path : Path)
deriving DecidableEq, Repr

/-- `strrchr(path, '/')` splits a path in directory, including the slash, and base
name; fs.c:78-84. -/
def dirBase : Path → Path × Path
  | [] => ([], [])
  | c :: s =>
    if '/' ∈ s then (c :: (dirBase s).1, (dirBase s).2)
    else if c = '/' then ([c], s)
    else ([], c :: s)

/-- `tmptemplate`, fs.c:71-87, with `XXXXXXXX` replaced by `suffix`. -/
def tmpName (path : Path) (suffix : List Char) : Path :=
  (dirBase path).1 ++ '.' :: (dirBase path).2 ++ '.' :: suffix

/-- Arguments of `filewrite`: path, buffers and the inode behind `fe_fd`. -/
structure Job where
  path : Path
  src : List Char
  dst : List Char
  fd : Ino

/-- Where `filewrite` is, knfmt.c:299-359. Variables: path and inode of the temporary
file, bytes left to write, results of `fstat`. -/
inductive Pc where
  | mkstemp
  | write (tmp : Path) (ino : Ino) (rem : List Char)
  | fstatTmp (tmp : Path) (ino : Ino)
  | fstatOrig (tmp : Path) (ino : Ino) (s : Attr)
  | fchmod (tmp : Path) (ino : Ino) (s d : Attr)
  | fchown (tmp : Path) (ino : Ino) (s d : Attr)
  | rename (tmp : Path) (ino : Ino)
  | closeOk
  | errClose (tmp : Path)
  | errUnlink (tmp : Path)
  | done (code : Nat)
deriving DecidableEq, Repr

/-- knfmt.c:310-311. -/
def Job.start (j : Job) : Pc := if j.src = j.dst then .done 0 else .mkstemp

/-- The head of the write loop, knfmt.c:326. -/
def whileWrite (tmp : Path) (ino : Ino) (rem : List Char) : Pc :=
  if rem.length > 0 then .write tmp ino rem else .fstatTmp tmp ino

/-- knfmt.c:395: skip `fchmod` if the modes agree, then 400: skip `fchown` likewise. -/
def ifChown (tmp : Path) (ino : Ino) (s d : Attr) : Pc :=
  if s.uid ≠ d.uid ∨ s.gid ≠ d.gid then .fchown tmp ino s d else .rename tmp ino

def ifChmod (tmp : Path) (ino : Ino) (s d : Attr) : Pc :=
  if s.mode ≠ d.mode then .fchmod tmp ino s d else ifChown tmp ino s d

/-- Removal of the set-user-id and set-group-id bits. -/
def clearSetid (m : Nat) : Nat := m &&& 0o171777

/-- `fchmod(2)`. -/
def sysFchmod (r : Reply) (mode : Nat) (f : File) : File :=
  { f with attr := { f.attr with mode := if r.clears then clearSetid mode else mode } }

/-- `fchown(2)`. -/
def sysFchown (r : Reply) (uid gid : Nat) (f : File) : File :=
  { f with attr :=
    { mode := if r.clears then clearSetid f.attr.mode else f.attr.mode, uid := uid, gid := gid } }

/-- One system call of `filewrite`. The trace entry is the call and whether it
failed; `none` once the function has returned. -/
def step (j : Job) (fs : FS) (pc : Pc) (r : Reply) : FS × Pc × Option (Call × Bool) :=
  match pc with
  | .mkstemp =>
    -- knfmt.c:315-322; names that exist are not handed out
    let tmp := tmpName j.path r.suffix
    if r.fail ∨ r.suffix.length ≠ 8 ∨ '/' ∈ r.suffix ∨ (fs.dir tmp).isSome ∨ (fs.files r.ino).isSome then
      (fs, .done 1, some (.mkstemp tmp, true))
    else
      ((fs.setDir tmp (some (.file r.ino))).setFile r.ino ⟨[], r.attr⟩,
        whileWrite tmp r.ino j.dst, some (.mkstemp tmp, false))
  | .write tmp ino rem =>
    -- knfmt.c:326-336
    if r.fail then (fs, .errClose tmp, some (.write rem.length, true))
    else
      (fs.modify ino (fun f => { f with data := f.data ++ rem.take r.n }),
        whileWrite tmp ino (rem.drop r.n), some (.write rem.length, false))
  | .fstatTmp tmp ino =>
    -- knfmt.c:386-389
    match r.fail, fs.files ino with
    | false, some f => (fs, .fstatOrig tmp ino f.attr, some (.fstat, false))
    | _, _ => (fs, .errClose tmp, some (.fstat, true))
  | .fstatOrig tmp ino s =>
    -- knfmt.c:390-393
    match r.fail, fs.files j.fd with
    | false, some f => (fs, ifChmod tmp ino s f.attr, some (.fstat, false))
    | _, _ => (fs, .errClose tmp, some (.fstat, true))
  | .fchmod tmp ino s d =>
    -- knfmt.c:395-399
    if r.fail then (fs, .errClose tmp, some (.fchmod d.mode, true))
    else (fs.modify ino (sysFchmod r d.mode), ifChown tmp ino s d, some (.fchmod d.mode, false))
  | .fchown tmp ino _ d =>
    -- knfmt.c:400-404
    if r.fail then (fs, .errClose tmp, some (.fchown d.uid d.gid, true))
    else (fs.modify ino (sysFchown r d.uid d.gid), .rename tmp ino, some (.fchown d.uid d.gid, false))
  | .rename tmp ino =>
    -- knfmt.c:345-348; rename(2) does not follow a symbolic link at the destination
    if r.fail then (fs, .errClose tmp, some (.rename tmp j.path, true))
    else ((fs.setDir j.path (some (.file ino))).setDir tmp none, .closeOk,
      some (.rename tmp j.path, false))
  | .closeOk => (fs, .done 0, some (.close, r.fail))        -- knfmt.c:350-351
  | .errClose tmp => (fs, .errUnlink tmp, some (.close, r.fail))  -- knfmt.c:355
  | .errUnlink tmp =>
    -- knfmt.c:356, the result is ignored
    if r.fail then (fs, .done 1, some (.unlink tmp, true))
    else (fs.setDir tmp none, .done 1, some (.unlink tmp, false))
  | .done code => (fs, .done code, none)

/-- Run against a list of replies; the trace lists the calls made. -/
def run (j : Job) : FS → Pc → List Reply → FS × Pc × List (Call × Bool)
  | fs, pc, [] => (fs, pc, [])
  | fs, pc, r :: rs =>
    let s := step j fs pc r
    let t := run j s.1 s.2.1 rs
    (t.1, t.2.1, s.2.2.toList ++ t.2.2)

/-! ## fileprint, knfmt.c:361-379 -/

/-- Where `fileprint` is. -/
inductive PrintPc where
  | write (rem : List Char)
  | done (code : Nat)
deriving DecidableEq, Repr

/-- The loop head, knfmt.c:367. -/
def printLoop (rem : List Char) : PrintPc :=
  if rem.length > 0 then .write rem else .done 0

/-- One call of `fileprint`; the first component is the standard output. -/
def printStep (out : List Char) (pc : PrintPc) (r : Reply) : List Char × PrintPc :=
  match pc with
  | .write rem =>
    if r.fail then (out, .done 1)
    else (out ++ rem.take r.n, printLoop (rem.drop r.n))
  | .done code => (out, .done code)

def printRun : List Char → PrintPc → List Reply → List Char × PrintPc
  | out, pc, [] => (out, pc)
  | out, pc, r :: rs =>
    let s := printStep out pc r
    printRun s.1 s.2 rs

/-! ## fileformat and main -/

/-- Options, options.h and knfmt.c:70-94. -/
structure Options where
  diff : Bool := false
  diffparse : Bool := false
  inplace : Bool := false
  simple : Bool := false
deriving DecidableEq, Repr

/-- Everything observable: the file system, standard output, and the diffs printed. -/
structure World where
  fs : FS
  out : List Char
  diffs : List (Path × List Char × List Char)

/-- The buffers shared by all files, `struct main_context`. -/
structure Ctx where
  src : List Char
  dst : List Char

/-- One file argument together with the behaviour of the operating system. -/
structure Arg where
  path : Path
  /-- The bytes read before `read(2)` fails, if it does; `file_read`, file.c:44-62. -/
  readFail : Option Nat := none
  /-- The temporary files and processes of `filediff` all work out. -/
  diffOk : Bool := true
  /-- Replies during `filewrite` and `fileprint`. -/
  replies : List Reply := []

/-- `file_read`, file.c:44-62: append the file to the buffer. The result is the
buffer, and the inode opened or `none` for an error. -/
def fileRead (fs : FS) (src : List Char) (a : Arg) : List Char × Option Ino :=
  match fs.resolve 40 a.path with
  | none => (src, none)
  | some i =>
    match fs.files i with
    | none => (src, none)
    | some f =>
      match a.readFail with
      | some n => (src ++ f.data.take n, none)
      | none => (src ++ f.data, some i)

/-- `fileformat`, knfmt.c:196-245, with `filediff`, knfmt.c:247-297. `fmt` stands for
the lexer, parser and printer: `none` if the source is rejected (knfmt.c:222 and 237),
otherwise the text appended to the destination buffer. The result is `none` if the
process stopped while making system calls. -/
def fileformat (op : Options) (fmt : Path → List Char → Option (List Char)) (w : World) (c : Ctx)
    (a : Arg) : Option (World × Ctx × Nat) :=
  match fileRead w.fs c.src a with
  | (src, none) => some (w, { c with src := src }, 1)
  | (src, some fd) =>
    match fmt a.path src with
    | none => some (w, { c with src := src }, 1)
    | some text =>
      let dst := c.dst ++ text
      let c := { src := src, dst := dst }
      if op.diff then
        if src = dst then some (w, c, 0)
        else some ({ w with diffs := w.diffs ++ if a.diffOk then [(a.path, src, dst)] else [] }, c, 1)
      else if op.inplace then
        let j : Job := { path := a.path, src := src, dst := dst, fd := fd }
        let r := run j w.fs j.start a.replies
        match r.2.1 with
        | .done code => some ({ w with fs := r.1 }, c, code)
        | _ => none
      else
        let r := printRun w.out (printLoop dst) a.replies
        match r.2 with
        | .done code => some ({ w with out := r.1 }, c, code)
        | _ => none

/-- The loop over the files in `main`, knfmt.c:145-153. -/
def fileLoop (op : Options) (fmt : Path → List Char → Option (List Char)) :
    World → Ctx → Nat → List Arg → Option (World × Ctx × Nat)
  | w, c, error, [] => some (w, c, error)
  | w, c, error, a :: as =>
    match fileformat op fmt w c a with
    | none => none
    | some (w, c, code) =>
      let error := if code ≠ 0 then 1 else error
      fileLoop op fmt w { c with src := [], dst := [] } error as

/-- `filelist`, knfmt.c:177-194: the files, or `none` for an error. `diffFiles` is the
result of `diff_parse`. -/
def filelist (op : Options) (args : List Arg) (stdin : Arg) (diffFiles : Option (List Arg)) :
    Option (List Arg) :=
  if op.diffparse then diffFiles
  else if args.length = 0 then some [{ stdin with path := "/dev/stdin".toList }]
  else some args

/-- `main` after option parsing, knfmt.c:97-167. `styleOk`: the configuration could
be read. The result is `none` if the process was stopped. -/
def main (op : Options) (styleOk : Bool) (fmt : Path → List Char → Option (List Char))
    (args : List Arg) (stdin : Arg) (diffFiles : Option (List Arg)) (w : World) :
    Option (World × Nat) :=
  if (op.diffparse ∧ args.length > 0) ∨ (¬ op.diffparse ∧ op.inplace ∧ args.length = 0) then
    some (w, 1)
  else if ¬ styleOk then some (w, 1)
  else
    match filelist op args stdin diffFiles with
    | none => some (w, 1)
    | some files => (fileLoop op fmt w ⟨[], []⟩ 0 files).map (fun r => (r.1, r.2.2))

end Knfmt.Io
