/-!
Model of the caches of `/repo/imas/backends/imas_core/mdsplus_model.py` (`mdsplus_model_dir`,
lines 77-199, with `safe_replace`, `wait_for_model` and `model_exists`) and of
`/repo/imas/backends/imas_core/uda_support.py` (`extract_idsdef`, lines 31-56).
-/
namespace Verif.ModelCache

/-! ### MDSplus models

Any number of processes run `mdsplus_model_dir` for the same cache directory. Each access to the
file system is one atomic step, and the steps of the processes are interleaved arbitrarily. A
process that is killed is one that makes no further steps. The contents of the directory is the
list of its files; the five files that make a complete model are numbered 0 to 4. Temporary
directories have unique names and are not shared. `os.replace` of a directory is atomic and fails
if the target is a directory with contents; the variant for other file systems (lines 52-69)
ends with the same atomic operation and is not distinguished. -/

/-- The files checked by `model_exists` (lines 225-231). -/
def required : List Nat := [0, 1, 2, 3, 4]

abbrev Dir := Option (List Nat)

/-- `path.is_dir()`. -/
def isDir : Dir → Bool
  | none => false
  | some _ => true

/-- `os.path.isfile(path / f)`. -/
def isFile : Dir → Nat → Bool
  | none, _ => false
  | some c, f => c.contains f

/-- Where a process is. In `…File k` the next action is the check of required file `k`. -/
inductive PC where
  /-- line 137 -/
  | firstDir
  | firstFile (k : Nat)
  /-- line 140 -/
  | secondDir
  | secondFile (k : Nat)
  /-- line 149: `n` further rounds of waiting after this one -/
  | waitFile (n k : Nat)
  /-- line 151 -/
  | listDir
  /-- line 152 -/
  | listFile (k : Nat)
  /-- line 162 -/
  | thirdDir
  | thirdFile (k : Nat)
  /-- line 171 -/
  | makeDir
  /-- lines 178-179 -/
  | build
  /-- line 186, with the contents of the temporary directory -/
  | replace (tmp : List Nat)
  /-- line 188 -/
  | lastFile (k : Nat)
  /-- line 196: `shutil.rmtree` lists the files … -/
  | remove
  /-- … and deletes them one by one, and then the directory -/
  | removing (files : List Nat)
  /-- line 199 -/
  | returned
  /-- an exception was raised -/
  | raised
  deriving DecidableEq, Repr

/-- Number of required files. -/
def total : Nat := 5

/-- Waiting time in seconds (`MDSPLUS_MODEL_TIMEOUT`). -/
abbrev Timeout := Nat

/-- `wait_for_model` (lines 202-217) begins with `n` rounds left. -/
def waitStart : Nat → PC
  | 0 => .listDir
  | n + 1 => .waitFile n 0

/-- One step of a process. `made` is what `create_model_ids_xml` and `create_mdsplus_model` leave
in the temporary directory, `none` if they raise. -/
def next (timeout : Timeout) (d : Dir) (made : Option (List Nat)) : PC → Dir × PC
  | .firstDir => if isDir d then (d, .firstFile 0) else (d, .secondDir)
  | .firstFile k =>
    if isFile d k then (if k + 1 = total then (d, .returned) else (d, .firstFile (k + 1)))
    else (d, .secondDir)
  | .secondDir => if isDir d then (d, .secondFile 0) else (d, .thirdDir)
  | .secondFile k =>
    if isFile d k then (if k + 1 = total then (d, .thirdDir) else (d, .secondFile (k + 1)))
    else (d, waitStart timeout)
  | .waitFile n k =>
    if isFile d k then (if k + 1 = total then (d, .returned) else (d, .waitFile n (k + 1)))
    else (d, waitStart n)
  | .listDir =>
    match d with
    | none => (d, .raised)
    | some c => if c.length > 1 then (d, .listFile 0) else (d, .makeDir)
  | .listFile k =>
    if isFile d k then (if k + 1 = total then (d, .makeDir) else (d, .listFile (k + 1)))
    else (d, .raised)
  | .thirdDir => if isDir d then (d, .raised) else (d, .thirdFile 0)
  | .thirdFile k =>
    if isFile d k then (if k + 1 = total then (d, .raised) else (d, .thirdFile (k + 1)))
    else (d, .makeDir)
  | .makeDir =>
    match d with
    | none => (some [], .build)
    | some c => (some c, .build)
  | .build =>
    match made with
    | none => (d, .remove)
    | some t => (d, .replace t)
  | .replace t =>
    match d with
    | none => (some t, .lastFile 0)
    | some [] => (some t, .lastFile 0)
    | some (f :: c) => (some (f :: c), .lastFile 0)
  | .lastFile k =>
    if isFile d k then (if k + 1 = total then (d, .returned) else (d, .lastFile (k + 1)))
    else (d, .remove)
  | .remove =>
    match d with
    | none => (d, .raised)
    | some c => (d, .removing c)
  | .removing [] =>
    match d with
    | some [] => (none, .raised)
    | _ => (d, .raised)
  | .removing (f :: fs) =>
    match d with
    | none => (d, .raised)
    | some c => if c.contains f then (some (c.filter (· ≠ f)), .removing fs) else (d, .raised)
  | .returned => (d, .returned)
  | .raised => (d, .raised)

/-- The directory and all processes. -/
structure State where
  dir : Dir
  pcs : Nat → PC

/-- Process `i` makes a step. -/
def State.step (timeout : Timeout) (s : State) (i : Nat) (made : Option (List Nat)) : State :=
  { dir := (next timeout s.dir made (s.pcs i)).1
    pcs := fun j => if j = i then (next timeout s.dir made (s.pcs i)).2 else s.pcs j }

/-- An interleaving: which process makes the next step, and what it would build. -/
abbrev Schedule := List (Nat × Option (List Nat))

def State.run (timeout : Timeout) : State → Schedule → State
  | s, [] => s
  | s, (i, m) :: r => State.run timeout (s.step timeout i m) r

/-- All processes are about to start. -/
def initial (d : Dir) : State := ⟨d, fun _ => .firstDir⟩

/-! ### Extracted definition files -/

abbrev Bytes := List UInt8

/-- `extract_idsdef` (`uda_support.py` lines 31-56) for one version. `data` is
`get_dd_xml(dd_version)`; `ok b` tells that `get_dd_version_from_idsdef_xml` of a file with
contents `b` returns this version. `stop` is the number of bytes after which the process is
killed while writing (`none`: it is not). Returns the contents of the file afterwards and whether
the path was returned. -/
def extract (data : Bytes) (ok : Bytes → Bool) (file : Option Bytes) (stop : Option Nat) :
    Option Bytes × Bool :=
  let keep := match file with
    | none => false
    | some b => ok b
  if keep then (file, true)
  else match stop with
    | none => (some data, true)
    | some n => (some (data.take n), false)

/-- A sequence of calls, each of which may be killed while writing. -/
def extracts (data : Bytes) (ok : Bytes → Bool) : Option Bytes → List (Option Nat) → Option Bytes
  | file, [] => file
  | file, s :: r => extracts data ok (extract data ok file s).1 r

end Verif.ModelCache
