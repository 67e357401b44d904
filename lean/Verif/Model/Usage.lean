import Verif.Model.Tree
/-!
Model of the commands `imas analyze-db` and `imas process-db-analysis` (`/repo/imas/command/db_analysis.py`).

Outside of the model: click, log messages, the progress bar, colours, the prompt (the question which IDS is shown is an argument
of `detail`), JSON and gzip (reading gives what was written; writing does not fail). Quotients are pairs; the code rounds them.
-/
namespace Verif.Usage
open Verif.Ids

abbrev Text := List Char
abbrev Path := List Name

inductive Exc where
  /-- `sys.exit(1)` -/
  | exit
  /-- an exception of h5py -/
  | h5py
  | zeroDivision
  deriving DecidableEq, Repr

/-! ### `imas analyze-db` -/

/-- A file `<stem>.h5`: the datasets in the group `<stem>` (`none`: h5py cannot open the file or the group). -/
structure H5File where
  stem : Text
  datasets : Option (List Text)

/-- The dictionary of `ids_info` (lines 137-141). -/
structure IdsInfo where
  name : Text
  occurrence : Text
  filled : List Text
  deriving DecidableEq, Repr

/-- The dictionary of `analyze_folder` (lines 107-115). -/
structure EntryInfo where
  machine : Text
  path : Text
  ids : List IdsInfo
  deriving DecidableEq, Repr

/-- `re.split("_(?=[0-9]+)|$", stem, 1)` (line 123): cut out the first underscore before a digit, or at the end. (`$` also matches
before a final newline.) -/
def splitStem : Text → Text × Text
  | [] => ([], [])
  | [c] => ([c], [])
  | c :: d :: r =>
    if c = '_' ∧ d.isDigit then ([], d :: r)
    else ((c :: (splitStem (d :: r)).1), (splitStem (d :: r)).2)

/-- Line 130. -/
def datasetPath (s : Text) : Text :=
  (s.filter fun c => c != '[' && c != ']').map fun c => if c = '&' then '/' else c

/-- Lines 127-131. -/
def filledPaths : List Text → List Text
  | [] => []
  | d :: r => if "SHAPE".toList.isSuffixOf d then filledPaths r else datasetPath d :: filledPaths r

/-- `ids_info` (lines 118-141). -/
def idsInfo (f : H5File) : Except Exc IdsInfo :=
  match f.datasets with
  | none => .error .h5py
  | some ds => .ok ⟨(splitStem f.stem).1, (splitStem f.stem).2, filledPaths ds⟩

/-- The list in lines 110-114; `files` in the order of `glob`. -/
def idsInfos : List H5File → Except Exc (List IdsInfo)
  | [] => .ok []
  | f :: r =>
    if f.stem = "master".toList then idsInfos r
    else
      match idsInfo f with
      | .error e => .error e
      | .ok i => (idsInfos r).map (i :: ·)

/-- A folder: its path and the files `*.h5` in it. -/
structure Folder where
  path : Text
  files : List H5File

/-- `analyze_folder` (lines 105-115). -/
def analyzeFolder (machine : Text) (d : Folder) : Except Exc EntryInfo :=
  (idsInfos d.files).map fun l => ⟨machine, d.path, l⟩

/-- The loop (lines 90-97). `(entry / "master.h5").exists` is a method that is not called, its truth value is true: no folder is
skipped. -/
def analyzeAll (machine : Text) : List Folder → Except Exc (List EntryInfo)
  | [] => .ok []
  | d :: r =>
    match analyzeFolder machine d with
    | .error e => .error e
    | .ok x => (analyzeAll machine r).map (x :: ·)

/-- The output file. -/
inductive Output where
  | absent
  | unreadable
  | data (l : List EntryInfo)
  deriving DecidableEq, Repr

/-- `analyze_db` (lines 67-102): the output file afterwards and the exception. `h5py` is available if `has`. -/
def analyzeDb (has : Bool) (machine : Text) (out : Output) (folders : List Folder) : Output × Option Exc :=
  if !has then (out, some .exit)
  else
    match out with
    | .unreadable => (out, some .exit)
    | .absent =>
      match analyzeAll machine folders with
      | .error e => (out, some e)
      | .ok l => if l = [] then (out, none) else (.data l, none)
    | .data old =>
      match analyzeAll machine folders with
      | .error e => (out, some e)
      | .ok l => if old ++ l = [] then (out, none) else (.data (old ++ l), none)

/-! ### `imas process-db-analysis`: counting -/

/-- Change the value of a key of a dictionary, `f none` for a new key. -/
def alter {A : Type} (k : Text) (f : Option A → A) : List (Text × A) → List (Text × A)
  | [] => [(k, f none)]
  | (k', v) :: r => if k' = k then (k', f (some v)) :: r else (k', v) :: alter k f r

/-- `dict.get` -/
def find {A : Type} (k : Text) : List (Text × A) → Option A
  | [] => none
  | (k', v) :: r => if k' = k then some v else find k r

/-- `collections.Counter` -/
abbrev Counter := List (Text × Nat)

/-- `Counter.update(iterable)` -/
def Counter.update (c : Counter) : List Text → Counter
  | [] => c
  | k :: r => Counter.update (alter k (fun o => o.getD 0 + 1) c) r

/-- `_PathUsage` (lines 144-147). -/
structure Usage where
  num : Nat := 0
  paths : Counter := []

/-- `defaultdict(_PathUsage)` -/
abbrev Usages := List (Text × Usage)

/-- Lines 222-230. -/
def addInfos : List IdsInfo → Usages × Usages → Usages × Usages
  | [], s => s
  | i :: r, (this, occ) =>
    addInfos r
      (alter i.name (fun u => { u.getD {} with paths := (u.getD {}).paths.update i.filled }) this,
       alter i.name (fun u => { num := (u.getD {}).num + 1, paths := (u.getD {}).paths.update i.filled }) occ)

/-- Lines 232-234. -/
def addUsages : Usages → Usages → Usages
  | [], s => s
  | (n, u) :: r, s =>
    addUsages r (alter n (fun o => { num := (o.getD {}).num + 1, paths := (o.getD {}).paths.update (u.paths.map (·.1)) }) s)

/-- `usage_per_entry`, `usage_per_occurrence`, `num_entries`. -/
structure Stats where
  entry : Usages := []
  occ : Usages := []
  num : Nat := 0

/-- Lines 221-235. -/
def addEntry (s : Stats) (e : EntryInfo) : Stats :=
  let x := addInfos e.ids ([], s.occ)
  { entry := addUsages x.1 s.entry, occ := x.2, num := s.num + 1 }

def addEntries : Stats → List EntryInfo → Stats
  | s, [] => s
  | s, e :: r => addEntries (addEntry s e) r

/-- Lines 208-235; the contents of the input files. -/
def collect : Stats → List (List EntryInfo) → Stats
  | s, [] => s
  | s, f :: r => collect (addEntries s f) r

/-! ### The CSV file -/

/-- A quotient. -/
structure Freq where
  num : Nat
  den : Nat
  deriving DecidableEq, Repr

def quot (a b : Nat) : Except Exc Freq := if b = 0 then .error .zeroDivision else .ok ⟨a, b⟩

/-- Rows of the file (without the header). -/
inductive Row where
  | ids (name : Text) (f : Freq)
  | path (name path : Text) (errors : Bool) (f1 f2 : Freq)
  deriving DecidableEq, Repr

/-- `sub in s` -/
def hasSub (sub : Text) : Text → Bool
  | [] => sub.isPrefixOf []
  | c :: r => sub.isPrefixOf (c :: r) || hasSub sub r

/-- `sorted` is stable: elements that are not ordered stay in the order of the list. -/
def insertBy {A : Type} (le : A → A → Bool) (x : A) : List A → List A
  | [] => [x]
  | y :: r => if le x y then x :: y :: r else y :: insertBy le x r

def sortBy {A : Type} (le : A → A → Bool) : List A → List A
  | [] => []
  | x :: r => insertBy le x (sortBy le r)

/-- `sorted(keys)`: Python compares code points. -/
def sorted {A : Type} (l : List (Text × A)) : List (Text × A) := sortBy (fun a b => decide (a.1 ≤ b.1)) l

/-- Lines 180-193. -/
def pathRows (n : Text) (e o : Usage) : List (Text × Nat) → Except Exc (List Row)
  | [] => .ok []
  | (p, k) :: r =>
    if hasSub "_error_".toList p then pathRows n e o r
    else
      match quot k e.num, quot ((find p o.paths).getD 0) o.num with
      | .ok f1, .ok f2 =>
        (pathRows n e o r).map (.path n p (find (p ++ "_error_upper".toList) e.paths).isSome f1 f2 :: ·)
      | _, _ => .error .zeroDivision

/-- Lines 172-193. -/
def idsRows (s : Stats) : List (Text × Usage) → Except Exc (List Row)
  | [] => .ok []
  | (n, e) :: r =>
    match quot e.num s.num with
    | .error x => .error x
    | .ok f =>
      match pathRows n e ((find n s.occ).getD {}) (sorted e.paths) with
      | .error x => .error x
      | .ok l => (idsRows s r).map fun m => .ids n f :: (l ++ m)

/-- `_write_usage_stats_to_csv` (lines 150-193). -/
def csv (s : Stats) : Except Exc (List Row) := idsRows s (sorted s.entry)

/-! ### The overview -/

/-- `path_string` -/
def pathString : Path → Text
  | [] => []
  | [n] => n
  | n :: m :: r => n ++ '/' :: pathString (m :: r)

mutual
/-- `_AnalysisNode` (lines 350-362). -/
inductive ANode where
  | mk (path : Text) (used : Bool) (num filled : Nat) (children : ANodes)
inductive ANodes where
  | nil
  | cons (x : ANode) (r : ANodes)
end

mutual
/-- `walk_metadata_tree` (lines 268-287): the children, `num_desc_nodes` and `num_desc_nodes_filled`. -/
def walk (filled : List Text) (p : Path) : MFields → ANodes × Nat × Nat
  | .nil => (.nil, 0, 0)
  | .cons n m r =>
    let x := walkNode filled (p ++ [n]) m
    let y := walk filled p r
    (.cons x.1 y.1, x.2.1 + y.2.1, x.2.2 + y.2.2)
/-- The body of the loop for one child: its node, and what it adds to the numbers of its parent. -/
def walkNode (filled : List Text) (p : Path) : Meta → ANode × Nat × Nat
  | .leaf _ =>
    let u := decide (pathString p ∈ filled)
    (.mk (pathString p) u 0 0 .nil, 1, if u then 1 else 0)
  | .struct .nil =>
    let u := decide (pathString p ∈ filled)
    (.mk (pathString p) u 0 0 .nil, 1, if u then 1 else 0)
  | .aos .nil =>
    let u := decide (pathString p ∈ filled)
    (.mk (pathString p) u 0 0 .nil, 1, if u then 1 else 0)
  | .struct (.cons n m r) =>
    let x := walk filled p (.cons n m r)
    (.mk (pathString p) (decide (x.2.2 > 0)) x.2.1 x.2.2 x.1, x.2.1, x.2.2)
  | .aos (.cons n m r) =>
    let x := walk filled p (.cons n m r)
    (.mk (pathString p) (decide (x.2.2 > 0)) x.2.1 x.2.2 x.1, x.2.1, x.2.2)
end

/-- The analysis of one IDS: `ids_analysis_node`. -/
structure Analysis where
  num : Nat
  filled : Nat
  children : ANodes

/-- Lines 253-290; `dict` gives the metadata of the IDSs in the Data Dictionary. -/
def analyses (dict : Text → Option MFields) : Usages → List (Text × Analysis)
  | [] => []
  | (n, u) :: r =>
    match dict n with
    | none => analyses dict r
    | some m =>
      let x := walk (u.paths.map (·.1)) [] m
      (n, ⟨x.2.1, x.2.2, x.1⟩) :: analyses dict r

/-- `fill_fraction` of `a` is at least the one of `b`. -/
def atLeast (a b : Analysis) : Bool := decide (b.filled * a.num ≤ a.filled * b.num)

/-- Lines 294-297. -/
def byFraction (l : List (Text × Analysis)) : Except Exc (List (Text × Analysis)) :=
  if l.any (fun x => x.2.num == 0) then .error .zeroDivision
  else .ok (sortBy (fun a b => atLeast a.2 b.2) l)

/-- Lines 293-308: the rows of the table, name and numbers. -/
def overview (dict : Text → Option MFields) (showEmpty : Bool) (s : Stats) : Except Exc (List (Text × Nat × Nat)) :=
  (byFraction (analyses dict s.occ)).map fun l =>
    (l.filter fun x => showEmpty || x.2.filled != 0).map fun x => (x.1, x.2.filled, x.2.num)

/-- A line of the tree that is shown for an IDS, with its depth. -/
inductive Line where
  | used (depth : Nat) (path : Text)
  | inner (depth : Nat) (path : Text) (filled num : Nat)
  deriving DecidableEq, Repr

mutual
/-- `fill_tree` (lines 369-385). -/
def fillTree (d : Nat) : ANode → List Line
  | .mk p u _ _ .nil => if u then [.used d p] else []
  | .mk p u num filled (.cons x r) =>
    .inner d p filled num :: (if u then fillTrees (d + 1) (.cons x r) else [])
def fillTrees (d : Nat) : ANodes → List Line
  | .nil => []
  | .cons x r => fillTree d x ++ fillTrees d r
end

/-- Lines 325-347: the numbers and the tree of an IDS; `none`: unknown IDS name. -/
def detail (dict : Text → Option MFields) (s : Stats) (n : Text) : Option (Nat × Nat × List Line) :=
  (find n (analyses dict s.occ)).map fun a => (a.filled, a.num, fillTrees 0 a.children)

end Verif.Usage
