import Verif.Model.Usage
/-!
What the analysis of data entries should say (C68).
-/
namespace Verif.UsageSpec
open Verif.Ids Verif.Usage

/-- The data entry has an occurrence of the IDS. -/
def hasIds (n : Text) (e : EntryInfo) : Bool := e.ids.any fun i => i.name == n

/-- The data entry has an occurrence of the IDS in which the path is filled. -/
def fills (n p : Text) (e : EntryInfo) : Bool := e.ids.any fun i => i.name == n && i.filled.contains p

/-- All occurrences of the IDS. -/
def occurrences (n : Text) (E : List EntryInfo) : List IdsInfo := (E.flatMap (·.ids)).filter fun i => i.name == n

/-- No path is listed twice for the same occurrence. -/
def Once (E : List EntryInfo) : Prop := ∀ e ∈ E, ∀ i ∈ e.ids, i.filled.Nodup

/-- The paths that are filled in some occurrence of the IDS. -/
def filledIn (n : Text) (E : List EntryInfo) : List Text := (occurrences n E).flatMap (·.filled)

/-- The row of an IDS: the share of the data entries that have it. -/
structure IdsRow (E : List EntryInfo) (n : Text) (f : Freq) : Prop where
  present : ∃ e ∈ E, hasIds n e = true
  share : f = ⟨E.countP (hasIds n), E.length⟩

/-- The row of a path: whether error bars are used, the share of the data entries with this IDS in which it is filled, and the
share of the occurrences. -/
structure PathRow (E : List EntryInfo) (n p : Text) (errors : Bool) (f1 f2 : Freq) : Prop where
  filled : ∃ e ∈ E, fills n p e = true
  plain : ¬ "_error_".toList <:+: p
  errors : errors = E.any (fills n (p ++ "_error_upper".toList))
  entries : f1 = ⟨E.countP (fills n p), E.countP (hasIds n)⟩
  occurrences : f2 = ⟨(occurrences n E).countP (fun i => i.filled.contains p), (occurrences n E).length⟩

/-- The order of rows: by IDS, the row of the IDS first, then by path. -/
def Before : Row → Row → Prop
  | .ids n _, .ids m _ => n < m
  | .ids n _, .path m _ _ _ _ => n ≤ m
  | .path n _ _ _ _, .ids m _ => n < m
  | .path n p _ _ _, .path m q _ _ _ => n < m ∨ (n = m ∧ p < q)

/-- The paths of the data nodes in the Data Dictionary (nodes without children). -/
inductive DataNode : MFields → Path → Prop
  | leaf {n l r} : DataNode (.cons n (.leaf l) r) [n]
  | noFields {n r} : DataNode (.cons n (.struct .nil) r) [n]
  | noElems {n r} : DataNode (.cons n (.aos .nil) r) [n]
  | field {n f r p} : DataNode f p → DataNode (.cons n (.struct f) r) (n :: p)
  | elem {n f r p} : DataNode f p → DataNode (.cons n (.aos f) r) (n :: p)
  | rest {n m r p} : DataNode r p → DataNode (.cons n m r) p

/-- `c` are the children of the structure or array of structures `n`. -/
inductive Child : MFields → Name → MFields → Prop
  | struct {n c r} : c ≠ .nil → Child (.cons n (.struct c) r) n c
  | aos {n c r} : c ≠ .nil → Child (.cons n (.aos c) r) n c
  | rest {n m r k c} : Child r k c → Child (.cons n m r) k c

/-- The structures that are shown with their children `c`: those at the top of the IDS, and those in structures that are shown
and in which some data is filled. `pre` is where `f` is. -/
inductive Shown (filled : List Text) : Path → MFields → Path → MFields → Prop
  | top {pre f n c} : Child f n c → Shown filled pre f [n] c
  | inside {pre f n g p c} : Child f n g → (∃ q, DataNode g q ∧ pathString (pre ++ n :: q) ∈ filled) →
      Shown filled (pre ++ [n]) g p c → Shown filled pre f (n :: p) c

/-- The number of data nodes below `p`, and of those that are filled. -/
def Counts (filled : List Text) (p : Path) (c : MFields) (num full : Nat) : Prop :=
  ∃ L : List Path, L.Nodup ∧ (∀ q, q ∈ L ↔ DataNode c q) ∧ num = L.length ∧
    full = L.countP fun q => decide (pathString (p ++ q) ∈ filled)

/-- The line of a data node. -/
def isUsed : Line → Bool
  | .used _ _ => true
  | .inner _ _ _ _ => false

/-! ### Files of the HDF5 backend -/

/-- The path of a data node: names, and whether they are arrays of structures. -/
abbrev Place := List (Name × Bool)

/-- The dataset of a data node. -/
def datasetOf : Place → Text
  | [] => []
  | [(n, b)] => n ++ if b then "[]".toList else []
  | (n, b) :: x :: r => n ++ (if b then "[]".toList else []) ++ '&' :: datasetOf (x :: r)

/-- A name without characters that are special in names of datasets. -/
def PlainName (n : Name) : Prop := '[' ∉ n ∧ ']' ∉ n ∧ '&' ∉ n

/-- No underscore is followed by a digit. -/
def NoNumber (n : Text) : Prop := ¬ ∃ a d b, n = a ++ '_' :: d :: b ∧ d.isDigit = true

/-- The file of an occurrence (its number as text; none for occurrence 0), in which the data nodes at `places` are filled. -/
structure FileOf (f : H5File) (n occ : Text) (places : List Place) : Prop where
  name : NoNumber n
  stem : f.stem = if occ = [] then n else n ++ '_' :: occ
  number : ∀ c ∈ occ, c.isDigit = true
  plain : ∀ x ∈ places, ∀ k ∈ x, PlainName k.1
  data : ∃ ds, f.datasets = some ds ∧ ds.filter (fun d => !"SHAPE".toList.isSuffixOf d) = places.map datasetOf

/-- What is written about a file. -/
def Describes (f : H5File) (i : IdsInfo) : Prop :=
  ∀ n occ places, FileOf f n occ places → i = ⟨n, occ, places.map fun x => pathString (x.map (·.1))⟩

/-- The lists are related element by element. -/
inductive Each {A B : Type} (R : A → B → Prop) : List A → List B → Prop
  | nil : Each R [] []
  | cons {a b l m} : R a b → Each R l m → Each R (a :: l) (b :: m)

/-- What is written about a folder: about every file except `master.h5`. -/
structure FolderInfo (machine : Text) (d : Folder) (e : EntryInfo) : Prop where
  machine : e.machine = machine
  path : e.path = d.path
  files : Each Describes (d.files.filter fun f => f.stem != "master".toList) e.ids

/-- What is in the output file. -/
def contents : Output → List EntryInfo
  | .data l => l
  | _ => []

end Verif.UsageSpec
