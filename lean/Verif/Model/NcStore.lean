import Verif.Model.Coordinate
/-!
Model of `NCDBEntryImpl` (`/repo/imas/backends/netcdf/db_entry_nc.py`) as a store of IDSs.

The contents of a netCDF group is an abstract type `G`. `write` stands for `IDS2NC(ids,
group).run()`: it returns what is in the group afterwards and the exception, if one was raised
midway. `read` stands for `NC2IDS(...).run(...)`. The netCDF4 library is external: the model
assumes that `dataset[path]` finds exactly the existing groups, that it raises a `KeyError` if a group
on the way does not exist and an `IndexError` if only the last one does not exist, and that
`createGroup` adds one empty group.
-/
namespace Verif.NcStore
open Verif.Coord (pyInt)

abbrev Text := List Char

/-- Exceptions; `other` are those raised while reading or writing the contents of a group. -/
inductive Exc where
  | notImplemented | runtime | dataEntry | index | other (code : Nat)
  deriving DecidableEq, Repr

/-- An IDS: its name, its version and its contents. -/
structure Doc (B : Type) where
  name : Text
  version : Text
  body : B

/-- The IDS, the contents of groups, and how they are written and read. -/
structure Format (B G : Type) where
  /-- `ids_properties.version_put.data_dictionary = version` (lines 152-154), if this node exists -/
  note : Text → B → B
  write : B → G × Option Exc
  read : G → Except Exc B

/-- A dataset: `version` is the version of `_ds_factory`; for each IDS name the groups of its
occurrences, in order of creation. -/
structure Dataset (G : Type) where
  version : Text
  groups : List (Text × List (Text × G))
  deriving Repr

/-- `str(occurrence)`. -/
def showInt (i : Int) : Text :=
  if i < 0 then '-' :: Nat.toDigits 10 i.natAbs else Nat.toDigits 10 i.natAbs

variable {B G : Type}

/-- `key in mapping` / `mapping[key]`. -/
def assoc {A : Type} : List (Text × A) → Text → Option A
  | [], _ => none
  | (k, v) :: r, key => if key = k then some v else assoc r key

/-- `dataset[f"{ids_name}/{occurrence}"]`. -/
def findGroup (ds : Dataset G) (name occ : Text) : Option G :=
  match assoc ds.groups name with
  | none => none
  | some subs => assoc subs occ

/-- `dataset.createGroup(f"{ids_name}/{occurrence}")` for a group that does not exist, with the
contents that it gets afterwards. -/
def addGroup (groups : List (Text × List (Text × G))) (name occ : Text) (g : G) :
    List (Text × List (Text × G)) :=
  match groups with
  | [] => [(name, [(occ, g)])]
  | (n, subs) :: r =>
    if name = n then (n, subs ++ [(occ, g)]) :: r else (n, subs) :: addGroup r name occ g

/-- `NCDBEntryImpl.put` (lines 134-157). -/
def put (f : Format B G) (ds : Dataset G) (d : Doc B) (occ : Int) (slice : Bool) :
    Dataset G × Except Exc Unit :=
  if slice then (ds, .error .notImplemented)
  else if ds.version ≠ d.version then (ds, .error .runtime)
  else if (findGroup ds d.name (showInt occ)).isSome then (ds, .error .runtime)
  else
    let r := f.write (f.note ds.version d.body)
    let ds' := { ds with groups := addGroup ds.groups d.name (showInt occ) r.1 }
    match r.2 with
    | some e => (ds', .error e)
    | none => (ds', .ok ())

/-- `NCDBEntryImpl.get` (lines 88-129); `sliced` tells that parameters of `get_slice` or
`get_sample` are given. Version conversion is part of `read`. Only the `KeyError` is turned into a
`DataEntryException` (lines 112-118). -/
def get (f : Format B G) (ds : Dataset G) (name : Text) (occ : Int) (sliced : Bool) : Except Exc B :=
  if sliced then .error .notImplemented
  else match assoc ds.groups name with
    | none => .error .dataEntry
    | some subs =>
      match assoc subs (showInt occ) with
      | none => .error .index
      | some g => f.read g

/-- `delete_data` (lines 162-163). -/
def delete (ds : Dataset G) (_name : Text) (_occ : Int) : Dataset G × Except Exc Unit :=
  (ds, .error .notImplemented)

/-- Insertion into a sorted list. -/
def insert (i : Int) : List Int → List Int
  | [] => [i]
  | j :: r => if i ≤ j then i :: j :: r else j :: insert i r

/-- `list.sort()`. -/
def sort : List Int → List Int
  | [] => []
  | i :: r => insert i (sort r)

/-- `list_all_occurrences` (lines 165-178): names that are no numbers are skipped with a
warning. -/
def listAll (ds : Dataset G) (name : Text) : List Int :=
  match assoc ds.groups name with
  | none => []
  | some subs => sort (subs.filterMap fun s => pyInt s.1)

/-- Operations on the dataset. -/
inductive Op (B : Type) where
  | put (d : Doc B) (occ : Int) (slice : Bool)
  | get (name : Text) (occ : Int) (sliced : Bool)
  | delete (name : Text) (occ : Int)
  | list (name : Text)

/-- The dataset after an operation. -/
def step (f : Format B G) (ds : Dataset G) : Op B → Dataset G
  | .put d occ slice => (put f ds d occ slice).1
  | .get _ _ _ => ds
  | .delete n occ => (delete ds n occ).1
  | .list _ => ds

def run (f : Format B G) : Dataset G → List (Op B) → Dataset G
  | ds, [] => ds
  | ds, op :: r => run f (step f ds op) r

end Verif.NcStore
