import Verif.Model.NcRead
import Verif.Model.NcStore
/-
Model of the validation of netCDF files: `validate_netcdf_file` (`/repo/imas/backends/netcdf/nc_validate.py`), used by the command
`imas validate_nc` (`/repo/imas/command/cli.py` lines 220-232), with opening a file for reading
(`/repo/imas/backends/netcdf/db_entry_nc.py` lines 60-77).

Representation choices:
* A file has the groups that are named like IDSs, and these have groups with the variables. Groups further down are not represented:
  neither validating nor reading looks at them.
* `dataset[path]` for a group that does not exist below one that exists raises an `IndexError` (netCDF4).
* Messages are not modelled.
-/
namespace Verif.NcFile
open Verif.Ids Verif.Nc
open Verif.Coord (pyInt)
open Verif.NcStore (showInt assoc sort)

inductive Exc where
  | invalid | unknownVersion | index | notFound | dataEntry
  /-- the name is a URI of the Access Layer -/
  | access
  /-- other errors while a group is read or checked -/
  | reading (e : NcErr)
  deriving DecidableEq, Repr

/-- A group below the root; `extras`: it has variables or dimensions. -/
structure Top (A : Type) where
  extras : Bool
  occs : List (Text × A)

/-- A netCDF file; `version` is the attribute `data_dictionary_version`. -/
structure File (A : Type) where
  version : Option Text
  extras : Bool
  groups : List (Text × Top A)

/-- A version of the Data Dictionary: the IDSs, and what reading groups uses. -/
structure Dict (S : Type) where
  names : List Text
  fields : Text → MFields
  ncmeta : Text → NcMeta
  texts : Text → Texts
  sc : Scalars S

section
variable {S : Type}

/-- `NC2IDS(group, factory.new(name), metadata, None)` -/
def Dict.reader (D : Dict S) (n : Text) (g : Group S) : Reader S :=
  { sc := D.sc, tx := D.texts n, N := D.ncmeta n, stored := D.fields n, target := D.fields n, map := none, group := g }

/-- `NC2IDS(...)` and `validate_variables` (`nc2ids.py` lines 31-87 and 174-212); `enabled`: validation is not switched off with
`IMAS_DISABLE_NC_VALIDATE`. -/
def checkGroup (R : Reader S) (enabled : Bool) : Except NcErr Unit :=
  match readMode R with
  | .error e => .error e
  | .ok hom => if enabled then validateAll R hom R.group.names else .ok ()

/-- `_init_dd_version` for reading: the Data Dictionary of the file. `dicts` is `IDSFactory(version)`. -/
def openFile {A : Type} (dicts : Text → Option (Dict S)) (f : File A) : Except Exc (Dict S) :=
  if f.extras || !f.groups.isEmpty then
    match f.version with
    | none => .error .invalid
    | some v =>
      match dicts v with
      | none => .error .unknownVersion
      | some D => .ok D
  else .error .invalid

/-- Lines 25-45 for the groups below the root. -/
def checkTops {A : Type} (names : List Text) : List (Text × Top A) → Except Exc Unit
  | [] => .ok ()
  | (n, t) :: r =>
    if t.extras then .error .invalid
    else if n ∉ names then .error .invalid
    else if t.occs.any (fun s => (pyInt s.1).isNone) then .error .invalid
    else checkTops names r

/-- `entry.list_all_occurrences(name)` -/
def occurrences {A : Type} (f : File A) (n : Text) : List Int :=
  match assoc f.groups n with
  | none => []
  | some t => sort (t.occs.filterMap fun s => pyInt s.1)

/-- `dataset[f"{name}/{occurrence}"]` -/
def findOcc {A : Type} (f : File A) (n : Text) (o : Int) : Option A :=
  match assoc f.groups n with
  | none => none
  | some t => assoc t.occs (showInt o)

/-- Lines 49-55. -/
def checkOcc (D : Dict S) (enabled : Bool) (f : File (Group S)) (n : Text) (o : Int) : Except Exc Unit :=
  match findOcc f n o with
  | none => .error .index
  | some g =>
    match checkGroup (D.reader n g) enabled with
    | .ok _ => .ok ()
    | .error .invalid => .error .invalid
    | .error e => .error (.reading e)

/-- A loop that ends with the first exception. -/
def each {A : Type} (h : A → Except Exc Unit) : List A → Except Exc Unit
  | [] => .ok ()
  | x :: r =>
    match h x with
    | .error e => .error e
    | .ok _ => each h r

/-- Lines 47-55. -/
def checkOccs (D : Dict S) (enabled : Bool) (f : File (Group S)) : List Text → Except Exc Unit
  | [] => .ok ()
  | n :: r =>
    match each (checkOcc D enabled f n) (occurrences f n) with
    | .error e => .error e
    | .ok _ => checkOccs D enabled f r

/-- `s.endswith(t)` -/
def endsWith (s t : Text) : Bool := t.isSuffixOf s

/-- `validate_netcdf_file` (lines 7-55). `file` is what the file contains (`none`: there is none). URIs of the Access Layer are no files:
either the Access Layer raises an exception, or the entry has no netCDF dataset. -/
def validateFile (dicts : Text → Option (Dict S)) (enabled : Bool) (fname : Text) (file : Option (File (Group S))) : Except Exc Unit :=
  if !endsWith fname ".nc".toList then .error .invalid
  else if "imas:".toList.isPrefixOf fname then .error .access
  else
    match file with
    | none => .error .notFound
    | some f =>
      match openFile dicts f with
      | .error e => .error e
      | .ok D =>
        if f.extras then .error .invalid
        else
          match checkTops D.names f.groups with
          | .error e => .error e
          | .ok _ => checkOccs D enabled f D.names

/-- `get(name, occurrence)` of a data entry that has the version of the file (`db_entry_nc.py` lines 88-129). Only the `KeyError` for an
IDS without group is turned into a `DataEntryException`. -/
def getFile [DecidableEq S] (D : Dict S) (enabled : Bool) (f : File (Group S)) (n : Text) (o : Int) : Except Exc (Fields (Arr S)) :=
  match assoc f.groups n with
  | none => .error .dataEntry
  | some t =>
    match assoc t.occs (showInt o) with
    | none => .error .index
    | some g =>
      match readIds (D.reader n g) enabled with
      | .ok c => .ok c
      | .error .invalid => .error .invalid
      | .error e => .error (.reading e)

end
end Verif.NcFile
