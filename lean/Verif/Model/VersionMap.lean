import Verif.Model.Tree
/-
The map between two Data Dictionary versions: `ids_convert.py`, class `DDVersionMap`.

Paths are lists of names; their text form (`a/b/c`) is used where the code compares texts. Dictionaries
(`dict`) are lists of pairs, the newest entry first; looking up a key finds its newest entry. Log
messages and `ignore_missing_paths` are not modelled; `tbp` and `ctxpath` are in `Verif.Model.VersionNbc`.
-/
namespace Verif.VMap
open Verif.Ids

abbrev Path := List Name

/-- The text of a path. -/
def text : Path → List Char
  | [] => []
  | [n] => n
  | n :: r => n ++ '/' :: text r

/-- Values of `change_nbc_description` (lines 241-336). -/
inductive Desc where
  | renamed
  | typeChanged
  | repeatFirst
  | repeatConditional
  | centreline
  | other
deriving DecidableEq

/-- The attributes `change_nbc_description`, `change_nbc_version` (`none` if it cannot be parsed) and
`change_nbc_previous_name`. Versions are numbers: only their order matters. Previous names are relative to the structure
around the field. They are split at `/`: nodes that moved to or from an inner structure have names with more than one
part. -/
structure Nbc where
  desc : Desc
  versions : Option (List Nat)
  prev : List Path

/-- A `<field>` element: its path, `data_type`, whether it has `doc_identifier`, its annotation, whether its `type` is
`dynamic`, and `timebasepath` (empty if it has none). -/
structure Field where
  path : Path
  dtype : List Char
  docId : Bool
  nbc : Option Nbc
  dynamic : Bool := false
  timebase : List Char := []

/-- Functions recorded in `NBCPathMap.type_change`. -/
inductive Handler where
  | structAos | zeroOne | identifier | fltInt
  | removeConditional | repeatConditional | repeatCentreline | removeCentreline
deriving DecidableEq

/-- `old_to_new` and `new_to_old`, each with `path` and `type_change` (lines 54-109). A path mapped to
nothing has the entry `none`; `type_change` maps unsupported changes to `none`. -/
structure Maps where
  toNew : List (Path × Option Path)
  toOld : List (Path × Option Path)
  changeNew : List (Path × Option Handler)
  changeOld : List (Path × Option Handler)

def Maps.empty : Maps := ⟨[], [], [], []⟩

/-- What is given: the fields of the old and of the new dictionary in document order, the old
version, and when `IDSDataType.parse` gives equal results. -/
structure Dicts where
  old : List Field
  new : List Field
  version : Nat
  same : List Char → List Char → Bool

/-- `old_paths.get(path)`, `new_paths.get(path)`. -/
def field? (l : List Field) (p : Path) : Option Field := l.find? fun f => f.path = p

/-- `data_type in STRUCTURE_TYPES`. -/
def isStructType (t : List Char) : Bool := t = "structure".toList || t = "struct_array".toList

/-- `sorted([new, old]) == [a, b]` -/
def areTypes (new old a b : List Char) : Bool := (new = a && old = b) || (new = b && old = a)

/-- The handler that `_check_data_type` (lines 150-204) records for a supported type change. -/
def handlerFor (old new : Field) : Option Handler :=
  let is := areTypes new.dtype old.dtype
  if is "struct_array".toList "structure".toList then some .structAos
  else if is "INT_0D".toList "INT_1D".toList || is "FLT_0D".toList "FLT_1D".toList ||
      is "CPX_0D".toList "CPX_1D".toList || is "STR_0D".toList "STR_1D".toList then some .zeroOne
  else if old.dtype = "INT_1D".toList && new.docId then some .identifier
  else if is "FLT_0D".toList "INT_0D".toList then some .fltInt
  else none

/-- `_check_data_type` (lines 150-204). -/
def checkDataType (d : Dicts) (old new : Field) (m : Maps) : Bool × Maps :=
  if d.same new.dtype old.dtype then (true, m)
  else
    match handlerFor old new with
    | some h => (true, { m with changeOld := (new.path, some h) :: m.changeOld,
                                changeNew := (old.path, some h) :: m.changeNew })
    | none => (false, { toOld := (new.path, none) :: m.toOld, changeOld := (new.path, none) :: m.changeOld,
                        toNew := (old.path, none) :: m.toNew, changeNew := (old.path, none) :: m.changeNew })

/-- `iter_parents` (lines 35-51). -/
def parents (p : Path) : List Path := ((List.range p.length).map p.take).filter (· ≠ [])

/-- `process_parent_renames` (lines 217-227): the closest parent that was renamed is replaced. -/
def processParents (new : List Field) (m : Maps) (path : Path) : Path :=
  match (parents path).reverse.find? fun g =>
    match m.toOld.lookup g, field? new g with
    | some (some _), some f => isStructType f.dtype
    | _, _ => false with
  | none => path
  | some g =>
    match m.toOld.lookup g with
    | some (some f) => f ++ path.drop g.length
    | _ => path

/-- `get_old_path` (lines 229-237). -/
def getOldPath (new : List Field) (m : Maps) (path previous : Path) : Path :=
  processParents new m (path.dropLast ++ previous)

/-- `_add_rename` (lines 338-358). -/
def addRename (old new : Path) (m : Maps) : Maps :=
  { m with toNew := (old, some new) :: m.toNew, toOld := (new, some old) :: m.toOld }

/-- Lines 281-286: entries for common sub-elements of a renamed structure. The code compares texts:
`path.startswith(old_path)` and `path.replace(old_path, new_path, 1)`. -/
def addChildren (d : Dicts) (old new : Path) : List Field → Maps → Maps
  | [], m => m
  | f :: r, m =>
    if (text old).isPrefixOf (text f.path) then
      match d.new.find? fun g => text g.path = text new ++ (text f.path).drop (text old).length with
      | some g => addChildren d old new r (addRename f.path g.path m)
      | none => addChildren d old new r m
    else addChildren d old new r m

/-- Lines 263-268: the previous name for the first version that is newer than the old dictionary. -/
def pickName (version : Nat) : List Nat → List Path → Option Path
  | v :: vs, n :: ns => if v > version then some n else pickName version vs ns
  | _, _ => none

/-- Lines 252-260: whether the (sorted) versions of the annotation include one after the old
dictionary. -/
def applies (version : Nat) (vs : List Nat) : Bool :=
  match vs.getLast? with
  | some v => version < v
  | none => false

/-- One pass of the loop over annotated fields (lines 240-314). -/
def nbcStep (d : Dicts) (m : Maps) (f : Field) : Maps :=
  match f.nbc with
  | none => m
  | some a =>
    match a.versions with
    | none => m
    | some vs =>
      if applies d.version vs then
        match a.desc with
        | .renamed =>
          match pickName d.version vs a.prev with
          | none => m
          | some k =>
            let oldPath := getOldPath d.new m f.path k
            match field? d.old oldPath with
            | none => m
            | some o =>
              match checkDataType d o f m with
              | (false, m') => m'
              | (true, m') =>
                let m'' := addRename oldPath f.path m'
                if isStructType o.dtype then addChildren d oldPath f.path d.old m'' else m''
        | .typeChanged => m
        | .repeatFirst => m
        | .repeatConditional =>
          { m with changeOld := (f.path, some .removeConditional) :: m.changeOld,
                   changeNew := (processParents d.new m f.path, some .repeatConditional) :: m.changeNew }
        | .centreline =>
          { m with changeOld := (f.path, some .repeatCentreline) :: m.changeOld,
                   changeNew := (processParents d.new m f.path, some .removeCentreline) :: m.changeNew }
        | .other => m
      else m

/-- Lines 317-320: check the type of common elements that are not part of another change. -/
def checkCommon (d : Dicts) (m : Maps) (f : Field) : Maps :=
  match field? d.old f.path with
  | none => m
  | some o =>
    if (m.toOld.lookup f.path).isSome || (m.toNew.lookup f.path).isSome then m
    else (checkDataType d o f m).2

/-- `_map_missing` (lines 464-484). `missing` are the paths in an order with parents first (the code
sorts them by text). -/
def skipped (m : List (Path × Option Path)) : List Path → List Path → List Path
  | [], done => done
  | p :: r, done =>
    if m.any (fun e => (parents e.1).contains p) then skipped m r done
    else if (parents p).any done.contains then skipped m r done
    else skipped m r (p :: done)

def mapMissing (m : List (Path × Option Path)) (missing : List Path) : List (Path × Option Path) :=
  (skipped m missing []).map (·, none) ++ m

/-- The maps after the loop over annotations and the check of common elements. -/
def renames (d : Dicts) : Maps := d.new.foldl (checkCommon d) (d.new.foldl (nbcStep d) Maps.empty)

/-- `_build_map` (lines 206-336) without the additional rules for DD3 to DD4 (lines 328-336). Common
elements are visited in document order (the code: in the order of a set; each only concerns its own
path). -/
def buildMap (d : Dicts) : Maps :=
  let m := renames d
  let missingNew := (d.new.map (·.path)).filter fun p => (field? d.old p).isNone && (m.toOld.lookup p).isNone
  let missingOld := (d.old.map (·.path)).filter fun p => (field? d.new p).isNone && (m.toNew.lookup p).isNone
  { m with toOld := mapMissing m.toOld missingNew, toNew := mapMissing m.toNew missingOld }

def nName : Name := ['n', 'a', 'm', 'e']
def nIdentifier : Name := ['i', 'd', 'e', 'n', 't', 'i', 'f', 'i', 'e', 'r']
def nIndex : Name := ['i', 'n', 'd', 'e', 'x']
def nDescription : Name := ['d', 'e', 's', 'c', 'r', 'i', 'p', 't', 'i', 'o', 'n']

/-- Lines 428-451: whether the path of a field is `parent/name` and the rule applies to this parent. -/
def nameParent (d : Dicts) (f : Field) : Option Path :=
  match f.path.getLast? with
  | none => none
  | some n =>
    let g := f.path.dropLast
    if n = nName && g ≠ [] && (field? d.old (g ++ [nIdentifier])).isSome &&
        (field? d.old (g ++ [nIndex])).isNone && (field? d.new (g ++ [nDescription])).isSome &&
        (field? d.new (g ++ [nName])).isSome then some g
    else none

/-- Lines 453-462: `parent/name` becomes `parent/description`, `parent/identifier` becomes
`parent/name`. -/
def nameRule (m : Maps) (g : Path) : Maps :=
  let m1 := if (m.toNew.lookup (g ++ [nName])).isNone then addRename (g ++ [nName]) (g ++ [nDescription]) m else m
  if (m1.toNew.lookup (g ++ [nIdentifier])).isSome then addRename (g ++ [nIdentifier]) (g ++ [nName]) m1 else m1

/-- The rule of lines 415-462 (GH#59), applied to all fields of the old dictionary. -/
def nameRules (d : Dicts) (m : Maps) : Maps := (d.old.filterMap (nameParent d)).foldl nameRule m

def nSource : Path := ["ids_properties".toList, "source".toList]
def nProvenance : Path := ["ids_properties".toList, "provenance".toList]

/-- Lines 387-394: `ids_properties/source` becomes `ids_properties/provenance`, in this direction only. (What the
function recorded for it in `type_change` does is `Verif.Model.Provenance`.) -/
def sourceRule (m : Maps) : Maps := { m with toNew := (nSource, some nProvenance) :: m.toNew }

/-- The paths found in lines 411-414: mapped to nothing, although the other map has them. -/
def obsolete (m m341 : List (Path × Option Path)) : List Path :=
  (m.map (·.1)).filter fun p => m.lookup p == some none && (m341.lookup p).isSome

/-- Lines 410-422 (GH#55): entries of the map from 3.41 replace those of obsolete paths and are added for everything
below them (`p.startswith(path + "/")`). -/
def migrate (m m341 : List (Path × Option Path)) : List (Path × Option Path) :=
  let assigned := (obsolete m m341).filterMap fun p => (m341.lookup p).map (p, ·)
  let update := (obsolete m m341).flatMap fun g => (m341.map (·.1)).filterMap fun p =>
    if (text g ++ ['/']).isPrefixOf (text p) then (m341.lookup p).map (p, ·) else none
  update ++ (assigned ++ m)

/-- The map from a DD3 version before 3.42 to DD4 (lines 206-336 and 360-462). The post-processing functions of
lines 361-380 are not part of `Maps`. -/
def map3 (d : Dicts) : Maps := nameRules d (sourceRule (buildMap d))

/-- The map from DD 3.42 or later to DD4; `d341` are the dictionaries of 3.41 and of the new version (lines 396-422). -/
def map342 (d d341 : Dicts) : Maps :=
  let m := sourceRule (buildMap d)
  nameRules d { m with toNew := migrate m.toNew (map3 d341).toNew }

end Verif.VMap
