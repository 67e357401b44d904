import Verif.Model.Convert
import Verif.Model.VersionMap
/-
Explicit conversion (`convert_ids`, `/repo/imas/ids_convert.py` lines 527-629) with the map that
`_DDVersionMap` builds from the two dictionaries (lines 206-336).

The conversion functions of type changes other than structures and arrays of structures are
parameters here (they are modelled in `Verif.Model.TypeChange` and `Verif.Model.Contour`), and so are
post-processing functions. The rules for DD3 to DD4 only (`_apply_3to4_conversion`) are in `cfg3ToNew` and `cfg3ToOld`.
-/
namespace Verif.Convert
open Verif.Ids Verif.VMap

variable {V : Type}

/-- Entries of `type_change` (lines 79-86) for the recorded handlers. Unsupported changes have the entry
None; calling it (line 736) raises a `TypeError`. -/
def changeOf (custom : Handler → Node V → Node V → Except ConvErr (Node V)) : Option Handler → Change V
  | some .structAos => .structAos
  | some h => .custom (custom h)
  | none => .custom fun _ _ => .error .kind

/-- The `NBCPathMap` (lines 54-109) with these entries of `path` and `type_change`, as used by
`_copy_structure`. -/
def cfgOf (paths : List (VMap.Path × Option VMap.Path)) (change : List (VMap.Path × Option Handler))
    (custom : VMap.Path → Handler → Node V → Node V → Except ConvErr (Node V))
    (post : VMap.Path → Option (Node V → Except ConvErr (Node V)))
    (store : LeafMeta → V → Except ConvErr (Option V)) : Cfg V where
  path p := paths.lookup p
  change p := (change.lookup p).map (changeOf (custom p))
  post := post
  store := store

/-- `rename_map` for a conversion to the newer version (line 594). -/
def cfgToNew (d : Dicts) (custom : VMap.Path → Handler → Node V → Node V → Except ConvErr (Node V))
    (post : VMap.Path → Option (Node V → Except ConvErr (Node V)))
    (store : LeafMeta → V → Except ConvErr (Option V)) : Cfg V :=
  cfgOf (buildMap d).toNew (buildMap d).changeNew custom post store

/-- `rename_map` for a conversion to the older version (line 591). -/
def cfgToOld (d : Dicts) (custom : VMap.Path → Handler → Node V → Node V → Except ConvErr (Node V))
    (post : VMap.Path → Option (Node V → Except ConvErr (Node V)))
    (store : LeafMeta → V → Except ConvErr (Option V)) : Cfg V :=
  cfgOf (buildMap d).toOld (buildMap d).changeOld custom post store

/-- `rename_map` for a conversion from DD3 (before 3.42) to DD4: the map after lines 360-462, with the function for
`ids_properties/source` (lines 387-394, modelled in `Verif.Model.Provenance`) as parameter. -/
def cfg3ToNew (d : Dicts) (provenance : Node V → Node V → Except ConvErr (Node V))
    (custom : VMap.Path → Handler → Node V → Node V → Except ConvErr (Node V))
    (post : VMap.Path → Option (Node V → Except ConvErr (Node V)))
    (store : LeafMeta → V → Except ConvErr (Option V)) : Cfg V :=
  let cx := cfgOf (map3 d).toNew (map3 d).changeNew custom post store
  { cx with change := fun p => if p = nSource then some (.custom provenance) else cx.change p }

/-- `rename_map` for a conversion from DD4 to DD3 (before 3.42). -/
def cfg3ToOld (d : Dicts) (custom : VMap.Path → Handler → Node V → Node V → Except ConvErr (Node V))
    (post : VMap.Path → Option (Node V → Except ConvErr (Node V)))
    (store : LeafMeta → V → Except ConvErr (Option V)) : Cfg V :=
  cfgOf (map3 d).toOld (map3 d).changeOld custom post store

end Verif.Convert
