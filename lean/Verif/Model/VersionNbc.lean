import Verif.Model.VersionMap
import Verif.Model.Al
/-
The maps that reading and writing in another Data Dictionary version use: `ids_convert.py`, `NBCPathMap` with `ctxpath`
and `tbp`, and what `IDSMetadata` says of the nodes that are not in a map (`ids_metadata.py`).
-/
namespace Verif.VMap
open Verif.Ids

/-- The field with this path is an array of structures. -/
def isArrayAt (l : List Field) (p : Path) : Bool :=
  match field? l p with
  | some f => f.dtype = "struct_array".toList
  | none => false

/-- The `type` of the field with this path is `dynamic`. -/
def isDynamicAt (l : List Field) (p : Path) : Bool :=
  match field? l p with
  | some f => f.dynamic
  | none => false

/-- `_get_ctxpath` (`ids_convert.py` lines 487-492). (All parents of a field are fields: the code raises `KeyError`
otherwise.) -/
def ctxPathOf (l : List Field) (p : Path) : Path :=
  match (parents p).reverse.find? (isArrayAt l) with
  | some g => p.drop g.length
  | none => p

/-- `_get_tbp` (`ids_convert.py` lines 495-506). -/
def tbpOf (l : List Field) (p : Path) : List Char :=
  match field? l p with
  | none => []
  | some f =>
    if f.dtype = "struct_array".toList then
      if f.dynamic then text (ctxPathOf l p) ++ "/time".toList else []
    else f.timebase

/-- `NBCPathMap.__setitem__` (`ids_convert.py` lines 54-109) for all entries of a map; `l` are the fields of the version
it leads to. -/
def nbcOf (m : List (Path × Option Path)) (change : List (Path × Option Handler)) (l : List Field) : Al.Nbc where
  path p :=
    match m.lookup p with
    | none => none
    | some none => some none
    | some (some q) => some (some (ctxPathOf l q, tbpOf l q))
  change p := (change.lookup p).isSome

/-- `IDSMetadata._ctx_path` (`ids_metadata.py` lines 149-155 and 246-253): `done` is the path of the structure with this
`context_path`. -/
def metaCtx (l : List Field) : Path → Path → Path → Path
  | _, _, [] => []
  | done, ctx, n :: r =>
    match r with
    | [] => ctx ++ [n]
    | _ => metaCtx l (done ++ [n]) (if isArrayAt l (done ++ [n]) then [] else ctx ++ [n]) r

/-- `IDSMetadata.timebasepath` (`ids_metadata.py` lines 182 and 190-206). -/
def metaTimebase (l : List Field) (p : Path) : List Char :=
  match field? l p with
  | none => []
  | some f =>
    if f.dtype = "struct_array".toList then
      if f.dynamic then text (metaCtx l [] [] p) ++ "/time".toList else []
    else if f.timebase ≠ [] && (!f.dynamic || (parents p).any (isDynamicAt l)) then []
    else f.timebase

/-- What the backend uses of the metadata. -/
def infoOf {V : Type} (l : List Field) (maxoccur : Path → Nat) (isDefault : LeafMeta → V → Bool) : Al.Info V where
  dynamic := isDynamicAt l
  ctxPath := metaCtx l [] []
  timebase := metaTimebase l
  maxoccur := maxoccur
  isDefault := isDefault

/-- The map for reading and writing old data with the new version, `new_to_old`. -/
def nbcToOld (d : Dicts) : Al.Nbc := nbcOf (buildMap d).toOld (buildMap d).changeOld d.old

/-- The map for reading and writing new data with the old version, `old_to_new`. -/
def nbcToNew (d : Dicts) : Al.Nbc := nbcOf (buildMap d).toNew (buildMap d).changeNew d.new

end Verif.VMap
