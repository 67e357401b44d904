import Verif.Model.NcRead
import Verif.Model.VersionNbc
/-
Reading netCDF files of another Data Dictionary version: `imas/backends/netcdf/db_entry_nc.py`, `NCDBEntryImpl.get`.
-/
namespace Verif.Nc
open Verif.Ids Verif.VMap

/-- `NBCPathMap.path` and `NBCPathMap.type_change` (`ids_convert.py` lines 54-109). -/
def ncMapOf (m : List (Path × Option Path)) (change : List (Path × Option Handler)) : NcMap where
  path p := m.lookup p
  change p := (change.lookup p).isSome

/-- The map from what is in the file to what is in memory (`db_entry_nc.py` lines 121-130); `older`: the data in the file are
those of the older version. -/
def ncMap (d : Dicts) (older : Bool) : NcMap :=
  if older then ncMapOf (buildMap d).toNew (buildMap d).changeNew else ncMapOf (buildMap d).toOld (buildMap d).changeOld

/-- `NC2IDS(group, destination, self._ds_factory.new(ids_name).metadata, nbc_map)` (`db_entry_nc.py` lines 131-133): `m` are the
metadata of the file's version, `mt` those of the destination. -/
def otherReader {S : Type} (sc : Scalars S) (tx : Texts) (N : NcMeta) (m mt : MFields) (M : Option NcMap) (g : Group S) : Reader S where
  sc := sc
  tx := tx
  N := N
  stored := m
  target := mt
  map := M
  group := g

end Verif.Nc
