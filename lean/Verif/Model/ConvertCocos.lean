import Verif.Model.ConvertVersion
import Verif.Model.TypeChange
/-
Explicit conversion between DD3 and DD4 (`convert_ids`, `/repo/imas/ids_convert.py` lines 527-629) with the sign changes of
the COCOS convention (lines 361-372). The map is that of `Verif.Model.ConvertVersion`, the sign changes are those of
`Verif.Model.TypeChange`.

Not included: the functions for `pf_active` `circuit/connections` (`Verif.Model.Pulse`) and for equilibrium
boundaries (`Verif.Model.ContourTree`).
-/
namespace Verif.Convert
open Verif.Ids Verif.VMap

variable {F : Type} [FloatModel F]

/-- `rename_map` for a conversion from DD3 (before 3.42) to DD4. `labels` are the `cocos_label_transformation`s of the old
dictionary, `extra` the entry of `_3to4_sign_flip_paths` (lines 758-845), `flux` tells for which paths the target node is
`flux_loop/flux`. -/
def cfgSignsNew (cv : Conv F) (d : Dicts) (labels : List (VMap.Path × Option (List Char))) (extra : List VMap.Path)
    (flux : VMap.Path → Bool) (provenance : Node (Val F) → Node (Val F) → Except ConvErr (Node (Val F)))
    (custom : VMap.Path → Handler → Node (Val F) → Node (Val F) → Except ConvErr (Node (Val F))) : Cfg (Val F) :=
  cfg3ToNew d provenance custom (cocosOld cv (cocosPaths labels extra) flux) (storeVal cv)

/-- `rename_map` for a conversion from DD4 to DD3 (before 3.42). Line 370 looks up the new path before the rules for the source and
for names are applied. -/
def cfgSignsOld (cv : Conv F) (d : Dicts) (labels : List (VMap.Path × Option (List Char))) (extra : List VMap.Path)
    (flux : VMap.Path → Bool)
    (custom : VMap.Path → Handler → Node (Val F) → Node (Val F) → Except ConvErr (Node (Val F))) : Cfg (Val F) :=
  cfg3ToOld d custom (cocosNew cv (fun p => (buildMap d).toNew.lookup p) (cocosPaths labels extra) flux) (storeVal cv)

end Verif.Convert
