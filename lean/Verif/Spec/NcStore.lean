import Verif.Model.NcStore
/-! Specification of a netCDF data entry as a write-once store. -/
namespace Verif.NcStoreSpec
open Verif.NcStore

variable {B : Type}

/-- Numbers that can be written as text. -/
def Small (i : Int) : Prop := (Nat.toDigits 10 i.natAbs).length ≤ 4300

/-- All occurrence numbers of a history can be written as text. -/
def SmallOps : List (Op B) → Prop
  | [] => True
  | .put _ occ _ :: r => Small occ ∧ SmallOps r
  | _ :: r => SmallOps r

/-- The first full put of an IDS of the dataset's version to a place. -/
def firstPut (version name : Text) (occ : Int) : List (Op B) → Option B
  | [] => none
  | .put d o false :: r =>
    if d.name = name ∧ o = occ ∧ d.version = version then some d.body
    else firstPut version name occ r
  | _ :: r => firstPut version name occ r

/-- Strictly increasing. -/
def Increasing : List Int → Prop
  | [] => True
  | i :: r => (∀ j ∈ r, i < j) ∧ Increasing r

end Verif.NcStoreSpec
