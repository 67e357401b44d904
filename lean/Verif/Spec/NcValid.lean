import Verif.Spec.NcSize
/-
netCDF groups that agree with the Data Dictionary.
-/
namespace Verif.NcSpec
open Verif.Ids Verif.Nc
open Verif.ConvertSpec (metaAt)
open Verif.AlSpec (arraysOf)

variable {S : Type}

/-- `a` is an error bar of `p`. -/
def ErrorOf (p a : Path) : Prop :=
  ∃ q n, p = q ++ [n] ∧ (a = q ++ [n ++ "_error_upper".toList] ∨ a = q ++ [n ++ "_error_lower".toList])

/-- A variable agrees with the Data Dictionary: the type, the dimensions, the coordinates and error bars of data; units;
a `:shape` variable for sparse data with dimensions; no other attributes. -/
structure ValidVar (m : MFields) (N : NcMeta) (tx : Texts) (g : Group S) (hom : Bool) (p : Path) (y : Meta) (v : Var S) : Prop where
  type : ∀ l, y = .leaf l → v.type = .data l.type
  dims : ∀ l, y = .leaf l → v.dims = (N.getDims hom p).map .dd
  coordinates : ∀ l, y = .leaf l → ∀ names, v.coordinates = some names → ∀ a ∈ names, a ∈ N.getCoords hom p
  errors : ∀ l, y = .leaf l → ∀ names, v.ancillary = some names → ∀ a ∈ names, ErrorOf p a
  noData : (∀ l, y ≠ .leaf l) → v.coordinates = none ∧ v.ancillary = none
  units : tx.units p ≠ [] → v.units = some (tx.units p)
  sparse : v.sparse = true → rank y ≠ 0 → ∃ s d, dget g.shapes p = some s ∧
    s.dims = (match (arraysOf m [] p).getLast? with
      | none => []
      | some a => (N.getDims hom a).map .dd) ++ [d] ∧
    dget g.dims d = some (rank y) ∧ s.integer = true
  other : v.other = []

/-- A group agrees with the Data Dictionary: it contains a valid time mode, valid variables for nodes that exist, and `:shape`
variables only for sparse data. -/
def ValidGroup (m : MFields) (N : NcMeta) (tx : Texts) (sc : Scalars S) (g : Group S) : Prop :=
  ∃ v k, dget g.vars ["ids_properties".toList, "homogeneous_time".toList] = some v ∧ (v.data.get []).bind sc.int = some k ∧ (k = 0 ∨ k = 1 ∨ k = 2) ∧
    (∀ p v, dget g.vars p = some v → ∃ y, metaAt (.struct m) p = some y ∧ ValidVar m N tx g (decide (k = 1)) p y v) ∧
    ∀ p s, dget g.shapes p = some s → ∃ v, dget g.vars p = some v ∧ v.sparse = true

/-- Dimensions of variables exist (netCDF guarantees this). -/
def DimsExist (g : Group S) : Prop := ∀ p s, dget g.shapes p = some s → ∀ d ∈ s.dims, (dget g.dims d).isSome = true

end Verif.NcSpec
