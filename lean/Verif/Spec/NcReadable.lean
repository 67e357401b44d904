import Verif.Spec.NcValid
/-
What netCDF guarantees for the data of variables, and sizes of arrays of structures that fit.
-/
namespace Verif.NcSpec
open Verif.Ids Verif.Nc
open Verif.ConvertSpec (metaAt)

variable {S : Type}

/-- The data of variables have the sizes of their dimensions (netCDF guarantees this). -/
structure DataFits (g : Group S) : Prop where
  vars : ∀ p v, dget g.vars p = some v → v.dims.map (dget g.dims) = v.data.shape.map some
  shapes : ∀ p s, dget g.shapes p = some s → s.dims.map (dget g.dims) = s.data.shape.map some

/-- The sizes of arrays of structures: if there is a single size, the dimension exists; and sizes in `:shape` variables are at most
the size of the dimension. -/
def ArraysFit (m : MFields) (N : NcMeta) (hom : Bool) (g : Group S) : Prop :=
  ∀ p c v d, metaAt (.struct m) p = some (.aos c) → dget g.vars p = some v → (N.getDims hom p).getLast? = some d →
    (v.sparse = false → dget g.dims (.dd d) ≠ none) ∧
    (v.sparse = true → ∀ s i n k, dget g.shapes p = some s → s.data.get (i ++ [0]) = some n → dget g.dims (.dd d) = some k → n ≤ k)

end Verif.NcSpec
