import Verif.Spec.NcData
import Verif.Spec.VersionNbc
/-
Data of other Data Dictionary versions in netCDF files.
-/
namespace Verif.NcSpec
open Verif.Ids Verif.VMap Verif.VMapSpec Verif.TreeSpec
open Verif.ConvertSpec (metaAt)

variable {V : Type} [Value V]

/-- Fields with equal types have the same type and rank in the metadata of both versions. -/
def SameTypes (d : Dicts) (m1 m2 : MFields) : Prop :=
  ∀ f ∈ d.new, ∀ o ∈ d.old, d.same f.dtype o.dtype = true → ∀ l l', metaAt (.struct m2) f.path = some (.leaf l) →
    metaAt (.struct m1) o.path = some (.leaf l') → l.type = l'.type ∧ l.ndim = l'.ndim

/-- The structures and arrays of structures around everything that is filled are kept. -/
def AroundKept (kept : Path → Prop) (c : Fields V) : Prop :=
  ∀ p i x, look c p i = some x → Filled x → ∀ t r, p = t ++ r → t ≠ [] → r ≠ [] → kept t

/-- This path of the older version is the same node in the newer one. -/
def KeptOld (d : Dicts) (p : Path) : Prop := ∃ f o, SameNode d f o ∧ o.path = p

/-- This path of the newer version is the same node in the older one. -/
def KeptNew (d : Dicts) (p : Path) : Prop := ∃ f o, SameNode d f o ∧ f.path = p

end Verif.NcSpec
