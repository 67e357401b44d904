import Verif.Model.NcFile
import Verif.Spec.NcReadable
import Verif.Spec.PyInt
/-
netCDF files that adhere to the conventions.
-/
namespace Verif.NcFileSpec
open Verif.Ids Verif.TreeSpec Verif.Nc Verif.NcSpec Verif.NcFile
open Verif.ConvertSpec (metaAt)
open Verif.AlSpec (arraysOf)

variable {S : Type}

/-- The name of the group of an occurrence. -/
def occName (i : Int) : Text := (toString i).toList

/-- Names of groups below a group are different (netCDF guarantees this). -/
structure GroupsOnce {A : Type} (f : File A) : Prop where
  tops : (f.groups.map (·.1)).Nodup
  occs : ∀ x ∈ f.groups, (x.2.occs.map (·.1)).Nodup

/-- The file has a group for an occurrence. -/
def HasOcc {A : Type} (f : File A) (n : Text) (s : Text) (a : A) : Prop := ∃ t, (n, t) ∈ f.groups ∧ (s, a) ∈ t.occs

/-- A valid group of an IDS. -/
def Valid (D : Dict S) (n : Text) (g : Group S) : Prop := ValidGroup (D.fields n) (D.ncmeta n) (D.texts n) D.sc g

/-- The structure of a file: no variables or dimensions outside of the groups of occurrences, only groups of IDSs, and in them only groups
whose name is a number for Python. -/
structure Structured {A : Type} (D : Dict S) (f : File A) : Prop where
  root : f.extras = false
  nonempty : f.groups ≠ []
  tops : ∀ n t, (n, t) ∈ f.groups → t.extras = false ∧ n ∈ D.names
  numbers : ∀ n s a, HasOcc f n s a → ∃ i, PyIntSpec.WritesInt s i

/-- The names of the groups of occurrences are written in the usual way, without leading zeros, spaces and the like; Python converts
numbers with at most 4300 digits. -/
def UsualNames {A : Type} (f : File A) : Prop := ∀ n s a, HasOcc f n s a → ∃ i : Int, s = occName i ∧ (Nat.toDigits 10 i.natAbs).length ≤ 4300

/-- The Data Dictionary is sound: the metadata for netCDF exist, and `ids_properties/homogeneous_time` is a number outside of arrays of
structures. -/
structure DictOk (D : Dict S) : Prop where
  fields : ∀ n ∈ D.names, WFMFields (D.fields n)
  meta_ok : ∀ n ∈ D.names, ∃ fuel I, ncMetadata fuel I (D.fields n) = .ok (D.ncmeta n)
  mode : ∀ n ∈ D.names, ∃ l, metaAt (.struct (D.fields n)) ["ids_properties".toList, "homogeneous_time".toList] = some (.leaf l) ∧
    l.ndim = 0 ∧ arraysOf (D.fields n) [] ["ids_properties".toList, "homogeneous_time".toList] = []

/-- The groups of occurrences are netCDF groups: variables have different, nonempty names. -/
def NamedGroups (f : File (Group S)) : Prop := ∀ n s g, HasOcc f n s g → NamesOk g

/-- The name of a netCDF file. -/
def FileName (fname : Text) : Prop := (∃ r, fname = r ++ ".nc".toList) ∧ ¬ ∃ r, fname = "imas:".toList ++ r

end Verif.NcFileSpec
