import Verif.Spec.VersionMap
import Verif.Spec.AlMap
/-
Which nodes are read and written in another Data Dictionary version.
-/
namespace Verif.VMapSpec
open Verif.Ids Verif.VMap Verif.ConvertSpec

/-- The type of the field changed, or its outlines are stored in another way. -/
def Changed (d : Dicts) (f o : Field) : Prop :=
  d.same f.dtype o.dtype = false ∨ Annotated d f .repeatConditional ∨ Annotated d f .centreline

/-- The new field `f` and the old field `o` are the same node: the dictionaries identify them, and neither they nor any
structures above them changed. -/
def SameNode (d : Dicts) (f o : Field) : Prop :=
  Claim d f o ∧ ∀ f' o' r, Claim d f' o' → f.path = f'.path ++ r → ¬ Changed d f' o'

/-- Fields of this `data_type` have metadata of this kind. -/
def IsKind (t : List Char) : Meta → Prop
  | .leaf _ => t ≠ "structure".toList ∧ t ≠ "struct_array".toList
  | .struct _ => t = "structure".toList
  | .aos _ => t = "struct_array".toList

/-- The fields describe the metadata tree: same paths, same kinds of nodes. -/
structure Shows (l : List Field) (m : MFields) : Prop where
  node : ∀ p x, p ≠ [] → metaAt (.struct m) p = some x → ∃ f ∈ l, f.path = p ∧ IsKind f.dtype x
  field : ∀ f ∈ l, ∃ x, metaAt (.struct m) f.path = some x ∧ IsKind f.dtype x

/-- Equal types are types of the same kind. -/
def KeepsKind (d : Dicts) : Prop :=
  ∀ a b, d.same a b = true → (a = "structure".toList ↔ b = "structure".toList) ∧
    (a = "struct_array".toList ↔ b = "struct_array".toList)

/-- The node at `a` in the new version is the node at `b` in the old version: same node of the dictionaries, same element
indices. -/
def SamePlace (d : Dicts) (a b : Addr) : Prop :=
  (∃ f o, SameNode d f o ∧ f.path = Verif.Convert.names a ∧ o.path = Verif.Convert.names b) ∧
    a.filterMap (·.2) = b.filterMap (·.2)

/-- `g` is above the path `p`. -/
def Above (p : Path) (g : Field) : Prop := ∃ r, r ≠ [] ∧ p = g.path ++ r

/-- If a data node or array of structures has the path of another field of the other version, it is identified with some field.
(Otherwise the code confuses the two.) Structures that nodes were moved out of (previous names with several parts) are no arrays
of structures, and did not change themselves. -/
structure Placed (d : Dicts) : Prop where
  reuse : ∀ f ∈ d.new, ∀ o ∈ d.old, f.path = o.path →
    (f.dtype = "structure".toList ∨ ∃ o', Claim d f o') ∧ (o.dtype = "structure".toList ∨ ∃ f', Claim d f' o)
  left : ∀ f o, Claim d f o → ∀ h ∈ d.old, Above o.path h →
    (∃ g, Claim d g h ∧ Above f.path g) ∨ h.dtype = "structure".toList ∧ ∀ g, Claim d g h → ¬ Changed d g h

/-- No renamed field changed in another way. -/
def RenamedOnly (d : Dicts) : Prop := ∀ f o, Claim d f o → Renamed d f o → ¬ Changed d f o

end Verif.VMapSpec
