import Verif.Spec.ConvertVersion
/-
Where nodes of an IDS are found when converting between major versions 3 and 4: names became descriptions and identifiers
became names.
-/
namespace Verif.VMapSpec
open Verif.Ids Verif.VMap Verif.ConvertSpec

def wName : Name := ['n', 'a', 'm', 'e']
def wIdentifier : Name := ['i', 'd', 'e', 'n', 't', 'i', 'f', 'i', 'e', 'r']
def wIndex : Name := ['i', 'n', 'd', 'e', 'x']
def wDescription : Name := ['d', 'e', 's', 'c', 'r', 'i', 'p', 't', 'i', 'o', 'n']

/-- The structure `g` was described by a name and an identifier in the old version (and is not an identifier itself, these have an
index), and is described by a description and a name in the new version. -/
structure Described (d : Dicts) (g : Path) : Prop where
  ne : g ≠ []
  name : Has d.old (g ++ [wName])
  identifier : Has d.old (g ++ [wIdentifier])
  index : ¬ Has d.old (g ++ [wIndex])
  newName : Has d.new (g ++ [wName])
  description : Has d.new (g ++ [wDescription])

/-- The new field `f` has the meaning of the old field `o`: descriptions and names of described structures were names and
identifiers, other fields are those that the dictionaries identify. -/
def Means (d : Dicts) (f o : Field) : Prop :=
  (Claim d f o ∧ ¬ ∃ g, Described d g ∧ f.path = g ++ [wName] ∧ o.path = g ++ [wName]) ∨
  ∃ g, Described d g ∧ f ∈ d.new ∧ o ∈ d.old ∧
    ((f.path = g ++ [wDescription] ∧ o.path = g ++ [wName]) ∨ (f.path = g ++ [wName] ∧ o.path = g ++ [wIdentifier]))

/-- The dictionaries say nothing about the fields of described structures: names were not renamed, the old identifier
and the new description are not identified with any other field. These fields are data nodes whose type did not change, and
the structures around them were not removed. -/
structure Silent (d : Dicts) : Prop where
  kept : ∀ g, Described d g → ∀ f o, Claim d f o → f.path = g ++ [wName] → o.path = g ++ [wName] →
    Unrenamed d f o ∧ ¬ Changed d f o
  removed : ∀ g, Described d g → ∀ f o, Claim d f o → o.path ≠ g ++ [wIdentifier] ∧ f.path ≠ g ++ [wDescription]
  around : ∀ g, Described d g → ∀ f o, Claim d f o → o.path <+: g → Fits d o f
  dataOld : ∀ g, Described d g → ∀ o ∈ d.old, o.path = g ++ [wName] ∨ o.path = g ++ [wIdentifier] → ¬ Container o.dtype
  dataNew : ∀ g, Described d g → ∀ f ∈ d.new, f.path = g ++ [wName] ∨ f.path = g ++ [wDescription] → ¬ Container f.dtype
  same : ∀ g, Described d g → ∀ f ∈ d.new, ∀ o ∈ d.old,
    (f.path = g ++ [wDescription] ∧ o.path = g ++ [wName]) ∨ (f.path = g ++ [wName] ∧ o.path = g ++ [wIdentifier]) →
    ¬ Changed d f o

/-- The node at `A` in the old version is the node at `B` in the new version. -/
def Place34 (d : Dicts) (A B : Addr) : Prop :=
  Carried (fun o f => Means d f o) (fun p => ∃ h, Left d h ∧ h.path = p) (fun _ => False) (Enters d) [] [] A B

/-- Nothing changed at the end of the position `A` of the old version. -/
def Kept34 (d : Dicts) (A : Addr) : Prop := ∀ f o, Means d f o → o.path = Verif.Convert.names A → ¬ Changed d f o

def wSource : Path := ["ids_properties".toList, "source".toList]
def wProvenance : Path := ["ids_properties".toList, "provenance".toList]

/-- The new version has no field for the source of an IDS. -/
def NoSource (d : Dicts) : Prop := ∀ f o, Claim d f o → ¬ wSource <+: o.path

/-- The new version has a provenance next to where the source was, and the source has no children. -/
structure SourceMoves (d : Dicts) : Prop where
  props : ∃ f o, Claim d f o ∧ o.path = ["ids_properties".toList] ∧ f.path = ["ids_properties".toList]
  provenance : Has d.new wProvenance
  data : ∀ o ∈ d.old, wSource <+: o.path → o.path = wSource

/-- The source of the IDS `c` is set. -/
def HasSource {V : Type} [Value V] (c : Fields V) : Prop :=
  ∃ A x, Verif.Convert.names A = wSource ∧ (Node.struct c).at A = some x ∧ x.hasValue = true

/-- The position `B` of the new version is not touched when the source of the IDS `c` becomes its provenance. -/
def Untouched {V : Type} [Value V] (c : Fields V) (B : Addr) : Prop :=
  ¬ HasSource c ∨ (¬ Verif.Convert.names B <+: wProvenance ∧ ¬ wProvenance <+: Verif.Convert.names B)

end Verif.VMapSpec
