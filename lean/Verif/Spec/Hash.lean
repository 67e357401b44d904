import Verif.Spec.Diff
import Verif.Model.Hash
/-
What the content hash should depend on.
-/
namespace Verif.HashSpec
open Verif.Ids Verif.DiffSpec

/-- The address lies in a `version_put` child of a structure called `ids_properties`, for an
address below a node of the given name. -/
def InVersionPut : Name → Addr → Prop
  | _, [] => False
  | name, s :: a =>
    (name = "ids_properties".toList ∧ s.1 = "version_put".toList) ∨ InVersionPut s.1 a

variable {V : Type} [Value V]

/-- The same values and the same array sizes everywhere outside `ids_properties/version_put`. -/
def SameContents (name : Name) (x y : Node V) : Prop :=
  ∀ a, ¬ InVersionPut name a →
    (∀ v, ValueAt x a v ↔ ValueAt y a v) ∧ (∀ k, SizeAt x a k ↔ SizeAt y a k)

/-- Every part with a value has some value or array outside `ids_properties/version_put`. -/
def Kept (name : Name) (n : Node V) : Prop :=
  ∀ a y, n.at a = some y → y.hasValue = true → ¬ InVersionPut name a →
    ∃ b, ¬ InVersionPut name (a ++ b) ∧ ((∃ v, ValueAt n (a ++ b) v) ∨ (∃ k, SizeAt n (a ++ b) k))

/-- All values are of the type of their data node. -/
def AllFit {F : Type} (n : Node (Val F)) : Prop :=
  ∀ a l v, n.at a = some (.leaf l (some v)) → v.fits l = true

mutual
/-- Some structure of this type has children called `k` and `k'`. -/
def Siblings (k k' : Name) : Meta → Prop
  | .leaf _ => False
  | .struct c => (HasName k c ∧ HasName k' c) ∨ SiblingsF k k' c
  | .aos c => (HasName k c ∧ HasName k' c) ∨ SiblingsF k k' c
def SiblingsF (k k' : Name) : MFields → Prop
  | .nil => False
  | .cons _ m r => Siblings k k' m ∨ SiblingsF k k' r
def HasName (k : Name) : MFields → Prop
  | .nil => False
  | .cons n _ r => k = n ∨ HasName k r
end

section
variable {F : Type} (h : Hasher F)

/-- The digest function has no collision between the given inputs. -/
def NoCollision (I J : List Bytes) : Prop := ∀ b ∈ I, ∀ c ∈ J, h.H b = h.H c → b = c

/-- No digest is the beginning of the rest of a longer sibling name followed by a digest. -/
def NoShift (m : Meta) (I J : List Bytes) : Prop :=
  ∀ k r, r ≠ [] → Siblings k (k ++ r) m → ∀ b ∈ I, ∀ c ∈ J,
    (utf8 r ++ h.H c).take 8 ≠ h.H b ∧ (utf8 r ++ h.H b).take 8 ≠ h.H c

end

end Verif.HashSpec
