import Verif.Spec.Tree
/-!
Specification of iteration with indices.
-/
namespace Verif.IterateSpec
open Verif.Ids Verif.TreeSpec

variable {V : Type}

/-- The names on the way to a node. -/
def namesOf (A : Addr) : List Name := A.map (·.1)

/-- The numbers of the elements of arrays of structures on the way to a node. -/
def indicesOf (A : Addr) : List Nat := A.filterMap (·.2)

/-- The list consists of the nodes at the addresses `As` with their indices, in this order. -/
def Lists (c : Fields V) (As : List Addr) (l : List (List Nat × Node V)) : Prop :=
  l.map (fun p => (p.1, some p.2)) = As.map fun A => (indicesOf A, (Node.struct c).at A)

end Verif.IterateSpec
