import Verif.Spec.NcSize
import Verif.Model.Xarray
/-
Which paths a conversion to xarray should contain.
-/
namespace Verif.NcSpec
open Verif.Ids Verif.Nc
open Verif.AlSpec (arraysOf)

/-- The selected paths, the arrays of structures around them, and all coordinates of these, coordinates of coordinates, and so
on. -/
inductive Needed (m : MFields) (coords : Path → List Path) (sel : List Path) : Path → Prop
  | selected {p : Path} (h : p ∈ sel) : Needed m coords sel p
  | array {p a : Path} (h : p ∈ sel) (ha : a ∈ arraysOf m [] p) : Needed m coords sel a
  | coordinate {p q : Path} (h : Needed m coords sel p) (hq : q ∈ coords p) : Needed m coords sel q

/-- What is converted: everything, if nothing is selected. -/
def Chosen (m : MFields) (coords : Path → List Path) (sel : List Path) (p : Path) : Prop :=
  sel = [] ∨ Needed m coords sel p

variable {S : Type}

/-- A node with a value and a chosen path has size `n` in dimension `d`. -/
def UsesOf (chosen : Path → Prop) (dims : Path → List Dim) (c : Fields (Arr S)) (d : Dim) (n : Nat) : Prop :=
  ∃ p i x k, chosen p ∧ look c p i = some x ∧ TreeSpec.Filled x ∧ (dims p)[i.length + k]? = some d ∧ (extent x)[k]? = some n

/-- The data of a variable for the nodes with path `p`, which are inside `depth` arrays of structures: it has the sizes of the
dimensions, the value of each node is at the indices of the elements around it, other places contain the fill value. -/
structure Holds (c : Fields (Arr S)) (p : Path) (l : LeafMeta) (depth : Nat) (sizes : List (Option Nat)) (fill : S) (a : Arr S) : Prop where
  shape : sizes = a.shape.map some
  value : ∀ i u, look c p i = some (.leaf l (some u)) → Value.isEmpty u = false → ∀ j, (u.get j).isSome = true → a.get (i ++ j) = u.get j
  rest : ∀ i j, i.length = depth → (a.get (i ++ j)).isSome = true →
    (∀ u, look c p i = some (.leaf l (some u)) → Value.isEmpty u = false → (u.get j).isSome = false) → a.get (i ++ j) = some fill

/-- All variables, coordinates too. -/
def Dataset.all (ds : Dataset S) : List (Path × XVar S) := ds.vars ++ ds.coords

/-- Where the coordinates of a node come from. -/
inductive CoordinateSource (I : Info) (m : MFields) : Path → Prop
  /-- the coordinate of an array of structures, inside it -/
  | inside {p : Path} {i : Nat} {q : Path} {others : List Path} (hd : HasDim m p i) (hr : Regular p)
      (h : I.refs p i = q :: others) (hin : Inside q p) : CoordinateSource I m q
  /-- a data node without coordinates -/
  | index {p : Path} {l : LeafMeta} (hp : ConvertSpec.metaAt (.struct m) p = some (.leaf l)) : CoordinateSource I m p
  /-- an alternative coordinate -/
  | alternative {a q : Path} (h : Alternative I m a q) : CoordinateSource I m a
  /-- the root time, in place of other times -/
  | time {d : Dim} (h : TimeDim I m d) : CoordinateSource I m ["time".toList]

end Verif.NcSpec
