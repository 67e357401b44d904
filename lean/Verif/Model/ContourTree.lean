import Verif.Model.Primitive
/-!
Model of `_equilibrium_boundary_3to4` (`/repo/imas/ids_convert.py` lines 1254-1318): the boundaries of an
equilibrium in DD3 become the nodes of a `contour_tree` in DD4.

A time slice is represented by the data nodes that the function uses. A 0D node is `none` if it is not set; an array is
the list of its items and is empty if it is not set. Reading and assigning data nodes is C09; sharing of
arrays (`deepcopy`) is not modelled here.
-/
namespace Verif.ContourTree
open Verif.Ids

variable {F : Type}

/-- `x_point` elements, `active_limiter_point`, `magnetic_axis`: their `r` and `z`. -/
structure Point (F : Type) where
  r : Option F
  z : Option F
  deriving DecidableEq

/-- `boundary_separatrix` or `boundary_secondary_separatrix` of a DD3 time slice. (`type` and
`active_limiter_point` are only used for the first one.) -/
structure Separatrix (F : Type) where
  psi : Option F
  type : Option Int
  limiter : Point F
  xPoints : List (Point F)
  outlineR : List F
  outlineZ : List F

/-- A DD3 time slice. `secondary` is `none` in versions before 3.32.0, which have no such structure. -/
structure Slice (F : Type) where
  psiAxis : Option F
  psiBoundary : Option F
  axis : Point F
  first : Separatrix F
  secondary : Option (Separatrix F)

/-- An element of `contour_tree/node` of a DD4 time slice. -/
structure TreeNode (F : Type) where
  critical : Option Int
  r : Option F
  z : Option F
  psi : Option F
  levelR : List F
  levelZ : List F
  deriving DecidableEq

/-- An element after `resize`. -/
def TreeNode.empty : TreeNode F := ⟨none, none, none, none, [], []⟩

variable [FloatModel F]

/-- The value that a 0D data node gives for arithmetic (`ids_primitive.py` lines 160-169). -/
def number (x : Option F) : F := x.getD FloatModel.empty

/-- Assigning a computed number to a 0D data node (lines 172-191). -/
def store (x : F) : Option F := if FloatModel.eq x FloatModel.empty then none else some x

/-- `-psi` stored in a node (lines 1282, 1299, 1300, 1314, 1315). -/
def flipped (psi : Option F) : Option F := store (FloatModel.neg (number psi))

/-- Lines 1261-1269: the number of nodes before additional x-points are added. -/
def countNodes (s : Slice F) : Nat :=
  if s.first.psi.isSome then
    match s.secondary with
    | some t => if t.psi.isSome then 3 else 2
    | none => 2
  else 1

/-- The loops over additional x-points (lines 1294-1299 and 1309-1314): an element is appended and `node[-1]` is
filled. -/
def addPoints (psi : Option F) : List (Point F) → List (TreeNode F) → List (TreeNode F)
  | [], nodes => nodes
  | x :: rest, nodes =>
    let nodes := nodes ++ [.empty]
    addPoints psi rest (nodes.modify (nodes.length - 1) fun n =>
      { n with critical := some 1, r := x.r, z := x.z, psi := flipped psi })

/-- Assign `r` and `z` of the first x-point, if there is one (lines 1290-1292 and 1305-1307). -/
def firstPoint (xs : List (Point F)) (n : TreeNode F) : TreeNode F :=
  match xs with
  | [] => n
  | x :: _ => { n with r := x.r, z := x.z }

/-- Lines 1272-1282. -/
def fillAxis (lt : F → F → Bool) (s : Slice F) (nodes : List (TreeNode F)) : List (TreeNode F) :=
  nodes.modify 0 fun n =>
    { n with
      critical := some (if lt (FloatModel.neg (number s.psiAxis)) (FloatModel.neg (number s.psiBoundary)) then 0 else 2)
      r := s.axis.r
      z := s.axis.z
      psi := flipped s.psiAxis }

/-- Lines 1285-1302. -/
def fillFirst (lt : F → F → Bool) (s : Slice F) (nodes : List (TreeNode F)) : List (TreeNode F) :=
  let nodes :=
    if s.first.type = some 0 then
      nodes.modify 1 fun n =>
        { n with
          critical :=
            some (if lt (FloatModel.neg (number s.psiAxis)) (FloatModel.neg (number s.psiBoundary)) then 2 else 0)
          r := s.first.limiter.r
          z := s.first.limiter.z }
    else
      let nodes := nodes.modify 1 fun n => firstPoint s.first.xPoints { n with critical := some 1 }
      addPoints s.first.psi (s.first.xPoints.drop 1) nodes
  nodes.modify 1 fun n =>
    { n with psi := flipped s.first.psi, levelR := s.first.outlineR, levelZ := s.first.outlineZ }

/-- Lines 1304-1318. -/
def fillSecondary (t : Separatrix F) (nodes : List (TreeNode F)) : List (TreeNode F) :=
  let nodes := nodes.modify 2 fun n => firstPoint t.xPoints { n with critical := some 1 }
  let nodes := addPoints t.psi (t.xPoints.drop 1) nodes
  nodes.modify 2 fun n =>
    { n with psi := flipped t.psi, levelR := t.outlineR, levelZ := t.outlineZ }

/-- The body of the loop (lines 1258-1318). `old` are the nodes that the target has already. -/
def convertSlice (lt : F → F → Bool) (s : Slice F) (old : List (TreeNode F)) : List (TreeNode F) :=
  match s.psiAxis with
  | none => old
  | some _ =>
    let n := countNodes s
    let nodes := fillAxis lt s (List.replicate n .empty)
    let nodes := if n ≥ 2 then fillFirst lt s nodes else nodes
    if n ≥ 3 then
      match s.secondary with
      | some t => fillSecondary t nodes
      | none => nodes
    else nodes

/-- `_equilibrium_boundary_3to4` (lines 1254-1318): the nodes of all time slices of the target, for the time slices of
both. -/
def convert (lt : F → F → Bool) : List (Slice F) → List (List (TreeNode F)) → List (List (TreeNode F))
  | s :: ss, o :: os => convertSlice lt s o :: convert lt ss os
  | _, os => os

end Verif.ContourTree
