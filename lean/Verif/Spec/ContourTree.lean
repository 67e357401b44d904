import Verif.Model.ContourTree
/-
What the contour tree of a converted equilibrium contains.
-/
namespace Verif.ContourTreeSpec
open Verif.Ids Verif.ContourTree

variable {F : Type} [FloatModel F]

/-- `b` is the value of a data node to which minus the value `a` was assigned: the number that means "not set" makes
it unset. -/
def IsMinus (a b : Option F) : Prop :=
  ∃ x, a = some x ∧
    ((FloatModel.eq (FloatModel.neg x) FloatModel.empty = false ∧ b = some (FloatModel.neg x)) ∨
     (FloatModel.eq (FloatModel.neg x) FloatModel.empty = true ∧ b = none))

/-- A node of the contour tree for this point. -/
structure IsNode (type : Int) (p : Point F) (psi : Option F) (levelR levelZ : List F) (n : TreeNode F) : Prop where
  critical : n.critical = some type
  r : n.r = p.r
  z : n.z = p.z
  psi : IsMinus psi n.psi
  levelR : n.levelR = levelR
  levelZ : n.levelZ = levelZ

/-- Nodes for the points of one separatrix, in order. Only the first one has the outline. -/
inductive AreNodes (type : Int) (psi : Option F) :
    List F → List F → List (Point F) → List (TreeNode F) → Prop
  | one {levelR levelZ p n} : IsNode type p psi levelR levelZ n → AreNodes type psi levelR levelZ [p] [n]
  | more {levelR levelZ p n ps p' ns} : IsNode type p psi levelR levelZ n →
      AreNodes type psi [] [] (p' :: ps) ns → AreNodes type psi levelR levelZ (p :: p' :: ps) (n :: ns)

/-- The points of a separatrix: its x-points; without x-points one point without position. -/
def points (t : Separatrix F) : List (Point F) :=
  match t.xPoints with
  | [] => [⟨none, none⟩]
  | l => l

/-- The nodes `ns` describe the first separatrix: the limiter point if `type` is 0, else its x-points. The critical
point is an extremum opposite to the one on the magnetic axis, or a saddle point. -/
inductive First (axisType : Int) (t : Separatrix F) (ns : List (TreeNode F)) : Prop
  | limiter (h : t.type = some 0) (h' : AreNodes (2 - axisType) t.psi t.outlineR t.outlineZ [t.limiter] ns)
  | saddle (h : t.type ≠ some 0) (h' : AreNodes 1 t.psi t.outlineR t.outlineZ (points t) ns)

/-- The nodes `ns` describe the secondary separatrix. -/
def Secondary (t : Separatrix F) (ns : List (TreeNode F)) : Prop :=
  AreNodes 1 t.psi t.outlineR t.outlineZ (points t) ns

/-- The contour tree `ns` describes the boundaries of the time slice. `axisType` is 0 if psi (in the new sign convention)
has a minimum on the magnetic axis, and 2 if it has a maximum there. The nodes of the separatrices
follow that of the axis: first the main node of each separatrix, then the additional x-points. -/
inductive Describes (s : Slice F) (axisType : Int) : List (TreeNode F) → Prop
  | axis {a} (h : s.first.psi = none) (ha : IsNode axisType s.axis s.psiAxis [] [] a) :
      Describes s axisType [a]
  | one {a f fs} (h : s.first.psi.isSome) (h2 : ∀ t, s.secondary = some t → t.psi = none)
      (ha : IsNode axisType s.axis s.psiAxis [] [] a) (hf : First axisType s.first (f :: fs)) :
      Describes s axisType (a :: f :: fs)
  | both {a f fs t g gs} (h : s.first.psi.isSome) (h2 : s.secondary = some t) (h3 : t.psi.isSome)
      (ha : IsNode axisType s.axis s.psiAxis [] [] a) (hf : First axisType s.first (f :: fs))
      (hg : Secondary t (g :: gs)) :
      Describes s axisType (a :: f :: g :: (fs ++ gs))

end Verif.ContourTreeSpec
