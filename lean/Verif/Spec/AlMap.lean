import Verif.Spec.AlStore
/-
What a map between two Data Dictionary versions means for nodes of IDSs.
-/
namespace Verif.AlSpec
open Verif.Ids Verif.Al Verif.DiffSpec Verif.ConvertSpec

variable {V : Type}

/-- The arrays of structures above a node: `m` are the children of the structure with path `p`. -/
def arraysOf : MFields → Path → Path → List Path
  | m, p, n :: k :: r =>
    match mchild m n with
    | some (.struct d) => arraysOf d (p ++ [n]) (k :: r)
    | some (.aos d) => (p ++ [n]) :: arraysOf d (p ++ [n]) (k :: r)
    | _ => []
  | _, _, _ => []

/-- A data node or array of structures of the Data Dictionary. -/
def IsDataPath (m : MFields) (p : Path) : Prop := ∃ x, metaAt (.struct m) p = some x ∧ ∀ d, x ≠ .struct d

/-- The low-level path an `NBCPathMap` gives for a path (`none`: skip it). -/
def mapped (N : Nbc) (I : Info V) (p : Path) : Option Path :=
  match N.path p with
  | some r => r.map (·.1)
  | none => if N.change p then none else some (I.ctxPath p)

/-- The map sends data nodes and arrays of structures of one version (`m2`, `I2`) to the nodes that `link` gives in the version
of the stored data (`m1`, `I1`). -/
structure Describes (N : Nbc) (I1 I2 : Info V) (m1 m2 : MFields) (link : Path → Option Path) : Prop where
  /-- The low-level path is the one of the linked node. -/
  here : ∀ p q, IsDataPath m2 p → link p = some q → mapped N I2 p = some (I1.ctxPath q)
  /-- Nodes that are not linked, or something above them, are skipped. -/
  skip : ∀ p, IsDataPath m2 p → link p = none → ∃ t, t ≠ [] ∧ t <+: p ∧ mapped N I2 t = none
  /-- Nothing above a linked node is skipped. -/
  above : ∀ p q t, IsDataPath m2 p → link p = some q → t ≠ [] → t <+: p → (mapped N I2 t).isSome
  /-- Linked nodes exist in the stored version. -/
  exist : ∀ p q, IsDataPath m2 p → link p = some q → IsDataPath m1 q
  /-- Arrays of structures above linked nodes are linked. -/
  arrays : ∀ p q, IsDataPath m2 p → link p = some q →
    (arraysOf m2 [] p).map link = (arraysOf m1 [] q).map some

/-- The node at `a` corresponds to the node at `b`: linked paths, same element indices. -/
def Counterpart (link : Path → Option Path) (a b : Addr) : Prop :=
  link (Verif.Convert.names a) = some (Verif.Convert.names b) ∧ a.filterMap (·.2) = b.filterMap (·.2)

end Verif.AlSpec
