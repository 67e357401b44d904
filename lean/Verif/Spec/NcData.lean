import Verif.Spec.NcMeta
import Verif.Spec.Tree
import Verif.Model.NcRead
/-
What reading and writing netCDF groups should do, in terms of the nodes of an IDS. A node is denoted by its path and the
indices of the elements of the arrays of structures around it.
-/
namespace Verif.NcSpec
open Verif.Ids Verif.Nc

variable {V : Type}

/-- Something inside a node: inside a structure, or inside the element of an array of structures that the first index
says. -/
def below (f : Fields V → List Nat → Option (Node V)) : Node V → List Nat → Option (Node V)
  | .struct d, i => f d i
  | .aos _ e, j :: i => (e.get? j).bind (f · i)
  | _, _ => none

/-- The node with a path and indices. -/
def look : Fields V → Path → List Nat → Option (Node V)
  | _, [], _ => none
  | c, [k], [] => c.get? k
  | _, [_], _ :: _ => none
  | c, k :: k' :: p, i => (c.get? k).bind fun x => below (fun d i => look d (k' :: p) i) x i

/-- What can be seen of a single node: the value (if it is set), or the number of elements. -/
inductive Obs (V : Type) where
  | struct
  | aos (n : Nat)
  | leaf (v : Option V)

def obs : Node V → Obs V
  | .leaf _ v => .leaf v
  | .struct _ => .struct
  | .aos _ e => .aos e.length

/-- An empty array counts as unset. -/
def Obs.norm [Value V] : Obs V → Obs V
  | .leaf v => .leaf (v.filter fun x => !Value.isEmpty x)
  | o => o

open Verif.ConvertSpec (metaAt)
open Verif.AlSpec (arraysOf IsDataPath)

/-- Data nodes of the same type and rank, or arrays of structures. -/
def SameKind : Meta → Meta → Prop
  | .leaf l, .leaf l' => l.type = l'.type ∧ l.ndim = l'.ndim
  | .aos _, .aos _ => True
  | _, _ => False

/-- `link` gives for the data nodes and arrays of structures of one Data Dictionary version those of another one: nodes of
the same kind, different ones for different nodes, in the linked arrays of structures. -/
structure Aligned (m0 m : MFields) (link : Path → Option Path) : Prop where
  kind : ∀ p q x, p ≠ [] → metaAt (.struct m0) p = some x → ¬ IsStruct x → link p = some q →
    q ≠ [] ∧ ∃ y, metaAt (.struct m) q = some y ∧ SameKind x y
  inj : ∀ p p' q, IsDataPath m0 p → IsDataPath m0 p' → link p = some q → link p' = some q → p = p'
  arrays : ∀ p q, IsDataPath m0 p → link p = some q → (arraysOf m0 [] p).map link = (arraysOf m [] q).map some

/-- Variables of a group have different names. -/
structure NamesOk {S : Type} (g : Group S) : Prop where
  vars : (g.vars.map (·.1)).Nodup
  shapes : (g.shapes.map (·.1)).Nodup
  nonempty : [] ∉ g.vars.map (·.1)
  nonempty' : [] ∉ g.shapes.map (·.1)

/-- An access shows the given node, or fails if there is none. -/
def SameResult (o : Option (Node V)) (r : Except NcErr (Node V)) : Prop :=
  match o with
  | some x => ∃ y, r = .ok y ∧ obs y = obs x
  | none => ∃ e, r = .error e

end Verif.NcSpec
