import Verif.Model.Tree
/-
Specification vocabulary for IDS trees: well-formed trees, filled nodes, document order,
and the observable content of a tree.
-/
namespace Verif.TreeSpec
open Verif.Ids

variable {V : Type}

mutual
/-- Sibling names are distinct everywhere in the metadata. -/
def WFMeta : Meta → Prop
  | .leaf _ => True
  | .struct c => WFMFields c
  | .aos c => WFMFields c
def WFMFields : MFields → Prop
  | .nil => True
  | .cons n m r => n ∉ mnames r ∧ WFMeta m ∧ WFMFields r
def mnames : MFields → List Name
  | .nil => []
  | .cons n _ r => n :: mnames r
end

mutual
/-- Sibling names are distinct everywhere in the tree. -/
def WF : Node V → Prop
  | .leaf _ _ => True
  | .struct c => WFFields c
  | .aos m e => WFMFields m ∧ WFElems e
def WFFields : Fields V → Prop
  | .nil => True
  | .absent n m r => n ∉ r.names ∧ WFMeta m ∧ WFFields r
  | .present n x r => n ∉ r.names ∧ WF x ∧ WFFields r
def WFElems : Elems V → Prop
  | .nil => True
  | .cons c r => WFFields c ∧ WFElems r
end

/-- A data node holding a value, or an array of structures with elements. -/
def Filled [Value V] : Node V → Prop
  | .leaf _ (some v) => Value.isEmpty v = false
  | .leaf _ none => False
  | .struct _ => False
  | .aos _ e => e.length ≠ 0

/-- A data node. -/
def IsLeaf : Node V → Prop
  | .leaf _ _ => True
  | _ => False

/-- The address of an element of an array of structures. -/
def IsElement (a : Addr) : Prop := ∃ p n i, a = p ++ [(n, some i)]

/-- Items of the same structure in document order: children in Data Dictionary order, an
array before its elements, elements by index. -/
def ItemBefore (c : Fields V) (s t : Name × Option Nat) : Prop :=
  (c.names.idxOf s.1 < c.names.idxOf t.1) ∨
  (s.1 = t.1 ∧ match s.2, t.2 with
    | none, some _ => True
    | some i, some j => i < j
    | _, none => False)

/-- Document order of addresses in a tree: a node comes before everything below it. -/
def DocBefore : Node V → Addr → Addr → Prop
  | _, _, [] => False
  | _, [], _ :: _ => True
  | n, s :: a, t :: b =>
    (s = t ∧ ∃ x, n.item s = some x ∧ DocBefore x a b) ∨
    (∃ c, n = .struct c ∧ ItemBefore c s t)

section
variable [Value V]

mutual
/-- A child as first access would create it, with all its own children created. -/
def contentM : Meta → Node V
  | .leaf l => .leaf l none
  | .struct c => .struct (contentMF c)
  | .aos c => .aos c .nil
def contentMF : MFields → Fields V
  | .nil => .nil
  | .cons n m r => .present n (contentM m) (contentMF r)
end

mutual
/-- The observable content of a tree: every child spelled out, and unset data nodes not
distinguished from data nodes holding an empty array. -/
def content : Node V → Node V
  | .leaf l v => .leaf l (v.filter fun x => !Value.isEmpty x)
  | .struct c => .struct (contentF c)
  | .aos m e => .aos m (contentE e)
def contentF : Fields V → Fields V
  | .nil => .nil
  | .absent n m r => .present n (contentM m) (contentF r)
  | .present n x r => .present n (content x) (contentF r)
def contentE : Elems V → Elems V
  | .nil => .nil
  | .cons c r => .cons (contentF c) (contentE r)
end

end

end Verif.TreeSpec

namespace Verif.TreeSpec
open Verif.Ids
variable {V : Type}

mutual
/-- The node is of the given type: it has the children the metadata lists, in that order, and
elements of arrays have the children listed for them. -/
def Typed : Node V → Meta → Prop
  | .leaf l _, .leaf l' => l = l'
  | .struct c, .struct m => TypedF c m
  | .aos m e, .aos m' => m = m' ∧ TypedE e m'
  | _, _ => False
def TypedF : Fields V → MFields → Prop
  | .nil, .nil => True
  | .absent n m r, .cons n' m' r' => n = n' ∧ m = m' ∧ TypedF r r'
  | .present n x r, .cons n' m' r' => n = n' ∧ Typed x m' ∧ TypedF r r'
  | _, _ => False
def TypedE : Elems V → MFields → Prop
  | .nil, _ => True
  | .cons c r, m => TypedF c m ∧ TypedE r m
end

end Verif.TreeSpec
