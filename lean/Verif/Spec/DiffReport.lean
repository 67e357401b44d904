import Verif.Spec.Tree
/-
Which differences of two structures are to be reported, in terms of the nodes found at each address.
-/
namespace Verif.DiffSpec
open Verif.Ids Verif.TreeSpec

variable {V : Type} [Value V]

/-- Two nodes that cannot be the same: data nodes with different values, arrays of structures of different sizes, or nodes of
different kinds. -/
def Unlike (eqv : V → V → Bool) : Node V → Node V → Prop
  | .leaf _ v, .leaf _ w => ∃ a b, v = some a ∧ w = some b ∧ eqv a b = false
  | .aos _ e, .aos _ f => e.length ≠ f.length
  | .struct _, .struct _ => False
  | _, _ => True

/-- At `a` something is filled in `x`, and `y` has nothing there: `a` is at or below a child `n` of a structure that both have,
and in `y` the child `n` has no value. If `n` is a structure, only the data nodes in it count. -/
def Only (x y : Node V) (a : Addr) : Prop :=
  ∃ b n r u z g, a = b ++ (n, none) :: r ∧ x.at a = some u ∧ Filled u ∧ x.at (b ++ [(n, none)]) = some z ∧
    y.at b = some (.struct g) ∧ (b = [] ∨ IsElement b ∨ g.hasValue = true) ∧
    (∀ w, g.get? n = some w → w.hasValue = false) ∧ (r = [] ∨ ((∃ f, z = .struct f) ∧ IsLeaf u))

end Verif.DiffSpec
