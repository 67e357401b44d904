import Verif.Model.Primitive
/-
Specification vocabulary for modifications: positions that do not overlap, and the
number of items of a value.
-/
namespace Verif.TreeSpec
open Verif.Ids

/-- Two positions are apart if neither contains the other: they differ first in the name of a
child or in the index of an element. (An array of structures contains its elements.) -/
def Apart : Addr → Addr → Prop
  | s :: a, t :: b =>
    s.1 ≠ t.1 ∨ (∃ i j, s.2 = some i ∧ t.2 = some j ∧ i ≠ j) ∨ (s = t ∧ Apart a b)
  | _, _ => False

/-- The number of items of a value: of strings in a list, of entries of an array; a single value is one item. -/
def items {F : Type} : Val F → Nat
  | .strs l => l.length
  | .arr _ _ data => data.length
  | _ => 1

end Verif.TreeSpec
