import Verif.Spec.NcData
/-
Sizes of netCDF dimensions.
-/
namespace Verif.NcSpec
open Verif.Ids Verif.Nc

variable {S : Type}

/-- The sizes of a node itself. -/
def extent : Node (Arr S) → List Nat
  | .leaf _ (some v) => v.shape
  | .leaf _ none => []
  | .struct _ => []
  | .aos _ e => [e.length]

/-- Values have the number of dimensions that the Data Dictionary says. -/
def RanksOk (c : Fields (Arr S)) : Prop :=
  ∀ p i l v, look c p i = some (.leaf l (some v)) → v.shape.length = l.ndim

/-- A node with a value has size `n` in dimension `d`; `dims` are the dimensions of nodes (those of the arrays of
structures around them first). -/
def Uses (dims : Path → List Dim) (c : Fields (Arr S)) (d : Dim) (n : Nat) : Prop :=
  ∃ p i x k, look c p i = some x ∧ TreeSpec.Filled x ∧ (dims p)[i.length + k]? = some d ∧ (extent x)[k]? = some n

/-- The greatest number with a property, if there are any. -/
def IsMax (P : Nat → Prop) : Option Nat → Prop
  | none => ∀ n, ¬ P n
  | some n => P n ∧ ∀ n', P n' → n' ≤ n

/-- A place for nodes with this path, within the sizes of the dimensions, without a value. -/
def Gap (dims : Path → List Dim) (c : Fields (Arr S)) (p : Path) : Prop :=
  ∃ i : List Nat, i.length = (dims p).length ∧
    (∀ (k j : Nat) d, i[k]? = some j → (dims p)[k]? = some d → ∃ n, Uses dims c d n ∧ j < n) ∧
    ∀ x, look c p i = some x → ¬ TreeSpec.Filled x

/-- If there are gaps between the 0D nodes with a path: none has the value that is stored in gaps, and complex ones are all
set. -/
def Storable (sc : Scalars S) (dims : Path → List Dim) (c : Fields (Arr S)) : Prop :=
  ∀ p, Gap dims c p → ∀ i l w, look c p i = some (.leaf l w) → l.ndim = 0 →
    (l.type = .cpx → w ≠ none) ∧ (l.type ≠ .cpx → ∀ v, w = some v → v.get [] ≠ some (sc.fill l.type))

/-- Only data nodes have error bars. -/
def ErrorsOk (m : MFields) : Prop :=
  ∀ p y, ConvertSpec.metaAt (.struct m) p = some y → (∀ l, y ≠ .leaf l) → ∀ q ∈ errorNames p, ConvertSpec.metaAt (.struct m) q = none

end Verif.NcSpec
