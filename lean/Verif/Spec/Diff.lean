import Verif.Model.Tree
import Verif.Model.Primitive
/-
What equality of two structures should mean, in terms of the values and the sizes found at each
address.
-/
namespace Verif.DiffSpec
open Verif.Ids

variable {V : Type} [Value V]

/-- A data node at address `a` holds the value `v`. -/
def ValueAt (n : Node V) (a : Addr) (v : V) : Prop :=
  ∃ l, n.at a = some (.leaf l (some v)) ∧ Value.isEmpty v = false

/-- An array of structures at address `a` has `k > 0` elements. -/
def SizeAt (n : Node V) (a : Addr) (k : Nat) : Prop :=
  ∃ m e, n.at a = some (.aos m e) ∧ e.length = k ∧ k ≠ 0

/-- The same data nodes are filled on both sides, with equal values. -/
def SameValues (eqv : V → V → Bool) (x y : Node V) : Prop :=
  (∀ a v, ValueAt x a v → ∃ w, ValueAt y a w ∧ eqv v w = true) ∧
  (∀ a w, ValueAt y a w → ∃ v, ValueAt x a v ∧ eqv v w = true)

/-- Arrays of structures have the same number of elements on both sides. -/
def SameSizes (x y : Node V) : Prop := ∀ a k, SizeAt x a k ↔ SizeAt y a k

/-- No structure consists of arrays of empty elements only. -/
def NoHollow (n : Node V) : Prop :=
  ∀ a c, n.at a = some (.struct c) → c.hasValue = true → ∃ b v, ValueAt (.struct c) b v

/-- The texts are the same apart from NUL characters at their ends. -/
def SameText (s t : List Char) : Prop :=
  ∃ u j k, s = u ++ List.replicate j (Char.ofNat 0) ∧ t = u ++ List.replicate k (Char.ofNat 0)

variable {F : Type} [FloatModel F]

/-- The number is NaN, or a part of it is. -/
inductive NotANumber : Scalar F → Prop
  | flt {x} : FloatModel.eq x x = false → NotANumber (.flt x)
  | re {x y} : FloatModel.eq x x = false → NotANumber (.cpx x y)
  | im {x y} : FloatModel.eq y y = false → NotANumber (.cpx x y)

/-- Equal numbers; NaN is equal to NaN. -/
inductive SameNumber : Scalar F → Scalar F → Prop
  | int (i) : SameNumber (.int i) (.int i)
  | flt {x y} : FloatModel.eq x y = true → SameNumber (.flt x) (.flt y)
  | cpx {x y x' y'} : FloatModel.eq x x' = true → FloatModel.eq y y' = true → SameNumber (.cpx x y) (.cpx x' y')
  | nan {a b} : NotANumber a → NotANumber b → SameNumber a b

/-- Equal values of data nodes. -/
inductive SameValue : Val F → Val F → Prop
  | int (i) : SameValue (.int i) (.int i)
  | flt {x y} : SameNumber (.flt x) (.flt y) → SameValue (.flt x) (.flt y)
  | cpx {x y x' y'} : SameNumber (.cpx x y) (.cpx x' y') → SameValue (.cpx x y) (.cpx x' y')
  | str {s t} : SameText s t → SameValue (.str s) (.str t)
  | strs {l m} : l.length = m.length → (∀ (i : Nat) s t, l[i]? = some s → m[i]? = some t → SameText s t) →
      SameValue (.strs l) (.strs m)
  | arr {k k' s d e} : (∀ (i : Nat) a b, d[i]? = some a → e[i]? = some b → SameNumber a b) →
      SameValue (.arr k s d) (.arr k' s e)

end Verif.DiffSpec
