import Verif.Spec.AlStore
import Verif.Spec.Diff
/-
What is assumed of a low level that appends slices.
-/
namespace Verif.AlSpec
open Verif.Ids Verif.Al Verif.DiffSpec Verif.ConvertSpec

variable {V : Type}

/-- Appending a slice of a data node changes the data of this node only, with `add old new`. An array of
structures without time base keeps its elements if the slice has as many. -/
structure AppendsLocally (B : Backend V) (add : Option V → V → V) : Prop where
  data : ∀ S P q tb v, B.appendData S P q tb v = S.setData P q (add (S.data P q) v)
  size : ∀ S P q, B.appendSize S P q [] (S.size P q) = S

/-- Data that is not set is like no data, and appending something gives something. -/
structure AddsData [Value V] (add : Option V → V → V) : Prop where
  empty : ∀ o v, Value.isEmpty o = true → add (some o) v = add none v
  filled : ∀ o v, Value.isEmpty v = false → Value.isEmpty (add o v) = false

/-- What is at a position after the value of `f` was appended to what `g` has there. -/
def AppendedAt [Value V] (add : Option V → V → V) (g f : Fields V) (a : Addr) (v : V) : Prop :=
  ∃ w, ValueAt (.struct f) a w ∧
    ((∃ o, ValueAt (.struct g) a o ∧ v = add (some o) w) ∨ ((∀ o, ¬ ValueAt (.struct g) a o) ∧ v = add none w))

end Verif.AlSpec
