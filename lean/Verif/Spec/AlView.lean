import Verif.Model.AlStore
/-
What get, get_slice and get_sample ask the Access Layer for.
-/
namespace Verif.AlSpec
open Verif.Ids Verif.Al

/-- The time mode is one of the three that `homogeneous_time` can have. -/
def ValidMode (m : Mode) : Prop := m = .heterogeneous ∨ m = .homogeneous ∨ m = .independent

/-- The data that a call shows: everything for `get` and for constant IDSs, else the requested slice or time range. -/
inductive Asks (occ : Text) : Bool → Range → Begin → Prop
  | whole (constant : Bool) : Asks occ constant .all (.global occ false false)
  | constant (r : Range) : Asks occ true r (.global occ false false)
  | slice (args : Nat) : Asks occ false (.slice args) (.slice occ false args)
  | sample (args : Nat) : Asks occ false (.sample args) (.timerange occ args)

end Verif.AlSpec
