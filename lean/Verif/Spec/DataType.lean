import Verif.Model.Primitive
/-
Specification of Data Dictionary data type names.
-/
namespace Verif.DataTypeSpec
open Verif.Ids

/-- The upper case name of a basic type. -/
def typeName : BaseType → List Char
  | .str => "STR".toList
  | .int => "INT".toList
  | .flt => "FLT".toList
  | .cpx => "CPX".toList

/-- The decimal digit of a number below ten. -/
def digit (d : Nat) : Char := Char.ofNat (48 + d)

/-- The documented spellings: `structure`, `struct_array`, and, in upper or lower case,
`TYP_nD`, legacy `typ_type` and legacy `typ_nd_type`. -/
inductive Documented : List Char → DataType → Nat → Prop where
  | struc : Documented "structure".toList .structure 0
  | structArray : Documented "struct_array".toList .structArray 1
  | regular (t d s) : d < 10 → upper s = typeName t ++ ['_', digit d, 'D'] →
      Documented s (.base t) d
  | legacy (t s) : upper s = typeName t ++ "_TYPE".toList → Documented s (.base t) 0
  | legacyDim (t d s) : d < 10 → upper s = typeName t ++ ['_', digit d] ++ "D_TYPE".toList →
      Documented s (.base t) d

end Verif.DataTypeSpec
