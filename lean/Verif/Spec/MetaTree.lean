import Verif.Spec.Metadata
import Verif.Spec.DataType
/-
What the attributes of a Data Dictionary element mean at its place in the tree.
-/
namespace Verif.DDSpec
open Verif.DD Verif.Ids
open Verif.DataTypeSpec

/-- The element is an array of structures. -/
def IsArray (y : Xml) : Prop := y.get "data_type".toList = some "struct_array".toList

/-- The element is marked as time dependent. -/
def Marked (y : Xml) : Prop := y.get "type".toList = some "dynamic".toList

/-- Going down `names` from the top, the last array of structures that is passed is at `a` (none if `a` is empty), and `r`
leads from there to the end. -/
structure Nearest (x : Xml) (names a r : List Name) : Prop where
  split : names = a ++ r
  own : r ≠ []
  above : a = [] ∨ ∃ z, Reach x a z ∧ IsArray z
  between : ∀ b c z, r = b ++ c → b ≠ [] → c ≠ [] → Reach x (a ++ b) z → ¬ IsArray z

/-- The element at `names` or one of those it is in (apart from the top) is marked as time dependent. -/
def Varies (x : Xml) (names : List Name) : Prop := ∃ p z, p ≠ [] ∧ p <+: names ∧ Reach x p z ∧ Marked z

/-- An attribute, empty if there is none. -/
def attr (y : Xml) (k : String) : Text := (y.get k.toList).getD []

/-- The units of an element: its own, or if these are `as_parent` those of the element it is in. -/
inductive Units (x : Xml) : List Name → Text → Prop
  | top : Units x [] (attr x "units")
  | own {p : List Name} {y : Xml} (h : Reach x p y) (hu : attr y "units" ≠ "as_parent".toList) :
      Units x p (attr y "units")
  | inherited {p : List Name} {n : Name} {y : Xml} {u : Text} (h : Reach x (p ++ [n]) y)
      (hu : attr y "units" = "as_parent".toList) (hp : Units x p u) : Units x (p ++ [n]) u

/-- The attribute with the coordinate of the first, second, ... dimension. -/
def coordinateName : Nat → String
  | 0 => "coordinate1"
  | 1 => "coordinate2"
  | 2 => "coordinate3"
  | 3 => "coordinate4"
  | 4 => "coordinate5"
  | 5 => "coordinate6"
  | _ => ""

/-- The attribute that names a quantity with the same coordinate. -/
def sameName : Nat → String
  | 0 => "coordinate1_same_as"
  | 1 => "coordinate2_same_as"
  | 2 => "coordinate3_same_as"
  | 3 => "coordinate4_same_as"
  | 4 => "coordinate5_same_as"
  | 5 => "coordinate6_same_as"
  | _ => ""

/-- The types and ranks that nodes of an IDS can have. -/
inductive Allowed : DataType → Nat → Prop
  | struct : Allowed .structure 0
  | array : Allowed .structArray 1
  | string {d : Nat} (h : d ≤ 1) : Allowed (.base .str) d
  | number {t : BaseType} {d : Nat} (ht : t ≠ .str) (h : d ≤ 6) : Allowed (.base t) d

/-- Spellings of data types: the documented ones, with anything behind the digit of the rank. -/
inductive Spelled : Text → DataType → Nat → Prop
  | documented {s : Text} {t : DataType} {d : Nat} (h : Documented s t d) : Spelled s t d
  | trailing {s r : Text} {b : BaseType} {d : Nat} (hd : d < 10) (h : upper s = typeName b ++ '_' :: digit d :: r) :
      Spelled s (.base b) d

/-- An element that makes sense on its own. (Paths are parsed like any path, see C01-C04; `stack` is the recursion limit.) -/
def Accepted (stack : Nat) (z : Xml) : Prop :=
  (∃ n, Named z n) ∧
  (z.get "data_type".toList = none ∨ ∃ t ty d, z.get "data_type".toList = some t ∧ Spelled t ty d ∧ Allowed ty d) ∧
  (∃ r, Verif.Path.parsePath stack (attr z "path") = .ok r) ∧
  (z.get "type".toList = none ∨ z.get "type".toList = some "dynamic".toList ∨ z.get "type".toList = some "constant".toList ∨
    z.get "type".toList = some "static".toList)

end Verif.DDSpec
