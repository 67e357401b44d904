import Verif.Spec.Path
/-!
Specification of the coordinate specifications of the Data Dictionary: a list of
alternatives joined by the word `OR`.
-/
namespace Verif.CoordSpec
open Verif.PathSpec
open Verif.Path (Idx)

/-- One alternative. -/
inductive Alt where
  | anySize                                  -- `1...N`
  | size (k : Nat)                           -- `1...k`
  | path (p : PathItems) (fortran : Bool)    -- a path in this IDS
  | otherIds (text : List Char)              -- `IDS:` followed by a path in another IDS

/-- The text of one alternative. -/
def Alt.text : Alt → List Char
  | .anySize => "1...N".toList
  | .size k => "1...".toList ++ digits k
  | .path p fortran => p.write fortran true
  | .otherIds t => "IDS:".toList ++ t

/-- Paths are well formed and not empty, references to other IDSs contain no space, numbers
have at most 4300 digits (the limit of Python's `int`). -/
def Alt.WF : Alt → Prop
  | .anySize => True
  | .size k => (digits k).length ≤ 4300
  | .path p _ => p.WF ∧ p ≠ .done
  | .otherIds t => ' ' ∉ t

/-- Write alternatives joined by ` OR `. -/
def write : List Alt → List Char
  | [] => []
  | [a] => a.text
  | a :: b :: more => a.text ++ " OR ".toList ++ write (b :: more)

/-- The fixed sizes among the alternatives, in order. -/
def sizes : List Alt → List Nat
  | [] => []
  | .size k :: more => k :: sizes more
  | _ :: more => sizes more

/-- Names and indices of the paths among the alternatives, in order. -/
def paths : List Alt → List (List (List Char) × List (Option Idx))
  | [] => []
  | .path p _ :: more => (p.names, p.indices) :: paths more
  | _ :: more => paths more

/-- Alternatives that say something about the dimension: fixed sizes and paths. -/
def rules (as : List Alt) : Nat := (sizes as).length + (paths as).length

/-- A text is cut into pieces by ` OR `. -/
def joined : List (List Char) → List Char
  | [] => []
  | [a] => a
  | a :: b :: more => a ++ " OR ".toList ++ joined (b :: more)

/-- `s` occurs in `t`. -/
def Occurs (s t : List Char) : Prop := ∃ l r, t = l ++ s ++ r

end Verif.CoordSpec
