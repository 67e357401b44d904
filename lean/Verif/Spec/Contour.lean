import Verif.Model.Contour
/-! Specification of outlines and connection matrices. -/
namespace Verif.ConvertSpec
open Verif.Convert

/-- A row of a DD3 connection matrix: per node two columns, one for each side of the
element, of which at most one is set. -/
inductive Row3 : List Int → Prop
  | nil : Row3 []
  | none {r : List Int} (h : Row3 r) : Row3 (0 :: 0 :: r)
  | first {r : List Int} (h : Row3 r) : Row3 (1 :: 0 :: r)
  | second {r : List Int} (h : Row3 r) : Row3 (0 :: 1 :: r)

/-- A row of a DD4 connection matrix: one signed column per node. -/
def Row4 (r : List Int) : Prop := ∀ x ∈ r, x = -1 ∨ x = 0 ∨ x = 1

/-- A matrix of 32-bit integers with `cols` columns. -/
def Matrix (cols : Nat) (m : List (List Int)) : Prop :=
  ∀ r ∈ m, r.length = cols ∧ ∀ x ∈ r, -2 ^ 31 ≤ x ∧ x < 2 ^ 31

variable {α β : Type}

/-- The coordinate arrays of an outline: all its children except the time. -/
def Coord (o : Outline α β) (xs : List α) : Prop :=
  ∃ name, (name, Comp.num xs) ∈ o ∧ name ≠ "time".toList

/-- An outline whose coordinates are filled numeric arrays, as stored in DD4: apart from
the time there is nothing but arrays. -/
def Arrays (o : Outline α β) : Prop :=
  ∀ c ∈ o, c.1 ≠ "time".toList → ∃ xs, c.2 = .num xs ∧ xs ≠ []

/-- No child is the closed flag or an error index. -/
def NoFlags (o : Outline α β) : Prop :=
  ∀ c ∈ o, c.1 ≠ "closed".toList ∧ ¬ ∃ l, c.1 = l ++ "_error_index".toList

end Verif.ConvertSpec
