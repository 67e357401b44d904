import Verif.Model.Goto
/-
Specification of navigation: plain attribute and item access on a tree, one step at a time.
-/
namespace Verif.GotoSpec
open Verif.Ids
open Verif.Path (Idx)

variable {V : Type}

/-- The position an integer index denotes in a list of length `len` (Python convention). -/
def Position (len : Nat) (i : Int) (k : Nat) : Prop :=
  k < len ∧ ((k : Int) = i ∨ (k : Int) = i + len ∧ i < 0)

/-- `element.name` and `element.name[i]`. -/
inductive Access (root : Node V) : Addr → Name → Option Int → Addr → Prop
  | attr {a : Addr} {name : Name} {x : Node V} (h : root.at (a ++ [(name, none)]) = some x) :
      Access root a name none (a ++ [(name, none)])
  | item {a : Addr} {name : Name} {m : MFields} {e : Elems V} {i : Int} {k : Nat}
      (h : root.at (a ++ [(name, none)]) = some (.aos m e)) (hk : Position e.length i k) :
      Access root a name (some i) (a ++ [(name, some k)])

/-- Accessing one name (and index) after the other. -/
inductive Walk (root : Node V) : Addr → List (Name × Option Int) → Addr → Prop
  | nil {a : Addr} : Walk root a [] a
  | cons {a b c : Addr} {n : Name} {i : Option Int} {rest : List (Name × Option Int)}
      (h : Access root a n i b) (t : Walk root b rest c) : Walk root a ((n, i) :: rest) c

/-- Number of leading names two paths have in common. -/
def common : List Name → List Name → Nat
  | x :: xs, y :: ys => if x = y then common xs ys + 1 else 0
  | _, _ => 0

/-- The integer stored at an address; unset `INT_0D` nodes hold the default. -/
def IntAt (asInt : V → Option Int) (root : Node V) (a : Addr) (v : Int) : Prop :=
  (∃ l x, root.at a = some (.leaf l (some x)) ∧ asInt x = some v) ∨
  (∃ l, root.at a = some (.leaf l none) ∧ l.type = .int ∧ l.ndim = 0 ∧ v = -999999999)

mutual
/-- `Goes ... start names indices b`: the path leads from the element at `start` to `b`.
The leading names shared with `start` stay at the position of `start` (indices written
there are ignored, but must not be slices); from there the remaining names and indices are
accessed one by one. -/
inductive Goes (asInt : V → Option Int) (root : Node V) (start : Addr) :
    List Name → List (Option Idx) → Addr → Prop
  | mk {names : List Name} {indices : List (Option Idx)} {b : Addr} {k : Nat}
      {items : List (Name × Option Int)}
      (hk : k = common (start.map (·.1)) names)
      (hs : ∀ x y, some (Idx.slice x y) ∉ indices.take k)
      (hi : Indices asInt root start (names.drop k) (indices.drop k) items)
      (hw : Walk root (start.take k) items b) : Goes asInt root start names indices b
/-- Evaluate the indices of a path: numbers are themselves, a nested path is one less than
the integer it leads to. Slices and generic indices have no value. -/
inductive Indices (asInt : V → Option Int) (root : Node V) (start : Addr) :
    List Name → List (Option Idx) → List (Name × Option Int) → Prop
  | nil : Indices asInt root start [] [] []
  | none {n : Name} {ns : List Name} {is : List (Option Idx)} {items : List (Name × Option Int)}
      (r : Indices asInt root start ns is items) :
      Indices asInt root start (n :: ns) (none :: is) ((n, none) :: items)
  | num {n : Name} {i : Int} {ns : List Name} {is : List (Option Idx)}
      {items : List (Name × Option Int)} (r : Indices asInt root start ns is items) :
      Indices asInt root start (n :: ns) (some (.num i) :: is) ((n, some i) :: items)
  | path {n : Name} {qs : List Name} {js : List (Option Idx)} {c : Addr} {v : Int}
      {ns : List Name} {is : List (Option Idx)} {items : List (Name × Option Int)}
      (g : Goes asInt root start qs js c) (hv : IntAt asInt root c v)
      (r : Indices asInt root start ns is items) :
      Indices asInt root start (n :: ns) (some (.path qs js) :: is) ((n, some (v - 1)) :: items)
end

end Verif.GotoSpec
