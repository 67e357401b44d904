import Verif.Model.Operators
/-!
Specification of operators with data nodes: the same expression with values in place of the nodes.
-/
namespace Verif.OperatorsSpec
open Verif.Operators

variable {V : Type}

/-- The expression with the value of each data node in its place, in Python's own terms. -/
def plain (L : Lib V) : Expr V → Except Exc V
  | .const v => .ok v
  | .node _ v => .ok v
  | .un op e => do L.unop op (← plain L e)
  | .bin op a b => do
    let v ← plain L a
    let w ← plain L b
    L.binop op v w
  | .isIn e _ v => do L.contains v (← plain L e)

/-- Comparisons that mean the same with their operands exchanged. -/
inductive Mirror : Op → Op → Prop
  | eq : Mirror .eq .eq
  | ne : Mirror .ne .ne
  | lt : Mirror .lt .gt
  | le : Mirror .le .ge
  | gt : Mirror .gt .lt
  | ge : Mirror .ge .le

/-- Comparisons of ordinary values that are not of numpy mean the same in both directions. -/
def Symmetric (L : Lib V) : Prop := ∀ op op' v w, L.kind v ≠ .numpy → Mirror op op' → L.binop op' w v = L.binop op v w

/-- A data node may stand to the right of an ordinary value: not after `text %`, and after numpy values only if it is an
array itself. -/
def RightOf (L : Lib V) (op : Op) (v : V) (c : Cls) : Prop :=
  ¬ (L.kind v = .text ∧ op = .mod) ∧ (L.kind v = .numpy → c = .array)

/-- All data nodes of an expression stand at places where they may. -/
def Fine (L : Lib V) : Expr V → Prop
  | .const _ => True
  | .node _ _ => True
  | .un _ e => Fine L e
  | .bin op a b => Fine L a ∧ Fine L b ∧
      match a, b with
      | .node _ _, _ => True
      | a, .node c _ => ∀ v, plain L a = .ok v → RightOf L op v c
      | _, _ => True
  | .isIn e _ _ => Fine L e

end Verif.OperatorsSpec
