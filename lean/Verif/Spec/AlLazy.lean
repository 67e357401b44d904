import Verif.Model.AlLazy
/-
What a user sees of an IDS that is completely in memory.
-/
namespace Verif.AlSpec
open Verif.Ids Verif.Al

variable {V : Type}

/-- What is seen of the node at an address: its value (if any), its number of elements, or a structure. Addresses
that do not exist raise `AttributeError` or `IndexError`. -/
def seen (x : Node V) (a : Addr) : Res V :=
  match x.at a with
  | none => .error .lookup
  | some (.leaf _ v) => .obs (.value v)
  | some (.struct _) => .obs .struct
  | some (.aos _ e) => .obs (.size e.length)

/-- The operation does not put data in an occurrence. -/
def Spares (occ : Text) : Op V → Prop
  | .put C _ _ _ _ _ _ _ => C.occ ≠ occ
  | _ => True

/-- The operation does not close the data entry. -/
def StaysOpen : Op V → Prop
  | .close ok => ok = false
  | _ => True

end Verif.AlSpec
