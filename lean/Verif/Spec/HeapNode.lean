import Verif.Spec.HeapPlace
/-!
Specification vocabulary for what nodes tell about their place: programs that put nodes at one place only (C77).
-/
namespace Verif.HeapSpec
open Verif.Ids Verif.Heap

variable {V B W C : Type}

/-- The node is nowhere: it is no child and no element. -/
def Unheld (h : Heap V B W C) (s : Ref) : Prop := ∀ r k, ¬ Slot h r k s

/-- A structure or an array of structures. -/
def IsBranch (h : Heap V B W C) (s : Ref) : Prop :=
  match h.get s with
  | some (.struct _ _ _ _ _ _ _) => True
  | some (.aos _ _ _ _ _ _) => True
  | _ => False

/-- `s` is a structure with the metadata path of the array of structures `r`, and no toplevel. -/
def IsElementFor (h : Heap V B W C) (r s : Ref) : Prop :=
  ∀ q m i p z x, h.get r = some (.aos q m i p z x) → ∃ m' d p' z' x', h.get s = some (.struct q m' d p' false z' x')

/-- What a program may do with the objects `env`. Everything, except that
* structures and arrays of structures that are assigned to a child, and structures that are appended, are not somewhere already,
* what is appended is a structure of the right kind,
* item assignment gets a structure that was made for this array of structures (see `C77_item_limit`),
* new IDSs are of a type in which siblings have different names,
* what is deep-copied has no node at two places. -/
def Careful (h : Heap V B W C) (env : List Ref) : Op V B W → Prop
  | .setAttr _ _ s => ∀ b, env[s]? = some b → IsBranch h b → Unheld h b
  | .setPath _ _ s => ∀ b, env[s]? = some b → IsBranch h b → Unheld h b
  | .append r s => ∀ a b, env[r]? = some a → env[s]? = some b → IsElementFor h a b ∧ Unheld h b
  | .setItem r _ s => ∀ a b, env[r]? = some a → env[s]? = some b → IsElementFor h a b ∧
      ∃ o, h.get b = some o ∧ parentOf o = some a
  | .newIds m => TreeSpec.WFMFields m
  | .deepcopy r _ => ∀ a, env[r]? = some a → Unshared h a
  | _ => True

/-- A program: operations one after the other. Exceptions are caught. -/
def prog (E : Env V B W C) : Heap V B W C → List Ref → List (Op V B W) → Heap V B W C × List Ref
  | h, env, [] => (h, env)
  | h, env, op :: rest => prog E (step E h env op).1 (step E h env op).2 rest

/-- Each operation of the program is careful. -/
def CarefulProg (E : Env V B W C) : Heap V B W C → List Ref → List (Op V B W) → Prop
  | _, _, [] => True
  | h, env, op :: rest => Careful h env op ∧ CarefulProg E (step E h env op).1 (step E h env op).2 rest

/-- A program starts with IDSs that are lazy-loaded, of these types and with these contexts. -/
def opened : List (MFields × C) → Heap V B W C × List Ref
  | [] => (Heap.empty, [])
  | (m, x) :: rest =>
    let (h, env) := opened rest
    let (h, r) := newLazyIds h m x
    (h, r :: env)

/-- `r` is an IDS (a toplevel). -/
def IsIds (h : Heap V B W C) (r : Ref) : Prop := ∃ q m d p z x, h.get r = some (.struct q m d p true z x)

/-- The state after some careful program. -/
def Made (E : Env V B W C) (h : Heap V B W C) : Prop :=
  ∃ (lazies : List (MFields × C)) (h0 : Heap V B W C) (env : List Ref) (ops : List (Op V B W)),
    (∀ x ∈ lazies, TreeSpec.WFMFields x.1) ∧ opened lazies = (h0, env) ∧ CarefulProg E h0 env ops ∧ h = (prog E h0 env ops).1

end Verif.HeapSpec
