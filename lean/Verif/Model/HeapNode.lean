import Verif.Model.Heap
import Verif.Model.Goto
/-!
What a node tells about its place: `imas.util.get_parent`, `get_toplevel`, `get_time_mode`, `get_full_path` and
`get_data_dictionary_version` (`/repo/imas/util.py` lines 410-524), for the objects of `Verif.Model.Heap`. The functions that climb
call themselves for the parent; their first argument is the depth of the call stack that is left.
-/
namespace Verif.Heap
open Verif.Ids

variable {V B W C : Type}

/-- `get_parent(node)` (`util.py` lines 410-437). -/
def getParent (h : Heap V B W C) (s : Ref) : Except Err (Option Ref) :=
  match h.get s with
  | some (.struct _ _ _ _ true _ _) => .ok none
  | some o =>
    match parentOf o with
    | some p => .ok (some p)
    | none => .error .attribute
  | none => .error .broken

/-- `get_toplevel(node)`: `IDSBase._toplevel` (`ids_base.py` lines 111-114) and `IDSToplevel._toplevel`
(`ids_toplevel.py` lines 368-372). -/
def toplevelOf : Nat → Heap V B W C → Ref → Except Err Ref
  | 0, _, _ => .error .recursion
  | n + 1, h, s =>
    match h.get s with
    | some (.struct _ _ _ _ true _ _) => .ok s
    | some o =>
      match parentOf o with
      | some p => toplevelOf n h p
      | none => .error .attribute
    | none => .error .broken

/-- The `IDSFactory` from which `get_data_dictionary_version(node)` takes the version: `IDSBase._version`
(`ids_base.py` lines 95-98); the parent of an `IDSToplevel` is the factory, which has the attribute `_version`
(`ids_factory.py` lines 46-57). -/
def factoryOf : Nat → Heap V B W C → Ref → Except Err Ref
  | 0, _, _ => .error .recursion
  | n + 1, h, s =>
    match h.get s with
    | some .factory => .ok s
    | some o =>
      match parentOf o with
      | some p => factoryOf n h p
      | none => .error .attribute
    | none => .error .broken

def idsProperties : Name := "ids_properties".toList
def homogeneousTime : Name := "homogeneous_time".toList

/-- `get_time_mode(node)`: `IDSBase._time_mode` (`ids_base.py` lines 37-40) and `IDSToplevel._time_mode`
(`ids_toplevel.py` lines 92-95), which accesses two attributes. -/
def timeModeOf (E : Env V B W C) : Nat → Heap V B W C → Ref → Out V B W C
  | 0, h, _ => (h, .error .recursion)
  | n + 1, h, s =>
    match h.get s with
    | some (.struct _ _ _ _ true _ _) => walk E h s [(idsProperties, none), (homogeneousTime, none)]
    | some o =>
      match parentOf o with
      | some p => timeModeOf E n h p
      | none => (h, .error .attribute)
    | none => (h, .error .broken)

/-- The first child with this name in `__dict__` that is the object `s`. -/
def keyOf (d : Name → Option Ref) (s : Ref) : MFields → Option Name
  | .nil => none
  | .cons n _ r => if d n = some s then some n else keyOf d s r

/-- `metadata.name`. Data nodes do not have their name in the model: it is the name of the child of their parent that they are. They
are made for a child (`ids_structure.py` lines 57-68) and never become another one, because assigning a data node copies its value. -/
def nameOf (h : Heap V B W C) (s : Ref) : Option Name :=
  match h.get s with
  | some (.struct q _ _ _ _ _ _) => q.getLast?
  | some (.aos q _ _ _ _ _) => q.getLast?
  | some (.leaf _ _ p) =>
    match h.get p with
    | some (.struct _ m d _ _ _ _) => keyOf d s m
    | _ => none
  | _ => none

/-- `get_full_path(node)`: `IDSBase._path` (`ids_base.py` lines 55-93) and `IDSToplevel._path` (`ids_toplevel.py` line 64). A lazy-loaded array of
structures loads its elements during the loop; here elements that are not loaded are passed over. -/
def fullPath : Nat → Heap V B W C → Ref → Except Err (List Char)
  | 0, _, _ => .error .recursion
  | n + 1, h, s =>
    match h.get s with
    | some (.struct _ _ _ _ true _ _) => .ok []
    | some o =>
      match parentOf o with
      | none => .error .attribute
      | some p =>
        match fullPath n h p with
        | .error e => .error e
        | .ok parentPath =>
          match h.get p with
          | some (.aos _ _ items _ _ _) =>
            let index :=
              match (items.getD []).findIdx? (· = some s) with
              | some i => idxText i
              | none => ['?']
            .ok (parentPath ++ '[' :: index ++ [']'])
          | _ =>
            match nameOf h s with
            | none => .error .attribute
            | some name => .ok (if parentPath = [] then name else parentPath ++ '/' :: name)
    | none => .error .broken

end Verif.Heap
