/-!
Model of two groups of value conversions between DD3 and DD4
(`/repo/imas/ids_convert.py`): closed outlines (lines 985-1119) and circuit connection
matrices (lines 1138-1156).
-/
namespace Verif.Convert

/-! ### Outlines -/

/-- The value of a filled child of an outline structure: a numeric array, seen as the list
of its entries along the first axis, or anything else. -/
inductive Comp (α β : Type) where
  | num (xs : List α)
  | other (v : β)
  deriving DecidableEq, Repr

/-- The filled children of one structure, in the order of `iter_nonempty_`. -/
abbrev Outline (α β : Type) := List (List Char × Comp α β)

variable {α β : Type}

def timeName : List Char := ['t', 'i', 'm', 'e']
def closedName : List Char := ['c', 'l', 'o', 's', 'e', 'd']
def errorIndex : List Char := ['_', 'e', 'r', 'r', 'o', 'r', '_', 'i', 'n', 'd', 'e', 'x']

/-- `numpy.concatenate((value, [value[0]]))` (lines 1000, 1081). On an empty array Python
raises `IndexError`; filled arrays are never empty, see `iter_nonempty_`. -/
def repeatFirst (xs : List α) : List α := xs ++ xs.head?.toList

/-- `value[:-1]` (lines 991, 1046). -/
def removeLast (xs : List α) : List α := xs.dropLast

/-- The `isinstance(child, IDSNumericArray)` branch with `closed` true (lines 1040-1047,
1076-1082). -/
def onNumeric (closed : Bool) (f : List α → List α) (child : List Char × Comp α β) :
    List Char × Comp α β :=
  match child.2 with
  | .num xs => if closed && child.1 != timeName then (child.1, .num (f xs)) else child
  | .other _ => child

/-- Children skipped by the DD3 to DD4 conversion (lines 1071-1073). -/
def skipped (name : List Char) : Bool :=
  name == closedName || errorIndex.isSuffixOf name

/-- Data of a DD3 outline: the value of its `closed` node (`-999999999` if unset), and the
filled children of the structure, or of each element for an array of structures. -/
structure Old (α β : Type) where
  closed : Int
  elems : List (Outline α β)
  deriving DecidableEq, Repr

/-- `_repeat_first_point_conditional` (lines 1051-1083), DD3 to DD4: the children set in the
target. `bool(closed_node)` is `value != 0`, so an unset node counts as closed.
Simplification: every child exists in the target. -/
def toNew (o : Old α β) : List (Outline α β) :=
  o.elems.map fun e =>
    (e.filter fun c => !skipped c.1).map (onNumeric (o.closed != 0) repeatFirst)

/-- Is the first entry close to the last one (line 1026)? `none` stands for the exception
raised when the component has no items. -/
def endsMeet (isclose : α → α → Bool) : Comp α β → Option Bool
  | .num xs =>
    match xs.head?, xs.getLast? with
    | some a, some b => some (isclose a b)
    | _, _ => none
  | .other _ => none

/-- Lines 1023-1027: the loop over the components of one structure. -/
def outlineClosed (isclose : α → α → Bool) : Outline α β → Option Bool
  | [] => some true
  | (name, c) :: rest =>
    if name == timeName then outlineClosed isclose rest
    else match endsMeet isclose c with
      | none => none
      | some false => some false
      | some true => outlineClosed isclose rest

/-- Lines 1022-1029: the loop over the elements. -/
def allClosed (isclose : α → α → Bool) : List (Outline α β) → Option Bool
  | [] => some true
  | e :: rest =>
    match outlineClosed isclose e with
    | none => none
    | some false => some false
    | some true => allClosed isclose rest

/-- `_remove_last_point_conditional` (lines 1003-1048), DD4 to DD3. -/
def toOld (isclose : α → α → Bool) (elems : List (Outline α β)) : Option (Old α β) :=
  match allClosed isclose elems with
  | none => none
  | some closed =>
    some ⟨if closed then 1 else 0, elems.map fun e => e.map (onNumeric closed removeLast)⟩

/-- `_remove_last_point_centreline` (lines 1086-1101), DD3 to DD4; `closed` is the flag of
the DD3 centreline. -/
def thicknessToNew (closed : Int) (xs : List α) : List α :=
  if closed != 0 then xs else xs.dropLast

/-- `_repeat_last_point_centreline` (lines 1104-1119), DD4 to DD3. -/
def thicknessToOld (closed : Int) (xs : List α) : List α :=
  if closed != 0 then xs else xs ++ xs.getLast?.toList

/-! ### Circuit connections -/

/-- 32 bit signed wrap-around of numpy's `int32` arithmetic. -/
def wrap32 (x : Int) : Int := (x + 2 ^ 31) % 2 ^ 32 - 2 ^ 31

/-- `row[::2] - row[1::2]`. -/
def pairDiff : List Int → List Int
  | a :: b :: rest => wrap32 (a - b) :: pairDiff rest
  | _ => []

/-- `_circuit_connections_3to4` (lines 1138-1147): rows of a matrix with `cols` columns. -/
def connTo4 (cols : Nat) (m : List (List Int)) : List (List Int) :=
  if cols % 2 = 1 then m else m.map pairDiff

/-- One row of `_circuit_connections_4to3`. -/
def pairs : List Int → List Int
  | [] => []
  | x :: rest => (if x = 1 then 1 else 0) :: (if x = -1 then 1 else 0) :: pairs rest

/-- `_circuit_connections_4to3` (lines 1150-1156). -/
def connTo3 (m : List (List Int)) : List (List Int) := m.map pairs

end Verif.Convert
