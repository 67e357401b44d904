import Verif.Model.Primitive
/-
Model of modifications of an IDS tree: assignment to data nodes, and the list operations of
arrays of structures (`imas/ids_struct_array.py`).
-/
namespace Verif.Ids

variable {V : Type}

/-- Access the node at an address, attribute by attribute and item by item, and replace it by
the result of an operation on it. `none` is a failing access (`AttributeError`,
`IndexError`, ...). Children on the way are created, as `__getattr__` does
(`ids_structure.py` lines 57-68). -/
def Node.modify {E : Type} (f : Node V → Except E (Node V)) :
    Node V → Addr → Option (Except E (Node V))
  | n, [] => some (f n)
  | .struct c, (k, i) :: a =>
    match c.get? k with
    | none => none
    | some x =>
      match i with
      | none => (x.modify f a).map fun r => r.map fun y => .struct (c.put k y)
      | some i =>
        match x with
        | .aos m e =>
          match e.get? i with
          | none => none
          | some g =>
            ((Node.struct g).modify f a).map fun r => r.map fun y =>
              match y with
              | .struct g' => .struct (c.put k (.aos m (e.set i g')))
              | _ => .struct c       -- not a structure: elements are structures
        | _ => none
  | _, _ :: _ => none

/-! ### Arrays of structures -/

/-- The elements as a list. -/
def Elems.toList : Elems V → List (Fields V)
  | .nil => []
  | .cons c r => c :: r.toList

/-- A list of elements. -/
def Elems.ofList : List (Fields V) → Elems V
  | [] => .nil
  | c :: r => .cons c (ofList r)

/-- Exceptions of `resize`, `append` and item assignment. -/
inductive AosErr where
  | readOnly         -- ValueError: "Lazy-loaded IDSs are read-only."
  | negativeSize     -- ValueError: "size may not be negative"
  | index            -- IndexError
  deriving DecidableEq, Repr

/-- `IDSStructArray.resize` (`ids_struct_array.py` lines 178-207). The three branches on the
size are kept; `value.extend(new)` and `value = new` are both list concatenation. -/
def aosResize (lazy : Bool) (m : MFields) (value : List (Fields V)) (nbelt : Int) (keep : Bool) :
    Except AosErr (List (Fields V)) := do
  if lazy then throw .readOnly
  if nbelt < 0 then throw .negativeSize
  let value := if keep then value else []
  let cur := value.length
  if nbelt > cur then
    let newEls := List.replicate (nbelt - cur).toNat m.fresh
    if cur ≠ 0 then return value ++ newEls else return newEls
  else if nbelt < cur then
    return value.take nbelt.toNat
  else
    return value

/-- `IDSStructArray.append` (lines 157-173): one element or a list of elements; no check of
their type. -/
def aosAppend (lazy : Bool) (value elements : List (Fields V)) :
    Except AosErr (List (Fields V)) := do
  if lazy then throw .readOnly
  return elements.foldl (fun v e => v ++ [e]) value

/-- Python list index: negative indices count from the end (`None` is `IndexError`). -/
def listIndex (len : Nat) (i : Int) : Option Nat :=
  let j := if i < 0 then i + len else i
  if 0 ≤ j ∧ j < len then some j.toNat else none

/-- `IDSStructArray.__setitem__` with a structure (lines 131-140). -/
def aosSetItem (lazy : Bool) (value : List (Fields V)) (item : Int) (x : Fields V) :
    Except AosErr (List (Fields V)) := do
  if lazy then throw .readOnly
  match listIndex value.length item with
  | none => throw .index
  | some j => return value.set j x

/-- An operation on the element list applied to an array of structures node. -/
def Node.onElems (op : MFields → List (Fields V) → Except AosErr (List (Fields V))) :
    Node V → Except AosErr (Node V)
  | .aos m e => (op m e.toList).map fun l => .aos m (.ofList l)
  | n => .ok n

/-- `node.value = x` on a data node of a tree (structures and arrays of structures are
assigned differently and are left alone here). -/
def Node.assign {F : Type} [FloatModel F] (cv : Conv F) (lazy : Bool) (x : Obj F) :
    Node (Val F) → Except SetErr (Node (Val F))
  | .leaf l _ => (setValue cv lazy l x).map (.leaf l)
  | n => .ok n

end Verif.Ids
