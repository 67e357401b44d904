import Verif.Model.Goto
import Verif.Model.Update
/-
Model of the copying part of `convert_ids`: `_get_target_item`, `_copy_structure` and
`_type_changed_structure_aos` (`/repo/imas/ids_convert.py` lines 671-755 and 870-900).

The target IDS is one tree (`root`), positions in it are addresses. Log messages and the set of
paths that were warned about are not modelled. `callback` (used for pulse schedules only) is not
modelled here. `deepcopy` decides whether numpy arrays are shared between the two IDSs, not which
values they hold.
-/
namespace Verif.Convert
open Verif.Ids

variable {V : Type}

/-- Why a conversion fails. -/
inductive ConvErr where
  /-- navigation in the target failed -/
  | nav (e : NavErr)
  /-- the value does not fit the target node (`ids_primitive.py` setters) -/
  | store
  /-- `AttributeError` or `TypeError` of an operation the target node does not have -/
  | kind
  /-- a failing `assert` -/
  | assertion
  /-- raised by a conversion function -/
  | custom
  deriving DecidableEq, Repr

/-- Entries of `NBCPathMap.type_change` (lines 79-86): either `_type_changed_structure_aos`, or a
function of the source and the target node that does all the work and returns None. The latter is
given by the new content of the target node. -/
inductive Change (V : Type) where
  | structAos
  | custom (f : Node V → Node V → Except ConvErr (Node V))

/-- The part of `NBCPathMap` (lines 54-109) used for conversions. `path p` is `none` if `p` is not
in the map, `some none` if it is mapped to None. `store` is assignment to a data node of the target:
its new stored value (`none` is unset), or an exception. -/
structure Cfg (V : Type) where
  path : List Name → Option (Option (List Name))
  change : List Name → Option (Change V)
  post : List Name → Option (Node V → Except ConvErr (Node V))
  store : LeafMeta → V → Except ConvErr (Option V)

/-- `metadata.path` of the node at an address. -/
def names (a : Addr) : List Name := a.map (·.1)

/-- Position of element `i` of the array of structures at `a`. (Positions with an index in their last
item are elements and never arrays.) -/
def elemOf (a : Addr) (i : Nat) : Addr :=
  match a.getLast? with
  | some (n, none) => a.dropLast ++ [(n, some i)]
  | _ => a

/-- Apply an operation to the node at an address of the target. -/
def writeAt (root : Node V) (a : Addr) (f : Node V → Except ConvErr (Node V)) :
    Except ConvErr (Node V) :=
  match root.modify f a with
  | none => .error (.nav .attribute)
  | some r => r

/-- `IDSPath(path).goto(target)` (line 694). Mapped paths have no indices, so the evaluation of
nested indices does not matter. -/
def gotoTarget (root : Node V) (t : Addr) (q : List Name) : Except ConvErr (Option Addr) :=
  match goto (fun _ => none) 1 root t true ⟨q, q.map fun _ => none⟩ with
  | .error e => .error (.nav e)
  | .ok b => .ok (some b)

/-- `target[item.metadata.name]` with its fallback to the target structure (lines 697-706).
A target that is not a structure raises other exceptions. -/
def sameName (root : Node V) (t : Addr) (n : Name) : Except ConvErr (Option Addr) :=
  match root.at t with
  | some (.struct c) =>
    match c.get? n with
    | some _ => .ok (some (t ++ [(n, none)]))
    | none => .ok (some t)
  | _ => .error .kind

/-- `_get_target_item` (lines 671-706) for the source item with metadata path `q` and name `n`, and
the target structure at `t`. -/
def getTarget (cx : Cfg V) (root : Node V) (q : List Name) (n : Name) (t : Addr) :
    Except ConvErr (Option Addr) :=
  match cx.path q with
  | some none => .ok none
  | some (some r) => gotoTarget root t r
  | none => sameName root t n

/-- `target_item.value = item.value` (line 749). The items of `iter_nonempty_` have a value. -/
def storeNode (cx : Cfg V) (v : Option V) : Node V → Except ConvErr (Node V)
  | .leaf l _ =>
    match v with
    | none => .error .kind
    | some v =>
      match cx.store l v with
      | .error e => .error e
      | .ok w => .ok (.leaf l w)
  | _ => .error .kind

/-- `target_item.resize(size)` (line 743). -/
def resizeNode (size : Nat) : Node V → Except ConvErr (Node V)
  | .aos m e =>
    match aosResize false m e.toList size false with
    | .error _ => .error .kind
    | .ok l => .ok (.aos m (.ofList l))
  | _ => .error .kind

/-- Lines 751-753: post-process the target item. -/
def postProcess (cx : Cfg V) (q : List Name) (b : Addr) (root : Node V) : Except ConvErr (Node V) :=
  match cx.post q with
  | none => .ok root
  | some f => writeAt root b f

/-- `assert isinstance(target_node, IDSStructure)` (line 891). -/
def isStruct (root : Node V) (b : Addr) : Bool :=
  match root.at b with
  | some (.struct _) => true
  | _ => false

/-- `assert isinstance(target_node, IDSStructArray)` (line 885). -/
def isAos (root : Node V) (b : Addr) : Bool :=
  match root.at b with
  | some (.aos _ _) => true
  | _ => false

/-- Sequential composition of two steps that may raise. -/
def andThen (r : Except ConvErr (Node V)) (f : Node V → Except ConvErr (Node V)) :
    Except ConvErr (Node V) :=
  match r with
  | .error e => .error e
  | .ok x => f x

variable [Value V]

mutual
/-- `_copy_structure` (lines 709-755): copy the children of the source structure with metadata
path `p` to the target structure at `t`. -/
def copyFields (cx : Cfg V) (p : List Name) (t : Addr) : Fields V → Node V → Except ConvErr (Node V)
  | .nil, root => .ok root
  | .absent _ _ r, root => copyFields cx p t r root
  | .present n x r, root =>
    if x.hasValue then
      andThen
        (match getTarget cx root (p ++ [n]) n t with
         | .error e => .error e
         | .ok none => .ok root
         | .ok (some b) => copyItem cx (p ++ [n]) b x root)
        (copyFields cx p t r)
    else copyFields cx p t r root
termination_by structural x => x
/-- Lines 734-740: type changes, for an item with target item at `b`. -/
def copyItem (cx : Cfg V) (q : List Name) (b : Addr) : Node V → Node V → Except ConvErr (Node V)
  | .leaf l v, root =>
    match cx.change q with
    | none => andThen (writeAt root b (storeNode cx v)) (postProcess cx q b)
    | some (.custom f) => writeAt root b (f (.leaf l v))
    | some .structAos => .error .assertion
  | .struct c, root =>
    match cx.change q with
    | none => andThen (copyFields cx q b c root) (postProcess cx q b)
    | some (.custom f) => writeAt root b (f (.struct c))
    | some .structAos =>
      if isAos root b then
        andThen (andThen (writeAt root b (resizeNode 1)) (copyFields cx q (elemOf b 0) c))
          (postProcess cx q (elemOf b 0))
      else .error .assertion
  | .aos m e, root =>
    match cx.change q with
    | none =>
      andThen (andThen (writeAt root b (resizeNode e.length)) (copyElems cx q b 0 e))
        (postProcess cx q b)
    | some (.custom f) => writeAt root b (f (.aos m e))
    | some .structAos =>
      if isStruct root b then copySingle cx q b e root else .error .assertion
termination_by structural x => x
/-- `_type_changed_structure_aos` on an array (lines 892-900) and what follows: only an array with
one element is copied. -/
def copySingle (cx : Cfg V) (q : List Name) (b : Addr) : Elems V → Node V → Except ConvErr (Node V)
  | .nil, root => .ok root
  | .cons c r, root =>
    match r with
    | .nil => andThen (copyFields cx q b c root) (postProcess cx q b)
    | .cons _ _ => .ok root
termination_by structural x => x
/-- Lines 744-745: the elements from index `i` on. -/
def copyElems (cx : Cfg V) (q : List Name) (b : Addr) (i : Nat) :
    Elems V → Node V → Except ConvErr (Node V)
  | .nil, root => .ok root
  | .cons c r, root => andThen (copyFields cx q (elemOf b i) c root) (copyElems cx q b (i + 1) r)
termination_by structural x => x
end

/-- `_copy_structure(toplevel, target, deepcopy, rename_map)` (line 614). -/
def copyIds (cx : Cfg V) (source : Fields V) (target : Node V) : Except ConvErr (Node V) :=
  copyFields cx [] [] source target

end Verif.Convert
