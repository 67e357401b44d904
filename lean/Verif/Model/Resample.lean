import Verif.Model.Validate
import Verif.Model.Update
/-
Model of `imas.util.resample` (`/repo/imas/util.py` lines 249-255, `/repo/imas/_util.py` lines 37-87) and
of `IDSCoordinates.time_index` (`/repo/imas/ids_coordinates.py` lines 269-279).

`scipy.interpolate.interp1d` is external: how the values of one line of samples are interpolated is
given by `Scipy`, and theorems hold for any choice of it. What the model does follow is how
`interp1d` treats the dimensions of an array. The old times are those of an array that is not changed
by the resampling (the code reads `old_time.value` for each node: nodes named `time` do not change
before the end). The new times are a 1D array of floating point numbers. Log messages are not
modelled. `inplace=False` works on a deep copy: the result is the same and the original is not
touched.
-/
namespace Verif.Resample
open Verif.Ids

variable {F : Type}

/-- `interp1d` with the keyword arguments of the call. -/
structure Scipy (F : Type) where
  /-- the constructor accepts these times and an array of this type -/
  accepts : BaseType → List F → Bool
  /-- the value at one time, for a line of samples at the given times; `none` is an exception
  (for instance for a time out of bounds). The result has been cast to the type of the data node. -/
  point : BaseType → List F → List (Scalar F) → F → Option (Scalar F)
  typed : ∀ t xs ys x s, point t xs ys x = some s → s.type = t

/-- All items exist. -/
def allSome {A : Type} : List (Option A) → Option (List A)
  | [] => some []
  | x :: r =>
    match x, allSome r with
    | some a, some l => some (a :: l)
    | _, _ => none

/-- The samples along dimension `k` of an array: `inner` is the number of items for each index of
this dimension, `n` the size of the dimension, `p` and `q` count the indices of the dimensions before
and after. -/
def lineOf (data : List (Scalar F)) (inner n p q : Nat) : Option (List (Scalar F)) :=
  allSome ((List.range n).map fun i => data[p + inner * (i + n * q)]?)

/-- `interp1d(old, value, axis=k)(new)` for an array: the dimension `k` is moved to the front, the
others are merged, each line is interpolated, and the dimensions are moved back (`_Interpolator1D` in
`scipy/interpolate/_polyint.py`). Here with positions in the list of items (first index fastest). -/
def interpArray (P : Scipy F) (k : Nat) (old new : List F) (t : BaseType) (shape : List Nat)
    (data : List (Scalar F)) : Option (List Nat × List (Scalar F)) :=
  match shape[k]? with
  | none => none                                   -- `AxisError`
  | some n =>
    if n ≠ old.length then none                    -- `ValueError`
    else if !P.accepts t old then none
    else
      let inner := arrSize (shape.take k)
      let m := new.length
      match allSome ((List.range (arrSize (shape.set k m))).map fun o =>
          match lineOf data inner n (o % inner) (o / inner / m), new[o / inner % m]? with
          | some ys, some x => P.point t old ys x
          | _, _ => none) with
      | none => none
      | some d => some (shape.set k m, d)

/-- Exceptions: `ValueError` and `NotImplementedError` of `resample`, exceptions of `interp1d`, and of
the assignment of the new times. -/
inductive Err where
  | value | notImplemented | interp | store
  deriving DecidableEq, Repr

/-- `time_index` (`ids_coordinates.py` lines 269-279) from dimension `i` on. -/
def timeIndexFrom (i : Nat) : List Coord.Coordinate → Option Nat
  | [] => none
  | c :: r => if c.isTime then some i else timeIndexFrom (i + 1) r

def timeIndex (d : Dict) (q : List Name) : Option Nat := timeIndexFrom 0 (d.node q).coords

def timeName : Name := "time".toList

/-- `interp1d(old_time.value, el.value, axis=time_axis, **kwargs)` evaluated at the new times, for any
value of a data node: without axis, and for values that are no arrays of numbers it raises. -/
def interpValue (P : Scipy F) (axis : Option Nat) (old new : List F) : Val F → Option (Val F)
  | .arr t s d =>
    match axis with
    | none => none
    | some k =>
      match interpArray P k old new t s d with
      | none => none
      | some (s', d') => some (.arr t s' d')
  | _ => none

variable [FloatModel F]

/-- `visitor` (lines 55-73) for a data node with metadata path `q` that has a value. -/
def visitor (P : Scipy F) (d : Dict) (old new : List F) (q : List Name) (l : LeafMeta) (v : Val F) :
    Except Err (Val F) :=
  if l.dynamic && q.getLast? ≠ some timeName then
    match interpValue P (timeIndex d q) old new v with
    | none => .error .interp
    | some w => .ok w
  else .ok v

mutual
/-- `visit_children(visitor, el)` (line 80; `util.py` lines 24-70 and 116-133) for the node with
metadata path `q`: the node afterwards, and the exception that ended the visit, if any. Data nodes that
have been visited before the exception are changed. -/
def visitNode (P : Scipy F) (d : Dict) (old new : List F) (q : List Name) :
    Node (Val F) → Node (Val F) × Option Err
  | .leaf l (some v) =>
    if Value.isEmpty v then (.leaf l (some v), none)
    else match visitor P d old new q l v with
      | .error e => (.leaf l (some v), some e)
      | .ok w => (.leaf l (some w), none)
  | .leaf l none => (.leaf l none, none)
  | .struct c =>
    let r := visitFields P d old new q c
    (.struct r.1, r.2)
  | .aos m e =>
    let r := visitElems P d old new q e
    (.aos m r.1, r.2)
/-- The children with a value, in order. -/
def visitFields (P : Scipy F) (d : Dict) (old new : List F) (q : List Name) :
    Fields (Val F) → Fields (Val F) × Option Err
  | .nil => (.nil, none)
  | .absent n m r =>
    let s := visitFields P d old new q r
    (.absent n m s.1, s.2)
  | .present n x r =>
    if x.hasValue then
      match visitNode P d old new (q ++ [n]) x with
      | (y, some e) => (.present n y r, some e)
      | (y, none) =>
        let s := visitFields P d old new q r
        (.present n y s.1, s.2)
    else
      let s := visitFields P d old new q r
      (.present n x s.1, s.2)
/-- All elements, in order. -/
def visitElems (P : Scipy F) (d : Dict) (old new : List F) (q : List Name) :
    Elems (Val F) → Elems (Val F) × Option Err
  | .nil => (.nil, none)
  | .cons c r =>
    match visitFields P d old new q c with
    | (c', some e) => (.cons c' r, some e)
    | (c', none) =>
      let s := visitElems P d old new q r
      (.cons c' s.1, s.2)
end

/-- Lines 38-53: the time mode is that of the call (`given`), or else of the node (`mode`; `none` is
None). An unset `homogeneous_time` is the number that stands for unset. -/
def checkMode (given mode : Option Int) : Except Err Unit :=
  match given.or mode with
  | none => .error .value
  | some m => if m = 1 then .ok () else .error .notImplemented

/-- The value setter of the node `time`, for the new times. -/
def assignTime (cv : Conv F) (new : List F) : Node (Val F) → Except Err (Node (Val F))
  | .leaf l v =>
    match (Node.leaf l v).assign cv false (.val (.arr .flt [new.length] (new.map .flt))) with
    | .ok y => .ok y
    | .error _ => .error .store
  | _ => .error .store

/-- `el.time = new_time` (line 83). -/
def setTime (cv : Conv F) (new : List F) (root : Node (Val F)) : Except Err (Node (Val F)) :=
  match root.modify (assignTime cv new) [(timeName, none)] with
  | none => .error .store
  | some r => r

/-- `resample_impl` (lines 37-87) of a structure with metadata path `q`; `toplevel` tells whether it is
an IDS. The node afterwards (with `inplace`; the copy otherwise), and the exception, if any. -/
def resample (P : Scipy F) (cv : Conv F) (d : Dict) (q : List Name) (toplevel : Bool)
    (old new : List F) (given mode : Option Int) (node : Node (Val F)) : Node (Val F) × Option Err :=
  match checkMode given mode with
  | .error e => (node, some e)
  | .ok _ =>
    match visitNode P d old new q node with
    | (y, some e) => (y, some e)
    | (y, none) =>
      if toplevel then
        match setTime cv new y with
        | .error e => (y, some e)
        | .ok z => (z, none)
      else (y, none)

end Verif.Resample
