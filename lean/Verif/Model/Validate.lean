import Verif.Model.Goto
import Verif.Model.Coordinate
/-!
Model of coordinate lookup and validation: `IDSCoordinates` (`/repo/imas/ids_coordinates.py`
lines 138-401), `IDSToplevel.validate` (`/repo/imas/ids_toplevel.py` lines 216-290) and the
`_validate` methods of the nodes (`ids_base.py` lines 116-131, `ids_structure.py` lines
307-313, `ids_struct_array.py` lines 220-227, `ids_primitive.py` lines 247-252).

Simplifications: only IDSs that are not lazy loaded. Everything here only reads nodes; the
children created by that (`Node.read`) are not represented, see C08 for why they do not
matter. Indexing a data node is an ordinary (ignored) error. Children whose names are Python
attributes (`value`, `shape`) are not modelled. Error messages are reduced to the position
and the reason.
-/
namespace Verif.Ids
open Verif.Path (Parsed isAncestorOf)
open Verif.Coord (Coordinate)

/-- What coordinate lookup needs to know about values. -/
class ShapedValue (V : Type) extends Value V where
  /-- `np.shape(value)` -/
  shape : V → List Nat
  /-- `len(value)` of a `str` -/
  strLen : V → Nat
  /-- `EMPTY_FLOAT in np.array([value])` -/
  hasEmptyFloat : V → Bool
  isEmpty_iff : ∀ v, isEmpty v = true ↔ 0 ∈ shape v

/-- Metadata of one node. `dynamic` is `metadata.type.is_dynamic`; `alternatives` are the
`alternative_coordinates` (`ids_metadata.py` lines 233-241). -/
structure NodeMD where
  coords : List Coordinate
  sameAs : List Coordinate
  alternatives : List Parsed
  dynamic : Bool

/-- Metadata of an IDS: for each path of names the metadata of that node. `constant`:
`metadata.type is IDSType.CONSTANT` for the toplevel. -/
structure Dict where
  node : List Name → NodeMD
  constant : Bool

/-- Kinds of exceptions that `_capture_goto_errors` distinguishes (lines 355-401). -/
inductive LookErr where
  | lookup | index | other
  deriving DecidableEq, Repr

/-- Result of `coordinates[dim]`: a node, an index range `np.arange(n)`, or the values of a
node in each element of an array of structures. -/
inductive CoordResult (V : Type) where
  | node (a : Addr)
  | range (n : Nat)
  | values (vs : List (LeafMeta × Option V))

/-- Everything a lookup depends on. -/
structure Ctx (V : Type) where
  asInt : V → Option Int
  stack : Nat
  dict : Dict
  root : Node V

def navErr : NavErr → LookErr
  | .index => .index
  | _ => .other

variable {V : Type}

/-- `path.goto(element)`, `_goto(path, element)` (lines 128-135). -/
def Ctx.locate (x : Ctx V) (a : Addr) (p : Parsed) : Except LookErr Addr :=
  match goto x.asInt x.stack x.root a true p with
  | .ok b => .ok b
  | .error e => .error (navErr e)

/-- Metadata of the node at an address. -/
def Ctx.md (x : Ctx V) (a : Addr) : NodeMD := x.dict.node (a.map (·.1))

def timeModeAddr : Addr := [("ids_properties".toList, none), ("homogeneous_time".toList, none)]

/-- `_time_mode` (`ids_toplevel.py` lines 92-95), compared with integers. -/
def Ctx.timeMode (x : Ctx V) : Option Int :=
  match intValue x.asInt x.root timeModeAddr with
  | .ok i => some i
  | .error _ => none

/-- `IDSPath("time")`. -/
def timePath : Parsed := ⟨["time".toList], [none]⟩

/-- Position of element `i` of the array of structures at `a`. -/
def elemAddr (a : Addr) (i : Nat) : Addr :=
  match a.getLast? with
  | some (n, _) => a.dropLast ++ [(n, some i)]
  | none => []

/-- Lines 184-199: the path of the coordinate, unless one of several references has to be
chosen. -/
def choosePath (c : Coordinate) (mode : Option Int) : Except LookErr (Option Parsed) :=
  if c.isTime then
    match mode with
    | none => .error .other
    | some m =>
      if m = 1 then .ok (some timePath)
      else if m = 0 then .ok c.references.head?
      else .error .other
  else if !c.hasAlternatives then .ok c.references.head?
  else .ok none

section
variable [ShapedValue V]

/-- `node.shape` (`ids_primitive.py` lines 95-106, `ids_struct_array.py` lines 147-155);
`none` is `AttributeError`. -/
def shapeOf : Node V → Option (List Nat)
  | .leaf l v =>
    if l.ndim = 0 then some []
    else match v with
      | none => some (List.replicate l.ndim 0)
      | some v => some (ShapedValue.shape v)
  | .aos _ e => some [e.length]
  | .struct _ => none

/-- `len(node)` and `len(node.value)` (`ids_primitive.py` lines 132-137, 282-283); a
`TypeError` for other 0D nodes and for structures. -/
def lenOf : Node V → Except LookErr Nat
  | .leaf l v =>
    if l.ndim = 0 then
      if l.type = .str then
        match v with
        | none => .ok 0
        | some v => .ok (ShapedValue.strLen v)
      else .error .other
    else match v with
      | none => .ok 0
      | some v =>
        match ShapedValue.shape v with
        | n :: _ => .ok n
        | [] => .error .other
  | .aos _ e => .ok e.length
  | .struct _ => .error .other

/-- `len` of the node at an address. -/
def Ctx.lenAt (x : Ctx V) (b : Addr) : Except LookErr Nat :=
  match x.root.at b with
  | some y => lenOf y
  | none => .error .other

/-- `np.arange(self._node.shape[key])` (lines 183, 238). -/
def Ctx.range (x : Ctx V) (a : Addr) (key : Nat) : Except LookErr (CoordResult V) :=
  match (x.root.at a).bind shapeOf with
  | none => .error .other
  | some sh =>
    match sh[key]? with
    | none => .error .index
    | some n => .ok (.range n)

/-- The list comprehension of line 206, from element `i` on (`n` elements left). -/
def Ctx.elemValues (x : Ctx V) (a : Addr) (p : Parsed) :
    Nat → Nat → Except LookErr (List (LeafMeta × Option V))
  | _, 0 => .ok []
  | i, n + 1 =>
    match x.locate (elemAddr a i) p with
    | .error e => .error e
    | .ok b =>
      match x.root.at b with
      | some (.leaf l v) =>
        match x.elemValues a p (i + 1) n with
        | .error e => .error e
        | .ok vs => .ok ((l, v) :: vs)
      | _ => .error .other

/-- Shape of `node.value`. -/
def valueShape (v : LeafMeta × Option V) : List Nat :=
  match v.2 with
  | none => List.replicate v.1.ndim 0
  | some v => ShapedValue.shape v

/-- `np.array(data)` (line 207) raises `ValueError` if the shapes differ. -/
def stackValues (vs : List (LeafMeta × Option V)) : Except LookErr (CoordResult V) :=
  if vs.all (fun v => valueShape v == (vs.head?.map valueShape).getD []) then .ok (.values vs)
  else .error .other

/-- Lines 213-217: the alternatives of a coordinate node with their lengths. -/
def Ctx.alternatives (x : Ctx V) (b : Addr) :
    List Parsed → Except LookErr (List (Addr × Nat))
  | [] => .ok []
  | p :: ps =>
    match x.locate b p with
    | .error e => .error e
    | .ok c =>
      match x.lenAt c with
      | .error e => .error e
      | .ok n =>
        match x.alternatives b ps with
        | .error e => .error e
        | .ok r => .ok ((c, n) :: r)

/-- Lines 212-232: choose between a coordinate node and its alternatives. -/
def pickAlternative (b : Addr) (cands : List (Addr × Nat)) : Except LookErr (CoordResult V) :=
  match cands.filter (fun c => c.2 > 0) with
  | [] => .ok (.node b)
  | c :: cs => if cs.all (fun d => d.2 == c.2) then .ok (.node c.1) else .error .lookup

/-- Lines 209-232: a coordinate that is not inside the elements of the node. -/
def Ctx.outside (x : Ctx V) (a : Addr) (p : Parsed) : Except LookErr (CoordResult V) :=
  match x.locate a p with
  | .error e => .error e
  | .ok b =>
    if (x.md b).alternatives = [] then .ok (.node b)
    else
      match x.lenAt b with
      | .error e => .error e
      | .ok n =>
        match x.alternatives b (x.md b).alternatives with
        | .error e => .error e
        | .ok cands => pickAlternative b ((b, n) :: cands)

/-- Lines 201-232: the coordinate along one path. `metadata.path` has the names of the
position of the node. -/
def Ctx.alongPath (x : Ctx V) (a : Addr) (p : Parsed) : Except LookErr (CoordResult V) :=
  match x.root.at a with
  | some (.aos _ e) =>
    if isAncestorOf ⟨a.map (·.1), []⟩ p then
      match x.elemValues a p 0 e.length with
      | .error err => .error err
      | .ok vs => stackValues vs
    else x.outside a p
  | _ => x.outside a p

/-- Line 236: all references. -/
def Ctx.locateAll (x : Ctx V) (a : Addr) : List Parsed → Except LookErr (List Addr)
  | [] => .ok []
  | p :: ps =>
    match x.locate a p with
    | .error e => .error e
    | .ok b =>
      match x.locateAll a ps with
      | .error e => .error e
      | .ok bs => .ok (b :: bs)

/-- Line 237: their lengths. -/
def Ctx.lenAll (x : Ctx V) : List Addr → Except LookErr (List (Addr × Nat))
  | [] => .ok []
  | b :: bs =>
    match x.lenAt b with
    | .error e => .error e
    | .ok n =>
      match x.lenAll bs with
      | .error e => .error e
      | .ok r => .ok ((b, n) :: r)

/-- Lines 238-267: choose between several references. -/
def Ctx.pickReference (x : Ctx V) (a : Addr) (key : Nat) (c : Coordinate)
    (cands : List (Addr × Nat)) : Except LookErr (CoordResult V) :=
  match cands.filter (fun c => c.2 > 0) with
  | [] => if c.size.isSome then x.range a key else .error .lookup
  | [d] => .ok (.node d.1)
  | _ => .error .lookup

/-- `IDSCoordinates.__getitem__` (lines 171-267) for `key ≥ 0`. -/
def Ctx.coordinate (x : Ctx V) (a : Addr) (key : Nat) : Except LookErr (CoordResult V) :=
  match (x.md a).coords[key]? with
  | none => .error .index
  | some c =>
    if c.references = [] then x.range a key
    else
      match choosePath c x.timeMode with
      | .error e => .error e
      | .ok (some p) => x.alongPath a p
      | .ok none =>
        match x.locateAll a c.references with
        | .error e => .error e
        | .ok bs =>
          match x.lenAll bs with
          | .error e => .error e
          | .ok cands => x.pickReference a key c cands

/-! ### Validation -/

/-- Reasons of a `ValidationError`. -/
inductive Reason where
  | timeMode | static | dynamic
  | size (expected : Int) | lookup | index | emptyTime | mismatch | sameAs
  deriving DecidableEq, Repr

/-- Exceptions of `validate`: a `ValidationError` for a node (and dimension), or another
exception. -/
inductive ValErr where
  | invalid (a : Addr) (dim : Option Nat) (r : Reason)
  | crash (a : Addr) (dim : Option Nat)

/-- `if coordinate.size:`: zero counts as no size (lines 299, 319). -/
def Coordinate.fixed (c : Coordinate) : Option Int :=
  match c.size with
  | some 0 => none
  | s => s

/-- `EMPTY_FLOAT in other_element` (line 325): an unset `FLT_0D` reads as `EMPTY_FLOAT`. -/
def emptyTime (v : LeafMeta × Option V) : Bool :=
  match v.2 with
  | some v => ShapedValue.hasEmptyFloat v
  | none => v.1.type = .flt && v.1.ndim = 0

/-- Lines 316-336, once the coordinate is found: compare sizes. `n` is `shape[dim]`. -/
def Ctx.compareSize (x : Ctx V) (a : Addr) (dim n : Nat) (c : Coordinate) :
    CoordResult V → Except ValErr Unit
  | .range k =>
    match Coordinate.fixed c with
    | some s => .error (.invalid a (some dim) (.size s))
    | none => if n = k then .ok () else .error (.crash a (some dim))
  | .values vs =>
    match Coordinate.fixed c with
    | some s => .error (.invalid a (some dim) (.size s))
    | none =>
      if vs.any emptyTime then .error (.invalid a (some dim) .emptyTime)
      else if n = vs.length then .ok () else .error (.crash a (some dim))
  | .node b =>
    match (x.root.at b).bind shapeOf with
    | none => .ok ()
    | some [] => .error (.invalid a (some dim) .index)
    | some (k :: _) => if n = k then .ok () else .error (.invalid a (some dim) .mismatch)

/-- Lines 309-336: validate the references. -/
def Ctx.checkReferences (x : Ctx V) (a : Addr) (dim n : Nat) (c : Coordinate) :
    Except ValErr Unit :=
  if c.references = [] then .error (.crash a (some dim))
  else
    match x.coordinate a dim with
    | .error .lookup => .error (.invalid a (some dim) .lookup)
    | .error .index => .error (.invalid a (some dim) .index)
    | .error .other => .ok ()
    | .ok r => x.compareSize a dim n c r

/-- One turn of the first loop of `_validate` (lines 291-336). -/
def Ctx.checkDim (x : Ctx V) (a : Addr) (dim n : Nat) (c : Coordinate) : Except ValErr Unit :=
  if !c.hasValidation then .ok ()
  else
    match Coordinate.fixed c with
    | some s =>
      if (n : Int) = s then .ok ()
      else if !c.hasAlternatives then .error (.invalid a (some dim) (.size s))
      else x.checkReferences a dim n c
    | none => x.checkReferences a dim n c

/-- One turn of the second loop of `_validate` (lines 338-352). -/
def Ctx.checkSameAs (x : Ctx V) (a : Addr) (dim n : Nat) (c : Coordinate) : Except ValErr Unit :=
  if !c.hasValidation then .ok ()
  else
    match c.references with
    | [p] =>
      match x.locate a p with
      | .error .index => .error (.invalid a (some dim) .index)
      | .error .lookup => .error (.invalid a (some dim) .lookup)     -- not raised by `goto`
      | .error .other => .ok ()
      | .ok b =>
        match ((x.root.at b).bind shapeOf).bind (·[dim]?) with
        | none => .error (.crash a (some dim))
        | some k => if n = k then .ok () else .error (.invalid a (some dim) .sameAs)
    | _ => .error (.crash a (some dim))

/-- `for dim in range(metadata.ndim)`, from dimension `dim` on (`k` dimensions left). The
shape of a node has `ndim` entries. -/
def overDims (check : Nat → Nat → Coordinate → Except ValErr Unit) (a : Addr)
    (shape : List Nat) (cs : List Coordinate) : Nat → Nat → Except ValErr Unit
  | _, 0 => .ok ()
  | dim, k + 1 =>
    match shape[dim]?, cs[dim]? with
    | some n, some c =>
      match check dim n c with
      | .error e => .error e
      | .ok _ => overDims check a shape cs (dim + 1) k
    | _, _ => .error (.crash a (some dim))

/-- `IDSCoordinates._validate` (lines 281-352) of the node `y` at `a`. -/
def Ctx.checkCoords (x : Ctx V) (a : Addr) (ndim : Nat) (y : Node V) : Except ValErr Unit :=
  match shapeOf y with
  | none => .error (.crash a none)
  | some sh =>
    match overDims (x.checkDim a) a sh (x.md a).coords 0 ndim with
    | .error e => .error e
    | .ok _ => overDims (x.checkSameAs a) a sh (x.md a).sameAs 0 ndim

/-- `IDSBase._validate` (`ids_base.py` lines 116-131). -/
def Ctx.checkDynamic (x : Ctx V) (a : Addr) (y : Node V) : Except ValErr Unit :=
  if (x.md a).dynamic && y.hasValue then
    match x.timeMode with
    | none => .error (.crash a none)
    | some m => if m = 2 then .error (.invalid a none .dynamic) else .ok ()
  else .ok ()

mutual
/-- `_validate` of a data node, structure and array of structures at `a`. -/
def Ctx.checkNode (x : Ctx V) (a : Addr) : Node V → Except ValErr Unit
  | .leaf l v =>
    match x.checkDynamic a (.leaf l v) with
    | .error e => .error e
    | .ok _ =>
      if l.ndim > 0 && leafHasValue v then x.checkCoords a l.ndim (.leaf l v) else .ok ()
  | .struct c =>
    match x.checkDynamic a (.struct c) with
    | .error e => .error e
    | .ok _ => x.checkFields a c
  | .aos m e =>
    match x.checkDynamic a (.aos m e) with
    | .error e => .error e
    | .ok _ =>
      if e.length > 0 then
        match x.checkCoords a 1 (.aos m e) with
        | .error e => .error e
        | .ok _ => x.checkElems a 0 e
      else .ok ()
/-- `for child in self.iter_nonempty_(): child._validate()`. -/
def Ctx.checkFields (x : Ctx V) (a : Addr) : Fields V → Except ValErr Unit
  | .nil => .ok ()
  | .absent _ _ r => x.checkFields a r
  | .present n y r =>
    if y.hasValue then
      match x.checkNode (a ++ [(n, none)]) y with
      | .error e => .error e
      | .ok _ => x.checkFields a r
    else x.checkFields a r
/-- `for child in self: child._validate()` of an array of structures, from element `i` on. -/
def Ctx.checkElems (x : Ctx V) (a : Addr) (i : Nat) : Elems V → Except ValErr Unit
  | .nil => .ok ()
  | .cons c r =>
    match x.checkDynamic (elemAddr a i) (.struct c) with
    | .error e => .error e
    | .ok _ =>
      match x.checkFields (elemAddr a i) c with
      | .error e => .error e
      | .ok _ => x.checkElems a (i + 1) r
end

/-- `IDSToplevel.validate` (`ids_toplevel.py` lines 260-290). -/
def Ctx.validate (x : Ctx V) : Except ValErr Unit :=
  match x.timeMode with
  | none => .error (.crash [] none)
  | some m =>
    if m = 0 ∨ m = 1 ∨ m = 2 then
      if x.dict.constant && m ≠ 2 then .error (.invalid [] none .static)
      else
        match x.root with
        | .struct c => x.checkFields [] c
        | _ => .error (.crash [] none)      -- unreachable: an IDS toplevel is a structure
    else .error (.invalid [] none .timeMode)

end

end Verif.Ids
