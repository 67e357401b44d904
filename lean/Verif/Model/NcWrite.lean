import Verif.Model.NcArr
import Verif.Model.NcMeta
/-
Model of writing an IDS to a netCDF group: `imas/backends/netcdf/ids_tensorizer.py` and `imas/backends/netcdf/ids2nc.py`.

Representation choices:
* A netCDF group has dimensions (name and size), variables, and variables with names ending in `:shape`. A variable
  name `a.b` is the list of its parts.
* The data of variables are arrays of scalars. Compression is not modelled. Slots of a variable that are not written
  contain the fill value of its Data Dictionary type (netCDF fills variables before they are written).
* `filled_data` (a dictionary from paths to dictionaries from indices to nodes) is the list of all filled nodes
  in the order in which they are visited. A path is in it if there is a node with this path.
* The netCDF4 library is new enough for complex numbers and compression.
-/
namespace Verif.Nc
open Verif.Ids

abbrev Text := List Char

/-- Exceptions: `KeyError`, `IndexError`, `ValueError`, `InvalidNetCDFEntry`, `AttributeError`. -/
inductive NcErr where
  | key | index | value | invalid | attribute
  deriving DecidableEq, Repr

/-- Names of netCDF dimensions: those of `NCMetadata`, and `1D`, `2D`, ... -/
inductive NcDim where
  | dd (d : Dim)
  | pseudo (n : Nat)
  deriving DecidableEq, Repr

/-- Type of the data of a variable: `S1` for structures and arrays of structures. -/
inductive VarType where
  | dummy
  | data (t : BaseType)
  deriving DecidableEq, Repr

/-- A netCDF variable with its data and attributes: `_FillValue`, `sparse`, `coordinates` and `ancillary_variables`
(split in names), `units`, `documentation`; `other` are the names of further attributes. -/
structure Var (S : Type) where
  type : VarType
  dims : List NcDim
  data : Arr S
  fill : Option S := none
  sparse : Bool := false
  coordinates : Option (List Path) := none
  ancillary : Option (List Path) := none
  units : Option Text := none
  documentation : Option Text := none
  other : List Text := []

/-- A variable with the shapes of sparse data; `integer`: it has an integer type. -/
structure ShapeVar where
  dims : List NcDim
  integer : Bool
  data : Arr Nat

structure Group (S : Type) where
  dims : List (NcDim × Nat)
  vars : List (Path × Var S)
  shapes : List (Path × ShapeVar)

/-- Scalars: the fill value of each type (`default_fillvals`, `ids2nc.py` lines 13-18), and the integer that a scalar
is. A dummy variable contains `unset`. -/
structure Scalars (S : Type) where
  fill : BaseType → S
  unset : S
  int : S → Option Int

/-- Texts from the Data Dictionary (`metadata.documentation`, `metadata.units`). -/
structure Texts where
  documentation : Path → Text
  units : Path → Text

/-- A child of a Data Dictionary structure. -/
def metaChild : MFields → Name → Option Meta
  | .nil, _ => none
  | .cons n m r, k => if k = n then some m else metaChild r k

/-- The metadata with a path: `ids.metadata[path]` (`ids_metadata.py` lines 278-288); `none` is a `KeyError`. -/
def metaOf : MFields → Path → Option Meta
  | _, [] => none
  | m, [k] => metaChild m k
  | m, k :: q :: p =>
    match metaChild m k with
    | some (.struct c) => metaOf c (q :: p)
    | some (.aos c) => metaOf c (q :: p)
    | _ => none

/-- `metadata.ndim` -/
def ndimOf : Meta → Nat
  | .leaf l => l.ndim
  | .struct _ => 0
  | .aos _ => 1

section
variable {S : Type}

/-! ### Collecting the filled nodes -/

/-- A node: a structure, an array of structures with its length, a data node with its value. -/
inductive Content (S : Type) where
  | struct
  | aos (n : Nat)
  | data (l : LeafMeta) (v : Arr S)

structure Item (S : Type) where
  path : Path
  index : List Nat
  content : Content S

/-- `node.metadata.ndim` -/
def Content.ndim : Content S → Nat
  | .struct => 0
  | .aos _ => 1
  | .data l _ => l.ndim

/-- `node.shape` (`ids_primitive.py` lines 95-106, `ids_struct_array.py`). -/
def Content.shape : Content S → List Nat
  | .struct => []
  | .aos n => [n]
  | .data l v => if l.ndim = 0 then [] else v.shape

mutual
/-- `_full_tree_iter` for a child with a value (`iterators.py` lines 85-98): the child and what is below it. -/
def filledNode (p : Path) (i : List Nat) : Node (Arr S) → List (Item S)
  | .leaf l (some v) => [⟨p, i, .data l v⟩]
  | .leaf _ none => []
  | .struct c => ⟨p, i, .struct⟩ :: filledFields p i c
  | .aos _ e => ⟨p, i, .aos e.length⟩ :: filledElems p i 0 e
/-- `_full_tree_iter` for a structure: children with a value (`iter_nonempty_`). -/
def filledFields (p : Path) (i : List Nat) : Fields (Arr S) → List (Item S)
  | .nil => []
  | .absent _ _ r => filledFields p i r
  | .present n x r => (if x.hasValue then filledNode (p ++ [n]) i x else []) ++ filledFields p i r
def filledElems (p : Path) (i : List Nat) (k : Nat) : Elems (Arr S) → List (Item S)
  | .nil => []
  | .cons c r => filledFields p (i ++ [k]) c ++ filledElems p i (k + 1) r
end

/-- `dimensions[-ndim:]`: the last `ndim` dimensions, and all if `ndim` is zero. -/
def lastDims (l : List Dim) (ndim : Nat) : List Dim := if ndim = 0 then l else l.drop (l.length - ndim)

/-- The loop over the dimensions of a node (`ids_tensorizer.py` lines 107-108). -/
def growSizes (sizes : List (NcDim × Nat)) : List (Dim × Nat) → List (NcDim × Nat)
  | [] => sizes
  | (d, n) :: r => growSizes (dset sizes (.dd d) (max ((dget sizes (.dd d)).getD 0) n)) r

/-- The loop in `collect_filled_data` (lines 98-108) for all nodes. -/
def collectSizes (dims : Path → List Dim) : List (Item S) → List (NcDim × Nat) → List (NcDim × Nat)
  | [], sizes => sizes
  | x :: r, sizes =>
    collectSizes dims r
      (if x.content.ndim = 0 then sizes
      else growSizes sizes ((lastDims (dims x.path) x.content.ndim).zip x.content.shape))

/-! ### Shapes -/

/-- `tuple(self.dimension_size[dim] for dim in ...)` -/
def sizesOf (sizes : List (NcDim × Nat)) : List Dim → Except NcErr (List Nat)
  | [] => .ok []
  | d :: r =>
    match dget sizes (.dd d) with
    | none => .error .key
    | some n =>
      match sizesOf sizes r with
      | .error x => .error x
      | .ok l => .ok (n :: l)

/-- `shapes[aos_coords] = node.shape` for all nodes (lines 147-148), or `= 1` for 0D nodes (lines 152-153). -/
def fillShapes (ndim : Nat) : List (Item S) → Arr Nat → Except NcErr (Arr Nat)
  | [], a => .ok a
  | x :: r, a =>
    match a.setAt x.index (if ndim = 0 then .scalar 1 else .vec x.content.shape) with
    | none => .error .value
    | some b => fillShapes ndim r b

/-- The result of `determine_data_shapes` for a path: not in `shapes`, in it with `None`, in it with an array. -/
inductive Sparsity where
  | dense
  | missing
  | shapes (a : Arr Nat)

/-- `self.shapes.get(path) is not None` -/
def Sparsity.isShapes : Sparsity → Bool
  | .shapes _ => true
  | _ => false

/-- `determine_data_shapes` (lines 116-156) for one path; `items` are the nodes with this path. -/
def dataShape (dims : Path → List Dim) (aos : Path → Option Path) (sizes : List (NcDim × Nat)) (p : Path) (m : Meta)
    (items : List (Item S)) : Except NcErr Sparsity :=
  match m with
  | .struct _ => .ok .dense
  | m =>
    match sizesOf sizes (lastDims (dims p) (ndimOf m)) with
    | .error x => .error x
    | .ok full =>
      if (dims p).length = ndimOf m then
        match items.find? (·.index = []) with
        | none => .error .key
        | some x => .ok (if x.content.shape = full then .dense else .shapes (.vec x.content.shape))
      else
        match aos p with
        | none => .error .key
        | some a =>
          match sizesOf sizes (dims a) with
          | .error x => .error x
          | .ok l =>
            match fillShapes (ndimOf m) items (.full (if ndimOf m = 0 then l else l ++ [ndimOf m]) 0) with
            | .error x => .error x
            | .ok s =>
              if ndimOf m = 0 then .ok (if s.all fun _ k => k ≠ 0 then .dense else .missing)
              else .ok (if s.all fun i k => full[i.getLast?.getD 0]? = some k then .dense else .shapes s)

/-! ### Variables -/

/-- The nodes with a path. -/
def itemsAt (items : List (Item S)) (p : Path) : List (Item S) := items.filter (·.path = p)

def Item.value (x : Item S) : Option (Arr S) :=
  match x.content with
  | .data _ v => some v
  | _ => none

/-- The loops of `tensorize` (lines 194-203). -/
def fillData (slices : Bool) : List (Item S) → Arr S → Except NcErr (Arr S)
  | [], a => .ok a
  | x :: r, a =>
    match x.value with
    | none => .error .value
    | some v =>
      match (if slices then a.setSlice x.index v else a.setAt x.index v) with
      | none => .error .value
      | some b => fillData slices r b

/-- The data of a variable after `store_data` (`ids2nc.py` lines 127-164) and `tensorize` (`ids_tensorizer.py` lines
171-205). Items of 1D strings that are not tensorized are stored one by one, with the same result as a slice. -/
def varData (sc : Scalars S) (dims : Path → List Dim) (sizes : List (NcDim × Nat)) (p : Path) (l : LeafMeta) (sp : Sparsity)
    (items : List (Item S)) : Except NcErr (Arr S) :=
  match sizesOf sizes (dims p) with
  | .error x => .error x
  | .ok shape =>
    let slices := sp.isShapes
    if (dims p).length = l.ndim then
      match items.find? (·.index = []) with
      | none => .error .key
      | some x => fillData (slices || (l.type = .str && l.ndim = 1)) [x] (.full shape (sc.fill l.type))
    else fillData slices items (.full shape (sc.fill l.type))

/-- `{var_name}_error_upper` and `{var_name}_error_lower` -/
def errorNames (p : Path) : List Path :=
  match p.getLast? with
  | none => []
  | some n => [p.dropLast ++ [n ++ "_error_upper".toList], p.dropLast ++ [n ++ "_error_lower".toList]]

/-- An attribute that is only set if it is not empty. -/
def nonempty {A : Type} (l : List A) : Option (List A) := if l.isEmpty then none else some l

/-- The attributes of a variable (`create_variables`, lines 77-105). -/
def varAttrs (tx : Texts) (N : NcMeta) (hom : Bool) (filled : Path → Bool) (p : Path) (m : Meta) (sp : Sparsity) (v : Var S) :
    Var S :=
  { v with
    documentation := some (tx.documentation p)
    units := nonempty (tx.units p)
    ancillary := nonempty ((errorNames p).filter filled)
    coordinates := match m with
      | .aos _ => none
      | _ => nonempty ((N.getCoords hom p).filter filled)
    sparse := match sp with
      | .dense => false
      | _ => true }

/-- One path in `create_variables` and `store_data` (lines 49-164). -/
def makeVar (sc : Scalars S) (tx : Texts) (N : NcMeta) (hom : Bool) (filled : Path → Bool) (sizes : List (NcDim × Nat)) (p : Path)
    (m : Meta) (sp : Sparsity) (items : List (Item S)) : Except NcErr (Var S) :=
  match m with
  | .leaf l =>
    match varData sc (N.getDims hom) sizes p l sp items with
    | .error x => .error x
    | .ok a =>
      .ok (varAttrs tx N hom filled p m sp
        { type := .data l.type, dims := (N.getDims hom p).map .dd, data := a
          fill := if l.type = .cpx then none else some (sc.fill l.type) })
  | m => .ok (varAttrs tx N hom filled p m sp { type := .dummy, dims := [], data := .scalar sc.unset })

/-- The `:shape` variable of a path. -/
def shapeVar (N : NcMeta) (hom : Bool) (p : Path) (ndim : Nat) (a : Arr Nat) : ShapeVar where
  dims := ((match N.aos p with
    | none => []
    | some q => N.getDims hom q).map .dd) ++ [.pseudo ndim]
  integer := true
  data := a

/-- `determine_data_shapes` for all paths. -/
def allShapes (N : NcMeta) (hom : Bool) (m : MFields) (sizes : List (NcDim × Nat)) (items : List (Item S)) :
    List Path → Except NcErr (List (Path × Sparsity))
  | [] => .ok []
  | p :: r =>
    match metaOf m p with
    | none => .error .key
    | some x =>
      match dataShape (N.getDims hom) N.aos sizes p x (itemsAt items p) with
      | .error e => .error e
      | .ok sp =>
        match allShapes N hom m sizes items r with
        | .error e => .error e
        | .ok l => .ok ((p, sp) :: l)

/-- The pseudo-dimensions (lines 158-161 of `ids_tensorizer.py`). -/
def addPseudo (m : MFields) : List (Path × Sparsity) → List (NcDim × Nat) → List (NcDim × Nat)
  | [], sizes => sizes
  | (p, .shapes _) :: r, sizes =>
    match metaOf m p with
    | none => addPseudo m r sizes
    | some x => addPseudo m r (dset sizes (.pseudo (ndimOf x)) (ndimOf x))
  | _ :: r, sizes => addPseudo m r sizes

/-- All variables. -/
def allVars (sc : Scalars S) (tx : Texts) (N : NcMeta) (hom : Bool) (m : MFields) (sizes : List (NcDim × Nat)) (items : List (Item S)) :
    List (Path × Sparsity) → Except NcErr (List (Path × Var S))
  | [] => .ok []
  | (p, sp) :: r =>
    match metaOf m p with
    | none => .error .key
    | some x =>
      match makeVar sc tx N hom (fun q => items.any (·.path = q)) sizes p x sp (itemsAt items p) with
      | .error e => .error e
      | .ok v =>
        match allVars sc tx N hom m sizes items r with
        | .error e => .error e
        | .ok l => .ok ((p, v) :: l)

def allShapeVars (N : NcMeta) (hom : Bool) (m : MFields) : List (Path × Sparsity) → List (Path × ShapeVar)
  | [] => []
  | (p, .shapes a) :: r =>
    match metaOf m p with
    | none => allShapeVars N hom m r
    | some x => (p, shapeVar N hom p (ndimOf x) a) :: allShapeVars N hom m r
  | _ :: r => allShapeVars N hom m r

/-- The value of `ids_properties.homogeneous_time`, if it is set. -/
def timeMode (sc : Scalars S) (c : Fields (Arr S)) : Option Int :=
  match c.get? "ids_properties".toList with
  | some (.struct d) =>
    match d.get? "homogeneous_time".toList with
    | some (.leaf _ (some v)) => (v.get []).bind sc.int
    | _ => none
  | _ => none

/-- `ids.ids_properties.homogeneous_time == IDS_TIME_MODE_HOMOGENEOUS` (line 53). -/
def isHomogeneous (sc : Scalars S) (c : Fields (Arr S)) : Bool := timeMode sc c = some 1

/-- `IDS2NC(ids, group).run()` (`ids2nc.py` lines 35-41): the contents of the group. The IDS has the metadata `m`. Errors
midway leave an incomplete group, which is not modelled. -/
def writeIds (sc : Scalars S) (tx : Texts) (N : NcMeta) (m : MFields) (c : Fields (Arr S)) : Except NcErr (Group S) :=
  let hom := isHomogeneous sc c
  let items := filledFields [] [] c
  let sizes := collectSizes (N.getDims hom) items []
  match allShapes N hom m sizes items (N.paths.filter fun p => items.any (·.path = p)) with
  | .error e => .error e
  | .ok sps =>
    match allVars sc tx N hom m sizes items sps with
    | .error e => .error e
    | .ok vars => .ok { dims := addPseudo m sps sizes, vars := vars, shapes := allShapeVars N hom m sps }

end
end Verif.Nc
