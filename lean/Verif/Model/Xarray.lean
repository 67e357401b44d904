import Verif.Model.NcWrite
/-
Model of `imas/_to_xarray.py` (conversion of an IDS, or of selected paths of it, to an xarray `Dataset`) and of the parts of
`imas/backends/netcdf/ids_tensorizer.py` for selected paths.

Representation choices:
* Paths, variables and arrays are those of `Model/NcWrite.lean`.
* What the constructor `xarray.Dataset(data_vars, coordinates)` does with its arguments is not modelled.
* Loading of data that are not yet loaded from a file is not modelled here; `isLazy` says if this is such an IDS.
-/
namespace Verif.Nc
open Verif.Ids

/-! ### Selected paths and their coordinates -/

/-- `path.rpartition("/")` until the path is empty (`ids_tensorizer.py` lines 63-64): what contains the path, from the
inside to the outside; the last one is the empty path. -/
def parents : Nat → Path → List Path
  | 0, _ => []
  | _, [] => []
  | n + 1, p => p.dropLast :: parents n p.dropLast

/-- Lines 60-66: the selected paths, and the arrays of structures around them. -/
def startQueue (dims : Path → List Dim) (sel : List Path) : List Path :=
  sel ++ sel.flatMap fun p => (parents p.length p).filter fun a => !(dims a).isEmpty

/-- The loop of lines 69-75: `done` is `paths_to_tensorize`. `fuel` bounds the number of steps; `none` means that the loop needs
more. -/
def includeLoop (coords : Path → List Path) : Nat → List Path → List Path → Option (List Path)
  | _, [], done => some done
  | 0, _ :: _, _ => none
  | fuel + 1, p :: queue, done =>
    if p ∈ done then includeLoop coords fuel queue done
    else includeLoop coords fuel (queue ++ coords p) (done ++ [p])

/-- `include_coordinate_paths` (lines 57-75). -/
def includePaths (fuel : Nat) (N : NcMeta) (hom : Bool) (sel : List Path) : Option (List Path) :=
  includeLoop (N.getCoords hom) fuel (startQueue (N.getDims hom) sel) []

section
variable {S : Type}

/-! ### Nodes with a path -/

/-- A node that is visited, if it has a value (line 95). -/
def itemOf (p : Path) (i : List Nat) : Node (Arr S) → List (Item S)
  | .leaf l v => if (Node.leaf l v).hasValue then (v.map fun v => ⟨p, i, .data l v⟩).toList else []
  | .struct c => if (Node.struct c).hasValue then [⟨p, i, .struct⟩] else []
  | .aos m e => if (Node.aos m e).hasValue then [⟨p, i, .aos e.length⟩] else []

/-- Elements of an array of structures with their numbers. -/
def eachElem {A : Type} (f : Nat → Fields (Arr S) → List A) : Nat → Elems (Arr S) → List A
  | _, .nil => []
  | k, .cons c r => f k c ++ eachElem f (k + 1) r

/-- `indexed_tree_iter(ids, metadata)` (`iterators.py` lines 60-82): the nodes with a path, with the numbers of the elements around
them. The code splits the path at arrays of structures first; here it is followed name by name. `full` is the whole path. -/
def nodesAt (full : Path) : Path → List Nat → Fields (Arr S) → List (Item S)
  | [], _, _ => []
  | [k], i, c =>
    match c.get? k with
    | none => []
    | some x => itemOf full i x
  | k :: k' :: p, i, c =>
    match c.get? k with
    | some (.struct d) => nodesAt full (k' :: p) i d
    | some (.aos _ e) => eachElem (fun j d => nodesAt full (k' :: p) (i ++ [j]) d) 0 e
    | _ => []

/-- All paths, in order (`ids_tensorizer.py` lines 91-96). `self.ids.metadata[path]` may raise `KeyError`. -/
def selectedItems (m : MFields) (c : Fields (Arr S)) : List Path → Except NcErr (List (Item S))
  | [] => .ok []
  | p :: r =>
    match metaOf m p with
    | none => .error .key
    | some _ =>
      match selectedItems m c r with
      | .error e => .error e
      | .ok l => .ok (nodesAt p p [] c ++ l)

/-- The nodes that are converted (lines 88-100): all nodes with a value if there is no selection. -/
def chosenItems (m : MFields) (c : Fields (Arr S)) (paths : List Path) : Except NcErr (List (Item S)) :=
  match paths with
  | [] => .ok (filledFields [] [] c)
  | paths => selectedItems m c paths

/-! ### The data set -/

/-- A variable: its dimensions, its data, its attributes. -/
structure XVar (S : Type) where
  dims : List Dim
  data : Arr S
  documentation : Text
  units : Option Text
  coordinates : Option (List Path)

structure Dataset (S : Type) where
  vars : List (Path × XVar S)
  coords : List (Path × XVar S)

/-- One path in the loop of `to_xarray` (`_to_xarray.py` lines 49-66). `fill` is `fillvals`. -/
def makeXVar (fill : BaseType → S) (tx : Texts) (N : NcMeta) (hom : Bool) (filled : Path → Bool) (sizes : List (NcDim × Nat)) (p : Path)
    (l : LeafMeta) (sp : Sparsity) (items : List (Item S)) : Except NcErr (XVar S) :=
  match sizesOf sizes (N.getDims hom p) with
  | .error e => .error e
  | .ok shape =>
    match fillData sp.isShapes items (.full shape (fill l.type)) with
    | .error e => .error e
    | .ok a =>
      .ok { dims := N.getDims hom p, data := a, documentation := tx.documentation p, units := nonempty (tx.units p)
            coordinates := nonempty ((N.getCoords hom p).filter filled) }

/-- The loop (lines 46-66); structures and arrays of structures are skipped. -/
def allXVars (fill : BaseType → S) (tx : Texts) (N : NcMeta) (hom : Bool) (m : MFields) (sizes : List (NcDim × Nat)) (items : List (Item S)) :
    List (Path × Sparsity) → Except NcErr (List (Path × XVar S))
  | [] => .ok []
  | (p, sp) :: r =>
    match metaOf m p with
    | none => .error .key
    | some (.leaf l) =>
      match makeXVar fill tx N hom (fun q => items.any (·.path = q)) sizes p l sp (itemsAt items p) with
      | .error e => .error e
      | .ok v =>
        match allXVars fill tx N hom m sizes items r with
        | .error e => .error e
        | .ok l => .ok ((p, v) :: l)
    | some _ => allXVars fill tx N hom m sizes items r

/-- `coordinate_names`, a set. -/
def coordinateNames (vars : List (Path × XVar S)) : List Path := (vars.flatMap fun x => x.2.coordinates.getD []).eraseDups

/-- `d.pop(x)`, which raises `KeyError` if `x` is not in `d`. -/
def popVar (x : Path) : List (Path × XVar S) → Option (XVar S × List (Path × XVar S))
  | [] => none
  | (k, v) :: r =>
    if x = k then some (v, r)
    else
      match popVar x r with
      | none => none
      | some (w, r') => some (w, (k, v) :: r')

/-- Lines 69-71: move the coordinates. -/
def moveCoords : List Path → List (Path × XVar S) → Except NcErr (Dataset S)
  | [], vars => .ok { vars := vars, coords := [] }
  | x :: r, vars =>
    match popVar x vars with
    | none => .error .key
    | some (v, vars') =>
      match moveCoords r vars' with
      | .error e => .error e
      | .ok ds => .ok { ds with coords := (x, v) :: ds.coords }

/-- All selected paths exist (lines 30-33). -/
def checkPaths (m : MFields) (sel : List Path) : Bool := sel.all fun p => (metaOf m p).isSome

/-- Failures of `to_xarray`: an exception, or the loop of `include_coordinate_paths` needs more steps than `fuel`. -/
inductive XErr where
  | error (e : NcErr)
  | runtime
  | fuel
  deriving DecidableEq, Repr

def XErr.lift {A : Type} : Except NcErr A → Except XErr A
  | .ok a => .ok a
  | .error e => .error (.error e)

/-- `to_xarray(ids, *paths)` (lines 18-73). -/
def toXarray (fuel : Nat) (sc : Scalars S) (fill : BaseType → S) (tx : Texts) (N : NcMeta) (m : MFields) (isLazy : Bool) (c : Fields (Arr S))
    (sel : List Path) : Except XErr (Dataset S) :=
  if !checkPaths m sel then .error (.error .value)
  else if isLazy && sel.isEmpty then .error .runtime
  else
    let hom := isHomogeneous sc c
    match includePaths fuel N hom sel with
    | none => .error .fuel
    | some paths =>
      XErr.lift (
        match chosenItems m c paths with
        | .error e => .error e
        | .ok items =>
          let sizes := collectSizes (N.getDims hom) items []
          match allShapes N hom m sizes items (N.paths.filter fun p => items.any (·.path = p)) with
          | .error e => .error e
          | .ok sps =>
            match allXVars fill tx N hom m sizes items sps with
            | .error e => .error e
            | .ok vars => moveCoords (coordinateNames vars) vars)

end
end Verif.Nc
