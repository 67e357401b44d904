import Verif.Model.NcWrite
/-
Model of reading an IDS from a netCDF group: `imas/backends/netcdf/nc2ids.py`.

Representation choices:
* See `Verif.Model.NcWrite` for netCDF groups. Variables in a group have the dimensions of this group. Shapes are natural
  numbers.
* 0D data that netCDF4 and numpy give as scalars or as 0D arrays are not distinguished.
-/
namespace Verif.Nc
open Verif.Ids

/-- The implicit conversion: `nbc_map.path` and `nbc_map.type_change`. -/
structure NcMap where
  path : Path → Option (Option Path)
  change : Path → Bool

/-- What is fixed while reading: the group, the metadata of the stored version with its netCDF metadata, the metadata of
the IDS, the map. -/
structure Reader (S : Type) where
  sc : Scalars S
  tx : Texts
  N : NcMeta
  stored : MFields
  target : MFields
  map : Option NcMap
  group : Group S

section
variable {S : Type}

/-! ### Names -/

/-- The name of a variable. -/
def nameText : Path × Bool → Text
  | ([], b) => if b then ":shape".toList else []
  | ([n], b) => n ++ (if b then ":shape".toList else [])
  | (n :: k :: r, b) => n ++ '.' :: nameText (k :: r, b)

/-- `a <= b` for strings. -/
def textLe : Text → Text → Bool
  | [], _ => true
  | _ :: _, [] => false
  | a :: r, b :: s => if a = b then textLe r s else decide (a.toNat ≤ b.toNat)

def insertName (x : Path × Bool) : List (Path × Bool) → List (Path × Bool)
  | [] => [x]
  | y :: r => if textLe (nameText x) (nameText y) then x :: y :: r else y :: insertName x r

def sortNames : List (Path × Bool) → List (Path × Bool)
  | [] => []
  | x :: r => insertName x (sortNames r)

/-- `self.variables` after sorting (line 85). -/
def Group.names (g : Group S) : List (Path × Bool) :=
  sortNames (g.vars.map (fun v => (v.1, false)) ++ g.shapes.map (fun v => (v.1, true)))

/-! ### Validation -/

/-- `get_dimensions(self.ncmeta.aos.get(path))` -/
def aosDims (N : NcMeta) (hom : Bool) (p : Path) : List Dim :=
  match N.aos p with
  | none => []
  | some a => N.getDims hom a

/-- `_validate_sparsity` (lines 276-311). -/
def validateSparsity (R : Reader S) (hom : Bool) (p : Path) (m : Meta) : Except NcErr Unit :=
  if ndimOf m = 0 then .ok ()
  else
    match dget R.group.shapes p with
    | none => .error .attribute
    | some s =>
      match s.dims.getLast? with
      | none => .error .invalid
      | some d =>
        if s.dims.dropLast ≠ (aosDims R.N hom p).map .dd then .error .invalid
        else
          match dget R.group.dims d with
          | none => .error .key
          | some n =>
            if n ≠ ndimOf m then .error .invalid
            else if s.integer then .ok ()
            else .error .invalid

/-- The checks for data nodes (lines 223-251). -/
def validateData (R : Reader S) (hom : Bool) (p : Path) (l : LeafMeta) (v : Var S) : Except NcErr Unit :=
  if v.type ≠ .data l.type then .error .invalid
  else if v.dims ≠ (R.N.getDims hom p).map .dd then .error .invalid
  else if (v.coordinates.getD []).any (fun c => !(R.N.getCoords hom p).contains c) then .error .invalid
  else if (v.ancillary.getD []).any (fun c => !(errorNames p).contains c) then .error .invalid
  else .ok ()

/-- `_validate_variable` (lines 214-274). A different documentation only gives a warning. -/
def validateVar (R : Reader S) (hom : Bool) (p : Path) (m : Meta) (v : Var S) : Except NcErr Unit :=
  match (match m with
    | .leaf l => validateData R hom p l v
    | _ => .ok ()) with
  | .error e => .error e
  | .ok _ =>
    if R.tx.units p ≠ [] ∧ v.units ≠ some (R.tx.units p) then .error .invalid
    else
      match (if v.sparse then validateSparsity R hom p m else .ok ()) with
      | .error e => .error e
      | .ok _ =>
        if v.other ≠ [] then .error .invalid
        else
          match m with
          | .leaf _ => .ok ()
          | _ => if v.coordinates.isSome || v.ancillary.isSome then .error .invalid else .ok ()

/-- One variable in `validate_variables` (lines 184-212). -/
def validateName (R : Reader S) (hom : Bool) : Path × Bool → Except NcErr Unit
  | (p, true) =>
    match dget R.group.vars p with
    | none => .error .invalid
    | some v => if v.sparse then .ok () else .error .invalid
  | (p, false) =>
    match dget R.group.vars p with
    | none => .error .key
    | some v =>
      match metaOf R.stored p with
      | none => .error .invalid
      | some m => validateVar R hom p m v

/-- `validate_variables` (lines 174-212) with validation enabled. -/
def validateAll (R : Reader S) (hom : Bool) : List (Path × Bool) → Except NcErr Unit
  | [] => .ok ()
  | x :: r =>
    match validateName R hom x with
    | .error e => .error e
    | .ok _ => validateAll R hom r

def modePath : Path := ["ids_properties".toList, "homogeneous_time".toList]

/-- `NC2IDS.__init__` (lines 64-81): the time mode. -/
def readMode (R : Reader S) : Except NcErr Bool :=
  match dget R.group.vars modePath with
  | none => .error .invalid
  | some v =>
    match metaOf R.target modePath with
    | none => .error .key
    | some m =>
      match validateVar R true modePath m v with
      | .error e => .error e
      | .ok _ =>
        match (v.data.get []).bind R.sc.int with
        | none => .error .invalid
        | some i => if i = 0 ∨ i = 1 ∨ i = 2 then .ok (i = 1) else .error .invalid

/-! ### Reading values -/

/-- The size of an array of structures (lines 125-137 and 334-345); `q` is the path for which dimensions are asked. -/
def readSize (R : Reader S) (hom : Bool) (p q : Path) (v : Var S) (index : List Nat) : Except NcErr Nat :=
  if v.sparse then
    match dget R.group.shapes p with
    | none => .error .index
    | some s =>
      match (s.data.sub index).bind (·.get [0]) with
      | none => .error .index
      | some n => .ok n
  else
    match (R.N.getDims hom q).getLast? with
    | none => .error .index
    | some d =>
      match dget R.group.dims (.dd d) with
      | none => .error .key
      | some n => .ok n

/-- The elements of a 1D array. -/
def vecList (a : Arr Nat) : Option (List Nat) :=
  match a.shape with
  | [n] => some ((List.range n).map fun i => (a.get [i]).getD 0)
  | _ => none

section
variable [DecidableEq S]

/-- The value of a data node (lines 146-172 and 350-366); `none` if the node stays unset. `whole`: the data are not
tensorized and assigned as they are. -/
def readValue (R : Reader S) (whole : Bool) (p : Path) (l : LeafMeta) (v : Var S) (index : List Nat) :
    Except NcErr (Option (Arr S)) :=
  if v.sparse then
    if l.ndim = 0 then
      match v.data.sub index with
      | none => .error .index
      | some a =>
        match a.get [] with
        | none => .error .value
        | some x => .ok (if some x = v.fill then none else some a)
    else
      match dget R.group.shapes p with
      | none => .error .index
      | some s =>
        match s.data.sub index with
        | none => .error .index
        | some a =>
          match vecList a with
          | none => .error .value
          | some shape =>
            if shape.contains 0 then .ok none
            else
              match v.data.slice index shape with
              | none => .error .index
              | some b => .ok (some b)
  else if whole then
    if v.data.shape.length = l.ndim then .ok (some v.data) else .error .value
  else
    match v.data.sub index with
    | none => .error .index
    | some a => .ok (some a)

/-! ### All nodes with a path -/

/-- `for i, node in enumerate(aos)`, changing the elements. -/
def mapElems (g : Nat → Fields (Arr S) → Except NcErr (Fields (Arr S))) : Nat → Elems (Arr S) → Except NcErr (Elems (Arr S))
  | _, .nil => .ok .nil
  | i, .cons c r =>
    match g i c with
    | .error e => .error e
    | .ok c' =>
      match mapElems g (i + 1) r with
      | .error e => .error e
      | .ok r' => .ok (.cons c' r')

/-- `for index, node in indexed_tree_iter(ids, metadata)` (`iterators.py` lines 57-82), changing the nodes. -/
def mapPath (f : List Nat → Node (Arr S) → Except NcErr (Node (Arr S))) : Path → List Nat → Fields (Arr S) →
    Except NcErr (Fields (Arr S))
  | [], _, _ => .error .key
  | [k], i, c =>
    match c.get? k with
    | none => .error .attribute
    | some x =>
      match f i x with
      | .error e => .error e
      | .ok y => .ok (c.put k y)
  | k :: k' :: p, i, c =>
    match c.get? k with
    | some (.struct d) =>
      match mapPath f (k' :: p) i d with
      | .error e => .error e
      | .ok d' => .ok (c.put k (.struct d'))
    | some (.aos m e) =>
      match mapElems (fun j d => mapPath f (k' :: p) (i ++ [j]) d) 0 e with
      | .error e => .error e
      | .ok e' => .ok (c.put k (.aos m e'))
    | _ => .error .attribute

/-- `n` new elements. -/
def freshElems (m : MFields) : Nat → Elems (Arr S)
  | 0 => .nil
  | n + 1 => .cons m.fresh (freshElems m n)

/-- `node.resize(n)` (`ids_struct_array.py` lines 178-207, without `keep`): all elements are new. -/
def resizeNode (n : Nat) : Node (Arr S) → Except NcErr (Node (Arr S))
  | .aos m _ => .ok (.aos m (freshElems m n))
  | _ => .error .attribute

def setLeaf (v : Option (Arr S)) : Node (Arr S) → Except NcErr (Node (Arr S))
  | .leaf l x => .ok (.leaf l (v.or x))
  | _ => .error .attribute

/-! ### Reading everything -/

/-- Where data with a path go (lines 97-120); `none`: they are skipped. -/
def targetOf (map : Option NcMap) (p : Path) : Option Path :=
  match map with
  | none => some p
  | some n =>
    match n.path p with
    | some q => q
    | none => if n.change p then none else some p

/-- What happens to a node (lines 124-172). -/
def readNode (R : Reader S) (hom : Bool) (p : Path) (m : Meta) (v : Var S) (index : List Nat) (x : Node (Arr S)) :
    Except NcErr (Node (Arr S)) :=
  match m with
  | .struct _ => .ok x
  | .aos _ =>
    match readSize R hom p p v index with
    | .error e => .error e
    | .ok n => resizeNode n x
  | .leaf l =>
    match readValue R (R.N.aos p).isNone p l v index with
    | .error e => .error e
    | .ok w => setLeaf w x

/-- The body of the loop in `run` (lines 89-172) for one variable. If a path is not converted, the code uses the metadata of the
stored version: it fails when the target IDS has no such node. (It also takes the arrays of structures above the node from that
metadata, and then fails if they are something else in the target IDS; here the nodes of the target IDS decide.) -/
def readVar (R : Reader S) (hom : Bool) (c : Fields (Arr S)) : Path × Bool → Except NcErr (Fields (Arr S))
  | (_, true) => .ok c
  | (p, false) =>
    match metaOf R.stored p, dget R.group.vars p with
    | some (.struct _), _ => .ok c
    | some m, some v =>
      match targetOf R.map p with
      | none => .ok c
      | some q =>
        match metaOf R.target q with
        | none => .error (if (R.map.bind (·.path p)).isSome then .key else .attribute)
        | some _ => mapPath (readNode R hom p m v) q [] c
    | _, _ => .error .key

def readVars (R : Reader S) (hom : Bool) : List (Path × Bool) → Fields (Arr S) → Except NcErr (Fields (Arr S))
  | [], c => .ok c
  | x :: r, c =>
    match readVar R hom c x with
    | .error e => .error e
    | .ok c' => readVars R hom r c'

/-- `NC2IDS(...)` and `run(lazy=False)` (lines 31-172) into a new IDS; `validate`: validation is not disabled. -/
def readIds (R : Reader S) (validate : Bool) : Except NcErr (Fields (Arr S)) :=
  match readMode R with
  | .error e => .error e
  | .ok hom =>
    match (if validate then validateAll R hom R.group.names else .ok ()) with
    | .error e => .error e
    | .ok _ => readVars R hom R.group.names R.target.fresh

/-! ### Lazy reading -/

/-- `_lazy_map` (lines 122-124): the stored path for paths in the IDS. -/
def lazyMap (R : Reader S) : List (Path × Bool) → List (Path × Path) → Except NcErr (List (Path × Path))
  | [], l => .ok l
  | (_, true) :: r, l => lazyMap R r l
  | (p, false) :: r, l =>
    match metaOf R.stored p with
    | none => .error .key
    | some (.struct _) => lazyMap R r l
    | some _ =>
      match targetOf R.map p with
      | none => lazyMap R r l
      | some q =>
        match metaOf R.target q with
        | none => .error .key
        | some _ => lazyMap R r (dset l q p)

/-- `NC2IDS(...)` and `run(lazy=True)` (lines 31-172): the time mode and `_lazy_map`. -/
def readLazy (R : Reader S) (validate : Bool) : Except NcErr (Bool × List (Path × Path)) :=
  match readMode R with
  | .error e => .error e
  | .ok hom =>
    match (if validate then validateAll R hom R.group.names else .ok ()) with
    | .error e => .error e
    | .ok _ =>
      match lazyMap R R.group.names [] with
      | .error e => .error e
      | .ok lm => .ok (hom, lm)

/-- What `LazyContext.get_child` (lines 319-376) makes of a new child with path `q`. -/
def lazyNode (R : Reader S) (hom : Bool) (lm : List (Path × Path)) (q : Path) (index : List Nat) : Meta → Except NcErr (Node (Arr S))
  | .struct c => .ok (.struct c.fresh)
  | .aos c =>
    match dget lm q with
    | none => .ok (.aos c .nil)
    | some p =>
      match dget R.group.vars p with
      | none => .error .key
      | some v =>
        match readSize R hom p q v index with
        | .error e => .error e
        | .ok n => .ok (.aos c (freshElems c n))
  | .leaf l =>
    match dget lm q with
    | none => .ok (.leaf l none)
    | some p =>
      match dget R.group.vars p with
      | none => .error .key
      | some v =>
        match readValue R false p l v index with
        | .error e => .error e
        | .ok w => .ok (.leaf l w)

/-- `getattr(structure, name)` of a lazy loaded structure (`ids_structure.py` lines 57-68): the structure afterwards and the
child. A child stays when loading fails. -/
def lazyChild (R : Reader S) (hom : Bool) (lm : List (Path × Path)) (p : Path) (i : List Nat) (k : Name) :
    Fields (Arr S) → Fields (Arr S) × Except NcErr (Node (Arr S))
  | .nil => (.nil, .error .attribute)
  | .absent n m r =>
    if k = n then
      match lazyNode R hom lm (p ++ [n]) i m with
      | .error e => (.present n m.fresh r, .error e)
      | .ok x => (.present n x r, .ok x)
    else
      match lazyChild R hom lm p i k r with
      | (r', x) => (.absent n m r', x)
  | .present n y r =>
    if k = n then (.present n y r, .ok y)
    else
      match lazyChild R hom lm p i k r with
      | (r', x) => (.present n y r', x)

/-- Access to the node with the path `q` (below the structure at `p`), where `j` are the indices in the arrays of
structures on the way. -/
def lazyGet (R : Reader S) (hom : Bool) (lm : List (Path × Path)) : Path → List Nat → Path → List Nat → Fields (Arr S) →
    Fields (Arr S) × Except NcErr (Node (Arr S))
  | _, _, [], _, c => (c, .error .key)
  | p, i, [k], [], c => lazyChild R hom lm p i k c
  | _, _, [_], _ :: _, c => (c, .error .key)
  | p, i, k :: k' :: q, j, c =>
    match lazyChild R hom lm p i k c with
    | (c', .ok (.struct d)) =>
      match lazyGet R hom lm (p ++ [k]) i (k' :: q) j d with
      | (d', x) => (c'.put k (.struct d'), x)
    | (c', .ok (.aos m e)) =>
      match j with
      | [] => (c', .error .key)
      | a :: j =>
        match e.get? a with
        | none => (c', .error .index)
        | some d =>
          match lazyGet R hom lm (p ++ [k]) (i ++ [a]) (k' :: q) j d with
          | (d', x) => (c'.put k (.aos m (e.set a d')), x)
    | (c', .ok (.leaf _ _)) => (c', .error .attribute)
    | (c', .error x) => (c', .error x)

/-- A sequence of accesses. -/
def lazyGets (R : Reader S) (hom : Bool) (lm : List (Path × Path)) : List (Path × List Nat) → Fields (Arr S) → Fields (Arr S)
  | [], c => c
  | (q, j) :: r, c => lazyGets R hom lm r (lazyGet R hom lm [] [] q j c).1

end
end
end Verif.Nc
