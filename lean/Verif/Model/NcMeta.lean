import Verif.Model.Tree
/-
Model of `imas/backends/netcdf/nc_metadata.py`: netCDF dimensions and coordinates of the nodes of an IDS.

Representation choices:
* A path `a/b` (and a variable name `a.b`) is its list of names.
* A dimension name is a structure: `a.b` is `⟨[a, b], none⟩` and `a.b:i` is `⟨[a, b], some 0⟩`. Names in the Data
  Dictionary contain no `.` or `:`, so different structures are different names. (`"ijklmn"[i]` is defined for
  the dimensions an IDS node can have.)
* Python dictionaries are lists of pairs in insertion order.
-/
namespace Verif.Nc
open Verif.Ids

abbrev Path := List Name

structure Dim where
  path : Path
  suffix : Option Nat
  deriving DecidableEq, Repr

/-- Failures of `NCMetadata(...)`: `KeyError`, `IndexError`, a failing `assert`, and the `RuntimeError` for references
that cannot be resolved. -/
inductive MetaErr where
  | lookup
  | assertion
  | circular
  deriving DecidableEq, Repr

/-! ### Dictionaries -/

section
variable {K A : Type} [DecidableEq K]

def dget : List (K × A) → K → Option A
  | [], _ => none
  | (k, a) :: r, x => if x = k then some a else dget r x

/-- `d[x] = b` -/
def dset : List (K × A) → K → A → List (K × A)
  | [], x, b => [(x, b)]
  | (k, a) :: r, x, b => if x = k then (k, b) :: r else (k, a) :: dset r x b

end

/-! ### What is used of `IDSMetadata` -/

/-- Coordinates of the nodes of an IDS: `metadata.coordinates[i].references`, `metadata.coordinates[i].is_time_coordinate`,
`metadata.coordinates_same_as[i].references` and `metadata.alternative_coordinates` (only the names in these paths). -/
structure Info where
  refs : Path → Nat → List Path
  time : Path → Nat → Bool
  sameAs : Path → Nat → List Path
  alternative : Path → List Path

inductive Kind where
  | struct
  | aos
  | data (t : BaseType)
  deriving DecidableEq, Repr

/-- A node as `_parse` meets it: with the nearest array of structures around it and the number of these. `labels` are
the coordinates given by `_get_aos_label_coordinates` (lines 14-23). -/
structure Entry where
  path : Path
  kind : Kind
  ndim : Nat
  parent : Option Path
  level : Nat
  labels : List Path

/-- The child is a `STR_0D` node. -/
def isLabel : MFields → Name → Bool
  | .nil, _ => false
  | .cons n m r, k =>
    if k = n then
      match m with
      | .leaf l => l.type = .str && l.ndim = 0
      | _ => false
    else isLabel r k

/-- `_get_aos_label_coordinates` (lines 14-23). -/
def aosLabels (p : Path) (c : MFields) : List Path :=
  ([['n', 'a', 'm', 'e'], ['i', 'd', 'e', 'n', 't', 'i', 'f', 'i', 'e', 'r'], ['l', 'a', 'b', 'e', 'l']].filter
    (isLabel c)).map fun n => p ++ [n]

mutual
/-- The nodes in the order in which `_parse` (lines 132-150) visits them. -/
def walkNode (p : Path) (a : Option Path) (l : Nat) : Meta → List Entry
  | .leaf m => [⟨p, .data m.type, m.ndim, a, l, []⟩]
  | .struct c => ⟨p, .struct, 0, a, l, []⟩ :: walkFields p a l c
  | .aos c => ⟨p, .aos, 1, a, l, aosLabels p c⟩ :: walkFields p (some p) (l + 1) c
def walkFields (p : Path) (a : Option Path) (l : Nat) : MFields → List Entry
  | .nil => []
  | .cons n m r => walkNode (p ++ [n]) a l m ++ walkFields p a l r
end

/-! ### Parsing -/

/-- `path[:-12]` if the path ends with `_error_upper` or `_error_lower` (lines 200-204). -/
def errorBase (p : Path) : Option Path :=
  match p.getLast? with
  | none => none
  | some n =>
    if "_error_upper".toList.isSuffixOf n || "_error_lower".toList.isSuffixOf n then
      some (p.dropLast ++ [n.take (n.length - 12)])
    else none

/-- `_ut_dims`, `_pending`, `time_dimensions`, `_dim_coordinates`, `_alternatives`. -/
structure Parse where
  ut : List (Path × List (Option Dim)) := []
  pending : List ((Path × Nat) × (Path × Nat)) := []
  times : List Dim := []
  coords : List (Dim × List Path) := []
  alts : List (Path × List Path) := []

/-- What a dimension of a node is: a new dimension (its name, is it a time dimension, its coordinates), or a dimension
of another node (its path and dimension, and alternatives for that path). -/
inductive Plan where
  | own (d : Dim) (time : Bool) (coords : List Path)
  | ref (main : Path) (k : Nat) (others : List Path)

/-- `self.path.is_ancestor_of(other)` (`ids_path.py` lines 251-254). -/
def isAncestorOf (p q : Path) : Bool := p.length < q.length && q.take p.length == p

/-- The body of the loop in `_parse_dimensions` (lines 211-252) for a regular node. -/
def planOf (I : Info) (e : Entry) (i : Nat) : Except MetaErr Plan :=
  match I.refs e.path i with
  | main :: others =>
    if isAncestorOf e.path main then .ok (.own ⟨main, none⟩ (I.time e.path i) [main])
    else .ok (.ref main 0 others)
  | [] =>
    match I.sameAs e.path i with
    | [main] => .ok (.ref main i [])
    | _ :: _ :: _ => .error .assertion
    | [] =>
      .ok (.own ⟨e.path, if e.level + e.ndim ≠ 1 || e.kind = .aos then some i else none⟩
        (e.path.getLast? = some ['t', 'i', 'm', 'e']) (if e.kind = .aos then e.labels else [e.path]))

/-- Add alternatives for a path (lines 265-267 and 276-284). -/
def addAlts (alts : List (Path × List Path)) (p : Path) (l : List Path) : List (Path × List Path) :=
  match l with
  | [] => alts
  | l => dset alts p ((dget alts p).getD [] ++ l)

/-- The loop over the dimensions `i, i + 1, …` (lines 211-260). Gives the dimensions of the node. -/
def parseDims (I : Info) (e : Entry) : Nat → Nat → Parse → Except MetaErr (List (Option Dim) × Parse)
  | 0, _, s => .ok ([], s)
  | n + 1, i, s =>
    match planOf I e i with
    | .error x => .error x
    | .ok (.own d t c) =>
      match parseDims I e n (i + 1)
        { s with times := if t then d :: s.times else s.times, coords := dset s.coords d c } with
      | .error x => .error x
      | .ok (l, s') => .ok (some d :: l, s')
    | .ok (.ref main k others) =>
      match parseDims I e n (i + 1)
        { s with pending := dset s.pending (e.path, i) (main, k), alts := addAlts s.alts main others } with
      | .error x => .error x
      | .ok (l, s') => .ok (none :: l, s')

/-- The pending references of an error bar (lines 205-206). -/
def parseError (p base : Path) : Nat → Nat → Parse → Parse
  | 0, _, s => s
  | n + 1, i, s => parseError p base n (i + 1) { s with pending := dset s.pending (p, i) (base, i) }

/-- Lines 262-271: `alternative_coordinates` of the node itself. -/
def parseAlternatives (e : Entry) (alt : List Path) (last : Option Dim) (s : Parse) : Except MetaErr Parse :=
  match alt with
  | [] => .ok s
  | alt =>
    match last with
    | none => .error .lookup
    | some d =>
      match dget s.coords d with
      | none => .error .lookup
      | some c => .ok { s with alts := addAlts s.alts e.path alt, coords := dset s.coords d (c ++ alt) }

/-- `_parse_dimensions` (lines 152-274). -/
def parseEntry (I : Info) (e : Entry) (s : Parse) : Except MetaErr Parse :=
  match errorBase e.path with
  | some base =>
    .ok { parseError e.path base e.ndim 0 s with ut := dset s.ut e.path (List.replicate e.ndim none) }
  | none =>
    match parseDims I e e.ndim 0 s with
    | .error x => .error x
    | .ok (l, s1) =>
      match parseAlternatives e (I.alternative e.path) (l.getLast?.getD none) s1 with
      | .error x => .error x
      | .ok s2 => .ok { s2 with ut := dset s2.ut e.path l }

/-- One node in `_parse` (lines 136-150). -/
def parseNode (I : Info) (e : Entry) (s : Parse) : Except MetaErr Parse :=
  if e.kind = .struct then .ok s
  else if e.ndim ≠ 0 then parseEntry I e s
  else if e.parent.isSome then .ok { s with ut := dset s.ut e.path [] }
  else .ok s

def parseAll (I : Info) : List Entry → Parse → Except MetaErr Parse
  | [], s => .ok s
  | e :: r, s =>
    match parseNode I e s with
    | .error x => .error x
    | .ok s' => parseAll I r s'

/-! ### Alternatives -/

/-- Lines 292-298: one alternative `a` of `p`. -/
def mergeOne (p a : Path) (s : Parse) : Except MetaErr Parse :=
  match dget s.ut a with
  | none => .error .lookup
  | some [none] => if dget s.pending (a, 0) = some (p, 0) then .ok s else .error .assertion
  | some [some _] => .ok { s with ut := dset s.ut a [none], pending := dset s.pending (a, 0) (p, 0) }
  | some _ => .error .assertion

def mergeAlts (p : Path) : List Path → Parse → Except MetaErr Parse
  | [], s => .ok s
  | a :: r, s =>
    match mergeOne p a s with
    | .error x => .error x
    | .ok s' => mergeAlts p r s'

/-- `if alt not in coordinates: coordinates.append(alt)` -/
def addNew (c : List Path) : List Path → List Path
  | [] => c
  | a :: r => addNew (if a ∈ c then c else c ++ [a]) r

/-- Lines 300-307: the coordinates of the dimension of `p`. -/
def mergeCoords (p : Path) (l : List Path) (s : Parse) : Except MetaErr Parse :=
  match dget s.ut p with
  | some [some d] =>
    match dget s.coords d with
    | none => .error .lookup
    | some c => .ok { s with coords := dset s.coords d (addNew c l) }
  | _ => .error .lookup

/-- `_merge_alternatives` (lines 286-307). -/
def mergeAll : List (Path × List Path) → Parse → Except MetaErr Parse
  | [], s => .ok s
  | (p, l) :: r, s =>
    match dget s.ut p with
    | none => .error .lookup
    | some u =>
      if u.length ≠ 1 then .error .assertion
      else
        match mergeAlts p l s with
        | .error x => .error x
        | .ok s1 =>
          match mergeCoords p l s1 with
          | .error x => .error x
          | .ok s2 => mergeAll r s2

/-! ### References -/

abbrev Ut := List (Path × List (Option Dim))
abbrev Pending := List ((Path × Nat) × (Path × Nat))

/-- `self._ut_dims[path][i]`; fails if there is no such path or dimension. -/
def dimAt (ut : Ut) (p : Path) (i : Nat) : Option (Option Dim) := (dget ut p).bind (·[i]?)

/-- `self._ut_dims[path][i] = d` -/
def setDim (ut : Ut) (p : Path) (i : Nat) (d : Dim) : Ut :=
  match dget ut p with
  | none => ut
  | some l => dset ut p (l.set i (some d))

/-- The loop of `_resolve_pending` (lines 314-321). Gives the references that are still pending. -/
def resolveOnce : Pending → Ut → Except MetaErr (Pending × Ut)
  | [], ut => .ok ([], ut)
  | ((p, i), (c, j)) :: r, ut =>
    match dimAt ut c j with
    | none => .error .lookup
    | some none =>
      match resolveOnce r ut with
      | .error x => .error x
      | .ok (rest, ut') => .ok (((p, i), (c, j)) :: rest, ut')
    | some (some d) => resolveOnce r (setDim ut p i d)

/-- `_resolve_pending` (lines 309-328). `fuel` is the number of nested calls Python allows. -/
def resolve : Nat → Pending → Ut → Except MetaErr Ut
  | 0, _, _ => .error .circular
  | fuel + 1, todo, ut =>
    match resolveOnce todo ut with
    | .error x => .error x
    | .ok ([], ut') => .ok ut'
    | .ok (rest, ut') => resolve fuel rest ut'

/-! ### Result -/

/-- `NCMetadata`: `dimensions`, `coordinates`, `aos`, `time_dimensions`, `paths`. -/
structure NcMeta where
  dims : List (Path × List Dim)
  coords : List (Path × List Path)
  aos : Path → Option Path
  times : List Dim
  paths : List Path

/-- The coordinates of the dimensions that refer to other nodes (lines 349-351). -/
def refCoords (I : Info) (s : Parse) (p : Path) : Nat → List Dim → Except MetaErr (List Path)
  | _, [] => .ok []
  | i, d :: r =>
    match refCoords I s p (i + 1) r with
    | .error x => .error x
    | .ok l =>
      if I.refs p i = [] then .ok l
      else
        match dget s.coords d with
        | none => .error .lookup
        | some c => .ok (c ++ l)

/-- One path in `_tensorize_dimensions` (lines 337-357). The dimensions are resolved: an unresolved one does not
occur. -/
def tensorizeOne (I : Info) (s : Parse) (e : Entry) (u : List (Option Dim)) (N : NcMeta) : Except MetaErr NcMeta :=
  let own := u.filterMap id
  match (match e.parent with
    | none => some ([], [])
    | some a => (dget N.dims a).map fun d => (d, (dget N.coords a).getD [])) with
  | none => .error .lookup
  | some (d, c) =>
    match refCoords I s e.path 0 own with
    | .error x => .error x
    | .ok l =>
      .ok { N with
        dims := dset N.dims e.path (d ++ own)
        coords := match c ++ l ++ e.labels with
          | [] => N.coords
          | k => dset N.coords e.path k }

/-- `_tensorize_dimensions` (lines 330-357), over the nodes with an entry in `_ut_dims` (which keeps the order in
which the nodes were visited). -/
def tensorizeAll (I : Info) (s : Parse) : List Entry → NcMeta → Except MetaErr NcMeta
  | [], N => .ok N
  | e :: r, N =>
    match dget s.ut e.path with
    | none => tensorizeAll I s r N
    | some u =>
      match tensorizeOne I s e u N with
      | .error x => .error x
      | .ok N' => tensorizeAll I s r N'

/-- `NCMetadata.__init__` (lines 40-90). -/
def ncMetadata (fuel : Nat) (I : Info) (m : MFields) : Except MetaErr NcMeta :=
  let es := walkFields [] none 0 m
  match parseAll I es {} with
  | .error x => .error x
  | .ok s =>
    match mergeAll s.alts s with
    | .error x => .error x
    | .ok s1 =>
      match resolve fuel s1.pending s1.ut with
      | .error x => .error x
      | .ok ut =>
        tensorizeAll I { s1 with ut := ut } es
          { dims := [], coords := [], aos := fun p => (es.find? (·.path = p)).bind (·.parent), times := s1.times
            paths := es.map (·.path) }

def timeDim : Dim := ⟨[['t', 'i', 'm', 'e']], none⟩

/-- `get_dimensions` (lines 112-130). -/
def NcMeta.getDims (N : NcMeta) (homogeneous : Bool) (p : Path) : List Dim :=
  match dget N.dims p with
  | none => []
  | some l => if homogeneous then l.map fun d => if d ∈ N.times then timeDim else d else l

/-- `get_coordinates` (lines 92-110). A time coordinate is the part of the name of a time dimension before the `:`. -/
def NcMeta.getCoords (N : NcMeta) (homogeneous : Bool) (p : Path) : List Path :=
  match dget N.coords p with
  | none => []
  | some l =>
    if homogeneous then l.map fun c => if c ∈ N.times.map (·.path) then [['t', 'i', 'm', 'e']] else c else l

end Verif.Nc
