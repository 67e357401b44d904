import Verif.Model.Path
/-
Model of in-memory IDS trees: `imas/ids_structure.py`, `imas/ids_struct_array.py` and the
storage part of `imas/ids_primitive.py`.

Representation choices:
* Data Dictionary metadata (`IDSMetadata`) is a tree `Meta` of named children.
* `V` is the type of values a data node can hold (numpy arrays, str, int, ...). The class
  `Value` provides the only thing the tree code needs: whether `size == 0`.
* A node carries the part of its metadata that the code uses. A child that is not in
  `__dict__` yet (`IDSStructure.__getattr__` creates children on first access) is an
  `absent` field.
* Nodes are values. Object identity is the position in the tree (`Addr`), so a tree in
  which the same Python object is stored at two places is not represented here (sharing is
  modelled separately in `Verif.Model.Heap`).
-/
namespace Verif.Ids

abbrev Name := List Char

/-- `IDSDataType` of a data node (`imas/ids_data_type.py`). -/
inductive BaseType where
  | str | int | flt | cpx
  deriving DecidableEq, Repr

/-- What the tree code uses of the metadata of a data node: `data_type`, `ndim`,
`type.is_dynamic`. -/
structure LeafMeta where
  type : BaseType
  ndim : Nat
  dynamic : Bool := false
  deriving DecidableEq, Repr

mutual
/-- `IDSMetadata` (`imas/ids_metadata.py` lines 135-258), reduced to the tree structure. -/
inductive Meta where
  | leaf (l : LeafMeta)
  | struct (c : MFields)
  | aos (c : MFields)
/-- `IDSMetadata._children`: children in Data Dictionary order. -/
inductive MFields where
  | nil
  | cons (name : Name) (m : Meta) (rest : MFields)
end

mutual
/-- An IDS node: data node (`IDSPrimitive`, `none` is `__value is None`), structure
(`IDSStructure`) or array of structures (`IDSStructArray`, with the metadata of its
elements). -/
inductive Node (V : Type) where
  | leaf (l : LeafMeta) (v : Option V)
  | struct (c : Fields V)
  | aos (m : MFields) (e : Elems V)
/-- Children of a structure in Data Dictionary order; `absent` children are not in
`__dict__`. -/
inductive Fields (V : Type) where
  | nil
  | absent (name : Name) (m : Meta) (rest : Fields V)
  | present (name : Name) (n : Node V) (rest : Fields V)
/-- `IDSStructArray.value`: the list of element structures. -/
inductive Elems (V : Type) where
  | nil
  | cons (c : Fields V) (rest : Elems V)
end

/-- `__init__` of a structure: no child exists yet (`ids_structure.py` lines 38-55). -/
def MFields.fresh {V : Type} : MFields → Fields V
  | .nil => .nil
  | .cons name m rest => .absent name m rest.fresh

/-- `child_meta._node_type(self, child_meta)` (`ids_structure.py` line 64): a new data node
without value (`ids_primitive.py` line 73), a new structure, or an array of structures of
length zero (`ids_struct_array.py` line 44). -/
def Meta.fresh {V : Type} : Meta → Node V
  | .leaf l => .leaf l none
  | .struct c => .struct c.fresh
  | .aos c => .aos c .nil

/-- What the tree code needs to know about values: is `size` zero (for 1+D values), and
which value is the default of a 1+D data node. -/
class Value (V : Type) where
  /-- `size == 0`, false for all 0D values (`ids_primitive.py` lines 109-123) -/
  isEmpty : V → Bool
  /-- `_default` of a 1+D data node: `[]` or an array of shape `(0, ..., 0)`
  (`ids_primitive.py` lines 140-147) -/
  emptyArray : LeafMeta → V
  isEmpty_emptyArray : ∀ l, isEmpty (emptyArray l) = true

variable {V : Type}

/-- Number of elements (`len(self.value)`). -/
def Elems.length : Elems V → Nat
  | .nil => 0
  | .cons _ r => r.length + 1

/-- `self.value[i]` for `0 ≤ i`. -/
def Elems.get? : Elems V → Nat → Option (Fields V)
  | .nil, _ => none
  | .cons c _, 0 => some c
  | .cons _ r, i + 1 => r.get? i

/-- The children of a structure with their names, `none` for absent ones. -/
def Fields.names : Fields V → List Name
  | .nil => []
  | .absent n _ r => n :: r.names
  | .present n _ r => n :: r.names

/-- `getattr(structure, name)` (`ids_structure.py` lines 57-68): the existing child, or a
newly created one; `none` is `AttributeError`. Names that are not children but Python
attributes of the class (`metadata`, `has_value`, ...) are not modelled. -/
def Fields.get? : Fields V → Name → Option (Node V)
  | .nil, _ => none
  | .absent n m r, k => if k = n then some m.fresh else r.get? k
  | .present n x r, k => if k = n then some x else r.get? k

/-- State change of `getattr(structure, name)` (line 65): the child is stored in
`__dict__`. -/
def Fields.touch : Fields V → Name → Fields V
  | .nil, _ => .nil
  | .absent n m r, k => if k = n then .present n m.fresh r else .absent n m (r.touch k)
  | .present n x r, k => if k = n then .present n x r else .present n x (r.touch k)

/-- Store a child in `__dict__`. -/
def Fields.put : Fields V → Name → Node V → Fields V
  | .nil, _, _ => .nil
  | .absent n m r, k, y => if k = n then .present n y r else .absent n m (r.put k y)
  | .present n x r, k, y => if k = n then .present n y r else .present n x (r.put k y)

/-- `self.value[i] = c` for `i < len`. -/
def Elems.set : Elems V → Nat → Fields V → Elems V
  | .nil, _, _ => .nil
  | .cons _ r, 0, c => .cons c r
  | .cons x r, i + 1, c => .cons x (r.set i c)

/-! ### Addresses -/

/-- A position in an IDS: one item per Data Dictionary level, with the element index for
positions inside an array of structures. An array of structures itself has no index in its
last item. -/
abbrev Addr := List (Name × Option Nat)

/-- Access one child, or one element of a child array of structures. -/
def Node.item (n : Node V) (s : Name × Option Nat) : Option (Node V) :=
  match n with
  | .struct c =>
    match c.get? s.1, s.2 with
    | none, _ => none
    | some x, none => some x
    | some (.aos _ e), some i => (e.get? i).map .struct
    | some _, some _ => none
  | _ => none

/-- The node at an address. -/
def Node.at (n : Node V) : Addr → Option (Node V)
  | [] => some n
  | s :: a => (n.item s).bind (·.at a)

/-! ### Values -/
variable [Value V]

/-- `IDSPrimitive.has_value` (`ids_primitive.py` lines 126-130). -/
def leafHasValue : Option V → Bool
  | none => false
  | some v => !Value.isEmpty v

mutual
/-- `has_value`: `IDSPrimitive.has_value`, `IDSStructure.has_value` (`ids_structure.py`
lines 186-194, non-lazy), `IDSStructArray.has_value` (`ids_struct_array.py` lines
210-213). -/
def Node.hasValue : Node V → Bool
  | .leaf _ v => leafHasValue v
  | .struct c => c.hasValue
  | .aos _ e => e.length > 0
/-- Any child in `__dict__` with `has_value` (`iter_nonempty_`, lines 251-266). -/
def Fields.hasValue : Fields V → Bool
  | .nil => false
  | .absent _ _ r => r.hasValue
  | .present _ n r => n.hasValue || r.hasValue
end

/-- State change of reading `node.value` (`ids_primitive.py` lines 160-169): an unset 1+D
node is set to its (empty) default. -/
def readLeaf (l : LeafMeta) : Option V → Option V
  | none => if l.ndim = 0 then none else some (Value.emptyArray l)
  | some v => some v

/-- State change of reading the element at an address (attribute by attribute, item by
item) and, if it is a data node, its value. Nothing changes when an access fails: the
children created before the failure are those of the successful prefix, so a failing read is
a read of that prefix. -/
def Node.read : Node V → Addr → Node V
  | .leaf l v, [] => .leaf l (readLeaf l v)
  | n, [] => n
  | .struct c, (k, i) :: a =>
    match (c.touch k).get? k with
    | none => .struct c
    | some x =>
      match i with
      | none => .struct ((c.touch k).put k (x.read a))
      | some i =>
        match x with
        | .aos m e =>
          match e.get? i with
          | none => .struct (c.touch k)
          | some f =>
            match (Node.struct f).read a with
            | .struct f' => .struct ((c.touch k).put k (.aos m (e.set i f')))
            | _ => .struct (c.touch k)     -- unreachable: reading keeps the kind of node
        | _ => .struct (c.touch k)
  | n, _ :: _ => n

/-- Any sequence of reads. -/
def Node.reads (n : Node V) : List Addr → Node V
  | [] => n
  | a :: as => (n.read a).reads as

/-! ### Iteration -/

section
variable (leafOnly visitEmpty : Bool)

mutual
/-- `_tree_iter` below a child that does not exist yet, with `visit_empty`: iterating a
structure creates its children (`ids_structure.py` lines 268-270). -/
def Meta.iter (n : Name) : Meta → List Addr
  | .leaf _ => [[(n, none)]]
  | .struct c => (if leafOnly then [] else [[(n, none)]]) ++ c.iter.map ((n, none) :: ·)
  | .aos _ => if leafOnly then [] else [[(n, none)]]
def MFields.iter : MFields → List Addr
  | .nil => []
  | .cons n m r => m.iter n ++ r.iter
end

mutual
/-- The body of the loop of `_tree_iter` (`imas/util.py` lines 116-133) for the child `n`:
the yielded nodes, as addresses relative to the structure. -/
def Node.iter (n : Name) : Node V → List Addr
  | .leaf _ _ => [[(n, none)]]
  | .struct c => (if leafOnly then [] else [[(n, none)]]) ++ c.iter.map ((n, none) :: ·)
  | .aos _ e => (if leafOnly then [] else [[(n, none)]]) ++ e.iter n 0
/-- `_tree_iter` of a structure (lines 116-133): all children with `visit_empty`, else those
of `iter_nonempty_` (`ids_structure.py` lines 260-266). -/
def Fields.iter : Fields V → List Addr
  | .nil => []
  | .absent n m r => (if visitEmpty then m.iter leafOnly n else []) ++ r.iter
  | .present n x r => (if visitEmpty || x.hasValue then x.iter n else []) ++ r.iter
/-- `_tree_iter` of an array of structures: all elements, filled or not. -/
def Elems.iter (n : Name) (i : Nat) : Elems V → List Addr
  | .nil => []
  | .cons c r =>
    (if leafOnly then [] else [[(n, some i)]]) ++ c.iter.map ((n, some i) :: ·) ++
      r.iter n (i + 1)
end

end

/-- `tree_iter` (`imas/util.py` lines 73-113) on a structure. -/
def treeIter (leafOnly visitEmpty includeNode : Bool) (c : Fields V) : List Addr :=
  (if includeNode && !leafOnly then [[]] else []) ++ c.iter leafOnly visitEmpty

end Verif.Ids
