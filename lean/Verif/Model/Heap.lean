import Verif.Model.Tree
/-
IDS nodes as Python objects: which objects refer to which others, what `copy.deepcopy` copies and what
modifications through references change. Covers `imas/ids_structure.py` (lines 38-156 and 275-305),
`imas/ids_struct_array.py` (lines 31-207), `imas/ids_primitive.py` (lines 79-93 and 160-191) and
`imas/ids_toplevel.py` (lines 66-86), and reading of lazy-loaded IDSs.

Representation choices:
* Objects are numbers. The heap gives the contents of each object.
* A numpy array is an object that refers to a piece of memory (several arrays can share it) and looks at
  it in some way (`W`: shape, strides, offset). Lists of strings are treated in the same way.
  Python numbers and strings are immutable.
* Metadata is not an object here: nodes contain the part of it that is used (the path and the
  children).
* Converting a value to the type of a data node is a parameter (`Env.cast`); so is what is read from a
  file when a lazy-loaded IDS is accessed (`Loader`).
-/
namespace Verif.Heap
open Verif.Ids

abbrev Ref := Nat

/-- How values are stored: `look b w` is the value of an array that looks at memory with contents `b` in
the way `w`. `copyOf v` is new memory with a copy of a value (what `ndarray.__deepcopy__` and
`list(...)` give). -/
structure Memory (V B W : Type) where
  look : B → W → V
  copyOf : V → B × W
  look_copyOf : ∀ v, look (copyOf v).1 (copyOf v).2 = v

/-- Python objects. -/
inductive Obj (V B W C : Type) where
  /-- an `IDSFactory` -/
  | factory
  /-- an immutable value: `int`, `float`, `complex`, `str` -/
  | const (v : V)
  /-- the memory of an array -/
  | buf (b : B)
  /-- a numpy array or a list of strings -/
  | arr (buf : Ref) (w : W)
  /-- `IDSPrimitive`: `__value` and `_parent` -/
  | leaf (l : LeafMeta) (value : Option Ref) (parent : Ref)
  /-- `IDSStructure`: path and children of `metadata`, the children in `__dict__`, `_parent`,
  `_lazy`, `_lazy_context`. `isTop`: it is an `IDSToplevel`. -/
  | struct (q : List Name) (m : MFields) (dict : Name → Option Ref) (parent : Ref) (isTop isLazy : Bool)
      (ctx : Option C)
  /-- `IDSStructArray`: `value` is `none` before the size is loaded, and its items are `none` before
  they are loaded. -/
  | aos (q : List Name) (m : MFields) (items : Option (List (Option Ref))) (parent : Ref) (isLazy : Bool)
      (ctx : Option C)

variable {V B W C : Type}

structure Heap (V B W C : Type) where
  /-- identity of the next new object -/
  next : Ref
  get : Ref → Option (Obj V B W C)

/-- Change the contents of an object. -/
def Heap.set (h : Heap V B W C) (r : Ref) (o : Obj V B W C) : Heap V B W C :=
  { h with get := fun s => if s = r then some o else h.get s }

/-- A new object. -/
def Heap.alloc (h : Heap V B W C) (o : Obj V B W C) : Heap V B W C × Ref :=
  ({ next := h.next + 1, get := fun s => if s = h.next then some o else h.get s }, h.next)

/-- A new object whose contents follow later. -/
def Heap.reserve (h : Heap V B W C) : Heap V B W C × Ref := ({ h with next := h.next + 1 }, h.next)

/-- Exceptions. `broken` stands for references to nothing, which do not exist in Python. -/
inductive Err where
  | attribute | type | value | index | readOnly | notImplemented | recursion | load | broken
  deriving DecidableEq, Repr

/-- The value of an array or immutable object. -/
def Heap.val (M : Memory V B W) (h : Heap V B W C) (r : Ref) : Option V :=
  match h.get r with
  | some (.const v) => some v
  | some (.arr b w) =>
    match h.get b with
    | some (.buf x) => some (M.look x w)
    | _ => none
  | _ => none

/-- `node._lazy` for a structure or an array of structures. -/
def Heap.isLazy (h : Heap V B W C) (r : Ref) : Bool :=
  match h.get r with
  | some (.struct _ _ _ _ _ z _) => z
  | some (.aos _ _ _ _ z _) => z
  | _ => false

/-- `node._parent = parent`; objects that are not IDS nodes have no such attribute. -/
def setParent (h : Heap V B W C) (r p : Ref) : Except Err (Heap V B W C) :=
  match h.get r with
  | some (.leaf l v _) => .ok (h.set r (.leaf l v p))
  | some (.struct q m d _ t z x) => .ok (h.set r (.struct q m d p t z x))
  | some (.aos q m i _ z x) => .ok (h.set r (.aos q m i p z x))
  | _ => .error .attribute

/-- A new array object (or list) that holds a copy of a value, in new memory. -/
def newArray (M : Memory V B W) (h : Heap V B W C) (v : V) : Heap V B W C × Ref :=
  let (h, b) := h.alloc (.buf (M.copyOf v).1)
  h.alloc (.arr b (M.copyOf v).2)

/-! ### Deep copies -/

/-- Heap and `memo` during `copy.deepcopy`. -/
structure St (V B W C : Type) where
  heap : Heap V B W C
  memo : List (Ref × Ref)

/-- The loop of `IDSStructure.__deepcopy__` (`ids_structure.py` lines 150-155) over the children in
Data Dictionary order. `c` is the copy. The children of the copy are returned. -/
def copyKids (copy : St V B W C → Ref → Except Err (St V B W C × Ref)) (c : Ref) (d : Name → Option Ref) :
    MFields → St V B W C → Except Err (St V B W C × (Name → Option Ref))
  | .nil, s => .ok (s, fun _ => none)
  | .cons name _ rest, s =>
    match d name with
    | none => copyKids copy c d rest s
    | some r => do
      let (s, y) ← copy s r
      let h ← setParent s.heap y c
      let (s, k) ← copyKids copy c d rest { s with heap := h }
      .ok (s, fun n => if n = name then some y else k n)

/-- The loop of `IDSStructArray.__deepcopy__` (`ids_struct_array.py` lines 58-61). An element that is not
loaded is `None`, which has no attribute `_parent`. -/
def copyItems (copy : St V B W C → Ref → Except Err (St V B W C × Ref)) (c : Ref) :
    List (Option Ref) → St V B W C → Except Err (St V B W C × List (Option Ref))
  | [], s => .ok (s, [])
  | none :: _, _ => .error .attribute
  | some r :: rest, s => do
    let (s, y) ← copy s r
    let h ← setParent s.heap y c
    let (s, k) ← copyItems copy c rest { s with heap := h }
    .ok (s, some y :: k)

/-- `y = x.__deepcopy__(memo); memo[id(x)] = y` (`copy.deepcopy` of the standard library). -/
def remember (r : Ref) (x : St V B W C × Ref) : St V B W C × Ref :=
  ({ x.1 with memo := (r, x.2) :: x.1.memo }, x.2)

/-- `copy.deepcopy(value, memo)` for the value of a data node: immutable values are not copied, arrays and
lists are, unless `memo` has a copy already (which is an array then). -/
def copyValue (M : Memory V B W) (s : St V B W C) (a : Ref) : Except Err (St V B W C × Ref) :=
  match s.heap.get a with
  | some (.const _) => .ok (s, a)
  | some (.arr _ _) =>
    match s.memo.lookup a with
    | some b =>
      match s.heap.get b with
      | some (.arr _ _) => .ok (s, b)
      | _ => .error .broken
    | none =>
      match s.heap.val M a with
      | none => .error .broken
      | some v =>
        let (h, b) := newArray M s.heap v
        .ok (remember a ({ s with heap := h }, b))
  | _ => .error .broken

/-- `copy.deepcopy(x, memo)` with a call stack of limited depth: the standard library looks for a copy
in `memo`, returns immutable objects themselves, copies arrays and lists, and calls `__deepcopy__` of
* `IDSPrimitive` (`ids_primitive.py` lines 88-93),
* `IDSStructure` and `IDSToplevel` (`ids_structure.py` lines 144-156, `ids_toplevel.py` lines 83-86),
* `IDSStructArray` (`ids_struct_array.py` lines 56-62).
The copy of a structure or array of structures is created before the copies of its children, with
the parent of the original (its `_lazy` is that of this parent, lines 46-47). The model fills it when all
children are copied; no code looks at it in between. In a lazy-loaded array of structures `copy.value` is
`None`, so that nothing can be appended to it. -/
def deepcopy (M : Memory V B W) : Nat → St V B W C → Ref → Except Err (St V B W C × Ref)
  | 0, _, _ => .error .recursion
  | fuel + 1, s, r =>
    match s.memo.lookup r with
    | some y => .ok (s, y)
    | none =>
      match s.heap.get r with
      | some (.const _) | some (.arr _ _) => copyValue M s r
      | some (.leaf l none p) =>
        let (h, y) := s.heap.alloc (.leaf l none p)
        .ok (remember r ({ s with heap := h }, y))
      | some (.leaf l (some a) p) => do
        let (s, b) ← copyValue M s a
        let (h, y) := s.heap.alloc (.leaf l (some b) p)
        .ok (remember r ({ s with heap := h }, y))
      | some (.struct q m d p t z x) =>
        if z then .error .notImplemented else do
          let (h, c) := s.heap.reserve
          let (s', k) ← copyKids (deepcopy M fuel) c d m { s with heap := h }
          let z' := if t then z else s.heap.isLazy p
          let h' := s'.heap.set c (.struct q m k p t z' none)
          .ok (remember r ({ s' with heap := h' }, c))
      | some (.aos q m none p z x) => .error .type
      | some (.aos q m (some items) p z x) =>
        if s.heap.isLazy p then
          match items with
          | [] =>
            let (h, y) := s.heap.alloc (.aos q m none p true none)
            .ok (remember r ({ s with heap := h }, y))
          | none :: _ => .error .attribute
          | some c :: _ => do
            let _ ← deepcopy M fuel s c
            .error .attribute
        else do
          let (h, c) := s.heap.reserve
          let (s', k) ← copyItems (deepcopy M fuel) c items { s with heap := h }
          let h' := s'.heap.set c (.aos q m (some k) p false none)
          .ok (remember r ({ s' with heap := h' }, c))
      | some .factory | some (.buf _) | none => .error .broken

/-! ### Reading and modifying -/

/-- What is loaded on access to a lazy-loaded IDS. `C` are contexts (`LazyALContext`, `LazyContext`,
...); `none` as context means that nothing can be loaded (`al_context.py`, `nc2ids.py`). Loading may
fail. -/
structure Loader (V C : Type) where
  /-- the value of a child that is a data node -/
  leaf : C → Name → LeafMeta → Option (Option V)
  /-- the context of a child that is a structure or array of structures -/
  child : C → Name → Option (Option C)
  /-- number of elements of an array of structures -/
  size : C → Option Nat
  /-- the context of an element -/
  elem : C → Nat → Option C

/-- How values are converted on assignment. -/
inductive Cast (V : Type) where
  | fails
  /-- the object itself is stored (`np.asarray` of an array with the right type) -/
  | same
  /-- a new object is stored -/
  | new (v : V)

structure Env (V B W C : Type) where
  mem : Memory V B W
  loader : Loader V C
  /-- `_cast_value` (`ids_primitive.py` lines 258-350 and 479-490) -/
  cast : LeafMeta → V → Cast V
  /-- a 0D value that means "not set" (lines 188-191) -/
  isDefault : LeafMeta → V → Bool
  /-- the default of a data node (lines 140-147) -/
  default : LeafMeta → V

/-- `_children[name]`. -/
def lookupMeta : MFields → Name → Option Meta
  | .nil, _ => none
  | .cons n m r, k => if k = n then some m else lookupMeta r k

/-- `child_meta._node_type(self, child_meta)`: a new node with parent `r`. -/
def newNode (q : List Name) (isLazy : Bool) (r : Ref) : Meta → Obj V B W C
  | .leaf l => .leaf l none r
  | .struct m => .struct q m (fun _ => none) r false isLazy none
  | .aos m => .aos q m (if isLazy then none else some []) r isLazy none

/-- An operation: the heap afterwards, and the objects it returns or the exception it raises. -/
abbrev Out (V B W C : Type) := Heap V B W C × Except Err (List Ref)

/-- A new object with this value: an immutable one for 0D data, else an array. -/
def newValue (M : Memory V B W) (h : Heap V B W C) (l : LeafMeta) (v : V) : Heap V B W C × Ref :=
  if l.ndim = 0 then h.alloc (.const v) else newArray M h v

/-- `context.get_child(child)` of a lazy-loaded structure for a child that was just created: the value
of a data node, or the context of a structure or array of structures. -/
def loadChild (E : Env V B W C) (h : Heap V B W C) (x : C) (name : Name) (c : Ref) : Out V B W C :=
  match h.get c with
  | some (.leaf l v p) =>
    match E.loader.leaf x name l with
    | none => (h, .error .load)
    | some none => (h, .ok [c])
    | some (some v) =>
      let (h, a) := newValue E.mem h l v
      (h.set c (.leaf l (some a) p), .ok [c])
  | some (.struct q m d p t z _) =>
    match E.loader.child x name with
    | none => (h, .error .load)
    | some y => (h.set c (.struct q m d p t z y), .ok [c])
  | some (.aos q m i p z _) =>
    match E.loader.child x name with
    | none => (h, .error .load)
    | some y => (h.set c (.aos q m i p z y), .ok [c])
  | _ => (h, .error .broken)

/-- `structure.name` (`ids_structure.py` lines 57-68). -/
def getAttr (E : Env V B W C) (h : Heap V B W C) (r : Ref) (name : Name) : Out V B W C :=
  match h.get r with
  | some (.struct q m d p t z x) =>
    match d name with
    | some c => (h, .ok [c])
    | none =>
      match lookupMeta m name with
      | none => (h, .error .attribute)
      | some cm =>
        let (h, c) := h.alloc (newNode (q ++ [name]) z r cm)
        let h := h.set r (.struct q m (fun n => if n = name then some c else d n) p t z x)
        match z, x with
        | true, some x => loadChild E h x name c
        | _, _ => (h, .ok [c])
  | _ => (h, .error .attribute)

/-- The items of a lazy-loaded array of structures, of which the first access loads the number
(`_load`, `ids_struct_array.py` lines 79-96). -/
def loadItems (E : Env V B W C) (v : Option (List (Option Ref))) (x : Option C) : Option (List (Option Ref)) :=
  match v, x with
  | some items, _ => some items
  | none, none => some []
  | none, some x => (E.loader.size x).map (List.replicate · none)

/-- `array[i]` for `0 ≤ i` (`ids_struct_array.py` lines 79-113 and 123-129). -/
def getItem (E : Env V B W C) (h : Heap V B W C) (r : Ref) (i : Nat) : Out V B W C :=
  match h.get r with
  | some (.aos q m (some items) p false _) =>
    match items[i]? with
    | some (some c) => (h, .ok [c])
    | some none => (h, .error .broken)
    | none => (h, .error .index)
  | some (.aos q m v p true x) =>
    match loadItems E v x with
    | none => (h, .error .load)
    | some items =>
      let h := h.set r (.aos q m (some items) p true x)
      match items[i]?, x with
      | some (some c), _ => (h, .ok [c])
      | some none, some x =>
        let (h, c) := h.alloc (.struct q m (fun _ => none) r false true none)
        let h := h.set r (.aos q m (some (items.set i (some c))) p true (some x))
        match E.loader.elem x i with
        | none => (h, .error .load)
        | some y => (h.set c (.struct q m (fun _ => none) r false true (some y)), .ok [c])
      | some none, none => (h, .error .broken)
      | none, _ => (h, .error .index)
  | _ => (h, .error .type)

/-- `leaf.value` (`ids_primitive.py` lines 160-169). -/
def getValue (E : Env V B W C) (h : Heap V B W C) (r : Ref) : Out V B W C :=
  match h.get r with
  | some (.leaf _ (some a) _) => (h, .ok [a])
  | some (.leaf l none p) =>
    let (h, a) := newValue E.mem h l (E.default l)
    if l.ndim = 0 then (h, .ok [a]) else (h.set r (.leaf l (some a) p), .ok [a])
  | _ => (h, .error .attribute)

/-- Store an object in a data node, converted if necessary (`ids_primitive.py` lines 182-191). -/
def storeValue (E : Env V B W C) (h : Heap V B W C) (r a : Ref) (cast : Bool) : Out V B W C :=
  match h.get r, h.val E.mem a with
  | some (.leaf l old p), some v =>
    let unset := fun v => l.ndim == 0 && E.isDefault l v
    match (if cast then E.cast l v else .same) with
    | .fails => (h, .error .value)
    | .same => (h.set r (.leaf l (if unset v then none else some a) p), .ok [])
    | .new v' =>
      let (h, b) := newValue E.mem h l v'
      (h.set r (.leaf l (if unset v' then none else some b) p), .ok [])
  | _, _ => (h, .error .type)

/-- `leaf.value = s` (lines 172-191) where `s` is an array, an immutable value or another data node. -/
def setValue (E : Env V B W C) (h : Heap V B W C) (r s : Ref) : Out V B W C :=
  match h.get r with
  | some (.leaf l _ p) =>
    if h.isLazy p then (h, .error .readOnly) else
      match h.get s with
      | some (.leaf l' _ _) =>
        match getValue E h s with
        | (h, .ok [a]) => storeValue E h r a (l'.type ≠ l.type || l'.ndim ≠ l.ndim)
        | (h, _) => (h, .error .broken)
      | _ => storeValue E h r s true
  | _ => (h, .error .type)

/-- `super().__setattr__(key, value); value._parent = self` (`ids_structure.py` lines 125-126). -/
def storeChild (h : Heap V B W C) (r : Ref) (name : Name) (s : Ref) : Out V B W C :=
  match h.get r with
  | some (.struct q m d p t z x) =>
    match setParent (h.set r (.struct q m (fun n => if n = name then some s else d n) p t z x)) s r with
    | .ok h => (h, .ok [])
    | .error e => (h, .error e)
  | _ => (h, .error .attribute)

/-- `structure.name = s` (`ids_structure.py` lines 98-142). Assigning identifiers is a sequence of
assignments to data nodes. -/
def setAttr (E : Env V B W C) (h : Heap V B W C) (r : Ref) (name : Name) (s : Ref) : Out V B W C :=
  match getAttr E h r name with
  | (h, .ok [c]) =>
    match h.get c, h.get s with
    | some (.struct q _ _ _ _ _ _), some (.struct q' _ _ _ _ _ _) =>
      if q' ≠ q then (h, .error .value) else storeChild h r name s
    | some (.struct _ _ _ _ _ _ _), _ => (h, .error .type)
    | some (.aos q _ _ _ _ _), some (.aos q' _ _ _ _ _) =>
      if q' ≠ q then (h, .error .value) else storeChild h r name s
    | some (.aos _ _ _ _ _ _), _ => (h, .error .type)
    | _, _ => setValue E h c s
  | (h, .ok _) => (h, .error .broken)
  | (h, .error e) => (h, .error e)

/-- `array[i] = s` for `0 ≤ i` (`ids_struct_array.py` lines 131-140). -/
def setItem (h : Heap V B W C) (r : Ref) (i : Nat) (s : Ref) : Out V B W C :=
  match h.get r with
  | some (.aos q m v p z x) =>
    if z then (h, .error .readOnly) else
      match v with
      | none => (h, .error .type)
      | some items =>
        if i < items.length then (h.set r (.aos q m (some (items.set i (some s))) p z x), .ok [])
        else (h, .error .index)
  | _ => (h, .error .type)

/-- `array.append(s)` for one element (lines 157-173). -/
def append (h : Heap V B W C) (r s : Ref) : Out V B W C :=
  match h.get r with
  | some (.aos _ _ _ _ z _) =>
    if z then (h, .error .readOnly) else
      match setParent h s r with
      | .error e => (h, .error e)
      | .ok h =>
        match h.get r with
        | some (.aos q m (some items) p z x) =>
          (h.set r (.aos q m (some (items ++ [some s])) p z x), .ok [])
        | _ => (h, .error .type)
  | _ => (h, .error .attribute)

/-- New elements of an array of structures (line 200). -/
def newElems (q : List Name) (m : MFields) (z : Bool) (r : Ref) :
    Nat → Heap V B W C → Heap V B W C × List (Option Ref)
  | 0, h => (h, [])
  | n + 1, h =>
    let (h, c) := h.alloc (.struct q m (fun _ => none) r false z none)
    let (h, l) := newElems q m z r n h
    (h, some c :: l)

/-- `array.resize(n, keep)` for `0 ≤ n` (lines 178-207). -/
def resize (h : Heap V B W C) (r : Ref) (n : Nat) (keep : Bool) : Out V B W C :=
  match h.get r with
  | some (.aos q m v p z x) =>
    if z then (h, .error .readOnly) else
      match v with
      | none => (h, .error .type)
      | some items =>
        let items := if keep then items else []
        let (h, new) := newElems q m z r (n - items.length) h
        (h.set r (.aos q m (some (items.take n ++ new)) p z x), .ok [])
  | _ => (h, .error .attribute)

/-- `array._element_structure` (lines 115-121): a new structure that is not in the array. -/
def newElement (h : Heap V B W C) (r : Ref) : Out V B W C :=
  match h.get r with
  | some (.aos q m _ _ z _) =>
    let (h, c) := h.alloc (.struct q m (fun _ => none) r false z none)
    (h, .ok [c])
  | _ => (h, .error .attribute)

/-- `IDSFactory().new(...)`: a new IDS (`ids_factory.py`, `ids_toplevel.py` lines 66-81). -/
def newIds (h : Heap V B W C) (m : MFields) : Out V B W C :=
  let (h, f) := h.alloc .factory
  let (h, c) := h.alloc (.struct [] m (fun _ => none) f true false none)
  (h, .ok [c])

/-- `IDSFactory.new(..., _lazy=True)` and `_set_lazy_context` of it: the IDS that `DBEntry.get` and
`get_slice` return with `lazy=True` (`db_entry.py` lines 600-603, `ids_toplevel.py` line 74,
`ids_structure.py` lines 172-177). -/
def newLazyIds (h : Heap V B W C) (m : MFields) (x : C) : Heap V B W C × Ref :=
  let (h, f) := h.alloc .factory
  h.alloc (.struct [] m (fun _ => none) f true true (some x))

/-- Follow a path downwards, attribute by attribute and item by item. -/
def walk (E : Env V B W C) (h : Heap V B W C) (r : Ref) : List (Name × Option Nat) → Out V B W C
  | [] => (h, .ok [r])
  | (n, i) :: rest =>
    match getAttr E h r n with
    | (h, .ok [c]) =>
      match i with
      | none => walk E h c rest
      | some i =>
        match getItem E h c i with
        | (h, .ok [e]) => walk E h e rest
        | (h, .ok _) => (h, .error .broken)
        | (h, .error e) => (h, .error e)
    | (h, .ok _) => (h, .error .broken)
    | (h, .error e) => (h, .error e)

/-- `node._parent`. -/
def parentOf : Obj V B W C → Option Ref
  | .leaf _ _ p => some p
  | .struct _ _ _ p _ _ _ => some p
  | .aos _ _ _ p _ _ => some p
  | _ => none

/-- `structure["a/b/c"] = s` (`ids_structure.py` lines 289-305) for a path with more than one name or
with an index: structures and arrays of structures are assigned to an attribute of the parent of the
element found. -/
def setPath (E : Env V B W C) (h : Heap V B W C) (r : Ref) (path : List (Name × Option Nat)) (s : Ref) :
    Out V B W C :=
  match walk E h r path with
  | (h, .ok [c]) =>
    match h.get c, path.getLast? with
    | some (.leaf _ _ _), _ => setValue E h c s
    | some o, some (name, _) =>
      match parentOf o with
      | none => (h, .error .attribute)
      | some p =>
        match h.get p with
        | some (.struct _ _ _ _ _ _ _) => setAttr E h p name s
        | _ => (h, .error .value)
    | _, _ => (h, .error .broken)
  | (h, .ok _) => (h, .error .broken)
  | (h, .error e) => (h, .error e)

/-- Write to the memory of an array or list in place (`a[...] = x`, `a.resize(...)`, `l.append(...)`):
any new contents, and for the array object itself another way to look at it. -/
def write (h : Heap V B W C) (r : Ref) (b : B) (w : W) : Out V B W C :=
  match h.get r with
  | some (.arr x _) =>
    match h.get x with
    | some (.buf _) => ((h.set x (.buf b)).set r (.arr x w), .ok [])
    | _ => (h, .error .broken)
  | _ => (h, .error .type)

/-- A new array that looks at the memory of another one (`a[1:]`, `a.T`, ...). -/
def view (h : Heap V B W C) (r : Ref) (w : W) : Out V B W C :=
  match h.get r with
  | some (.arr x _) =>
    let (h, a) := h.alloc (.arr x w)
    (h, .ok [a])
  | _ => (h, .error .type)

/-- What a program does with the objects it has; they are numbered in the order in which it got
them. -/
inductive Op (V B W : Type) where
  | getAttr (r : Nat) (name : Name)
  | getItem (r : Nat) (i : Nat)
  | getValue (r : Nat)
  | setValue (r s : Nat)
  | setAttr (r : Nat) (name : Name) (s : Nat)
  | setPath (r : Nat) (path : List (Name × Option Nat)) (s : Nat)
  | setItem (r i s : Nat)
  | append (r s : Nat)
  | resize (r n : Nat) (keep : Bool)
  | newElement (r : Nat)
  | newIds (m : MFields)
  | const (v : V)
  | array (v : V)
  | write (r : Nat) (b : B) (w : W)
  | view (r : Nat) (w : W)
  | deepcopy (r : Nat) (stack : Nat)

/-- Use one or two of the objects a program has. -/
def with1 (env : List Ref) (r : Nat) (h : Heap V B W C) (f : Ref → Out V B W C) : Out V B W C :=
  match env[r]? with
  | some r => f r
  | none => (h, .error .broken)

def with2 (env : List Ref) (r s : Nat) (h : Heap V B W C) (f : Ref → Ref → Out V B W C) : Out V B W C :=
  match env[r]?, env[s]? with
  | some r, some s => f r s
  | _, _ => (h, .error .broken)

/-- `copy.deepcopy(r)`. If it raises, the copies made so far are garbage. -/
def deepcopyOp (M : Memory V B W) (h : Heap V B W C) (stack : Nat) (r : Ref) : Out V B W C :=
  match deepcopy M stack { heap := h, memo := [] } r with
  | .ok (s, y) => (s.heap, .ok [y])
  | .error e => (h, .error e)

/-- One operation of a program that has the objects `env`. -/
def exec (E : Env V B W C) (h : Heap V B W C) (env : List Ref) : Op V B W → Out V B W C
  | .getAttr r n => with1 env r h (getAttr E h · n)
  | .getItem r i => with1 env r h (getItem E h · i)
  | .getValue r => with1 env r h (getValue E h ·)
  | .setValue r s => with2 env r s h (setValue E h)
  | .setAttr r n s => with2 env r s h (setAttr E h · n ·)
  | .setPath r p s => with2 env r s h (setPath E h · p ·)
  | .setItem r i s => with2 env r s h (setItem h · i ·)
  | .append r s => with2 env r s h (append h)
  | .resize r n k => with1 env r h (resize h · n k)
  | .newElement r => with1 env r h (newElement h)
  | .newIds m => newIds h m
  | .const v => let (h, a) := h.alloc (.const v); (h, .ok [a])
  | .array v => let (h, a) := newArray E.mem h v; (h, .ok [a])
  | .write r b w => with1 env r h (write h · b w)
  | .view r w => with1 env r h (view h · w)
  | .deepcopy r stack => with1 env r h (deepcopyOp E.mem h stack)

/-- Heap and objects of a program after an operation. -/
def step (E : Env V B W C) (h : Heap V B W C) (env : List Ref) (op : Op V B W) : Heap V B W C × List Ref :=
  match exec E h env op with
  | (h, .ok new) => (h, env ++ new)
  | (h, .error _) => (h, env)

end Verif.Heap
