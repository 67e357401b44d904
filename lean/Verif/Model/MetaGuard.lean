/-
`IDSMetadata` objects as Python objects: how they are protected against changes, and how they are cached.
-/
namespace Verif.MetaGuard

/-- What is stored as `IDSMetadata.__setattr__` (ids_metadata.py 263-264, 71-72, 77): the method of the class that raises, the
method of `object`, or nothing (then Python finds the method of `object`). -/
inductive Slot where
  | guard | plain | absent
  deriving DecidableEq, Repr

inductive Err where
  /-- `RuntimeError`: metadata is read-only. -/
  | runtime
  /-- `AttributeError` of `del IDSMetadata.__setattr__`. -/
  | attribute
  /-- Any other error while the metadata is built, e.g. an unknown data type. -/
  | build
  deriving DecidableEq, Repr

/-- One step of `IDSMetadata.__init__` for a node and its children (ids_metadata.py 134-258): another object is created, an
attribute of the `k`-th object of this construction is assigned (`self.name = ...`), an attribute is stored in its `__dict__`
(241-243), or an error is raised. Values are numbers. -/
inductive Step where
  | new
  | set (k n v : Nat)
  | dict (k n v : Nat)
  | raise
  deriving DecidableEq, Repr

/-- The attributes of an object. -/
abbrev Attrs := List (Nat × Nat)

/-- The class attribute, the objects that were created (by number), and the contents of the cache: the most recently used first. -/
structure World where
  slot : Slot
  objs : List Attrs
  cache : List (Nat × Nat)

/-- A new Python process. -/
def World.init : World := ⟨.guard, [], []⟩

/-- Storing an attribute in the `__dict__` of an object. -/
def World.put (w : World) (o n v : Nat) : World := { w with objs := w.objs.modify o ((n, v) :: ·) }

/-- `obj.name = value` (ids_metadata.py 263-264): what happens depends on the class at this moment. -/
def setAttr (o n v : Nat) (w : World) : Except Err Unit × World :=
  match w.slot with
  | .guard => (.error .runtime, w)
  | _ => (.ok (), w.put o n v)

/-- `del obj.name` (ids_metadata.py 266-267). -/
def delAttr (_o _n : Nat) (w : World) : Except Err Unit × World := (.error .runtime, w)

/-- `copy.copy(obj)` and `copy.deepcopy(obj)` (ids_metadata.py 269-273). -/
def copyObj (o : Nat) (w : World) : Except Err Nat × World := (.ok o, w)

/-- The steps of the constructor; `base` is the number of its first object. -/
def construct (base : Nat) : List Step → World → Except Err Unit × World
  | [], w => (.ok (), w)
  | .new :: r, w => construct base r { w with objs := w.objs ++ [[]] }
  | .set k n v :: r, w =>
    match setAttr (base + k) n v w with
    | (.error e, w) => (.error e, w)
    | (.ok (), w) => construct base r w
  | .dict k n v :: r, w => construct base r (w.put (base + k) n v)
  | .raise :: _, w => (.error .build, w)

/-- `orig_setattr = IDSMetadata.__setattr__` (line 71): the method of `object` if the class has none. -/
def readSlot (w : World) : Slot := if w.slot = .guard then .guard else .plain

/-- `del IDSMetadata.__setattr__` (line 72). -/
def delSlot (w : World) : Except Err Unit × World :=
  if w.slot = .absent then (.error .attribute, w) else (.ok (), { w with slot := .absent })

/-- `IDSMetadata(structure_xml, "", None)` (line 74): the first object is the result. -/
def build (steps : List Step) (w : World) : Except Err Nat × World :=
  match construct w.objs.length steps { w with objs := w.objs ++ [[]] } with
  | (.error e, w') => (.error e, w')
  | (.ok (), w') => (.ok w.objs.length, w')

/-- `IDSMetadata.__setattr__ = orig_setattr` (line 77). -/
def restore (orig : Slot) (w : World) : World := { w with slot := orig }

/-- A result is added to the cache (`lru_cache`, line 60); the least recently used one is dropped if the cache is full. -/
def remember (cap x o : Nat) (w : World) : World := { w with cache := ((x, o) :: w.cache).take cap }

/-- A result in the cache is used. -/
def recall (x : Nat) (w : World) : Option (Nat × World) :=
  (w.cache.lookup x).map fun o => (o, { w with cache := (x, o) :: w.cache.filter (fun e => !(e.1 == x)) })

/-- `get_toplevel_metadata(structure_xml)` (ids_metadata.py 60-77) called by one thread without interruption. The XML elements
are numbers; `script` says what the constructor does for each of them. `_type_map` is not represented. -/
def getMeta (cap : Nat) (script : Nat → List Step) (x : Nat) (w : World) : Except Err Nat × World :=
  match recall x w with
  | some (o, w) => (.ok o, w)
  | none =>
    let orig := readSlot w
    match delSlot w with
    | (.error e, w) => (.error e, w)
    | (.ok (), w) =>
      match build (script x) w with
      | (.error e, w) => (.error e, restore orig w)
      | (.ok o, w) => (.ok o, remember cap x o (restore orig w))

/-- What users do with metadata. -/
inductive Op where
  | get (x : Nat)
  | set (o n v : Nat)
  | del (o n : Nat)
  | copy (o : Nat)

def step (cap : Nat) (script : Nat → List Step) (w : World) : Op → World
  | .get x => (getMeta cap script x w).2
  | .set o n v => (setAttr o n v w).2
  | .del o n => (delAttr o n w).2
  | .copy o => (copyObj o w).2

def run (cap : Nat) (script : Nat → List Step) (w : World) (ops : List Op) : World := ops.foldl (step cap script) w

/-! ### Threads -/

/-- Where a thread is in `get_toplevel_metadata` (lines 71-77); building the tree counts as one step. -/
inductive Pc where
  | read
  | del (orig : Slot)
  | build (orig : Slot)
  | restore (orig : Slot) (r : Except Err Nat)
  | done (r : Except Err Nat)

/-- The next step of a thread that called `get_toplevel_metadata` for an element that is not in the cache. -/
def threadStep (steps : List Step) (w : World) : Pc → World × Pc
  | .read => (w, .del (readSlot w))
  | .del orig =>
    match delSlot w with
    | (.error e, w) => (w, .done (.error e))
    | (.ok (), w) => (w, .build orig)
  | .build orig => let r := MetaGuard.build steps w; (r.2, .restore orig r.1)
  | .restore orig r => (MetaGuard.restore orig w, .done r)
  | .done r => (w, .done r)

/-- Two threads that call it for two elements: the schedule says which one makes the next step. -/
def threads (s1 s2 : List Step) : World → Pc → Pc → List Bool → World × Pc × Pc
  | w, p, q, [] => (w, p, q)
  | w, p, q, false :: r => let n := threadStep s1 w p; threads s1 s2 n.1 n.2 q r
  | w, p, q, true :: r => let n := threadStep s2 w q; threads s1 s2 n.1 p n.2 r

end Verif.MetaGuard
