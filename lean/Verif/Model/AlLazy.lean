import Verif.Model.Al
/-
Lazy loading with the Access Layer: `imas/backends/imas_core/al_context.py` (lines 221-404),
`_get_child` (`db_entry_helpers.py` lines 80-130), the lazy parts of `imas/ids_structure.py` and
`imas/ids_struct_array.py`, and the operations of an open `ALDBEntryImpl` (`db_entry_al.py` lines 160-347).

An `ALContext` object is identified by a number. Objects in the cache are alive; whether other objects are
still alive (which decides what a weak reference gives) is a parameter `held`.
-/
namespace Verif.Al
open Verif.Ids

/-- `LazyALContext` objects. `id` identifies the object and `db` is the `_db_ctx` of the data entry when
the object was made. -/
inductive Lazy where
  /-- `LazyALContext(dbentry=…)` -/
  | root (db : Option Ctx)
  /-- made by `global_action`, `slice_action`, `timerange_action` or `arraystruct_action` -/
  | action (id : Nat) (db : Option Ctx) (parent : Lazy) (b : Begin)
  /-- `LazyALArrayStructChildContext` -/
  | child (parent : Lazy) (index : Nat)

/-- An `ALContext` object in the cache, for arrays of structures with `size` and `curindex`. -/
structure CObj where
  obj : Nat
  ctx : Ctx
  size : Nat
  cur : Nat

/-- State of an `ALDBEntryImpl`: `_db_ctx`, `_lazy_ctx_cache` (newest first), the `context` attribute of
lazy contexts, and the next identities of objects. -/
structure LSt (σ V : Type) where
  st : St σ V
  db : Option Ctx
  cache : List CObj
  weak : Nat → Option Nat
  nextObj : Nat
  nextLazy : Nat

section
variable {σ V : Type} (L : LL σ V)

/-- Use the low level. -/
def lift {α : Type} (p : M σ V α) (s : LSt σ V) : Except Err α × LSt σ V :=
  ((p s.st).1, { s with st := (p s.st).2 })

/-- `while cache: cache.pop().close()` (`_clear_lazy_ctx_cache`, lines 174-177, and lines 334-335). -/
def closeAll : List CObj → St σ V → St σ V
  | [], s => s
  | o :: r, s => closeAll r (llFinish L o.ctx s)

def clearCache (s : LSt σ V) : LSt σ V := { s with st := closeAll L s.cache s.st, cache := [] }

/-- `while cache and cache[-1] is not ctx: cache.pop().close()` (lines 309-310). -/
def popTo (o : Nat) : List CObj → St σ V → List CObj × St σ V
  | [], s => ([], s)
  | x :: r, s => if x.obj = o then (x :: r, s) else popTo o r (llFinish L x.ctx s)

variable (held : LSt σ V → Nat → Bool)

/-- Lines 305-317: the cached context of a lazy context, after closing the contexts opened later. -/
def fromCache (id : Nat) (s : LSt σ V) : Option CObj × LSt σ V :=
  match s.weak id with
  | none => (none, s)
  | some o =>
    if s.cache.any (·.obj = o) || held s o then
      match popTo L o s.cache s.st with
      | (x :: r, st) => (some x, { s with st := st, cache := x :: r })
      | ([], st) => (none, { s with st := st, cache := [] })
    else (none, s)

/-- Lines 322-327: open a context below `parent`, and put it in the cache. -/
def openContext (id : Nat) (parent : Ctx) (b : Begin) (s : LSt σ V) : Except Err Ctx × LSt σ V :=
  match lift (llBegin L parent b) s with
  | (.error e, s') => (.error e, s')
  | (.ok (c, size), s') =>
    (.ok c, { s' with
      cache := ⟨s'.nextObj, c, size, 0⟩ :: s'.cache
      weak := fun k => if k = id then some s'.nextObj else s'.weak k
      nextObj := s'.nextObj + 1 })

/-- `iterate_to_index` (lines 211-218) of the newest context in the cache. -/
def iterateTo (i : Nat) (s : LSt σ V) : Except Err Ctx × LSt σ V :=
  match s.cache with
  | [] => (.error .type, s)       -- does not happen: the parent is always in the cache
  | x :: r =>
    if i = x.cur then (.ok x.ctx, s)
    else
      match lift (llIterate L x.ctx ((i : Int) - (x.cur : Int))) s with
      | (.error e, s') => (.error e, s')
      | (.ok _, s') => (.ok x.ctx, { s' with cache := { x with cur := i } :: r })

/-- `get_context` (lines 296-336 and 400-404). -/
def getContext : Lazy → LSt σ V → Except Err Ctx × LSt σ V
  | .root db, s =>
    if s.db ≠ db then (.error .runtime, s)
    else
      match db with
      | none => (.error .type, s)      -- does not happen: `get` needs an open entry
      | some c => (.ok c, clearCache L s)
  | .action id db parent b, s =>
    if s.db ≠ db then (.error .runtime, s)
    else
      match fromCache L held id s with
      | (some x, s1) => (.ok x.ctx, s1)
      | (none, s1) =>
        match getContext parent s1 with
        | (.error e, s2) => (.error e, s2)
        | (.ok c, s2) => openContext L id c b s2
  | .child parent i, s =>
    match getContext parent s with
    | (.error e, s1) => (.error e, s1)
    | (.ok _, s1) => iterateTo L i s1

end

mutual
/-- Nodes of a lazily loaded IDS, with their lazy contexts. `aosNew` is an array of structures whose
`value` is None: its size was not read yet. -/
inductive LNode (V : Type) where
  | leaf (l : LeafMeta) (v : Option V)
  | struct (c : Option Lazy) (f : LFields V)
  | aosNew (c : Option Lazy) (m : MFields)
  | aos (c : Option Lazy) (m : MFields) (e : LElems V)
inductive LFields (V : Type) where
  | nil
  | absent (name : Name) (m : Meta) (rest : LFields V)
  | present (name : Name) (n : LNode V) (rest : LFields V)
/-- Elements are None until they are requested. -/
inductive LElems (V : Type) where
  | nil
  | unread (rest : LElems V)
  | read (c : Option Lazy) (f : LFields V) (rest : LElems V)
end

section
variable {V : Type}

def lazyFresh : MFields → LFields V
  | .nil => .nil
  | .cons n m r => .absent n m (lazyFresh r)

/-- The child with a name, or its metadata if it does not exist yet. -/
def LFields.find : LFields V → Name → Option (Meta ⊕ LNode V)
  | .nil, _ => none
  | .absent n m r, k => if k = n then some (.inl m) else r.find k
  | .present n x r, k => if k = n then some (.inr x) else r.find k

def LFields.put : LFields V → Name → LNode V → LFields V
  | .nil, _, _ => .nil
  | .absent n m r, k, y => if k = n then .present n y r else .absent n m (r.put k y)
  | .present n x r, k, y => if k = n then .present n y r else .present n x (r.put k y)

def LElems.length : LElems V → Nat
  | .nil => 0
  | .unread r => r.length + 1
  | .read _ _ r => r.length + 1

/-- `[None] * n` -/
def LElems.unreads : Nat → LElems V
  | 0 => .nil
  | n + 1 => .unread (unreads n)

/-- Element `i`: `none` if the index is too large, `some none` if the element was not requested yet. -/
def LElems.find : LElems V → Nat → Option (Option (Option Lazy × LFields V))
  | .nil, _ => none
  | .unread _, 0 => some none
  | .read c f _, 0 => some (some (c, f))
  | .unread r, i + 1 => r.find i
  | .read _ _ r, i + 1 => r.find i

def LElems.put : LElems V → Nat → Option Lazy → LFields V → LElems V
  | .nil, _, _, _ => .nil
  | .unread r, 0, c, f => .read c f r
  | .read _ _ r, 0, c, f => .read c f r
  | .unread r, i + 1, c, f => .unread (r.put i c f)
  | .read d g r, i + 1, c, f => .read d g (r.put i c f)

end

/-- What the user sees of a node: the value of a data node (`none` if unset), the number of elements of
an array of structures, or a structure. -/
inductive Obs (V : Type) where
  | value (v : Option V)
  | size (n : Nat)
  | struct

/-- Errors of an access: `AttributeError`/`IndexError`, or an exception of the backend. -/
inductive AErr where
  | lookup
  | backend (e : Err)

section
variable {σ V : Type} (L : LL σ V) (held : LSt σ V → Nat → Bool) (E : Env V)

/-- `IDSStructure.__getattr__` for a child that does not exist yet (`ids_structure.py` lines 57-68), with
`_get_child` (`db_entry_helpers.py` lines 80-130). The child exists afterwards, also if reading raises. -/
def newChild (p : Path) (c : Option Lazy) (m : Meta) (s : LSt σ V) :
    Except Err Unit × LNode V × LSt σ V :=
  match c with
  | none =>
    match m with
    | .leaf l => (.ok (), .leaf l none, s)
    | .struct f => (.ok (), .struct none (lazyFresh f), s)
    | .aos f => (.ok (), .aosNew none f, s)
  | some c =>
    match m, target E p with
    | .leaf l, none => (.ok (), .leaf l none, s)
    | .struct f, none => (.ok (), .struct none (lazyFresh f), s)
    | .aos f, none => (.ok (), .aosNew none f, s)
    | .aos f, some (q, tb) =>
      (.ok (), .aosNew (some (.action s.nextLazy s.db c (.aos q tb 0))) f,
        { s with nextLazy := s.nextLazy + 1 })
    | .struct f, some _ => (.ok (), .struct (some c) (lazyFresh f), s)
    | .leaf l, some (q, tb) =>
      match getContext L held c s with
      | (.error e, s1) => (.error e, .leaf l none, s1)
      | (.ok ctx, s1) =>
        match lift (llRead L ctx q tb l) s1 with
        | (.error e, s2) => (.error e, .leaf l none, s2)
        | (.ok d, s2) =>
          (.ok (), .leaf l (match keepValue E l d with
            | some (.leaf _ v) => v
            | _ => none), s2)

/-- The child of a structure: the one in `__dict__`, or a new one. -/
def getChild (p : Path) (c : Option Lazy) (ch : Meta ⊕ LNode V) (s : LSt σ V) :
    Except Err Unit × LNode V × LSt σ V :=
  match ch with
  | .inr x => (.ok (), x, s)
  | .inl m => newChild L held E p c m s

/-- `IDSStructArray._load(None)` (`ids_struct_array.py` lines 79-101). -/
def loadSize (x : LNode V) (s : LSt σ V) : Except Err Unit × LNode V × LSt σ V :=
  match x with
  | .aosNew none m => (.ok (), .aos none m .nil, s)
  | .aosNew (some c) m =>
    match getContext L held c s with
    | (.error e, s1) => (.error e, .aosNew (some c) m, s1)
    | (.ok _, s1) =>
      match s1.cache with
      | [] => (.error .type, .aosNew (some c) m, s1)      -- does not happen
      | o :: _ => (.ok (), .aos (some c) m (.unreads o.size), s1)
  | x => (.ok (), x, s)

/-- What is observed of a node: reading the value of a data node needs no backend access. (`_default` is
not stored: an unset node stays unset.) -/
def observe (x : LNode V) (s : LSt σ V) : Except AErr (Obs V) × LNode V × LSt σ V :=
  match x with
  | .leaf l v => (.ok (.value v), .leaf l v, s)
  | .struct c f => (.ok .struct, .struct c f, s)
  | x =>
    match loadSize L held x s with
    | (.error e, y, s1) => (.error (.backend e), y, s1)
    | (.ok _, .aos c m e, s1) => (.ok (.size e.length), .aos c m e, s1)
    | (.ok _, y, s1) => (.error .lookup, y, s1)      -- does not happen

/-- `IDSStructArray._load(i)` for `0 ≤ i` (lines 79-113), with the size loaded: the context and children of
the element. -/
def loadItem (c : Option Lazy) (m : MFields) (e : LElems V) (i : Nat) :
    Option (Option Lazy × LFields V) :=
  match e.find i with
  | none => none
  | some (some x) => some x
  | some none => some (c.map (.child · i), lazyFresh m)

/-- Access the node at an address, attribute by attribute and item by item. -/
def access : Path → LNode V → Addr → LSt σ V → Except AErr (Obs V) × LNode V × LSt σ V
  | _, x, [], s => observe L held x s
  | p, .struct c f, (n, i) :: a, s =>
    match f.find n with
    | none => (.error .lookup, .struct c f, s)
    | some ch =>
      match getChild L held E (p ++ [n]) c ch s with
      | (.error e, y, s1) => (.error (.backend e), .struct c (f.put n y), s1)
      | (.ok _, y, s1) =>
        match i with
        | none =>
          match access (p ++ [n]) y a s1 with
          | (r, y', s2) => (r, .struct c (f.put n y'), s2)
        | some i =>
          match loadSize L held y s1 with
          | (.error e, y1, s2) => (.error (.backend e), .struct c (f.put n y1), s2)
          | (.ok _, .aos ac m e, s2) =>
            match loadItem ac m e i with
            | none => (.error .lookup, .struct c (f.put n (.aos ac m e)), s2)
            | some (ec, ef) =>
              match access (p ++ [n]) (.struct ec ef) a s2 with
              | (r, .struct ec' ef', s3) =>
                (r, .struct c (f.put n (.aos ac m (e.put i ec' ef'))), s3)
              | (_, _, s3) => (.error .lookup, .struct c (f.put n (.aos ac m e)), s3) -- does not happen
          | (.ok _, y1, s2) => (.error .lookup, .struct c (f.put n y1), s2)
  | _, x, _ :: _, s => (.error .lookup, x, s)

end

/-- A lazily loaded IDS: what its lazy contexts know, and its nodes. -/
structure LIds (V : Type) where
  env : Env V
  node : LNode V

/-- Operations on an open data entry, and on lazily loaded IDSs (`ids` counts the lazily loaded IDSs from the
first one). -/
inductive Op (V : Type) where
  | get (C : Conf V) (I : Info V) (nbc : Option Nbc) (constant : Bool) (r : Range) (m : MFields)
  | lazyGet (C : Conf V) (I : Info V) (nbc : Option Nbc) (constant : Bool) (r : Range) (m : MFields)
  | access (ids : Nat) (a : Addr)
  | version (C : Conf V)
  | put (C : Conf V) (I entryInfo : Info V) (nbc : Option Nbc) (mode : Mode) (m : MFields)
      (slice : Bool) (f : Fields V)
  | delete (C : Conf V)
  /-- `close`, with the status of `close_pulse` -/
  | close (ok : Bool)

/-- Results of operations. -/
inductive Res (V : Type) where
  | fields (f : Fields V)
  | version (v : Option V)
  | obs (o : Obs V)
  | done
  | error (e : AErr)

/-- A data entry with the lazily loaded IDSs it has returned. -/
structure World (σ V : Type) where
  s : LSt σ V
  ids : List (LIds V)

section
variable {σ V : Type} (L : LL σ V) (held : LSt σ V → Nat → Bool)

/-- Operations on a data entry raise if it is not open, and close all lazy contexts before they start. -/
def onEntry {α : Type} (p : Ctx → M σ V α) (s : LSt σ V) : Except Err α × LSt σ V :=
  match s.db with
  | none => (.error .runtime, s)
  | some db => lift (p db) (clearCache L s)

def Res.of {α : Type} (f : α → Res V) : Except Err α → Res V
  | .ok a => f a
  | .error e => .error (.backend e)

/-- The lazy part of `get` (lines 209-240): nothing is opened. -/
def lazyIds (C : Conf V) (I : Info V) (nbc : Option Nbc) (constant : Bool) (r : Range) (m : MFields)
    (mode : Mode) (s : LSt σ V) : LIds V :=
  { env := ⟨I, mode, nbc⟩
    node := .struct (some (.action s.nextLazy s.db (.root s.db)
      ((if constant then Range.all else r).begin C.occ))) (lazyFresh m) }

/-- One operation. -/
def step [Value V] (w : World σ V) : Op V → Res V × World σ V
  | .get C I nbc constant r m =>
    let x := onEntry L (fun db => alGet L C I nbc db constant r m) w.s
    (.of .fields x.1, { w with s := x.2 })
  | .lazyGet C I nbc constant r m =>
    match onEntry L (fun db => (readMode L C db C.uda).andThen fun mode =>
      if !mode.known then .throw .assertion else .ret mode) w.s with
    | (.error e, s) => (.error (.backend e), { w with s := s })
    | (.ok mode, s) => (.done,
      { s := { s with nextLazy := s.nextLazy + 1 }
        ids := w.ids ++ [lazyIds C I nbc constant r m mode s] })
  | .access k a =>
    match w.ids[k]? with
    | none => (.error .lookup, w)
    | some x =>
      match access L held x.env [] x.node a w.s with
      | (.ok o, y, s) => (.obs o, { s := s, ids := w.ids.set k { x with node := y } })
      | (.error e, y, s) => (.error e, { s := s, ids := w.ids.set k { x with node := y } })
  | .version C =>
    let x := onEntry L (fun db => alReadVersion L C db) w.s
    (.of .version x.1, { w with s := x.2 })
  | .put C I ei nbc mode m slice f =>
    let x := onEntry L (fun db => alPut L C I ei nbc db mode m slice f) w.s
    (.of (fun _ => .done) x.1, { w with s := x.2 })
  | .delete C =>
    let x := onEntry L (fun db => alDelete L C db) w.s
    (.of (fun _ => .done) x.1, { w with s := x.2 })
  | .close ok =>
    match w.s.db with
    | none => (.done, w)
    | some db =>
      let s := clearCache L w.s
      if ok then (.done, { w with s := { s with st := llFinish L db s.st, db := none } })
      else (.error (.backend .lowlevel), { w with s := s })

/-- Any sequence of operations. -/
def steps [Value V] (w : World σ V) : List (Op V) → World σ V
  | [] => w
  | o :: r => steps (step L held w o).2 r

/-- A newly opened data entry. -/
def opened (ll : σ) (db : Ctx) : World σ V :=
  { s := { st := ⟨ll, []⟩, db := some db, cache := [], weak := fun _ => none, nextObj := 0,
           nextLazy := 0 }
    ids := [] }

end

end Verif.Al
