import Verif.Model.Tree
/-
The Access Layer backend: `imas/backends/imas_core/al_context.py` (lines 37-218),
`db_entry_helpers.py` and `db_entry_al.py` (lines 160-347), for eager get and put.

The low level (`ll_interface`, a compiled library) is a parameter: a state and functions that may fail at
any call. All calls are logged. Low-level paths are lists of names (the code joins them with `/`).
`end_action` is assumed not to raise: its status is not checked by the code.
-/
namespace Verif.Al
open Verif.Ids

abbrev Path := List Name
abbrev Text := List Char
/-- Context identifiers given out by the low level. -/
abbrev Ctx := Nat

/-- Exceptions. -/
inductive Err where
  /-- `LowlevelError`, or any other exception of the low level -/
  | lowlevel
  /-- a failing `assert` -/
  | assertion
  /-- `RuntimeError`: too many elements, or the entry is not open -/
  | runtime
  /-- `DataEntryException` -/
  | entry
  | type
  deriving DecidableEq, Repr

/-- `begin_global_action`, `begin_slice_action`, `begin_timerange_action` (with the occurrence and
all other arguments as one number) and `begin_arraystruct_action`. -/
inductive Begin where
  | global (occ : Text) (write : Bool) (datapath : Bool)
  | slice (occ : Text) (write : Bool) (args : Nat)
  | timerange (occ : Text) (args : Nat)
  | aos (path : Path) (timebase : Text) (size : Nat)
  deriving DecidableEq

/-- The low level. Functions that fail return `none` or `false`. -/
structure LL (σ V : Type) where
  begin : σ → Ctx → Begin → Option (Ctx × Nat) × σ
  iterate : σ → Ctx → Int → Bool × σ
  read : σ → Ctx → Path → Text → LeafMeta → Option (Option V) × σ
  write : σ → Ctx → Path → Text → V → Bool × σ
  delete : σ → Ctx → Path → Bool × σ
  finish : σ → Ctx → σ

/-- Calls of the low level. -/
inductive Event (V : Type) where
  | begin (parent : Ctx) (b : Begin) (res : Option Ctx)
  | iterate (c : Ctx) (step : Int) (ok : Bool)
  | read (c : Ctx) (p : Path) (tb : Text)
  | write (c : Ctx) (p : Path) (tb : Text) (v : V)
  | delete (c : Ctx) (p : Path)
  | finish (c : Ctx)

structure St (σ V : Type) where
  ll : σ
  log : List (Event V)

/-- Programs that use the low level and may raise. -/
def M (σ V α : Type) : Type := St σ V → Except Err α × St σ V

namespace M
variable {σ V α β : Type}

def ret (a : α) : M σ V α := fun s => (.ok a, s)
def throw (e : Err) : M σ V α := fun s => (.error e, s)
def andThen (p : M σ V α) (f : α → M σ V β) : M σ V β := fun s =>
  match p s with
  | (.ok a, s') => f a s'
  | (.error e, s') => (.error e, s')

/-- Run the program `n` times and collect the results. -/
def times : Nat → M σ V α → M σ V (List α)
  | 0, _ => ret []
  | n + 1, p => p.andThen fun a => (times n p).andThen fun as => ret (a :: as)
end M

section
variable {σ V : Type} (L : LL σ V)

/-- `global_action`, `slice_action`, `timerange_action`, `arraystruct_action` (lines 63-145). (For
`timerange_action` the low level raises instead of returning a status.) -/
def llBegin (c : Ctx) (b : Begin) : M σ V (Ctx × Nat) := fun s =>
  match L.begin s.ll c b with
  | (none, ll) => (.error .lowlevel, ⟨ll, s.log ++ [.begin c b none]⟩)
  | (some (c', size), ll) => (.ok (c', size), ⟨ll, s.log ++ [.begin c b (some c')]⟩)

/-- `iterate_over_arraystruct` (lines 204-209). -/
def llIterate (c : Ctx) (step : Int) : M σ V Unit := fun s =>
  match L.iterate s.ll c step with
  | (true, ll) => (.ok (), ⟨ll, s.log ++ [.iterate c step true]⟩)
  | (false, ll) => (.error .lowlevel, ⟨ll, s.log ++ [.iterate c step false]⟩)

/-- `read_data` (lines 147-154). -/
def llRead (c : Ctx) (p : Path) (tb : Text) (l : LeafMeta) : M σ V (Option V) := fun s =>
  match L.read s.ll c p tb l with
  | (some d, ll) => (.ok d, ⟨ll, s.log ++ [.read c p tb]⟩)
  | (none, ll) => (.error .lowlevel, ⟨ll, s.log ++ [.read c p tb]⟩)

/-- `write_data` (lines 162-166). If the low level fails, `LowlevelError` is called with one argument instead
of two, which is a `TypeError`. -/
def llWrite (c : Ctx) (p : Path) (tb : Text) (v : V) : M σ V Unit := fun s =>
  match L.write s.ll c p tb v with
  | (true, ll) => (.ok (), ⟨ll, s.log ++ [.write c p tb v]⟩)
  | (false, ll) => (.error .type, ⟨ll, s.log ++ [.write c p tb v]⟩)

/-- `delete_data` (lines 156-160). -/
def llDelete (c : Ctx) (p : Path) : M σ V Unit := fun s =>
  match L.delete s.ll c p with
  | (true, ll) => (.ok (), ⟨ll, s.log ++ [.delete c p]⟩)
  | (false, ll) => (.error .lowlevel, ⟨ll, s.log ++ [.delete c p]⟩)

/-- `__exit__` and `close` (lines 60-61 and 177-179). -/
def llFinish (c : Ctx) (s : St σ V) : St σ V := ⟨L.finish s.ll c, s.log ++ [.finish c]⟩

/-- `with ctx.…_action(…) as …:` the context is ended also if the body raises. -/
def withAction {α : Type} (c : Ctx) (b : Begin) (body : Ctx → Nat → M σ V α) : M σ V α := fun s =>
  match llBegin L c b s with
  | (.error e, s') => (.error e, s')
  | (.ok (c', size), s') => ((body c' size s').1, llFinish L c' (body c' size s').2)

end

/-- `homogeneous_time` (`IDS_TIME_MODES`, `ids_defs.py`). -/
inductive Mode where
  | unknown | heterogeneous | homogeneous | independent
  /-- a stored value that is not allowed -/
  | other
  deriving DecidableEq, Repr

/-- `time_mode in IDS_TIME_MODES` -/
def Mode.known (m : Mode) : Bool := m ≠ .unknown && m ≠ .other

/-- What the code uses of the metadata, by path: `type.is_dynamic`, `_ctx_path`, `timebasepath`,
`maxoccur` (0 if unbounded), and `data_type.default` of 0D nodes. -/
structure Info (V : Type) where
  dynamic : Path → Bool
  ctxPath : Path → Path
  timebase : Path → Text
  maxoccur : Path → Nat
  isDefault : LeafMeta → V → Bool

/-- `NBCPathMap`: `path` with `ctxpath` and `tbp` (`none` if the path is not in the map, `some none` if it
is mapped to None), and whether a path is in `type_change`. -/
structure Nbc where
  path : Path → Option (Option (Path × Text))
  change : Path → Bool

/-- What stays the same during a get or put. -/
structure Env (V : Type) where
  info : Info V
  mode : Mode
  nbc : Option Nbc

/-- `"/time"` -/
def rootTime : Text := ['/', 't', 'i', 'm', 'e']

/-- The low-level path and time base of a node, `none` if it is skipped
(`db_entry_helpers.py` lines 32-52, 86-107 and 155-175). -/
def target {V : Type} (E : Env V) (p : Path) : Option (Path × Text) :=
  if E.mode = .independent && E.info.dynamic p then none
  else
    let r := match E.nbc with
      | none => some (E.info.ctxPath p, E.info.timebase p)
      | some n =>
        match n.path p with
        | some none => none
        | some (some q) => some q
        | none => if n.change p then none else some (E.info.ctxPath p, E.info.timebase p)
    match r with
    | none => none
    | some (q, tb) => some (q, if tb ≠ [] && E.mode = .homogeneous then rootTime else tb)

section
variable {σ V : Type} (L : LL σ V) (E : Env V)

/-- Lines 67-77: values that are not stored in the node. -/
def keepValue (l : LeafMeta) : Option V → Option (Node V)
  | none => none
  | some v => if l.ndim = 0 && E.info.isDefault l v then none else some (.leaf l (some v))

def elemsOf : List (Fields V) → Elems V
  | [] => .nil
  | c :: r => .cons c (elemsOf r)

/-- A child of a structure, `none` if it is not created. -/
def fieldOf (n : Name) (m : Meta) (x : Option (Node V)) (rest : Fields V) : Fields V :=
  match x with
  | none => .absent n m rest
  | some y => .present n y rest

mutual
/-- `get_children` (lines 21-77), the body of the loop for one child with path `p`. The destination is
a new structure: children that are not accessed are not created. -/
def getNode (p : Path) (c : Ctx) : Meta → M σ V (Option (Node V))
  | .leaf l =>
    match target E p with
    | none => .ret none
    | some (q, tb) => (llRead L c q tb l).andThen fun d => .ret (keepValue E l d)
  | .struct m =>
    match target E p with
    | none => .ret none
    | some _ => (getFields p c m).andThen fun f => .ret (some (.struct f))
  | .aos m =>
    match target E p with
    | none => .ret none
    | some (q, tb) =>
      withAction L c (.aos q tb 0) fun c' size =>
        if size = 0 then .ret none
        else (M.times size ((getFields p c' m).andThen fun f =>
            (llIterate L c' 1).andThen fun _ => .ret f)).andThen fun l => .ret (some (.aos m (elemsOf l)))
/-- `get_children` (lines 21-77). -/
def getFields (p : Path) (c : Ctx) : MFields → M σ V (Fields V)
  | .nil => .ret .nil
  | .cons n m r => (getNode (p ++ [n]) c m).andThen fun x =>
      (getFields p c r).andThen fun rest => .ret (fieldOf n m x rest)
end

mutual
/-- `delete_children` (lines 133-139). -/
def deleteNode (p : Path) (c : Ctx) : Meta → M σ V Unit
  | .struct m => deleteFields p c m
  | _ => llDelete L c (E.info.ctxPath p)
def deleteFields (p : Path) (c : Ctx) : MFields → M σ V Unit
  | .nil => .ret ()
  | .cons n m r => (deleteNode (p ++ [n]) c m).andThen fun _ => deleteFields p c r
end

variable [Value V] (slice verify : Bool)

mutual
/-- `put_children` (lines 142-196), the body of the loop for one element of `iter_nonempty_` with
path `p`. -/
def putNode (p : Path) (c : Ctx) : Node V → M σ V Unit
  | .leaf _ v =>
    match target E p with
    | none => .ret ()
    | some (q, tb) =>
      if slice && !E.info.dynamic p then .ret ()
      else
        match v with
        | none => .ret ()
        | some v => llWrite L c q tb v
  | .struct f =>
    match target E p with
    | none => .ret ()
    | some _ => putFields p c f
  | .aos _ e =>
    match target E p with
    | none => .ret ()
    | some (q, tb) =>
      if verify && E.info.maxoccur p ≠ 0 && e.length > E.info.maxoccur p then .throw .runtime
      else withAction L c (.aos q tb e.length) fun c' _ => putElems p c' e
/-- `put_children` (lines 142-196). -/
def putFields (p : Path) (c : Ctx) : Fields V → M σ V Unit
  | .nil => .ret ()
  | .absent _ _ r => putFields p c r
  | .present n x r =>
    if x.hasValue then (putNode (p ++ [n]) c x).andThen fun _ => putFields p c r
    else putFields p c r
/-- Lines 184-188. -/
def putElems (p : Path) (c : Ctx) : Elems V → M σ V Unit
  | .nil => .ret ()
  | .cons f r => (putFields p c f).andThen fun _ => (llIterate L c 1).andThen fun _ => putElems p c r
end

end

section
variable {σ V : Type} (L : LL σ V)

/-- What the operations of `ALDBEntryImpl` know: the low-level path of the occurrence, whether the
backend is UDA or MDSplus, the value of `homogeneous_time` as a mode, its path and metadata. -/
structure Conf (V : Type) where
  occ : Text
  uda : Bool
  mdsplus : Bool
  modeOf : Option V → Mode
  timePath : Path
  timeMeta : LeafMeta
  versionPath : Path
  versionMeta : LeafMeta

/-- How to read: `get`, `get_slice` or `get_sample` (lines 214-236). -/
inductive Range where
  | all
  | slice (args : Nat)
  | sample (args : Nat)

def Range.begin (occ : Text) : Range → Begin
  | .all => .global occ false false
  | .slice a => .slice occ false a
  | .sample a => .timerange occ a

/-- Read `homogeneous_time` (lines 202-207, 261-264, 299-303). -/
def readMode (C : Conf V) (db : Ctx) (datapath : Bool) : M σ V Mode :=
  withAction L db (.global C.occ false datapath) fun c _ =>
    (llRead L c C.timePath [] C.timeMeta).andThen fun d => .ret (C.modeOf d)

/-- `get` (lines 179-248) without lazy loading, after the lazy contexts were closed. -/
def alGet (C : Conf V) (I : Info V) (nbc : Option Nbc) (db : Ctx) (constant : Bool) (r : Range)
    (m : MFields) : M σ V (Fields V) :=
  (readMode L C db C.uda).andThen fun mode =>
    if !mode.known then .throw .assertion
    else withAction L db ((if constant then Range.all else r).begin C.occ) fun c _ =>
      getFields L ⟨I, mode, nbc⟩ [] c m

/-- `read_dd_version` (lines 250-271), after the lazy contexts were closed. -/
def alReadVersion (C : Conf V) (db : Ctx) : M σ V (Option V) :=
  (withAction L db (.global C.occ false C.uda) fun c _ =>
    (llRead L c C.timePath [] C.timeMeta).andThen fun d =>
      (llRead L c C.versionPath [] C.versionMeta).andThen fun v => .ret (C.modeOf d, v)).andThen fun r =>
    if !r.1.known then .throw .entry else .ret r.2

/-- `put` (lines 273-331) of an IDS with the given time mode, after the lazy contexts were closed and
the version map was determined. `entryInfo` and `m` are the metadata of the version of the entry, `I`
of the version of the IDS. -/
def alPut [Value V] (C : Conf V) (I entryInfo : Info V) (nbc : Option Nbc) (db : Ctx) (mode : Mode)
    (m : MFields) (slice : Bool) (f : Fields V) : M σ V Unit :=
  (if slice then
    (readMode L C db false).andThen fun stored =>
      if stored = .unknown then .ret false
      else if stored ≠ mode then .throw .entry
      else .ret true
   else .ret false : M σ V Bool).andThen fun slice =>
  (if slice then .ret ()
   else withAction L db (.global C.occ true false) fun c _ => deleteFields L ⟨entryInfo, mode, none⟩ [] c m :
    M σ V Unit).andThen fun _ =>
  withAction L db (if slice then .slice C.occ true 0 else .global C.occ true false) fun c _ =>
    putFields L ⟨I, mode, nbc⟩ slice C.mdsplus [] c f

/-- `delete_data` (lines 336-347), after the lazy contexts were closed: `delete_children` is called
with three arguments and always raises `TypeError`. -/
def alDelete (C : Conf V) (db : Ctx) : M σ V Unit :=
  withAction L db (.global C.occ true false) fun _ _ => .throw .type

end

end Verif.Al
