/-!
Model of `DBEntry` (`/repo/imas/db_entry.py`): opening and closing, `get`, `put`,
`delete_data` and `list_all_occurrences` on top of an arbitrary backend implementation
(`/repo/imas/backends/db_entry_impl.py`).

The backend is an oracle: whether a call succeeds, and what it returns, is an arbitrary function
of all earlier calls. Every call of the backend is recorded in a log together with the object it
was made on and whether it succeeded. Not modelled: log messages, the mapping of positional and
keyword arguments in `DBEntry.__init__`, the parameters of `get_slice` and `get_sample` (they
are passed on to the backend unchanged, so they are part of `name` here).
-/
namespace Verif.Entry

abbrev Text := List Char

/-- Exceptions; `other` are those raised by the backend or by `IDSToplevel.validate`. -/
inductive Exc where
  | runtime | value | idsName | unknownVersion | type | other (code : Nat)
  deriving DecidableEq, Repr

/-- `ids_properties/version_put`. -/
structure VersionPut where
  dataDictionary : Text
  accessLayer : Text
  language : Text
  deriving DecidableEq, Repr

/-- The parts of an IDS that `_put` looks at. `mode` is `ids_properties/homogeneous_time`
(`EMPTY_INT` if not set); `versionPut` is `none` if the Data Dictionary version of the IDS has no
such node. `rest` is all other data. -/
structure Doc where
  name : Text
  version : Text
  isLazy : Bool
  constant : Bool
  mode : Int
  versionPut : Option VersionPut
  rest : Nat
  deriving DecidableEq, Repr

/-- The version map given to the backend: it translates paths of version `source` to paths of
version `target`. -/
structure NbcMap where
  source : Text
  target : Text
  deriving DecidableEq, Repr

/-- Methods of the backend implementation. -/
inductive Call where
  | openUri
  | openPulse (mode : Nat)
  | close (erase : Bool)
  | readVersion (name : Text) (occ : Int)
  | get (name : Text) (occ : Int) (version : Text) (lzy : Bool) (nbc : Option NbcMap)
  | put (doc : Doc) (occ : Int) (slice : Bool)
  | alVersion
  | delete (name : Text) (occ : Int)
  | list (name : Text)
  deriving DecidableEq, Repr

/-- A call on the backend object `handle`. For `openUri` and `openPulse` this is the object that
the call creates if it succeeds. -/
structure Event where
  handle : Nat
  call : Call
  ok : Bool
  deriving DecidableEq, Repr

abbrev Log := List Event

/-- The backend and everything else outside. Answers depend on the log before the call. -/
structure World where
  /-- the exception that the call raises, if any -/
  fails : Log → Call → Option Exc
  readVersion : Log → Text
  alVersion : Log → Text
  occurrences : Log → List Int
  /-- the data returned by `get` -/
  data : Log → Nat
  /-- `ids[node_path]` for an IDS returned by `get` -/
  node : Nat → Text → Except Exc Nat
  /-- `ids.validate()`: the exception raised, if any -/
  validate : Doc → Option Exc
  /-- `imas.__version__` -/
  language : Text
  /-- `dd_xml_versions()` -/
  known : List Text
  /-- the IDS exists in this Data Dictionary version -/
  hasIds : Text → Text → Bool
  /-- comparison of `parse_dd_version` of two versions -/
  cmp : Text → Text → Ordering

/-- A `DBEntry`: `impl` is `_dbe_impl`, `byUri` tells whether `uri` is not `None`, `version` is
the version of `_ids_factory`. -/
structure Entry where
  impl : Option Nat
  byUri : Bool
  version : Text
  log : Log
  deriving DecidableEq, Repr

/-- What an operation returns. -/
inductive Val where
  | unit
  /-- an IDS in a version, holding what the backend has read -/
  | ids (version : Text) (data : Nat)
  | occs (l : List Int)
  | occsNodes (l : List Int) (nodes : List Nat)
  deriving DecidableEq, Repr

abbrev Outcome := Except Exc Val

/-- Call a method of the backend object `h`. -/
def invoke (w : World) (log : Log) (h : Nat) (c : Call) : Log × Except Exc Unit :=
  match w.fails log c with
  | some e => (log ++ [⟨h, c, false⟩], .error e)
  | none => (log ++ [⟨h, c, true⟩], .ok ())

/-- `DBEntry.__init__` with legacy parameters (lines 99-189): nothing is opened. -/
def newLegacy (version : Text) : Entry := ⟨none, false, version, []⟩

/-- `DBEntry.__init__` with an URI: `none` if the backend raises (then there is no object). -/
def newUri (w : World) (version : Text) : Option Entry :=
  match invoke w [] 0 .openUri with
  | (log, .ok _) => some ⟨some 0, true, version, log⟩
  | (_, .error _) => none

/-- `DBEntry._open_pulse` (lines 282-303). The new object is numbered by the length of the
log. -/
def openPulse (w : World) (e : Entry) (mode : Nat) : Entry × Outcome :=
  match e.impl with
  | some _ => (e, .error .runtime)
  | none =>
    if e.byUri then (e, .error .runtime)
    else
      match invoke w e.log e.log.length (.openPulse mode) with
      | (log, .ok _) => ({ e with impl := some e.log.length, log }, .ok .unit)
      | (log, .error x) => ({ e with log }, .error x)

/-- `DBEntry.close` (lines 221-232). -/
def close (w : World) (e : Entry) (erase : Bool) : Entry × Outcome :=
  match e.impl with
  | none => (e, .ok .unit)
  | some h =>
    match invoke w e.log h (.close erase) with
    | (log, .ok _) => ({ e with impl := none, log }, .ok .unit)
    | (log, .error x) => ({ e with log }, .error x)

/-- `version.split(".")[0]`. -/
def major : Text → Text
  | [] => []
  | c :: r => if c = '.' then [] else c :: major r

/-- Lines 571-593: the version to take the data to be stored in; `none` if there is none
stored or if it is to be ignored. -/
def storedVersion (w : World) (entryVersion read : Text) (ignoreUnknown : Bool) :
    Except Exc (Option Text) :=
  if read = [] then .ok none
  else if read ≠ entryVersion ∧ read ∉ w.known then
    (if ignoreUnknown then .ok none else .error .unknownVersion)
  else .ok (some read)

/-- `IDSFactory(version).new(ids_name)`: the version, or the exception of the constructor. -/
def factoryNew (w : World) (version name : Text) : Except Exc Text :=
  if version ∈ w.known then
    (if w.hasIds version name then .ok version else .error .idsName)
  else .error .unknownVersion

/-- Lines 596-603: the version of the IDS to fill; `destination` is the version of the
destination given by the user. -/
def destinationVersion (w : World) (entryVersion name : Text) (stored : Option Text)
    (destination : Option Text) (autoconvert : Bool) : Except Exc Text :=
  match destination with
  | some d => .ok d
  | none =>
    match stored with
    | none => .ok entryVersion
    | some v => if autoconvert then .ok entryVersion else factoryNew w v name

/-- `dd_version_map_from_factories(ids_name, f1, f2)` (`/repo/imas/ids_convert.py` lines
509-524): `min` of the tuples compares the factories themselves if the versions are equal, which
raises `TypeError`. Returns the old and the new version, and whether `v1` is the old one. -/
def versionMap (w : World) (name v1 v2 : Text) : Except Exc (Text × Text × Bool) :=
  match w.cmp v1 v2 with
  | .eq => .error .type
  | .lt => if w.hasIds v1 name ∧ w.hasIds v2 name then .ok (v1, v2, true) else .error .value
  | .gt => if w.hasIds v1 name ∧ w.hasIds v2 name then .ok (v2, v1, false) else .error .value

/-- Lines 605-619: the version map for the backend. Note that the map is always built for the
version of the entry, also if a destination of another version is given. -/
def chooseMap (w : World) (entryVersion name : Text) (stored : Option Text) (dest : Text) :
    Except Exc (Option NbcMap) :=
  match stored with
  | none => .ok none
  | some v =>
    if v = dest then .ok none
    else if major v ≠ major dest then .error .runtime
    else if v ∈ w.known then
      match versionMap w name v entryVersion with
      | .error x => .error x
      | .ok (old, new, sourceIsOlder) =>
        -- `new_to_old` maps paths of the new version to the old one
        .ok (some (if sourceIsOlder then ⟨new, old⟩ else ⟨old, new⟩))
    else .error .unknownVersion

/-- Options of `get`. `destination` is the version of the destination IDS, if one is given. -/
structure GetOpts where
  lzy : Bool
  autoconvert : Bool
  ignoreUnknown : Bool
  destination : Option Text
  deriving DecidableEq, Repr

/-- Lines 571-619 together: the version of the IDS to fill and the version map. -/
def plan (w : World) (entryVersion name read : Text) (o : GetOpts) :
    Except Exc (Text × Option NbcMap) :=
  match storedVersion w entryVersion read o.ignoreUnknown with
  | .error x => .error x
  | .ok stored =>
    match destinationVersion w entryVersion name stored o.destination o.autoconvert with
    | .error x => .error x
    | .ok dest =>
      match chooseMap w entryVersion name stored dest with
      | .error x => .error x
      | .ok nbc => .ok (dest, nbc)

/-- `DBEntry._get` (lines 549-629). -/
def get (w : World) (e : Entry) (name : Text) (occ : Int) (o : GetOpts) : Entry × Outcome :=
  match e.impl with
  | none => (e, .error .runtime)
  | some h =>
    if o.lzy = true ∧ o.destination.isSome = true then (e, .error .value)
    else if w.hasIds e.version name = false then (e, .error .idsName)
    else
      match invoke w e.log h (.readVersion name occ) with
      | (log, .error x) => ({ e with log }, .error x)
      | (log, .ok _) =>
        match plan w e.version name (w.readVersion e.log) o with
        | .error x => ({ e with log }, .error x)
        | .ok (dest, nbc) =>
          match invoke w log h (.get name occ dest o.lzy nbc) with
          | (log', .error x) => ({ e with log := log' }, .error x)
          | (log', .ok _) => ({ e with log := log' }, .ok (.ids dest (w.data log)))

/-- `IDS_TIME_MODES` and `IDS_TIME_MODE_INDEPENDENT` (`/repo/imas/ids_defs.py` lines
151-155). -/
def timeModes : List Int := [0, 1, 2]
def independent : Int := 2

/-- Lines 698-710: automatic validation. `disable` is the environment variable
`IMAS_AL_DISABLE_VALIDATE`. -/
def autoValidate (w : World) (disable : Option Text) (d : Doc) : Except Exc Unit :=
  if disable = none ∨ disable = some [] ∨ disable = some ['0'] then
    match w.validate d with
    | some x => .error x
    | none => .ok ()
  else .ok ()

/-- `DBEntry._put` (lines 692-739). The second component is the IDS object after the call: it is
changed in place. `time_mode` is the node itself, so that the test of line 728 sees the value
set in line 727. -/
def put (w : World) (disable : Option Text) (e : Entry) (d : Doc) (occ : Int) (slice : Bool) :
    Entry × Doc × Outcome :=
  match e.impl with
  | none => (e, d, .error .runtime)
  | some h =>
    if d.isLazy then (e, d, .error .value)
    else
      match autoValidate w disable d with
      | .error x => (e, d, .error x)
      | .ok _ =>
        if d.mode ∉ timeModes then (e, d, .error .value)
        else
          let d1 := if d.constant then { d with mode := independent } else d
          if slice = true ∧ d1.mode = independent then (e, d1, .error .runtime)
          else
            match d1.versionPut with
            | none =>
              match invoke w e.log h (.put d1 occ slice) with
              | (log, .error x) => ({ e with log }, d1, .error x)
              | (log, .ok _) => ({ e with log }, d1, .ok .unit)
            | some vp =>
              match invoke w e.log h .alVersion with
              | (log, .error x) =>
                ({ e with log }, { d1 with versionPut := some { vp with dataDictionary := e.version } },
                  .error x)
              | (log, .ok _) =>
                let d2 := { d1 with versionPut := some ⟨e.version, w.alVersion e.log, w.language⟩ }
                match invoke w log h (.put d2 occ slice) with
                | (log', .error x) => ({ e with log := log' }, d2, .error x)
                | (log', .ok _) => ({ e with log := log' }, d2, .ok .unit)

/-- `DBEntry.delete_data` (lines 741-750). -/
def delete (w : World) (e : Entry) (name : Text) (occ : Int) : Entry × Outcome :=
  match e.impl with
  | none => (e, .error .runtime)
  | some h =>
    match invoke w e.log h (.delete name occ) with
    | (log, .error x) => ({ e with log }, .error x)
    | (log, .ok _) => ({ e with log }, .ok .unit)

/-- The list comprehension of lines 798-800. -/
def getNodes (w : World) (name path : Text) : Entry → List Int → List Nat → Entry × Except Exc (List Nat)
  | e, [], acc => (e, .ok acc)
  | e, occ :: r, acc =>
    match get w e name occ ⟨true, true, false, none⟩ with
    | (e', .error x) => (e', .error x)
    | (e', .ok (.ids _ data)) =>
      match w.node data path with
      | .error x => (e', .error x)
      | .ok v => getNodes w name path e' r (acc ++ [v])
    | (e', .ok _) => (e', .error .type)        -- unreachable: `get` returns an IDS

/-- `DBEntry.list_all_occurrences` (lines 762-802). -/
def listAll (w : World) (e : Entry) (name : Text) (path : Option Text) : Entry × Outcome :=
  match e.impl with
  | none => (e, .error .runtime)
  | some h =>
    match invoke w e.log h (.list name) with
    | (log, .error x) => ({ e with log }, .error x)
    | (log, .ok _) =>
      match path with
      | none => ({ e with log }, .ok (.occs (w.occurrences e.log)))
      | some p =>
        match getNodes w name p { e with log } (w.occurrences e.log) [] with
        | (e', .error x) => (e', .error x)
        | (e', .ok vs) => (e', .ok (.occsNodes (w.occurrences e.log) vs))

/-- `OPEN_PULSE`, the default mode of `open`. -/
def openMode : Nat := 40

/-- `DBEntry.__enter__` (lines 200-205). -/
def enter (w : World) (e : Entry) : Entry × Outcome :=
  match e.impl with
  | none => openPulse w e openMode
  | some _ => (e, .ok .unit)

/-- Operations of a user. -/
inductive Op where
  /-- `open` or `create`: the mode is computed from the arguments (lines 233-274) -/
  | openPulse (mode : Nat)
  | close (erase : Bool)
  | get (name : Text) (occ : Int) (o : GetOpts)
  | put (disable : Option Text) (d : Doc) (occ : Int) (slice : Bool)
  | delete (name : Text) (occ : Int)
  | list (name : Text) (path : Option Text)
  deriving Repr

def step (w : World) (e : Entry) : Op → Entry × Outcome
  | .openPulse m => openPulse w e m
  | .close er => close w e er
  | .get n o x => get w e n o x
  | .put dis d o s => ((put w dis e d o s).1, (put w dis e d o s).2.2)
  | .delete n o => delete w e n o
  | .list n p => listAll w e n p

/-- A sequence of operations whose exceptions are caught by the user. -/
def run (w : World) : Entry → List Op → Entry
  | e, [] => e
  | e, op :: r => run w (step w e op).1 r

/-- A block of statements: it ends at the first exception. -/
def body (w : World) : Entry → List Op → Entry × Outcome
  | e, [] => (e, .ok .unit)
  | e, op :: r =>
    match step w e op with
    | (e', .error x) => (e', .error x)
    | (e', .ok _) => body w e' r

/-- `with entry: <ops>` (lines 200-209). -/
def withBlock (w : World) (e : Entry) (ops : List Op) : Entry × Outcome :=
  match enter w e with
  | (e1, .error x) => (e1, .error x)
  | (e1, .ok _) =>
    let b := body w e1 ops
    match close w b.1 false with
    | (e2, .error x) => (e2, .error x)
    | (e2, .ok _) => (e2, b.2)

end Verif.Entry
