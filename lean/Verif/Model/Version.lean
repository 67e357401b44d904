/-!
Model of the selection of a Data Dictionary version: `/repo/imas/dd_zip.py` lines 38-109 and
`IDSFactory.__init__` (`/repo/imas/ids_factory.py` lines 33-70).

The package `imas_data_dictionaries` is external: `available` is the list `dd_xml_versions()`
and `bundled v` the parsed definition `get_dd_xml(v)`, which raises `UnknownDDVersion` for a
version that is not in the list.
-/
namespace Verif.Version

abbrev Text := List Char

/-- Environment variables (`none` if not set). -/
structure Env where
  imasVersion : Option Text
  imasPrefix : Option Text

/-- What exists outside: the bundled versions and the files. `T` is the type of parsed Data
Dictionaries. `file p` is `none` if there is no such file. -/
structure World (T : Type) where
  available : List Text
  bundled : Text → Option T
  file : Text → Option T
  /-- `Path(prefix).resolve() / "include" / "IDSDef.xml"` -/
  defFile : Text → Text

inductive VerErr where
  | value | unknownVersion | index | fileNotFound | runtime
  deriving DecidableEq, Repr

/-- Arguments of `_load_etree`. -/
inductive Key where
  | bundled (v : Text)
  | file (p : Text)
  deriving DecidableEq, Repr

/-- An optional string argument in a boolean context: `None` and `""` are false. -/
def truthy : Option Text → Option Text
  | some [] => none
  | x => x

/-- `latest_dd_version` (lines 107-109). -/
def latest (available : List Text) : Except VerErr Text :=
  match available.getLast? with
  | none => .error .index
  | some v => .ok v

variable {T : Type}

/-- Lines 57-76, if neither argument is given: the version or file named by the
environment. -/
def fromEnv (w : World T) (env : Env) : Option Key :=
  match env.imasVersion with
  | none => none
  | some v =>
    if v ∈ w.available then (truthy (some v)).map .bundled
    else match env.imasPrefix with
      | none => none
      | some p => if (w.file (w.defFile p)).isSome then some (.file (w.defFile p)) else none

/-- `dd_etree` (lines 41-79) without the loading: which definition is to be loaded. -/
def select (w : World T) (env : Env) (version xmlPath : Option Text) : Except VerErr Key :=
  match truthy version, truthy xmlPath with
  | some _, some _ => .error .value
  | some v, none => .ok (.bundled v)
  | none, some p => .ok (.file p)
  | none, none =>
    match fromEnv w env with
    | some k => .ok k
    | none =>
      match latest w.available with
      | .ok v => .ok (.bundled v)
      | .error e => .error e

/-- `_load_etree` without the cache (lines 82-92). -/
def load (w : World T) : Key → Except VerErr T
  | .bundled v => match w.bundled v with
    | some t => .ok t
    | none => .error .unknownVersion
  | .file p => match w.file p with
    | some t => .ok t
    | none => .error .fileNotFound

/-- The cache of `_load_etree`: most recently used first, at most `_DD_CACHE_SIZE = 8`
entries. -/
abbrev Cache (T : Type) := List (Key × T)

def cacheSize : Nat := 8

def cacheGet : Cache T → Key → Option T
  | [], _ => none
  | (k, t) :: r, key => if key = k then some t else cacheGet r key

/-- Move or insert an entry at the front, and drop the least recently used one. -/
def cachePut (c : Cache T) (key : Key) (t : T) : Cache T :=
  ((key, t) :: c.filter (fun e => e.1 ≠ key)).take cacheSize

/-- `_load_etree` with `lru_cache` (lines 82-92): exceptions are not cached. -/
def loadCached (w : World T) (c : Cache T) (key : Key) : Cache T × Except VerErr T :=
  match cacheGet c key with
  | some t => (cachePut c key t, .ok t)
  | none =>
    match load w key with
    | .error e => (c, .error e)
    | .ok t => (cachePut c key t, .ok t)

/-- `dd_etree(version, xml_path)`. -/
def ddEtree (w : World T) (env : Env) (c : Cache T) (version xmlPath : Option Text) :
    Cache T × Except VerErr T :=
  match select w env version xmlPath with
  | .error e => (c, .error e)
  | .ok k => loadCached w c k

/-- A factory: its definition and version. -/
structure Factory (T : Type) where
  etree : T
  version : Text

/-- `IDSFactory.__init__` (`ids_factory.py` lines 33-70); `stated t` is the text of the
`version` element of a definition. -/
def newFactory (stated : T → Option Text) (w : World T) (env : Env) (c : Cache T)
    (version xmlPath : Option Text) : Cache T × Except VerErr (Factory T) :=
  match ddEtree w env c version xmlPath with
  | (c', .error e) => (c', .error e)
  | (c', .ok t) =>
    let actual := match stated t, truthy version with
      | some s, _ => s
      | none, some v => v
      | none, none => ['-', '1']
    match truthy version with
    | some v => if v ≠ actual then (c', .error .runtime) else (c', .ok ⟨t, actual⟩)
    | none => (c', .ok ⟨t, actual⟩)

/-- A call of `IDSFactory` in the environment and the file contents of that moment. -/
structure Call (T : Type) where
  env : Env
  file : Text → Option T
  version : Option Text
  xmlPath : Option Text

/-- A sequence of calls. -/
def calls (stated : T → Option Text) (w : World T) : Cache T → List (Call T) → Cache T
  | c, [] => c
  | c, a :: r =>
    calls stated w (newFactory stated { w with file := a.file } a.env c a.version a.xmlPath).1 r

end Verif.Version
