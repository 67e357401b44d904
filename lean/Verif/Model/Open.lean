/-!
Model of how data entries are opened: the arguments of `DBEntry` and the choice of the backend
(`/repo/imas/db_entry.py` lines 37-48, 99-198 and 282-303), and opening with the Access Layer
(`/repo/imas/backends/imas_core/db_entry_al.py` lines 45-158), with `extract_idsdef`
(`/repo/imas/backends/imas_core/uda_support.py` lines 31-56).

Outside of the model: the Access Layer (an oracle that may refuse to open, and that sees the files and the
environment at that time), `mdsplus_model_dir` (an oracle, see `Model/ModelCache.lean`), the creation of the `IDSFactory`
(see `Model/Version.lean`), and opening netCDF files (see `Model/NcStore.lean`).
-/
namespace Verif.Open

abbrev Text := List Char

inductive Exc where
  | type | value | runtime | lowlevel | unknownVersion
  /-- any exception of the outside code -/
  | other (n : Nat)
  deriving DecidableEq, Repr

/-- Python values that are given as arguments. -/
inductive Arg where
  | none
  | int (i : Int)
  | str (s : Text)
  /-- a `pathlib.Path` -/
  | path (s : Text)
  deriving DecidableEq, Repr

/-- `str(x)`. -/
def Arg.text : Arg → Text
  | .none => "None".toList
  | .int i => (toString i).toList
  | .str s => s
  | .path s => s

/-- `bool(x)`. -/
def Arg.truthy : Arg → Bool
  | .none => false
  | .int i => i ≠ 0
  | .str s => s ≠ []
  | .path _ => true

/-! ### Calls of functions -/

/-- A parameter of a Python function: its name, and its default value. -/
structure Param where
  name : Text
  default : Option Arg := none
  deriving DecidableEq

/-- The parameters that have no positional argument take their keyword argument, or their default value. -/
def fill (kw : List (Text × Arg)) : List Param → Option (List Arg)
  | [] => some []
  | p :: r =>
    match (match kw.lookup p.name with
      | some v => some v
      | none => p.default) with
    | none => none
    | some v => (fill kw r).map (v :: ·)

/-- The values of the parameters in a call `f(*args, **kw)`; `none` if Python raises a `TypeError`. -/
def bind (params : List Param) (args : List Arg) (kw : List (Text × Arg)) : Option (List Arg) :=
  if params.length < args.length then none
  else
    let rest := params.drop args.length
    if kw.all fun k => rest.any fun p => p.name = k.1 then (fill kw rest).map (args ++ ·) else none

def nUri : Text := "uri".toList
def nMode : Text := "mode".toList
def nShot : Text := "shot".toList
def nPulse : Text := "pulse".toList

/-- Parameters of `_get_uri_mode` (lines 37-39). -/
def uriParams : List Param := [⟨nUri, none⟩, ⟨nMode, none⟩]

/-- Parameters of `_get_legacy_params` (lines 42-46). -/
def legacyParams : List Param :=
  [⟨"backend_id".toList, none⟩, ⟨"db_name".toList, none⟩, ⟨nPulse, none⟩, ⟨"run".toList, none⟩,
   ⟨"user_name".toList, some .none⟩, ⟨"data_version".toList, some .none⟩]

/-- The legacy parameters of an entry (lines 176-183). -/
structure Legacy where
  backendId : Arg
  dbName : Arg
  pulse : Arg
  run : Arg
  userName : Arg
  dataVersion : Arg
  deriving DecidableEq

/-- What the arguments say. -/
inductive Wanted where
  | uri (uri : Text) (mode : Arg)
  | legacy (l : Legacy)
  deriving DecidableEq

/-- `kwargs["pulse"] = kwargs.pop("shot")` (lines 152-155). -/
def shotToPulse (kw : List (Text × Arg)) : Except Exc (List (Text × Arg)) :=
  match kw.lookup nShot with
  | none => .ok kw
  | some v =>
    if (kw.lookup nPulse).isSome then .error .value
    else .ok (kw.filter (fun k => k.1 ≠ nShot) ++ [(nPulse, v)])

/-- The first part of `DBEntry.__init__` (lines 145-164). `dd_version` and `xml_path` are keyword-only parameters
of `__init__` itself, so they are not in `kw`. -/
def arguments (args : List Arg) (kw : List (Text × Arg)) : Except Exc Wanted :=
  match bind uriParams args kw with
  | some [u, m] => .ok (.uri u.text m)
  | _ =>
    match shotToPulse kw with
    | .error e => .error e
    | .ok kw =>
      match bind legacyParams args kw with
      | some [a, b, c, d, e, f] => .ok (.legacy ⟨a, b, c, d, e, f⟩)
      | _ => .error .type

/-! ### URIs -/

/-- `DBEntry._select_implementation` (lines 191-198): whether a netCDF file is meant. `None` is the empty
text here. -/
def isNetcdf (uri : Text) : Bool := ".nc".toList.isSuffixOf uri && !"imas:".toList.isPrefixOf uri

/-- Split at the first character with the property; the character is dropped. -/
def splitFirst (f : Char → Bool) : Text → Text × Option Text
  | [] => ([], none)
  | c :: r =>
    if f c then ([], some r)
    else
      let x := splitFirst f r
      (c :: x.1, x.2)

/-- Characters of schemes (`urllib.parse.scheme_chars`). -/
def schemeChar (c : Char) : Bool := c.isAlphanum || c = '+' || c = '-' || c = '.'

/-- `uses_params` of `urllib.parse`. -/
def usesParams : List Text :=
  ["", "ftp", "hdl", "prospero", "http", "https", "shttp", "rtsp", "rtsps", "sip", "sips", "mms", "sftp", "tel"].map
    String.toList

/-- The scheme and the rest. -/
def splitScheme (u : Text) : Text × Text :=
  match u with
  | [] => ([], u)
  | c :: _ =>
    match splitFirst (· = ':') u with
    | (s, some r) => if c.isAlpha && s.all schemeChar then (s.map Char.toLower, r) else ([], u)
    | (_, none) => ([], u)

/-- Drop the part after `//` up to the next `/`, `?` or `#`. -/
def dropNetloc (u : Text) : Text :=
  match u with
  | '/' :: '/' :: r => r.dropWhile fun c => !(c = '/' || c = '?' || c = '#')
  | _ => u

/-- `_splitparams`: the path before the first `;` after the last `/`. -/
def dropParams (p : Text) : Text :=
  let last := (p.reverse.takeWhile (· ≠ '/')).reverse
  p.take (p.length - last.length) ++ last.takeWhile (· ≠ ';')

/-- Path and query of `urllib.parse.urlparse(uri)`. Simplified: malformed host names, for which
Python raises a `ValueError`, are accepted. -/
def urlparse (uri : Text) : Text × Text :=
  let u := (uri.dropWhile fun c => c.toNat ≤ 32).filter fun c => !(c = '\t' || c = '\r' || c = '\n')
  let (scheme, u) := splitScheme u
  let u := (splitFirst (· = '#') (dropNetloc u)).1
  let (path, query) := splitFirst (· = '?') u
  (if scheme ∈ usesParams then dropParams path else path, query.getD [])

/-- `urlparse(uri).path.lower().lstrip("/")` (line 67). Simplified: `lower` for ASCII letters only. -/
def backendOf (uri : Text) : Text := ((urlparse uri).1.map Char.toLower).dropWhile (· = '/')

/-- `re.split("[&;?]", q)`. -/
def parts : Text → List Text
  | [] => [[]]
  | c :: r =>
    if c = '&' || c = ';' || c = '?' then [] :: parts r
    else match parts r with
      | [] => [[c]]      -- unreachable
      | p :: ps => (c :: p) :: ps

/-- `option.partition("=")`: name and value. -/
def partition (o : Text) : Text × Text :=
  match splitFirst (· = '=') o with
  | (n, v) => (n, v.getD [])

/-- Lines 82-85: the dictionary of options, the latest entry first. -/
def options (uri : Text) : List (Text × Text) := ((parts (urlparse uri).2).map partition).reverse

/-! ### Opening with the Access Layer -/

/-- `OPEN_PULSE`, `FORCE_OPEN_PULSE`, `CREATE_PULSE`, `FORCE_CREATE_PULSE`, or any other number. -/
inductive Action where
  | open | forceOpen | create | forceCreate
  | other (n : Int)
  deriving DecidableEq, Repr

/-- The Data Dictionary of the entry. -/
structure Factory where
  version : Text
  xmlPath : Option Arg

/-- Files and environment variables, and what the Access Layer was asked to open. `B` is the type of file
contents. -/
structure Sys (B : Type) where
  files : Text → Option B
  env : Text → Option Text

/-- A call of `begin_dataentry_action`, with the files and the environment at that time. -/
structure Call (B : Type) where
  uri : Text
  action : Action
  sys : Sys B

structure St (B : Type) where
  sys : Sys B
  calls : List (Call B)

/-- Everything outside. -/
structure World (B : Type) where
  hasImas : Bool
  /-- `get_dd_version_from_idsdef_xml` for the contents of a file -/
  versionOf : B → Option Text
  /-- `dd_zip.get_dd_xml` -/
  bundled : Text → Option B
  /-- the folder of `extract_idsdef` -/
  cacheDir : Text
  /-- `mdsplus_model_dir` -/
  models : Factory → Except Exc Text
  /-- `getpass.getuser()` -/
  user : Text
  /-- `build_uri_from_legacy_parameters`; `none` if the status is not 0 -/
  buildUri : (backendId pulse run userName dbName dataVersion options : Arg) → Option Text
  /-- `begin_dataentry_action`: the context; `none` if the status is not 0 -/
  begin : Call B → Option Nat

variable {B : Type}

def vIdsPath : Text := "ids_path".toList
def vIdsdef : Text := "IDSDEF_PATH".toList
def vPrefix : Text := "IMAS_PREFIX".toList

/-- `os.environ[k] = v`. -/
def Sys.setEnv (s : Sys B) (k v : Text) : Sys B := { s with env := fun x => if x = k then some v else s.env x }

def Sys.write (s : Sys B) (k : Text) (v : B) : Sys B := { s with files := fun x => if x = k then some v else s.files x }

/-- `get_dd_version_from_idsdef_xml(path)`: `None` if there is no such file. -/
def versionAt (w : World B) (s : Sys B) (p : Text) : Option Text :=
  match s.files p with
  | none => none
  | some b => w.versionOf b

/-- The path of `extract_idsdef`: `cache_dir_path / (dd_version + ".xml")`. -/
def cached (w : World B) (v : Text) : Text := w.cacheDir ++ ('/' :: v ++ ".xml".toList)

/-- `extract_idsdef` (`uda_support.py` lines 31-56). Simplified: writing the file does not fail. -/
def extractIdsdef (w : World B) (v : Text) (s : Sys B) : Sys B × Except Exc Text :=
  if versionAt w s (cached w v) = some v then (s, .ok (cached w v))
  else
    match w.bundled v with
    | none => (s, .error .unknownVersion)
    | some b => (s.write (cached w v) b, .ok (cached w v))

def bMdsplus : Text := "mdsplus".toList
def bUda : Text := "uda".toList

/-- `_setup_backend` (lines 124-158). -/
def setupBackend (w : World B) (backend : Text) (action : Action) (f : Factory) (s : Sys B) : Sys B × Except Exc Unit :=
  if backend = bMdsplus then
    if action ≠ .open then
      match w.models f with
      | .error e => (s, .error e)
      | .ok p => (if p ≠ [] then s.setEnv vIdsPath p else s, .ok ())
    else (s, .ok ())
  else if backend = bUda then
    match f.xmlPath with
    | some (.str p) => (s.setEnv vIdsdef p, .ok ())
    | some _ => (s, .error .type)      -- values of environment variables are `str`
    | none =>
      let inPrefix :=
        match s.env vPrefix with
        | none => none
        | some d =>
          let p := d ++ "/include/IDSDef.xml".toList
          if versionAt w s p = some f.version then some p else none
      match inPrefix with
      | some p => (s.setEnv vIdsdef p, .ok ())
      | none =>
        match extractIdsdef w f.version s with
        | (s, .error e) => (s, .error e)
        | (s, .ok p) => (s.setEnv vIdsdef p, .ok ())
  else (s, .ok ())

/-- An opened `ALDBEntryImpl`. -/
structure Al where
  backend : Text
  ctx : Nat
  options : List (Text × Text)
  deriving DecidableEq

/-- `ALDBEntryImpl.__init__` (lines 64-85). -/
def openAl (w : World B) (uri : Text) (action : Action) (f : Factory) (s : St B) : St B × Except Exc Al :=
  let backend := backendOf uri
  match setupBackend w backend action f s.sys with
  | (sys, .error e) => ({ s with sys := sys }, .error e)
  | (sys, .ok _) =>
    let c : Call B := ⟨uri, action, sys⟩
    let s := ⟨sys, s.calls ++ [c]⟩
    match w.begin c with
    | none => (s, .error .lowlevel)
    | some ctx => (s, .ok ⟨backend, ctx, options uri⟩)

/-- `_OPEN_MODES` (lines 45-50). -/
def openModes : List (Text × Action) :=
  [(['r'], .open), (['a'], .forceOpen), (['w'], .forceCreate), (['x'], .create)]

/-- `ALDBEntryImpl.from_uri` (lines 87-93). -/
def fromUri (w : World B) (uri : Text) (mode : Arg) (f : Factory) (s : St B) : St B × Except Exc Al :=
  if w.hasImas = false then (s, .error .runtime)
  else
    match mode with
    | .str m =>
      match openModes.lookup m with
      | none => (s, .error .value)
      | some a => openAl w uri a f s
    | _ => (s, .error .value)

/-- `ALDBEntryImpl.from_pulse_run` (lines 95-122). -/
def fromPulseRun (w : World B) (l : Legacy) (action : Action) (opts : Arg) (f : Factory) (s : St B) :
    St B × Except Exc Al :=
  if w.hasImas = false then (s, .error .runtime)
  else
    let user := if l.userName.truthy then l.userName else .str w.user
    let version := if l.dataVersion.truthy then l.dataVersion else .str f.version
    let opts := if opts.truthy then opts else .str []
    match w.buildUri l.backendId l.pulse l.run user l.dbName version opts with
    | none => (s, .error .lowlevel)
    | some uri => openAl w uri action f s

/-! ### Data entries -/

/-- The backend object of an entry. A netCDF entry is what is passed to `NCDBEntryImpl`. -/
inductive Impl where
  | netcdf (file : Text) (mode : Arg)
  | al (a : Al)
  deriving DecidableEq

/-- A `DBEntry` object. -/
structure Entry where
  wanted : Wanted
  factory : Factory
  impl : Option Impl

/-- `DBEntry.__init__` (lines 145-189). `factory` is the result of `IDSFactory(dd_version, xml_path)`. -/
def newEntry (w : World B) (factory : Except Exc Factory) (args : List Arg) (kw : List (Text × Arg)) (s : St B) :
    St B × Except Exc Entry :=
  match arguments args kw with
  | .error e => (s, .error e)
  | .ok a =>
    match factory with
    | .error e => (s, .error e)
    | .ok f =>
      match a with
      | .legacy _ => (s, .ok ⟨a, f, none⟩)
      | .uri uri mode =>
        if isNetcdf uri then (s, .ok ⟨a, f, some (.netcdf uri mode)⟩)
        else
          match fromUri w uri mode f s with
          | (s, .error e) => (s, .error e)
          | (s, .ok i) => (s, .ok ⟨a, f, some (.al i)⟩)

/-- `DBEntry._open_pulse` (lines 282-303): `open` and `create`. -/
def openPulse (w : World B) (e : Entry) (action : Action) (opts : Arg) (s : St B) : St B × Except Exc Entry :=
  match e.impl, e.wanted with
  | some _, _ => (s, .error .runtime)
  | none, .uri _ _ => (s, .error .runtime)
  | none, .legacy l =>
    match fromPulseRun w l action opts e.factory s with
    | (s, .error x) => (s, .error x)
    | (s, .ok i) => (s, .ok { e with impl := some (.al i) })

/-- `DBEntry.create` (lines 227-251) and `DBEntry.open` (lines 253-280). -/
def create (w : World B) (e : Entry) (force : Bool) (opts : Arg) (s : St B) : St B × Except Exc Entry :=
  openPulse w e (if force then .forceCreate else .create) opts s

def «open» (w : World B) (e : Entry) (mode : Action) (force : Bool) (opts : Arg) (s : St B) : St B × Except Exc Entry :=
  openPulse w e (if force then .forceOpen else mode) opts s

end Verif.Open
