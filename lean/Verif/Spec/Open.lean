import Verif.Model.Open
/-
Specification of opening data entries: what a call with arguments means, and how a URI names backend and options.
-/
namespace Verif.OpenSpec
open Verif.Open

/-- The call with these positional and keyword arguments gives the parameters these values: positional arguments go to the
first parameters, every keyword argument to a later parameter of this name, and the other parameters have default values. -/
structure Binds (params : List Param) (args : List Arg) (kw : List (Text × Arg)) (vals : List Arg) : Prop where
  length : vals.length = params.length
  positional : args <+: vals
  keyword : ∀ k ∈ kw, ∃ (i : Nat) (p : Param), args.length ≤ i ∧ params[i]? = some p ∧ p.name = k.1
  value : ∀ (i : Nat) (p : Param) (v : Arg), args.length ≤ i → params[i]? = some p → vals[i]? = some v →
    (p.name, v) ∈ kw ∨ (∀ x, (p.name, x) ∉ kw) ∧ p.default = some v

/-- The signature `(uri, mode)`. -/
def AsUri (args : List Arg) (kw : List (Text × Arg)) (uri mode : Arg) : Prop :=
  Binds [⟨"uri".toList, none⟩, ⟨"mode".toList, none⟩] args kw [uri, mode]

/-- The signature `(backend_id, db_name, pulse, run, user_name=None, data_version=None)`. -/
def AsLegacy (args : List Arg) (kw : List (Text × Arg)) (l : Legacy) : Prop :=
  Binds [⟨"backend_id".toList, none⟩, ⟨"db_name".toList, none⟩, ⟨"pulse".toList, none⟩, ⟨"run".toList, none⟩,
    ⟨"user_name".toList, some .none⟩, ⟨"data_version".toList, some .none⟩] args kw
    [l.backendId, l.dbName, l.pulse, l.run, l.userName, l.dataVersion]

/-- Keyword arguments with `pulse` for `shot`. -/
def Shot (kw kw' : List (Text × Arg)) : Prop :=
  ∃ v, ("shot".toList, v) ∈ kw ∧ (∀ x, ("pulse".toList, x) ∉ kw) ∧
    ∀ k, k ∈ kw' ↔ k = ("pulse".toList, v) ∨ k ∈ kw ∧ k.1 ≠ "shot".toList

/-- `str(x)`: what is written. -/
def writtenOut : Arg → Text
  | .none => "None".toList
  | .int i => (toString i).toList
  | .str s => s
  | .path s => s

/-- What a call means. -/
inductive Means (args : List Arg) (kw : List (Text × Arg)) : Wanted → Prop
  | uri {u m : Arg} (h : AsUri args kw u m) : Means args kw (.uri (writtenOut u) m)
  | legacy {l : Legacy} (h : AsLegacy args kw l) : Means args kw (.legacy l)
  | shot {kw' : List (Text × Arg)} {l : Legacy} (hs : Shot kw kw') (h : AsLegacy args kw' l) : Means args kw (.legacy l)

/-- The URI names the backend and has this query: `imas:backend?query#fragment` or
`imas://host/backend?query#fragment`, where the query, the fragment and the host may be missing. The scheme and the
backend may be written in upper case. -/
structure ImasUri (uri backend query : Text) : Prop where
  parts : ∃ scheme host name q fragment, uri = scheme ++ ':' :: (host ++ name ++ q ++ fragment) ∧
    scheme.map Char.toLower = "imas".toList ∧
    (host = [] ∨ ∃ h, host = '/' :: '/' :: h ++ ['/'] ∧ ∀ c ∈ h, c ≠ '/' ∧ c ≠ '?' ∧ c ≠ '#') ∧
    name ≠ [] ∧ (∀ c ∈ name, c.isAlphanum = true) ∧ backend = name.map Char.toLower ∧
    (q = [] ∧ query = [] ∨ q = '?' :: query) ∧ (∀ c ∈ query, c ≠ '#') ∧
    (fragment = [] ∨ ∃ f, fragment = '#' :: f)
  plain : ∀ c ∈ uri, c ≠ '\t' ∧ c ≠ '\r' ∧ c ≠ '\n'

/-- These characters separate options. -/
def Separator (c : Char) : Prop := c = '&' ∨ c = ';' ∨ c = '?'

/-- `q` is these parts with a separator between any two. -/
inductive Parts : Text → List Text → Prop
  | last {p : Text} (h : ∀ c ∈ p, ¬ Separator c) : Parts p [p]
  | next {p q : Text} {c : Char} {ps : List Text} (h : ∀ c ∈ p, ¬ Separator c) (hc : Separator c) (hq : Parts q ps) :
      Parts (p ++ c :: q) (p :: ps)

/-- The part of a query is `name=value`, or only the name. -/
def Assigns (part name value : Text) : Prop :=
  (∀ c ∈ name, c ≠ '=') ∧ (part = name ++ '=' :: value ∨ part = name ∧ value = [])

/-- The query gives the option this value: the last part for it. -/
def OptionIs (query name value : Text) : Prop :=
  ∃ ps part rest, Parts query (ps ++ part :: rest) ∧ Assigns part name value ∧ ∀ p ∈ rest, ∀ v, ¬ Assigns p name v

/-- What the mode of a URI asks for. -/
inductive ModeIs : Arg → Action → Prop
  | r : ModeIs (.str ['r']) .open
  | a : ModeIs (.str ['a']) .forceOpen
  | w : ModeIs (.str ['w']) .forceCreate
  | x : ModeIs (.str ['x']) .create

variable {B : Type}

/-- The environment lets the backend find the Data Dictionary of the entry: UDA the definition of the same version, or the
given file, and MDSplus the models, if the entry may be created. -/
structure Prepared (w : World B) (backend : Text) (action : Action) (f : Factory) (s : Sys B) : Prop where
  uda : backend = "uda".toList → ∃ p, s.env "IDSDEF_PATH".toList = some p ∧
    (f.xmlPath = some (.str p) ∨ f.xmlPath = none ∧ ∃ b, s.files p = some b ∧ w.versionOf b = some f.version)
  mdsplus : backend = "mdsplus".toList → action ≠ .open → ∃ p, w.models f = .ok p ∧
    (p ≠ [] → s.env "ids_path".toList = some p)

/-- Nothing else was changed: for MDSplus only the variable with the place of the models, if the entry may be created, and
for UDA only the variable with the definition, and the file in the cache, unless this has the right version. -/
structure OnlyPrepares (w : World B) (backend : Text) (action : Action) (f : Factory) (s s' : Sys B) : Prop where
  env : ∀ k, s'.env k = s.env k ∨ backend = "mdsplus".toList ∧ action ≠ .open ∧ k = "ids_path".toList ∨
    backend = "uda".toList ∧ k = "IDSDEF_PATH".toList
  files : ∀ p, s'.files p = s.files p ∨ backend = "uda".toList ∧ f.xmlPath = none ∧ p = w.cacheDir ++ ('/' :: f.version ++ ".xml".toList) ∧
    s'.files p = w.bundled f.version ∧ ∀ b, s.files p = some b → w.versionOf b ≠ some f.version

/-- Files of bundled definitions say their version. -/
def Truthful (w : World B) : Prop := ∀ v b, w.bundled v = some b → w.versionOf b = some v

/-- The text names a netCDF file, and not an IMAS URI. -/
def NcFile (uri : Text) : Prop := (∃ p, uri = p ++ ".nc".toList) ∧ ¬ ∃ r, uri = "imas:".toList ++ r

/-- `x`, or `d` if `x` is missing or empty. -/
def OrDefault (x d y : Arg) : Prop :=
  (x = .none ∨ x = .int 0 ∨ x = .str []) ∧ y = d ∨ ¬ (x = .none ∨ x = .int 0 ∨ x = .str []) ∧ y = x

/-- Why a backend cannot be prepared. -/
inductive CannotPrepare (w : World B) (backend : Text) (action : Action) (f : Factory) (s : Sys B) : Exc → Prop
  | models {e : Exc} (hb : backend = "mdsplus".toList) (ha : action ≠ .open) (h : w.models f = .error e) :
      CannotPrepare w backend action f s e
  | notText {p : Arg} (hb : backend = "uda".toList) (hx : f.xmlPath = some p) (h : ∀ t, p ≠ .str t) :
      CannotPrepare w backend action f s .type
  | unknown (hb : backend = "uda".toList) (hx : f.xmlPath = none) (h : w.bundled f.version = none)
      (hp : ∀ d b, s.env "IMAS_PREFIX".toList = some d → s.files (d ++ "/include/IDSDef.xml".toList) = some b →
        w.versionOf b ≠ some f.version)
      (hc : ∀ b, s.files (w.cacheDir ++ ('/' :: f.version ++ ".xml".toList)) = some b → w.versionOf b ≠ some f.version) :
      CannotPrepare w backend action f s .unknownVersion

/-- What opening comes to: either the backend cannot be prepared, and nothing happens, or the Access Layer is asked once,
with everything prepared, and its answer counts. -/
inductive Opens (w : World B) (uri backend query : Text) (action : Action) (f : Factory) (s : St B) :
    St B → Except Exc Al → Prop
  | unprepared {e : Exc} (h : CannotPrepare w backend action f s.sys e) : Opens w uri backend query action f s s (.error e)
  | refused {sys : Sys B} (hp : Prepared w backend action f sys) (ho : OnlyPrepares w backend action f s.sys sys)
      (h : w.begin ⟨uri, action, sys⟩ = none) :
      Opens w uri backend query action f s ⟨sys, s.calls ++ [⟨uri, action, sys⟩]⟩ (.error .lowlevel)
  | opened {sys : Sys B} {a : Al} (hp : Prepared w backend action f sys) (ho : OnlyPrepares w backend action f s.sys sys)
      (h : w.begin ⟨uri, action, sys⟩ = some a.ctx) (hb : a.backend = backend)
      (hq : ∀ n v, a.options.lookup n = some v ↔ OptionIs query n v) :
      Opens w uri backend query action f s ⟨sys, s.calls ++ [⟨uri, action, sys⟩]⟩ (.ok a)

end Verif.OpenSpec
