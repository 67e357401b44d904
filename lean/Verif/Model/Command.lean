/-!
Model of the command `imas convert` (`convert_ids`, `/repo/imas/command/cli.py` lines 113-217, with `min_version_guard` of
`/repo/imas/command/helpers.py` lines 33-47), and of `DBEntry.get(..., autoconvert=False)` as this command uses it
(`/repo/imas/db_entry.py` lines 552-627).

Outside of the model: click (parsing the command line), the progress bar, the timings and log messages. The data entries, the
conversion (see `Model/Convert.lean`) and the Data Dictionaries are oracles.
-/
namespace Verif.Command

abbrev Text := List Char

inductive Exc where
  /-- `sys.exit(1)` of `min_version_guard` -/
  | exit
  | unknownVersion | idsName | dataEntry | runtime
  /-- any exception of the outside code -/
  | other (n : Nat)
  deriving DecidableEq, Repr

/-- The arguments of the command. -/
structure Args where
  uriIn : Text
  ddVersion : Text
  uriOut : Text
  ids : Text := ['*']
  occurrence : Int := -1
  noProvenance : Bool := false

/-- `version_params`: the dictionary of the output. -/
inductive Target where
  | version (v : Text)
  | file (path : Text)
  deriving DecidableEq, Repr

/-- The outside: `R` is what is stored in an occurrence, `D` are IDSs in memory. -/
structure World (R D : Type) where
  /-- the Access Layer is at least 5.1 -/
  recent : Bool
  /-- `dd_zip.dd_xml_versions()` -/
  versions : List Text
  /-- `Path(p).exists()` -/
  isPath : Text → Bool
  /-- does this version of the Data Dictionary define the IDS -/
  knows : Text → Text → Bool
  /-- opening the input (`none`: no exception) -/
  openIn : Text → Option Exc
  /-- the version of the input entry's dictionary (the default one) -/
  inVersion : Text
  /-- `entry_in.list_all_occurrences` -/
  list : Text → Except Exc (List Int)
  /-- what is stored in the input: the version that is recorded with it (empty: none) and the contents -/
  stored : Text → Int → Option (Text × R)
  /-- reading stored contents into an IDS of a version of the dictionary -/
  load : Text → Text → R → Except Exc D
  openOut : Text → Target → Option Exc
  /-- `entry_out.dd_version` -/
  outVersion : Target → Text
  /-- `entry_out.factory.ids_names()` -/
  names : Target → List Text
  /-- `imas.convert_ids` without provenance: from a version, to a dictionary, of the IDS with a name -/
  convert : Text → Target → Text → D → Except Exc D
  /-- `_add_provenance_entry(target, version, uri)` -/
  origin : Text → Text → D → D
  /-- `entry_out.put`: given what the occurrence holds, what it holds afterwards and the exception -/
  put : Option D → Text → Int → D → Option D × Option Exc
  closeIn : Option Exc
  closeOut : Option Exc

/-- What is done to the data entries. -/
inductive Event where
  | openIn | openOut (t : Target)
  | list (name : Text)
  | get (name : Text) (occ : Int)
  | put (name : Text) (occ : Int)
  | closeOut | closeIn
  deriving DecidableEq, Repr

/-- The IDSs in the output entry. -/
abbrev Store (D : Type) := Text → Int → Option D

variable {R D : Type}

/-- Lines 149-155. -/
def target (W : World R D) (a : Args) : Except Exc Target :=
  if a.ddVersion ∈ W.versions then .ok (.version a.ddVersion)
  else if W.isPath a.ddVersion then .ok (.file a.ddVersion)
  else .error .unknownVersion

/-- Line 167. -/
def idsList (W : World R D) (a : Args) (t : Target) : List Text :=
  if a.ids ≠ ['*'] then [a.ids] else W.names t

/-- Lines 168-175. -/
def work (W : World R D) (a : Args) : List Text → List Event × Except Exc (List (Text × Int))
  | [] => ([], .ok [])
  | n :: r =>
    if a.occurrence = -1 then
      match W.list n with
      | .error e => ([.list n], .error e)
      | .ok l =>
        let x := work W a r
        (.list n :: x.1, x.2.map fun rest => l.map (fun o => (n, o)) ++ rest)
    else
      let x := work W a r
      (x.1, x.2.map fun rest => (n, a.occurrence) :: rest)

/-- `entry_in.get(name, occurrence, autoconvert=False)`: the version of the IDS and the IDS. Of the errors that the backend raises for
occurrences that are not filled only one is modelled. -/
def getIn (W : World R D) (n : Text) (o : Int) : Except Exc (Text × D) :=
  if !W.knows W.inVersion n then .error .idsName
  else
    match W.stored n o with
    | none => .error .dataEntry
    | some (v, r) =>
      if v = [] then (W.load W.inVersion n r).map fun d => (W.inVersion, d)
      else if v ≠ W.inVersion ∧ v ∉ W.versions then .error .unknownVersion
      else if !W.knows v n then .error .idsName
      else (W.load v n r).map fun d => (v, d)

/-- `imas.convert_ids(ids, None, factory=entry_out.factory, provenance_origin_uri=...)`
(`/repo/imas/ids_convert.py` lines 575-629). -/
def convertIds (W : World R D) (a : Args) (t : Target) (n v : Text) (d : D) : Except Exc D :=
  if n ∉ W.names t then .error .runtime
  else
    let uri := if a.noProvenance then [] else a.uriIn
    (W.convert v t n d).map fun x => if uri = [] then x else W.origin v uri x

/-- The body of the loop (lines 190-213): what happens to the data entries, the output, and the exception. -/
def one (W : World R D) (a : Args) (t : Target) (n : Text) (o : Int) (s : Store D) : List Event × Store D × Option Exc :=
  match getIn W n o with
  | .error e => ([.get n o], s, some e)
  | .ok (v, d) =>
    match (if v = W.outVersion t then .ok d else convertIds W a t n v d) with
    | .error e => ([.get n o], s, some e)
    | .ok d2 =>
      let x := W.put (s n o) n o d2
      ([.get n o, .put n o], fun n' o' => if n' = n ∧ o' = o then x.1 else s n' o', x.2)

/-- The loop (lines 189-216). -/
def loop (W : World R D) (a : Args) (t : Target) : List (Text × Int) → Store D → List Event × Store D × Option Exc
  | [], s => ([], s, none)
  | (n, o) :: r, s =>
    let x := one W a t n o s
    match x.2.2 with
    | some e => (x.1, x.2.1, some e)
    | none =>
      let y := loop W a t r x.2.1
      (x.1 ++ y.1, y.2)

/-- What the command leaves: what it did, the output entry (`none`: not created), and the exception. -/
structure Result (D : Type) where
  log : List Event
  out : Option (Store D)
  error : Option Exc

/-- An exception of `__exit__` replaces the one of the body. -/
def leave (close body : Option Exc) : Option Exc := close.or body

/-- `convert_ids` (lines 133-217). The output is a new data entry: it is empty in the beginning (mode `x`). -/
def run (W : World R D) (a : Args) : Result D :=
  if !W.recent then ⟨[], none, some .exit⟩
  else
    match target W a with
    | .error e => ⟨[], none, some e⟩
    | .ok t =>
      match W.openIn a.uriIn with
      | some e => ⟨[.openIn], none, some e⟩
      | none =>
        match W.openOut a.uriOut t with
        | some e => ⟨[.openIn, .openOut t, .closeIn], none, leave W.closeIn (some e)⟩
        | none =>
          let w := work W a (idsList W a t)
          let b : List Event × Store D × Option Exc :=
            match w.2 with
            | .error e => ([], fun _ _ => none, some e)
            | .ok l => loop W a t l fun _ _ => none
          ⟨.openIn :: .openOut t :: (w.1 ++ b.1) ++ [.closeOut, .closeIn], some b.2.1,
            leave W.closeIn (leave W.closeOut b.2.2)⟩

end Verif.Command
