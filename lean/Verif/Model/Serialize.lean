/-!
Model of `IDSToplevel.serialize` and `deserialize` (`/repo/imas/ids_toplevel.py` lines 102-214).

The Access Layer is external. For the ASCII protocol the data goes through a temporary file with
an unused name; the model follows the contents of this file (`none`: it does not exist). Every
operation may fail; a failing operation leaves the file in any state. Removing the file
(`os.unlink`) is assumed to succeed. For the flexbuffers protocol there is no file.
-/
namespace Verif.Serialize

abbrev Bytes := List Nat
abbrev File := Option Bytes

inductive Exc where
  | value | notImplemented | fileNotFound | other (code : Nat)
  deriving DecidableEq, Repr

/-- `ASCII_SERIALIZER_PROTOCOL` and the number of the flexbuffers protocol
(`/repo/imas/ids_defs.py`). -/
def asciiProtocol : Nat := 60
def flexNumber : Nat := 61

/-- What happens outside. Each step gets the file and returns the new file, and the result or an
exception. -/
structure World (D : Type) where
  /-- flexbuffers are available (`imas_core >= 5.3`): otherwise
  `FLEXBUFFERS_SERIALIZER_PROTOCOL` is `None` -/
  flex : Bool
  /-- `ids_properties.homogeneous_time` is not set -/
  isUnset : D → Bool
  /-- `_create_serialization_dbentry` -/
  openEntry : File → File × Except Exc Unit
  /-- `dbentry.put(self)` on the ASCII backend -/
  put : D → File → File × Except Exc Unit
  /-- `dbentry.close()` after writing: the data is in the file -/
  closeWrite : D → File → File × Except Exc Unit
  /-- `open(filepath, "rb")` and `f.read()` for an existing file -/
  readFile : Bytes → Except Exc Bytes
  /-- `open(filepath, "wb")` and `f.write(data)` -/
  writeFile : Bytes → File → File × Except Exc Unit
  /-- `dbentry.get(name, destination=self)`: the new contents of the destination -/
  get : File → File × Except Exc D
  closeRead : File → File × Except Exc Unit
  /-- the `with` blocks of the flexbuffers protocol -/
  flexWrite : D → Except Exc Bytes
  flexRead : Bytes → Except Exc D

variable {D : Type}

/-- `default_serializer_protocol`: flexbuffers if available. -/
def defaultProtocol (w : World D) : Nat := if w.flex then flexNumber else asciiProtocol

/-- Lines 149-159. -/
def serializeAscii (w : World D) (d : D) : File × Except Exc Bytes :=
  match w.openEntry none with
  | (f, .error e) => (f, .error e)
  | (f, .ok _) =>
    match w.put d f with
    | (f, .error e) => (f, .error e)
    | (f, .ok _) =>
      match w.closeWrite d f with
      | (f, .error e) => (f, .error e)
      | (none, .ok _) => (none, .error .fileNotFound)   -- `open` fails, then also `unlink`
      | (some b, .ok _) =>
        match w.readFile b with
        | .error e => (none, .error e)
        | .ok data => (none, .ok (asciiProtocol :: data))

/-- `serialize` (lines 102-170). -/
def serialize (w : World D) (protocol : Option Nat) (d : D) : File × Except Exc Bytes :=
  let p := protocol.getD (defaultProtocol w)
  if w.isUnset d then (none, .error .value)
  else if p = asciiProtocol then serializeAscii w d
  else if w.flex ∧ p = flexNumber then (none, w.flexWrite d)
  else (none, .error .value)

/-- The `try` block of lines 189-195. -/
def deserializeAscii (w : World D) (data : Bytes) : File × Except Exc D :=
  match w.writeFile data none with
  | (f, .error e) => (f, .error e)
  | (f, .ok _) =>
    match w.openEntry f with
    | (f, .error e) => (f, .error e)
    | (f, .ok _) =>
      match w.get f with
      | (f, .error e) => (f, .error e)
      | (f, .ok d) =>
        match w.closeRead f with
        | (f, .error e) => (f, .error e)
        | (f, .ok _) => (f, .ok d)

/-- Lines 196-199: `if os.path.exists(filepath): os.unlink(filepath)`. -/
def cleanUp : File → File
  | none => none
  | some _ => none

/-- `deserialize` (lines 172-214): the new contents of the IDS. -/
def deserialize (w : World D) (data : Bytes) : File × Except Exc D :=
  match data with
  | [] => (none, .error .value)
  | [_] => (none, .error .value)
  | p :: rest =>
    if p = asciiProtocol then
      let r := deserializeAscii w rest
      (cleanUp r.1, r.2)
    else if w.flex ∧ p = flexNumber then (none, w.flexRead data)
    else if p = flexNumber then (none, .error .notImplemented)
    else (none, .error .value)

end Verif.Serialize
