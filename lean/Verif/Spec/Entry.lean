import Verif.Model.Entry
/-! Specification of the life cycle of data entries and of `get` and `put`. -/
namespace Verif.EntrySpec
open Verif.Entry

def IsOpen (c : Call) : Prop := c = .openUri ∨ ∃ m, c = .openPulse m
def IsClose (c : Call) : Prop := ∃ er, c = .close er

/-- The calls of the backend are in order: an object is opened only while none is open, it is a
new object, it is used only between its opening and its closing. The second argument is the
object that is open at the end. -/
inductive Protocol : Log → Option Nat → Prop
  | start : Protocol [] none
  | opened {l : Log} {h : Nat} {c : Call} (p : Protocol l none) (hc : IsOpen c)
      (fresh : ∀ e ∈ l, e.handle ≠ h) : Protocol (l ++ [⟨h, c, true⟩]) (some h)
  | notOpened {l : Log} {h : Nat} {c : Call} (p : Protocol l none) (hc : IsOpen c) :
      Protocol (l ++ [⟨h, c, false⟩]) none
  | used {l : Log} {h : Nat} {c : Call} {ok : Bool} (p : Protocol l (some h)) (ho : ¬IsOpen c)
      (hc : ¬IsClose c ∨ ok = false) : Protocol (l ++ [⟨h, c, ok⟩]) (some h)
  | closed {l : Log} {h : Nat} {c : Call} (p : Protocol l (some h)) (hc : IsClose c) :
      Protocol (l ++ [⟨h, c, true⟩]) none

/-- The calls of the backend made by an operation, one after the other, and the result of the operation: the exception of a call
ends the operation, and is what the user gets. -/
inductive Told (w : World) {α : Type} : Log → Log → Except Exc α → Prop
  | done {l : Log} {r : Except Exc α} : Told w l [] r
  | next {l ev : Log} {h : Nat} {c : Call} {r : Except Exc α} (hc : w.fails l c = none)
      (t : Told w (l ++ [⟨h, c, true⟩]) ev r) : Told w l (⟨h, c, true⟩ :: ev) r
  | failed {l : Log} {h : Nat} {c : Call} {x : Exc} (hc : w.fails l c = some x) :
      Told w l [⟨h, c, false⟩] (.error x)

/-- Two version texts have the same major number: the same text before the first dot. -/
def SameMajor (a b : Text) : Prop := a.takeWhile (· ≠ '.') = b.takeWhile (· ≠ '.')

instance (a b : Text) : Decidable (SameMajor a b) := inferInstanceAs (Decidable (_ = _))

/-- The data carries version `v`, and this version can be used: it is the version of the entry or
a released one. -/
def Usable (w : World) (entry read v : Text) : Prop :=
  read = v ∧ v ≠ [] ∧ (v = entry ∨ v ∈ w.known)

/-- The data carries a version that is neither the one of the entry nor a released one. -/
def Unknown (w : World) (entry read : Text) : Prop :=
  read ≠ [] ∧ read ≠ entry ∧ read ∉ w.known

/-- `get` without destination: the version of the IDS that is returned and the version of the
data it is converted from, if it is converted. -/
inductive Returns (w : World) (entry name read : Text) (o : GetOpts) : Text → Option Text → Prop
  /-- no version is stored: the data is read as if it were of the version of the entry -/
  | unversioned (h : read = []) : Returns w entry name read o entry none
  /-- the version is unknown and the user wants to ignore this: the same -/
  | ignored (h : Unknown w entry read) (hi : o.ignoreUnknown = true) :
      Returns w entry name read o entry none
  /-- the stored version is the version of the entry -/
  | same (h : Usable w entry read entry) (ha : o.autoconvert = true) :
      Returns w entry name read o entry none
  /-- another version with the same major number is converted to the version of the entry -/
  | converted {v : Text} (h : Usable w entry read v) (ha : o.autoconvert = true) (hv : v ≠ entry)
      (hm : SameMajor v entry) (hi : w.hasIds v name = true) (hc : w.cmp v entry ≠ .eq) :
      Returns w entry name read o entry (some v)
  /-- without conversion the IDS has the version of the data -/
  | asStored {v : Text} (h : Usable w entry read v) (ha : o.autoconvert = false)
      (hk : v ∈ w.known) (hi : w.hasIds v name = true) : Returns w entry name read o v none

/-- `get` without destination: the exception for data that was found but cannot be
returned. -/
inductive Refuses (w : World) (entry name read : Text) (o : GetOpts) : Exc → Prop
  | unknown (h : Unknown w entry read) (hi : o.ignoreUnknown = false) :
      Refuses w entry name read o .unknownVersion
  /-- another major version is never converted -/
  | major {v : Text} (h : Usable w entry read v) (ha : o.autoconvert = true)
      (hm : ¬ SameMajor v entry) : Refuses w entry name read o .runtime
  /-- the IDS does not exist in the version of the data -/
  | missing {v : Text} (h : Usable w entry read v) (ha : o.autoconvert = true) (hv : v ≠ entry)
      (hm : SameMajor v entry) (hi : w.hasIds v name = false)
      (hc : w.cmp v entry ≠ .eq) : Refuses w entry name read o .value
  /-- two different version texts that stand for the same version -/
  | twin {v : Text} (h : Usable w entry read v) (ha : o.autoconvert = true) (hv : v ≠ entry)
      (hm : SameMajor v entry) (hc : w.cmp v entry = .eq) :
      Refuses w entry name read o .type
  /-- the data is of the unreleased version of the entry, and no conversion is wanted -/
  | unreleased (h : Usable w entry read entry) (ha : o.autoconvert = false)
      (hk : entry ∉ w.known) : Refuses w entry name read o .unknownVersion
  | missingStored {v : Text} (h : Usable w entry read v) (ha : o.autoconvert = false)
      (hk : v ∈ w.known) (hi : w.hasIds v name = false) : Refuses w entry name read o .idsName

/-- Automatic validation is switched off. -/
def ValidationOff (disable : Option Text) : Prop :=
  ∃ t, disable = some t ∧ t ≠ [] ∧ t ≠ ['0']

/-- The IDS may be handed to the backend. -/
def Storable (w : World) (disable : Option Text) (d : Doc) (slice : Bool) : Prop :=
  d.isLazy = false ∧ (ValidationOff disable ∨ w.validate d = none) ∧
  (d.mode = 0 ∨ d.mode = 1 ∨ d.mode = 2) ∧
  (slice = true → d.mode ≠ 2 ∧ d.constant = false)

/-- The IDS that is stored: a constant IDS is time independent, and the versions are noted. -/
def stored (w : World) (e : Entry) (d : Doc) : Doc :=
  { d with
    mode := if d.constant then 2 else d.mode
    versionPut := d.versionPut.map fun _ => ⟨e.version, w.alVersion e.log, w.language⟩ }

end Verif.EntrySpec
