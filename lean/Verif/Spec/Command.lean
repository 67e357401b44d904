import Verif.Model.Command
/-
What the command `imas convert` should do.
-/
namespace Verif.CommandSpec
open Verif.Command

variable {R D : Type}

/-- The dictionary that the user asked for: a released version, or else a file. -/
inductive Asks (W : World R D) (a : Args) : Target → Prop where
  | version : a.ddVersion ∈ W.versions → Asks W a (.version a.ddVersion)
  | file : a.ddVersion ∉ W.versions → W.isPath a.ddVersion = true → Asks W a (.file a.ddVersion)

/-- The user asked for the IDS `n`: for all that the dictionary of the output defines, or for this one. -/
def AsksIds (W : World R D) (a : Args) (t : Target) (n : Text) : Prop :=
  (a.ids = "*".toList ∧ n ∈ W.names t) ∨ (a.ids ≠ "*".toList ∧ n = a.ids)

/-- The user asked for the occurrence: for all that are filled, or for this one. -/
def AsksOcc (W : World R D) (a : Args) (n : Text) (o : Int) : Prop :=
  (a.occurrence = -1 ∧ (W.stored n o).isSome = true) ∨ (a.occurrence ≠ -1 ∧ o = a.occurrence)

def Selected (W : World R D) (a : Args) (t : Target) (n : Text) (o : Int) : Prop := AsksIds W a t n ∧ AsksOcc W a n o

/-- The version an occurrence is stored with. The default version if none is recorded. -/
def storedVersion (W : World R D) (v : Text) : Text := if v = [] then W.inVersion else v

/-- An occurrence of the input holds the IDS `d`, of version `v`: the version must be known. -/
def Holds (W : World R D) (n : Text) (o : Int) (v : Text) (d : D) : Prop :=
  ∃ v' r, W.stored n o = some (v', r) ∧ v = storedVersion W v' ∧ (v = W.inVersion ∨ v ∈ W.versions) ∧ W.knows v n = true ∧
    W.load v n r = .ok d

/-- `d'` is what the output should get for an occurrence: the IDS itself if it has the right version, and else the converted one,
with its origin if the user did not object. -/
def Image (W : World R D) (a : Args) (t : Target) (n : Text) (o : Int) (d' : D) : Prop :=
  ∃ v d, Holds W n o v d ∧
    ((v = W.outVersion t ∧ d' = d) ∨
     (v ≠ W.outVersion t ∧ n ∈ W.names t ∧ ∃ c, W.convert v t n d = .ok c ∧
       ((a.noProvenance = true ∨ a.uriIn = [] → d' = c) ∧
        (a.noProvenance = false → a.uriIn ≠ [] → d' = W.origin v a.uriIn c))))

/-- `list_all_occurrences` tells which occurrences are filled, each once. -/
def ListsTruth (W : World R D) : Prop := ∀ n l, W.list n = .ok l → l.Nodup ∧ ∀ o, o ∈ l ↔ (W.stored n o).isSome = true

/-- The names of the IDSs of a dictionary are different. -/
def NamesOnce (W : World R D) : Prop := ∀ t, (W.names t).Nodup

end Verif.CommandSpec
