import Verif.Model.Hash
/-!
The digest function with a record of its uses: what `inputs` (Model/Hash.lean), the set of byte strings in the hypotheses of C13 about
collisions, has to be.

A computation that digests gives its result and the byte strings it passed to the digest function. `digest` is the only way to get a
digest here, so none can be left out of the record and none can be in it that was not made.
-/
namespace Verif.HashSpec
open Verif.Ids

variable {F : Type} [FloatModel F] (h : Hasher F)

/-- A result and the byte strings digested on the way. -/
abbrev Rec (A : Type) := A × List Bytes

/-- The digest of bytes, recorded. -/
def digest : Option Bytes → Rec (Option Bytes)
  | none => (none, [])
  | some b => (some (h.H b), [b])

/-- Results of a list of computations. -/
def all {A : Type} : List (Rec A) → Rec (List A)
  | [] => ([], [])
  | x :: r => (x.1 :: (all r).1, x.2 ++ (all r).2)

/-- Then: the record of the second computation is put first, in line with `inputs`. -/
def andThen {A B : Type} (x : Rec A) (f : A → Rec B) : Rec B := ((f x.1).1, (f x.1).2 ++ x.2)

/-- The digest of a value, see `valBytes`. -/
def recValue : Val F → Rec (Option Bytes)
  | .strs l => andThen (all (l.map fun s => digest h (some (utf8 s)))) fun ds => digest h (catO (natBytes 8 l.length :: ds))
  | v => digest h (valBytes h v)

mutual
def recNode (name : Name) : Node (Val F) → Rec (Option Bytes)
  | .leaf l v => recValue h (readValue l v)
  | .struct c => andThen (recKids (skips name) c) fun ks => digest h (structBytes ks)
  | .aos _ e => andThen (recElems name e) fun ds => digest h (catO (natBytes 8 e.length :: ds))
def recKids (skip : Bool) : Fields (Val F) → Rec (List (Name × Option Bytes))
  | .nil => ([], [])
  | .absent _ _ r => recKids skip r
  | .present n x r =>
    if x.hasValue && !(skip && n = "version_put".toList) then
      ((n, (recNode n x).1) :: (recKids skip r).1, (recNode n x).2 ++ (recKids skip r).2)
    else recKids skip r
def recElems (name : Name) : Elems (Val F) → Rec (List (Option Bytes))
  | .nil => ([], [])
  | .cons c r =>
    let x := andThen (recKids (skips name) c) fun ks => digest h (structBytes ks)
    (x.1 :: (recElems name r).1, x.2 ++ (recElems name r).2)
end

end Verif.HashSpec
