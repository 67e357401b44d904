import Verif.Spec.VersionNbc
/-
Where nodes of an IDS are found in another version, from the dictionaries alone.
-/
namespace Verif.VMapSpec
open Verif.Ids Verif.VMap Verif.ConvertSpec

/-- The positions `A` and `B` (below the paths `p` and `q`) have the same identified fields at all
levels, and the indices of the elements are related by `E`. Structures `L` and `L'` that only one of the
two versions has are left out. -/
inductive Carried (C : Field → Field → Prop) (L L' : Path → Prop) (E : Field → Field → Option Nat → Option Nat → Prop) :
    Path → Path → Addr → Addr → Prop
  | here {p q : Path} {n k : Name} {f o : Field} (h : C f o) (hf : f.path = p ++ [n]) (ho : o.path = q ++ [k]) :
      Carried C L L' E p q [(n, none)] [(k, none)]
  | step {p q : Path} {n k : Name} {i j : Option Nat} {A B : Addr} {f o : Field} (h : C f o) (hf : f.path = p ++ [n])
      (ho : o.path = q ++ [k]) (he : E f o i j) (r : Carried C L L' E (p ++ [n]) (q ++ [k]) A B) :
      Carried C L L' E p q ((n, i) :: A) ((k, j) :: B)
  | outOf {p q : Path} {n : Name} {A B : Addr} (h : L (p ++ [n])) (r : Carried C L L' E (p ++ [n]) q A B) :
      Carried C L L' E p q ((n, none) :: A) B
  | into {p q : Path} {k : Name} {A B : Addr} (h : L' (q ++ [k])) (r : Carried C L L' E p (q ++ [k]) A B) :
      Carried C L L' E p q A ((k, none) :: B)

/-- The old field `h` is not in the new version, but fields in it are: they were moved out of it. -/
def Left (d : Dicts) (h : Field) : Prop :=
  h ∈ d.old ∧ (∀ f, ¬ Claim d f h) ∧ ∃ f o, Claim d f o ∧ Above o.path h

/-- Fields with the same path are identified. Fields that were moved to another structure were moved out of structures that the new
version does not have any more. These structures are no arrays, and the new version has no other field of that name in the
same place. -/
structure Nested (d : Dicts) : Prop where
  reuse : ∀ f ∈ d.new, ∀ o ∈ d.old, f.path = o.path → Claim d f o
  inside : ∀ f o g h, Claim d f o → Claim d g h → Above o.path h → Above f.path g
  left : ∀ h, Left d h → h.dtype = "structure".toList
  fresh : ∀ h p r n q, Left d h → h.path = p ++ r ++ [n] →
    (∀ r1 r2, r = r1 ++ r2 → r1 ≠ [] → ∃ h', Left d h' ∧ h'.path = p ++ r1) →
    (p = [] ∧ q = [] ∨ ∃ f o, Claim d f o ∧ o.path = p ∧ f.path = q) → ¬ Has d.new (q ++ [n])

/-- The element of the old field `o` with index `i` (`none` for structures) is the element of the new
field `f` with index `j`: the same if nothing changed. A structure that became an array is its
first element, and vice versa. -/
def Enters (d : Dicts) (o f : Field) (i j : Option Nat) : Prop :=
  (¬ Changed d f o ∧ i = j) ∨
  (o.dtype = "structure".toList ∧ f.dtype = "struct_array".toList ∧ i = none ∧ j = some 0) ∨
  (o.dtype = "struct_array".toList ∧ f.dtype = "structure".toList ∧ i = some 0 ∧ j = none)

/-- The node at `A` in the old version is the node at `B` in the new version: apart from structures that only the old version
has, all fields on the way are identified. -/
def Place (d : Dicts) (A B : Addr) : Prop :=
  Carried (fun o f => Claim d f o) (fun p => ∃ h, Left d h ∧ h.path = p) (fun _ => False) (Enters d) [] [] A B

/-- Changes of the type of fields in renamed structures are announced by an annotation of the field itself. (Without
annotation, the map does not record them.) Fields whose type changed have no annotation about closed outlines. -/
structure Announced (d : Dicts) : Prop where
  renamed : ∀ f o, Claim d f o → Renamed d f o → d.same f.dtype o.dtype = false → Names d f o
  points : ∀ f o, Claim d f o → d.same f.dtype o.dtype = false →
    ¬ Annotated d f .repeatConditional ∧ ¬ Annotated d f .centreline

/-- Nothing changed at the end of the position `A` of the old version. -/
def Kept (d : Dicts) (A : Addr) : Prop := ∀ f o, Claim d f o → o.path = Verif.Convert.names A → ¬ Changed d f o

/-- Arrays of the IDS `c` of the old version that became structures have one element only, as far as they are above `A`. -/
def SingleOld {V : Type} (d : Dicts) (c : Fields V) (A : Addr) : Prop :=
  ∀ a n i r m e, A = a ++ (n, some i) :: r → r ≠ [] → (Node.struct c).at (a ++ [(n, none)]) = some (.aos m e) →
    (∃ f o, Claim d f o ∧ o.path = Verif.Convert.names a ++ [n] ∧ f.dtype = "structure".toList) → e.length = 1

/-- The same for an IDS of the new version. -/
def SingleNew {V : Type} (d : Dicts) (c : Fields V) (A : Addr) : Prop :=
  ∀ a n i r m e, A = a ++ (n, some i) :: r → r ≠ [] → (Node.struct c).at (a ++ [(n, none)]) = some (.aos m e) →
    (∃ f o, Claim d f o ∧ f.path = Verif.Convert.names a ++ [n] ∧ o.dtype = "structure".toList) → e.length = 1

/-- Data of the old field `o` becomes data of the new field `f` by this conversion function: their types differ, or
outlines are stored in another way. -/
def NeedsNew (d : Dicts) (f o : Field) (h : Handler) : Prop :=
  (d.same f.dtype o.dtype = false ∧ Change o f h) ∨
  (Annotated d f .repeatConditional ∧ h = .repeatConditional) ∨
  (Annotated d f .centreline ∧ h = .removeCentreline)

/-- The same for data of the new field. -/
def NeedsOld (d : Dicts) (f o : Field) (h : Handler) : Prop :=
  (d.same f.dtype o.dtype = false ∧ Change o f h) ∨
  (Annotated d f .repeatConditional ∧ h = .removeConditional) ∨
  (Annotated d f .centreline ∧ h = .repeatCentreline)

end Verif.VMapSpec
