import Verif.Model.VersionMap
/-
Specification of version maps: which new path is which old path, from the annotations alone.
-/
namespace Verif.VMapSpec
open Verif.Ids Verif.VMap

/-- The dictionary has a field with this path. -/
def Has (l : List Field) (p : Path) : Prop := ∃ f ∈ l, f.path = p

/-- The last of these versions is after the given version. -/
def LastAfter (version : Nat) (vs : List Nat) : Prop := ∃ ws w, vs = ws ++ [w] ∧ version < w

/-- The rename annotation of the new field says that it was called `k` in the old version: `k` is the
name that belongs to the first change after the old version. A name of several parts is a path from the structure
around the field. -/
def Formerly (d : Dicts) (f : Field) (k : Path) : Prop :=
  ∃ a vs, f.nbc = some a ∧ a.desc = .renamed ∧ a.versions = some vs ∧ LastAfter d.version vs ∧
    ∃ (i v : Nat), vs[i]? = some v ∧ a.prev[i]? = some k ∧ d.version < v ∧
      ∀ (j w : Nat), j < i → vs[j]? = some w → w ≤ d.version

/-- The new field has an annotation of this kind for a change after the old version. -/
def Annotated (d : Dicts) (f : Field) (c : Desc) : Prop :=
  ∃ a vs, f.nbc = some a ∧ a.desc = c ∧ a.versions = some vs ∧ LastAfter d.version vs

/-- The two types, in either order. -/
def Between (old new : Field) (a b : String) : Prop :=
  (old.dtype = a.toList ∧ new.dtype = b.toList) ∨ (old.dtype = b.toList ∧ new.dtype = a.toList)

/-- The changes of type that are supported: structures and arrays of structures, single values and
lists of values, lists of integers that became identifiers, and integers and floating-point
numbers. -/
inductive Change (old new : Field) : Handler → Prop
  | structAos (h : Between old new "structure" "struct_array") : Change old new .structAos
  | int (h : Between old new "INT_0D" "INT_1D") : Change old new .zeroOne
  | flt (h : Between old new "FLT_0D" "FLT_1D") : Change old new .zeroOne
  | cpx (h : Between old new "CPX_0D" "CPX_1D") : Change old new .zeroOne
  | str (h : Between old new "STR_0D" "STR_1D") : Change old new .zeroOne
  | identifier (h : old.dtype = "INT_1D".toList) (hi : new.docId = true) (hn : new.dtype ≠ "INT_0D".toList) :
      Change old new .identifier
  | fltInt (h : Between old new "FLT_0D" "INT_0D") : Change old new .fltInt

/-- The two fields have the same type, or the type change is supported. -/
def Fits (d : Dicts) (old new : Field) : Prop :=
  d.same new.dtype old.dtype = true ∨ ∃ h, Change old new h

/-- `Was d q p`: the new path `q` had the old path `p`, if every name on the way that has an annotation
with an existing old field of fitting type had its previous name, and all other names are
unchanged. -/
inductive Was (d : Dicts) : Path → Path → Prop
  | root : Was d [] []
  | renamed {q p k : Path} {n : Name} {f o : Field} (h : Was d q p) (hf : f ∈ d.new)
      (hp : f.path = q ++ [n]) (hk : Formerly d f k) (ho : o ∈ d.old) (hop : o.path = p ++ k)
      (ht : Fits d o f) : Was d (q ++ [n]) (p ++ k)
  | same {q p : Path} {n : Name} (h : Was d q p)
      (hn : ∀ f ∈ d.new, f.path = q ++ [n] → ∀ k, Formerly d f k → ∀ o ∈ d.old, o.path = p ++ k →
        ¬ Fits d o f) : Was d (q ++ [n]) (p ++ [n])

/-- The annotation of the new field `f` names the old field `o`. -/
def Names (d : Dicts) (f o : Field) : Prop :=
  f ∈ d.new ∧ o ∈ d.old ∧ ∃ q n k p, f.path = q ++ [n] ∧ Was d q p ∧ Formerly d f k ∧ o.path = p ++ k

/-- Fields of this type have children. -/
def Container (t : List Char) : Prop := t = "structure".toList ∨ t = "struct_array".toList

/-- The new field `f` is a structure that was `o` in the old version. -/
def Moved (d : Dicts) (f o : Field) : Prop := Names d f o ∧ Fits d o f ∧ Container o.dtype

/-- The new field `f` was renamed from `o`: its annotation names it, or it is in the same place of a renamed
structure. -/
def Renamed (d : Dicts) (f o : Field) : Prop :=
  Names d f o ∨ ∃ f' o' r, Moved d f' o' ∧ f.path = f'.path ++ r ∧ o.path = o'.path ++ r

/-- The two fields have the same path, and neither was renamed. -/
def Unrenamed (d : Dicts) (f o : Field) : Prop :=
  f.path = o.path ∧ (∀ o' ∈ d.old, ¬ Renamed d f o') ∧ ∀ f' ∈ d.new, ¬ Renamed d f' o

/-- The dictionaries identify the new field `f` with the old field `o`: its annotation names it, it
is in the same place of a renamed structure, or both have the same path and neither was renamed. -/
def Claim (d : Dicts) (f o : Field) : Prop := f ∈ d.new ∧ o ∈ d.old ∧ (Renamed d f o ∨ Unrenamed d f o)

/-- No new field is identified with two old fields, or two new fields with one old field. -/
def OneToOne (d : Dicts) : Prop :=
  ∀ f o f' o', Claim d f o → Claim d f' o' → (f.path = f'.path ↔ o.path = o'.path)

/-- Former paths and identified fields agree: fields with the same path that were not renamed are in the same place, and
the old field at the former path of a new field is identified with this new field. (Otherwise the path of one
field was given to another one, although it is not announced by an annotation.) -/
structure Agree (d : Dicts) : Prop where
  same : ∀ f ∈ d.new, ∀ o ∈ d.old, Unrenamed d f o → Was d f.path o.path
  claim : ∀ f ∈ d.new, ∀ o ∈ d.old, Was d f.path o.path → Claim d f o

/-- Previous names are not empty. If a previous name leads into structures, these structures were not renamed
afterwards, relative to the structure around the field. -/
def Inner (d : Dicts) : Prop :=
  ∀ f ∈ d.new, ∀ k, Formerly d f k → k ≠ [] ∧ ∀ q n p a b, f.path = q ++ [n] → Was d q p → k = a ++ b → a ≠ [] → b ≠ [] →
    ∀ g ∈ d.new, g.path = q ++ a → Container g.dtype → Was d (q ++ a) (p ++ a)

/-- Previous names have one part only, and no field has the path of a field that was renamed. -/
structure Level (d : Dicts) : Prop where
  one : ∀ f ∈ d.new, ∀ k, Formerly d f k → ∃ n, k = [n]
  reuse : ∀ f ∈ d.new, ∀ o ∈ d.old, f.path = o.path → Claim d f o

/-- Names are not empty and have no `/`. Paths are not empty, occur once, and come after the path of
their parent. -/
structure WellFormed (l : List Field) : Prop where
  names : ∀ f ∈ l, f.path ≠ [] ∧ ∀ n ∈ f.path, n ≠ [] ∧ '/' ∉ n
  once : (l.map (·.path)).Nodup
  order : ∀ l1 f l2, l = l1 ++ f :: l2 → ∀ p n, f.path = p ++ [n] → p = [] ∨ Has l1 p
  struct : ∀ f ∈ l, ∀ p n, f.path = p ++ [n] → ∀ g ∈ l, g.path = p → Container g.dtype

/-- Names of siblings of a renamed structure do not start with its name in both versions. -/
def NoPrefix (d : Dicts) : Prop :=
  ∀ f o, Moved d f o → ∀ o' ∈ d.old, ∀ c s, c ≠ '/' → text o'.path = text o.path ++ c :: s →
    ∀ f' ∈ d.new, text f'.path ≠ text f.path ++ c :: s

end Verif.VMapSpec
