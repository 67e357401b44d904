import Verif.Model.Resample
/-
What resampling should do with the items of an array and with the nodes of an IDS.
-/
namespace Verif.ResampleSpec
open Verif.Ids Verif.Resample

variable {F : Type}

/-- The index is in the range of each dimension. -/
def Inside : List Nat → List Nat → Prop
  | [], [] => True
  | i :: is, n :: s => i < n ∧ Inside is s
  | _, _ => False

/-- Where the item with an index is in the list of items (first index fastest). -/
def offset : List Nat → List Nat → Nat
  | n :: s, i :: is => i + n * offset s is
  | _, _ => 0

/-- The item with an index. -/
def item (shape : List Nat) (data : List (Scalar F)) (idx : List Nat) : Option (Scalar F) :=
  data[offset shape idx]?

/-- The array `d'` is interpolated from `d` along dimension `k`, from the times `old` to the times
`new`: its size in this dimension is the number of new times, and the item at an index is the value
that one line of `d` has at the new time with that index. The line is that of the items of `d` with the
same index in all other dimensions. -/
structure Along (P : Scipy F) (k : Nat) (old new : List F) (t : BaseType) (s : List Nat)
    (d : List (Scalar F)) (s' : List Nat) (d' : List (Scalar F)) : Prop where
  size : s[k]? = some old.length
  shape : s' = s.set k new.length
  count : d'.length = arrSize s'
  items : ∀ idx, Inside idx s' → ∃ j x ys y, idx[k]? = some j ∧ new[j]? = some x ∧
    ys.length = old.length ∧ (∀ i, i < old.length → item s d (idx.set k i) = ys[i]?) ∧
    P.point t old ys x = some y ∧ item s' d' idx = some y

/-- Dimension `k` is the first one whose coordinate is time. -/
def TimeDim (d : Dict) (q : List Name) (k : Nat) : Prop :=
  (∃ c, (d.node q).coords[k]? = some c ∧ c.isTime = true) ∧
  ∀ j < k, ∀ c, (d.node q).coords[j]? = some c → c.isTime = false

/-- The value `w` is the resampled value `v` of a node with metadata path `q`. -/
def Resampled (P : Scipy F) (d : Dict) (old new : List F) (q : List Name) (v w : Val F) : Prop :=
  ∃ k t s items s' items', v = .arr t s items ∧ w = .arr t s' items' ∧ TimeDim d q k ∧
    Along P k old new t s items s' items'

/-- The samples themselves are met: interpolation at a sample time gives the sample (if the times are
distinct). -/
def Exact (P : Scipy F) : Prop :=
  ∀ (t : BaseType) (xs : List F) (ys : List (Scalar F)) (i : Nat) (x : F) (y s : Scalar F),
    xs.Nodup → xs[i]? = some x → ys[i]? = some y → (∀ z ∈ ys, z.type = t) →
    P.point t xs ys x = some s → s = y

end Verif.ResampleSpec
