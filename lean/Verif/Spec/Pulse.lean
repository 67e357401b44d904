import Verif.Model.Pulse
import Verif.Spec.Convert
/-
Specification of common time bases and of resampling.
-/
namespace Verif.PulseSpec
open Verif.Ids Verif.Convert Verif.TreeSpec Verif.DiffSpec Verif.ConvertSpec Verif.Pulse

variable {V Y : Type}

/-- Strictly increasing. -/
def Increasing (l : List Rat) : Prop := l.Pairwise (· < ·)

/-- Nowhere decreasing. -/
def Sorted (l : List Rat) : Prop := l.Pairwise (· ≤ ·)

/-- `Sample line k ts ys t y`: from samples `ys` at the times `ts`, the value at time `t` is `y`. It
is the sample at that time (the last one, if there are several), the first sample before all times,
the last sample after all times, and in between it is computed from the two neighbours (linear) or
the sample before (previous). -/
inductive Sample (line : Rat → Y → Rat → Y → Rat → Y) (k : Kind) (ts : List Rat) (ys : List Y)
    (t : Rat) (y : Y) : Prop
  | kept (j : Nat) (h : ts[j]? = some t) (hlast : ∀ (i : Nat), j < i → ts[i]? ≠ some t)
      (hy : ys[j]? = some y)
  | before (h : ∀ u ∈ ts, t < u) (hy : ys.head? = some y)
  | after (h : ∀ u ∈ ts, u < t) (hy : ys.getLast? = some y)
  | line (hk : k = .linear) (j : Nat) (t0 t1 : Rat) (y0 y1 : Y) (h0 : ts[j]? = some t0)
      (h1 : ts[j + 1]? = some t1) (hy0 : ys[j]? = some y0) (hy1 : ys[j + 1]? = some y1)
      (hlt : t0 < t) (hgt : t < t1) (hy : y = line t0 y0 t1 y1 t)
  | hold (hk : k = .previous) (j : Nat) (t0 t1 : Rat) (h0 : ts[j]? = some t0)
      (h1 : ts[j + 1]? = some t1) (hlt : t0 < t) (hgt : t < t1) (hy : ys[j]? = some y)

/-- The straight line through two points, in exact arithmetic. -/
def straight (x0 y0 x1 y1 t : Rat) : Rat := (y1 - y0) / (x1 - x0) * (t - x0) + y0

variable [Series V Y]

/-- `t` is one of the times in the data nodes named `time` below the structure `c`. -/
def HasTime (c : Fields V) (t : Rat) : Prop :=
  ∃ a n v ts, ValueAt (.struct c) (a ++ [(n, none)]) v ∧ n = "time".toList ∧
    Series.times v = some ts ∧ t ∈ ts

/-- The common time base: all those times in increasing order. -/
def Base (c : Fields V) (base : List Rat) : Prop := Increasing base ∧ ∀ t, t ∈ base ↔ HasTime c t

/-- Items of a pulse schedule whose parts get a common time base. -/
def Regular (n : Name) : Prop :=
  n ≠ "ids_properties".toList ∧ n ≠ "code".toList ∧ n ≠ "time".toList ∧ n ≠ "event".toList

/-- The common time bases of other items than `n` are stored elsewhere than at `B`. -/
def BasesElsewhere (cx : Cfg V) (tm : Meta) (source : Fields V) (n : Name) (B : Addr) : Prop :=
  ∀ n' c' b', n' ≠ n → Regular n' → source.get? n' = some (.struct c') →
    step cx tm [n'] n' [] = some b' →
    ¬ Contains B (b' ++ [("time".toList, none)]) ∧ ¬ Contains (b' ++ [("time".toList, none)]) B

/-- The first dimension of nodes with this path is time. -/
def TimeDependent (d : Dict) (q : List Name) : Prop :=
  ∃ c r, (d.node q).coords = c :: r ∧ c.isTime = true

/-- What is assumed about the version map: its functions keep the types of nodes, the items of the
toplevel have no type changes and no post-processing, and time dependent nodes have no
post-processing. -/
structure PulseMap (cx : Cfg V) (d : Dict) : Prop where
  proper : Proper cx
  root : cx.change [] = none
  items : ∀ n, cx.change [n] = none ∧ cx.post [n] = none
  post : ∀ q, TimeDependent d q → cx.post q = none

/-- Items with data that depend on time have times. -/
def HasBase (d : Dict) (source : Fields V) : Prop :=
  ∀ n c A l v, Regular n → source.get? n = some (.struct c) →
    (Node.struct c).at A = some (.leaf l (some v)) → Value.isEmpty v = false → l.ndim = 1 →
    TimeDependent d (n :: names A) → ∃ t, HasTime c t

/-- The values `ws` on the time base `base` are made from the samples `ys` at the times `ts`. -/
def Resampled (line : Rat → Y → Rat → Y → Rat → Y) (k : Kind) (ts : List Rat) (ys : List Y)
    (base : List Rat) (ws : List Y) : Prop :=
  ws.length = base.length ∧
  ∀ (j : Nat) t y, base[j]? = some t → ws[j]? = some y → Sample line k ts ys t y

/-- Integers keep the value of the sample before, other data are interpolated. -/
def kindOf (l : LeafMeta) : Kind := if l.type = .int then .previous else .linear

/-- Only the common time base of the item `n` goes to `B`. -/
def Reserved (cx : Cfg V) (tm : Meta) (source : Fields V) (n : Name) (B : Addr) : Prop :=
  (∀ A' B' y, Sent cx tm [] [] source A' B' → (Node.struct source).at A' = some y →
    Acts cx (names A') y → ¬ Contains B B' ∧ ¬ Contains B' B) ∧
  BasesElsewhere cx tm source n B

end Verif.PulseSpec
