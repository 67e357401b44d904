import Verif.Model.Tree
/-
Arrays as used by the netCDF backend: numpy arrays and the data of netCDF variables. An array has a shape and an element at
each index inside the shape. The Data Dictionary types of elements are not distinguished: `S` are all scalars.
-/
namespace Verif.Nc
open Verif.Ids

/-- The index is an index of an element of an array with this shape. -/
def inside : List Nat → List Nat → Bool
  | [], [] => true
  | i :: is, n :: ns => decide (i < n) && inside is ns
  | _, _ => false

/-- The index is in range, for the first dimensions of the shape. -/
def fits : List Nat → List Nat → Bool
  | [], _ => true
  | i :: is, n :: ns => decide (i < n) && fits is ns
  | _ :: _, [] => false

theorem inside_append (i j : List Nat) (s : List Nat) :
    inside (i ++ j) s = (fits i s && inside j (s.drop i.length)) := by
  induction i generalizing s with
  | nil => simp [fits]
  | cons a i ih =>
    cases s with
    | nil => simp [inside, fits]
    | cons n s => simp [inside, fits, ih, Bool.and_assoc]

structure Arr (S : Type) where
  shape : List Nat
  get : List Nat → Option S
  ok : ∀ i, (get i).isSome = inside i shape

namespace Arr
variable {S : Type}

theorem ext' {a b : Arr S} (h : a.shape = b.shape) (h' : ∀ i, a.get i = b.get i) : a = b := by
  obtain ⟨s, f, _⟩ := a
  obtain ⟨s', f', _⟩ := b
  have : f = f' := funext h'
  cases h
  cases this
  rfl

/-- A 0D value. -/
def scalar (x : S) : Arr S where
  shape := []
  get
    | [] => some x
    | _ => none
  ok i := by cases i <;> rfl

/-- A 1D array. -/
def vec (l : List S) : Arr S where
  shape := [l.length]
  get
    | [i] => l[i]?
    | _ => none
  ok i := by
    match i with
    | [] => rfl
    | [i] => by_cases h : i < l.length <;> simp [inside, h]
    | _ :: _ :: _ => simp [inside]

/-- `numpy.full(shape, x)` -/
def full (shape : List Nat) (x : S) : Arr S where
  shape := shape
  get i := if inside i shape then some x else none
  ok i := by by_cases h : inside i shape = true <;> simp [h]

/-- `a[index]`; `none` is an `IndexError`. (Negative indices are not used.) -/
def sub (a : Arr S) (index : List Nat) : Option (Arr S) :=
  if h : fits index a.shape = true then
    some {
      shape := a.shape.drop index.length
      get := fun j => a.get (index ++ j)
      ok := fun j => by rw [a.ok, inside_append, h, Bool.true_and] }
  else none

/-- The shape of a part `[:s1, :s2, ...]` of an array. -/
def clip : List Nat → List Nat → List Nat
  | s :: ss, n :: ns => min s n :: clip ss ns
  | _, ns => ns

theorem clip_inside (s n : List Nat) (i : List Nat) (h : inside i (clip s n) = true) : inside i n = true := by
  induction n generalizing s i with
  | nil => cases s <;> exact h
  | cons k n ih =>
    cases s with
    | nil => exact h
    | cons a s =>
      cases i with
      | nil => exact h
      | cons j i =>
        simp only [clip, inside, Bool.and_eq_true, decide_eq_true_eq] at h ⊢
        exact ⟨by omega, ih _ _ h.2⟩

/-- `a[index + tuple(map(slice, shape))]` -/
def slice (a : Arr S) (index shape : List Nat) : Option (Arr S) :=
  if h : fits index a.shape = true ∧ shape.length ≤ (a.shape.drop index.length).length then
    some {
      shape := clip shape (a.shape.drop index.length)
      get := fun j => if inside j (clip shape (a.shape.drop index.length)) then a.get (index ++ j) else none
      ok := fun j => by
        by_cases hj : inside j (clip shape (a.shape.drop index.length)) = true
        · rw [if_pos hj, a.ok, inside_append, h.1, hj, clip_inside _ _ _ hj, Bool.and_self]
        · rw [if_neg hj]; simp [hj] }
  else none

/-- All sizes are at most those of the other shape. -/
def leq : List Nat → List Nat → Bool
  | [], [] => true
  | m :: ms, n :: ns => decide (m ≤ n) && leq ms ns
  | _, _ => false

/-- The array after `a[index] = b` or `a[index + tuple(map(slice, b.shape))] = b`. -/
def write (a : Arr S) (index : List Nat) (b : Arr S) : Arr S where
  shape := a.shape
  get j := (a.get j).map fun y => if index = j.take index.length then (b.get (j.drop index.length)).getD y else y
  ok j := by rw [Option.isSome_map]; exact a.ok j

/-- `a[index] = b`; `none` is an exception. (Arrays with other shapes, which numpy may repeat, are not modelled: an
exception.) -/
def setAt (a : Arr S) (index : List Nat) (b : Arr S) : Option (Arr S) :=
  if fits index a.shape && b.shape == a.shape.drop index.length then some (a.write index b) else none

/-- `a[index + tuple(map(slice, b.shape))] = b`; `none` is an exception. -/
def setSlice (a : Arr S) (index : List Nat) (b : Arr S) : Option (Arr S) :=
  if fits index a.shape && leq b.shape (a.shape.drop index.length) then some (a.write index b) else none

/-- All indices of elements. -/
def indices : List Nat → List (List Nat)
  | [] => [[]]
  | n :: ns => (List.range n).flatMap fun i => (indices ns).map (i :: ·)

/-- Do all elements satisfy a condition on index and value? -/
def all (a : Arr S) (p : List Nat → S → Bool) : Bool :=
  (indices a.shape).all fun i =>
    match a.get i with
    | none => true
    | some x => p i x

end Arr

/-- `size == 0` -/
instance {S : Type} : Value (Arr S) where
  isEmpty v := v.shape.contains 0
  emptyArray l := {
    shape := List.replicate (l.ndim - 1 + 1) 0
    get := fun _ => none
    ok := fun i => by
      rw [List.replicate_succ]
      cases i <;> simp [inside] }
  isEmpty_emptyArray l := by simp [List.replicate_succ]

end Verif.Nc
