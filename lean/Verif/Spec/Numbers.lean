import Verif.Model.Numbers
/-!
Specification of builtin functions on data nodes: what Python and numpy do with ordinary values, and for which functions a data node
works like its value.
-/
namespace Verif.NumbersSpec
open Verif.Numbers

variable {V : Type}

/-- The type of the values of a class of nodes. -/
def holds : Cls → Kind
  | .string0 => .str
  | .string1 => .list
  | .complex0 => .complex
  | .float0 => .float
  | .int0 => .int
  | .array => .ndarray

/-- What is used of Python and numpy. -/
structure Python (L : Lib V) : Prop where
  /-- types of results -/
  float : ∀ v w, L.call .float v = .ok w → L.kind w = .float
  int : ∀ v w, L.call .int v = .ok w → L.kind w = .int
  complex : ∀ v w, L.call .complex v = .ok w → L.kind w = .complex
  str : ∀ v w, L.call .str v = .ok w → L.kind w = .str
  notZero : ∀ v w, L.notZero v = .ok w → L.kind w = .bool
  /-- an integer is its own integer part, real part and numerator -/
  ofInt : ∀ v, L.kind v = .int → ∀ f, f = .int ∨ f = .index ∨ f = .trunc ∨ f = .floor ∨ f = .ceil ∨ f = .real ∨ f = .conjugate ∨
    f = .numerator → L.call f v = .ok v
  intParts : ∀ v, L.kind v = .int → L.call .imag v = .ok (L.ofInt 0) ∧ L.call .denominator v = .ok (L.ofInt 1)
  /-- integers become complex numbers as floats -/
  intComplex : ∀ v, L.kind v = .int → L.call .complex v = (L.call .float v).bind (L.call .complex)
  ofFloat : ∀ v, L.kind v = .float → ∀ f, f = .float ∨ f = .real ∨ f = .conjugate → L.call f v = .ok v
  floatTrunc : ∀ v, L.kind v = .float → L.call .trunc v = L.call .int v
  floatIndex : ∀ v, L.kind v = .float → L.call .index v = .error .typeError
  plus : ∀ v, L.kind v = .int ∨ L.kind v = .float → L.pos v = .ok v
  ofComplex : ∀ v, L.kind v = .complex → L.call .complex v = .ok v
  /-- a number is true if it is not zero -/
  truth : ∀ v, L.kind v = .int ∨ L.kind v = .float ∨ L.kind v = .complex → L.call .bool v = L.notZero v
  /-- a text or list is true if it is not empty -/
  filled : ∀ v, L.kind v = .str ∨ L.kind v = .list → L.call .bool v = (L.len v).map fun n => L.ofBool (decide (n > 0))
  ofStr : ∀ v, L.kind v = .str → L.call .str v = .ok v
  /-- not for complex numbers -/
  noComplex : ∀ v, L.kind v = .complex → ∀ f, f = .int ∨ f = .float → L.call f v = .error .typeError
  /-- not for lists -/
  noList : ∀ v, L.kind v = .list → ∀ f, f = .int ∨ f = .float ∨ f = .complex ∨ f = .hash → L.call f v = .error .typeError
  /-- not for complex numbers, texts and lists -/
  noReal : ∀ v, L.kind v = .complex ∨ L.kind v = .str ∨ L.kind v = .list → ∀ f, f = .index ∨ f = .trunc ∨ f = .floor ∨ f = .ceil ∨
    (∃ n, f = .round n) → L.call f v = .error .typeError
  /-- formatting without a specification -/
  format : ∀ v, L.kind v ≠ .list → L.kind v ≠ .ndarray → L.call (.format []) v = L.call .str v
  arrayHash : ∀ v, L.kind v = .ndarray → L.call .hash v = .error .typeError
  arrayType : ∀ v dt, L.kind v = .ndarray → L.call (.asarray (some dt)) v = L.astype v dt

/-- The functions for which a data node works like its value. -/
def Works (c : Cls) (f : Fn) : Prop :=
  match f with
  | .bool => c ≠ .array
  | .int | .float | .complex => c ≠ .string0 ∧ c ≠ .array
  | .index | .trunc | .floor | .ceil | .round _ => c ≠ .array
  | .imag => c ≠ .float0
  | .real | .conjugate | .numerator | .denominator => True
  | .str => c ≠ .string1 ∧ c ≠ .array
  | .format spec => spec = [] ∧ c ≠ .string1 ∧ c ≠ .array
  | .hash => c = .string1 ∨ c = .array
  | .pow3 _ _ => False
  | .asarray dt => match c with
    | .string0 | .string1 => False
    | .array => dt ≠ none
    | _ => True

end Verif.NumbersSpec
