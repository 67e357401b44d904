import Verif.Model.Primitive
/-
Model of `calc_hash` (`imas/util.py` lines 345-407) and the `_xxhash` methods of the node classes,
for trees that are not lazy-loaded.
-/
namespace Verif.Ids

abbrev Bytes := List UInt8

/-- The digest function (`xxhash.xxh3_64`, 8 bytes) and the IEEE 754 representation of floating
point numbers (`struct.pack("<d", x)`), both abstract. Feeding a digest piecewise with `update`
is the digest of the concatenation. -/
structure Hasher (F : Type) where
  H : Bytes → Bytes
  H_length : ∀ b, (H b).length = 8
  f64 : F → Bytes
  f64_length : ∀ x, (f64 x).length = 8
  f64_inj : ∀ x y, f64 x = f64 y → x = y

/-- `str.encode("UTF-8")`. Python strings with lone surrogates (which raise an error) are not
modelled. -/
def utf8 (s : List Char) : Bytes := s.flatMap String.utf8EncodeChar

/-- Little-endian digits. -/
def le : Nat → Nat → Bytes
  | 0, _ => []
  | k + 1, n => UInt8.ofNat (n % 256) :: le k (n / 256)

/-- `n.to_bytes(k, "little")`, `none` standing for `OverflowError`. -/
def natBytes (k n : Nat) : Option Bytes := if n < 256 ^ k then some (le k n) else none

/-- `struct.pack("<q", n)` for a non-negative number. -/
def q64 (n : Nat) : Option Bytes := if n < 2 ^ 63 then some (le 8 n) else none

/-- `i.to_bytes(4, "little", signed=True)`, `none` standing for `OverflowError`; also the bytes
of an `int32` array item. -/
def i32 (i : Int) : Option Bytes :=
  if -2 ^ 31 ≤ i ∧ i < 2 ^ 31 then some (le 4 (i % 2 ^ 32).toNat) else none

/-- Concatenation of pieces any of which may fail. -/
def catO : List (Option Bytes) → Option Bytes
  | [] => some []
  | none :: _ => none
  | some b :: r => (catO r).map (b ++ ·)

variable {F : Type} [FloatModel F] (h : Hasher F)

/-- One item in `arr.tobytes()`. -/
def scalarBytes : Scalar F → Option Bytes
  | .int i => i32 i
  | .flt x => some (h.f64 x)
  | .cpx x y => some (h.f64 x ++ h.f64 y)

/-- The bytes digested for a value (`ids_primitive.py` lines 285-286, 324-328, 373-374, 401-402,
426-427, 492-499). Items of arrays are modelled in Fortran order, as they are written. -/
def valBytes : Val F → Option Bytes
  | .int i => i32 i
  | .flt x => some (h.f64 x)
  | .cpx x y => some (h.f64 x ++ h.f64 y)
  | .str s => some (utf8 s)
  | .strs l => catO (natBytes 8 l.length :: l.map fun s => some (h.H (utf8 s)))
  | .arr _ s d => catO (natBytes 1 s.length :: (s.map q64 ++ d.map (scalarBytes h)))

/-- The order of Python strings, by code points. -/
def leName : Name → Name → Bool
  | [], _ => true
  | _ :: _, [] => false
  | a :: s, b :: t => a.toNat < b.toNat || (a = b && leName s t)

/-- The bytes digested for a structure with the given filled children and their digests
(`ids_structure.py` lines 315-332). Here the children without value are left out before sorting
instead of after it. -/
def structBytes (kids : List (Name × Option Bytes)) : Option Bytes :=
  catO ((kids.mergeSort fun a b => leName a.1 b.1).map fun p => p.2.map (utf8 p.1 ++ ·))

/-- `self.metadata.name == "ids_properties"` (line 320). -/
def skips (name : Name) : Bool := name = "ids_properties".toList

mutual
/-- `node._xxhash()` where the node's metadata has the given name. -/
def hashNode (name : Name) : Node (Val F) → Option Bytes
  | .leaf l v => (valBytes h (readValue l v)).map h.H
  | .struct c => (structBytes (hashKids (skips name) c)).map h.H
  | .aos _ e => (catO (natBytes 8 e.length :: hashElems name e)).map h.H
/-- Names and digests of the children that have a value, without `version_put` if `skip`. -/
def hashKids (skip : Bool) : Fields (Val F) → List (Name × Option Bytes)
  | .nil => []
  | .absent _ _ r => hashKids skip r
  | .present n x r =>
    if x.hasValue && !(skip && n = "version_put".toList) then
      (n, hashNode n x) :: hashKids skip r
    else hashKids skip r
/-- Digests of the elements of an array of structures (`ids_struct_array.py` lines 229-233). The
metadata of elements is that of the array. -/
def hashElems (name : Name) : Elems (Val F) → List (Option Bytes)
  | .nil => []
  | .cons c r => (structBytes (hashKids (skips name) c)).map h.H :: hashElems name r
end

/-- `calc_hash` of an IDS of the given name. -/
def calcHash (name : Name) (c : Fields (Val F)) : Option Bytes := hashNode h name (.struct c)

/-! ### The digested strings -/

/-- Byte strings digested for a value, including those of the strings in a list. -/
def valInputs (v : Val F) : List Bytes :=
  (valBytes h v).toList ++ (match v with
    | .strs l => l.map utf8
    | _ => [])

mutual
/-- All byte strings passed to the digest function by `_xxhash`. -/
def inputs (name : Name) : Node (Val F) → List Bytes
  | .leaf l v => valInputs h (readValue l v)
  | .struct c => (structBytes (hashKids h (skips name) c)).toList ++ inputsF (skips name) c
  | .aos _ e => (catO (natBytes 8 e.length :: hashElems h name e)).toList ++ inputsE name e
def inputsF (skip : Bool) : Fields (Val F) → List Bytes
  | .nil => []
  | .absent _ _ r => inputsF skip r
  | .present n x r =>
    if x.hasValue && !(skip && n = "version_put".toList) then inputs n x ++ inputsF skip r
    else inputsF skip r
def inputsE (name : Name) : Elems (Val F) → List Bytes
  | .nil => []
  | .cons c r => (structBytes (hashKids h (skips name) c)).toList ++ inputsF (skips name) c ++ inputsE name r
end

end Verif.Ids
