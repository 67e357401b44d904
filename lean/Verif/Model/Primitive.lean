import Verif.Model.Tree
/-
Model of data nodes: `imas/ids_primitive.py` (assignment, reading, shape and size) and
`IDSDataType.parse` (`imas/ids_data_type.py`).
-/
namespace Verif.Ids

/-- Floating point numbers: `F` is the type of bit patterns, `eq` is `==` of Python (false for
NaN), and `empty` is `EMPTY_FLOAT` (`-9e40`, `imas/ids_defs.py`). As `EMPTY_FLOAT` is neither
NaN nor zero, `==` with it means identity. `neg` is used for `EMPTY_COMPLEX` and by sign
conversions. -/
class FloatModel (F : Type) where
  eq : F → F → Bool
  empty : F
  neg : F → F
  eq_empty : ∀ x, eq x empty = true → x = empty
  eq_neg_empty : ∀ x, eq x (neg empty) = true → x = neg empty
  empty_eq : eq empty empty = true
  neg_empty_eq : eq (neg empty) (neg empty) = true
  eq_comm : ∀ x y, eq x y = eq y x

/-- One item of a numpy array. -/
inductive Scalar (F : Type) where
  | int (i : Int)
  | flt (x : F)
  | cpx (re im : F)
  deriving DecidableEq

def Scalar.type {F : Type} : Scalar F → BaseType
  | .int _ => .int
  | .flt _ => .flt
  | .cpx _ _ => .cpx

/-- Values stored in data nodes: Python `int`, `float`, `complex`, `str`, `list` of `str`, and
numpy arrays with `dtype`, `shape` and items in a fixed (Fortran) order. -/
inductive Val (F : Type) where
  | int (i : Int)
  | flt (x : F)
  | cpx (re im : F)
  | str (s : List Char)
  | strs (l : List (List Char))
  | arr (dtype : BaseType) (shape : List Nat) (data : List (Scalar F))
  deriving DecidableEq

/-- `numpy.ndarray.size`: product of the shape. -/
def arrSize (shape : List Nat) : Nat := shape.foldr (· * ·) 1

/-- The Python type and rank of the value are those of the data node. -/
def Val.fits {F : Type} (l : LeafMeta) : Val F → Bool
  | .int _ => l.type = .int && l.ndim = 0
  | .flt _ => l.type = .flt && l.ndim = 0
  | .cpx _ _ => l.type = .cpx && l.ndim = 0
  | .str _ => l.type = .str && l.ndim = 0
  | .strs _ => l.type = .str && l.ndim = 1
  | .arr t s d => l.type = t && t ≠ .str && l.ndim = s.length && s.length ≠ 0 &&
      d.length = arrSize s && d.all (·.type = t)

/-- `EMPTY_INT` (`imas/ids_defs.py`). -/
def emptyInt : Int := -999999999

section
variable {F : Type} [FloatModel F]

/-- `IDSDataType.default` (`ids_data_type.py` lines 46-52). -/
def default0D : BaseType → Val F
  | .str => .str []
  | .int => .int emptyInt
  | .flt => .flt FloatModel.empty
  | .cpx => .cpx FloatModel.empty (FloatModel.neg FloatModel.empty)

/-- `_default` (`ids_primitive.py` lines 140-147). `np.empty` of a shape of zeros has no
items. -/
def defaultVal (l : LeafMeta) : Val F :=
  if l.ndim = 0 then default0D l.type
  else match l.type with
    | .str => .strs []
    | t => .arr t (List.replicate l.ndim 0) []

/-- Python `value == default` for a 0D value (line 188). -/
def eqDefault : Val F → Bool
  | .str s => s = []
  | .int i => i = emptyInt
  | .flt x => FloatModel.eq x FloatModel.empty
  | .cpx re im => FloatModel.eq re FloatModel.empty &&
      FloatModel.eq im (FloatModel.neg FloatModel.empty)
  | _ => false

/-- `size == 0` (lines 109-123): number of strings or of array items, never for 0D. -/
def Val.isEmpty : Val F → Bool
  | .strs l => l.isEmpty
  | .arr _ s _ => arrSize s = 0
  | _ => false

/-- `_default` of a 1+D node; written with an explicit first dimension so that it is empty
whatever `ndim` is (it is only used with `ndim > 0`, where it is `defaultVal`). -/
instance : Value (Val F) where
  isEmpty := Val.isEmpty
  emptyArray l := match l.type with
    | .str => .strs []
    | t => .arr t (0 :: List.replicate (l.ndim - 1) 0) []
  isEmpty_emptyArray l := by
    cases l.type <;> simp [Val.isEmpty, arrSize]

/-- `value` getter (lines 160-169): the returned value. -/
def readValue (l : LeafMeta) : Option (Val F) → Val F
  | some v => v
  | none => defaultVal l

/-- `shape` (lines 96-106). -/
def leafShape (l : LeafMeta) (v : Option (Val F)) : List Nat :=
  if l.ndim = 0 then []
  else match v with
    | none => List.replicate l.ndim 0
    | some (.strs s) => [s.length]
    | some (.arr _ s _) => s
    | some _ => []

/-- `size` (lines 109-123). -/
def leafSize (l : LeafMeta) (v : Option (Val F)) : Nat :=
  if l.ndim = 0 then 1
  else match v with
    | none => 0
    | some (.strs s) => s.length
    | some (.arr _ s _) => arrSize s
    | some _ => 0

/-- `__len__` (lines 132-138). `none`: TypeError, for 0D nodes. `len` of a numpy array is its first dimension. -/
def leafLen (l : LeafMeta) (v : Option (Val F)) : Option Nat :=
  if l.ndim = 0 then none
  else match v with
    | none => some 0
    | some (.strs s) => some s.length
    | some (.arr _ (n :: _) _) => some n
    | some _ => none

/-! ### Assignment -/

/-- A Python object assigned to a data node. `val` are objects of the types that are stored
without conversion, `list` is any other iterable, `node` another data node with its
metadata and value, `other` anything else (e.g. `bytes`, a `float` in place of an `int`,
which is a `val`, or a foreign object, by number). -/
inductive Obj (F : Type) where
  | val (v : Val F)
  | list (l : List (Obj F))
  | node (l : LeafMeta) (v : Option (Val F))
  | other (id : Nat)

/-- Exceptions of assignments. -/
inductive SetErr where
  | readOnly        -- ValueError: "Lazy-loaded IDSs are read-only."
  | wrongRank       -- ValueError: "Trying to assign a ND value to ..."
  | conversion      -- any exception of a Python/numpy type conversion
  deriving DecidableEq, Repr

/-- Type conversions of Python and numpy (`int(x)`, `float(x)`, `complex(x)`, `str(x)`,
`bytes.decode`, `np.asarray(x, dtype)`) for objects that do not have the right type already.
They are not modelled; theorems hold for any choice of them. -/
structure Conv (F : Type) where
  /-- `int(x)`, `float(x)`, `complex(x)` -/
  scalar : BaseType → Obj F → Option (Val F)
  /-- `x.decode("UTF-8")` for bytes, else `str(x)` -/
  string : Obj F → Option (List Char)
  /-- iterate over `x`: `none` when not iterable -/
  iter : Obj F → Option (List (Obj F))
  /-- `np.asarray(np.asanyarray(x), dtype)`: shape and items -/
  array : BaseType → Obj F → Option (List Nat × List (Scalar F))

/-- `_cast_str` (lines 258-268). -/
def castStr (cv : Conv F) : Obj F → Except SetErr (List Char)
  | .val (.str s) => .ok s
  | x => match cv.string x with
    | some s => .ok s
    | none => .error .conversion

/-- `_cast_str` of all items (line 320). -/
def castStrs (cv : Conv F) : List (Obj F) → Except SetErr (List (List Char))
  | [] => .ok []
  | x :: xs => do
    let s ← castStr cv x
    let r ← castStrs cv xs
    return s :: r

/-- Does the object count as `str` or `bytes`, and what are its items otherwise? -/
def iterObj (cv : Conv F) : Obj F → Option (List (Obj F))
  | .val (.str _) => none
  | .val (.strs l) => some (l.map fun s => .val (.str s))
  | .list l => some l
  | x => cv.iter x

/-- `_cast_value`: `IDSString0D` (line 276), `IDSString1D` (lines 317-326), `IDSNumeric0D`
(lines 343-350) and `IDSNumericArray` (lines 479-490). -/
def castValue (cv : Conv F) (l : LeafMeta) (x : Obj F) : Except SetErr (Val F) :=
  match l.type, l.ndim with
  | .str, 0 => (castStr cv x).map .str
  | .str, _ =>
    match iterObj cv x with
    | some xs => (castStrs cv xs).map .strs
    | none => (castStr cv x).map fun s => .strs [s]
  | t, 0 =>
    match x with
    | .val (.int i) => if t = .int then .ok (.int i) else conv t x
    | .val (.flt i) => if t = .flt then .ok (.flt i) else conv t x
    | .val (.cpx i j) => if t = .cpx then .ok (.cpx i j) else conv t x
    | x => conv t x
  | t, n + 1 =>
    match (match x with
      | .val (.arr t' s d) => if t' = t then some (s, d) else cv.array t x
      | x => cv.array t x) with
    | none => .error .conversion
    | some (s, d) => if s.length = n + 1 then .ok (.arr t s d) else .error .wrongRank
where
  conv (t : BaseType) (x : Obj F) : Except SetErr (Val F) :=
    match cv.scalar t x with
    | some v => .ok v
    | none => .error .conversion

/-- `isinstance(setter_value, type(self))`: data nodes of the same class. The classes are
`IDSString0D`, `IDSString1D`, `IDSInt0D`, `IDSFloat0D`, `IDSComplex0D` and
`IDSNumericArray` (`ids_metadata.py` lines 170-180). -/
def sameClass (l m : LeafMeta) : Bool :=
  if l.type = .str then m.type = .str && (l.ndim = 0) = (m.ndim = 0)
  else if l.ndim = 0 then m.type = l.type && m.ndim = 0
  else m.type ≠ .str && m.ndim ≠ 0

/-- First part of the `value` setter (lines 177-187): the value to store, before the check
for the default. -/
def assigned (cv : Conv F) (l : LeafMeta) (x : Obj F) : Except SetErr (Val F) :=
  match x with
  | .node m w =>
    if sameClass l m then
      if m.type = l.type ∧ m.ndim = l.ndim then .ok (readValue m w)
      else castValue cv l (.val (readValue m w))
    else castValue cv l x
  | x => castValue cv l x

/-- `value` setter (lines 172-191): the new content of the node. -/
def setValue (cv : Conv F) (lazy : Bool) (l : LeafMeta) (x : Obj F) :
    Except SetErr (Option (Val F)) :=
  if lazy then .error .readOnly
  else match assigned cv l x with
    | .error e => .error e
    | .ok v => .ok (if l.ndim = 0 && eqDefault v then none else some v)

end

/-! ### Data types -/

/-- `IDSDataType` members (`ids_data_type.py` lines 26-44). -/
inductive DataType where
  | structure | structArray | base (t : BaseType)
  deriving DecidableEq, Repr

/-- `str.upper` on ASCII text; other characters are not changed (a simplification: Data
Dictionary type names are ASCII). -/
def upper (s : List Char) : List Char := s.map Char.toUpper

/-- `str.split("_")`. -/
def splitUnderscore : List Char → List (List Char)
  | [] => [[]]
  | c :: r =>
    if c = '_' then [] :: splitUnderscore r
    else match splitUnderscore r with
      | [] => [[c]]          -- unreachable
      | w :: ws => (c :: w) :: ws

/-- Exceptions of `parse`. -/
inductive ParseErr where
  | valueError | indexError
  deriving DecidableEq, Repr

/-- `IDSDataType(data_type)` for the upper case names (the lower case members cannot be
reached with an upper case name). -/
def baseType (s : List Char) : Except ParseErr DataType :=
  if s = "STR".toList then .ok (.base .str)
  else if s = "INT".toList then .ok (.base .int)
  else if s = "FLT".toList then .ok (.base .flt)
  else if s = "CPX".toList then .ok (.base .cpx)
  else .error .valueError

/-- `IDSDataType.parse` (lines 79-115) for a string. -/
def parseDataType (s : List Char) : Except ParseErr (DataType × Nat) :=
  if s = "structure".toList then .ok (.structure, 0)
  else if s = "struct_array".toList then .ok (.structArray, 1)
  else
    match splitUnderscore (upper s) with
    | [] => .error .valueError           -- unreachable
    | dtype :: rest =>
      if rest = ["TYPE".toList] then (baseType dtype).map (·, 0)
      else match rest with
        | [] => .error .valueError
        | [] :: _ => .error .indexError  -- rest[0][0] of an empty string
        | (c :: _) :: _ =>
          if '0' ≤ c ∧ c ≤ '9' then (baseType dtype).map (·, c.toNat - '0'.toNat)
          else .error .valueError

end Verif.Ids
