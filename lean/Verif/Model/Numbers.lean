/-!
Model of data nodes as arguments of Python's builtin functions (`int(node)`, `round(node)`, ...) and of `np.asarray`:
`/repo/imas/ids_primitive.py` lines 132-137, 160-169, 193-222, 229-233, 271-283, 331-342, 353-400, 405-425 and
430-441, with the abstract
classes of Python's `numbers` module that the classes of scalar nodes inherit from, and the rules by which Python finds the method
that a builtin function calls.

The builtin functions on ordinary values are a parameter (`Lib`). Modelled is which of them run, on which values.
-/
namespace Verif.Numbers

/-- Element types of numpy arrays. -/
inductive DType where
  | int32 | float64 | complex128 | other (n : Nat)
  deriving DecidableEq, Repr

/-- Functions and attributes of one object, with their other arguments. -/
inductive Fn where
  | bool | int | float | complex | index
  | trunc | floor | ceil
  | round (ndigits : Option Int)
  | real | imag | conjugate | numerator | denominator
  | str | format (spec : List Char) | hash
  /-- `pow(x, e, m)` -/
  | pow3 (e m : Int)
  /-- `np.asarray(x, dtype)` -/
  | asarray (dtype : Option DType)
  deriving DecidableEq, Repr

/-- Types of ordinary values. -/
inductive Kind where
  | bool | int | float | complex | str | list | ndarray | other
  deriving DecidableEq, Repr

inductive Exc where
  | typeError | recursionError | notImplemented
  /-- any other exception -/
  | raised (n : Nat)
  deriving DecidableEq, Repr

/-- Python and numpy on ordinary values. -/
structure Lib (V : Type) where
  kind : V → Kind
  call : Fn → V → Except Exc V
  /-- an `int` -/
  ofInt : Int → V
  ofBool : Bool → V
  /-- `+v` -/
  pos : V → Except Exc V
  /-- `v != 0` -/
  notZero : V → Except Exc V
  /-- `len(v)` -/
  len : V → Except Exc Nat
  /-- `v.astype(dtype, copy=False)` -/
  astype : V → DType → Except Exc V
  /-- `np.asarray` of an object that is only known to be iterable, and iterates over `v` -/
  sequence : V → Option DType → Except Exc V

/-- Classes of data nodes. -/
inductive Cls where
  | string0 | string1 | complex0 | float0 | int0 | array
  deriving DecidableEq, Repr

/-- The classes in which Python looks for methods. -/
inductive Class where
  | idsString0D | idsString1D | idsNumeric0D | idsComplex0D | idsFloat0D | idsInt0D | idsNumericArray
  | idsPrimitive | idsBase | operatorsMixin
  | integral | rational | realNumber | complexNumber | number | object
  deriving DecidableEq, Repr

/-- `__mro__`: by the C3 linearization of the bases in lines 56, 271, 289, 331, 353, 377, 405 and 430 and of the module `numbers`. -/
def mro : Cls → List Class
  | .string0 => [.idsString0D, .idsPrimitive, .idsBase, .object]
  | .string1 => [.idsString1D, .idsPrimitive, .idsBase, .object]
  | .complex0 => [.idsComplex0D, .idsNumeric0D, .idsPrimitive, .idsBase, .complexNumber, .number, .object]
  | .float0 => [.idsFloat0D, .idsNumeric0D, .idsPrimitive, .idsBase, .realNumber, .complexNumber, .number, .object]
  | .int0 => [.idsInt0D, .idsNumeric0D, .idsPrimitive, .idsBase, .integral, .rational, .realNumber, .complexNumber, .number,
      .object]
  | .array => [.idsNumericArray, .idsPrimitive, .idsBase, .operatorsMixin, .object]

/-- Special methods and attributes. -/
inductive Meth where
  | bool | len | int | float | complex | index | trunc | floor | ceil | round
  | real | imag | conjugate | numerator | denominator
  | str | format | hash | pow | array
  deriving DecidableEq, Repr

/-- What a method does. -/
inductive Body where
  /-- `return self.value` -/
  | value
  /-- `return f(self.value)` -/
  | onValue (f : Fn)
  /-- the same function as the one called, with the same arguments, of `self.value` -/
  | same
  /-- `return f(self)` -/
  | onSelf (f : Fn)
  /-- `return g(f(self))` -/
  | chain (f g : Fn)
  /-- `return +self` -/
  | plus
  /-- `return i` -/
  | const (i : Int)
  /-- `return self != 0` -/
  | notZero
  /-- `return len(self.value)` -/
  | length
  /-- `IDSPrimitive.__len__`: a TypeError for scalar nodes -/
  | arrayLength
  /-- an abstract method: `raise NotImplementedError` -/
  | abstract
  /-- `return self.value.astype(dtype, copy=False)` -/
  | astype
  /-- `object.__format__`: `str(self)`, or a TypeError if there is a format specification -/
  | format
  /-- cannot be called like this: TypeError -/
  | reject
  deriving DecidableEq, Repr

/-- The methods that a class defines itself. Methods for which no builtin function is modelled here are left out. (Python does not
create objects of classes with abstract methods that are not overridden; here, calling the method raises the error.) -/
def defines : Class → Meth → Option Body
  -- lines 279-283
  | .idsString0D, .str => some .value
  | .idsString0D, .len => some .length
  -- lines 337-341
  | .idsNumeric0D, .array => some .same
  | .idsNumeric0D, .str => some (.onValue .str)
  -- lines 359-371
  | .idsComplex0D, .complex => some .value
  | .idsComplex0D, .real => some (.onValue .real)
  | .idsComplex0D, .imag => some (.onValue .imag)
  | .idsComplex0D, .conjugate => some (.onValue .conjugate)
  -- lines 383-399
  | .idsFloat0D, .float => some .value
  | .idsFloat0D, .int => some (.onValue .int)
  | .idsFloat0D, .trunc => some (.onValue .int)
  | .idsFloat0D, .floor => some (.onValue .floor)
  | .idsFloat0D, .ceil => some (.onValue .ceil)
  | .idsFloat0D, .round => some .same
  -- lines 411-424
  | .idsInt0D, .int => some .value
  | .idsInt0D, .trunc => some (.onValue .int)
  | .idsInt0D, .ceil => some .value
  | .idsInt0D, .floor => some .value
  | .idsInt0D, .round => some .same
  -- lines 440-441
  | .idsNumericArray, .array => some .astype
  -- lines 132-137
  | .idsPrimitive, .len => some .arrayLength
  -- line 194: a class that defines `__eq__` and not `__hash__` has `__hash__ = None`
  | .idsPrimitive, .hash => some .reject
  -- line 211: two arguments
  | .idsPrimitive, .pow => some .reject
  -- numbers.Integral
  | .integral, .int => some .abstract
  | .integral, .pow => some .abstract
  | .integral, .index => some (.onSelf .int)
  | .integral, .float => some (.chain .int .float)
  | .integral, .numerator => some .plus
  | .integral, .denominator => some (.const 1)
  -- numbers.Rational; its `__float__` divides the numerator by the denominator, and no class of data nodes uses it
  | .rational, .numerator => some .abstract
  | .rational, .denominator => some .abstract
  -- numbers.Real
  | .realNumber, .float => some .abstract
  | .realNumber, .trunc => some .abstract
  | .realNumber, .floor => some .abstract
  | .realNumber, .ceil => some .abstract
  | .realNumber, .round => some .abstract
  | .realNumber, .complex => some (.chain .float .complex)
  | .realNumber, .real => some .plus
  | .realNumber, .imag => some (.const 0)
  | .realNumber, .conjugate => some .plus
  -- numbers.Complex
  | .complexNumber, .complex => some .abstract
  | .complexNumber, .real => some .abstract
  | .complexNumber, .imag => some .abstract
  | .complexNumber, .conjugate => some .abstract
  | .complexNumber, .bool => some .notZero
  | .object, .format => some .format
  | _, _ => none

/-- The first class of `__mro__` that has the method. -/
def find (c : Cls) (m : Meth) : Option Body := (mro c).findSome? (defines · m)

/-- A data node: its class, the stored value if any, and the default of its type. -/
structure Leaf (V : Type) where
  cls : Cls
  stored : Option V
  default : V

/-- The property `value` (lines 160-169). (That reading stores the empty array of an unset array is in `Verif.Model.Primitive`.) -/
def Leaf.value {V : Type} (x : Leaf V) : V := x.stored.getD x.default

/-- The first of the methods that the class has. -/
def firstOf (c : Cls) : List Meth → Option (Meth × Body)
  | [] => none
  | m :: ms => match find c m with
    | some b => some (m, b)
    | none => firstOf c ms

/-- The methods that a function tries, in this order. `floor` and `ceil` try `float(x)` last (see `callNode`). -/
def tries : Fn → List Meth
  | .bool => [.bool, .len]
  | .int => [.int, .index, .trunc]
  | .float => [.float, .index]
  | .complex => [.complex, .float, .index]
  | .index => [.index]
  | .trunc => [.trunc]
  | .floor => [.floor]
  | .ceil => [.ceil]
  | .round _ => [.round]
  | .real => [.real]
  | .imag => [.imag]
  | .conjugate => [.conjugate]
  | .numerator => [.numerator]
  | .denominator => [.denominator]
  | .str => [.str]
  | .format _ => [.format]
  | .hash => [.hash]
  | .pow3 _ _ => [.pow]
  | .asarray _ => [.array]

/-- Python checks the type of what these methods return. -/
def resultKind : Meth → Option Kind
  | .bool => some .bool
  | .int | .index => some .int
  | .float => some .float
  | .complex => some .complex
  | .str => some .str
  | _ => none

/-- The result of a method for the function that called it: `bool` tests a length, `complex` and `float` convert what a method
of another type gave. -/
def finish {V : Type} (L : Lib V) (f : Fn) (m : Meth) (w : V) : Except Exc V :=
  match resultKind m with
  | some k =>
    if L.kind w = k then
      match f, m with
      | .complex, .float | .complex, .index => L.call .complex w
      | .float, .index => L.call .float w
      | _, _ => .ok w
    else .error .typeError
  | none => .ok w

/-- What happens without any of the methods: attributes are forwarded to the value (lines 229-233; dunder names are not, and
Python does not look there for special methods), any object is true, `math.floor` and `math.ceil` convert to float
(`numbers` are only tried for their `__float__`), `np.asarray` iterates, and everything else is a TypeError. `str` is `repr(self)`,
which is a parameter. -/
def fallback {V : Type} (L : Lib V) (repr : V) (float : Except Exc V) (f : Fn) (v : V) : Except Exc V :=
  match f with
  | .bool => .ok (L.ofBool true)
  | .real | .imag | .conjugate | .numerator | .denominator => L.call f v
  | .floor | .ceil => float.bind (L.call f)
  | .str => .ok repr
  | .asarray dt => L.sequence v dt
  | _ => .error .typeError

/-- A builtin function called with a data node, in a program that may nest `depth` more calls (Python's recursion limit). `repr` is
the text that `repr(node)` gives. -/
def callNode {V : Type} (L : Lib V) (repr : V) : Nat → Leaf V → Fn → Except Exc V
  | 0, _, _ => .error .recursionError
  | depth + 1, x, f =>
    match firstOf x.cls (tries f) with
    | none => fallback L repr (callNode L repr depth x .float) f x.value
    | some (m, b) =>
      match b with
      | .value => finish L f m x.value
      | .onValue g => (L.call g x.value).bind (finish L f m)
      | .same => (L.call f x.value).bind (finish L f m)
      | .onSelf g => (callNode L repr depth x g).bind (finish L f m)
      | .chain g h => (callNode L repr depth x g).bind fun w => (L.call h w).bind (finish L f m)
      | .plus => L.pos x.value
      | .const i => .ok (L.ofInt i)
      | .notZero => (L.notZero x.value).bind (finish L f m)
      | .length => (L.len x.value).map fun n => L.ofBool (decide (n > 0))
      | .arrayLength =>
        match x.cls with
        | .string1 | .array => (L.len x.value).map fun n => L.ofBool (decide (n > 0))
        | _ => .error .typeError
      | .abstract => .error .notImplemented
      | .astype => match f with
        | .asarray dt => L.astype x.value (dt.getD .float64)
        | _ => .error .typeError
      | .format => match f with
        | .format [] => callNode L repr depth x .str
        | _ => .error .typeError
      | .reject => .error .typeError

end Verif.Numbers
