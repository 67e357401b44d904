/-!
Model of operators and numpy functions with data nodes as operands: `/repo/imas/ids_primitive.py` lines 25-54, 193-222, 245-256
and 433-467, with the rules by which Python and numpy choose the method that runs.

The operations between ordinary values are a parameter (`Lib`): nothing is assumed about what `+` does. Modelled is which of these
operations runs, on which operands.
-/
namespace Verif.Operators

/-- Operators with two operands (lines 194-217). -/
inductive Op where
  | eq | ne | lt | le | gt | ge
  | add | sub | mul | matmul | truediv | floordiv | mod | divmod | pow | lshift | rshift | and | xor | or
  deriving DecidableEq, Repr

/-- The comparison that Python tries on the right operand: `a < b` becomes `b > a`. `none` for the other operators, which have
reflected methods of their own. -/
def Op.swapped : Op → Option Op
  | .eq => some .eq
  | .ne => some .ne
  | .lt => some .gt
  | .le => some .ge
  | .gt => some .lt
  | .ge => some .le
  | _ => none

/-- Operators with one operand (lines 219-222). -/
inductive UnOp where
  | neg | pos | abs | invert
  deriving DecidableEq, Repr

/-- The types of ordinary values, as far as they decide which method runs: Python numbers, texts (`str`, `bytes`), numpy arrays
and scalars, and other builtin objects (lists, tuples, None). -/
inductive Kind where
  | number | text | numpy | builtin
  deriving DecidableEq, Repr

/-- Classes of data nodes: `IDSNumericArray`, which has `__array_ufunc__`, and the others. -/
inductive Cls where
  | array | other
  deriving DecidableEq, Repr

inductive Exc where
  | typeError
  | readOnly
  /-- any other exception -/
  | raised (n : Nat)
  deriving DecidableEq, Repr

/-- Python and numpy on ordinary values. -/
structure Lib (V : Type) where
  kind : V → Kind
  /-- `v op w` -/
  binop : Op → V → V → Except Exc V
  unop : UnOp → V → Except Exc V
  /-- `w in v` -/
  contains : V → V → Except Exc V
  /-- `ufunc(*args)` by number of the function -/
  ufunc : Nat → List V → Except Exc V
  /-- `np.asarray(node)` for a node that is not an `IDSNumericArray` -/
  asarray : V → V
  /-- `text % node`: formatting with the node itself, given its value -/
  format : V → V → Except Exc V
  /-- `ufunc(v, w, out=(v,))` of the operator: the new content of `v` -/
  inplace : Op → V → V → Except Exc V

/-- An operand: an ordinary value, or a data node with the value that its `value` property gives. -/
inductive Operand (V : Type) where
  | val (v : V)
  | node (c : Cls) (v : V)

variable {V : Type}

/-- `other.value if isinstance(other, IDSPrimitive)` (lines 27-28, 37-38, 449). -/
def unwrap : Operand V → V
  | .val v => v
  | .node _ v => v

/-- The types accepted by `__array_ufunc__` (lines 431, 436-443). -/
def handled (L : Lib V) : Operand V → Bool
  | .node _ _ => true
  | .val v => L.kind v == .number || L.kind v == .numpy

/-- `ufunc(*args)` of numpy. If an `IDSNumericArray` is among the arguments, its `__array_ufunc__` (lines 433-461) runs: other types
than the accepted ones give NotImplemented, that is a TypeError of numpy. (All `IDSNumericArray` arguments have the same method, and
other classes with `__array_ufunc__` are not considered.) Without one numpy makes arrays of the nodes. -/
def callUfunc (L : Lib V) (f : Nat) (args : List (Operand V)) : Except Exc V :=
  if args.any (fun | .node .array _ => true | _ => false) then
    if args.all (handled L) then L.ufunc f (args.map unwrap) else .error .typeError
  else L.ufunc f (args.map fun | .node _ v => L.asarray v | .val v => v)

/-- `__op__` of the left operand, of whatever class. `none`: NotImplemented.
* Data nodes: `_binary_wrapper` (lines 25-32); `op(self.value, other)` is the operator on ordinary values.
* Numbers, lists and other builtin objects do not know data nodes.
* Texts do not either, but `%` formats with any object.
* numpy: `ndarray.__op__` and the methods of scalars do not give up for objects without `__array_priority__` or with an
  `__array_ufunc__`; they call the ufunc of the operator. `binop` of a numpy left operand is this ufunc. -/
def leftMethod (L : Lib V) (op : Op) (a b : Operand V) : Option (Except Exc V) :=
  match a, b with
  | .node _ v, b => some (L.binop op v (unwrap b))
  | .val v, .val w => some (L.binop op v w)
  | .val v, .node c w =>
    match L.kind v with
    | .number | .builtin => none
    | .text => if op = .mod then some (L.format v w) else none
    | .numpy => match c with
      | .array => some (L.binop op v w)             -- through __array_ufunc__, lines 449-454
      | .other => some (L.binop op v (L.asarray w))

/-- The method of the right operand when the left one gave NotImplemented: for comparisons the swapped comparison, else
`_reflected_binary_wrapper` (lines 35-42). -/
def rightMethod (L : Lib V) (op : Op) (a b : Operand V) : Except Exc V :=
  match op.swapped with
  | some op' => L.binop op' (unwrap b) (unwrap a)
  | none => L.binop op (unwrap a) (unwrap b)

/-- `a op b` in Python. (The rule that a subclass on the right goes first does not apply: no class of data nodes is a subclass of
another one or of a class of ordinary values.) -/
def binary (L : Lib V) (op : Op) (a b : Operand V) : Except Exc V :=
  match leftMethod L op a b with
  | some r => r
  | none => rightMethod L op a b

/-- `op a` for operators with one operand: `_unary_wrapper` (lines 49-54). -/
def unary (L : Lib V) (op : UnOp) (a : Operand V) : Except Exc V := L.unop op (unwrap a)

/-- Expressions: ordinary values and data nodes, operators, and `x in node` (line 200). -/
inductive Expr (V : Type) where
  | const (v : V)
  | node (c : Cls) (v : V)
  | un (op : UnOp) (e : Expr V)
  | bin (op : Op) (a b : Expr V)
  | isIn (e : Expr V) (c : Cls) (v : V)

/-- Value of an expression; operands are evaluated from left to right. -/
def eval (L : Lib V) : Expr V → Except Exc (Operand V)
  | .const v => .ok (.val v)
  | .node c v => .ok (.node c v)
  | .un op e => match eval L e with
    | .error x => .error x
    | .ok a => (unary L op a).map .val
  | .bin op a b => match eval L a with
    | .error x => .error x
    | .ok x => match eval L b with
      | .error y => .error y
      | .ok y => (binary L op x y).map .val
  | .isIn e _ v => match eval L e with
    | .error x => .error x
    | .ok a => (L.contains v (unwrap a)).map .val

/-! ### `structure.name op= x` for an `IDSNumericArray` -/

/-- Arrays in memory, by number of the object. -/
abbrev Memory (V : Type) := Nat → V

/-- `__iop__` of `NDArrayOperatorsMixin`: `ufunc(self, other, out=(self,))`, that is `__array_ufunc__` with `out`, which is unwrapped
as well (lines 434-443, 450-454). The array of the node is changed in place and is the result. `self` is the array number `r`. -/
def inplaceMethod (L : Lib V) (op : Op) (m : Memory V) (r : Nat) (x : Operand V) : Memory V × Except Exc Nat :=
  if handled L x then
    match L.inplace op (m r) (unwrap x) with
    | .error e => (m, .error e)
    | .ok u => ((fun k => if k = r then u else m k), .ok r)
  else (m, .error .typeError)

/-- `structure.name op= x`: the method above, then the assignment of its result to the attribute, which stores the very array
(`value` setter, lines 172-187: no conversion as the type and rank are those of the node) unless the IDS is lazy-loaded. Gives the
memory, and the number of the array that the node holds or the exception. -/
def augmented (L : Lib V) (lazy : Bool) (op : Op) (m : Memory V) (r : Nat) (x : Operand V) : Memory V × Except Exc Nat :=
  match inplaceMethod L op m r x with
  | (m', .error e) => (m', .error e)
  | (m', .ok r') => if lazy then (m', .error .readOnly) else (m', .ok r')

end Verif.Operators
