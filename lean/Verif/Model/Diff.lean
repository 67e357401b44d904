import Verif.Model.Primitive
/-
Model of `idsdiffgen` and `==` of IDS structures (`imas/util.py` lines 151-246,
`imas/ids_structure.py` lines 161-170), for structures that are not lazy-loaded.
-/
namespace Verif.Ids

section
variable {F : Type} [FloatModel F]

/-- `x != x`. -/
def isNaN (x : F) : Bool := !FloatModel.eq x x

/-- `==` of array items. -/
def Scalar.eqv : Scalar F → Scalar F → Bool
  | .int i, .int j => i = j
  | .flt x, .flt y => FloatModel.eq x y
  | .cpx x y, .cpx x' y' => FloatModel.eq x x' && FloatModel.eq y y'
  | _, _ => false

/-- `numpy.isnan` of an array item. -/
def Scalar.nan : Scalar F → Bool
  | .int _ => false
  | .flt x => isNaN x
  | .cpx x y => isNaN x || isNaN y

/-- numpy strings have no trailing NUL characters. -/
def stripNul (s : List Char) : List Char :=
  (s.reverse.dropWhile (· = Char.ofNat 0)).reverse

/-- `numpy.array_equal(v, w)` (`util.py` line 216). Values of different kinds cannot occur for
the same data node; numpy's conversions between kinds are not modelled. -/
def arrayEqual : Val F → Val F → Bool
  | .int i, .int j => i = j
  | .flt x, .flt y => FloatModel.eq x y
  | .cpx x y, .cpx x' y' => FloatModel.eq x x' && FloatModel.eq y y'
  | .str s, .str t => stripNul s = stripNul t
  | .strs s, .strs t => s.map stripNul = t.map stripNul
  | .arr _ s d, .arr _ t e => s = t && (d.zip e).all fun p => p.1.eqv p.2
  | _, _ => false

/-- `numpy.array_equal(v, w, equal_nan=True)`, `false` if it raises `TypeError` (lines
217-222). -/
def arrayEqualNan : Val F → Val F → Bool
  | .flt x, .flt y => FloatModel.eq x y || (isNaN x && isNaN y)
  | .cpx x y, .cpx x' y' => (FloatModel.eq x x' && FloatModel.eq y y') ||
      ((isNaN x || isNaN y) && (isNaN x' || isNaN y'))
  | .arr _ s d, .arr _ t e =>
    s = t && (d.zip e).all fun p => p.1.eqv p.2 || (p.1.nan && p.2.nan)
  | .int i, .int j => i = j
  | _, _ => false

end

section
variable {V : Type} [Value V]

/-- A difference, by path: present in the first only, in the second only, or in both with
different values, sizes or types. -/
inductive Diff where
  | left (p : List Name)
  | right (p : List Name)
  | both (p : List Name)
  deriving DecidableEq, Repr

/-- `iter_nonempty_()` as a dictionary by child name (`util.py` lines 197-204). -/
def Fields.nonempty : Fields V → List (Name × Node V)
  | .nil => []
  | .absent _ _ r => r.nonempty
  | .present n x r => if x.hasValue then (n, x) :: r.nonempty else r.nonempty

/-- `children2.pop(childname, None)`. -/
def pop (k : Name) : List (Name × Node V) → Option (Node V) × List (Name × Node V)
  | [] => (none, [])
  | (n, x) :: r => if n = k then (some x, r) else ((pop k r).1, (n, x) :: (pop k r).2)

/-- The paths reported for a child that exists on one side only (lines 209-213 and 241-246):
for a structure its filled data nodes, otherwise the child itself. -/
def onlyPaths (path : List Name) (n : Name) (x : Node V) : List (List Name) :=
  match x with
  | .struct c => (c.iter true false).map fun a => path ++ n :: a.map (·.1)
  | _ => [path ++ [n]]

variable (eqv : V → V → Bool)

mutual
/-- Comparison of two children of the same name (lines 215-239); `eqv` is the comparison of
values. The values of data nodes with `has_value` are compared. -/
def diffNode (path : List Name) : Node V → Node V → List Diff
  | .leaf _ v, .leaf _ w =>
    match v, w with
    | some v, some w => if eqv v w then [] else [.both path]
    | _, _ => []                                -- unreachable: both have a value
  | .struct c, .struct d => diffFields path c d.nonempty
  | .aos _ e, .aos _ f =>
    (if e.length ≠ f.length then [.both path] else []) ++ diffElems path e f
  | _, _ => [.both path]
/-- The loop over the children of the first structure (lines 206-239) with the remaining
children of the second, followed by the loop over what is left of those (lines 241-246). -/
def diffFields (path : List Name) : Fields V → List (Name × Node V) → List Diff
  | .nil, ch => ch.flatMap fun p => (onlyPaths path p.1 p.2).map .right
  | .absent _ _ r, ch => diffFields path r ch
  | .present n x r, ch =>
    if x.hasValue then
      match pop n ch with
      | (none, ch) => (onlyPaths path n x).map .left ++ diffFields path r ch
      | (some y, ch) => diffNode (path ++ [n]) x y ++ diffFields path r ch
    else diffFields path r ch
/-- `for c1, c2 in zip(child1, child2)` (lines 235-236). -/
def diffElems (path : List Name) : Elems V → Elems V → List Diff
  | .cons c r, .cons d s => diffFields path c d.nonempty ++ diffElems path r s
  | _, _ => []
end

/-- `_idsdiffgen` (lines 194-246). -/
def idsDiff (c d : Fields V) : List Diff := diffFields eqv [] c d.nonempty

end

/-- What `idsdiffgen` compares besides the contents (lines 171-188). -/
structure Position where
  version : List Char
  ids : Name
  path : List Name
  deriving DecidableEq

/-- `IDSStructure.__eq__` (`ids_structure.py` lines 161-170) for two distinct structures. -/
def structEq {V : Type} [Value V] (eqv : V → V → Bool) (p q : Position) (c d : Fields V) : Bool :=
  p.version = q.version && p.ids = q.ids && p.path = q.path && (idsDiff eqv c d).isEmpty

end Verif.Ids
