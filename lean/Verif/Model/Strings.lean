import Verif.Model.Primitive
/-!
Model of the in-place edits of lists of strings: `IDSString1D` (`/repo/imas/ids_primitive.py` lines 289-328) and the methods of
Python lists it uses or forwards to.

Items of the list are Python objects (`Obj`), as nothing in a Python list makes them strings: an item is a string when it is
`.val (.str s)`.
-/
namespace Verif.Strings
open Verif.Ids

variable {F : Type}

inductive Exc where
  /-- an exception of `str(x)` or `bytes.decode` -/
  | conversion
  /-- TypeError: not iterable -/
  | notIterable
  /-- IndexError of a list -/
  | index
  /-- ValueError: slice step cannot be zero -/
  | zeroStep
  /-- ValueError: sequence of another size assigned to an extended slice -/
  | size
  deriving DecidableEq, Repr

/-- The Python list of the node. `none`: `__value` is None. -/
abbrev Stored (F : Type) := Option (List (Obj F))

/-- The `value` property (lines 160-169): an unset node first stores an empty list. -/
def value (s : Stored F) : List (Obj F) := s.getD []

/-- What an edit leaves in the node and the exception it raises. -/
abbrev Result (F : Type) := Stored F × Option Exc

/-- `_cast_str` (lines 258-268) with its result as an object. -/
def cast (cv : Conv F) (x : Obj F) : Except Exc (Obj F) :=
  match castStr cv x with
  | .ok s => .ok (.val (.str s))
  | .error _ => .error .conversion

/-- `iter(x)`: a string gives its characters, a data node the items of its value when that is a list of strings (line 149).
For other objects the answer is the one of `cv`; as `cv.iter` refuses bytes objects (`iterObj`), so does this function, while the
code would add the numbers of the bytes. -/
def iterate (cv : Conv F) : Obj F → Option (List (Obj F))
  | .val (.str s) => some (s.map fun c => .val (.str [c]))
  | .val (.strs l) => some (l.map fun s => .val (.str s))
  | .node _ (some (.strs l)) => some (l.map fun s => .val (.str s))
  | .list l => some l
  | x => cv.iter x

/-- `append` (lines 299-301). -/
def append (cv : Conv F) (s : Stored F) (x : Obj F) : Result F :=
  match cast cv x with
  | .error e => (some (value s), some e)
  | .ok y => (some (value s ++ [y]), none)

/-- `list.extend` of a generator (line 305): items are added as they are made, those added before an exception stay. -/
def extendWith (cv : Conv F) (items : List (Obj F)) : List (Obj F) → Result F
  | [] => (some items, none)
  | x :: xs => match cast cv x with
    | .error e => (some items, some e)
    | .ok y => extendWith cv (items ++ [y]) xs

/-- `extend` (lines 303-305). `for val in value` asks for the iterator when the generator is made. -/
def extend (cv : Conv F) (s : Stored F) (x : Obj F) : Result F :=
  match iterate cv x with
  | none => (some (value s), some .notIterable)
  | some xs => extendWith cv (value s) xs

/-- Index of an item of a Python list of length `n`; negative ones count from the end. -/
def position (n : Nat) (i : Int) : Option Nat :=
  let j := if i < 0 then i + n else i
  if 0 ≤ j ∧ j < n then some j.toNat else none

/-- `__setitem__` with an index (lines 310-312). -/
def setItem (cv : Conv F) (s : Stored F) (i : Int) (x : Obj F) : Result F :=
  match cast cv x with
  | .error e => (some (value s), some e)
  | .ok y => match position (value s).length i with
    | none => (some (value s), some .index)
    | some k => (some ((value s).set k y), none)

/-- The three parts of `slice(start, stop, step)`; `none` is None. -/
structure Slice where
  start : Option Int
  stop : Option Int
  step : Option Int

/-- One bound in `PySlice_AdjustIndices` of CPython. -/
def adjust (n : Int) (back : Bool) (i : Int) : Int :=
  if i < 0 then
    (if i + n < 0 then (if back then -1 else 0) else i + n)
  else if n ≤ i then (if back then n - 1 else n)
  else i

/-- `PySlice_Unpack` and `PySlice_AdjustIndices` of CPython, for the list length `n`: start, stop, step. `none`: the step is 0.
The largest and smallest integer that stand for missing bounds are replaced by what they are adjusted to. -/
def bounds (n : Nat) (sl : Slice) : Option (Int × Int × Int) :=
  let k := sl.step.getD 1
  if k = 0 then none
  else
    let back : Bool := k < 0
    let start := match sl.start with
      | some i => adjust n back i
      | none => if back then (n : Int) - 1 else 0
    let stop := match sl.stop with
      | some i => adjust n back i
      | none => if back then -1 else n
    some (start, stop, k)

/-- The number of items of a slice (last lines of `PySlice_AdjustIndices`). -/
def sliceLength (start stop k : Int) : Int :=
  if k < 0 then (if stop < start then (start - stop - 1) / (-k) + 1 else 0)
  else if start < stop then (stop - start - 1) / k + 1
  else 0

/-- The loop over an extended slice in `list_ass_subscript` of CPython. -/
def setEvery (cur k : Int) (items : List (Obj F)) : List (Obj F) → List (Obj F)
  | [] => items
  | y :: ys => setEvery (cur + k) k (items.set cur.toNat y) ys

/-- All items of a generator of `_cast_str` results. -/
def castAll (cv : Conv F) : List (Obj F) → Except Exc (List (Obj F))
  | [] => .ok []
  | x :: xs => match cast cv x with
    | .error e => .error e
    | .ok y => match castAll cv xs with
      | .error e => .error e
      | .ok ys => .ok (y :: ys)

/-- `__setitem__` with a slice (lines 308-309 and 312), with `list_ass_subscript` of CPython: the items of the generator are
collected before the list is changed. -/
def setSlice (cv : Conv F) (s : Stored F) (sl : Slice) (x : Obj F) : Result F :=
  match iterate cv x with
  | none => (s, some .notIterable)
  | some xs =>
    let items := value s
    match bounds items.length sl with
    | none => (some items, some .zeroStep)
    | some (start, stop, k) =>
      match castAll cv xs with
      | .error e => (some items, some e)
      | .ok ys =>
        if k = 1 then
          (some (items.take start.toNat ++ ys ++ items.drop (max start stop).toNat), none)
        else if (ys.length : Int) = sliceLength start stop k then (some (setEvery start k items ys), none)
        else (some items, some .size)

/-- `insert` of Python lists, found by `__getattr__` (lines 295-297): the object itself is stored. Positions outside of the list
are moved to its ends. -/
def insert (s : Stored F) (i : Int) (x : Obj F) : Result F :=
  let items := value s
  let j := if i < 0 then max 0 (i + items.length) else min i items.length
  (some (items.take j.toNat ++ [x] ++ items.drop j.toNat), none)

/-- `pop` of Python lists, found by `__getattr__`; the removed item is not part of the result here. -/
def pop (s : Stored F) (i : Int) : Result F :=
  match position (value s).length i with
  | none => (some (value s), some .index)
  | some k => (some ((value s).eraseIdx k), none)

/-- Assignment to the node: the `value` setter (lines 172-191), `setValue` of Model/Primitive.lean, for a node of this class that
is not lazy-loaded. (Another node of this class gives its list itself, not a copy; here lists are values.) -/
def assign [FloatModel F] (cv : Conv F) (s : Stored F) (x : Obj F) : Result F :=
  match setValue cv false ⟨.str, 1, false⟩ x with
  | .ok (some (.strs l)) => (some (l.map fun t => .val (.str t)), none)
  | .ok _ => (none, none)       -- unreachable unless a node of this class holds something else
  | .error _ => (s, some .conversion)

/-- The edits. -/
inductive Edit (F : Type) where
  | assign (x : Obj F)
  | append (x : Obj F)
  | extend (x : Obj F)
  | item (i : Int) (x : Obj F)
  | slice (sl : Slice) (x : Obj F)
  | insert (i : Int) (x : Obj F)
  | pop (i : Int)

def run [FloatModel F] (cv : Conv F) (s : Stored F) : Edit F → Result F
  | .assign x => assign cv s x
  | .append x => append cv s x
  | .extend x => extend cv s x
  | .item i x => setItem cv s i x
  | .slice sl x => setSlice cv s sl x
  | .insert i x => insert s i x
  | .pop i => pop s i

/-- Edits one after the other; exceptions are caught by the caller. -/
def runAll [FloatModel F] (cv : Conv F) (s : Stored F) : List (Edit F) → Stored F
  | [] => s
  | e :: es => runAll cv (run cv s e).1 es

end Verif.Strings
