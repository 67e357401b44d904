import Verif.Model.Convert
import Verif.Model.Validate
/-
Model of the conversion of pulse schedules to a common time base: `_pulse_schedule_3to4` and
`_pulse_schedule_resample_callback` (`/repo/imas/ids_convert.py` lines 1175-1251), and
`_copy_structure` with a callback (lines 709-755).

Times are finite numbers without NaN; every finite double is a rational number, so they are modelled
by `Rat` (and -0.0 equals 0.0, as in numpy). Nothing is assumed about the arithmetic of samples: the
formula for a point between two samples is a parameter. Log messages are not modelled, nor is the
sharing of arrays (`deepcopy`).
-/
namespace Verif.Pulse
open Verif.Ids Verif.Convert

/-! ### numpy and scipy -/

section
variable {Y : Type}

/-- Insertion in a sorted array without duplicates. -/
def insertTime (t : Rat) : List Rat → List Rat
  | [] => [t]
  | x :: r => if t < x then t :: x :: r else if t = x then x :: r else x :: insertTime t r

/-- `numpy.unique`: the sorted values without duplicates. -/
def unique : List Rat → List Rat
  | [] => []
  | t :: r => insertTime t (unique r)

/-- `numpy.searchsorted(x, t, side="right")` of a sorted array: the number of values up to `t`. (For
an array that is not sorted the result of numpy is that of a binary search; this is not modelled.) -/
def upTo : List Rat → Rat → Nat
  | [], _ => 0
  | x :: r, t => if x ≤ t then upTo r t + 1 else 0

/-- The two kinds of `scipy.interpolate.interp1d` that are used (line 1245). -/
inductive Kind where
  | linear | previous
  deriving DecidableEq

/-- `numpy.interp` at one point, which `interp1d` uses for linear interpolation of 1D arrays. `line
x0 y0 x1 y1 t` is the value of `(y1 - y0) / (x1 - x0) * (t - x0) + y0` in floating point. -/
def linearAt (line : Rat → Y → Rat → Y → Rat → Y) (xs : List Rat) (ys : List Y) (t : Rat) :
    Option Y :=
  match upTo xs t with
  | 0 => ys.head?
  | j + 1 =>
    match xs[j]?, ys[j]?, xs[j + 1]?, ys[j + 1]? with
    | some x0, some y0, some x1, some y1 => if x0 = t then some y0 else some (line x0 y0 x1 y1 t)
    | _, y0, _, _ => y0

/-- `interp1d._call_previousnext` for "previous" at one point: the last value at or before `t`; the
index is clipped to the array. -/
def previousAt (xs : List Rat) (ys : List Y) (t : Rat) : Option Y :=
  ys[max 1 (upTo xs t) - 1]?

/-- `interp1d._evaluate` at one point with `bounds_error=False` and `fill_value=(y[0], y[-1])`
(lines 1242-1250). -/
def evaluate (line : Rat → Y → Rat → Y → Rat → Y) (k : Kind) (xs : List Rat) (ys : List Y) (t : Rat) :
    Option Y :=
  match xs.head?, xs.getLast? with
  | some first, some last =>
    if t < first then ys.head?
    else if last < t then ys.getLast?
    else
      match k with
      | .linear => linearAt line xs ys t
      | .previous => previousAt xs ys t
  | _, _ => none

/-- All points of a time base. -/
def resample (line : Rat → Y → Rat → Y → Rat → Y) (k : Kind) (xs : List Rat) (ys : List Y) :
    List Rat → Option (List Y)
  | [] => some []
  | t :: r =>
    match evaluate line k xs ys t, resample line k xs ys r with
    | some y, some ys' => some (y :: ys')
    | _, _ => none
end

/-! ### `_copy_structure` with a callback -/

variable {V Y : Type}

/-- What the callback is told about the source item: a data node with its value, or whether it has
the metadata of a structure or of an array of structures. -/
inductive Item (V : Type) where
  | leaf (l : LeafMeta) (v : Option V)
  | struct
  | aos

/-- The callback: for the position of the source item and the item, what to do with the target node
(`none`: nothing). -/
abbrev Callback (V : Type) := Addr → Item V → Option (Node V → Except ConvErr (Node V))

/-- Lines 751-755: post-process the target item, then the callback. -/
def after (cx : Cfg V) (cb : Callback V) (s : Addr) (x : Item V) (b : Addr) (root : Node V) :
    Except ConvErr (Node V) :=
  andThen (postProcess cx (names s) b root) fun r =>
    match cb s x with
    | none => .ok r
    | some f => writeAt r b f

section
variable [Value V]

mutual
/-- `_copy_structure` (lines 709-755) with a callback: copy the children of the source structure at
`s` to the target structure at `t`. -/
def copyFields (cx : Cfg V) (cb : Callback V) (s t : Addr) : Fields V → Node V →
    Except ConvErr (Node V)
  | .nil, root => .ok root
  | .absent _ _ r, root => copyFields cx cb s t r root
  | .present n x r, root =>
    if x.hasValue then
      andThen
        (match getTarget cx root (names s ++ [n]) n t with
         | .error e => .error e
         | .ok none => .ok root
         | .ok (some b) => copyItem cx cb s n b x root)
        (copyFields cx cb s t r)
    else copyFields cx cb s t r root
termination_by structural x => x
/-- Lines 734-755 for the child `n` with target item at `b`. -/
def copyItem (cx : Cfg V) (cb : Callback V) (s : Addr) (n : Name) (b : Addr) : Node V → Node V →
    Except ConvErr (Node V)
  | .leaf l v, root =>
    match cx.change (names s ++ [n]) with
    | none => andThen (writeAt root b (storeNode cx v)) (after cx cb (s ++ [(n, none)]) (.leaf l v) b)
    | some (.custom f) => writeAt root b (f (.leaf l v))
    | some .structAos => .error .assertion
  | .struct c, root =>
    match cx.change (names s ++ [n]) with
    | none =>
      andThen (copyFields cx cb (s ++ [(n, none)]) b c root) (after cx cb (s ++ [(n, none)]) .struct b)
    | some (.custom f) => writeAt root b (f (.struct c))
    | some .structAos =>
      if isAos root b then
        andThen (andThen (writeAt root b (resizeNode 1))
            (copyFields cx cb (s ++ [(n, none)]) (elemOf b 0) c))
          (after cx cb (s ++ [(n, none)]) .struct (elemOf b 0))
      else .error .assertion
  | .aos m e, root =>
    match cx.change (names s ++ [n]) with
    | none =>
      andThen (andThen (writeAt root b (resizeNode e.length)) (copyElems cx cb s n b 0 e))
        (after cx cb (s ++ [(n, none)]) .aos b)
    | some (.custom f) => writeAt root b (f (.aos m e))
    | some .structAos =>
      if isStruct root b then copySingle cx cb s n b e root else .error .assertion
termination_by structural x => x
/-- An array that becomes a structure (lines 892-900): only an array with one element is copied. Its
element has the metadata of the array. -/
def copySingle (cx : Cfg V) (cb : Callback V) (s : Addr) (n : Name) (b : Addr) :
    Elems V → Node V → Except ConvErr (Node V)
  | .nil, root => .ok root
  | .cons c r, root =>
    match r with
    | .nil =>
      andThen (copyFields cx cb (s ++ [(n, some 0)]) b c root)
        (after cx cb (s ++ [(n, some 0)]) .aos b)
    | .cons _ _ => .ok root
termination_by structural x => x
/-- Lines 744-745: the elements from index `i` on. -/
def copyElems (cx : Cfg V) (cb : Callback V) (s : Addr) (n : Name) (b : Addr) (i : Nat) :
    Elems V → Node V → Except ConvErr (Node V)
  | .nil, root => .ok root
  | .cons c r, root =>
    andThen (copyFields cx cb (s ++ [(n, some i)]) (elemOf b i) c root) (copyElems cx cb s n b (i + 1) r)
termination_by structural x => x
end

end

/-! ### Pulse schedules -/

/-- What the conversion does with values: the numbers in a 1D array of times, the samples in a 1D
array, and the arrays made of them. (Resampled integers are whole numbers: casting them to `int32`,
line 1251, does not change them.) -/
class Series (V : Type) (Y : outParam Type) extends ShapedValue V where
  /-- a 1D array of numbers, as times -/
  times : V → Option (List Rat)
  /-- a 1D array of numbers, as samples -/
  samples : V → Option (List Y)
  ofTimes : List Rat → V
  ofSamples : List Y → V
  times_shape : ∀ v ts, times v = some ts → shape v = [ts.length]
  samples_shape : ∀ v ys, samples v = some ys → shape v = [ys.length]
  times_of : ∀ ts, times (ofTimes ts) = some ts
  samples_of : ∀ ys, samples (ofSamples ys) = some ys

variable [Series V Y]

/-- The times of a coordinate (`coordinates[0].value`). -/
def timesOf (root : Node V) : CoordResult V → Option (List Rat)
  | .node b =>
    match root.at b with
    | some (.leaf _ (some v)) => Series.times v
    | _ => none
  | _ => none

/-- `coordinates[0].is_time_coordinate` of the metadata with the given path. -/
def timed (d : Dict) (q : List Name) : Bool :=
  match (d.node q).coords.head? with
  | some c => c.isTime
  | none => false

/-- Lines 1235-1250: the resampled values of the data node at `s`; `none` is an exception. -/
def resampled (line : Rat → Y → Rat → Y → Rat → Y) (x : Ctx V) (base : List Rat) (s : Addr)
    (l : LeafMeta) (v : V) : Option (List Y) :=
  match x.coordinate s 0 with
  | .error _ => none
  | .ok r =>
    match timesOf x.root r, Series.samples v with
    | some ts, some ys =>
      if ys.length = ts.length then
        resample line (if l.type = .int then .previous else .linear) ts ys base
      else none
    | _, _ => none

/-- `_pulse_schedule_resample_callback` (lines 1232-1251) for the source IDS of `x`. Arrays of
structures have one dimension; interpolating them fails. -/
def callback (line : Rat → Y → Rat → Y → Rat → Y) (cx : Cfg V) (x : Ctx V) (base : List Rat) :
    Callback V
  | s, .leaf l (some v) =>
    if l.ndim = 1 ∧ timed x.dict (names s) = true then
      some fun y =>
        match resampled line x base s l v with
        | some w => storeNode cx (some (Series.ofSamples w)) y
        | none => .error .custom
    else none
  | _, .leaf _ none => none           -- does not happen: only filled items are copied
  | _, .struct => none
  | s, .aos => if timed x.dict (names s) = true then some fun _ => .error .kind else none

def timeName : Name := "time".toList

/-- Lines 1207-1212: the values of all filled nodes named `time`. -/
def timeBases (c : Fields V) : List (Option (List Rat)) :=
  ((treeIter true false false c).filter fun a => (a.getLast?.map (·.1)) = some timeName).map fun a =>
    match (Node.struct c).at a with
    | some (.leaf _ (some v)) => Series.times v
    | _ => none

/-- `numpy.concatenate`; `none` is a `ValueError`. -/
def concatenate : List (Option (List Rat)) → Option (List Rat)
  | [] => some []
  | none :: _ => none
  | some t :: r => (concatenate r).map (t ++ ·)

/-- Line 1214: the common time base. -/
def timeBase (c : Fields V) : Option (List Rat) := (concatenate (timeBases c)).map unique

/-- Lines 1196-1219 for one item of the toplevel with target item at `b`. Items that are neither
structures nor special fail. -/
def pulseItem (line : Rat → Y → Rat → Y → Rat → Y) (cx : Cfg V) (x : Ctx V) (n : Name) (b : Addr) :
    Node V → Node V → Except ConvErr (Node V)
  | .struct c, root =>
    if n = "ids_properties".toList ∨ n = "code".toList then Convert.copyFields cx [n] b c root
    else if n = timeName ∨ n = "event".toList then .error .kind
    else
      match timeBase c with
      | none => .error .custom
      | some base =>
        andThen (writeAt root (b ++ [(timeName, none)]) (storeNode cx (some (Series.ofTimes base))))
          (copyFields cx (callback line cx x base) [(n, none)] b c)
  | .leaf _ v, root => if n = timeName then writeAt root b (storeNode cx v) else .error .kind
  | .aos _ e, root =>
    if n = "event".toList then
      andThen (writeAt root b (resizeNode e.length)) (Convert.copyElems cx [n] b 0 e)
    else .error .kind

/-- `_pulse_schedule_3to4` (lines 1175-1219). -/
def pulseFields (line : Rat → Y → Rat → Y → Rat → Y) (cx : Cfg V) (x : Ctx V) :
    Fields V → Node V → Except ConvErr (Node V)
  | .nil, root => .ok root
  | .absent _ _ r, root => pulseFields line cx x r root
  | .present n y r, root =>
    if y.hasValue then
      andThen
        (match getTarget cx root [n] n [] with
         | .error e => .error e
         | .ok none => .ok root
         | .ok (some b) => pulseItem line cx x n b y root)
        (pulseFields line cx x r)
    else pulseFields line cx x r root

/-- `_pulse_schedule_3to4(toplevel, target, deepcopy, rename_map)` (`convert_ids` line 611). -/
def pulse3to4 (line : Rat → Y → Rat → Y → Rat → Y) (cx : Cfg V) (asInt : V → Option Int) (stack : Nat)
    (d : Dict) (source : Fields V) (target : Node V) : Except ConvErr (Node V) :=
  pulseFields line cx ⟨asInt, stack, d, .struct source⟩ source target

end Verif.Pulse
