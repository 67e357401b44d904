/-!
`imas/command/timer.py`: the class `Timer`, which times sections of a program and shows them in a table (`imas convert --timeit`).

Simplifications: times are integers (clock ticks) instead of floating point numbers, so sums do not depend on the order. The text of a
cell is the duration itself, or `none` for `-`; titles, alignment and number format are left out. Sections are listed in the order in
which they end, as only the end of a section changes the timer.
-/
namespace Verif.Timer

variable {L : Type} [DecidableEq L]

inductive Exc where
  | key | notImplemented
deriving DecidableEq

/-- A timer: `axes` (only their number is used), `axes_values` and `data` (lines 30-33). Dictionaries are lists in insertion order. -/
structure Timer (L : Type) where
  axes : Nat
  values : List (List L)
  data : List (List L × Int)

/-- `Timer(*axes)` (lines 30-33). -/
def new (L : Type) (axes : Nat) : Timer L := ⟨axes, List.replicate axes [], []⟩

/-- `dictionary[key] = None`: keys keep their first position. -/
def addKey (l : List L) (x : L) : List L := if x ∈ l then l else l ++ [x]

/-- `dictionary[key] = value`. -/
def put (k : List L) (d : Int) : List (List L × Int) → List (List L × Int)
  | [] => [(k, d)]
  | (k', d') :: r => if k' = k then (k', d) :: r else (k', d') :: put k d r

/-- `dictionary.get(key)`. -/
def find (k : List L) : List (List L × Int) → Option Int
  | [] => none
  | (k', d) :: r => if k' = k then some d else find k r

/-- One `with timer(*items):`, the clock at its begin and end, and whether its body raises. -/
structure Section (L : Type) where
  items : List L
  tic : Int
  toc : Int
  raises : Bool

/-- `Timer.__call__` (lines 35-43). The assertion fails before the body is executed. If the body raises, the exception is raised at the
`yield`, so nothing after it is executed. -/
def step (t : Timer L) (s : Section L) : Timer L :=
  if s.items.length ≠ t.axes then t
  else if s.raises then t
  else { t with data := put s.items (s.toc - s.tic) t.data, values := List.zipWith addKey t.values s.items }

/-- Time some sections. -/
def run (t : Timer L) (l : List (Section L)) : Timer L := l.foldl step t

/-- `totals[col] += value` (line 55). -/
def addTotal (c : L) (d : Int) : List (L × Int) → Except Exc (List (L × Int))
  | [] => .error .key
  | (c', x) :: r => if c' = c then .ok ((c', x + d) :: r) else (addTotal c d r).map ((c', x) :: ·)

/-- The loop over `self.data.items()` (lines 54-55). Keys are pairs here, as there are two axes. -/
def totals : List (List L × Int) → List (L × Int) → Except Exc (List (L × Int))
  | [], acc => .ok acc
  | (k, d) :: r, acc =>
    match k with
    | [c, _] =>
      match addTotal c d acc with
      | .ok acc => totals r acc
      | .error e => .error e
    | _ => .error .key

/-- The table: the headers and footers of its columns (after the first one), the label and the cells of its rows. -/
structure Table (L : Type) where
  headers : List L
  footers : List Int
  rows : List (L × List (Option Int))

/-- `Timer.get_table` (lines 45-77). -/
def getTable (t : Timer L) : Except Exc (Table L) :=
  if t.axes = 2 then
    match t.values with
    | [cols, rows] =>
      match totals t.data (cols.map (·, 0)) with
      | .error e => .error e
      | .ok tot => .ok ⟨cols, tot.map (·.2), rows.map fun r => (r, cols.map fun c => find [c, r] t.data)⟩
    | _ => .error .notImplemented
  else .error .notImplemented

end Verif.Timer
