import Verif.Model.Strings
/-!
Specification of the edits of lists of strings, in terms of texts and positions. From the model it takes the objects, the
oracle `Conv` for Python's conversions, and the results; none of the functions.
-/
namespace Verif.StringsSpec
open Verif.Ids Verif.Strings

variable {F : Type}

/-- The object is a string. -/
def IsStr (x : Obj F) : Prop := ∃ s, x = .val (.str s)

/-- The text of an object: a string is its own text, Python makes the text of others. -/
inductive Text (cv : Conv F) : Obj F → List Char → Prop
  | own (s) : Text cv (.val (.str s)) s
  | made (x s) : ¬ IsStr x → cv.string x = some s → Text cv x s

/-- An object without text. -/
def NoText (cv : Conv F) (x : Obj F) : Prop := ∀ t, ¬ Text cv x t

/-- The texts of objects, in order. -/
inductive Texts (cv : Conv F) : List (Obj F) → List (List Char) → Prop
  | nil : Texts cv [] []
  | cons (x xs t ts) : Text cv x t → Texts cv xs ts → Texts cv (x :: xs) (t :: ts)

/-- Strings as objects. -/
def strs (ts : List (List Char)) : List (Obj F) := ts.map fun t => .val (.str t)

/-- Objects other than strings, lists, and nodes with strings. -/
def Foreign : Obj F → Prop
  | .val (.str _) | .val (.strs _) | .list _ | .node _ (some (.strs _)) => False
  | _ => True

/-- What iterating over an object gives. -/
inductive Items (cv : Conv F) : Obj F → List (Obj F) → Prop
  /-- the characters of a string -/
  | chars (s) : Items cv (.val (.str s)) (strs (s.map fun c => [c]))
  | texts (l) : Items cv (.val (.strs l)) (strs l)
  | node (m l) : Items cv (.node m (some (.strs l))) (strs l)
  | list (l) : Items cv (.list l) l
  | foreign (x xs) : Foreign x → cv.iter x = some xs → Items cv x xs

/-! ### Slices, as in the Python documentation -/

/-- The step of a slice. -/
def stepOf (sl : Slice) : Int := sl.step.getD 1

/-- A bound of a slice of a list of length `n`: negative ones count from the end, then it is limited to the list (to the places
between `0` and `n`; for a negative step between `-1` and `n - 1`). -/
def boundOf (n : Nat) (sl : Slice) (i : Int) : Int :=
  let j := if i < 0 then i + n else i
  if stepOf sl < 0 then max (-1) (min (n - 1) j) else max 0 (min n j)

def startOf (n : Nat) (sl : Slice) : Int :=
  match sl.start with
  | some i => boundOf n sl i
  | none => if stepOf sl < 0 then n - 1 else 0

def stopOf (n : Nat) (sl : Slice) : Int :=
  match sl.stop with
  | some i => boundOf n sl i
  | none => if stepOf sl < 0 then -1 else n

/-- `p` is the place of item number `m` of the slice: the items are those at `start`, `start + step`, … before `stop` is
reached. -/
def Selects (n : Nat) (sl : Slice) (m p : Nat) : Prop :=
  (p : Int) = startOf n sl + m * stepOf sl ∧
    (0 < stepOf sl → (p : Int) < stopOf n sl) ∧ (stepOf sl < 0 → stopOf n sl < (p : Int))

/-- All items of a list are strings. -/
def AllStr (l : List (Obj F)) : Prop := ∀ x ∈ l, IsStr x

/-- The edits that go through `IDSString1D` itself, and `pop`; an `insert` only of a string. -/
def Guarded : Edit F → Prop
  | .insert _ x => IsStr x
  | _ => True

end Verif.StringsSpec
