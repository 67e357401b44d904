import Verif.Model.Path
/-!
Model of `IDSCoordinate` (`/repo/imas/ids_coordinates.py` lines 24-97): parsing of a
coordinate specification of the Data Dictionary.

Simplifications: the cache of `IDSCoordinate` objects (lines 50-55) is not modelled. An
object is only reused after it has been fully initialised (`_init_done`, line 58), so the
contents depend on the text alone. `int()` is modelled for ASCII text; Python also accepts
other Unicode digits and spaces.
-/
namespace Verif.Coord
open Verif.Path

/-- Is `pre` a prefix of `s`; if so the rest. -/
def dropPrefix? : List Char → List Char → Option (List Char)
  | [], s => some s
  | _ :: _, [] => none
  | p :: ps, c :: cs => if p == c then dropPrefix? ps cs else none

theorem dropPrefix?_eq {p s r : List Char} (h : dropPrefix? p s = some r) : s = p ++ r := by
  induction p generalizing s with
  | nil => simp only [dropPrefix?, Option.some.injEq] at h; simp [h]
  | cons a p ih =>
    cases s with
    | nil => simp [dropPrefix?] at h
    | cons c s =>
      simp only [dropPrefix?] at h
      split at h
      · next e => rw [ih h]; simp at e; simp [e]
      · simp at h

/-- The separator ` OR ` of line 66. -/
def orSep : List Char := [' ', 'O', 'R', ' ']

/-- `str.split(" OR ")` (line 66): cut at each leftmost occurrence. -/
def splitOr (s : List Char) : List (List Char) :=
  match s with
  | [] => [[]]
  | c :: cs =>
    match h : dropPrefix? orSep (c :: cs) with
    | some rest => [] :: splitOr rest
    | none =>
      match splitOr cs with
      | [] => [[c]]
      | first :: more => (c :: first) :: more
termination_by s.length
decreasing_by
  · have := congrArg List.length (dropPrefix?_eq h); simp [orSep] at this ⊢; omega
  · simp

/-- ASCII white space removed by `int()`. -/
def isSpace (c : Char) : Bool :=
  c == ' ' || (9 ≤ c.toNat && c.toNat ≤ 13) || (28 ≤ c.toNat && c.toNat ≤ 31)

/-- `str.strip()`. -/
def strip (s : List Char) : List Char :=
  ((s.dropWhile isSpace).reverse.dropWhile isSpace).reverse

/-- The rest of a digit string: digits, single underscores between digits. -/
def digitTail (acc : Nat) : List Char → Option Nat
  | [] => some acc
  | [c] => if c.isDigit then some (10 * acc + (c.toNat - '0'.toNat)) else none
  | c :: d :: cs =>
    if c.isDigit then digitTail (10 * acc + (c.toNat - '0'.toNat)) (d :: cs)
    else if c == '_' && d.isDigit then digitTail acc (d :: cs)
    else none

/-- A non-empty digit string as accepted by `int()`; more than 4300 digits raise `ValueError`. -/
def digitString (s : List Char) : Option Nat :=
  match s with
  | [] => none
  | c :: _ => if c.isDigit && s.countP Char.isDigit ≤ 4300 then digitTail 0 s else none

/-- Python `int(text)`; `none` is `ValueError`. -/
def pyInt (s : List Char) : Option Int :=
  match strip s with
  | '+' :: t => (digitString t).map Int.ofNat
  | '-' :: t => (digitString t).map fun n => -Int.ofNat n
  | t => (digitString t).map Int.ofNat

/-- What one alternative of a specification contributes. -/
inductive Contrib where
  | nothing
  | size (n : Int)
  | ref (p : Parsed)

/-- One turn of the loop of lines 67-87. -/
def specItem (stack : Nat) (spec : List Char) : Except PathErr Contrib :=
  match dropPrefix? ['1', '.', '.', '.'] spec with
  | some rest =>
    if rest = ['N'] then .ok .nothing
    else match pyInt rest with
      | some n => .ok (.size n)
      | none => .ok .nothing
  | none =>
    match dropPrefix? ['I', 'D', 'S', ':'] spec with
    | some _ => .ok .nothing
    | none =>
      if spec = [] then .ok .nothing
      else match parsePath stack spec with
        | .ok p => .ok (.ref p)
        | .error .value => .ok .nothing
        | .error .recursion => .error .recursion

/-- The two attributes filled by the loop. -/
structure Partial where
  size : Option Int
  refs : List Parsed

/-- Lines 67-87: the loop over the alternatives. -/
def specLoop (stack : Nat) : Partial → List (List Char) → Except PathErr Partial
  | s, [] => .ok s
  | s, spec :: more =>
    match specItem stack spec with
    | .error e => .error e
    | .ok .nothing => specLoop stack s more
    | .ok (.size n) => specLoop stack { s with size := some n } more
    | .ok (.ref p) => specLoop stack { s with refs := s.refs ++ [p] } more

/-- An initialised `IDSCoordinate` (lines 61-97). -/
structure Coordinate where
  size : Option Int
  references : List Parsed
  hasValidation : Bool
  hasAlternatives : Bool
  isTime : Bool

/-- Lines 88-97. -/
def finish (s : Partial) : Coordinate :=
  let rules := s.refs.length + (if s.size.isSome then 1 else 0)
  { size := s.size, references := s.refs, hasValidation := decide (rules > 0),
    hasAlternatives := decide (rules > 1), isTime := s.refs.any isTimePath }

/-- `IDSCoordinate(spec)` (lines 57-97). `stack` is the remaining depth of the call stack. -/
def parseCoordinate (stack : Nat) (spec : List Char) : Except PathErr Coordinate :=
  match specLoop stack ⟨none, []⟩ (splitOr spec) with
  | .error e => .error e
  | .ok s => .ok (finish s)

end Verif.Coord
