/-
Model of `imas/ids_path.py`: splitting and parsing of IDS paths.

Representation: a Python `str` is a `List Char`. Exceptions are values of `PathErr`.
-/
namespace Verif.Path

/-- Exceptions that constructing an `IDSPath` can raise. `recursion` is Python's
`RecursionError`: the parser calls itself for nested index paths, see `parsePath`. -/
inductive PathErr where
  | value      -- ValueError
  | recursion  -- RecursionError
  deriving DecidableEq, Repr

/-- `str.find(c, start)`: first position `≥ start` holding `c`; `none` is Python's `-1`. -/
def find (p : List Char) (c : Char) (start : Nat) : Option Nat :=
  ((p.drop start).findIdx? (· == c)).map (· + start)

/-- Python slice `p[a:b]` with `0 ≤ a`, `0 ≤ b`. -/
def slice (p : List Char) (a b : Nat) : List Char := (p.take b).drop a

theorem find_ge {p : List Char} {c : Char} {s n : Nat} (h : find p c s = some n) : s ≤ n := by
  unfold find at h
  cases hi : (p.drop s).findIdx? (· == c) with
  | none => simp [hi] at h
  | some i => simp [hi] at h; omega

theorem find_lt {p : List Char} {c : Char} {s n : Nat} (h : find p c s = some n) :
    n < p.length := by
  unfold find at h
  cases hi : (p.drop s).findIdx? (· == c) with
  | none => simp [hi] at h
  | some i =>
    simp [hi] at h
    have := (List.findIdx?_eq_some_iff_findIdx_eq.mp hi).1
    simp at this; omega

/-- `imas/ids_path.py` lines 36-41: given the next opening bracket (`nextOpen`) and the
next closing bracket, advance both until the closing bracket matches. -/
def matchClose (p : List Char) (o c : Char) (nextOpen : Option Nat) (nextClose : Nat) :
    Except PathErr Nat :=
  match nextOpen with
  | none => .ok nextClose
  | some no =>
    if no < nextClose then
      match hf : find p c (nextClose + 1) with
      | none => .error .value
      | some nc => matchClose p o c (find p o (no + 1)) nc
    else .ok nextClose
termination_by match nextOpen with | none => 0 | some no => p.length + 1 - no
decreasing_by
  have h1 := find_lt hf
  have h2 := find_ge hf
  cases h : find p o (no + 1) with
  | none => simp; omega
  | some m =>
    have := find_ge h
    have := find_lt h
    simp; omega

theorem matchClose_ge {p : List Char} {o c : Char} {no : Option Nat} {nc m : Nat}
    (h : matchClose p o c no nc = .ok m) : nc ≤ m := by
  fun_induction matchClose p o c no nc with
  | case1 nc => simp at h; omega
  | case2 nc no hlt hf => simp at h
  | case3 nc no hlt nc' hf ih => have := find_ge hf; have := ih h; omega
  | case4 nc no hlt => simp at h; omega

/-- `_split_on_matching_parens` (`imas/ids_path.py` lines 20-47), the `while True` loop
started at `cur`. -/
def splitLoop (p : List Char) (o c : Char) (cur : Nat) : Except PathErr (List (List Char)) :=
  match hno : find p o cur with
  | none => .ok [p.drop cur]
  | some no =>
    match hnc : find p c cur with
    | none => .error .value            -- next_close == -1 < next_open
    | some nc =>
      if no > nc then .error .value
      else
        match hm : matchClose p o c (find p o (no + 1)) nc with
        | .error e => .error e
        | .ok nc' =>
          match splitLoop p o c (nc' + 1) with
          | .error e => .error e
          | .ok rest => .ok (slice p cur no :: slice p (no + 1) nc' :: rest)
termination_by p.length - cur
decreasing_by
  have h1 := find_ge hno
  have h2 := find_lt hno
  have h3 := matchClose_ge hm
  omega

/-- `_split_on_matching_parens` (`imas/ids_path.py` lines 20-47). -/
def splitOnMatchingParens (p : List Char) (o c : Char) : Except PathErr (List (List Char)) :=
  splitLoop p o c 0

/-- `_number` (line 50): `\d+`, ASCII, fullmatch. -/
def isNumber (s : List Char) : Bool := !s.isEmpty && s.all Char.isDigit

/-- `_slice` (line 51): `\d*:\d*`, ASCII, fullmatch. -/
def isSlice : List Char → Bool
  | [] => false
  | c :: cs => if c == ':' then cs.all Char.isDigit else c.isDigit && isSlice cs

/-- `_generic_index` (line 52): `itime|i\d`, ASCII, fullmatch. -/
def isGeneric (s : List Char) : Bool :=
  s == ['i', 't', 'i', 'm', 'e'] ||
  match s with
  | [i, d] => i == 'i' && d.isDigit
  | _ => false

/-- The tail `([a-z0-9]|_(?!_))*` of `_valid_field` (line 55). -/
def isFieldTail : List Char → Bool
  | [] => true
  | c :: cs =>
    (c.isLower || c.isDigit || (c == '_' && cs.head? != some '_')) && isFieldTail cs

/-- `_valid_field` (line 55): `[a-z]([a-z0-9]|_(?!_))*`, ASCII, fullmatch. -/
def isValidField : List Char → Bool
  | [] => false
  | c :: cs => c.isLower && isFieldTail cs

/-- `int(s)` for a non-empty string of ASCII digits. -/
def toInt (s : List Char) : Int :=
  (s.foldl (fun acc c => 10 * acc + (c.toNat - '0'.toNat)) 0 : Nat)

/-- `str.split(c)`. -/
def splitChar (c : Char) : List Char → List (List Char)
  | [] => [[]]
  | x :: xs =>
    if x == c then [] :: splitChar c xs
    else match splitChar c xs with
      | [] => [[x]]            -- unreachable: `splitChar` is never empty
      | w :: ws => (x :: w) :: ws

/-- An index in a path (`_IndexType`, line 16), without `None`. A nested `IDSPath` is
represented by its `parts` and `indices`. -/
inductive Idx where
  | generic (s : List Char)
  | num (i : Int)
  | slice (start stop : Option Int)
  | path (parts : List (List Char)) (indices : List (Option Idx))
  deriving Repr

/-- `parts` and `indices` of an `IDSPath` (line 143). -/
structure Parsed where
  parts : List (List Char)
  indices : List (Option Idx)
  deriving Repr

/-- `int(...) - fortran_style` -/
def dec (f : Bool) (i : Int) : Int := if f then i - 1 else i

/-- Lines 88-102: interpret the text between brackets. `nested` is the constructor
`IDSPath(index)`. -/
def parseIndex (nested : List Char → Except PathErr Parsed) (f : Bool) (index : List Char) :
    Except PathErr Idx :=
  if isGeneric index then .ok (.generic index)
  else if isNumber index then .ok (.num (dec f (toInt index)))
  else if isSlice index then
    match splitChar ':' index with
    | [start, stop] =>
      .ok (.slice (if start.isEmpty then none else some (dec f (toInt start)))
                  (if stop.isEmpty then none else some (toInt stop)))
    | _ => .error .value     -- tuple unpacking error, unreachable for a slice
  else
    match nested index with
    | .error e => .error e
    | .ok r => .ok (.path r.parts r.indices)

/-- Lines 85 and 105: `(part[1:] if part[0] == "/" else part).split("/")` for a non-empty
part. -/
def splitPart (part : List Char) : List (List Char) :=
  splitChar '/' (match part with | '/' :: cs => cs | cs => cs)

/-- Lines 81-107: loop over the pieces returned by the splitter. `[None] * len(parts)`
followed by `path_indices[-1] = ...` is `replicate (len - 1) none ++ [some idx]`. -/
def parsePieces (nested : List Char → Except PathErr Parsed) (f : Bool) :
    List (List Char) → Except PathErr Parsed
  | [] => .ok ⟨[], []⟩       -- unreachable: the splitter returns at least one piece
  | [last] =>
    if last.isEmpty then .ok ⟨[], []⟩
    else
      let names := splitPart last
      .ok ⟨names, List.replicate names.length none⟩
  | part :: index :: rest =>
    if part.isEmpty then .error .value
    else
      let names := splitPart part
      match parseIndex nested f index with
      | .error e => .error e
      | .ok idx =>
        match parsePieces nested f rest with
        | .error e => .error e
        | .ok r =>
          .ok ⟨names ++ r.parts, List.replicate (names.length - 1) none ++ some idx :: r.indices⟩

/-- `"[("[fortran_style]` (line 78). -/
def openChar (f : Bool) : Char := if f then '(' else '['
/-- `"])"[fortran_style]` (line 78). -/
def closeChar (f : Bool) : Char := if f then ')' else ']'

/-- `_parse_path` (lines 58-111). The first argument is the remaining depth of the Python
call stack: nested index paths call `IDSPath(index)` recursively, and running out of stack
raises `RecursionError`. The cache of `IDSPath` is modelled in `Verif.Model.PathCache`. -/
def parsePath : Nat → List Char → Except PathErr Parsed
  | 0, _ => .error .recursion
  | stack + 1, path =>
    let f := path.contains '('
    if f && path.contains '[' then .error .value
    else
      match splitOnMatchingParens path (openChar f) (closeChar f) with
      | .error e => .error e
      | .ok pieces =>
        match parsePieces (parsePath stack) f pieces with
        | .error e => .error e
        | .ok r => if r.parts.all isValidField then .ok r else .error .value

/-- `IDSPath.is_ancestor_of` (lines 251-254). -/
def isAncestorOf (a b : Parsed) : Bool :=
  decide (a.parts.length < b.parts.length) && b.parts.take a.parts.length == a.parts

/-- `IDSPath.is_time_path` (line 144): `self.parts and self.parts[-1] == "time"`. -/
def isTimePath (a : Parsed) : Bool := a.parts.getLast? == some ['t', 'i', 'm', 'e']

end Verif.Path
