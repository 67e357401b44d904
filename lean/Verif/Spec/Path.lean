import Verif.Model.Path
/-
Independent specification of IDS path texts: a grammar relating a text to the field names
and indices it denotes. It uses only the data types `Idx`, not the parser.
-/
namespace Verif.PathSpec
open Verif.Path (Idx)

def Lower (c : Char) : Prop := 'a' ≤ c ∧ c ≤ 'z'
def Digit (c : Char) : Prop := '0' ≤ c ∧ c ≤ '9'

/-- A Data Dictionary node name: starts with `a-z`, continues with `a-z`, `0-9`, `_`, and
has no two consecutive underscores. -/
def FieldName (s : List Char) : Prop :=
  (∃ c cs, s = c :: cs ∧ Lower c ∧ ∀ x ∈ cs, Lower x ∨ Digit x ∨ x = '_') ∧
  ¬ ∃ l r, s = l ++ '_' :: '_' :: r

/-- Non-empty digit strings. -/
def Number (s : List Char) : Prop := s ≠ [] ∧ ∀ x ∈ s, Digit x
/-- Decimal value of a digit string. -/
def value (s : List Char) : Int := (Nat.ofDigitChars 10 s 0 : Nat)

/-- Dummy index names: `itime`, `i0` ... `i9`. -/
def Generic (s : List Char) : Prop := s = "itime".toList ∨ ∃ d, Digit d ∧ s = ['i', d]

/-- An optional slice bound: empty text or a number. -/
inductive Bound (shift : Int) : List Char → Option Int → Prop
  | absent : Bound shift [] none
  | given {s : List Char} (h : Number s) : Bound shift s (some (value s - shift))

/-- The brackets and the base of explicit indices: Fortran style (`true`) writes `(1)` for
the first element, Python style writes `[0]`. -/
def opening (fortran : Bool) : Char := if fortran then '(' else '['
def closing (fortran : Bool) : Char := if fortran then ')' else ']'
def base (fortran : Bool) : Int := if fortran then 1 else 0

/-- Separator before a name: a slash, which may be left out at the start of a path and
directly after a closing bracket (`need = false`). -/
def Sep (need : Bool) (s : List Char) : Prop := s = ['/'] ∨ (s = [] ∧ need = false)

mutual
/-- `PathText fortran need text names indices`: `text` denotes the given names and indices. -/
inductive PathText (fortran : Bool) :
    Bool → List Char → List (List Char) → List (Option Idx) → Prop
  | nil {need : Bool} : PathText fortran need [] [] []
  | plain {need : Bool} {sep name t : List Char} {ps : List (List Char)} {is : List (Option Idx)}
      (hs : Sep need sep) (hn : FieldName name) (rest : PathText fortran true t ps is) :
      PathText fortran need (sep ++ name ++ t) (name :: ps) (none :: is)
  | indexed {need : Bool} {sep name it t : List Char} {idx : Idx} {ps : List (List Char)}
      {is : List (Option Idx)}
      (hs : Sep need sep) (hn : FieldName name) (hi : IndexText fortran it idx)
      (rest : PathText fortran false t ps is) :
      PathText fortran need (sep ++ name ++ opening fortran :: it ++ closing fortran :: t)
        (name :: ps) (some idx :: is)
/-- The text between brackets and the index it denotes. -/
inductive IndexText (fortran : Bool) : List Char → Idx → Prop
  | generic {s : List Char} (h : Generic s) : IndexText fortran s (.generic s)
  | num {s : List Char} (h : Number s) : IndexText fortran s (.num (value s - base fortran))
  | slice {a b : List Char} {start stop : Option Int}
      (ha : Bound (base fortran) a start) (hb : Bound 0 b stop) :
      IndexText fortran (a ++ ':' :: b) (.slice start stop)
  | path {s : List Char} {ps : List (List Char)} {is : List (Option Idx)}
      (hg : ¬ Generic s) (h : PathText fortran false s ps is) :
      IndexText fortran s (.path ps is)
end

/-- `text` is a well-formed path denoting `names` with `indices`, in one of the two
styles. -/
def Denotes (text : List Char) (names : List (List Char)) (indices : List (Option Idx)) : Prop :=
  ∃ fortran, PathText fortran false text names indices

/-! ### Writing a path -/

mutual
/-- A path to be written: a sequence of field names, each with an optional index. -/
inductive PathItems where
  | done
  | plain (name : List Char) (rest : PathItems)
  | indexed (name : List Char) (index : Index) (rest : PathItems)
/-- Indices count from zero. -/
inductive Index where
  | generic (text : List Char)
  | num (i : Nat)
  | slice (start stop : Option Nat)
  | path (p : PathItems)
end

/-- Field names of a path. -/
def PathItems.names : PathItems → List (List Char)
  | .done => []
  | .plain n r => n :: r.names
  | .indexed n _ r => n :: r.names

mutual
/-- The indices, with the nested paths as they appear on an `IDSPath`. -/
def PathItems.indices : PathItems → List (Option Idx)
  | .done => []
  | .plain _ r => none :: r.indices
  | .indexed _ i r => some i.toIdx :: r.indices
def Index.toIdx : Index → Idx
  | .generic t => .generic t
  | .num i => .num i
  | .slice a b => .slice (a.map Int.ofNat) (b.map Int.ofNat)
  | .path p => .path p.names p.indices
end

/-- Decimal digits. -/
def digits (n : Nat) : List Char := Nat.toDigits 10 n

/-- An optional slice bound, counted from `base`. -/
def writeBound (base : Nat) : Option Nat → List Char
  | none => []
  | some n => digits (n + base)

mutual
/-- Write a path in Fortran style (`true`: `(` `)`, counting from one) or Python style
(`false`: `[` `]`, counting from zero). `first` tells that no slash is to be written. -/
def PathItems.write (fortran first : Bool) : PathItems → List Char
  | .done => []
  | .plain n r => (if first then [] else ['/']) ++ n ++ r.write fortran false
  | .indexed n i r =>
    (if first then [] else ['/']) ++ n ++
      (if fortran then '(' else '[') :: i.write fortran ++
      (if fortran then ')' else ']') :: r.write fortran false
def Index.write (fortran : Bool) : Index → List Char
  | .generic t => t
  | .num i => digits (i + if fortran then 1 else 0)
  | .slice a b => writeBound (if fortran then 1 else 0) a ++ ':' :: writeBound 0 b
  | .path p => p.write fortran true
end

/-- A path consisting of a single name that reads as a dummy index. -/
def PathItems.looksGeneric : PathItems → Prop
  | .plain n .done => Generic n
  | _ => False

mutual
/-- All names are Data Dictionary names, generic indices are `itime`, `i0`..`i9`, and no
nested path is a single name that reads as a generic index. -/
def PathItems.WF : PathItems → Prop
  | .done => True
  | .plain n r => FieldName n ∧ r.WF
  | .indexed n i r => FieldName n ∧ i.WF ∧ r.WF
def Index.WF : Index → Prop
  | .generic t => Generic t
  | .num _ => True
  | .slice _ _ => True
  | .path p => p.WF ∧ ¬ p.looksGeneric
end

end Verif.PathSpec
