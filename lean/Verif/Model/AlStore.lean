import Verif.Model.Al
/-
A working low level: what the compiled Access Layer library is assumed to do (it is not part of the repository).
It keeps the contexts in a stack and refuses calls on a context that is not the newest one. Data is stored per
occurrence, at low-level paths relative to the innermost array of structures.
-/
namespace Verif.Al
open Verif.Ids

/-- A position in stored data: the low-level paths and indices of the enclosing arrays of structures. -/
abbrev Pos := List (Path × Nat)

/-- The stored data of one occurrence: values, and sizes of arrays of structures. -/
structure Store (V : Type) where
  data : Pos → Path → Option V
  size : Pos → Path → Nat

variable {V : Type}

def Store.setData (S : Store V) (P : Pos) (q : Path) (v : V) : Store V :=
  { S with data := fun Q r => if Q = P ∧ r = q then some v else S.data Q r }

def Store.setSize (S : Store V) (P : Pos) (q : Path) (n : Nat) : Store V :=
  { S with size := fun Q r => if Q = P ∧ r = q then n else S.size Q r }

/-- A low-level path at the top of the occurrence, of the data itself or of the outermost array of
structures around it. -/
def topPath : Pos → Path → Path
  | [], q => q
  | (r, _) :: _, _ => r

/-- Delete the data at a low-level path, and all data below it. -/
def Store.delete (S : Store V) (q : Path) : Store V :=
  { data := fun Q r => if q <+: topPath Q r then none else S.data Q r
    size := fun Q r => if q <+: topPath Q r then 0 else S.size Q r }

/-- What differs between low levels: what is seen through a context for reading (slices and samples are
interpolated), and how slices are appended. A context for reading everything shows the data as stored. -/
structure Backend (V : Type) where
  view : Begin → Store V → Store V
  view_global : ∀ occ w d S, view (.global occ w d) S = S
  appendData : Store V → Pos → Path → Text → V → Store V
  appendSize : Store V → Pos → Path → Text → Nat → Store V

/-- Open contexts: an action on an occurrence, or an array of structures with its size and current index. -/
inductive Frame where
  | act (b : Begin)
  | aos (q : Path) (size : Nat) (index : Nat)

/-- State of the low level: stored data, open contexts (newest first), next context identifier. -/
structure Disk (V : Type) where
  stores : Text → Store V
  stack : List (Ctx × Frame)
  next : Ctx

def posOf : List (Ctx × Frame) → Pos
  | [] => []
  | (_, .act _) :: _ => []
  | (_, .aos q _ i) :: r => posOf r ++ [(q, i)]

def actOf : List (Ctx × Frame) → Option Begin
  | [] => none
  | (_, .act b) :: _ => some b
  | (_, .aos _ _ _) :: r => actOf r

def Begin.occ : Begin → Text
  | .global o _ _ => o
  | .slice o _ _ => o
  | .timerange o _ => o
  | .aos _ _ _ => []

def Begin.writes : Begin → Bool
  | .global _ w _ => w
  | .slice _ w _ => w
  | _ => false

def Begin.isAos : Begin → Bool
  | .aos _ _ _ => true
  | _ => false

/-- The newest context is `c`. -/
def isTop (c : Ctx) : List (Ctx × Frame) → Bool
  | [] => false
  | (c', _) :: _ => c' == c

def setStore (f : Text → Store V) (o : Text) (S : Store V) : Text → Store V :=
  fun o' => if o' = o then S else f o'

section
variable (B : Backend V) (db : Ctx)

def diskBegin (d : Disk V) (c : Ctx) (b : Begin) : Option (Ctx × Nat) × Disk V :=
  match b with
  | .aos q tb n =>
    match actOf d.stack with
    | none => (none, d)
    | some a =>
      if !isTop c d.stack then (none, d)
      else if a.writes then
        (some (d.next, n),
          { stores := setStore d.stores a.occ (match a with
              | .slice _ _ _ => B.appendSize (d.stores a.occ) (posOf d.stack) q tb n
              | _ => (d.stores a.occ).setSize (posOf d.stack) q n)
            stack := (d.next, .aos q n 0) :: d.stack, next := d.next + 1 })
      else
        (some (d.next, (B.view a (d.stores a.occ)).size (posOf d.stack) q),
          { d with stack := (d.next, .aos q ((B.view a (d.stores a.occ)).size (posOf d.stack) q) 0) :: d.stack
                   next := d.next + 1 })
  | b =>
    match d.stack with
    | [] => if c = db then (some (d.next, 0), { d with stack := [(d.next, .act b)], next := d.next + 1 })
            else (none, d)
    | _ => (none, d)

def diskIterate (d : Disk V) (c : Ctx) (step : Int) : Bool × Disk V :=
  match d.stack with
  | (c', .aos q n i) :: r =>
    if c' = c then (true, { d with stack := (c', .aos q n ((i : Int) + step).toNat) :: r }) else (false, d)
  | _ => (false, d)

def diskRead (d : Disk V) (c : Ctx) (q : Path) : Option (Option V) × Disk V :=
  match actOf d.stack with
  | none => (none, d)
  | some a =>
    if isTop c d.stack then (some ((B.view a (d.stores a.occ)).data (posOf d.stack) q), d) else (none, d)

def diskWrite (d : Disk V) (c : Ctx) (q : Path) (tb : Text) (v : V) : Bool × Disk V :=
  match actOf d.stack with
  | none => (false, d)
  | some a =>
    if isTop c d.stack && a.writes then
      (true, { d with stores := setStore d.stores a.occ (match a with
        | .slice _ _ _ => B.appendData (d.stores a.occ) (posOf d.stack) q tb v
        | _ => (d.stores a.occ).setData (posOf d.stack) q v) })
    else (false, d)

def diskDelete (d : Disk V) (c : Ctx) (q : Path) : Bool × Disk V :=
  match d.stack with
  | [(c', .act a)] =>
    if c' = c && a.writes then
      (true, { d with stores := setStore d.stores a.occ ((d.stores a.occ).delete q) })
    else (false, d)
  | _ => (false, d)

def diskFinish (d : Disk V) (c : Ctx) : Disk V :=
  match d.stack with
  | (c', _) :: r => if c' = c then { d with stack := r } else d
  | [] => d

/-- The low level. -/
def disk : LL (Disk V) V where
  begin := diskBegin B db
  iterate := diskIterate
  read d c q _ _ := diskRead B d c q
  write := diskWrite B
  delete := diskDelete
  finish := diskFinish

end

end Verif.Al
