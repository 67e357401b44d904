import Verif.Model.AlStore
import Verif.Spec.Convert
/-
Where the nodes of an IDS are stored.
-/
namespace Verif.AlSpec
open Verif.Ids Verif.Al Verif.DiffSpec Verif.ConvertSpec

variable {V : Type}

/-- The Data Dictionary entry of the node at a position. -/
def atMeta : Meta → Addr → Option Meta
  | m, [] => some m
  | .struct c, (n, i) :: a =>
    match mchild c n, i with
    | some x, none => atMeta x a
    | some (.aos d), some _ => atMeta (.struct d) a
    | _, _ => none
  | _, _ :: _ => none

/-- Where the node at position `a` of a structure is stored, if the structure has path `p` and is stored at
`P`: the low-level path of the node itself, and those of the arrays of structures around it, with their indices. `none` if the
node, or a node above it, is not stored at all. `T` gives the low-level paths. -/
def keyOf (T : Path → Option Path) : Path → Pos → Addr → Option (Pos × Path)
  | _, _, [] => none
  | p, P, [(n, none)] => (T (p ++ [n])).map (P, ·)
  | p, P, (n, none) :: b :: a => (T (p ++ [n])).bind fun _ => keyOf T (p ++ [n]) P (b :: a)
  | p, P, (n, some i) :: a => (T (p ++ [n])).bind fun q => keyOf T (p ++ [n]) (P ++ [(q, i)]) a

/-- The low-level path used for a Data Dictionary path. -/
def pathOf (E : Env V) (p : Path) : Option Path := (target E p).map (·.1)

/-- All elements on the way to this position are stored. -/
def Exists (S : Store V) (Q : Pos) : Prop :=
  ∀ Q1 q i Q2, Q = Q1 ++ (q, i) :: Q2 → i < S.size Q1 q

/-- The path of a node relative to the nearest array of structures above it: `c` are the children of the
structure where the path starts, `acc` the path of that structure relative to the nearest array. -/
def relPath : MFields → Path → Path → Path
  | _, acc, [] => acc
  | c, acc, n :: p =>
    match mchild c n with
    | some (.struct d) => relPath d (acc ++ [n]) p
    | some (.aos d) => if p = [] then acc ++ [n] else relPath d [] p
    | _ => acc ++ n :: p

/-- The node at position `a`, or a structure or array of structures above it, is time dependent. -/
def TimeDependent (I : Info V) (a : Addr) : Prop := ∃ t, t ≠ [] ∧ t <+: Verif.Convert.names a ∧ I.dynamic t = true

/-- 0D data nodes do not hold the value that means "not set" (`ids_primitive.py` lines 189-191). -/
def NoDefaults (I : Info V) (f : Fields V) : Prop :=
  ∀ a l v, (Node.struct f).at a = some (.leaf l (some v)) → l.ndim = 0 → I.isDefault l v = false

mutual
/-- No array of structures has more elements than the Data Dictionary allows. -/
def WithinMax (I : Info V) (p : Path) : Node V → Prop
  | .leaf _ _ => True
  | .struct f => WithinMaxF I p f
  | .aos _ e => (I.maxoccur p = 0 ∨ e.length ≤ I.maxoccur p) ∧ WithinMaxE I p e
def WithinMaxF (I : Info V) (p : Path) : Fields V → Prop
  | .nil => True
  | .absent _ _ r => WithinMaxF I p r
  | .present n x r => WithinMax I (p ++ [n]) x ∧ WithinMaxF I p r
def WithinMaxE (I : Info V) (p : Path) : Elems V → Prop
  | .nil => True
  | .cons f r => WithinMaxF I p f ∧ WithinMaxE I p r
end

end Verif.AlSpec
