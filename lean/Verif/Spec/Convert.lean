import Verif.Model.Convert
import Verif.Spec.Goto
import Verif.Spec.Tree
import Verif.Spec.Diff
import Verif.Spec.Update
/-
Specification of conversions: where each node of the source goes.
-/
namespace Verif.ConvertSpec
open Verif.Ids Verif.Convert Verif.TreeSpec
open Verif.GotoSpec (common)

variable {V : Type}

/-- The child of a Data Dictionary entry. -/
def mchild : MFields → Name → Option Meta
  | .nil, _ => none
  | .cons n m r, k => if k = n then some m else mchild r k

def child : Meta → Name → Option Meta
  | .leaf _, _ => none
  | .struct c, n => mchild c n
  | .aos c, n => mchild c n

/-- The Data Dictionary entry with a given path. -/
def metaAt : Meta → List Name → Option Meta
  | m, [] => some m
  | m, n :: r => (child m n).bind (metaAt · r)

/-- The position a Data Dictionary path `q` denotes, as seen from the position `t`: the names shared
with `t` keep the indices of `t`. -/
def relocate (t : Addr) (q : List Name) : Addr :=
  t.take (common (names t) q) ++ (q.drop (common (names t) q)).map (·, none)

/-- Where the child `n` (with path `q`) of a structure goes that itself goes to `t`: nowhere if the
map says so, to the renamed path, or to the child with the same name. If the target dictionary
`tm` has no such child, its parts may still go to places within `t`. -/
def step (cx : Cfg V) (tm : Meta) (q : List Name) (n : Name) (t : Addr) : Option Addr :=
  match cx.path q with
  | some none => none
  | some (some r) => some (relocate t r)
  | none => some (if (metaAt tm (names t ++ [n])).isSome then t ++ [(n, none)] else t)

/-- `Sent cx tm p t c A B`: the node at `A` in the structure `c` (which has path `p` and goes to
`t`) goes to `B`. A structure that became an array goes to its first element and vice versa (if the
array has one element only). The parts of nodes with other type changes go nowhere. -/
inductive Sent (cx : Cfg V) (tm : Meta) :
    List Name → Addr → Fields V → Addr → Addr → Prop
  | here {p : List Name} {t : Addr} {c : Fields V} {n : Name} {x : Node V} {b : Addr}
      (h : c.get? n = some x) (hb : step cx tm (p ++ [n]) n t = some b) :
      Sent cx tm p t c [(n, none)] b
  | child {p : List Name} {t : Addr} {c d : Fields V} {n : Name} {b A B : Addr}
      (h : c.get? n = some (.struct d)) (hb : step cx tm (p ++ [n]) n t = some b)
      (hc : cx.change (p ++ [n]) = none) (r : Sent cx tm (p ++ [n]) b d A B) :
      Sent cx tm p t c ((n, none) :: A) B
  | element {p : List Name} {t : Addr} {c d : Fields V} {n : Name} {b A B : Addr} {m : MFields}
      {e : Elems V} {i : Nat}
      (h : c.get? n = some (.aos m e)) (hi : e.get? i = some d)
      (hb : step cx tm (p ++ [n]) n t = some b)
      (hc : cx.change (p ++ [n]) = none) (r : Sent cx tm (p ++ [n]) (elemOf b i) d A B) :
      Sent cx tm p t c ((n, some i) :: A) B
  | toArray {p : List Name} {t : Addr} {c d : Fields V} {n : Name} {b A B : Addr}
      (h : c.get? n = some (.struct d)) (hb : step cx tm (p ++ [n]) n t = some b)
      (hc : cx.change (p ++ [n]) = some .structAos)
      (r : Sent cx tm (p ++ [n]) (elemOf b 0) d A B) :
      Sent cx tm p t c ((n, none) :: A) B
  | ofArray {p : List Name} {t : Addr} {c d : Fields V} {n : Name} {b A B : Addr} {m : MFields}
      (h : c.get? n = some (.aos m (.cons d .nil))) (hb : step cx tm (p ++ [n]) n t = some b)
      (hc : cx.change (p ++ [n]) = some .structAos) (r : Sent cx tm (p ++ [n]) b d A B) :
      Sent cx tm p t c ((n, some 0) :: A) B

/-- Position `b` is position `a` or lies below it. (An array of structures contains its elements.) -/
def Contains : Addr → Addr → Prop
  | [], _ => True
  | _ :: _, [] => False
  | [s], t :: _ => s = t ∨ (s.1 = t.1 ∧ s.2 = none)
  | s :: s' :: a, t :: b => s = t ∧ Contains (s' :: a) b

/-- Position `b` lies in an element of the array of structures at `a`. -/
def Inside (a b : Addr) : Prop := ∃ p n i r, a = p ++ [(n, none)] ∧ b = p ++ (n, some i) :: r

/-- Converting this node writes to its target: it is a data node with a value, an array of
structures with elements, its type changed, or it is post-processed. -/
def Acts [Value V] (cx : Cfg V) (q : List Name) (x : Node V) : Prop :=
  Filled x ∨ (x.hasValue = true ∧ (cx.change q ≠ none ∨ cx.post q ≠ none))

/-- Nothing else in the source `c` writes to the target `B` of `A`, except that elements of `A` may
go to elements of `B`. -/
def Alone [Value V] (cx : Cfg V) (tm : Meta) (c : Fields V) (A B : Addr) : Prop :=
  ∀ A' B' x, Sent cx tm [] [] c A' B' → (Node.struct c).at A' = some x → Acts cx (names A') x →
    A' ≠ A → ¬ Contains A' A →
    (¬ Contains B B' ∧ ¬ Contains B' B) ∨ (Contains A A' ∧ Inside B B')

/-- `step` for Data Dictionary paths instead of positions. -/
def stepPath (cx : Cfg V) (tm : Meta) (q : List Name) (n : Name) (t : List Name) :
    Option (List Name) :=
  match cx.path q with
  | some none => none
  | some (some r) => some r
  | none => some (if (metaAt tm (t ++ [n])).isSome then t ++ [n] else t)

/-- Where the path with the further names `r` goes, if `p` goes to `t`. -/
def pathFrom (cx : Cfg V) (tm : Meta) : List Name → List Name → List Name → Option (List Name)
  | _, t, [] => some t
  | p, t, n :: r => (stepPath cx tm (p ++ [n]) n t).bind fun t' => pathFrom cx tm (p ++ [n]) t' r

/-- The path `p` of the source dictionary goes to the path `q` of the target dictionary. -/
def Goes (cx : Cfg V) (tm : Meta) (p q : List Name) : Prop := pathFrom cx tm [] [] p = some q

/-- Converting a node with this path may write to its own target: it is not a plain structure. -/
def Active (cx : Cfg V) (sm : Meta) (p : List Name) : Prop :=
  ∃ m, metaAt sm p = some m ∧ ((∀ c, m ≠ .struct c) ∨ cx.change p ≠ none ∨ cx.post p ≠ none)

/-- The map between the two dictionaries is one-to-one: children go below the place where their
parent goes (or to that place, if they are plain structures that no longer exist), and a path only
goes below the place of another path if it is below that other path. -/
structure OneToOne (cx : Cfg V) (sm tm : Meta) : Prop where
  down : ∀ p n q q', (metaAt sm (p ++ [n])).isSome = true → Goes cx tm p q →
    Goes cx tm (p ++ [n]) q' → ∃ r, q' = q ++ r ∧ (Active cx sm (p ++ [n]) → r ≠ [])
  apart : ∀ p p' q q', Active cx sm p → Active cx sm p' → Goes cx tm p q →
    Goes cx tm p' q' → q <+: q' → p <+: p'

/-- The map `cx'` goes back where `cx` comes from, for paths whose nodes write to their target and whose
target exists. Nodes without type change have none on the way back, and structures that became
arrays become structures again (and vice versa). Other type changes have a type change on the way
back. -/
structure Inverse (cx cx' : Cfg V) (sm tm : Meta) : Prop where
  back : ∀ p q, Active cx sm p → Goes cx tm p q → (metaAt tm q).isSome = true →
    Goes cx' sm q p ∧ Active cx' tm q
  plain : ∀ p q, Active cx sm p → Goes cx tm p q → (metaAt tm q).isSome = true →
    cx.change p = none → cx'.change q = none
  array : ∀ p q, Active cx sm p → Goes cx tm p q → (metaAt tm q).isSome = true →
    cx.change p = some .structAos → cx'.change q = some .structAos ∧
      ((∃ c, metaAt sm p = some (.struct c)) → ∃ c, metaAt tm q = some (.aos c))
  custom : ∀ p q f, Active cx sm p → Goes cx tm p q → (metaAt tm q).isSome = true →
    cx.change p = some (.custom f) → ∃ f', cx'.change q = some (.custom f')

/-- Nodes whose conversion writes to their own target: data nodes, arrays of structures, structures
that became arrays, and all other type changes. -/
def Writes (cx : Cfg V) (q : List Name) : Node V → Prop
  | .leaf _ _ => True
  | .aos _ _ => cx.change q ≠ some .structAos
  | .struct _ => cx.change q ≠ none

/-- No node above `A` is post-processed. -/
def NoPostAbove (cx : Cfg V) (A : Addr) : Prop :=
  ∀ A', Contains A' A → A' ≠ A → cx.post (names A') = none

/-- The operation keeps the type of the node, and structures stay structures. -/
def Keeps (f : Node V → Except ConvErr (Node V)) : Prop :=
  (∀ x y m, Typed x m → f x = .ok y → Typed y m) ∧ ∀ g y, f (.struct g) = .ok y → ∃ g', y = .struct g'

/-- Conversion functions of the map do not change the types of target nodes. -/
def Proper (cx : Cfg V) : Prop :=
  (∀ q f x, cx.change q = some (.custom f) → Keeps (f x)) ∧
  (∀ q f, cx.post q = some f → Keeps f)

/-- The node is of the given type, or an element of an array of that type. -/
def TypedAt (x : Node V) (m : Meta) : Prop :=
  Typed x m ∨ ∃ f mf, x = .struct f ∧ m = .aos mf ∧ TypedF f mf

end Verif.ConvertSpec
