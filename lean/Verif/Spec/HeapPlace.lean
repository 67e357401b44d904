import Verif.Spec.Heap
import Verif.Spec.Tree
/-
Specification vocabulary for references to nodes of an IDS: the place of a node, and IDSs in which no node is at
two places.
-/
namespace Verif.HeapSpec
open Verif.Ids Verif.Heap Verif.TreeSpec

variable {V B W C : Type}

/-- One step down: to a child, or to an element of an array of structures. -/
inductive Key where
  | field (n : Name)
  | index (i : Nat)
  deriving DecidableEq

/-- The node `r` holds the node `s` as this child or element. -/
inductive Slot (h : Heap V B W C) (r : Ref) : Key → Ref → Prop
  | field {q m d p t z x n s} : h.get r = some (.struct q m d p t z x) → n ∈ mnames m → d n = some s →
      Slot h r (.field n) s
  | index {q m l p z x i s} : h.get r = some (.aos q m (some l) p z x) → l[i]? = some (some s) →
      Slot h r (.index i) s

/-- Going down from `r` step by step leads to `s`. -/
inductive Path (h : Heap V B W C) : Ref → List Key → Ref → Prop
  | nil {r} : Path h r [] r
  | cons {r k c ks s} : Slot h r k c → Path h c ks s → Path h r (k :: ks) s

/-- The steps to a position in an IDS. -/
def keys : Addr → List Key
  | [] => []
  | (n, none) :: a => .field n :: keys a
  | (n, some i) :: a => .field n :: .index i :: keys a

/-- The node `s` is at position `a` of `r`. -/
def Place (h : Heap V B W C) (r : Ref) (a : Addr) (s : Ref) : Prop := Path h r (keys a) s

/-- No node below `r` is at two places. -/
def Unshared (h : Heap V B W C) (r : Ref) : Prop :=
  ∀ s K L, Path h r K s → Path h r L s → K = L

/-- `r` and `e` have no nodes in common. -/
def Disjoint (h : Heap V B W C) (r e : Ref) : Prop :=
  ∀ s K L, Path h r K s → Path h e L s → False

/-- The node is not lazy-loaded, and neither is the parent of a data node. -/
def EagerNode (h : Heap V B W C) (s : Ref) : Prop :=
  h.isLazy s = false ∧ ∀ l v p, h.get s = some (.leaf l v p) → h.isLazy p = false

/-- `r` is an IDS, or a part of one, with these contents. Nothing in it is lazy-loaded and no node is at two
places. -/
structure Held (M : Memory V B W) (h : Heap V B W C) (r : Ref) (n : Node V) : Prop where
  sound : Sound true h
  shows : Shows M h r n
  wf : WF n
  unshared : Unshared h r
  eager : ∀ K s, Path h r K s → EagerNode h s

end Verif.HeapSpec
