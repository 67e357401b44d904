import Verif.Model.Heap
/-
Specifications for `Verif.Model.Heap`: the tree an object stands for, and which objects can be reached from
others.
-/
namespace Verif.HeapSpec
open Verif.Ids Verif.Heap

variable {V B W C : Type}

mutual
/-- The object `r` stands for this tree (fully loaded nodes only). -/
inductive Shows (M : Memory V B W) (h : Heap V B W C) : Ref → Node V → Prop
  | unset {r l p} : h.get r = some (.leaf l none p) → Shows M h r (.leaf l none)
  | leaf {r l a p v} : h.get r = some (.leaf l (some a) p) → h.val M a = some v →
      Shows M h r (.leaf l (some v))
  | struct {r q m d p t z x c} : h.get r = some (.struct q m d p t z x) → ShowsFields M h d m c →
      Shows M h r (.struct c)
  | aos {r q m i p z x e} : h.get r = some (.aos q m (some i) p z x) → ShowsElems M h i e →
      Shows M h r (.aos m e)
/-- Children that are in `__dict__` and children that are not. -/
inductive ShowsFields (M : Memory V B W) (h : Heap V B W C) : (Name → Option Ref) → MFields → Fields V → Prop
  | nil {d} : ShowsFields M h d .nil .nil
  | absent {d n m r c} : d n = none → ShowsFields M h d r c →
      ShowsFields M h d (.cons n m r) (.absent n m c)
  | present {d n m r c y x} : d n = some y → Shows M h y x → ShowsFields M h d r c →
      ShowsFields M h d (.cons n m r) (.present n x c)
inductive ShowsElems (M : Memory V B W) (h : Heap V B W C) : List (Option Ref) → Elems V → Prop
  | nil : ShowsElems M h [] .nil
  | cons {y c l e} : Shows M h y (.struct c) → ShowsElems M h l e →
      ShowsElems M h (some y :: l) (.cons c e)
end

/-- The object `o` refers to `e`. `up`: references of nodes to their parents count. -/
def Refers (up : Bool) : Obj V B W C → Ref → Prop
  | .arr b _, e => e = b
  | .leaf _ v p, e => v = some e ∨ (up = true ∧ e = p)
  | .struct _ _ d p _ _ _, e => (∃ n, d n = some e) ∨ (up = true ∧ e = p)
  | .aos _ _ i p _ _, e => (∃ l, i = some l ∧ some e ∈ l) ∨ (up = true ∧ e = p)
  | _, _ => False

/-- Everything a program that has the objects `A` can get at. -/
inductive Reach (up : Bool) (h : Heap V B W C) (A : List Ref) : Ref → Prop
  | here {r} : r ∈ A → Reach up h A r
  | next {r o s} : Reach up h A r → h.get r = some o → Refers up o s → Reach up h A s

def Immutable : Obj V B W C → Prop
  | .factory => True
  | .const _ => True
  | _ => False

/-- What can be reached both from `A` and from `B` is immutable. -/
def Separate (up : Bool) (h : Heap V B W C) (A B : List Ref) : Prop :=
  ∀ o x, Reach up h A o → Reach up h B o → h.get o = some x → Immutable x

/-- Operations that follow references to parents. -/
def _root_.Verif.Heap.Op.climbs : Op V B W → Bool
  | .setPath _ _ _ => true
  | _ => false

/-- Nothing that can be reached from these objects is lazy-loaded. -/
def Plain (h : Heap V B W C) (A : List Ref) : Prop := ∀ o, Reach true h A o → h.isLazy o = false

/-- No references to objects that do not exist (yet). -/
structure Sound (up : Bool) (h : Heap V B W C) : Prop where
  above : ∀ o, h.next ≤ o → h.get o = none
  refs : ∀ o x, h.get o = some x → ∀ e, Refers up x e → e < h.next

/-- Two programs (or two parts of one) that work on the same heap, each with its own objects. -/
structure World (V B W C : Type) where
  heap : Heap V B W C
  left : List Ref
  right : List Ref

/-- The objects one side has. -/
def World.side (w : World V B W C) : Bool → List Ref
  | true => w.left
  | false => w.right

/-- One operation of one side. -/
def act (E : Env V B W C) (w : World V B W C) (s : Bool) (op : Op V B W) : World V B W C :=
  match s with
  | true => ⟨(step E w.heap w.left op).1, (step E w.heap w.left op).2, w.right⟩
  | false => ⟨(step E w.heap w.right op).1, w.left, (step E w.heap w.right op).2⟩

/-- Operations of both sides in any order. -/
def run (E : Env V B W C) : World V B W C → List (Bool × Op V B W) → World V B W C
  | w, [] => w
  | w, (s, op) :: rest => run E (act E w s op) rest

/-- The heap at the start of a program. -/
def Heap.empty : Heap V B W C := ⟨0, fun _ => none⟩

end Verif.HeapSpec
