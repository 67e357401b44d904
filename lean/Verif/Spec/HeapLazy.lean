import Verif.Spec.Heap
/-
Specifications for lazy-loaded IDSs (`Verif.Model.Heap`): what the file contains, how a program reads it,
and which operations do not look whether an IDS is lazy-loaded.
-/
namespace Verif.HeapSpec
open Verif.Ids Verif.Heap

variable {V B W C : Type}

/-- The value of a data node according to the file. Without context nothing is loaded. `none`: it
cannot be loaded. -/
def fileLeaf (E : Env V B W C) (x : Option C) (n : Name) (l : LeafMeta) : Option V :=
  match x with
  | none => some (E.default l)
  | some x => (E.loader.leaf x n l).map (·.getD (E.default l))

/-- The context of a child. -/
def fileChild (E : Env V B W C) (x : Option C) (n : Name) : Option (Option C) :=
  match x with
  | none => some none
  | some x => E.loader.child x n

/-- The number of elements. -/
def fileSize (E : Env V B W C) (x : Option C) : Option Nat :=
  match x with
  | none => some 0
  | some x => E.loader.size x

/-- The value at a path below a structure with these children and this context, according to the
file. -/
def content (E : Env V B W C) : MFields → Option C → List (Name × Option Nat) → Option V
  | _, _, [] => none
  | m, x, (n, none) :: rest =>
    match lookupMeta m n with
    | some (.leaf l) => if rest = [] then fileLeaf E x n l else none
    | some (.struct m') => (fileChild E x n).bind fun y => content E m' y rest
    | _ => none
  | m, x, (n, some i) :: rest =>
    match lookupMeta m n with
    | some (.aos m') =>
      (fileChild E x n).bind fun y =>
        match y with
        | none => none
        | some y =>
          match E.loader.size y, E.loader.elem y i with
          | some k, some e => if i < k then content E m' (some e) rest else none
          | _, _ => none
    | _ => none

/-- `ids[path].value`. -/
def readPath (E : Env V B W C) (h : Heap V B W C) (r : Ref) (path : List (Name × Option Nat)) : Out V B W C :=
  match walk E h r path with
  | (h, .ok [c]) => getValue E h c
  | (h, .ok _) => (h, .error .broken)
  | (h, .error e) => (h, .error e)

/-- Operations that do not change a lazy-loaded IDS without a check. The others are:
* writing in place to memory that a lazy-loaded node looks at,
* assigning a structure or array of structures to an attribute of a lazy-loaded structure,
* appending a data node of a lazy-loaded IDS to an array of structures (which makes that its parent). -/
def Checked (E : Env V B W C) (h : Heap V B W C) (env : List Ref) : Op V B W → Prop
  | .write r _ _ => ∀ a b w, env[r]? = some a → h.get a = some (.arr b w) →
      ∀ o l v p, h.get o = some (.leaf l (some v) p) → h.isLazy p = true → ∀ w', h.get v ≠ some (.arr b w')
  | .setAttr r n _ => ∀ a q m d p t x, env[r]? = some a → h.get a = some (.struct q m d p t true x) →
      ∀ cm, lookupMeta m n = some cm → ∃ l, cm = .leaf l
  | .setPath r path _ => ∀ a h' c o, env[r]? = some a → walk E h a path = (h', .ok [c]) → h'.get c = some o →
      (∃ l v p, o = .leaf l v p) ∨ ∀ p, parentOf o = some p → h'.isLazy p = false
  | .append _ s => ∀ b l v p, env[s]? = some b → h.get b = some (.leaf l v p) → h.isLazy p = false
  | _ => True

/-- What a program does: operations on the objects it has, and lazy loading of IDSs with these children and
context. -/
inductive Act (V B W C : Type) where
  | op (op : Op V B W)
  | getLazy (m : MFields) (x : C)

/-- Heap and objects after one of these. -/
def lazyStep (E : Env V B W C) (h : Heap V B W C) (env : List Ref) : Act V B W C → Heap V B W C × List Ref
  | .op op => step E h env op
  | .getLazy m x => ((newLazyIds h m x).1, env ++ [(newLazyIds h m x).2])

/-- Heap and objects after a program. -/
def exec1 (E : Env V B W C) : Heap V B W C → List Ref → List (Act V B W C) → Heap V B W C × List Ref
  | h, env, [] => (h, env)
  | h, env, a :: rest => exec1 E (lazyStep E h env a).1 (lazyStep E h env a).2 rest

/-- All operations of a program are checked, each in the state in which it happens. -/
def AllChecked (E : Env V B W C) : Heap V B W C → List Ref → List (Act V B W C) → Prop
  | _, _, [] => True
  | h, env, a :: rest =>
    (∀ op, a = .op op → Checked E h env op) ∧ AllChecked E (lazyStep E h env a).1 (lazyStep E h env a).2 rest

/-- The states a program can get to with such operations. -/
def Possible (E : Env V B W C) (h : Heap V B W C) (env : List Ref) : Prop :=
  ∃ acts : List (Act V B W C), AllChecked E Heap.empty [] acts ∧ exec1 E Heap.empty [] acts = (h, env)

/-- `r` is a lazy-loaded IDS with these children and context: it was loaded in some state a program can get
to, and since then the program did `acts`. -/
def LazyIds (E : Env V B W C) (m : MFields) (x : C) (r : Ref) (h : Heap V B W C) (env : List Ref) : Prop :=
  ∃ h0 env0 acts, Possible E h0 env0 ∧ r = (newLazyIds h0 m x).2 ∧
    AllChecked E (newLazyIds h0 m x).1 (env0 ++ [r]) acts ∧ exec1 E (newLazyIds h0 m x).1 (env0 ++ [r]) acts = (h, env)

end Verif.HeapSpec
