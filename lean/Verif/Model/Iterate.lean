import Verif.Model.Tree
/-!
Model of `indexed_tree_iter`: iteration over an IDS with the indices of the arrays of structures around each node
(`/repo/imas/backends/netcdf/iterators.py` lines 11-98). Generators are lists here: an exception ends the whole list, and the IDS does
not change during the iteration.
-/
namespace Verif.Iterate
open Verif.Ids

variable {V : Type}

/-- Exceptions: an item that is not there, iteration over something that is not an array of structures, and
`aos_path, *paths = []`. -/
inductive Exc where
  | attribute | type | value
  deriving DecidableEq, Repr

/-- `metadata` and its parents up to the toplevel, which does not count (line 17): name, and whether it is an array of
structures. From the toplevel down. -/
def chain : MFields → List Name → Option (List (Name × Bool))
  | _, [] => some []
  | .nil, _ :: _ => none
  | .cons n x r, k :: p =>
    if k = n then
      match x with
      | .leaf _ => if p = [] then some [(k, false)] else none
      | .struct c => (chain c p).map ((k, false) :: ·)
      | .aos c => (chain c p).map ((k, true) :: ·)
    else chain r (k :: p)

/-- The loop of `_split_on_aos` (lines 17-24) with the last line. The first argument are the parents, the nearest one first. -/
def splitLoop : List (Name × Bool) → List Name → List (List Name) → List (List Name)
  | [], cur, paths => (paths ++ [cur]).reverse
  | (n, true) :: up, cur, paths => splitLoop up [n] (paths ++ [cur])
  | (n, false) :: up, cur, paths => splitLoop up (n :: cur) paths

/-- `_split_on_aos(metadata)` (lines 11-25). -/
def splitOnAos (l : List (Name × Bool)) : List (List Name) :=
  match l.reverse with
  | [] => []
  | (n, _) :: up => splitLoop up [n] []

/-- `structure[path]` (`ids_structure.py` lines 275-284) for a path of names without indices. -/
def follow (c : Fields V) : List Name → Except Exc (Node V)
  | [] => .ok (.struct c)
  | n :: p =>
    match c.get? n with
    | none => .error .attribute
    | some x =>
      match p, x with
      | [], x => .ok x
      | _ :: _, .struct d => follow d p
      | _ :: _, _ => .error .attribute

/-- `for i, node in enumerate(aos)`, from number `i`. -/
def eachElem {A : Type} (f : Nat → Fields V → Except Exc (List A)) : Nat → Elems V → Except Exc (List A)
  | _, .nil => .ok []
  | i, .cons c r =>
    match f i c with
    | .error e => .error e
    | .ok l =>
      match eachElem f (i + 1) r with
      | .error e => .error e
      | .ok l' => .ok (l ++ l')

/-- `_tree_iter` (lines 68-82). -/
def treeIter : List (List Name) → Fields V → List Nat → Except Exc (List (List Nat × Node V))
  | [], _, _ => .error .value
  | [p], c, _ =>
    match follow c p with
    | .error e => .error e
    | .ok (.aos _ .nil) => .ok []
    | .ok (.aos _ _) => .error .value
    | .ok _ => .error .type
  | [p, q], c, cur =>
    match follow c p with
    | .error e => .error e
    | .ok (.aos _ e) => eachElem (fun i d => (follow d q).map fun x => [(cur ++ [i], x)]) 0 e
    | .ok _ => .error .type
  | p :: q :: q' :: r, c, cur =>
    match follow c p with
    | .error e => .error e
    | .ok (.aos _ e) => eachElem (fun i d => treeIter (q :: q' :: r) d (cur ++ [i])) 0 e
    | .ok _ => .error .type

section
variable [Value V]
mutual
/-- `_full_tree_iter` (lines 85-98): a child with a value and what is below it. -/
def fullNode (cur : List Nat) : Node V → List (List Nat × Node V)
  | .leaf l v => [(cur, .leaf l v)]
  | .struct c => (cur, .struct c) :: fullFields cur c
  | .aos m e => (cur, .aos m e) :: fullElems cur 0 e
/-- `node.iter_nonempty_()` -/
def fullFields (cur : List Nat) : Fields V → List (List Nat × Node V)
  | .nil => []
  | .absent _ _ r => fullFields cur r
  | .present _ x r => (if x.hasValue then fullNode cur x else []) ++ fullFields cur r
def fullElems (cur : List Nat) (i : Nat) : Elems V → List (List Nat × Node V)
  | .nil => []
  | .cons c r => fullFields (cur ++ [i]) c ++ fullElems cur (i + 1) r
end
end

/-- `indexed_tree_iter(ids, metadata)` (lines 30-65); `metadata` is given by its parents (`chain`), or is None. -/
def indexedIter [Value V] (c : Fields V) : Option (List (Name × Bool)) → Except Exc (List (List Nat × Node V))
  | none => .ok (fullFields [] c)
  | some l =>
    match splitOnAos l with
    | [p] => (follow c p).map fun x => [([], x)]
    | paths => treeIter paths c []

end Verif.Iterate
