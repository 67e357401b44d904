import Verif.Model.HeapNode
import Verif.Model.Path
/-!
`IDSPath.goto` (`/repo/imas/ids_path.py` lines 170-224) for the objects of `Verif.Model.Heap`: children are created and loaded when
they are accessed. `Verif.Model.Goto` is the same function on trees.
-/
namespace Verif.Heap
open Verif.Ids
open Verif.Path (Idx Parsed parsePath)

variable {V B W C : Type}

/-- The names of `node.metadata.path`. For the name of a data node see `nameOf`. -/
def metaPath (h : Heap V B W C) (s : Ref) : Option (List Name) :=
  match h.get s with
  | some (.struct q _ _ _ _ _ _) => some q
  | some (.aos q _ _ _ _ _) => some q
  | some (.leaf _ _ p) =>
    match h.get p with
    | some (.struct q m d _ _ _ _) => (keyOf d s m).map fun n => q ++ [n]
    | _ => none
  | _ => none

/-- `node._dd_parent` (`ids_base.py` lines 42-53, `ids_structure.py` lines 179-183). The metadata of a structure is that of an array of
structures if it was made for one; here the parent is looked at. -/
def ddParent (h : Heap V B W C) (s : Ref) : Except Err Ref :=
  match h.get s with
  | some (.struct _ _ _ p _ _ _) =>
    match h.get p with
    | some (.aos _ _ _ p' _ _) => .ok p'
    | _ => .ok p
  | some o =>
    match parentOf o with
    | some p => .ok p
    | none => .error .attribute
  | none => .error .broken

/-- `for _ in range(n): element = element._dd_parent`. -/
def ddClimb (h : Heap V B W C) (s : Ref) : Nat → Except Err Ref
  | 0 => .ok s
  | n + 1 =>
    match ddParent h s with
    | .ok p => ddClimb h p n
    | .error e => .error e

/-- `element[index]` for any integer (`ids_struct_array.py` lines 79-129). A negative index counts from the end. -/
def getItemInt (E : Env V B W C) (h : Heap V B W C) (r : Ref) (k : Int) : Out V B W C :=
  if 0 ≤ k then getItem E h r k.toNat else
    match h.get r with
    | some (.aos q m v p z x) =>
      match (if z then loadItems E v x else v) with
      | none => (h, .error (if z then .load else .type))
      | some items =>
        let h := if z then h.set r (.aos q m (some items) p z x) else h
        if 0 ≤ k + items.length then getItem E h r (k + items.length).toNat else (h, .error .index)
    | _ => (h, .error .type)

/-- The loop of `goto` (lines 194-219). `nested` evaluates `index.goto(from_element).value` for a nested path. -/
def gotoLoop (E : Env V B W C) (nested : Heap V B W C → Parsed → Heap V B W C × Except Err Int) (start : Ref) (fromPath : List Name) :
    Nat → Option Ref → List (Name × Option Idx) → Heap V B W C → Heap V B W C × Except Err (Option Ref)
  | _, element, [], h => (h, .ok element)
  | i, element, (part, index) :: rest, h =>
    match index with
    | some (.slice _ _) => (h, .error .notImplemented)
    | _ =>
      let element' : Except Err (Option Ref) :=
        match element with
        | some a => .ok (some a)
        | none =>
          if fromPath[i]? = some part then .ok none      -- the index, if any, is ignored
          else (ddClimb h start (fromPath.length - i)).map some
      match element' with
      | .error e => (h, .error e)
      | .ok none => gotoLoop E nested start fromPath (i + 1) none rest h
      | .ok (some a) =>
        match getAttr E h a part with
        | (h, .ok [b]) =>
          match index with
          | none => gotoLoop E nested start fromPath (i + 1) (some b) rest h
          | some (.generic _) => (h, .error .value)
          | some (.slice _ _) => (h, .error .notImplemented)
          | some (.num k) =>
            match getItemInt E h b k with
            | (h, .ok [c]) => gotoLoop E nested start fromPath (i + 1) (some c) rest h
            | (h, .ok _) => (h, .error .broken)
            | (h, .error e) => (h, .error e)
          | some (.path ps is) =>
            match nested h ⟨ps, is⟩ with
            | (h, .error e) => (h, .error e)
            | (h, .ok v) =>
              match getItemInt E h b (v - 1) with
              | (h, .ok [c]) => gotoLoop E nested start fromPath (i + 1) (some c) rest h
              | (h, .ok _) => (h, .error .broken)
              | (h, .error e) => (h, .error e)
        | (h, .ok _) => (h, .error .broken)
        | (h, .error e) => (h, .error e)

/-- `index.goto(from_element).value` and the check that it is an integer (lines 215-217). -/
def nestedInt (asInt : V → Option Int) (E : Env V B W C) : Out V B W C → Heap V B W C × Except Err Int
  | (h, .error e) => (h, .error e)
  | (h, .ok [b]) =>
    match h.get b with
    | some (.leaf _ _ _) =>
      match getValue E h b with
      | (h, .ok [a]) =>
        match (h.val E.mem a).bind asInt with
        | some i => (h, .ok i)
        | none => (h, .error .value)
      | (h, .ok _) => (h, .error .broken)
      | (h, .error e) => (h, .error e)
    | some (.struct _ _ _ _ _ _ _) =>
      match getAttr E h b ['v', 'a', 'l', 'u', 'e'] with
      | (h, .ok _) => (h, .error .value)
      | (h, .error e) => (h, .error e)
    | _ => (h, .error .value)
  | (h, .ok _) => (h, .error .broken)

/-- `IDSPath.goto(from_element, from_root=...)` (lines 170-224). The first number is the remaining call stack depth (nested index paths
recurse). -/
def goto (asInt : V → Option Int) (E : Env V B W C) : Nat → Heap V B W C → Ref → Bool → Parsed → Out V B W C
  | 0, h, _, _, _ => (h, .error .recursion)
  | stack + 1, h, start, fromRoot, p =>
    match metaPath h start with
    | none => (h, .error .attribute)
    | some fromPath =>
      match gotoLoop E (fun h q => nestedInt asInt E (goto asInt E stack h start true q)) start fromPath 0
          (if fromRoot then none else some start) (p.parts.zip p.indices) h with
      | (h, .error e) => (h, .error e)
      | (h, .ok (some b)) => (h, .ok [b])
      | (h, .ok none) =>
        match ddClimb h start (fromPath.length - p.parts.length) with
        | .ok b => (h, .ok [b])
        | .error e => (h, .error e)

/-- `structure[key]` for a text (`ids_structure.py` lines 275-284). `IDSPath(key)` raises `ValueError` for texts that are no path. -/
def structItem (asInt : V → Option Int) (E : Env V B W C) (stack : Nat) (h : Heap V B W C) (r : Ref) (key : List Char) :
    Out V B W C :=
  match h.get r with
  | some (.struct _ m _ _ _ _ _) =>
    if (lookupMeta m key).isSome then getAttr E h r key else
      match parsePath stack key with
      | .error _ => (h, .error .value)
      | .ok p =>
        match p.indices with
        | [none] => (h, .error .attribute)
        | _ => goto asInt E stack h r false p
  | _ => (h, .error .type)

end Verif.Heap
