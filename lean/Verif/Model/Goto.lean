import Verif.Model.Tree
/-
Model of `IDSPath.goto` (`imas/ids_path.py` lines 170-224) and `IDSBase._path`
(`imas/ids_base.py` lines 55-93) on trees with positions.
-/
namespace Verif.Ids
open Verif.Path (Idx Parsed)

variable {V : Type}

/-- Exceptions of navigation. `leafItem` stands for indexing a data node (`time[0]` gives a
numpy item, not an IDS node), which is not modelled further. -/
inductive NavErr where
  | attribute | value | index | notImplemented | recursion | leafItem
  deriving DecidableEq, Repr

/-- Python list indexing: negative indices count from the end; `none` is `IndexError`. -/
def pyIndex (len : Nat) (i : Int) : Option Nat :=
  if 0 ≤ i then (if i < len then some i.toNat else none)
  else (if 0 ≤ i + len then some (i + len).toNat else none)

/-- `getattr(element, part)`. Data nodes and arrays of structures forward to Python
attributes, which is not modelled (`AttributeError` for names that are no such attribute). -/
def getAttr (root : Node V) (a : Addr) (part : Name) : Except NavErr Addr :=
  match root.at a with
  | some (.struct c) =>
    match c.get? part with
    | some _ => .ok (a ++ [(part, none)])
    | none => .error .attribute
  | _ => .error .attribute

/-- `element[index]` for an integer. `IDSStructure.__getitem__(0)` parses the text "0" as a
path, which raises `ValueError`. -/
def getItem (root : Node V) (a : Addr) (i : Int) : Except NavErr Addr :=
  match root.at a, a.getLast? with
  | some (.aos _ e), some (n, none) =>
    match pyIndex e.length i with
    | some k => .ok (a.dropLast ++ [(n, some k)])
    | none => .error .index
  | some (.leaf _ _), _ => .error .leafItem
  | _, _ => .error .value

/-- `_dd_parent`, climbed `n` times: for an element of an array of structures the parent of
the array (`ids_structure.py` lines 180-183), else `_parent`. -/
def climb (a : Addr) : Nat → Addr
  | 0 => a
  | n + 1 => climb a.dropLast n

/-- The loop of `goto` (lines 194-219). `nested` evaluates `index.goto(from_element).value`
for a nested path. -/
def gotoLoop (nested : Parsed → Except NavErr Int) (root : Node V) (start : Addr)
    (fromPath : List Name) :
    Nat → Option Addr → List (Name × Option Idx) → Except NavErr (Option Addr)
  | _, element, [] => .ok element
  | i, element, (part, index) :: rest =>
    match index with
    | some (.slice _ _) => .error .notImplemented
    | _ =>
      let element' : Option Addr :=
        match element with
        | some a => some a
        | none =>
          if fromPath[i]? = some part then none      -- the index, if any, is ignored
          else some (climb start (fromPath.length - i))
      match element' with
      | none => gotoLoop nested root start fromPath (i + 1) none rest
      | some a =>
        match getAttr root a part with
        | .error e => .error e
        | .ok b =>
          match index with
          | none => gotoLoop nested root start fromPath (i + 1) (some b) rest
          | some (.generic _) => .error .value
          | some (.slice _ _) => .error .notImplemented
          | some (.num k) =>
            match getItem root b k with
            | .error e => .error e
            | .ok c => gotoLoop nested root start fromPath (i + 1) (some c) rest
          | some (.path ps is) =>
            match nested ⟨ps, is⟩ with
            | .error e => .error e
            | .ok v =>
              match getItem root b (v - 1) with
              | .error e => .error e
              | .ok c => gotoLoop nested root start fromPath (i + 1) (some c) rest

/-- `isinstance(val, int)` for the value of the node a nested index points to (lines
215-218). `asInt` recognises stored integers; an unset `INT_0D` reads as its default
`EMPTY_INT = -999999999` (`ids_data_type.py`). -/
def intValue (asInt : V → Option Int) (root : Node V) (a : Addr) : Except NavErr Int :=
  match root.at a with
  | some (.leaf l none) => if l.type = .int ∧ l.ndim = 0 then .ok (-999999999) else .error .value
  | some (.leaf _ (some v)) =>
    match asInt v with
    | some i => .ok i
    | none => .error .value
  | some (.aos _ _) => .error .value          -- `.value` is a list
  | some (.struct c) =>
    -- `.value` is a child node if there is one named "value", else AttributeError
    if (c.get? ['v', 'a', 'l', 'u', 'e']).isSome then .error .value else .error .attribute
  | none => .error .attribute

/-- `index.goto(from_element).value` (line 215). -/
def nestedInt (asInt : V → Option Int) (root : Node V) : Except NavErr Addr → Except NavErr Int
  | .error e => .error e
  | .ok b => intValue asInt root b

/-- `IDSPath.goto` (lines 170-224). The first argument is the remaining call stack depth
(nested index paths recurse). `start` is the position of `from_element`; the names of its
items are `from_element.metadata.path`. -/
def goto (asInt : V → Option Int) : Nat → Node V → Addr → Bool → Parsed → Except NavErr Addr
  | 0, _, _, _, _ => .error .recursion
  | stack + 1, root, start, fromRoot, p =>
    let fromPath := start.map (·.1)
    match gotoLoop
        (fun q => nestedInt asInt root (goto asInt stack root start true q))
        root start fromPath 0 (if fromRoot then none else some start)
        (p.parts.zip p.indices) with
    | .error e => .error e
    | .ok (some b) => .ok b
    | .ok none => .ok (climb start (fromPath.length - p.parts.length))

/-- Decimal text of an index, `f"[{index}]"`. -/
def idxText (i : Nat) : List Char := Nat.toDigits 10 i

/-- `IDSBase._path` (`ids_base.py` lines 55-93) from the parent's text: the path of an array
element is the path of the array followed by the index; the path of a child is the parent's
path, a slash (unless the parent is the toplevel, whose path is empty) and the name. -/
def pathText : Addr → List Char
  | [] => []
  | (n, i) :: rest => go (n ++ suffix i) rest
where
  suffix : Option Nat → List Char
    | none => []
    | some i => '[' :: idxText i ++ [']']
  go (parent : List Char) : Addr → List Char
    | [] => parent
    | (n, i) :: rest => go (parent ++ '/' :: (n ++ suffix i)) rest

end Verif.Ids
