import Verif.Model.Goto
import Verif.Model.Diff
import Verif.Model.Usage
/-
Model of what `print_tree`, `print_metadata_tree`, `inspect` and `idsdiff` show (`/repo/imas/_util.py` lines 90-260,
`/repo/imas/util.py` lines 135-146 and 258-312).

Representation choices:
* A `rich.tree.Tree` is the list of its labels from top to bottom, each with its depth (0 is the root). `rich` draws one label
  per line and shows the depth by guide lines. Colours are left out. Labels of data nodes are the name and the value; how `rich`
  prints a value (`numpy.printoptions`, `Pretty`) is not modelled.
* A `rich.text.Text` is a list of pieces of text that are highlighted or not. `rich` leaves out control characters; this is not
  modelled.
* The IDS is not lazy loaded (`accept_lazy=True` is passed in line 114; for a lazy loaded IDS only loaded nodes are shown).
-/
namespace Verif.Print
open Verif.Ids

abbrev Text := List Char

variable {V : Type} [Value V]

/-- A label of the tree. -/
inductive Line (V : Type) where
  /-- name and value of a data node (lines 117-123); without a value `-` is shown -/
  | data (name : Name) (v : Option V)
  /-- a structure or an array of structures without elements (lines 125-131) -/
  | node (text : Text)
  deriving DecidableEq, Repr

/-- `f"{child._path}[]"` (line 131). -/
def brackets (p : Text) : Text := p ++ ['[', ']']

/-- Lines 117-120. -/
def shownValue (v : Option V) : Option V := if leafHasValue v then v else none

section
variable (hide : Bool)

mutual
/-- Lines 116-132 for a child that is created by iterating over the structure (only with `hide_empty_nodes=False`).
`b` is the address of the structure in its IDS, `d` its depth in the tree. -/
def treeMeta (b : Addr) (d : Nat) (n : Name) : Meta → List (Nat × Line V)
  | .leaf _ => [(d + 1, .data n none)]
  | .struct c => (d + 1, .node (pathText (b ++ [(n, none)]))) :: treeMFields (b ++ [(n, none)]) (d + 1) c
  | .aos _ => [(d + 1, .node (brackets (pathText (b ++ [(n, none)]))))]
def treeMFields (b : Addr) (d : Nat) : MFields → List (Nat × Line V)
  | .nil => []
  | .cons n m r => treeMeta b d n m ++ treeMFields b d r
end

mutual
/-- Lines 116-132 for one child. -/
def treeNode (b : Addr) (d : Nat) (n : Name) : Node V → List (Nat × Line V)
  | .leaf _ v => [(d + 1, .data n (shownValue v))]
  | .struct c => (d + 1, .node (pathText (b ++ [(n, none)]))) :: treeFields (b ++ [(n, none)]) (d + 1) c
  | .aos _ e =>
    (if e.length > 0 then [] else [(d + 1, .node (brackets (pathText (b ++ [(n, none)]))))]) ++ treeElems b d n 0 e
/-- `_make_tree` of a structure (lines 112-132): all children, or with `hide_empty_nodes` those of `iter_nonempty_`. -/
def treeFields (b : Addr) (d : Nat) : Fields V → List (Nat × Line V)
  | .nil => []
  | .absent n m r => (if hide then [] else treeMeta b d n m) ++ treeFields b d r
  | .present n x r => (if hide && !x.hasValue then [] else treeNode b d n x) ++ treeFields b d r
/-- `_make_tree` of an array of structures: all elements, added to the tree of the structure that holds the array
(line 129). -/
def treeElems (b : Addr) (d : Nat) (n : Name) (i : Nat) : Elems V → List (Nat × Line V)
  | .nil => []
  | .cons c r =>
    (d + 1, .node (pathText (b ++ [(n, some i)]))) :: treeFields (b ++ [(n, some i)]) (d + 1) c ++ treeElems b d n (i + 1) r
end

/-- What `print_tree` is called with: a structure (of the given name, at the given address of its IDS), or an array of
structures or data node in the structure at the given address. -/
inductive Shown (V : Type) where
  | struct (name : Name) (here : Addr) (c : Fields V)
  | aos (above : Addr) (name : Name) (m : MFields) (e : Elems V)
  | leaf (above : Addr) (name : Name) (l : LeafMeta) (v : Option V)

/-- `_make_tree` (lines 95-134); `none` is `TypeError` (lines 109-110). -/
def printTree : Shown V → Option (List (Nat × Line V))
  | .struct name b c => some ((0, .node name) :: treeFields hide b 0 c)
  | .aos b name _ e => some ((0, .node name) :: treeElems hide b 0 name 0 e)
  | .leaf _ _ _ _ => none

end

/-! ### Metadata -/

/-- A label of the tree of metadata. For `path_doc` (which is `path_string` with the names of the indices) the path is
given. -/
inductive MLine where
  | data (p : List Name)
  | node (p : List Name)
  | hidden
  deriving DecidableEq, Repr

mutual
/-- The body of the loop of `_make_tree` in `print_metadata_tree_impl` (lines 142-149) for the child `n` of the metadata at
path `p`. -/
def metaLines (maxdepth : Int) (depth : Nat) (p : List Name) (n : Name) : Meta → List (Nat × MLine)
  | .leaf _ => [(depth, .data (p ++ [n]))]
  | .struct c =>
    (depth, .node (p ++ [n])) ::
      if maxdepth = 0 ∨ (depth : Int) < maxdepth then metaTree maxdepth (depth + 1) (p ++ [n]) c else [(depth + 1, .hidden)]
  | .aos c =>
    (depth, .node (p ++ [n])) ::
      if maxdepth = 0 ∨ (depth : Int) < maxdepth then metaTree maxdepth (depth + 1) (p ++ [n]) c else [(depth + 1, .hidden)]
/-- `_make_tree` in `print_metadata_tree_impl` (lines 140-149); called with depth 1 (line 153). -/
def metaTree (maxdepth : Int) (depth : Nat) (p : List Name) : MFields → List (Nat × MLine)
  | .nil => []
  | .cons n m r => metaLines maxdepth depth p n m ++ metaTree maxdepth depth p r
end

/-! ### Inspecting -/

/-- The table of child nodes of `inspect` (lines 210-219). Title, documentation and Python attributes are not modelled. -/
def childTable (hide : Bool) (c : Fields V) : List (Name × Node V) :=
  (Usage.sortBy (fun a b => decide (a ≤ b)) c.names).filterMap fun n =>
    (c.get? n).bind fun x => if hide && !x.hasValue then none else some (n, x)

/-! ### Showing differences -/

/-- `difflib.Match`. -/
structure Match where
  a : Nat
  b : Nat
  size : Nat
  deriving DecidableEq, Repr

/-- A piece of text, highlighted or not. -/
structure Piece where
  mark : Bool
  text : Text
  deriving DecidableEq, Repr

/-- `t[i:j]` -/
def slice (t : Text) (i j : Nat) : Text := (t.drop i).take (j - i)

/-- The loop of lines 243-250 with the two appends after it (lines 251-252, where `match` is the last one of the loop, here
`prev`). The result is what is appended to `out1` and `out2`. -/
def highlight (t1 t2 : Text) (prev : Match) : List Match → List Piece × List Piece
  | [] => ([⟨true, t1.drop (prev.a + prev.size)⟩], [⟨true, t2.drop (prev.b + prev.size)⟩])
  | m :: r =>
    let o := highlight t1 t2 m r
    ((if m.a > prev.a + prev.size then [⟨true, slice t1 (prev.a + prev.size) m.a⟩] else []) ++
        ⟨false, slice t1 m.a (m.a + m.size)⟩ :: o.1,
      (if m.b > prev.b + prev.size then [⟨true, slice t2 (prev.b + prev.size) m.b⟩] else []) ++
        ⟨false, slice t2 m.b (m.b + m.size)⟩ :: o.2)

/-- One side of a difference: a node (with its `repr`), another value (with its `str`), or nothing. -/
inductive Side where
  | node (repr : Text)
  | value (str : Text)
  | nothing
  deriving DecidableEq, Repr

def Side.isNode : Side → Bool
  | .node _ => true
  | _ => false

/-- `f"{child}"` of something that is not a node (lines 231-232), `"-" if child is None else repr(child)` otherwise (lines
234-235). A value next to a node does not occur; its `repr` is not modelled. -/
def sideText (description : Text) (plain : Bool) : Side → Text
  | .node r => r
  | .value s => if plain then description ++ ": ".toList ++ s else s
  | .nothing => if plain then description ++ ": None".toList else ['-']

/-- Lines 230-235. -/
def diffTexts (d : Text × Side × Side) : Text × Text :=
  let plain := !d.2.1.isNode && !d.2.2.isNode
  (sideText d.1 plain d.2.1, sideText d.1 plain d.2.2)

/-- What is printed: a table with one row for each difference, or a message. -/
inductive Output where
  | table (rows : List (List Piece × List Piece))
  | identical
  deriving DecidableEq, Repr

/-- `idsdiff_impl` (lines 226-260) for the differences of `idsdiffgen`; `blocks` is `get_matching_blocks` of
`difflib.SequenceMatcher`. `none` is `UnboundLocalError` (line 251, no block). -/
def idsdiff (blocks : Text → Text → List Match) (diffs : List (Text × Side × Side)) : Option Output :=
  match diffs.mapM fun d =>
      let t := diffTexts d
      if blocks t.1 t.2 = [] then none else some (highlight t.1 t.2 ⟨0, 0, 0⟩ (blocks t.1 t.2)) with
  | none => none
  | some [] => some .identical
  | some rows => some (.table rows)

/-- What `idsdiffgen` yields (`util.py` lines 150-192): differences in version, name and path, then those of the
contents. `show1` and `show2` give the description and the `repr` of the nodes of a difference of contents. -/
def differences (eqv : V → V → Bool) (describe : Diff → Text) (show1 show2 : Diff → Text) (p q : Position) (c d : Fields V)
    (joinPath : List Name → Text) : List (Text × Side × Side) :=
  (if p.version ≠ q.version then [("Data Dictionary version".toList, .value p.version, .value q.version)] else []) ++
  (if p.ids ≠ q.ids then [("IDS name".toList, .value p.ids, .value q.ids)] else []) ++
  (if p.path ≠ q.path then [("Path in IDS".toList, .value (joinPath p.path), .value (joinPath q.path))] else []) ++
  (idsDiff eqv c d).map fun f =>
    (describe f, match f with | .right _ => .nothing | _ => .node (show1 f), match f with | .left _ => .nothing | _ => .node (show2 f))

end Verif.Print
