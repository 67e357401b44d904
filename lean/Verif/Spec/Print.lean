import Verif.Model.Print
import Verif.Spec.Tree
import Verif.Spec.Convert
/-
What the printed views are to show, by address of node or path of metadata.
-/
namespace Verif.PrintSpec
open Verif.Ids Verif.Print Verif.TreeSpec
open Verif.ConvertSpec (mchild metaAt)

section
variable {V : Type} [Value V]

/-- The name of the node at an address. -/
def lastName (a : Addr) : Name := (a.getLast?.map (·.1)).getD []

/-- The line for the node at address `a` of a structure that is itself at address `b` of its IDS: the depth is the number of
levels between them; data nodes are shown with their value if they have one, structures and elements by their path, arrays of
structures only if they have no elements. -/
def label (b : Addr) (x : Node V) (a : Addr) : Option (Nat × Line V) :=
  match x.at a with
  | none => none
  | some (.leaf _ none) => some (a.length, .data (lastName (b ++ a)) none)
  | some (.leaf _ (some v)) =>
    some (a.length, .data (lastName (b ++ a)) (if Value.isEmpty v = true then none else some v))
  | some (.struct _) => some (a.length, .node (pathText (b ++ a)))
  | some (.aos _ e) => if e.length = 0 then some (a.length, .node (pathText (b ++ a) ++ "[]".toList)) else none

/-- The node at `a` is to be shown. -/
def Visible (hide : Bool) (x : Node V) (a : Addr) : Prop :=
  a ≠ [] ∧ ∃ y, x.at a = some y ∧ (hide = false ∨ IsElement a ∨ y.hasValue = true)

end

/-- The children of an entry of the Data Dictionary. -/
def kids : Meta → MFields
  | .leaf _ => .nil
  | .struct c => c
  | .aos c => c

/-- Data Dictionary order of paths: an entry comes before everything below it. -/
def PathBefore : MFields → List Name → List Name → Prop
  | _, _, [] => False
  | _, [], _ :: _ => True
  | c, n :: p, k :: q =>
    (n = k ∧ ∃ m, mchild c n = some m ∧ PathBefore (kids m) p q) ∨
    (mnames c).idxOf n < (mnames c).idxOf k

/-- The lines for the entry at path `q`: its own, and a mark that something is hidden below a structure at the limit. -/
def entryLines (maxdepth : Int) (c : MFields) (q : List Name) : List (Nat × MLine) :=
  match metaAt (.struct c) q with
  | none => []
  | some (.leaf _) => [(q.length, .data q)]
  | some _ => (q.length, .node q) :: if maxdepth ≠ 0 ∧ maxdepth ≤ q.length then [(q.length + 1, .hidden)] else []

/-- What `get_matching_blocks` of `difflib.SequenceMatcher` guarantees: at least one block (the last one is a dummy of length
0), blocks within the texts, the texts are the same in a block, blocks follow each other in both texts. -/
structure Blocks (t1 t2 : Text) (l : List Match) : Prop where
  some : l ≠ []
  inside : ∀ m ∈ l, m.a + m.size ≤ t1.length ∧ m.b + m.size ≤ t2.length
  same : ∀ m ∈ l, (t1.drop m.a).take m.size = (t2.drop m.b).take m.size
  follow : l.Pairwise fun m n => m.a + m.size ≤ n.a ∧ m.b + m.size ≤ n.b

/-- The text of pieces, and of those that are not highlighted. -/
def allText (l : List Piece) : Text := l.flatMap (·.text)
def plainText (l : List Piece) : Text := (l.filter fun p => !p.mark).flatMap (·.text)

end Verif.PrintSpec
