import Verif.Model.NcMeta
import Verif.Spec.Convert
import Verif.Spec.AlMap
/-
What the dimensions of netCDF variables should be.
-/
namespace Verif.NcSpec
open Verif.Ids Verif.Nc Verif.ConvertSpec
open Verif.AlSpec (arraysOf)

/-- Number of dimensions of a node, without those of the arrays of structures around it. -/
def rank : Meta → Nat
  | .leaf l => l.ndim
  | .struct _ => 0
  | .aos _ => 1

def IsStruct : Meta → Prop
  | .struct _ => True
  | _ => False

/-- Dimension `i` of a node of the IDS. -/
def HasDim (m : MFields) (p : Path) (i : Nat) : Prop := ∃ x, metaAt (.struct m) p = some x ∧ i < rank x

/-- `p` is an upper or lower error bar of `q`: it has its name and place, with `_error_upper` or `_error_lower`. -/
def ErrorBar (p q : Path) : Prop :=
  ∃ d n, q = d ++ [n] ∧ (p = d ++ [n ++ "_error_upper".toList] ∨ p = d ++ [n ++ "_error_lower".toList])

/-- The node is not an error bar. -/
def Regular (p : Path) : Prop := ¬ ∃ q, ErrorBar p q

/-- `p` contains `q`. -/
def Inside (q p : Path) : Prop := ∃ n r, q = p ++ n :: r

/-- The Data Dictionary says that `a` can be used as coordinate in place of `q`: in the coordinate of a node, or at `q`. -/
inductive Alternative (I : Info) (m : MFields) : Path → Path → Prop
  | coordinate {p : Path} {i : Nat} {q a : Path} {others : List Path} (hd : HasDim m p i) (hr : Regular p)
      (h : I.refs p i = q :: others) (hin : ¬ Inside q p) (ha : a ∈ others) : Alternative I m a q
  | node {q a : Path} (hd : HasDim m q 0) (hr : Regular q) (ha : a ∈ I.alternative q) : Alternative I m a q

/-- The Data Dictionary says that dimension `i` of `p` is dimension `k` of `q`. -/
inductive Shares (I : Info) (m : MFields) : Path × Nat → Path × Nat → Prop
  /-- `q` is the coordinate (it is not inside `p`) -/
  | coordinate {p : Path} {i : Nat} {q : Path} {others : List Path} (hd : HasDim m p i) (hr : Regular p)
      (h : I.refs p i = q :: others) (hin : ¬ Inside q p) : Shares I m (p, i) (q, 0)
  /-- `coordinateX_same_as` is `q` -/
  | sameAs {p : Path} {i : Nat} {q : Path} (hd : HasDim m p i) (hr : Regular p) (h0 : I.refs p i = [])
      (h : I.sameAs p i = [q]) : Shares I m (p, i) (q, i)
  /-- error bars have the dimensions of what they belong to -/
  | error {p : Path} {i : Nat} {q : Path} (hd : HasDim m p i) (h : ErrorBar p q) : Shares I m (p, i) (q, i)
  /-- alternative coordinates -/
  | alternative {a q : Path} (h : Alternative I m a q) : Shares I m (a, 0) (q, 0)

/-- A node with one dimension and outside arrays of structures gives its name to its dimension. In other cases the
number of the dimension is added. -/
def indexSuffix (m : MFields) (p : Path) (x : Meta) (i : Nat) : Option Nat :=
  match x with
  | .leaf l => if arraysOf m [] p = [] ∧ l.ndim = 1 then none else some i
  | _ => some i

/-- The dimension a node has if it shares it with no other node. -/
inductive Own (I : Info) (m : MFields) : Path → Nat → Dim → Prop
  /-- the coordinate is inside the array of structures -/
  | inside {p : Path} {i : Nat} {q : Path} {others : List Path} (hd : HasDim m p i) (hr : Regular p)
      (h : I.refs p i = q :: others) (hin : Inside q p) (ha : ∀ r, ¬ Alternative I m p r) : Own I m p i ⟨q, none⟩
  /-- no coordinate: the dimension is named after the node -/
  | index {p : Path} {i : Nat} {x : Meta} (hx : metaAt (.struct m) p = some x) (hi : i < rank x) (hr : Regular p)
      (h : I.refs p i = []) (h' : I.sameAs p i = []) (ha : ∀ r, ¬ Alternative I m p r) :
      Own I m p i ⟨p, indexSuffix m p x i⟩

/-- Time dimensions: the coordinate inside the array of structures is a time, or the node without coordinates is
called `time`. -/
inductive TimeDim (I : Info) (m : MFields) : Dim → Prop
  | inside {p : Path} {i : Nat} {q : Path} {others : List Path} (hd : HasDim m p i) (hr : Regular p)
      (h : I.refs p i = q :: others) (hin : Inside q p) (ht : I.time p i = true) : TimeDim I m ⟨q, none⟩
  | index {p : Path} {i : Nat} {x : Meta} (hx : metaAt (.struct m) p = some x) (hi : i < rank x) (hr : Regular p)
      (h : I.refs p i = []) (h' : I.sameAs p i = []) (ht : p.getLast? = some "time".toList) :
      TimeDim I m ⟨p, indexSuffix m p x i⟩

/-- Dimensions that are the same one: through shared dimensions, or because two arrays of structures have the same
coordinate inside them. -/
inductive Same (I : Info) (m : MFields) : Path × Nat → Path × Nat → Prop
  | refl (a : Path × Nat) : Same I m a a
  | symm {a b : Path × Nat} (h : Same I m a b) : Same I m b a
  | trans {a b c : Path × Nat} (h : Same I m a b) (h' : Same I m b c) : Same I m a c
  | shares {a b : Path × Nat} (h : Shares I m a b) : Same I m a b
  | inside {p p' : Path} {i i' : Nat} {d : Dim} (h : Own I m p i d) (h' : Own I m p' i' d) (hi : Inside d.path p)
      (hi' : Inside d.path p') : Same I m (p, i) (p', i')

/-! ### Coordinates -/

/-- A dimension named by a node. (The node may have the dimension of another node all the same, if it is an alternative
coordinate.) -/
inductive Names (I : Info) (m : MFields) : Path → Nat → Dim → Prop
  | inside {p : Path} {i : Nat} {q : Path} {others : List Path} (hd : HasDim m p i) (hr : Regular p)
      (h : I.refs p i = q :: others) (hin : Inside q p) : Names I m p i ⟨q, none⟩
  | index {p : Path} {i : Nat} {x : Meta} (hx : metaAt (.struct m) p = some x) (hi : i < rank x) (hr : Regular p)
      (h : I.refs p i = []) (h' : I.sameAs p i = []) : Names I m p i ⟨p, indexSuffix m p x i⟩

/-- `c` labels the elements of the array of structures `p`: it is a single text in it that is called `name`, `identifier` or
`label`. -/
def Label (m : MFields) (p c : Path) : Prop :=
  (∃ x, metaAt (.struct m) p = some (.aos x)) ∧
  (c = p ++ ["name".toList] ∨ c = p ++ ["identifier".toList] ∨ c = p ++ ["label".toList]) ∧
  ∃ l, metaAt (.struct m) c = some (.leaf l) ∧ l.type = .str ∧ l.ndim = 0

/-- `c` is a coordinate of a dimension. -/
inductive DimCoord (I : Info) (m : MFields) : Dim → Path → Prop
  /-- the coordinate inside an array of structures -/
  | inside {p : Path} {i : Nat} {q : Path} {others : List Path} (hd : HasDim m p i) (hr : Regular p)
      (h : I.refs p i = q :: others) (hin : Inside q p) : DimCoord I m ⟨q, none⟩ q
  /-- the node that names the dimension -/
  | index {p : Path} {i : Nat} {l : LeafMeta} (hx : metaAt (.struct m) p = some (.leaf l)) (hi : i < l.ndim) (hr : Regular p)
      (h : I.refs p i = []) (h' : I.sameAs p i = []) : DimCoord I m ⟨p, indexSuffix m p (.leaf l) i⟩ p
  /-- the labels of the elements, if an array of structures names the dimension -/
  | label {p c : Path} (hl : Label m p c) (hr : Regular p) (h : I.refs p 0 = []) (h' : I.sameAs p 0 = []) :
      DimCoord I m ⟨p, some 0⟩ c
  /-- alternative coordinates -/
  | alternative {a q : Path} {d : Dim} (h : Alternative I m a q) (hd : Names I m q 0 d) : DimCoord I m d a

end Verif.NcSpec
