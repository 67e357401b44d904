import Verif.Model.Validate
import Verif.Spec.Tree
/-!
Specification of coordinates and of valid IDSs, in terms of navigation (`goto`, see C05) and
of the shapes of nodes.
-/
namespace Verif.ValidateSpec
open Verif.Ids
open Verif.Path (Parsed)
open Verif.Coord (Coordinate)

variable {V : Type} [ShapedValue V]

/-- The path leads from the node at `a` to `b`. -/
def Leads (x : Ctx V) (a : Addr) (p : Parsed) (b : Addr) : Prop :=
  goto x.asInt x.stack x.root a true p = .ok b

/-- Number of items: of an array in its first dimension, characters of a string, elements of
an array of structures. -/
inductive Length : Node V → Nat → Prop
  | unset {l : LeafMeta} (h : l.ndim ≠ 0) : Length (.leaf l none) 0
  | array {l : LeafMeta} {v : V} {n : Nat} {s : List Nat} (h : l.ndim ≠ 0)
      (hs : ShapedValue.shape v = n :: s) : Length (.leaf l (some v)) n
  | noText {l : LeafMeta} (h : l.ndim = 0) (ht : l.type = .str) : Length (.leaf l none) 0
  | text {l : LeafMeta} {v : V} (h : l.ndim = 0) (ht : l.type = .str) :
      Length (.leaf l (some v)) (ShapedValue.strLen v)
  | elems {m : MFields} {e : Elems V} : Length (.aos m e) e.length

/-- The shape of a node; structures have none. -/
inductive Shape : Node V → List Nat → Prop
  | scalar {l : LeafMeta} {v : Option V} (h : l.ndim = 0) : Shape (.leaf l v) []
  | unset {l : LeafMeta} (h : l.ndim ≠ 0) : Shape (.leaf l none) (List.replicate l.ndim 0)
  | array {l : LeafMeta} {v : V} (h : l.ndim ≠ 0) :
      Shape (.leaf l (some v)) (ShapedValue.shape v)
  | elems {m : MFields} {e : Elems V} : Shape (.aos m e) [e.length]

/-- Paths lead to nodes with these numbers of items. -/
inductive Candidates (x : Ctx V) (a : Addr) : List Parsed → List (Addr × Nat) → Prop
  | nil : Candidates x a [] []
  | cons {p : Parsed} {b : Addr} {y : Node V} {n : Nat} {ps : List Parsed}
      {cs : List (Addr × Nat)} (h : Leads x a p b) (hy : x.root.at b = some y)
      (hn : Length y n) (r : Candidates x a ps cs) : Candidates x a (p :: ps) ((b, n) :: cs)

/-- The stored time mode. -/
def Mode (x : Ctx V) (m : Int) : Prop :=
  ∃ l v, x.root.at [("ids_properties".toList, none), ("homogeneous_time".toList, none)] = some (.leaf l v) ∧
    ((∃ w, v = some w ∧ x.asInt w = some m) ∨
     (v = none ∧ l.type = .int ∧ l.ndim = 0 ∧ m = -999999999))

/-- The one path a coordinate stands for: the root time in homogeneous mode, the time
given in the Data Dictionary in heterogeneous mode, the reference if it is the only rule. -/
def Uses (x : Ctx V) (c : Coordinate) (p : Parsed) : Prop :=
  (c.isTime = true ∧ Mode x 1 ∧ p = ⟨["time".toList], [none]⟩) ∨
  (c.isTime = true ∧ Mode x 0 ∧ c.references.head? = some p) ∨
  (c.isTime = false ∧ c.hasAlternatives = false ∧ c.references.head? = some p)

/-- One of several references has to be chosen. -/
def Chooses (c : Coordinate) : Prop := c.isTime = false ∧ c.hasAlternatives = true

/-- The node is an array of structures and the path leads into its elements. -/
def Inside (x : Ctx V) (a : Addr) (p : Parsed) : Prop :=
  (∃ m e, x.root.at a = some (.aos m e)) ∧
  ∃ n ns, p.parts = a.map (·.1) ++ n :: ns

/-- The data nodes the path leads to from each of the elements `i, i+1, ...`. -/
inductive InElements (x : Ctx V) (a : Addr) (p : Parsed) :
    Nat → Nat → List (LeafMeta × Option V) → Prop
  | nil {i : Nat} : InElements x a p i 0 []
  | cons {i n : Nat} {b : Addr} {l : LeafMeta} {v : Option V}
      {vs : List (LeafMeta × Option V)} (h : Leads x (elemAddr a i) p b)
      (hy : x.root.at b = some (.leaf l v)) (r : InElements x a p (i + 1) n vs) :
      InElements x a p i (n + 1) ((l, v) :: vs)

/-- The shape of the value of a data node. -/
inductive ValueShape : LeafMeta × Option V → List Nat → Prop
  | unset {l : LeafMeta} : ValueShape (l, none) (List.replicate l.ndim 0)
  | set {l : LeafMeta} {v : V} : ValueShape (l, some v) (ShapedValue.shape v)

/-- The coordinate of a dimension. -/
inductive Lookup (x : Ctx V) (a : Addr) (key : Nat) : CoordResult V → Prop
  /-- no reference to another node: an index -/
  | index {c : Coordinate} {y : Node V} {s : List Nat} {n : Nat}
      (hc : (x.md a).coords[key]? = some c) (hr : c.references = [])
      (hy : x.root.at a = some y) (hs : Shape y s) (hn : s[key]? = some n) :
      Lookup x a key (.range n)
  /-- one reference, into the elements of this array of structures: all their values -/
  | inside {c : Coordinate} {p : Parsed} {m : MFields} {e : Elems V}
      {vs : List (LeafMeta × Option V)} {s : List Nat}
      (hc : (x.md a).coords[key]? = some c) (hr : c.references ≠ []) (hu : Uses x c p)
      (hi : Inside x a p) (he : x.root.at a = some (.aos m e))
      (hv : InElements x a p 0 e.length vs) (hs : ∀ v ∈ vs, ValueShape v s) :
      Lookup x a key (.values vs)
  /-- one reference: the node it leads to -/
  | plain {c : Coordinate} {p : Parsed} {b : Addr}
      (hc : (x.md a).coords[key]? = some c) (hr : c.references ≠ []) (hu : Uses x c p)
      (hi : ¬ Inside x a p) (hb : Leads x a p b) (ha : (x.md b).alternatives = []) :
      Lookup x a key (.node b)
  /-- one reference, to a node with alternatives of which none is filled -/
  | primary {c : Coordinate} {p : Parsed} {b : Addr} {y : Node V} {n : Nat}
      {cs : List (Addr × Nat)}
      (hc : (x.md a).coords[key]? = some c) (hr : c.references ≠ []) (hu : Uses x c p)
      (hi : ¬ Inside x a p) (hb : Leads x a p b) (ha : (x.md b).alternatives ≠ [])
      (hy : x.root.at b = some y) (hn : Length y n)
      (hcs : Candidates x b (x.md b).alternatives cs)
      (h0 : ∀ d ∈ (b, n) :: cs, d.2 = 0) : Lookup x a key (.node b)
  /-- one reference, to a node with alternatives: the first that is filled, if all filled
  ones have the same length -/
  | first {c : Coordinate} {p : Parsed} {b : Addr} {y : Node V} {n : Nat}
      {cs pre post : List (Addr × Nat)} {d : Addr} {k : Nat}
      (hc : (x.md a).coords[key]? = some c) (hr : c.references ≠ []) (hu : Uses x c p)
      (hi : ¬ Inside x a p) (hb : Leads x a p b) (ha : (x.md b).alternatives ≠ [])
      (hy : x.root.at b = some y) (hn : Length y n)
      (hcs : Candidates x b (x.md b).alternatives cs)
      (he : (b, n) :: cs = pre ++ (d, k) :: post) (hk : k ≠ 0) (h0 : ∀ q ∈ pre, q.2 = 0)
      (h1 : ∀ q ∈ post, q.2 = 0 ∨ q.2 = k) : Lookup x a key (.node d)
  /-- several references: the one that is filled -/
  | oneOf {c : Coordinate} {cs pre post : List (Addr × Nat)} {d : Addr} {k : Nat}
      (hc : (x.md a).coords[key]? = some c) (hr : c.references ≠ []) (hu : Chooses c)
      (hcs : Candidates x a c.references cs)
      (he : cs = pre ++ (d, k) :: post) (hk : k ≠ 0) (h0 : ∀ q ∈ pre ++ post, q.2 = 0) :
      Lookup x a key (.node d)
  /-- several references or a fixed size, no reference filled: an index -/
  | noneOf {c : Coordinate} {cs : List (Addr × Nat)} {y : Node V} {s : List Nat} {n : Nat}
      (hc : (x.md a).coords[key]? = some c) (hr : c.references ≠ []) (hu : Chooses c)
      (hcs : Candidates x a c.references cs) (h0 : ∀ q ∈ cs, q.2 = 0)
      (hsize : c.size ≠ none) (hy : x.root.at a = some y) (hs : Shape y s)
      (hn : s[key]? = some n) : Lookup x a key (.range n)

/-- There is no well-defined coordinate. -/
inductive Ambiguous (x : Ctx V) (a : Addr) (key : Nat) : Prop
  /-- alternatives of different lengths are filled -/
  | lengths {c : Coordinate} {p : Parsed} {b : Addr} {y : Node V} {n : Nat}
      {cs : List (Addr × Nat)} {d e : Addr × Nat}
      (hc : (x.md a).coords[key]? = some c) (hr : c.references ≠ []) (hu : Uses x c p)
      (hi : ¬ Inside x a p) (hb : Leads x a p b) (ha : (x.md b).alternatives ≠ [])
      (hy : x.root.at b = some y) (hn : Length y n)
      (hcs : Candidates x b (x.md b).alternatives cs)
      (hd : d ∈ (b, n) :: cs) (he : e ∈ (b, n) :: cs) (d0 : d.2 ≠ 0) (e0 : e.2 ≠ 0)
      (hde : d.2 ≠ e.2)
  /-- several references are filled -/
  | several {c : Coordinate} {cs pre mid post : List (Addr × Nat)} {d e : Addr × Nat}
      (hc : (x.md a).coords[key]? = some c) (hr : c.references ≠ []) (hu : Chooses c)
      (hcs : Candidates x a c.references cs) (hs : cs = pre ++ d :: mid ++ e :: post)
      (d0 : d.2 ≠ 0) (e0 : e.2 ≠ 0)
  /-- none of several references is filled, and there is no fixed size -/
  | missing {c : Coordinate} {cs : List (Addr × Nat)}
      (hc : (x.md a).coords[key]? = some c) (hr : c.references ≠ []) (hu : Chooses c)
      (hcs : Candidates x a c.references cs) (h0 : ∀ q ∈ cs, q.2 = 0) (hsize : c.size = none)

/-! ### Valid IDSs -/

/-- The Data Dictionary prescribes no (nonzero) size for the dimension. -/
def NoSize (c : Coordinate) : Prop := c.size = none ∨ c.size = some 0

/-- The time of an element is not set. -/
def EmptyTime : LeafMeta × Option V → Prop
  | (_, some v) => ShapedValue.hasEmptyFloat v = true
  | (l, none) => l.type = .flt ∧ l.ndim = 0

/-- A dimension of size `n` agrees with its coordinate. -/
inductive Agrees (x : Ctx V) (n : Nat) (c : Coordinate) : CoordResult V → Prop
  | range (h : NoSize c) : Agrees x n c (.range n)
  | values {vs : List (LeafMeta × Option V)} (h : NoSize c) (hn : vs.length = n)
      (he : ∀ v ∈ vs, ¬ EmptyTime v) : Agrees x n c (.values vs)
  | node {b : Addr} {y : Node V} {s : List Nat} (hy : x.root.at b = some y)
      (hs : Shape y (n :: s)) : Agrees x n c (.node b)
  /-- the coordinate is a structure (in old Data Dictionaries) -/
  | noShape {b : Addr} (h : ∀ y s, x.root.at b = some y → ¬ Shape y s) : Agrees x n c (.node b)

/-- A dimension of size `n` is as its coordinate prescribes: the fixed size, or the size of
the coordinate. Coordinates that cannot be determined (errors in the Data Dictionary) are
not checked. -/
def DimFits (x : Ctx V) (a : Addr) (dim n : Nat) (c : Coordinate) : Prop :=
  c.hasValidation = true →
    (∃ s, c.size = some s ∧ s ≠ 0 ∧ (n : Int) = s) ∨
    ((NoSize c ∨ c.hasAlternatives = true) ∧ c.references ≠ [] ∧
      (x.coordinate a dim = .error .other ∨ ∃ r, Lookup x a dim r ∧ Agrees x n c r))

/-- A dimension of size `n` has the same size as the node it should be the same as. -/
def SameFits (x : Ctx V) (a : Addr) (dim n : Nat) (c : Coordinate) : Prop :=
  c.hasValidation = true → ∃ p, c.references = [p] ∧
    ((∃ e, e ≠ .index ∧ goto x.asInt x.stack x.root a true p = .error e) ∨
     ∃ b y s, Leads x a p b ∧ x.root.at b = some y ∧ Shape y s ∧ s[dim]? = some n)

/-- Number of dimensions. -/
def dims : Node V → Nat
  | .leaf l _ => l.ndim
  | .struct _ => 0
  | .aos _ _ => 1

/-- All coordinates of a node fit. -/
def CoordsFit (x : Ctx V) (a : Addr) (y : Node V) : Prop :=
  ∀ s, Shape y s → ∀ dim, dim < dims y →
    ∃ n c d, s[dim]? = some n ∧ (x.md a).coords[dim]? = some c ∧ (x.md a).sameAs[dim]? = some d ∧
      DimFits x a dim n c ∧ SameFits x a dim n d

/-- A valid IDS. -/
structure Valid (x : Ctx V) : Prop where
  mode : ∃ m, Mode x m ∧ (m = 0 ∨ m = 1 ∨ m = 2)
  static : x.dict.constant = true → Mode x 2
  isStruct : ∃ c, x.root = .struct c
  /-- nothing time dependent is filled in time independent mode -/
  dynamic : Mode x 2 → ∀ a y, a ≠ [] → x.root.at a = some y → y.hasValue = true →
    (x.md a).dynamic = false
  coords : ∀ a y, a ≠ [] → x.root.at a = some y → TreeSpec.Filled y → CoordsFit x a y

/-- What a `ValidationError` reports about the node at `a`. -/
inductive Violates (x : Ctx V) : Addr → Option Nat → Reason → Prop
  | timeMode {m : Int} (h : Mode x m) (hm : m ≠ 0 ∧ m ≠ 1 ∧ m ≠ 2) : Violates x [] none .timeMode
  | static {m : Int} (hc : x.dict.constant = true) (h : Mode x m) (hm : m ≠ 2) :
      Violates x [] none .static
  | dynamic {a : Addr} {y : Node V} (hy : x.root.at a = some y) (hv : y.hasValue = true)
      (hd : (x.md a).dynamic = true) (h : Mode x 2) : Violates x a none .dynamic
  | size {a : Addr} {y : Node V} {sh : List Nat} {dim n : Nat} {c : Coordinate} {s : Int}
      (hy : x.root.at a = some y) (hf : TreeSpec.Filled y) (hs : Shape y sh)
      (hn : sh[dim]? = some n) (hc : (x.md a).coords[dim]? = some c)
      (hv : c.hasValidation = true) (hz : c.size = some s) (h0 : s ≠ 0) (hne : (n : Int) ≠ s)
      (ho : c.hasAlternatives = false ∨ ∃ r, Lookup x a dim r ∧ ∀ b, r ≠ .node b) :
      Violates x a (some dim) (.size s)
  | lookup {a : Addr} {y : Node V} {dim : Nat} {c : Coordinate}
      (hy : x.root.at a = some y) (hf : TreeSpec.Filled y)
      (hc : (x.md a).coords[dim]? = some c) (hv : c.hasValidation = true)
      (h : Ambiguous x a dim) : Violates x a (some dim) .lookup
  | index {a : Addr} {y : Node V} {dim : Nat} {c : Coordinate}
      (hy : x.root.at a = some y) (hf : TreeSpec.Filled y)
      (hc : (x.md a).coords[dim]? = some c) (hv : c.hasValidation = true)
      (h : x.coordinate a dim = .error .index) : Violates x a (some dim) .index
  /-- the coordinate is a data node without dimensions -/
  | scalar {a b : Addr} {y z : Node V} {dim : Nat} {c : Coordinate}
      (hy : x.root.at a = some y) (hf : TreeSpec.Filled y)
      (hc : (x.md a).coords[dim]? = some c) (hv : c.hasValidation = true)
      (h : Lookup x a dim (.node b)) (hz : x.root.at b = some z) (hs : Shape z []) :
      Violates x a (some dim) .index
  | emptyTime {a : Addr} {y : Node V} {dim : Nat} {c : Coordinate}
      {vs : List (LeafMeta × Option V)} {v : LeafMeta × Option V}
      (hy : x.root.at a = some y) (hf : TreeSpec.Filled y)
      (hc : (x.md a).coords[dim]? = some c) (hv : c.hasValidation = true)
      (h : Lookup x a dim (.values vs)) (hm : v ∈ vs) (he : EmptyTime v) :
      Violates x a (some dim) .emptyTime
  | mismatch {a b : Addr} {y z : Node V} {dim n k : Nat} {c : Coordinate} {sh s : List Nat}
      (hy : x.root.at a = some y) (hf : TreeSpec.Filled y) (hs : Shape y sh)
      (hn : sh[dim]? = some n) (hc : (x.md a).coords[dim]? = some c)
      (hv : c.hasValidation = true) (h : Lookup x a dim (.node b))
      (hz : x.root.at b = some z) (hk : Shape z (k :: s)) (hne : n ≠ k) :
      Violates x a (some dim) .mismatch
  | sameAs {a b : Addr} {y z : Node V} {dim n k : Nat} {c : Coordinate} {p : Parsed}
      {sh s : List Nat} (hy : x.root.at a = some y) (hf : TreeSpec.Filled y) (hs : Shape y sh)
      (hn : sh[dim]? = some n) (hc : (x.md a).sameAs[dim]? = some c)
      (hv : c.hasValidation = true) (hr : c.references = [p]) (h : Leads x a p b)
      (hz : x.root.at b = some z) (hk : Shape z s) (hd : s[dim]? = some k) (hne : n ≠ k) :
      Violates x a (some dim) .sameAs
  | sameAsIndex {a : Addr} {y : Node V} {dim : Nat} {c : Coordinate} {p : Parsed}
      (hy : x.root.at a = some y) (hf : TreeSpec.Filled y)
      (hc : (x.md a).sameAs[dim]? = some c) (hv : c.hasValidation = true)
      (hr : c.references = [p]) (h : goto x.asInt x.stack x.root a true p = .error .index) :
      Violates x a (some dim) .index

/-- Defects of the Data Dictionary (or of the stored data) that make validation fail with
another exception. -/
inductive Defect (x : Ctx V) : Prop
  | noMode (h : ∀ m, ¬ Mode x m)
  | noStruct (h : ∀ c, x.root ≠ .struct c)
  /-- number of dimensions of a filled node and of its metadata differ -/
  | rank {a : Addr} {y : Node V} {s : List Nat} (hy : x.root.at a = some y)
      (hf : TreeSpec.Filled y) (hs : Shape y s)
      (h : s.length < dims y ∨ (x.md a).coords.length < dims y ∨ (x.md a).sameAs.length < dims y)
  /-- the only rule is the size zero -/
  | zeroSize {a : Addr} {y : Node V} {dim : Nat} {c : Coordinate} (hy : x.root.at a = some y)
      (hf : TreeSpec.Filled y) (hc : (x.md a).coords[dim]? = some c)
      (hv : c.hasValidation = true) (hr : c.references = [])
      (hs : NoSize c ∨ c.hasAlternatives = true)
  /-- `same_as` is not exactly one path -/
  | notOnePath {a : Addr} {y : Node V} {dim : Nat} {c : Coordinate} (hy : x.root.at a = some y)
      (hf : TreeSpec.Filled y) (hc : (x.md a).sameAs[dim]? = some c)
      (hv : c.hasValidation = true) (hr : ∀ p, c.references ≠ [p])
  /-- the node it should be the same as does not have that dimension -/
  | noDimension {a b : Addr} {y : Node V} {dim : Nat} {c : Coordinate} {p : Parsed}
      (hy : x.root.at a = some y) (hf : TreeSpec.Filled y)
      (hc : (x.md a).sameAs[dim]? = some c) (hv : c.hasValidation = true)
      (hr : c.references = [p]) (h : Leads x a p b)
      (hz : ∀ z s, x.root.at b = some z → Shape z s → s[dim]? = none)

/-- What an exception of `validate` tells. -/
def Explained (x : Ctx V) : ValErr → Prop
  | .invalid a dim r => Violates x a dim r
  | .crash _ _ => Defect x

end Verif.ValidateSpec
