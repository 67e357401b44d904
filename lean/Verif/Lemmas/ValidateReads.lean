import Verif.Lemmas.Tree
import Verif.Model.Validate
import Verif.Lemmas.Validate
/-! Trees with everything read, and what validation finds in them. -/
set_option linter.unusedSectionVars false
set_option linter.unusedSimpArgs false
namespace Verif.Ids.Opened
open Verif.TreeSpec Verif.Ids
open Verif.Path (Idx Parsed)
open Verif.Coord (Coordinate)

variable {V : Type} [Value V]

mutual
def openedM : Meta → Node V
  | .leaf l => .leaf l (readLeaf l none)
  | .struct c => .struct (openedMF c)
  | .aos c => .aos c .nil
def openedMF : MFields → Fields V
  | .nil => .nil
  | .cons n m r => .present n (openedM m) (openedMF r)
end

mutual
/-- The tree after everything in it has been read. -/
def opened : Node V → Node V
  | .leaf l v => .leaf l (readLeaf l v)
  | .struct c => .struct (openedF c)
  | .aos m e => .aos m (openedE e)
def openedF : Fields V → Fields V
  | .nil => .nil
  | .absent n m r => .present n (openedM m) (openedF r)
  | .present n x r => .present n (opened x) (openedF r)
def openedE : Elems V → Elems V
  | .nil => .nil
  | .cons c r => .cons (openedF c) (openedE r)
end

theorem readLeaf_twice (l : LeafMeta) (v : Option V) : readLeaf l (readLeaf l v) = readLeaf l v := by
  cases v with
  | none => by_cases h : l.ndim = 0 <;> simp [readLeaf, h]
  | some v => rfl

theorem leafHasValue_readLeaf (l : LeafMeta) (v : Option V) :
    leafHasValue (readLeaf l v) = leafHasValue v := by
  cases v with
  | none => by_cases h : l.ndim = 0 <;> simp [readLeaf, h, leafHasValue, Value.isEmpty_emptyArray]
  | some v => rfl

theorem opened_readLeaf (l : LeafMeta) (v : Option V) :
    opened (.leaf l (readLeaf l v)) = opened (.leaf l v) := by
  simp [opened, readLeaf_twice]

mutual
theorem opened_openedM (m : Meta) : opened (openedM m : Node V) = openedM m := by
  cases m with
  | leaf l => simp [openedM, opened, readLeaf_twice]
  | struct c => simp [openedM, opened, openedF_openedMF c]
  | aos c => simp [openedM, opened, openedE]
theorem openedF_openedMF (c : MFields) : openedF (openedMF c : Fields V) = openedMF c := by
  cases c with
  | nil => simp [openedMF, openedF]
  | cons n m r => simp [openedMF, openedF, opened_openedM m, openedF_openedMF r]
end

theorem openedF_fresh (c : MFields) : openedF (c.fresh : Fields V) = openedMF c := by
  cases c with
  | nil => simp [MFields.fresh, openedF, openedMF]
  | cons n m r => simp [MFields.fresh, openedF, openedMF, openedF_fresh r]

theorem opened_fresh (m : Meta) : opened (m.fresh : Node V) = openedM m := by
  cases m with
  | leaf l => simp [Meta.fresh, opened, openedM]
  | struct c => simp [Meta.fresh, opened, openedM, openedF_fresh]
  | aos c => simp [Meta.fresh, opened, openedM, openedE]

theorem openedF_names (c : Fields V) : (openedF c).names = c.names := by
  cases c with
  | nil => simp [openedF]
  | absent n m r => simp [openedF, Fields.names, openedF_names r]
  | present n x r => simp [openedF, Fields.names, openedF_names r]

theorem openedE_length (e : Elems V) : (openedE e).length = e.length := by
  cases e with
  | nil => simp [openedE]
  | cons c r => simp [openedE, Elems.length, openedE_length r]

theorem openedF_get? (c : Fields V) (k : Name) : (openedF c).get? k = (c.get? k).map opened := by
  cases c with
  | nil => simp [openedF, Fields.get?]
  | absent n m r =>
    simp only [openedF, Fields.get?]; split
    · simp [opened_fresh]
    · exact openedF_get? r k
  | present n x r =>
    simp only [openedF, Fields.get?]; split
    · simp
    · exact openedF_get? r k

theorem openedE_get? (e : Elems V) (i : Nat) : (openedE e).get? i = (e.get? i).map openedF := by
  induction i generalizing e with
  | zero => cases e <;> simp [openedE, Elems.get?]
  | succ i ih => cases e <;> simp [openedE, Elems.get?, ih]

theorem opened_item (n : Node V) (s : Name × Option Nat) :
    (opened n).item s = (n.item s).map opened := by
  cases n with
  | leaf l v => simp [opened, Node.item]
  | aos m e => simp [opened, Node.item]
  | struct c =>
    obtain ⟨k, i⟩ := s
    simp only [opened, Node.item, openedF_get?]
    cases hc : c.get? k with
    | none => simp
    | some x =>
      cases i with
      | none => simp
      | some i =>
        cases x with
        | leaf l v => simp [opened]
        | struct c => simp [opened]
        | aos m e =>
          simp only [opened, openedE_get?, Option.map_some]
          cases e.get? i <;> simp [opened]

theorem opened_at (n : Node V) (a : Addr) : (opened n).at a = (n.at a).map opened := by
  induction a generalizing n with
  | nil => simp [Node.at]
  | cons s a ih =>
    simp only [Node.at, opened_item]
    cases n.item s with
    | none => simp
    | some x => simp [ih]

mutual
theorem openedM_hasValue (m : Meta) : (openedM m : Node V).hasValue = false := by
  cases m with
  | leaf l => simp [openedM, Node.hasValue, leafHasValue_readLeaf]; rfl
  | struct c => simp [openedM, Node.hasValue, openedMF_hasValue c]
  | aos c => simp [openedM, Node.hasValue, Elems.length]
theorem openedMF_hasValue (c : MFields) : (openedMF c : Fields V).hasValue = false := by
  cases c with
  | nil => simp [openedMF, Fields.hasValue]
  | cons n m r => simp [openedMF, Fields.hasValue, openedM_hasValue m, openedMF_hasValue r]
end

mutual
theorem opened_hasValue (n : Node V) : (opened n).hasValue = n.hasValue := by
  cases n with
  | leaf l v => simp [opened, Node.hasValue, leafHasValue_readLeaf]
  | struct c => simp [opened, Node.hasValue, openedF_hasValue c]
  | aos m e => simp [opened, Node.hasValue, openedE_length]
theorem openedF_hasValue (c : Fields V) : (openedF c).hasValue = c.hasValue := by
  cases c with
  | nil => simp [openedF, Fields.hasValue]
  | absent n m r => simp [openedF, Fields.hasValue, openedM_hasValue, openedF_hasValue r]
  | present n x r => simp [openedF, Fields.hasValue, opened_hasValue x, openedF_hasValue r]
end

/-! ### Reads keep the opened -/

theorem openedF_touch (c : Fields V) (k : Name) : openedF (c.touch k) = openedF c := by
  cases c with
  | nil => simp [Fields.touch]
  | absent n m r =>
    simp only [Fields.touch]; split
    · simp [openedF, opened_fresh]
    · simp [openedF, openedF_touch r k]
  | present n x r =>
    simp only [Fields.touch]; split
    · rfl
    · simp [openedF, openedF_touch r k]

theorem openedF_put {c : Fields V} {k : Name} {x y : Node V} (h : c.get? k = some x)
    (he : opened y = opened x) : openedF (c.put k y) = openedF c := by
  cases c with
  | nil => simp [Fields.put]
  | absent n m r =>
    simp only [Fields.put, Fields.get?] at *; split
    · next hk => simp only [hk, if_true, Option.some.injEq] at h; subst h; simp [openedF, he, opened_fresh]
    · next hk => simp only [hk, if_false] at h; simp [openedF, openedF_put h he]
  | present n x' r =>
    simp only [Fields.put, Fields.get?] at *; split
    · next hk => simp only [hk, if_true, Option.some.injEq] at h; subst h; simp [openedF, he]
    · next hk => simp only [hk, if_false] at h; simp [openedF, openedF_put h he]

theorem openedE_set {e : Elems V} {i : Nat} {f g : Fields V} (h : e.get? i = some f)
    (he : openedF g = openedF f) : openedE (e.set i g) = openedE e := by
  induction i generalizing e with
  | zero => cases e with
    | nil => simp [Elems.get?] at h
    | cons c r => simp [Elems.get?] at h; subst h; simp [Elems.set, openedE, he]
  | succ i ih => cases e with
    | nil => simp [Elems.get?] at h
    | cons c r => simp [Elems.get?] at h; simp [Elems.set, openedE, ih h]

theorem opened_read (n : Node V) (a : Addr) : opened (n.read a) = opened n := by
  induction a generalizing n with
  | nil => cases n <;> simp [Node.read, opened_readLeaf]
  | cons s a ih =>
    obtain ⟨k, i⟩ := s
    cases n with
    | leaf l v => simp [Node.read]
    | aos m e => simp [Node.read]
    | struct c =>
      simp only [Node.read]
      split
      · rfl
      · next x hx =>
        cases i with
        | none => simp only [opened]; rw [openedF_put hx (ih x), openedF_touch]
        | some i =>
          cases x with
          | leaf l v => simp [opened, openedF_touch]
          | struct f => simp [opened, openedF_touch]
          | aos m e =>
            simp only []
            split
            · simp [opened, openedF_touch]
            · next f hf =>
              have h := ih (.struct f)
              split
              · next f' hf' =>
                rw [hf'] at h
                simp only [opened, Node.struct.injEq] at h
                have hput := openedF_put (y := .aos m (e.set i f')) hx
                  (by simp only [opened]; rw [openedE_set hf h])
                simp only [opened]
                rw [hput, openedF_touch]
              · simp [opened, openedF_touch]

theorem opened_reads (n : Node V) (as : List Addr) : opened (n.reads as) = opened n := by
  induction as generalizing n with
  | nil => rfl
  | cons a as ih => simp [Node.reads, ih, opened_read]


end Verif.Ids.Opened

namespace Verif.Ids.Opened
open Verif.TreeSpec Verif.Ids
open Verif.Path (Idx Parsed)
open Verif.Coord (Coordinate)

variable {V : Type} [ShapedValue V]

/-- What the default array of an unset 1+D node is like. -/
structure Defaults (asInt : V → Option Int) : Prop where
  shape : ∀ l : LeafMeta, l.ndim ≠ 0 →
    ShapedValue.shape (Value.emptyArray l : V) = List.replicate l.ndim 0
  number : ∀ l : LeafMeta, l.ndim ≠ 0 → asInt (Value.emptyArray l : V) = none
  noEmpty : ∀ l : LeafMeta, l.ndim ≠ 0 →
    ShapedValue.hasEmptyFloat (Value.emptyArray l : V) = false

/-- The context with everything in the tree read. -/
def ctx (x : Ctx V) : Ctx V := { x with root := opened x.root }

variable {x : Ctx V} (D : Defaults x.asInt)

theorem getAttr_opened (root : Node V) (a : Addr) (part : Name) :
    getAttr (opened root) a part = getAttr root a part := by
  unfold getAttr
  rw [opened_at]
  cases root.at a with
  | none => rfl
  | some y =>
    cases y with
    | leaf l v => rfl
    | aos m e => rfl
    | struct c =>
      simp only [Option.map_some, opened, openedF_get?]
      cases c.get? part <;> rfl

theorem getItem_opened (root : Node V) (a : Addr) (i : Int) :
    getItem (opened root) a i = getItem root a i := by
  unfold getItem
  rw [opened_at]
  cases root.at a with
  | none => rfl
  | some y =>
    cases y with
    | leaf l v => simp [opened]
    | struct c => simp [opened]
    | aos m e =>
      simp only [Option.map_some, opened]
      cases a.getLast? with
      | none => rfl
      | some s =>
        obtain ⟨n, k⟩ := s
        cases k with
        | some k => rfl
        | none => simp only [openedE_length]

theorem gotoLoop_opened (f g : Parsed → Except NavErr Int) (hfg : ∀ q, f q = g q) (root : Node V)
    (start : Addr) (fromPath : List Name) (ps : List (Name × Option Idx)) :
    ∀ (i : Nat) (element : Option Addr),
      gotoLoop f (opened root) start fromPath i element ps
        = gotoLoop g root start fromPath i element ps := by
  have : f = g := funext hfg
  subst this
  induction ps with
  | nil => intro i el; rfl
  | cons p ps ih =>
    obtain ⟨part, index⟩ := p
    intro i el
    unfold gotoLoop
    simp only [getAttr_opened, getItem_opened, ih]

include D in
theorem intValue_opened (a : Addr) :
    intValue x.asInt (opened x.root) a = intValue x.asInt x.root a := by
  unfold intValue
  rw [opened_at]
  cases x.root.at a with
  | none => rfl
  | some y =>
    cases y with
    | aos m e => rfl
    | struct c =>
      simp only [Option.map_some, opened, openedF_get?, Option.isSome_map]
    | leaf l v =>
      cases v with
      | some v => rfl
      | none =>
        by_cases h : l.ndim = 0
        · simp [opened, readLeaf, h]
        · simp [opened, readLeaf, h, D.number l h]

include D in
theorem goto_opened (n : Nat) (start : Addr) : ∀ (b : Bool) (p : Parsed),
    goto x.asInt n (opened x.root) start b p = goto x.asInt n x.root start b p := by
  induction n with
  | zero => intro b p; rfl
  | succ n ih =>
    intro b p
    unfold goto
    dsimp only
    rw [gotoLoop_opened _ (fun q => nestedInt x.asInt x.root (goto x.asInt n x.root start true q))]
    intro q
    rw [ih]
    cases goto x.asInt n x.root start true q with
    | error e => rfl
    | ok b => exact intValue_opened D b

include D in
theorem locate_opened (a : Addr) (p : Parsed) : (ctx x).locate a p = x.locate a p := by
  unfold Ctx.locate
  show (match goto x.asInt x.stack (opened x.root) a true p with | .ok b => _ | .error e => _) = _
  rw [goto_opened D]
  rfl

include D in
theorem timeMode_opened : (ctx x).timeMode = x.timeMode := by
  unfold Ctx.timeMode
  show (match intValue x.asInt (opened x.root) timeModeAddr with | .ok i => _ | .error _ => _) = _
  rw [intValue_opened D]
  rfl

include D in
theorem shapeOf_opened (y : Node V) : shapeOf (opened y) = shapeOf y := by
  cases y with
  | struct c => rfl
  | aos m e => simp [opened, shapeOf, openedE_length]
  | leaf l v =>
    cases v with
    | some v => rfl
    | none =>
      by_cases h : l.ndim = 0
      · simp [opened, readLeaf, shapeOf, h]
      · simp [opened, readLeaf, shapeOf, h, D.shape l h]

include D in
theorem lenOf_opened (y : Node V) : lenOf (opened y) = lenOf y := by
  cases y with
  | struct c => rfl
  | aos m e => simp [opened, lenOf, openedE_length]
  | leaf l v =>
    cases v with
    | some v => rfl
    | none =>
      by_cases h : l.ndim = 0
      · simp [opened, readLeaf, lenOf, h]
      · obtain ⟨k, hk⟩ := Nat.exists_eq_succ_of_ne_zero h
        have := D.shape l h
        rw [hk, List.replicate_succ] at this
        simp [opened, readLeaf, lenOf, h, this]

include D in
theorem lenAt_opened (b : Addr) : (ctx x).lenAt b = x.lenAt b := by
  unfold Ctx.lenAt
  show (match (opened x.root).at b with | some y => _ | none => _) = _
  rw [opened_at]
  cases x.root.at b with
  | none => rfl
  | some y => exact lenOf_opened D y

include D in
theorem shapeAt_opened (b : Addr) :
    ((ctx x).root.at b).bind shapeOf = (x.root.at b).bind shapeOf := by
  show ((opened x.root).at b).bind shapeOf = _
  rw [opened_at]
  cases x.root.at b with
  | none => rfl
  | some y => exact shapeOf_opened D y

include D in
theorem range_opened (a : Addr) (key : Nat) : (ctx x).range a key = x.range a key := by
  unfold Ctx.range
  rw [shapeAt_opened D]

/-- A value after it has been read. -/
def readValue (v : LeafMeta × Option V) : LeafMeta × Option V := (v.1, readLeaf v.1 v.2)

/-- A coordinate after it has been read. -/
def readResult : CoordResult V → CoordResult V
  | .values vs => .values (vs.map readValue)
  | r => r

include D in
theorem elemValues_opened (a : Addr) (p : Parsed) (n : Nat) : ∀ i,
    (ctx x).elemValues a p i n = (x.elemValues a p i n).map (·.map readValue) := by
  induction n with
  | zero => intro i; rfl
  | succ n ih =>
    intro i
    unfold Ctx.elemValues
    rw [locate_opened D]
    cases x.locate (elemAddr a i) p with
    | error e => rfl
    | ok b =>
      simp only
      show (match (opened x.root).at b with | some (.leaf l v) => _ | _ => _) = _
      rw [opened_at, ih]
      cases x.root.at b with
      | none => rfl
      | some y =>
        cases y with
        | struct c => rfl
        | aos m e => rfl
        | leaf l v =>
          simp only [Option.map_some, opened]
          cases x.elemValues a p (i + 1) n with
          | error e => rfl
          | ok vs => rfl

include D in
theorem valueShape_read (v : LeafMeta × Option V) :
    valueShape (readValue v) = valueShape v := by
  obtain ⟨l, v⟩ := v
  cases v with
  | some v => rfl
  | none =>
    by_cases h : l.ndim = 0
    · simp [readValue, readLeaf, valueShape, h]
    · simp [readValue, readLeaf, valueShape, h, D.shape l h]

include D in
theorem stackValues_read (vs : List (LeafMeta × Option V)) :
    stackValues (vs.map readValue) = (stackValues vs).map readResult := by
  have h : ∀ v : LeafMeta × Option V, valueShape (readValue v) = valueShape v :=
    fun v => valueShape_read D v
  have h1 : (vs.map readValue).head?.map valueShape = vs.head?.map valueShape := by
    cases vs with
    | nil => rfl
    | cons v vs => simp [h]
  have h2 : (vs.map readValue).all
      (fun v => valueShape v == ((vs.map readValue).head?.map valueShape).getD [])
        = vs.all (fun v => valueShape v == (vs.head?.map valueShape).getD []) := by
    rw [List.all_map]
    simp only [Function.comp_def, h, h1]
  unfold stackValues
  rw [h2]
  split <;> rfl

include D in
theorem alternatives_opened (b : Addr) (ps : List Parsed) :
    (ctx x).alternatives b ps = x.alternatives b ps := by
  induction ps with
  | nil => rfl
  | cons p ps ih =>
    unfold Ctx.alternatives
    rw [locate_opened D]
    simp only [lenAt_opened D, ih]

theorem pick_read (b : Addr) (cands : List (Addr × Nat)) :
    (pickAlternative b cands : Except LookErr (CoordResult V))
      = (pickAlternative b cands : Except LookErr (CoordResult V)).map readResult := by
  unfold pickAlternative
  split
  · rfl
  · split <;> rfl

include D in
theorem outside_opened (a : Addr) (p : Parsed) :
    (ctx x).outside a p = (x.outside a p).map readResult := by
  unfold Ctx.outside
  rw [locate_opened D]
  cases x.locate a p with
  | error e => rfl
  | ok b =>
    simp only
    rw [lenAt_opened D, alternatives_opened D]
    show (if (x.md b).alternatives = [] then _ else
      match x.lenAt b with
      | .error e => _
      | .ok n => match x.alternatives b (x.md b).alternatives with | .error e => _ | .ok c => _) = _
    split
    · rfl
    · cases x.lenAt b with
      | error e => rfl
      | ok n =>
        simp only
        cases x.alternatives b (x.md b).alternatives with
        | error e => rfl
        | ok c => exact pick_read _ _

include D in
theorem alongPath_opened (a : Addr) (p : Parsed) :
    (ctx x).alongPath a p = (x.alongPath a p).map readResult := by
  unfold Ctx.alongPath
  show (match (opened x.root).at a with | some (.aos _ e) => _ | _ => _) = _
  rw [opened_at]
  cases x.root.at a with
  | none => exact outside_opened D a p
  | some y =>
    cases y with
    | struct c => exact outside_opened D a p
    | leaf l v => exact outside_opened D a p
    | aos m e =>
      simp only [Option.map_some, opened, openedE_length]
      rw [elemValues_opened D, outside_opened D]
      split
      · cases x.elemValues a p 0 e.length with
        | error e => rfl
        | ok vs => exact stackValues_read D vs
      · rfl

include D in
theorem locateAll_opened (a : Addr) (ps : List Parsed) :
    (ctx x).locateAll a ps = x.locateAll a ps := by
  induction ps with
  | nil => rfl
  | cons p ps ih =>
    unfold Ctx.locateAll
    rw [locate_opened D, ih]

include D in
theorem lenAll_opened (bs : List Addr) : (ctx x).lenAll bs = x.lenAll bs := by
  induction bs with
  | nil => rfl
  | cons b bs ih =>
    unfold Ctx.lenAll
    rw [lenAt_opened D, ih]

theorem range_read (a : Addr) (key : Nat) : x.range a key = (x.range a key).map readResult := by
  unfold Ctx.range
  split
  · rfl
  · split <;> rfl

include D in
theorem pickReference_opened (a : Addr) (key : Nat) (c : Coordinate) (cands : List (Addr × Nat)) :
    (ctx x).pickReference a key c cands = (x.pickReference a key c cands).map readResult := by
  unfold Ctx.pickReference
  rw [range_opened D]
  split
  · split
    · exact range_read a key
    · rfl
  · rfl
  · rfl

include D in
theorem coordinate_opened (a : Addr) (key : Nat) :
    (ctx x).coordinate a key = (x.coordinate a key).map readResult := by
  unfold Ctx.coordinate
  show (match (x.md a).coords[key]? with | none => _ | some c => _) = _
  cases (x.md a).coords[key]? with
  | none => rfl
  | some c =>
    simp only
    rw [range_opened D, timeMode_opened D, locateAll_opened D]
    split
    · exact range_read a key
    · cases choosePath c x.timeMode with
      | error e => rfl
      | ok q =>
        cases q with
        | some p => exact alongPath_opened D a p
        | none =>
          simp only
          cases x.locateAll a c.references with
          | error e => rfl
          | ok bs =>
            simp only
            rw [lenAll_opened D]
            cases x.lenAll bs with
            | error e => rfl
            | ok cands => exact pickReference_opened D a key c cands

include D in
theorem emptyTime_read (v : LeafMeta × Option V) : emptyTime (readValue v) = emptyTime v := by
  obtain ⟨l, v⟩ := v
  cases v with
  | some v => rfl
  | none =>
    by_cases h : l.ndim = 0
    · simp [readValue, readLeaf, emptyTime, h]
    · simp [readValue, readLeaf, emptyTime, h, D.noEmpty l h]

include D in
theorem compareSize_opened (a : Addr) (dim n : Nat) (c : Coordinate) (r : CoordResult V) :
    (ctx x).compareSize a dim n c (readResult r) = x.compareSize a dim n c r := by
  cases r with
  | range k => rfl
  | node b =>
    show (match ((ctx x).root.at b).bind shapeOf with | none => _ | some [] => _ | some (k :: _) => _) = _
    rw [shapeAt_opened D]
    rfl
  | values vs =>
    unfold Ctx.compareSize readResult
    simp only [List.any_map, Function.comp_def, emptyTime_read D, List.length_map]

include D in
theorem checkDim_opened (a : Addr) : (ctx x).checkDim a = x.checkDim a := by
  funext dim n c
  have h : (ctx x).checkReferences a dim n c = x.checkReferences a dim n c := by
    unfold Ctx.checkReferences
    rw [coordinate_opened D]
    split
    · rfl
    · cases x.coordinate a dim with
      | error e => cases e <;> rfl
      | ok r => exact compareSize_opened D a dim n c r
  unfold Ctx.checkDim
  rw [h]

include D in
theorem checkSameAs_opened (a : Addr) : (ctx x).checkSameAs a = x.checkSameAs a := by
  funext dim n c
  unfold Ctx.checkSameAs
  split
  · rfl
  · cases c.references with
    | nil => rfl
    | cons p ps =>
      cases ps with
      | cons q ps => rfl
      | nil =>
        simp only
        rw [locate_opened D]
        cases x.locate a p with
        | error e => cases e <;> rfl
        | ok b => simp only [shapeAt_opened D]

include D in
theorem checkCoords_opened (a : Addr) (ndim : Nat) (y : Node V) :
    (ctx x).checkCoords a ndim (opened y) = x.checkCoords a ndim y := by
  unfold Ctx.checkCoords
  rw [shapeOf_opened D, checkDim_opened D, checkSameAs_opened D]
  rfl

include D in
theorem checkDynamic_opened (a : Addr) (y : Node V) :
    (ctx x).checkDynamic a (opened y) = x.checkDynamic a y := by
  unfold Ctx.checkDynamic
  rw [opened_hasValue, timeMode_opened D]
  rfl

include D in
mutual
theorem checkNode_opened (a : Addr) (y : Node V) :
    (ctx x).checkNode a (opened y) = x.checkNode a y := by
  match y with
  | .leaf l v =>
    have h1 := checkDynamic_opened D a (.leaf l v)
    have h2 := checkCoords_opened D a l.ndim (.leaf l v)
    simp only [opened] at h1 h2 ⊢
    unfold Ctx.checkNode
    rw [h1, h2, leafHasValue_readLeaf]
  | .struct c =>
    have h1 := checkDynamic_opened D a (.struct c)
    simp only [opened] at h1 ⊢
    unfold Ctx.checkNode
    rw [h1, checkFields_opened a c]
  | .aos m e =>
    have h1 := checkDynamic_opened D a (.aos m e)
    have h2 := checkCoords_opened D a 1 (.aos m e)
    simp only [opened] at h1 h2 ⊢
    unfold Ctx.checkNode
    rw [h1, h2, checkElems_opened a 0 e, openedE_length]
  termination_by structural y
theorem checkFields_opened (a : Addr) (c : Fields V) :
    (ctx x).checkFields a (openedF c) = x.checkFields a c := by
  match c with
  | .nil => rfl
  | .absent n m r =>
    simp only [openedF]
    unfold Ctx.checkFields
    rw [openedM_hasValue, checkFields_opened a r]
    rfl
  | .present n y r =>
    simp only [openedF]
    unfold Ctx.checkFields
    rw [opened_hasValue, checkNode_opened (a ++ [(n, none)]) y, checkFields_opened a r]
  termination_by structural c
theorem checkElems_opened (a : Addr) (i : Nat) (e : Elems V) :
    (ctx x).checkElems a i (openedE e) = x.checkElems a i e := by
  match e with
  | .nil => rfl
  | .cons c r =>
    have h1 := checkDynamic_opened D (elemAddr a i) (.struct c)
    simp only [opened] at h1
    simp only [openedE]
    unfold Ctx.checkElems
    rw [h1, checkFields_opened (elemAddr a i) c, checkElems_opened a (i + 1) r]
  termination_by structural e
end

include D in
theorem validate_opened : (ctx x).validate = x.validate := by
  unfold Ctx.validate
  rw [timeMode_opened D]
  cases x.timeMode with
  | none => rfl
  | some m =>
    simp only
    show (if m = 0 ∨ m = 1 ∨ m = 2 then if (x.dict.constant && decide (m ≠ 2)) = true then _ else
      (match opened x.root with | .struct c => (ctx x).checkFields [] c | _ => _) else _) = _
    split
    · split
      · rfl
      · cases hx : x.root with
        | leaf l v => rfl
        | aos m e => rfl
        | struct c => exact checkFields_opened D [] c
    · rfl

theorem ctx_reads (x : Ctx V) (as : List Addr) : ctx { x with root := x.root.reads as } = ctx x := by
  unfold ctx
  simp only [opened_reads]

end Verif.Ids.Opened
