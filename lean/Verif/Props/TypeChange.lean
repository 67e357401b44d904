import Verif.Lemmas.TypeChange
import Verif.Props.Convert
/-
C23: supported type changes round trip. C24: the COCOS sign change.
-/
set_option linter.unusedSectionVars false
namespace Verif.Props
open Verif.Ids Verif.TreeSpec Verif.DiffSpec Verif.Convert Verif.ConvertSpec

section
variable {V : Type} [Value V]

/-- The source is converted with `cx` to `data`, which is converted back with `cx'` to `result`. The
node at `A` goes to `B`, the node at `B` goes back to `A`, and nothing else writes to these two
places. -/
structure ThereAndBack (cx cx' : Cfg V) (sm tm : Meta) (source data : Fields V) (t0 t0' result : Node V)
    (A B : Addr) : Prop where
  proper : Proper cx
  proper' : Proper cx'
  wf : WFFields source
  wf' : WFFields data
  typed : Typed t0 tm
  typed' : Typed t0' sm
  there : copyIds cx source t0 = .ok (.struct data)
  back : copyIds cx' data t0' = .ok result
  sent : Sent cx tm [] [] source A B
  sent' : Sent cx' sm [] [] data B A
  alone : Alone cx tm source A B
  alone' : Alone cx' sm data B A
  noPost : NoPostAbove cx A
  noPost' : NoPostAbove cx' B

/-- A node with type change, converted twice. -/
theorem changed_twice {cx cx' : Cfg V} {sm tm : Meta} {source data : Fields V} {t0 t0' result : Node V}
    {A B : Addr} (h : ThereAndBack cx cx' sm tm source data t0 t0' result A B)
    {f f' : Node V → Node V → Except ConvErr (Node V)}
    (hf : cx.change (names A) = some (.custom f)) (hf' : cx'.change (names B) = some (.custom f'))
    {x : Node V} (hx : (Node.struct source).at A = some x) (hv : x.hasValue = true) :
    ∃ z y m, f x z = .ok y ∧ metaAt tm (names B) = some m ∧ TypedAt z m ∧
      (Node.struct data).at B = some y ∧
      (y.hasValue = true → ∃ z' y' m', f' y z' = .ok y' ∧ metaAt sm (names A) = some m' ∧
        TypedAt z' m' ∧ result.at A = some y') := by
  obtain ⟨z, y, h1, h2, m, h3, h4⟩ := C22_type_change_moved cx h.proper tm source h.wf t0 _ h.typed
    h.there A B x f hx hv h.sent hf h.alone h.noPost
  refine ⟨z, y, m, h1, h3, h4, h2, ?_⟩
  intro hy
  obtain ⟨z', y', h5, h6, m', h7, h8⟩ := C22_type_change_moved cx' h.proper' sm data h.wf' t0' _ h.typed'
    h.back B A y f' h2 hy h.sent' hf' h.alone' h.noPost'
  exact ⟨z', y', m', h5, h7, h8, h6⟩

theorem typedAt_leaf {z : Node V} {l : LeafMeta} (h : TypedAt z (.leaf l)) : ∃ s, z = .leaf l s := by
  rcases h with h | ⟨f, mf, -, h, -⟩
  · cases z with
    | leaf l' s => simp only [Typed] at h; subst h; exact ⟨s, rfl⟩
    | struct => simp [Typed] at h
    | aos => simp [Typed] at h
  · simp at h

end

section
variable {F : Type} [FloatModel F]

/-- What a 0D node with value `v` becomes as 1D node: an array with one item. -/
def asArray : Val F → Val F
  | .int i => .arr .int [1] [.int i]
  | .flt x => .arr .flt [1] [.flt x]
  | .cpx x y => .arr .cpx [1] [.cpx x y]
  | .str s => .strs [s]
  | v => v

/-- numpy: a list with one number of the array's type becomes an array with this item. -/
def ListConv (cv : Conv F) : Prop :=
  ∀ x : Scalar F, cv.array x.type (.list [.val (scalarVal x)]) = some ([1], [x])

/-- The value means something: it is not the default of a 0D node. -/
def Real (v : Val F) : Prop := eqDefault v = false

theorem putObj_fits (cv : Conv F) {l : LeafMeta} {v : Val F} (h : v.fits l = true) (s : Option (Val F)) :
    putObj cv (.val v) (.leaf l s) =
      .ok (.leaf l (if l.ndim = 0 && eqDefault v then none else some v)) := by
  simp [putObj, setValue, assigned, castValue_fits cv h]

theorem to_array (cv : Conv F) (hcv : ListConv cv) {l l' : LeafMeta} {v : Val F} (hv : v.fits l = true)
    (h0 : l.ndim = 0) (h1 : l'.ndim = 1) (ht : l'.type = l.type) (s : Option (Val F)) :
    change0d1d cv (.leaf l (some v)) (.leaf l' s) = .ok (.leaf l' (some (asArray v))) := by
  obtain ⟨t, n, d⟩ := l
  obtain ⟨t', n', d'⟩ := l'
  simp only at h0 h1 ht
  subst h0 h1 ht
  cases v with
  | int i =>
    simp [Val.fits] at hv; subst hv
    have := hcv (.int i)
    simp only [Scalar.type, scalarVal] at this
    simp [change0d1d, readValue, putObj, setValue, assigned, castValue, this, asArray]
  | flt i =>
    simp [Val.fits] at hv; subst hv
    have := hcv (.flt i)
    simp only [Scalar.type, scalarVal] at this
    simp [change0d1d, readValue, putObj, setValue, assigned, castValue, this, asArray]
  | cpx i j =>
    simp [Val.fits] at hv; subst hv
    have := hcv (.cpx i j)
    simp only [Scalar.type, scalarVal] at this
    simp [change0d1d, readValue, putObj, setValue, assigned, castValue, this, asArray]
  | str s =>
    simp [Val.fits] at hv; subst hv
    simp [change0d1d, readValue, putObj, setValue, assigned, castValue, iterObj, castStrs, castStr,
      asArray, Except.map, bind, Except.bind, pure, Except.pure]
  | strs => simp [Val.fits] at hv
  | arr t s d =>
    simp only [Val.fits, Bool.and_eq_true, decide_eq_true_eq] at hv
    obtain ⟨⟨⟨⟨_, hv⟩, hv2⟩, -⟩, -⟩ := hv
    exact absurd hv.symm (by simpa using hv2)

theorem of_array (cv : Conv F) {l l' : LeafMeta} {v : Val F} (hv : v.fits l = true)
    (h0 : l.ndim = 0) (h1 : l'.ndim = 1) (s : Option (Val F)) :
    change0d1d cv (.leaf l' (some (asArray v))) (.leaf l s) =
      .ok (.leaf l (if eqDefault v then none else some v)) := by
  have e : itemsOf (asArray v) = [v] := by
    cases v with
    | strs => simp [Val.fits] at hv; omega
    | arr t s d =>
      simp only [Val.fits, Bool.and_eq_true, decide_eq_true_eq] at hv
      obtain ⟨⟨⟨⟨_, hv⟩, hv2⟩, -⟩, -⟩ := hv
      exact absurd (List.length_eq_zero_iff.1 (hv ▸ h0)) (by
        intro h; subst h; simp at hv2)
    | _ => simp [asArray, itemsOf, scalarVal]
  simp only [change0d1d, h1, readValue, e]
  rw [if_neg (by simp), putObj_fits cv hv]
  simp [h0]

theorem asArray_hasValue {l l' : LeafMeta} {v : Val F} (hv : v.fits l = true) (h0 : l.ndim = 0) :
    (Node.leaf l' (some (asArray v))).hasValue = true := by
  cases v with
  | strs => simp [Val.fits] at hv; omega
  | arr t s d =>
    simp only [Val.fits, Bool.and_eq_true, decide_eq_true_eq] at hv
    obtain ⟨⟨⟨⟨_, hv⟩, hv2⟩, -⟩, -⟩ := hv
    exact absurd (List.length_eq_zero_iff.1 (hv ▸ h0)) (by
      intro h; subst h; simp at hv2)
  | _ => simp [asArray, Node.hasValue, leafHasValue, Value.isEmpty, Val.isEmpty, arrSize]

theorem real_hasValue {l : LeafMeta} {v : Val F} (hv : v.fits l = true) (h0 : l.ndim = 0) :
    (Node.leaf l (some v)).hasValue = true := by
  cases v with
  | strs => simp [Val.fits] at hv; omega
  | arr t s d =>
    simp only [Val.fits, Bool.and_eq_true, decide_eq_true_eq] at hv
    obtain ⟨⟨⟨⟨_, hv⟩, hv2⟩, -⟩, -⟩ := hv
    exact absurd (List.length_eq_zero_iff.1 (hv ▸ h0)) (by
      intro h; subst h; simp at hv2)
  | _ => simp [Node.hasValue, leafHasValue, Value.isEmpty, Val.isEmpty]

/-- **C23, 0D to 1D and back.** The converted IDS has an array with the value as its only item, and
the value is the same after converting back. -/
theorem C23_scalar_array_scalar (cv : Conv F) (hcv : ListConv cv) {cx cx' : Cfg (Val F)} {sm tm : Meta}
    {source data : Fields (Val F)} {t0 t0' result : Node (Val F)} {A B : Addr}
    (h : ThereAndBack cx cx' sm tm source data t0 t0' result A B)
    (hf : cx.change (names A) = some (.custom (change0d1d cv)))
    (hf' : cx'.change (names B) = some (.custom (change0d1d cv)))
    (l l' : LeafMeta) (hl : metaAt sm (names A) = some (.leaf l)) (hl' : metaAt tm (names B) = some (.leaf l'))
    (h0 : l.ndim = 0) (h1 : l'.ndim = 1) (ht : l'.type = l.type)
    (v : Val F) (hx : (Node.struct source).at A = some (.leaf l (some v))) (hv : v.fits l = true)
    (hr : Real v) :
    (Node.struct data).at B = some (.leaf l' (some (asArray v))) ∧
      result.at A = some (.leaf l (some v)) := by
  obtain ⟨z, y, m, h2, h3, h4, h5, h6⟩ := changed_twice h hf hf' hx (real_hasValue hv h0)
  rw [hl'] at h3; cases h3
  obtain ⟨s, rfl⟩ := typedAt_leaf h4
  rw [to_array cv hcv hv h0 h1 ht] at h2; cases h2
  refine ⟨h5, ?_⟩
  obtain ⟨z', y', m', h7, h8, h9, h10⟩ := h6 (asArray_hasValue hv h0)
  rw [hl] at h8; cases h8
  obtain ⟨s', rfl⟩ := typedAt_leaf h9
  rw [of_array cv hv h0 h1] at h7; cases h7
  have hr' : eqDefault v = false := hr
  rw [h10]; simp [hr']

/-- **C23, 1D to 0D and back.** An array with one item (other than the default) becomes a 0D value,
and is the same after converting back. -/
theorem C23_array_scalar_array (cv : Conv F) (hcv : ListConv cv) {cx cx' : Cfg (Val F)} {sm tm : Meta}
    {source data : Fields (Val F)} {t0 t0' result : Node (Val F)} {A B : Addr}
    (h : ThereAndBack cx cx' sm tm source data t0 t0' result A B)
    (hf : cx.change (names A) = some (.custom (change0d1d cv)))
    (hf' : cx'.change (names B) = some (.custom (change0d1d cv)))
    (l l' : LeafMeta) (hl : metaAt sm (names A) = some (.leaf l)) (hl' : metaAt tm (names B) = some (.leaf l'))
    (h0 : l.ndim = 1) (h1 : l'.ndim = 0) (ht : l'.type = l.type)
    (v : Val F) (hx : (Node.struct source).at A = some (.leaf l (some (asArray v))))
    (hv : v.fits l' = true) (hr : Real v) :
    (Node.struct data).at B = some (.leaf l' (some v)) ∧
      result.at A = some (.leaf l (some (asArray v))) := by
  have hr' : eqDefault v = false := hr
  obtain ⟨z, y, m, h2, h3, h4, h5, h6⟩ := changed_twice h hf hf' hx (asArray_hasValue hv h1)
  rw [hl'] at h3; cases h3
  obtain ⟨s, rfl⟩ := typedAt_leaf h4
  rw [of_array cv hv h1 h0, hr', if_neg (by simp)] at h2; cases h2
  refine ⟨h5, ?_⟩
  obtain ⟨z', y', m', h7, h8, h9, h10⟩ := h6 (real_hasValue hv h1)
  rw [hl] at h8; cases h8
  obtain ⟨s', rfl⟩ := typedAt_leaf h9
  rw [to_array cv hcv hv h1 h0 ht.symm] at h7; cases h7
  exact h10

/-- **C23, documented failure.** An array with no item or several items is not copied to a 0D
node: the target stays as it was. -/
theorem C23_array_not_copied (cv : Conv F) (l : LeafMeta) (s : Option (Val F)) (h : l.ndim ≠ 0)
    (hi : (itemsOf (readValue l s)).length ≠ 1) (target : Node (Val F)) :
    change0d1d cv (.leaf l s) target = .ok target := by
  simp only [change0d1d, h, if_false]
  split
  · next hx => rw [hx] at hi; simp at hi
  · rfl

/-- **C23, limit.** An array whose only item is the default of the type (`EMPTY_INT`, `EMPTY_FLOAT`,
an empty string...) becomes an unset node, as a 0D node cannot hold this value. -/
theorem C23_default_item_limit (cv : Conv F) {l l' : LeafMeta} {v : Val F} (hv : v.fits l = true)
    (h0 : l.ndim = 0) (h1 : l'.ndim = 1) (hd : ¬ Real v) (s : Option (Val F)) :
    change0d1d cv (.leaf l' (some (asArray v))) (.leaf l s) = .ok (.leaf l none) := by
  rw [of_array cv hv h0 h1]
  have : eqDefault v = true := by simpa [Real] using hd
  simp [this]

/-! ### Integers and floating point numbers -/

/-- The numbers that 32 bits can hold. -/
def InInt32 (i : Int) : Prop := -2 ^ 31 ≤ i ∧ i < 2 ^ 31

theorem isInt32_iff (i : Int) : isInt32 i = true ↔ InInt32 i := by
  unfold isInt32 InInt32
  rw [Bool.and_eq_true, decide_eq_true_eq, decide_eq_true_eq]
  omega

theorem all_isInt32 (is : List Int) : is.all isInt32 = true ↔ ∀ i ∈ is, InInt32 i := by
  simp only [List.all_eq_true, isInt32_iff]

/-- Converting an int32 to a floating point number is exact. -/
structure ExactInt (fi : IntFloat F) : Prop where
  back : ∀ i, InInt32 i → fi.toInt32 (fi.ofInt i) = some i
  eq : ∀ i, InInt32 i → FloatModel.eq (fi.ofInt i) (fi.ofInt i) = true
  notEmpty : ∀ i, InInt32 i → FloatModel.eq (fi.ofInt i) FloatModel.empty = false

/-- **C23, integer to float and back.** -/
theorem C23_int_flt_int (cv : Conv F) (fi : IntFloat F) (hfi : ExactInt fi) {cx cx' : Cfg (Val F)}
    {sm tm : Meta} {source data : Fields (Val F)} {t0 t0' result : Node (Val F)} {A B : Addr}
    (h : ThereAndBack cx cx' sm tm source data t0 t0' result A B)
    (hf : cx.change (names A) = some (.custom (changeFltInt cv fi)))
    (hf' : cx'.change (names B) = some (.custom (changeFltInt cv fi)))
    (l l' : LeafMeta) (hl : metaAt sm (names A) = some (.leaf l)) (hl' : metaAt tm (names B) = some (.leaf l'))
    (h0 : l.type = .int ∧ l.ndim = 0) (h1 : l'.type = .flt ∧ l'.ndim = 0)
    (i : Int) (hx : (Node.struct source).at A = some (.leaf l (some (.int i))))
    (hi : InInt32 i) (hr : i ≠ emptyInt) :
    (Node.struct data).at B = some (.leaf l' (some (.flt (fi.ofInt i)))) ∧
      result.at A = some (.leaf l (some (.int i))) := by
  have f0 : (Val.int i : Val F).fits l = true := by simp [Val.fits, h0]
  have f1 : (Val.flt (fi.ofInt i) : Val F).fits l' = true := by simp [Val.fits, h1]
  obtain ⟨z, y, m, h2, h3, h4, h5, h6⟩ := changed_twice h hf hf' hx (real_hasValue f0 h0.2)
  rw [hl'] at h3; cases h3
  obtain ⟨s, rfl⟩ := typedAt_leaf h4
  simp only [changeFltInt, readValue] at h2
  rw [putObj_fits cv f1] at h2
  simp only [eqDefault, hfi.notEmpty i hi, Bool.and_false, Bool.false_eq_true, if_false,
    Except.ok.injEq] at h2
  subst h2
  refine ⟨h5, ?_⟩
  obtain ⟨z', y', m', h7, h8, h9, h10⟩ := h6 (real_hasValue f1 h1.2)
  rw [hl] at h8; cases h8
  obtain ⟨s', rfl⟩ := typedAt_leaf h9
  simp only [changeFltInt, readValue, hfi.back i hi, hfi.eq i hi, if_true] at h7
  rw [putObj_fits cv f0] at h7
  simp only [eqDefault, hr, decide_false, Bool.and_false, Bool.false_eq_true, if_false,
    Except.ok.injEq] at h7
  subst h7
  exact h10

/-- **C23, float to integer and back.** A number that equals an int32 (other than `EMPTY_INT`) is
converted to it; the number after converting back is equal. -/
theorem C23_flt_int_flt (cv : Conv F) (fi : IntFloat F) (hfi : ExactInt fi) {cx cx' : Cfg (Val F)}
    {sm tm : Meta} {source data : Fields (Val F)} {t0 t0' result : Node (Val F)} {A B : Addr}
    (h : ThereAndBack cx cx' sm tm source data t0 t0' result A B)
    (hf : cx.change (names A) = some (.custom (changeFltInt cv fi)))
    (hf' : cx'.change (names B) = some (.custom (changeFltInt cv fi)))
    (l l' : LeafMeta) (hl : metaAt sm (names A) = some (.leaf l)) (hl' : metaAt tm (names B) = some (.leaf l'))
    (h0 : l.type = .flt ∧ l.ndim = 0) (h1 : l'.type = .int ∧ l'.ndim = 0)
    (x : F) (hx : (Node.struct source).at A = some (.leaf l (some (.flt x))))
    (i : Int) (hi : InInt32 i) (hto : fi.toInt32 x = some i)
    (he : FloatModel.eq (fi.ofInt i) x = true) (hr : i ≠ emptyInt) :
    (Node.struct data).at B = some (.leaf l' (some (.int i))) ∧
      result.at A = some (.leaf l (some (.flt (fi.ofInt i)))) := by
  have f0 : ∀ x, (Val.flt x : Val F).fits l = true := by intro x; simp [Val.fits, h0]
  have f1 : (Val.int i : Val F).fits l' = true := by simp [Val.fits, h1]
  obtain ⟨z, y, m, h2, h3, h4, h5, h6⟩ := changed_twice h hf hf' hx (real_hasValue (f0 x) h0.2)
  rw [hl'] at h3; cases h3
  obtain ⟨s, rfl⟩ := typedAt_leaf h4
  simp only [changeFltInt, readValue, hto, he, if_true] at h2
  rw [putObj_fits cv f1] at h2
  simp only [eqDefault, hr, decide_false, Bool.and_false, Bool.false_eq_true, if_false,
    Except.ok.injEq] at h2
  subst h2
  refine ⟨h5, ?_⟩
  obtain ⟨z', y', m', h7, h8, h9, h10⟩ := h6 (real_hasValue f1 h1.2)
  rw [hl] at h8; cases h8
  obtain ⟨s', rfl⟩ := typedAt_leaf h9
  simp only [changeFltInt, readValue] at h7
  rw [putObj_fits cv (f0 _)] at h7
  simp only [eqDefault, hfi.notEmpty i hi, Bool.and_false, Bool.false_eq_true, if_false,
    Except.ok.injEq] at h7
  subst h7
  exact h10

/-- **C23, documented failure.** A number that is not an integer is not copied. -/
theorem C23_flt_not_copied (cv : Conv F) (fi : IntFloat F) (l : LeafMeta) (x : F) (i : Int)
    (hto : fi.toInt32 x = some i) (he : FloatModel.eq (fi.ofInt i) x = false) (target : Node (Val F)) :
    changeFltInt cv fi (.leaf l (some (.flt x))) target = .ok target := by
  simp [changeFltInt, readValue, hto, he]

/-- **C23, limit.** The float with the value of `EMPTY_INT` becomes an unset integer node. -/
theorem C23_empty_int_limit (cv : Conv F) (fi : IntFloat F) (hfi : ExactInt fi) (l l' : LeafMeta)
    (h1 : l'.type = .int ∧ l'.ndim = 0) (s : Option (Val F)) :
    changeFltInt cv fi (.leaf l (some (.flt (fi.ofInt emptyInt)))) (.leaf l' s) =
      .ok (.leaf l' none) := by
  have hi : InInt32 emptyInt := (isInt32_iff _).1 (by decide)
  have f1 : (Val.int emptyInt : Val F).fits l' = true := by simp [Val.fits, h1]
  simp only [changeFltInt, readValue, hfi.back _ hi, hfi.eq _ hi, if_true]
  rw [putObj_fits cv f1]
  simp [h1, eqDefault]

/-! ### Indices and identifiers -/

/-- The structure reads as this identifier. -/
def IdentifierReads (c : Fields (Val F)) (n : Name) (v : Val F) : Prop :=
  ∃ l s, c.get? n = some (.leaf l s) ∧ readValue l s = v

/-- The Data Dictionary entry of an identifier structure. -/
structure IdentifierMeta (m : MFields) : Prop where
  index : ∃ l, mchild m "index".toList = some (.leaf l) ∧ l.type = .int ∧ l.ndim = 0
  name : ∃ l, mchild m "name".toList = some (.leaf l) ∧ l.type = .str ∧ l.ndim = 0
  description : ∃ l, mchild m "description".toList = some (.leaf l) ∧ l.type = .str ∧ l.ndim = 0

theorem setChild_ok {cv : Conv F} {n : Name} {v : Val F} {c : Fields (Val F)} {y : Node (Val F)}
    (h : setChild cv n v (.struct c) = .ok y) :
    ∃ l s s', c.get? n = some (.leaf l s) ∧ setValue cv false l (.val v) = .ok s' ∧
      y = .struct (c.put n (.leaf l s')) := by
  simp only [setChild, writeAt, Node.modify] at h
  cases hc : c.get? n with
  | none => rw [hc] at h; simp at h
  | some x =>
    rw [hc] at h
    simp only [Option.map_some] at h
    cases hx : putObj cv (.val v) x with
    | error e => rw [hx] at h; simp [Except.map] at h
    | ok z =>
      obtain ⟨l, s, s', rfl, h1, rfl⟩ := putObj_ok hx
      rw [hx] at h
      simp only [Except.map, Except.ok.injEq] at h
      exact ⟨l, s, s', rfl, h1, h.symm⟩

/-- Setting a child makes it read as the value and keeps the others. -/
theorem setChild_reads {cv : Conv F} {n : Name} {v : Val F} {m : MFields} {c : Fields (Val F)}
    {y : Node (Val F)} (hc : TypedF c m) {l : LeafMeta} (hl : mchild m n = some (.leaf l))
    (hv : v.fits l = true) (h : setChild cv n v (.struct c) = .ok y) :
    ∃ c', y = .struct c' ∧ TypedF c' m ∧ IdentifierReads c' n v ∧
      ∀ k w, k ≠ n → IdentifierReads c k w → IdentifierReads c' k w := by
  have hk := (keeps_setChild cv n v).1 _ _ (.struct m) (by simpa only [Typed] using hc) h
  obtain ⟨l0, s, s', h1, h2, rfl⟩ := setChild_ok h
  have ht := typed_get hc n
  rw [mchild_eq] at hl
  rw [hl] at ht
  obtain ⟨z, hz, tz⟩ := ht
  rw [h1] at hz; cases hz
  simp only [Typed] at tz; subst tz
  obtain ⟨s2, h3, h4, -⟩ := C09_assign_read cv l0 v hv
  rw [h2] at h3; cases h3
  refine ⟨_, rfl, by simpa only [Typed] using hk, ⟨l0, s', Fields.get?_put_same h1, h4⟩, ?_⟩
  rintro k w hne ⟨l1, s1, h5, h6⟩
  exact ⟨l1, s1, by rw [Fields.get?_put_other hne]; exact h5, h6⟩

theorem byIndex_index {e : IdEnum} {i : Int} {m : Member} (h : e.byIndex i = some m) : m.index = i := by
  simp only [IdEnum.byIndex, Option.map_eq_some_iff] at h
  obtain ⟨p, h1, rfl⟩ := h
  simpa using List.find?_some h1

theorem identifierOf_reads {cv : Conv F} {enum : Option IdEnum} {m : MFields} (hm : IdentifierMeta m)
    {c c' : Fields (Val F)} (hc : TypedF c m) {i : Int}
    (h : identifierOf cv enum i (.struct c) = .ok (.struct c')) :
    IdentifierReads c' "index".toList (.int i) ∧
    ∀ mem, enum.bind (·.byIndex i) = some mem →
      IdentifierReads c' "name".toList (.str mem.name) ∧
      IdentifierReads c' "description".toList (.str mem.description) := by
  obtain ⟨⟨li, hi1, hi2, hi3⟩, ⟨ln, hn1, hn2, hn3⟩, ⟨ld, hd1, hd2, hd3⟩⟩ := hm
  simp only [identifierOf] at h
  cases he : enum.bind (·.byIndex i) with
  | none =>
    rw [he] at h
    obtain ⟨c2, h1, -, h2, -⟩ := setChild_reads hc hi1 (by simp [Val.fits, hi2, hi3]) h
    cases h1
    exact ⟨h2, by simp⟩
  | some mem =>
    have hmem : mem.index = i := by
      cases enum with
      | none => simp at he
      | some e => exact byIndex_index (by simpa using he)
    rw [he] at h
    simp only at h
    obtain ⟨y2, h1, h2⟩ := andThen_ok.1 h
    obtain ⟨y1, h3, h4⟩ := andThen_ok.1 h1
    obtain ⟨c1, rfl, t1, r1, -⟩ := setChild_reads hc hn1 (by simp [Val.fits, hn2, hn3]) h3
    obtain ⟨c2, rfl, t2, r2, k2⟩ := setChild_reads t1 hi1 (by simp [Val.fits, hi2, hi3]) h4
    obtain ⟨c3, e3, t3, r3, k3⟩ := setChild_reads t2 hd1 (by simp [Val.fits, hd2, hd3]) h2
    cases e3
    rw [hmem] at r2
    refine ⟨k3 _ _ (by decide) r2, ?_⟩
    intro mem' h5; cases h5
    exact ⟨k3 _ _ (by decide) (k2 _ _ (by decide) r1), r3⟩

theorem indicesOf_ofList {els : List (Fields (Val F))} {is : List Int} (hlen : els.length = is.length)
    (h : ∀ (k : Nat) i c, is[k]? = some i → els[k]? = some c → IdentifierReads c "index".toList (.int i)) :
    indicesOf (.ofList els) = .ok is := by
  induction els generalizing is with
  | nil =>
    cases is with
    | nil => rfl
    | cons => simp at hlen
  | cons c r ih =>
    cases is with
    | nil => simp at hlen
    | cons i is =>
      obtain ⟨l, s, h1, h2⟩ := h 0 i c rfl rfl
      have := ih (is := is) (by simpa using hlen) (fun k j d h3 h4 => h (k + 1) j d (by simpa using h3)
        (by simpa using h4))
      simp only [Elems.ofList, indicesOf, h1, h2, this]

theorem intsOf_ints (t : BaseType) (s : List Nat) (is : List Int) :
    intsOf (.arr t s (is.map .int) : Val F) = is := by
  simp only [intsOf]
  induction is with
  | nil => rfl
  | cons i r ih => simp [ih]

/-- **C23, indices to identifiers and back.** A list of integers becomes as many identifiers. Each has
the index of the list, and the name and description the identifier enum gives for it (if any).
Converting back gives the same list, including integers that are no known index. -/
theorem C23_indices_identifiers_indices (cv : Conv F) (enum enum' : Option IdEnum) {cx cx' : Cfg (Val F)}
    {sm tm : Meta} {source data : Fields (Val F)} {t0 t0' result : Node (Val F)} {A B : Addr}
    (h : ThereAndBack cx cx' sm tm source data t0 t0' result A B)
    (hf : cx.change (names A) = some (.custom (changeIdentifier cv enum)))
    (hf' : cx'.change (names B) = some (.custom (changeIdentifier cv enum')))
    (l : LeafMeta) (hl : metaAt sm (names A) = some (.leaf l)) (h0 : l.type = .int ∧ l.ndim = 1)
    (m : MFields) (hl' : metaAt tm (names B) = some (.aos m)) (hm : IdentifierMeta m)
    (is : List Int) (hne : is ≠ []) (h32 : ∀ i ∈ is, InInt32 i)
    (hx : (Node.struct source).at A = some (.leaf l (some (.arr .int [is.length] (is.map .int))))) :
    (∃ els, (Node.struct data).at B = some (.aos m (.ofList els)) ∧ els.length = is.length ∧
      ∀ (k : Nat) i c, is[k]? = some i → els[k]? = some c →
        IdentifierReads c "index".toList (.int i) ∧
        ∀ mem, enum.bind (·.byIndex i) = some mem →
          IdentifierReads c "name".toList (.str mem.name) ∧
          IdentifierReads c "description".toList (.str mem.description)) ∧
    result.at A = some (.leaf l (some (.arr .int [is.length] (is.map .int)))) := by
  have hlen : is.length ≠ 0 := by simpa using hne
  have hemp : is.isEmpty = false := by simpa using hne
  have hv : (Node.leaf l (some (.arr .int [is.length] (is.map .int)) : Option (Val F))).hasValue = true := by
    simp [Node.hasValue, leafHasValue, Value.isEmpty, Val.isEmpty, arrSize, hne]
  obtain ⟨z, y, m1, h2, h3, h4, h5, h6⟩ := changed_twice h hf hf' hx hv
  rw [hl'] at h3; cases h3
  have hz : ∃ e, z = .aos m e := by
    simp only [changeIdentifier, readValue, intsOf_ints, hemp, Bool.false_eq_true, if_false] at h2
    cases z with
    | leaf => simp at h2
    | struct => simp at h2
    | aos m' e =>
      rcases h4 with h4 | ⟨_, _, h4, _⟩
      · simp only [Typed] at h4; exact ⟨e, by rw [h4.1]⟩
      · simp at h4
  obtain ⟨e, rfl⟩ := hz
  simp only [changeIdentifier, readValue, intsOf_ints, hemp, Bool.false_eq_true, if_false] at h2
  split at h2
  · simp at h2
  · next els hels =>
    simp only [Except.ok.injEq] at h2; subst h2
    obtain ⟨h7, h8⟩ := identifiersOf_ok hels
    have hr : ∀ (k : Nat) i c, is[k]? = some i → els[k]? = some c →
        IdentifierReads c "index".toList (.int i) ∧
        ∀ mem, enum.bind (·.byIndex i) = some mem →
          IdentifierReads c "name".toList (.str mem.name) ∧
          IdentifierReads c "description".toList (.str mem.description) :=
      fun k i c h9 h10 => identifierOf_reads hm (typed_freshF m) (h8 k i c h9 h10)
    refine ⟨⟨els, h5, h7, hr⟩, ?_⟩
    have hel : (Elems.ofList els).length = is.length := by rw [ofList_length, h7]
    obtain ⟨z', y', m', h9, h10, h11, h12⟩ := h6 (by
      simp only [Node.hasValue, hel, decide_eq_true_eq]; omega)
    rw [hl] at h10; cases h10
    obtain ⟨s', rfl⟩ := typedAt_leaf h11
    have hix := indicesOf_ofList (els := els) (is := is) h7 (fun k i c a b => (hr k i c a b).1)
    have hfit : (Val.arr .int [is.length] (is.map .int) : Val F).fits l = true := by
      simp [Val.fits, h0, arrSize, Scalar.type]
    simp only [changeIdentifier, hel, hlen, if_false, hix, (all_isInt32 is).2 h32, if_true] at h9
    rw [putObj_fits cv hfit] at h9
    simp only [h0.2, Nat.reduceEqDiff, decide_false, Bool.false_and, Bool.false_eq_true, if_false,
      Except.ok.injEq] at h9
    subst h9
    exact h12

/-! ### Values without type change -/

theorem storeVal_fits (cv : Conv F) {l : LeafMeta} {v : Val F} (h : v.fits l = true) :
    storeVal cv l v = .ok (if l.ndim = 0 && eqDefault v then none else some v) := by
  simp [storeVal, setValue, assigned, castValue_fits cv h]

/-- A value a data node can hold: of its type, and not the default. (`C09_stored_type` shows that
nodes hold no other values.) -/
def Held (l : LeafMeta) (v : Val F) : Prop := v.fits l = true ∧ (l.ndim = 0 → Real v)

theorem held_store (cv : Conv F) {l : LeafMeta} {v : Val F} (h : Held l v) :
    storeVal cv l v = .ok (some v) := by
  rw [storeVal_fits cv h.1]
  by_cases h0 : l.ndim = 0
  · have := h.2 h0; simp only [Real] at this; simp [h0, this]
  · simp [h0]

/-- **C22, there and back.** A value without type change and post-processing, whose node has the same
type and rank in both versions, is the same after converting to another version and back. -/
theorem C22_round_trip_value (cv : Conv F) {cx cx' : Cfg (Val F)} {sm tm : Meta}
    {source data : Fields (Val F)} {t0 t0' result : Node (Val F)} {A B : Addr}
    (h : ThereAndBack cx cx' sm tm source data t0 t0' result A B)
    (hst : cx.store = storeVal cv) (hst' : cx'.store = storeVal cv)
    (hc : cx.change (names A) = none) (hc' : cx'.change (names B) = none)
    (hp : cx.post (names A) = none) (hp' : cx'.post (names B) = none)
    (l l' : LeafMeta) (hl : metaAt sm (names A) = some (.leaf l)) (hl' : metaAt tm (names B) = some (.leaf l'))
    (v : Val F) (hx : ValueAt (.struct source) A v) (hv : Held l v) (hv' : Held l' v) :
    ValueAt (.struct data) B v ∧ ValueAt result A v := by
  obtain ⟨l0, hx1, hx2⟩ := id hx
  obtain ⟨l1, w, h1, h2, y, h3, h4⟩ := C22_value_moved cx h.proper tm source h.wf t0 _ h.typed h.there A B v
    hx h.sent hc h.alone h.noPost
  rw [hp] at h4
  simp only at h4
  rw [hl'] at h1; cases h1
  rw [hst, held_store cv hv'] at h2; cases h2
  subst h4
  have hd : ValueAt (.struct data) B v := ⟨l', h3, hx2⟩
  refine ⟨hd, ?_⟩
  obtain ⟨l2, w2, h5, h6, y2, h7, h8⟩ := C22_value_moved cx' h.proper' sm data h.wf' t0' _ h.typed' h.back B A v
    hd h.sent' hc' h.alone' h.noPost'
  rw [hp'] at h8
  simp only at h8
  rw [hl] at h5; cases h5
  rw [hst', held_store cv hv] at h6; cases h6
  subst h8
  exact ⟨l, h7, hx2⟩

/-! ### COCOS -/

/-- The negative of an item of an array. In 32 bits, the smallest integer is its own negative. -/
inductive NegatedItem : Scalar F → Scalar F → Prop
  | int (i : Int) : i ≠ -2147483648 → NegatedItem (.int i) (.int (-i))
  | smallest : NegatedItem (.int (-2147483648)) (.int (-2147483648))
  | flt (x : F) : NegatedItem (.flt x) (.flt (FloatModel.neg x))
  | cpx (x y : F) : NegatedItem (.cpx x y) (.cpx (FloatModel.neg x) (FloatModel.neg y))

/-- The negative of a number, of every number of an array. -/
inductive Negated : Val F → Val F → Prop
  | int (i : Int) : Negated (.int i) (.int (-i))
  | flt (x : F) : Negated (.flt x) (.flt (FloatModel.neg x))
  | cpx (x y : F) : Negated (.cpx x y) (.cpx (FloatModel.neg x) (FloatModel.neg y))
  | arr (t : BaseType) (s : List Nat) (d d' : List (Scalar F)) (hlen : d.length = d'.length)
      (h : ∀ (k : Nat) x, d[k]? = some x → ∃ y, d'[k]? = some y ∧ NegatedItem x y) : Negated (.arr t s d) (.arr t s d')

theorem negScalar_negated (x : Scalar F) : NegatedItem x (negScalar x) := by
  cases x with
  | int i =>
    by_cases h : i = -2147483648
    · subst h; exact .smallest
    · simp only [negScalar, negInt32, if_neg h]; exact .int i h
  | flt x => exact .flt x
  | cpx x y => exact .cpx x y

theorem negVal_negated {v w : Val F} (h : negVal v = some w) : Negated v w := by
  cases v with
  | int => cases h; exact .int _
  | flt => cases h; exact .flt _
  | cpx => cases h; exact .cpx _ _
  | str => simp [negVal] at h
  | strs => simp [negVal] at h
  | arr t s d =>
    cases h
    exact .arr t s d _ (by simp) (fun k x hk => ⟨negScalar x, by simp [hk], negScalar_negated x⟩)

theorem negScalar_type (x : Scalar F) : (negScalar x).type = x.type := by cases x <;> rfl

theorem negVal_fits {l : LeafMeta} {v w : Val F} (h : negVal v = some w) (hv : v.fits l = true) :
    w.fits l = true := by
  cases v with
  | int => cases h; exact hv
  | flt => cases h; exact hv
  | cpx => cases h; exact hv
  | str => simp [negVal] at h
  | strs => simp [negVal] at h
  | arr t s d =>
    cases h
    simp only [Val.fits, List.length_map, List.all_map, Function.comp_def, negScalar_type] at hv ⊢
    exact hv

theorem negVal_some {l : LeafMeta} {v : Val F} (hv : v.fits l = true) (hs : l.type ≠ .str) :
    ∃ w, negVal v = some w := by
  cases v <;> simp_all [negVal, Val.fits]

theorem negVal_isEmpty {v w : Val F} (h : negVal v = some w) : Value.isEmpty w = Value.isEmpty v := by
  cases v <;> cases h <;> rfl

/-- Integer arrays are int32 arrays. -/
def Ints32 : Val F → Prop
  | .arr _ _ d => ∀ i, Scalar.int i ∈ d → InInt32 i
  | _ => True

theorem negInt32_negInt32 (i : Int) (h : InInt32 i) : negInt32 (negInt32 i) = i := by
  unfold InInt32 at h
  by_cases h1 : i = -2147483648
  · simp [negInt32, h1]
  · have e : negInt32 i = -i := if_neg h1
    rw [e]
    have e2 : negInt32 (-i) = - -i := if_neg (by omega)
    rw [e2]; omega

theorem negVal_negVal (hneg : ∀ x : F, FloatModel.neg (FloatModel.neg x) = x) {v w : Val F}
    (h32 : Ints32 v) (h : negVal v = some w) : negVal w = some v := by
  cases v with
  | int => cases h; simp [negVal]
  | flt => cases h; simp [negVal, hneg]
  | cpx => cases h; simp [negVal, hneg]
  | str => simp [negVal] at h
  | strs => simp [negVal] at h
  | arr t s d =>
    cases h
    have : ∀ x ∈ d, negScalar (negScalar x) = x := by
      intro x hx
      cases x with
      | int i => simp [negScalar, negInt32_negInt32 i (h32 i hx)]
      | flt x => simp [negScalar, hneg]
      | cpx x y => simp [negScalar, hneg]
    simp only [negVal, List.map_map, Option.some.injEq, Val.arr.injEq, true_and]
    exact (List.map_congr_left (g := id) fun x hx => by simpa using this x hx).trans (List.map_id d)

theorem negate_leaf (cv : Conv F) {l : LeafMeta} {v w : Val F} (hv : v.fits l = true)
    (h : negVal v = some w) (flux : Bool) :
    cocosChange cv flux (.leaf l (some v)) =
      .ok (.leaf l (if l.ndim = 0 && eqDefault w then none else some w)) := by
  simp only [cocosChange, negateNode, readValue, h]
  exact putObj_fits cv (negVal_fits h hv) _

/-- **C24, which nodes.** The conversion from 3 to 4 changes the sign of a path exactly if the Data
Dictionary labels it `psi_like` or `dodpsi_like`, or it is in the list of extra paths. -/
theorem C24_paths (cv : Conv F) (fields : List (List Name × Option (List Char))) (extra : List (List Name))
    (flux : List Name → Bool) (p : List Name) :
    (cocosOld cv (cocosPaths fields extra) flux p).isSome = true ↔
      (p, some "psi_like".toList) ∈ fields ∨ (p, some "dodpsi_like".toList) ∈ fields ∨ p ∈ extra := by
  have hf : ∀ w : List Char, p ∈ (fields.filterMap fun (q, label) =>
      if label = some w then some q else none) ↔ (p, some w) ∈ fields := by
    intro w
    simp only [List.mem_filterMap]
    constructor
    · rintro ⟨⟨q, lb⟩, h1, h2⟩
      simp only at h2
      split at h2
      · next e => cases h2; subst e; exact h1
      · simp at h2
    · intro h; exact ⟨_, h, by simp⟩
  have : p ∈ cocosPaths fields extra ↔
      (p, some "psi_like".toList) ∈ fields ∨ (p, some "dodpsi_like".toList) ∈ fields ∨ p ∈ extra := by
    simp only [cocosPaths, List.mem_append, or_assoc]
    rw [hf "psi_like".toList, hf "dodpsi_like".toList]
  rw [← this]
  by_cases h : p ∈ cocosPaths fields extra <;> simp [cocosOld, h]

/-- **C24, which nodes.** The conversion from 4 to 3 changes the sign of exactly the nodes those of the
other direction are renamed to. -/
theorem C24_paths_back (cv : Conv F) (path : List Name → Option (Option (List Name)))
    (paths : List (List Name)) (flux : List Name → Bool) (q : List Name) :
    (cocosNew cv path paths flux q).isSome = true ↔
      ∃ p ∈ paths, path p = some (some q) ∨ (path p = none ∧ p = q) := by
  have : q ∈ paths.filterMap (newPath path) ↔
      ∃ p ∈ paths, path p = some (some q) ∨ (path p = none ∧ p = q) := by
    simp only [List.mem_filterMap]
    constructor
    · rintro ⟨p, h1, h2⟩
      refine ⟨p, h1, ?_⟩
      simp only [newPath] at h2
      cases hp : path p with
      | none => rw [hp] at h2; simp only [Option.some.injEq] at h2; exact .inr ⟨rfl, h2⟩
      | some r => rw [hp] at h2; simp only at h2; subst h2; exact .inl rfl
    · rintro ⟨p, h1, h2 | ⟨h2, rfl⟩⟩
      · exact ⟨p, h1, by simp [newPath, h2]⟩
      · exact ⟨p, h1, by simp [newPath, h2]⟩
  rw [← this]
  by_cases h : q ∈ paths.filterMap (newPath path) <;> simp [cocosNew, h]

/-- **C24, sign change.** After converting, a listed data node reads as the negative of the value in
the source (each number of an array). -/
theorem C24_negated (cv : Conv F) (cx : Cfg (Val F)) (hp : Proper cx) (tm : Meta)
    (source : Fields (Val F)) (hw : WFFields source) (target target' : Node (Val F))
    (ht : Typed target tm) (h : copyIds cx source target = .ok target') (hst : cx.store = storeVal cv)
    (A B : Addr) (hs : Sent cx tm [] [] source A B) (ha : Alone cx tm source A B)
    (hn : NoPostAbove cx A) (hc : cx.change (names A) = none) (flux : Bool)
    (hpost : cx.post (names A) = some (cocosChange cv flux))
    (l' : LeafMeta) (hl' : metaAt tm (names B) = some (.leaf l')) (hstr : l'.type ≠ .str)
    (v : Val F) (hx : ValueAt (.struct source) A v) (hv : Held l' v) :
    ∃ s w, target'.at B = some (.leaf l' s) ∧ readValue l' s = w ∧ Negated v w := by
  obtain ⟨l1, u, h1, h2, y, h3, h4⟩ := C22_value_moved cx hp tm source hw target _ ht h A B v hx hs hc ha hn
  rw [hl'] at h1; cases h1
  rw [hst, held_store cv hv] at h2; cases h2
  rw [hpost] at h4
  simp only at h4
  obtain ⟨w, hw⟩ := negVal_some hv.1 hstr
  rw [negate_leaf cv hv.1 hw] at h4
  cases h4
  refine ⟨_, w, h3, ?_, negVal_negated hw⟩
  obtain ⟨s2, h5, h6, -⟩ := C09_assign_read cv l' w (negVal_fits hw hv.1)
  have e : setValue cv false l' (.val w) = .ok (if l'.ndim = 0 && eqDefault w then none else some w) := by
    simp [setValue, assigned, castValue_fits cv (negVal_fits hw hv.1)]
  rw [e] at h5
  cases h5
  exact h6

/-- **C24, the others.** A data node that is not listed (and is in no listed structure) has the value
of the source. -/
theorem C24_unlisted (cv : Conv F) (cx : Cfg (Val F)) (hp : Proper cx) (tm : Meta)
    (source : Fields (Val F)) (hw : WFFields source) (target target' : Node (Val F))
    (ht : Typed target tm) (h : copyIds cx source target = .ok target') (hst : cx.store = storeVal cv)
    (paths : List (List Name)) (flux : List Name → Bool) (hpost : cx.post = cocosOld cv paths flux)
    (A B : Addr) (hs : Sent cx tm [] [] source A B) (ha : Alone cx tm source A B)
    (hn : ∀ A', Contains A' A → names A' ∉ paths) (hc : cx.change (names A) = none)
    (l' : LeafMeta) (hl' : metaAt tm (names B) = some (.leaf l'))
    (v : Val F) (hx : ValueAt (.struct source) A v) (hv : Held l' v) :
    ValueAt target' B v := by
  have hnone : ∀ A', Contains A' A → cx.post (names A') = none := by
    intro A' h1; rw [hpost]; simp [cocosOld, hn A' h1]
  obtain ⟨l1, u, h1, h2, y, h3, h4⟩ := C22_value_moved cx hp tm source hw target _ ht h A B v hx hs hc ha
    (fun A' h1 _ => hnone A' h1)
  rw [hl'] at h1; cases h1
  rw [hst, held_store cv hv] at h2; cases h2
  rw [hnone A (contains_refl A)] at h4
  simp only at h4
  subst h4
  obtain ⟨l0, -, hx2⟩ := hx
  exact ⟨l', h3, hx2⟩

/-- **C24, involution.** A listed value is the same after converting to the other version and back,
unless its negative is the default of a 0D node. -/
theorem C24_round_trip (cv : Conv F) (hneg : ∀ x : F, FloatModel.neg (FloatModel.neg x) = x)
    {cx cx' : Cfg (Val F)} {sm tm : Meta}
    {source data : Fields (Val F)} {t0 t0' result : Node (Val F)} {A B : Addr}
    (h : ThereAndBack cx cx' sm tm source data t0 t0' result A B)
    (hst : cx.store = storeVal cv) (hst' : cx'.store = storeVal cv)
    (hc : cx.change (names A) = none) (hc' : cx'.change (names B) = none) (flux flux' : Bool)
    (hp : cx.post (names A) = some (cocosChange cv flux))
    (hp' : cx'.post (names B) = some (cocosChange cv flux'))
    (l l' : LeafMeta) (hl : metaAt sm (names A) = some (.leaf l)) (hl' : metaAt tm (names B) = some (.leaf l'))
    (hstr : l'.type ≠ .str)
    (v : Val F) (hx : ValueAt (.struct source) A v) (hv : Held l v) (hv' : Held l' v)
    (h32 : Ints32 v) (hd : ∀ w, Negated v w → (l'.ndim = 0 → Real w) ∧ (l.ndim = 0 → Real w)) :
    (∃ w, ValueAt (.struct data) B w ∧ Negated v w) ∧ ValueAt result A v := by
  obtain ⟨l0, hx1, hx2⟩ := id hx
  obtain ⟨w, hw⟩ := negVal_some hv'.1 hstr
  have hwn := negVal_negated hw
  have keep : ∀ {l : LeafMeta} {u : Val F}, (l.ndim = 0 → Real u) →
      (if (decide (l.ndim = 0) && eqDefault u) = true then none else some u) = some u := by
    intro l u h1
    by_cases h0 : l.ndim = 0
    · have := h1 h0; simp only [Real] at this; simp [h0, this]
    · simp [h0]
  obtain ⟨l1, u, h1, h2, y, h3, h4⟩ := C22_value_moved cx h.proper tm source h.wf t0 _ h.typed h.there A B v
    hx h.sent hc h.alone h.noPost
  rw [hl'] at h1; cases h1
  rw [hst, held_store cv hv'] at h2; cases h2
  rw [hp] at h4
  simp only at h4
  rw [negate_leaf cv hv'.1 hw, keep (hd w hwn).1] at h4
  cases h4
  have hdat : ValueAt (.struct data) B w := ⟨l', h3, by rw [negVal_isEmpty hw]; exact hx2⟩
  refine ⟨⟨w, hdat, hwn⟩, ?_⟩
  obtain ⟨l2, u2, h5, h6, y2, h7, h8⟩ := C22_value_moved cx' h.proper' sm data h.wf' t0' _ h.typed' h.back B A w
    hdat h.sent' hc' h.alone' h.noPost'
  rw [hl] at h5; cases h5
  rw [hst', held_store cv ⟨negVal_fits hw hv.1, (hd w hwn).2⟩] at h6; cases h6
  rw [hp'] at h8
  simp only at h8
  rw [negate_leaf cv (negVal_fits hw hv.1) (negVal_negVal hneg h32 hw), keep hv.2] at h8
  cases h8
  exact ⟨l, h7, hx2⟩

/-- **C24, limit.** The negative of `EMPTY_FLOAT` (9e40) is lost in a 0D node: the converted node is
unset. -/
theorem C24_empty_limit (cv : Conv F) (hneg : ∀ x : F, FloatModel.neg (FloatModel.neg x) = x)
    (l : LeafMeta) (hl : l.type = .flt ∧ l.ndim = 0) (flux : Bool) :
    cocosChange cv flux (.leaf l (some (.flt (FloatModel.neg FloatModel.empty)))) = .ok (.leaf l none) := by
  rw [negate_leaf cv (w := .flt FloatModel.empty) (by simp [Val.fits, hl]) (by simp [negVal, hneg])]
  simp [hl, eqDefault, FloatModel.empty_eq]

end

/-! ### Concrete cases -/

/-- Lists with one number are converted to arrays; numbers are exact. -/
def changeConv : Conv Int where
  scalar _ _ := none
  string _ := none
  iter _ := none
  array t x := match t, x with
    | .int, .list [.val (.int i)] => some ([1], [.int i])
    | .flt, .list [.val (.flt i)] => some ([1], [.flt i])
    | .cpx, .list [.val (.cpx i j)] => some ([1], [.cpx i j])
    | _, _ => none

example : ListConv changeConv := by intro x; cases x <;> rfl

/-- `Int` stands for floating point numbers, with `2 * i` for the integer `i` (so that -9 is empty, and
odd numbers are no integers). -/
def sampleIntFloat : IntFloat Int := ⟨fun i => 2 * i, fun x => some (x / 2)⟩

example : ExactInt sampleIntFloat := by
  refine ⟨fun i _ => by simp [sampleIntFloat], fun i _ => by simp [sampleIntFloat, FloatModel.eq], ?_⟩
  intro i _
  have h : (2 * i : Int) ≠ -9 := by omega
  show decide ((2 * i : Int) = -9) = false
  simp [h]

def identMembers : MFields :=
  .cons "name".toList (.leaf ⟨.str, 0, false⟩) (.cons "index".toList (.leaf ⟨.int, 0, false⟩)
    (.cons "description".toList (.leaf ⟨.str, 0, false⟩) .nil))

example : IdentifierMeta identMembers :=
  ⟨⟨_, by with_unfolding_all rfl, rfl, rfl⟩, ⟨_, by with_unfolding_all rfl, rfl, rfl⟩,
    ⟨_, by with_unfolding_all rfl, rfl, rfl⟩⟩

/-- A scalar that becomes an array, an integer that becomes a float, indices that become identifiers,
and a node whose sign changes. -/
def dict3 : MFields :=
  .cons "k".toList (.leaf ⟨.flt, 0, false⟩) (.cons "z".toList (.leaf ⟨.int, 0, false⟩)
    (.cons "ids".toList (.leaf ⟨.int, 1, false⟩) (.cons "psi".toList (.leaf ⟨.flt, 1, false⟩) .nil)))

def dict4 : MFields :=
  .cons "k".toList (.leaf ⟨.flt, 1, false⟩) (.cons "z".toList (.leaf ⟨.flt, 0, false⟩)
    (.cons "ids".toList (.aos identMembers) (.cons "psi".toList (.leaf ⟨.flt, 1, false⟩) .nil)))

def sampleIdEnum : IdEnum := [("x".toList, ⟨"x".toList, 3, "an x".toList, []⟩)]

def changeMap : Cfg (Val Int) where
  path _ := none
  change q := if q = ["k".toList] then some (.custom (change0d1d changeConv))
    else if q = ["z".toList] then some (.custom (changeFltInt changeConv sampleIntFloat))
    else if q = ["ids".toList] then some (.custom (changeIdentifier changeConv (some sampleIdEnum)))
    else none
  post := cocosOld changeConv [["psi".toList]] (fun _ => false)
  store := storeVal changeConv

def data3 : Fields (Val Int) :=
  .present "k".toList (.leaf ⟨.flt, 0, false⟩ (some (.flt 7)))
  (.present "z".toList (.leaf ⟨.int, 0, false⟩ (some (.int 5)))
  (.present "ids".toList (.leaf ⟨.int, 1, false⟩ (some (.arr .int [2] [.int 3, .int (-1)])))
  (.present "psi".toList (.leaf ⟨.flt, 1, false⟩ (some (.arr .flt [2] [.flt 1, .flt 2]))) .nil)))

def data4 : Fields (Val Int) :=
  .present "k".toList (.leaf ⟨.flt, 1, false⟩ (some (.arr .flt [1] [.flt 7])))
  (.present "z".toList (.leaf ⟨.flt, 0, false⟩ (some (.flt 10)))
  (.present "ids".toList (.aos identMembers
    (.cons (.present "name".toList (.leaf ⟨.str, 0, false⟩ (some (.str "x".toList)))
      (.present "index".toList (.leaf ⟨.int, 0, false⟩ (some (.int 3)))
      (.present "description".toList (.leaf ⟨.str, 0, false⟩ (some (.str "an x".toList))) .nil)))
    (.cons (.absent "name".toList (.leaf ⟨.str, 0, false⟩)
      (.present "index".toList (.leaf ⟨.int, 0, false⟩ (some (.int (-1))))
      (.absent "description".toList (.leaf ⟨.str, 0, false⟩) .nil))) .nil)))
  (.present "psi".toList (.leaf ⟨.flt, 1, false⟩ (some (.arr .flt [2] [.flt (-1), .flt (-2)]))) .nil)))

theorem change_there : copyIds changeMap data3 (Meta.struct dict4).fresh = .ok (.struct data4) := by
  with_unfolding_all rfl

theorem change_back : copyIds changeMap data4 (Meta.struct dict3).fresh = .ok (.struct data3) := by
  with_unfolding_all rfl

theorem changeMap_proper : Proper changeMap := by
  constructor
  · intro q f x hq
    simp only [changeMap] at hq
    split at hq
    · cases hq; exact keeps_0d1d _ _
    · split at hq
      · cases hq; exact keeps_fltInt _ _ _
      · split at hq
        · cases hq; exact keeps_identifier _ _ _
        · simp at hq
  · intro q f hq
    simp only [changeMap, cocosOld] at hq
    split at hq
    · cases hq; exact keeps_cocos _ _
    · simp at hq

/-- All hypotheses of the round trip theorems hold for each of the four nodes. -/
theorem change_thereAndBack (n : Name) (hn : n ∈ ["k".toList, "z".toList, "ids".toList, "psi".toList]) :
    ThereAndBack changeMap changeMap (.struct dict3) (.struct dict4) data3 data4
      (Meta.struct dict4).fresh (Meta.struct dict3).fresh (.struct data3) [(n, none)] [(n, none)] := by
  have e1 : sentFields changeMap (.struct dict4) [] [] data3 =
      [([("k".toList, none)], [("k".toList, none)]), ([("z".toList, none)], [("z".toList, none)]),
       ([("ids".toList, none)], [("ids".toList, none)]), ([("psi".toList, none)], [("psi".toList, none)])] := by
    with_unfolding_all rfl
  have e2 : sentFields changeMap (.struct dict3) [] [] data4 =
      [([("k".toList, none)], [("k".toList, none)]), ([("z".toList, none)], [("z".toList, none)]),
       ([("ids".toList, none)], [("ids".toList, none)]), ([("psi".toList, none)], [("psi".toList, none)])] := by
    with_unfolding_all rfl
  have hpost : ∀ A', Contains A' [(n, none)] → A' ≠ [(n, none)] → changeMap.post (names A') = none := by
    intro A' h1 h2
    match A', h1, h2 with
    | [], _, _ => simp [changeMap, cocosOld, names]
    | [s], h1, h2 =>
      simp only [Contains] at h1
      rcases h1 with h1 | h1
      · exact absurd (by rw [h1]) h2
      · exact absurd (by rw [show s = (n, none) from Prod.ext h1.1 h1.2]) h2
    | _ :: _ :: _, h1, _ => simp [Contains] at h1
  simp only [List.mem_cons, List.not_mem_nil, or_false] at hn
  refine ⟨changeMap_proper, changeMap_proper, ?_, ?_, typed_fresh _, typed_fresh _, change_there,
    change_back, ?_, ?_, ?_, ?_, hpost, hpost⟩
  · simp [data3, WFFields, WF, Fields.names]
  · simp [data4, identMembers, WFFields, WFMFields, WFMeta, WF, WFElems, Fields.names, mnames]
  · rcases hn with rfl | rfl | rfl | rfl <;>
      exact .here (by with_unfolding_all rfl) (by with_unfolding_all rfl)
  · rcases hn with rfl | rfl | rfl | rfl <;>
      exact .here (by with_unfolding_all rfl) (by with_unfolding_all rfl)
  · refine alone_of_list ?_
    intro y hy _ _
    rw [e1] at hy
    simp only [List.mem_cons, List.not_mem_nil, or_false] at hy
    rcases hn with rfl | rfl | rfl | rfl <;> rcases hy with rfl | rfl | rfl | rfl <;> simp_all [Contains]
  · refine alone_of_list ?_
    intro y hy _ _
    rw [e2] at hy
    simp only [List.mem_cons, List.not_mem_nil, or_false] at hy
    rcases hn with rfl | rfl | rfl | rfl <;> rcases hy with rfl | rfl | rfl | rfl <;> simp_all [Contains]

example : changeMap.change (names [("k".toList, none)]) = some (.custom (change0d1d changeConv)) := rfl
example : Held ⟨.flt, 1, false⟩ (.arr .flt [2] [.flt 1, .flt 2] : Val Int) := ⟨by decide, by simp⟩
example : changeMap.post (names [("psi".toList, none)]) = some (cocosChange changeConv false) := rfl

end Verif.Props
