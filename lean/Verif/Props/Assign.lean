import Verif.Lemmas.Update
/-!
Properties of modifications: C09 (assignment to data nodes) and C10 (arrays of structures).
-/
set_option linter.unusedSectionVars false
namespace Verif.Props
open Verif.Ids Verif.TreeSpec

section C09
variable {F : Type} [FloatModel F]

/-- An array or list of strings without items. -/
def NoItems : Val F → Prop
  | .arr _ s _ => 0 ∈ s
  | .strs l => l = []
  | _ => False

/-- The value means "unset": the default of a scalar data node, or an array (or list of
strings) without items. -/
def MeansUnset (l : LeafMeta) (v : Val F) : Prop :=
  (l.ndim = 0 ∧ v = default0D l.type) ∨ NoItems v

theorem eqDefault_iff {l : LeafMeta} {v : Val F} (h : v.fits l = true) (h0 : l.ndim = 0) :
    eqDefault v = true ↔ v = default0D l.type := by
  cases v <;> simp [Val.fits] at h
  · simp [eqDefault, default0D, h.1]
  · rename_i x
    simp only [eqDefault, default0D, h.1, Val.flt.injEq]
    exact ⟨FloatModel.eq_empty x, by rintro rfl; exact FloatModel.empty_eq⟩
  · rename_i x y
    simp only [eqDefault, default0D, h.1, Val.cpx.injEq, Bool.and_eq_true]
    constructor
    · rintro ⟨h1, h2⟩; exact ⟨FloatModel.eq_empty x h1, FloatModel.eq_neg_empty y h2⟩
    · rintro ⟨rfl, rfl⟩; exact ⟨FloatModel.empty_eq, FloatModel.neg_empty_eq⟩
  · simp [eqDefault, default0D, h.1]
  · omega
  · have := h.1.1.1.2; rw [h0] at this
    exact absurd (List.length_eq_zero_iff.1 this.symm) h.1.1.2

theorem arrSize_eq_zero (s : List Nat) : arrSize s = 0 ↔ 0 ∈ s := by
  induction s with
  | nil => simp [arrSize]
  | cons n s ih =>
    simp only [arrSize, List.foldr_cons, Nat.mul_eq_zero, List.mem_cons] at *
    rw [ih, eq_comm]

theorem castStrs_vals (cv : Conv F) (l : List (List Char)) :
    castStrs cv (l.map fun s => .val (.str s)) = .ok l := by
  induction l with
  | nil => rfl
  | cons s l ih => simp [castStrs, castStr, ih, pure, Except.pure, bind, Except.bind]

/-- A value of the right type and rank is not converted. -/
theorem castValue_fits (cv : Conv F) {l : LeafMeta} {v : Val F} (h : v.fits l = true) :
    castValue cv l (.val v) = .ok v := by
  obtain ⟨t, n, dyn⟩ := l
  cases v with
  | int i => simp [Val.fits] at h; obtain ⟨rfl, rfl⟩ := h; simp [castValue]
  | flt i => simp [Val.fits] at h; obtain ⟨rfl, rfl⟩ := h; simp [castValue]
  | cpx i => simp [Val.fits] at h; obtain ⟨rfl, rfl⟩ := h; simp [castValue]
  | str i => simp [Val.fits] at h; obtain ⟨rfl, rfl⟩ := h; simp [castValue, castStr, Except.map]
  | strs i =>
    simp [Val.fits] at h; obtain ⟨rfl, rfl⟩ := h
    simp [castValue, iterObj, castStrs_vals, Except.map]
  | arr t' s d =>
    simp only [Val.fits, ne_eq, decide_not, Bool.and_eq_true, decide_eq_true_eq, Bool.not_eq_eq_eq_not,
      Bool.not_true, decide_eq_false_iff_not] at h
    obtain ⟨⟨⟨⟨⟨rfl, h1⟩, rfl⟩, h2⟩, -⟩, -⟩ := h
    cases s with
    | nil => simp at h2
    | cons k s => cases t <;> simp_all [castValue]

/-- **C09.** Assigning a value of the right type and rank succeeds; reading the node returns
exactly that value; and the node has a value unless the assigned value means "unset". -/
theorem C09_assign_read (cv : Conv F) (l : LeafMeta) (v : Val F) (h : v.fits l = true) :
    ∃ s, setValue cv false l (.val v) = .ok s ∧ readValue l s = v ∧
      (leafHasValue s = false ↔ MeansUnset l v) := by
  have hset : setValue cv false l (.val v) =
      .ok (if l.ndim = 0 && eqDefault v then none else some v) := by
    simp [setValue, assigned, castValue_fits cv h]
  refine ⟨_, hset, ?_, ?_⟩
  · by_cases h0 : l.ndim = 0
    · by_cases he : eqDefault v = true
      · simp only [h0, he, decide_true, Bool.and_self, if_true, readValue, defaultVal]
        exact ((eqDefault_iff h h0).1 he).symm
      · simp [h0, he, readValue]
    · simp [h0, readValue]
  · by_cases h0 : l.ndim = 0
    · have hd := eqDefault_iff h h0
      have hne : leafHasValue (some v) = true := by
        cases v <;> simp [Val.fits] at h <;> simp_all [leafHasValue, Value.isEmpty, Val.isEmpty]
      by_cases he : eqDefault v = true
      · simp only [h0, he, decide_true, Bool.and_self, if_true]
        simp only [leafHasValue, true_iff]
        exact .inl ⟨h0, hd.1 he⟩
      · simp only [h0, he, decide_true, Bool.and_false, Bool.false_eq_true, if_false, hne]
        simp only [Bool.true_eq_false, false_iff, MeansUnset]
        rintro (⟨-, h⟩ | h)
        · exact he (hd.2 h)
        · revert h hne
          cases v <;> simp [NoItems, leafHasValue, Value.isEmpty, Val.isEmpty, arrSize_eq_zero]
    · simp only [h0, decide_false, Bool.false_and, Bool.false_eq_true, if_false, MeansUnset,
        false_and, false_or]
      cases v <;> simp_all [Val.fits, leafHasValue, Value.isEmpty, Val.isEmpty, arrSize_eq_zero, NoItems]

/-- **C09.** A node that was never assigned reads as the default of its type and has no
value. -/
theorem C09_unset_reads_default (l : LeafMeta) (hs : l.type = .str → l.ndim ≤ 1) :
    (readValue l none : Val F).fits l = true ∧ MeansUnset l (readValue l none : Val F) ∧
      leafHasValue (none : Option (Val F)) = false := by
  obtain ⟨t, n, dyn⟩ := l
  refine ⟨?_, ?_, rfl⟩
  · cases n with
    | zero => cases t <;> simp [readValue, defaultVal, default0D, Val.fits]
    | succ n =>
      cases t <;> simp_all [readValue, defaultVal, Val.fits, arrSize, List.replicate_succ]
  · cases n with
    | zero => left; simp [readValue, defaultVal]
    | succ n =>
      right
      cases t <;> simp [readValue, defaultVal, List.replicate_succ, NoItems]

/-- The conversions of Python and numpy return what they promise. -/
def Conv.Sound (cv : Conv F) : Prop :=
  (∀ t x v, cv.scalar t x = some v → v.fits ⟨t, 0, false⟩ = true) ∧
  (∀ t x s d, cv.array t x = some (s, d) → d.length = arrSize s ∧ ∀ y ∈ d, y.type = t)

/-- A numpy array as it can exist: as many items as its shape says, of its type. -/
def ArrayOk : Val F → Prop
  | .arr t s d => d.length = arrSize s ∧ ∀ y ∈ d, y.type = t
  | _ => True

/-- The arrays in an assigned object are real arrays, and assigned nodes hold a value of
their type. -/
def ObjOk : Obj F → Prop
  | .val v => ArrayOk v
  | .node m w => (m.type = .str → m.ndim ≤ 1) ∧ ∀ v, w = some v → v.fits m = true
  | _ => True

theorem castValue_type (cv : Conv F) (hcv : Conv.Sound cv) (l : LeafMeta)
    (hs : l.type = .str → l.ndim ≤ 1) (x : Obj F) (hx : ∀ v, x = .val v → ArrayOk v) (v : Val F)
    (h : castValue cv l x = .ok v) : v.fits l = true := by
  obtain ⟨t, n, dyn⟩ := l
  have hconv : ∀ (t : BaseType) (x : Obj F) (v : Val F),
      castValue.conv cv t x = .ok v → v.fits ⟨t, 0, dyn⟩ = true := by
    intro t x v h
    simp only [castValue.conv] at h
    split at h
    · next w hw =>
      simp only [Except.ok.injEq] at h; subst h
      have := hcv.1 _ _ _ hw
      revert this; cases w <;> simp [Val.fits]
    · simp at h
  cases n with
  | zero =>
    have hnum : t ≠ .str → (match x with
        | .val (.int i) => if t = .int then .ok (.int i) else castValue.conv cv t x
        | .val (.flt i) => if t = .flt then .ok (.flt i) else castValue.conv cv t x
        | .val (.cpx i j) => if t = .cpx then .ok (.cpx i j) else castValue.conv cv t x
        | x => castValue.conv cv t x) = Except.ok v → v.fits ⟨t, 0, dyn⟩ = true := by
      intro ht h
      split at h <;> first
        | (split at h
           · next e => simp only [Except.ok.injEq] at h; subst h; simp [Val.fits, e]
           · exact hconv _ _ _ h)
        | exact hconv _ _ _ h
    cases t with
    | str =>
      simp only [castValue] at h
      cases hc : castStr cv x with
      | error => simp [hc, Except.map] at h
      | ok s => simp [hc, Except.map] at h; subst h; simp [Val.fits]
    | int => exact hnum (by simp) h
    | flt => exact hnum (by simp) h
    | cpx => exact hnum (by simp) h
  | succ n =>
    have hnum : t ≠ .str → (match (match x with
      | .val (.arr t' s d) => if t' = t then some (s, d) else cv.array t x
      | x => cv.array t x) with
      | none => Except.error SetErr.conversion
      | some (s, d) => if s.length = n + 1 then .ok (Val.arr t s d) else .error .wrongRank) = .ok v →
        v.fits ⟨t, n + 1, dyn⟩ = true := by
      intro ht h
      have key : ∀ o : Option (List Nat × List (Scalar F)),
          (∀ s d, o = some (s, d) → d.length = arrSize s ∧ ∀ y ∈ d, y.type = t) →
          (match o with
            | none => Except.error SetErr.conversion
            | some (s, d) => if s.length = n + 1 then .ok (Val.arr t s d) else .error .wrongRank) = .ok v →
          v.fits ⟨t, n + 1, dyn⟩ = true := by
        intro o ho h
        split at h
        · simp at h
        · next s d =>
          split at h
          · next hl =>
            simp only [Except.ok.injEq] at h; subst h
            obtain ⟨h1, h2⟩ := ho s d rfl
            simp [Val.fits, hl, h1, ht]
            simpa using h2
          · simp at h
      refine key _ ?_ h
      intro s d hsd
      split at hsd
      · next t' s' d' =>
        split at hsd
        · next e =>
          simp only [Option.some.injEq, Prod.mk.injEq] at hsd
          obtain ⟨rfl, rfl⟩ := hsd
          subst e
          exact hx _ rfl
        · exact hcv.2 _ _ _ _ hsd
      · exact hcv.2 _ _ _ _ hsd
    cases t with
    | str =>
      have hn : n = 0 := by have := hs rfl; simp only at this; omega
      subst hn
      simp only [castValue] at h
      split at h
      · next xs hxs =>
        cases hc : castStrs cv xs with
        | error => simp [hc, Except.map] at h
        | ok s => simp [hc, Except.map] at h; subst h; simp [Val.fits]
      · cases hc : castStr cv x with
        | error => simp [hc, Except.map] at h
        | ok s => simp [hc, Except.map] at h; subst h; simp [Val.fits]
    | int => exact hnum (by simp) h
    | flt => exact hnum (by simp) h
    | cpx => exact hnum (by simp) h

/-- **C09.** Whatever object is assigned, if the assignment is accepted then the node holds
nothing or a value of its own type and rank, and never the scalar default. -/
theorem C09_stored_type (cv : Conv F) (hcv : Conv.Sound cv) (l : LeafMeta)
    (hs : l.type = .str → l.ndim ≤ 1) (x : Obj F) (hx : ObjOk x) (v : Val F)
    (h : setValue cv false l x = .ok (some v)) :
    v.fits l = true ∧ ¬ (l.ndim = 0 ∧ v = default0D l.type) := by
  have : v.fits l = true ∧ ¬ (l.ndim = 0 ∧ eqDefault v = true) := by
    simp only [setValue, Bool.false_eq_true, if_false] at h
    split at h
    · simp at h
    · next w hw =>
      simp only [Except.ok.injEq] at h
      split at h
      · simp at h
      · next hne =>
        simp only [Option.some.injEq] at h; subst h
        refine ⟨?_, by simpa using hne⟩
        simp only [assigned] at hw
        split at hw
        · next m u =>
          have hread : (readValue m u).fits m = true := by
            cases u with
            | none => exact (C09_unset_reads_default m hx.1).1
            | some u => exact hx.2 u rfl
          split at hw
          · split at hw
            · next e =>
              simp only [Except.ok.injEq] at hw; subst hw
              obtain ⟨e1, e2⟩ := e
              revert hread
              cases readValue m u <;> simp [Val.fits, e1, e2]
            · refine castValue_type cv hcv l hs _ ?_ _ hw
              rintro v' e; simp only [Obj.val.injEq] at e; subst e
              revert hread
              cases readValue m u <;> simp [Val.fits, ArrayOk]
              intro _ _ _ _ h1 h2; exact ⟨h1, h2⟩
          · refine castValue_type cv hcv l hs _ ?_ _ hw
            rintro v' e; simp at e
        · refine castValue_type cv hcv l hs _ ?_ _ hw
          rintro v' rfl; exact hx
  refine ⟨this.1, fun hd => this.2 ⟨hd.1, ?_⟩⟩
  exact (eqDefault_iff this.1 hd.1).2 hd.2

/-- **C09.** Assigning another data node of the same type and rank stores the value of that node, without any conversion
(whatever the conversions of Python and numpy would do). -/
theorem C09_assign_node (cv : Conv F) (l m : LeafMeta) (ht : m.type = l.type) (hn : m.ndim = l.ndim) (w : Option (Val F))
    (h : (readValue m w).fits m = true) :
    ∃ s, setValue cv false l (.node m w) = .ok s ∧ readValue l s = readValue m w ∧
      (leafHasValue s = false ↔ MeansUnset l (readValue m w)) := by
  have hf : (readValue m w).fits l = true := by
    revert h
    cases readValue m w <;> simp [Val.fits, ht, hn]
  have hc : sameClass l m = true := by
    simp only [sameClass, ht, hn]
    split
    · simp [*]
    · split <;> simp [*]
  have e : setValue cv false l (.node m w) = setValue cv false l (.val (readValue m w)) := by
    simp [setValue, assigned, hc, ht, hn, castValue_fits cv hf]
  rw [e]
  exact C09_assign_read cv l _ hf

/-- **C09.** Objects that have not the right type already are converted: the node then reads as what the conversion gives
(`int`, `float`, `complex` or `str`), and if the conversion fails the assignment does. -/
theorem C09_converted (cv : Conv F) (l : LeafMeta) (hl : l.ndim = 0) (x : Obj F) (hx : ∀ m w, x ≠ .node m w)
    (hv : ∀ v, x = .val v → v.fits l = false) :
    (l.type = .str → ∀ t, cv.string x = some t → ∃ s, setValue cv false l x = .ok s ∧ readValue l s = .str t) ∧
    (l.type = .str → cv.string x = none → setValue cv false l x = .error .conversion) ∧
    (l.type ≠ .str → ∀ v, cv.scalar l.type x = some v → v.fits l = true →
      ∃ s, setValue cv false l x = .ok s ∧ readValue l s = v) ∧
    (l.type ≠ .str → cv.scalar l.type x = none → setValue cv false l x = .error .conversion) := by
  have ha : assigned cv l x = castValue cv l x := by
    cases x with
    | node m w => exact absurd rfl (hx m w)
    | _ => rfl
  have fin : ∀ v, v.fits l = true → castValue cv l x = .ok v → ∃ s, setValue cv false l x = .ok s ∧ readValue l s = v := by
    intro v hf hc
    obtain ⟨s, h1, h2, -⟩ := C09_assign_read cv l v hf
    refine ⟨s, ?_, h2⟩
    rw [← h1]
    simp only [setValue, ha, hc]
    rw [show assigned cv l (.val v) = castValue cv l (.val v) from rfl, castValue_fits cv hf]
  have err : castValue cv l x = .error .conversion → setValue cv false l x = .error .conversion := by
    intro h
    simp [setValue, ha, h]
  obtain ⟨t, n, dyn⟩ := l
  subst hl
  have cs : t = .str → castStr cv x = match cv.string x with | some s => .ok s | none => .error .conversion := by
    intro e
    cases x with
    | val v =>
      cases v with
      | str u => have := hv _ rfl; subst e; simp [Val.fits] at this
      | _ => rfl
    | _ => rfl
  have cn : t ≠ .str → castValue cv ⟨t, 0, dyn⟩ x = castValue.conv cv t x := by
    intro e
    cases x with
    | val v =>
      have := hv _ rfl
      cases v <;> cases t <;> simp_all [castValue, Val.fits]
    | _ => cases t <;> simp_all [castValue]
  refine ⟨fun e u h => fin _ (by simp_all [Val.fits]) ?_, fun e h => err ?_, fun e v h hf => fin v hf ?_, fun e h => err ?_⟩
  · simp only [] at e; subst e; simp [castValue, cs rfl, h, Except.map]
  · simp only [] at e; subst e; simp [castValue, cs rfl, h, Except.map]
  · rw [cn e]; simp only [] at h; simp [castValue.conv, h]
  · rw [cn e]; simp only [] at h; simp [castValue.conv, h]

/-- **C09.** An array of the right type but another rank is refused. -/
theorem C09_wrong_rank (cv : Conv F) (l : LeafMeta) (s : List Nat) (d : List (Scalar F))
    (ht : l.type ≠ .str) (hn : l.ndim ≠ 0) (hr : s.length ≠ l.ndim) :
    setValue cv false l (.val (.arr l.type s d)) = .error .wrongRank := by
  obtain ⟨t, n, dyn⟩ := l
  cases n with
  | zero => simp at hn
  | succ n => cases t <;> simp_all [setValue, assigned, castValue]

/-- **C09.** What a data node says about its size agrees with the value read from it, whether the value is set or not: the
size is the number of its items, the shape has one entry per dimension and its product is the size, the length is the first
entry of the shape (a node without dimensions has none), and the node has a value exactly when one is stored and it has items. -/
theorem C09_sizes (l : LeafMeta) (hs : l.type = .str → l.ndim ≤ 1) (s : Option (Val F)) (h : ∀ v, s = some v → v.fits l = true) :
    leafSize l s = items (readValue l s) ∧ (leafShape l s).length = l.ndim ∧ (leafShape l s).prod = leafSize l s ∧
      (∀ t shape data, readValue l s = .arr t shape data → leafShape l s = shape) ∧
      leafLen l s = (leafShape l s).head? ∧ leafHasValue s = (s.isSome && decide (leafSize l s ≠ 0)) := by
  have prod : ∀ x : List Nat, x.prod = arrSize x := fun x => by
    induction x with
    | nil => rfl
    | cons a x ih => simp [arrSize] at ih ⊢; rw [ih]
  obtain ⟨t, n, dyn⟩ := l
  cases s with
  | none =>
    cases n with
    | zero => cases t <;> simp [leafSize, readValue, defaultVal, default0D, items, leafShape, leafLen, leafHasValue]
    | succ n =>
      cases t <;>
        simp_all [leafSize, readValue, defaultVal, items, leafShape, leafLen, leafHasValue, arrSize, List.replicate_succ]
  | some v =>
    have h := h v rfl
    cases v with
    | arr dt sh d =>
      simp [Val.fits] at h
      obtain ⟨⟨⟨⟨⟨h1, h2⟩, h3⟩, h4⟩, h5⟩, h6⟩ := h
      cases sh with
      | nil => simp at h4
      | cons a sh =>
        subst h3
        simp_all [leafSize, readValue, items, leafShape, leafLen, leafHasValue, Value.isEmpty, Val.isEmpty]
    | strs x =>
      simp [Val.fits] at h
      cases x <;> simp_all [leafSize, readValue, items, leafShape, leafLen, leafHasValue, Value.isEmpty, Val.isEmpty] <;>
        simp [arrSize]
    | _ =>
      simp [Val.fits] at h
      simp_all [leafSize, readValue, items, leafShape, leafLen, leafHasValue, Value.isEmpty, Val.isEmpty]
      rfl

/-- **C09.** In a tree: after assigning a value of the right type and rank to the data node at
`a`, reading there returns it, and every node apart from `a` is as it was. -/
theorem C09_assign_in_tree (cv : Conv F) (n : Node (Val F)) (a : Addr) (l : LeafMeta)
    (old : Option (Val F)) (ha : n.at a = some (.leaf l old)) (v : Val F)
    (hv : v.fits l = true) :
    ∃ n' s, n.modify (Node.assign cv false (.val v)) a = some (.ok n') ∧
      n'.at a = some (.leaf l s) ∧ readValue l s = v ∧
      (leafHasValue s = false ↔ MeansUnset l v) ∧
      ∀ b, Apart a b → n'.at b = n.at b := by
  obtain ⟨s, h1, h2, h3⟩ := C09_assign_read cv l v hv
  obtain ⟨r, hr⟩ := (modify_exists (f := Node.assign cv false (.val v)) (n := n) (a := a)).2 ⟨_, ha⟩
  cases r with
  | error e =>
    obtain ⟨x, hx, he⟩ := modify_error hr
    rw [ha] at hx; simp only [Option.some.injEq] at hx; subst hx
    simp [Node.assign, h1, Except.map] at he
  | ok n' =>
    obtain ⟨x, y, hx, hy, hat⟩ := modify_at (keeps_assign cv false (.val v)) hr
    rw [ha] at hx; simp only [Option.some.injEq] at hx; subst hx
    simp only [Node.assign, h1, Except.map, Except.ok.injEq] at hy; subst hy
    exact ⟨n', s, hr, hat, h2, h3, fun b hb => modify_frame (keeps_assign cv false (.val v)) hr hb⟩

end C09

/-! ### Concrete cases for C09 -/

/-- Integers standing in for floating point numbers in examples. -/
instance sampleFloat : FloatModel Int where
  eq x y := x = y
  empty := -9
  neg x := -x
  eq_empty x h := by simpa using h
  eq_neg_empty x h := by simpa using h
  empty_eq := rfl
  neg_empty_eq := rfl
  eq_comm x y := by simp [eq_comm]

def sampleConv : Conv Int := ⟨fun _ _ => none, fun _ => none, fun _ => none, fun _ _ => none⟩

example : (Val.arr .flt [2, 1] [.flt 3, .flt 4] : Val Int).fits ⟨.flt, 2, false⟩ = true := by decide
example : Conv.Sound sampleConv := by constructor <;> simp [sampleConv]
/-- The hypotheses of `C09_assign_node` and `C09_converted` are met. -/
example := C09_sizes (F := Int) ⟨.flt, 2, false⟩ (by decide) (some (.arr .flt [2, 1] [.flt 3, .flt 4])) (fun v h => by cases h; decide)
example := C09_assign_node sampleConv ⟨.flt, 0, false⟩ ⟨.flt, 0, true⟩ rfl rfl (some (.flt 4)) rfl
example := C09_converted sampleConv ⟨.flt, 0, false⟩ rfl (.val (.int 4)) (fun _ _ h => by cases h) (fun v h => by cases h; rfl)
example : setValue { sampleConv with scalar := fun _ _ => some (.flt 7) } false ⟨.flt, 0, false⟩ (.val (.int 4)) =
    .ok (some (.flt 7)) := rfl
example : setValue sampleConv false ⟨.flt, 0, false⟩ (.val (.flt (-9))) = .ok none := rfl
example : setValue sampleConv false ⟨.flt, 0, false⟩ (.val (.flt 3)) = .ok (some (.flt 3)) := rfl
example : setValue sampleConv false ⟨.flt, 1, false⟩ (.val (.arr .flt [1, 1] [.flt 3])) =
    .error .wrongRank := rfl
example : ∃ (n : Node (Val Int)) (a : Addr) (l : LeafMeta) (old : Option (Val Int)),
    a.length = 2 ∧ n.at a = some (.leaf l old) ∧ (Val.int 3 : Val Int).fits l = true :=
  ⟨.struct (.absent "p".toList (.struct (.cons "q".toList (.leaf ⟨.int, 0, false⟩) .nil)) .nil),
    [("p".toList, none), ("q".toList, none)], ⟨.int, 0, false⟩, none, rfl, rfl, rfl⟩

section C10
variable {V : Type}

/-- **C10.** `resize` with `keep=True`: the first `min(n, len)` elements stay as they are and
new elements are empty. -/
theorem C10_resize_keep (m : MFields) (value : List (Fields V)) (n : Nat) :
    ∃ r, aosResize false m value n true = .ok r ∧ r.length = n ∧
      r.take (min n value.length) = value.take (min n value.length) ∧
      ∀ c ∈ r.drop (min n value.length), c = m.fresh := by
  have hn : ¬ ((n : Int) < 0) := by omega
  simp only [aosResize, Bool.false_eq_true, if_false, hn, if_true, pure, Except.pure]
  by_cases h1 : n > value.length
  · have h1' : (n : Int) > (value.length : Int) := by omega
    have hm : min n value.length = value.length := by omega
    have ht : ((n : Int) - (value.length : Int)).toNat = n - value.length := by omega
    by_cases h0 : value.length = 0
    · have : value = [] := by simpa using h0
      subst this
      refine ⟨List.replicate n m.fresh, ?_, ?_, ?_, ?_⟩ <;> simp_all
    · refine ⟨value ++ List.replicate (n - value.length) m.fresh, ?_, ?_, ?_, ?_⟩
      · simp [h1', h0, ht]
      · simp; omega
      · simp [hm]
      · simp [hm]
  · have h1' : ¬ ((n : Int) > (value.length : Int)) := by omega
    have hm : min n value.length = n := by omega
    by_cases h2 : n < value.length
    · have h2' : (n : Int) < (value.length : Int) := by omega
      refine ⟨value.take n, ?_, ?_, ?_, ?_⟩
      · simp [h1', h2']
      · simp; omega
      · rw [hm, List.take_take, Nat.min_self]
      · intro c hc; rw [hm] at hc; simp at hc
    · have h2' : ¬ ((n : Int) < (value.length : Int)) := by omega
      refine ⟨value, ?_, ?_, ?_, ?_⟩
      · simp [h1', h2']
      · omega
      · rfl
      · intro c hc
        have : n = value.length := by omega
        subst this; simp at hc

/-- **C10.** `resize` with `keep=False` gives `n` empty elements. -/
theorem C10_resize_fresh (m : MFields) (value : List (Fields V)) (n : Nat) :
    aosResize false m value n false = .ok (List.replicate n m.fresh) := by
  have hn : ¬ ((n : Int) < 0) := by omega
  simp only [aosResize, Bool.false_eq_true, if_false, hn, pure, Except.pure, List.length_nil]
  cases n with
  | zero => simp
  | succ n =>
    simp

/-- **C10.** A negative size is refused. -/
theorem C10_resize_negative (m : MFields) (value : List (Fields V)) (n : Int) (keep : Bool)
    (h : n < 0) : aosResize false m value n keep = .error .negativeSize := by
  simp [aosResize, h, throw, throwThe, MonadExceptOf.throw, bind, Except.bind]

/-- **C10.** `append` adds exactly the given elements, in order, at the end. -/
theorem C10_append (value elements : List (Fields V)) :
    aosAppend false value elements = .ok (value ++ elements) := by
  simp only [aosAppend, Bool.false_eq_true, if_false, pure, Except.pure, Except.ok.injEq]
  induction elements generalizing value with
  | nil => simp
  | cons e r ih => simp [ih]

/-- **C10.** Replacing an element replaces that one only; a negative index counts from the
end, and an index out of range is refused. -/
theorem C10_set_item (value : List (Fields V)) (i : Int) (x : Fields V) :
    (∀ r, aosSetItem false value i x = .ok r → r.length = value.length ∧
      ∃ j : Nat, j < value.length ∧ (i = j ∨ i = (j : Int) - value.length) ∧
        ∀ k : Nat, r[k]? = if k = j then some x else value[k]?) ∧
    ((∃ e, aosSetItem false value i x = .error e) ↔
      (i < -(value.length : Int) ∨ (value.length : Int) ≤ i)) := by
  have hidx : ∀ j, listIndex value.length i = some j ↔
      j < value.length ∧ (i = j ∨ i = (j : Int) - value.length) := by
    intro j
    simp only [listIndex]
    split <;> split <;> simp only [Option.some.injEq, reduceCtorEq, false_iff] <;> omega
  have hnone : listIndex value.length i = none ↔
      (i < -(value.length : Int) ∨ (value.length : Int) ≤ i) := by
    simp only [listIndex]
    split <;> split <;> simp <;> omega
  cases hl : listIndex value.length i with
  | none =>
    refine ⟨?_, ?_⟩
    · intro r h; simp [aosSetItem, hl, throw, throwThe, MonadExceptOf.throw] at h
    · rw [← hnone]
      simp [aosSetItem, hl, throw, throwThe, MonadExceptOf.throw]
  | some j =>
    obtain ⟨h1, h2⟩ := (hidx j).1 hl
    have he : aosSetItem false value i x = .ok (value.set j x) := by
      simp [aosSetItem, hl, pure, Except.pure]
    refine ⟨?_, ?_⟩
    · intro r h
      rw [he] at h; simp only [Except.ok.injEq] at h; subst h
      refine ⟨by simp, j, h1, h2, fun k => ?_⟩
      by_cases hk : k = j
      · subst hk; simp [h1]
      · rw [List.getElem?_set_ne (by omega), if_neg hk]
    · rw [← hnone, he, hl]; simp

/-- **C10.** In a tree: resizing, appending to or replacing an element of the array of
structures at `a` changes that array as described and nothing outside it. -/
theorem C10_in_tree (op : MFields → List (Fields V) → Except AosErr (List (Fields V)))
    (n n' : Node V) (a : Addr) (m : MFields) (e : Elems V) (ha : n.at a = some (.aos m e))
    (h : n.modify (Node.onElems op) a = some (.ok n')) :
    (∃ e', n'.at a = some (.aos m e') ∧ op m e.toList = .ok e'.toList) ∧
      ∀ b, Apart a b → n'.at b = n.at b := by
  obtain ⟨x, y, hx, hy, hat⟩ := modify_at (keeps_onElems op) h
  rw [ha] at hx; simp only [Option.some.injEq] at hx; subst hx
  refine ⟨?_, fun b hb => modify_frame (keeps_onElems op) h hb⟩
  simp only [Node.onElems] at hy
  cases ho : op m e.toList with
  | error => simp [ho, Except.map] at hy
  | ok l =>
    simp only [ho, Except.map, Except.ok.injEq] at hy; subst hy
    exact ⟨_, hat, by rw [Elems.toList_ofList]⟩

/-- One call of `resize(n, keep=True)` or `append(elements)`. -/
inductive AosCall (V : Type) where
  | resize (n : Nat)
  | append (elements : List (Fields V))

/-- The effect of a call. -/
def AosCall.run (m : MFields) (v : List (Fields V)) : AosCall V → Except AosErr (List (Fields V))
  | .resize n => aosResize false m v n true
  | .append es => aosAppend false v es

/-- **C10.** Any sequence of `resize(keep=True)` and `append` calls keeps every element whose
index stays below the length throughout. -/
theorem C10_history_keeps (m : MFields) (value : List (Fields V)) (calls : List (AosCall V))
    (i : Nat) (hi : i < value.length) (hlow : ∀ n, AosCall.resize n ∈ calls → i < n) :
    ∃ r, calls.foldlM (AosCall.run m) value = .ok r ∧ r[i]? = value[i]? := by
  induction calls generalizing value with
  | nil => exact ⟨value, rfl, rfl⟩
  | cons op ops ih =>
    have step : ∃ w, op.run m value = .ok w ∧ i < w.length ∧ w[i]? = value[i]? := by
      cases op with
      | resize n =>
        obtain ⟨r, h1, h2, h3, -⟩ := C10_resize_keep m value n
        have hn := hlow n (by simp)
        refine ⟨r, h1, by omega, ?_⟩
        have := congrArg (fun l => l[i]?) h3
        rwa [List.getElem?_take_of_lt (by omega), List.getElem?_take_of_lt (by omega)] at this
      | append es =>
        refine ⟨value ++ es, C10_append value es, by simp; omega, ?_⟩
        rw [List.getElem?_append_left hi]
    obtain ⟨w, hw, hlen, hget⟩ := step
    obtain ⟨r, hr, hg⟩ := ih w hlen (fun n hn => hlow n (by simp [hn]))
    refine ⟨r, ?_, hg.trans hget⟩
    simp only [List.foldlM_cons, bind, Except.bind, hw]
    exact hr

end C10

example : aosResize false (.cons "x".toList (.leaf ⟨.int, 0, false⟩) .nil)
    ([.present "x".toList (.leaf ⟨.int, 0, false⟩ (some (3 : Int))) .nil]) 2 true =
    .ok [.present "x".toList (.leaf ⟨.int, 0, false⟩ (some 3)) .nil,
      .absent "x".toList (.leaf ⟨.int, 0, false⟩) .nil] := rfl
example : ∃ n', (Node.struct (.present "w".toList (.aos .nil .nil) (.present "v".toList
      (.aos .nil .nil) .nil)) : Node Int).modify
    (Node.onElems fun m l => aosResize false m l 2 true) [("w".toList, none)] = some (.ok n') :=
  ⟨_, rfl⟩

end Verif.Props
