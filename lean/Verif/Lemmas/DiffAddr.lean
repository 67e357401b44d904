import Verif.Lemmas.Diff
import Verif.Spec.Diff
set_option linter.unusedSectionVars false
namespace Verif.Ids
open Verif.TreeSpec Verif.DiffSpec

variable {V : Type} [Value V]

theorem wf_fresh_meta (m : Meta) (h : WFMeta m) : WF (m.fresh : Node V) := by
  cases m with
  | leaf l => simp [Meta.fresh, WF]
  | struct c =>
    simp only [WFMeta] at h
    simp only [Meta.fresh, WF]
    induction c using MFields.rec (motive_1 := fun _ => True) with
    | leaf => trivial
    | struct => trivial
    | aos => trivial
    | nil => simp [MFields.fresh, WFFields]
    | cons n m r _ ih =>
      simp only [WFMFields] at h
      have hn : ∀ r : MFields, (r.fresh : Fields V).names = mnames r := by
        intro r
        induction r using MFields.rec (motive_1 := fun _ => True) with
        | leaf => trivial
        | struct => trivial
        | aos => trivial
        | nil => simp [MFields.fresh, Fields.names, mnames]
        | cons n m r _ ih => simp [MFields.fresh, Fields.names, mnames, ih]
      simp [MFields.fresh, WFFields, hn, h.1, h.2.1, ih h.2.2]
  | aos c => simp only [WFMeta] at h; simp [Meta.fresh, WF, WFElems, h]

theorem wf_get {c : Fields V} (hw : WFFields c) {k : Name} {x : Node V} (h : c.get? k = some x) :
    WF x := by
  cases c with
  | nil => simp [Fields.get?] at h
  | absent n m r =>
    simp only [WFFields] at hw
    simp only [Fields.get?] at h
    split at h
    · simp at h; subst h; exact wf_fresh_meta m hw.2.1
    · exact wf_get hw.2.2 h
  | present n y r =>
    simp only [WFFields] at hw
    simp only [Fields.get?] at h
    split at h
    · simp at h; subst h; exact hw.2.1
    · exact wf_get hw.2.2 h

theorem wf_elem {e : Elems V} (hw : WFElems e) {i : Nat} {f : Fields V} (h : e.get? i = some f) :
    WFFields f := by
  cases e with
  | nil => simp [Elems.get?] at h
  | cons c r =>
    simp only [WFElems] at hw
    cases i with
    | zero => simp [Elems.get?] at h; subst h; exact hw.1
    | succ i => exact wf_elem hw.2 h

theorem wf_item {n x : Node V} {s : Name × Option Nat} (hw : WF n) (h : n.item s = some x) : WF x := by
  obtain ⟨c, rfl, h | ⟨i, m, e, f, hi, hc, hf, rfl⟩⟩ := item_cases h
  · exact wf_get (by simpa [WF] using hw) h.2
  · have := wf_get (by simpa [WF] using hw) hc
    simp only [WF] at this ⊢
    exact wf_elem this.2 hf

theorem valueAt_hasValue {n : Node V} {a : Addr} {v : V} (h : ValueAt n a v) : n.hasValue = true := by
  obtain ⟨l, h1, h2⟩ := h
  exact hasValue_of_filled n a _ h1 (by simpa [Filled] using h2)

theorem sizeAt_hasValue {n : Node V} {a : Addr} {k : Nat} (h : SizeAt n a k) : n.hasValue = true := by
  obtain ⟨m, e, h1, h2, h3⟩ := h
  exact hasValue_of_filled n a _ h1 (by simpa [Filled, h2] using h3)

theorem at_append (n : Node V) (a b : Addr) : n.at (a ++ b) = (n.at a).bind (·.at b) := by
  induction a generalizing n with
  | nil => simp [Node.at]
  | cons s a ih =>
    simp only [List.cons_append, Node.at]
    cases n.item s <;> simp [ih]

theorem valueAt_cons {n : Node V} {s : Name × Option Nat} {a : Addr} {v : V} :
    ValueAt n (s :: a) v ↔ ∃ x, n.item s = some x ∧ ValueAt x a v := by
  simp only [ValueAt, Node.at]
  cases h : n.item s <;> simp

theorem sizeAt_cons {n : Node V} {s : Name × Option Nat} {a : Addr} {k : Nat} :
    SizeAt n (s :: a) k ↔ ∃ x, n.item s = some x ∧ SizeAt x a k := by
  simp only [SizeAt, Node.at]
  cases h : n.item s <;> simp

theorem blank_iff {x : Node V} (hw : WF x) :
    Blank x ↔ (∃ c, x = .struct c) ∧ ∀ a v, ¬ ValueAt x a v := by
  cases x with
  | leaf l v => simp [Blank]
  | aos m e => simp [Blank]
  | struct c =>
    simp only [WF] at hw
    simp only [Blank, List.eq_nil_iff_forall_not_mem, mem_iterF' true false c hw]
    constructor
    · intro h
      refine ⟨⟨c, rfl⟩, ?_⟩
      rintro a v ⟨l, h1, h2⟩
      refine h a ⟨?_, _, h1, by simp [IsLeaf], .inr (.inr (by simpa [Node.hasValue, leafHasValue] using h2))⟩
      rintro rfl; simp [Node.at] at h1
    · rintro ⟨-, h⟩ a ⟨ha, y, h1, h2, h3⟩
      cases y with
      | leaf l v =>
        rcases h3 with h3 | h3 | h3
        · simp at h3
        · obtain ⟨p, n, i, rfl⟩ := h3
          rw [at_append] at h1
          cases hp : (Node.struct c).at p with
          | none => simp [hp] at h1
          | some z =>
            simp only [hp, Option.bind_some, Node.at] at h1
            cases hz : z.item (n, some i) with
            | none => simp [hz] at h1
            | some w =>
              simp [hz] at h1
              obtain ⟨c', rfl, g | ⟨i, m, e, f, hi, hc, hf, rfl⟩⟩ := item_cases hz
              · simp at g
              · simp at h1
        · cases v with
          | none => simp [Node.hasValue, leafHasValue] at h3
          | some v => exact h a v ⟨l, h1, by simpa [Node.hasValue, leafHasValue] using h3⟩
      | struct d => simp [IsLeaf] at h2
      | aos m e => simp [IsLeaf] at h2

/-! ### `NoDiff` by lookups -/
variable (eqv : V → V → Bool)

/-- `NoDiff` of two structures, by name. -/
def NoDiffC (c d : Fields V) : Prop :=
  (∀ k x, filled c k = some x → match filled d k with
    | none => Blank x
    | some y => NoDiff eqv x y) ∧
  ∀ k y, filled d k = some y → filled c k = none → Blank y

theorem allC_iff {c : Fields V} (hw : WFFields c) (g : Name → Option (Node V)) :
    AllC eqv c g ↔ ∀ k x, filled c k = some x → match g k with
      | none => Blank x
      | some y => NoDiff eqv x y := by
  cases c with
  | nil => simp [AllC, filled, Fields.get?]
  | absent n m r =>
    simp only [WFFields] at hw
    simp only [AllC, allC_iff hw.2.2 g]
    have : ∀ k, filled (Fields.absent n m r) k = filled r k := by
      intro k
      by_cases e : k = n
      · subst e
        rw [filled_not_name hw.1, filled_none]
        intro x hx; simp [Fields.get?] at hx; subst hx; exact fresh_hasValue m
      · simp [filled, Fields.get?, e]
    simp only [this]
  | present n y r =>
    simp only [WFFields] at hw
    simp only [AllC, allC_iff hw.2.2 g]
    have hr : filled r n = none := filled_not_name hw.1
    have hne : ∀ k, k ≠ n → filled (Fields.present n y r) k = filled r k := by
      intro k e; simp [filled, Fields.get?, e]
    constructor
    · rintro ⟨h1, h2⟩ k x hx
      by_cases e : k = n
      · subst e
        rw [filled_iff] at hx
        have : y = x := by simpa [Fields.get?] using hx.1
        subst this
        exact h1 hx.2
      · rw [hne k e] at hx; exact h2 k x hx
    · intro h
      refine ⟨fun hv => h n y (filled_iff.2 ⟨by simp [Fields.get?], hv⟩), ?_⟩
      intro k x hx
      by_cases e : k = n
      · subst e; rw [hr] at hx; simp at hx
      · exact h k x (by rw [hne k e]; exact hx)

theorem noDiff_struct {c d : Fields V} (hw : WFFields c) :
    NoDiff eqv (.struct c) (.struct d) ↔ NoDiffC eqv c d := by
  simp only [NoDiff, NoDiffC, allC_iff eqv hw]

theorem noDiffE_iff {e f : Elems V} (hw : WFElems e) (hl : e.length = f.length) :
    NoDiffE eqv e f ↔ ∀ i c d, e.get? i = some c → f.get? i = some d →
      NoDiff eqv (.struct c) (.struct d) := by
  cases e with
  | nil => simp [NoDiffE, Elems.get?]
  | cons c r =>
    cases f with
    | nil => simp [Elems.length] at hl
    | cons d s =>
      simp only [WFElems] at hw
      simp only [Elems.length, Nat.add_right_cancel_iff] at hl
      simp only [NoDiffE, noDiffE_iff hw.2 hl]
      constructor
      · rintro ⟨h1, h2⟩ i c' d' hc hd
        cases i with
        | zero => simp [Elems.get?] at hc hd; subst hc hd; simpa only [NoDiff] using h1
        | succ i => exact h2 i c' d' hc hd
      · intro h
        refine ⟨?_, fun i c' d' hc hd => h (i + 1) c' d' hc hd⟩
        simpa only [NoDiff] using h 0 c d rfl rfl

theorem elems_get_of_length {e f : Elems V} (hl : e.length = f.length) {i : Nat} {c : Fields V}
    (h : e.get? i = some c) : ∃ d, f.get? i = some d := by
  cases e with
  | nil => simp [Elems.get?] at h
  | cons c' r =>
    cases f with
    | nil => simp [Elems.length] at hl
    | cons d s =>
      simp only [Elems.length, Nat.add_right_cancel_iff] at hl
      cases i with
      | zero => exact ⟨d, rfl⟩
      | succ i => exact elems_get_of_length (e := r) (f := s) hl h

theorem elems_length_pos {e : Elems V} {i : Nat} {c : Fields V} (h : e.get? i = some c) :
    (Node.aos m e).hasValue = true := by
  cases e with
  | nil => simp [Elems.get?] at h
  | cons c r => simp [Node.hasValue, Elems.length]

/-- What `NoDiff` says about one item. -/
theorem noDiff_item {x y x' : Node V} {s : Name × Option Nat} (hx : WF x) (h : NoDiff eqv x y)
    (hi : x.item s = some x') (hv : x'.hasValue = true ∨ s.2 ≠ none) :
    (∃ y', y.item s = some y' ∧ NoDiff eqv x' y' ∧ (y'.hasValue = true ∨ ∃ d, y' = .struct d)) ∨
      (Blank x' ∧ s.2 = none) := by
  obtain ⟨c, rfl, ⟨h1, h2⟩ | ⟨i, m, e, f, h1, hc, hf, rfl⟩⟩ := item_cases hi
  · cases y with
    | leaf l v => simp [NoDiff] at h
    | aos m e => simp [NoDiff] at h
    | struct d =>
      simp only [WF] at hx
      rw [noDiff_struct eqv hx] at h
      have hfx : filled c s.1 = some x' := filled_iff.2 ⟨h2, hv.resolve_right (by simp [h1])⟩
      have := h.1 _ _ hfx
      cases hd : filled d s.1 with
      | none => rw [hd] at this; exact .inr ⟨this, h1⟩
      | some y' =>
        rw [hd] at this
        refine .inl ⟨y', ?_, this, .inl (filled_iff.1 hd).2⟩
        obtain ⟨k, j⟩ := s
        simp only at h1; subst h1
        simp [Node.item, (filled_iff.1 hd).1]
  · cases y with
    | leaf l v => simp [NoDiff] at h
    | aos m e => simp [NoDiff] at h
    | struct d =>
      simp only [WF] at hx
      rw [noDiff_struct eqv hx] at h
      have hfx : filled c s.1 = some (.aos m e) := filled_iff.2 ⟨hc, elems_length_pos hf⟩
      have hwe : WFElems e := by have := wf_get hx hc; simp only [WF] at this; exact this.2
      have := h.1 _ _ hfx
      cases hd : filled d s.1 with
      | none => rw [hd] at this; simp [Blank] at this
      | some y' =>
        rw [hd] at this
        cases y' with
        | leaf l v => simp [NoDiff] at this
        | struct c' => simp [NoDiff] at this
        | aos m' e' =>
          simp only [NoDiff] at this
          obtain ⟨f', hf'⟩ := elems_get_of_length this.1 hf
          refine .inl ⟨.struct f', ?_, (noDiffE_iff eqv hwe this.1).1 this.2 i f f' hf hf',
            .inr ⟨f', rfl⟩⟩
          obtain ⟨k, j⟩ := s
          simp only at h1; subst h1
          simp [Node.item, (filled_iff.1 hd).1, hf']

theorem noDiff_values {x y : Node V} {a : Addr} {v : V} (hx : WF x) (h : NoDiff eqv x y)
    (hy : y.hasValue = true ∨ a ≠ []) (hv : ValueAt x a v) : ∃ w, ValueAt y a w ∧ eqv v w = true := by
  induction a generalizing x y with
  | nil =>
    obtain ⟨l, h1, h2⟩ := hv
    simp only [Node.at, Option.some.injEq] at h1
    subst h1
    have hy := hy.resolve_right (by simp)
    cases y with
    | leaf l' w =>
      cases w with
      | none => simp [Node.hasValue, leafHasValue] at hy
      | some w =>
        exact ⟨w, ⟨l', rfl, by simpa [Node.hasValue, leafHasValue] using hy⟩, h v w rfl rfl⟩
    | struct d => simp [NoDiff] at h
    | aos m e => simp [NoDiff] at h
  | cons s a ih =>
    obtain ⟨x', hi, hv'⟩ := valueAt_cons.1 hv
    rcases noDiff_item eqv hx h hi (.inl (valueAt_hasValue hv')) with ⟨y', hy', hn, hor⟩ | ⟨hb, -⟩
    · have : y'.hasValue = true ∨ a ≠ [] := by
        rcases hor with hor | ⟨d, rfl⟩
        · exact .inl hor
        · right
          rintro rfl
          obtain ⟨l, h1, -⟩ := hv'
          simp only [Node.at, Option.some.injEq] at h1
          subst h1; simp [NoDiff] at hn
      obtain ⟨w, hw, he⟩ := ih (wf_item hx hi) hn this hv'
      exact ⟨w, valueAt_cons.2 ⟨y', hy', hw⟩, he⟩
    · exact absurd hv' ((blank_iff (wf_item hx hi)).1 hb |>.2 a v)

theorem noHollow_item {n x : Node V} {s : Name × Option Nat} (h : NoHollow n)
    (hi : n.item s = some x) : NoHollow x := by
  intro a c ha hc
  exact h (s :: a) c (by simp [Node.at, hi, ha]) hc

theorem noDiff_sizes {x y : Node V} {a : Addr} {k : Nat} (hx : WF x) (hh : NoHollow x)
    (h : NoDiff eqv x y) (hv : SizeAt x a k) : SizeAt y a k := by
  induction a generalizing x y with
  | nil =>
    obtain ⟨m, e, h1, h2, h3⟩ := hv
    simp only [Node.at, Option.some.injEq] at h1
    subst h1
    cases y with
    | leaf l' w => simp [NoDiff] at h
    | struct d => simp [NoDiff] at h
    | aos m' f => simp only [NoDiff] at h; exact ⟨m', f, rfl, by rw [← h.1, h2], h3⟩
  | cons s a ih =>
    obtain ⟨x', hi, hv'⟩ := sizeAt_cons.1 hv
    rcases noDiff_item eqv hx h hi (.inl (sizeAt_hasValue hv')) with ⟨y', hy', hn, -⟩ | ⟨hb, -⟩
    · exact sizeAt_cons.2 ⟨y', hy', ih (wf_item hx hi) (noHollow_item hh hi) hn hv'⟩
    · obtain ⟨⟨c, rfl⟩, h2⟩ := (blank_iff (wf_item hx hi)).1 hb
      obtain ⟨b, v, hb⟩ := noHollow_item hh hi [] c rfl (by simpa [Node.hasValue] using sizeAt_hasValue hv')
      exact absurd hb (h2 b v)

theorem noDiff_symm (hs : ∀ v w, eqv v w = eqv w v) (x : Node V) :
    ∀ y, WF x → WF y → NoDiff eqv x y → NoDiff eqv y x := by
  refine node_induct (fun x => ∀ y, WF x → WF y → NoDiff eqv x y → NoDiff eqv y x) ?_ ?_ ?_ x
  · intro l v y _ _ h
    cases y with
    | leaf l' w =>
      simp only [NoDiff] at h ⊢
      intro a b ha hb
      rw [hs]; exact h b a hb ha
    | struct d => simp [NoDiff] at h
    | aos m e => simp [NoDiff] at h
  · intro c ih y hx hy h
    cases y with
    | leaf l' w => simp [NoDiff] at h
    | aos m e => simp [NoDiff] at h
    | struct d =>
      simp only [WF] at hx hy
      rw [noDiff_struct eqv hx] at h
      rw [noDiff_struct eqv hy]
      refine ⟨?_, ?_⟩
      · intro k y hk
        cases hc : filled c k with
        | none => exact h.2 k y hk hc
        | some x =>
          have := h.1 k x hc
          rw [hk] at this
          exact ih k x hc y (wf_get hx (filled_iff.1 hc).1) (wf_get hy (filled_iff.1 hk).1) this
      · intro k x hk hd
        have := h.1 k x hk
        rw [hd] at this; exact this
  · intro m e ih y hx hy h
    cases y with
    | leaf l' w => simp [NoDiff] at h
    | struct d => simp [NoDiff] at h
    | aos m' f =>
      simp only [WF] at hx hy
      simp only [NoDiff] at h ⊢
      refine ⟨h.1.symm, (noDiffE_iff eqv hy.2 h.1.symm).2 ?_⟩
      intro i c d hc hd
      refine ih i d hd _ ?_ ?_ ((noDiffE_iff eqv hx.2 h.1).1 h.2 i d c hd hc)
      · simpa only [WF] using wf_elem hx.2 hd
      · simpa only [WF] using wf_elem hy.2 hc

theorem noDiff_refl (hr : ∀ v, eqv v v = true) (x : Node V) : WF x → NoDiff eqv x x := by
  refine node_induct (fun x => WF x → NoDiff eqv x x) ?_ ?_ ?_ x
  · intro l v _
    simp only [NoDiff]; rintro a b rfl h
    simp at h; subst h; exact hr a
  · intro c ih hx
    simp only [WF] at hx
    rw [noDiff_struct eqv hx]
    refine ⟨?_, ?_⟩
    · intro k x hk; rw [hk]; exact ih k x hk (wf_get hx (filled_iff.1 hk).1)
    · intro k y h1 h2; rw [h1] at h2; simp at h2
  · intro m e ih hx
    simp only [WF] at hx
    simp only [NoDiff]
    refine ⟨by trivial, (noDiffE_iff eqv hx.2 rfl).2 ?_⟩
    intro i c d hc hd
    rw [hc] at hd; simp at hd; subst hd
    exact ih i c hc (by simpa only [WF] using wf_elem hx.2 hc)

/-! ### Typed trees -/

def mget (k : Name) : MFields → Option Meta
  | .nil => none
  | .cons n m r => if k = n then some m else mget k r

theorem typed_freshF (m : MFields) : TypedF (m.fresh : Fields V) m := by
  induction m using MFields.rec (motive_1 := fun _ => True) with
  | leaf => trivial
  | struct => trivial
  | aos => trivial
  | nil => simp [MFields.fresh, TypedF]
  | cons n m r _ ih => simp [MFields.fresh, TypedF, ih]

theorem typed_fresh (m : Meta) : Typed (m.fresh : Node V) m := by
  cases m <;> simp [Meta.fresh, Typed, TypedE, typed_freshF]

theorem typed_get {c : Fields V} {m : MFields} (h : TypedF c m) (k : Name) :
    match mget k m with
    | none => c.get? k = none
    | some m' => ∃ x, c.get? k = some x ∧ Typed x m' := by
  cases c with
  | nil =>
    cases m with
    | nil => simp [mget, Fields.get?]
    | cons => simp [TypedF] at h
  | absent n m1 r =>
    cases m with
    | nil => simp [TypedF] at h
    | cons n' m' r' =>
      simp only [TypedF] at h
      obtain ⟨rfl, rfl, h⟩ := h
      simp only [mget, Fields.get?]
      by_cases e : k = n
      · simp [e, typed_fresh]
      · simp only [e, if_false]; exact typed_get h k
  | present n x r =>
    cases m with
    | nil => simp [TypedF] at h
    | cons n' m' r' =>
      simp only [TypedF] at h
      obtain ⟨rfl, hx, h⟩ := h
      simp only [mget, Fields.get?]
      by_cases e : k = n
      · simp [e, hx]
      · simp only [e, if_false]; exact typed_get h k

theorem typed_elem {e : Elems V} {m : MFields} (h : TypedE e m) {i : Nat} {f : Fields V}
    (hf : e.get? i = some f) : TypedF f m := by
  cases e with
  | nil => simp [Elems.get?] at hf
  | cons c r =>
    simp only [TypedE] at h
    cases i with
    | zero => simp [Elems.get?] at hf; subst hf; exact h.1
    | succ i => exact typed_elem h.2 hf

/-- Two structures of the same type have children of the same type. -/
theorem typed_both {c d : Fields V} {m : MFields} (hc : TypedF c m) (hd : TypedF d m) {k : Name}
    {x : Node V} (h : c.get? k = some x) :
    ∃ y m', d.get? k = some y ∧ Typed x m' ∧ Typed y m' := by
  have h1 := typed_get hc k
  have h2 := typed_get hd k
  cases hm : mget k m with
  | none => rw [hm] at h1; simp only at h1; rw [h1] at h; simp at h
  | some m' =>
    rw [hm] at h1 h2
    obtain ⟨x', hx', t1⟩ := h1
    obtain ⟨y', hy', t2⟩ := h2
    rw [h] at hx'; simp at hx'; subst hx'
    exact ⟨y', m', hy', t1, t2⟩

theorem agree_item {x y x' y' : Node V} {s : Name × Option Nat} (hx : x.item s = some x')
    (hy : y.item s = some y') (h : SameValues eqv x y ∧ SameSizes x y) :
    SameValues eqv x' y' ∧ SameSizes x' y' := by
  obtain ⟨⟨h1, h2⟩, h3⟩ := h
  refine ⟨⟨?_, ?_⟩, ?_⟩
  · intro a v hv
    obtain ⟨w, hw, he⟩ := h1 (s :: a) v (valueAt_cons.2 ⟨x', hx, hv⟩)
    obtain ⟨y'', h4, h5⟩ := valueAt_cons.1 hw
    rw [hy] at h4; simp at h4; subst h4
    exact ⟨w, h5, he⟩
  · intro a v hv
    obtain ⟨w, hw, he⟩ := h2 (s :: a) v (valueAt_cons.2 ⟨y', hy, hv⟩)
    obtain ⟨y'', h4, h5⟩ := valueAt_cons.1 hw
    rw [hx] at h4; simp at h4; subst h4
    exact ⟨w, h5, he⟩
  · intro a k
    have := h3 (s :: a) k
    simpa [sizeAt_cons, hx, hy] using this

/-- Agreement including the elements below an array of structures. -/
def AgreeAll (x y : Node V) : Prop :=
  (SameValues eqv x y ∧ SameSizes x y) ∧ ∀ m e m' f i c d, x = .aos m e → y = .aos m' f →
    e.get? i = some c → f.get? i = some d →
    SameValues eqv (.struct c) (.struct d) ∧ SameSizes (.struct c) (.struct d)

theorem agree_get {c d : Fields V} {k : Name} {x y : Node V} (hx : c.get? k = some x)
    (hy : d.get? k = some y)
    (h : SameValues eqv (.struct c) (.struct d) ∧ SameSizes (.struct c) (.struct d)) :
    AgreeAll eqv x y := by
  refine ⟨agree_item eqv (s := (k, none)) (by simp [Node.item, hx]) (by simp [Node.item, hy]) h, ?_⟩
  rintro m e m' f i c' d' rfl rfl hc hd
  exact agree_item eqv (s := (k, some i)) (by simp [Node.item, hx, hc]) (by simp [Node.item, hy, hd]) h

theorem noDiff_of_agree (x : Node V) : ∀ y m, Typed x m → Typed y m → WF x → WF y →
    (x.hasValue = true ∨ ∃ c, x = .struct c) →
    AgreeAll eqv x y → NoDiff eqv x y := by
  refine node_induct (fun x => ∀ y m, Typed x m → Typed y m → WF x → WF y →
    (x.hasValue = true ∨ ∃ c, x = .struct c) →
    AgreeAll eqv x y → NoDiff eqv x y) ?_ ?_ ?_ x
  · intro l v y m hx hy _ _ hv ha
    cases m with
    | struct => simp [Typed] at hx
    | aos => simp [Typed] at hx
    | leaf l0 =>
      cases y with
      | struct => simp [Typed] at hy
      | aos => simp [Typed] at hy
      | leaf l' w =>
        simp only [NoDiff]
        rintro a b rfl rfl
        have hv : Value.isEmpty a = false := by
          rcases hv with hv | ⟨c, hv⟩
          · simpa [Node.hasValue, leafHasValue] using hv
          · simp at hv
        obtain ⟨w, ⟨l2, h1, h2⟩, he⟩ := ha.1.1.1 [] a ⟨l, rfl, hv⟩
        simp [Node.at] at h1
        rw [h1.2]; exact he
  · intro c ih y m hx hy wx wy hv ha
    cases m with
    | leaf => simp [Typed] at hx
    | aos => simp [Typed] at hx
    | struct m =>
      cases y with
      | leaf => simp [Typed] at hy
      | aos => simp [Typed] at hy
      | struct d =>
        simp only [Typed] at hx hy
        simp only [WF] at wx wy
        rw [noDiff_struct eqv wx]
        refine ⟨?_, ?_⟩
        · intro k x hk
          have hk' := filled_iff.1 hk
          obtain ⟨y', m', hy', t1, t2⟩ := typed_both hx hy hk'.1
          have ha' := agree_get eqv hk'.1 hy' ha.1
          cases hd : filled d k with
          | some y =>
            have := (filled_iff.1 hd).1
            rw [hy'] at this; simp at this; subst this
            exact ih k x hk y' m' t1 t2 (wf_get wx hk'.1) (wf_get wy hy') (.inl hk'.2) ha'
          | none =>
            have hno := filled_none.1 hd y' hy'
            rw [blank_iff (wf_get wx hk'.1)]
            have hnv : ∀ a v, ¬ ValueAt x a v := by
              intro a v hav
              obtain ⟨w, hw, -⟩ := ha'.1.1.1 a v hav
              have := valueAt_hasValue hw
              rw [hno] at this; simp at this
            refine ⟨?_, hnv⟩
            cases x with
            | struct c => exact ⟨c, rfl⟩
            | leaf l v =>
              exfalso
              cases v with
              | none => simp [Node.hasValue, leafHasValue] at hk'
              | some v => exact hnv [] v ⟨l, rfl, by simpa [Node.hasValue, leafHasValue] using hk'.2⟩
            | aos m e =>
              exfalso
              have := (ha'.1.2 [] e.length).1 ⟨m, e, rfl, rfl, by have := hk'.2; simp [Node.hasValue] at this; omega⟩
              have := sizeAt_hasValue this
              rw [hno] at this; simp at this
        · intro k y hk hc
          have hk' := filled_iff.1 hk
          obtain ⟨x', m', hx', t1, t2⟩ := typed_both hy hx hk'.1
          have ha' := agree_get eqv hx' hk'.1 ha.1
          have hno := filled_none.1 hc x' hx'
          rw [blank_iff (wf_get wy hk'.1)]
          have hnv : ∀ a v, ¬ ValueAt y a v := by
            intro a v hav
            obtain ⟨w, hw, -⟩ := ha'.1.1.2 a v hav
            have := valueAt_hasValue hw
            rw [hno] at this; simp at this
          refine ⟨?_, hnv⟩
          cases y with
          | struct c => exact ⟨c, rfl⟩
          | leaf l v =>
            exfalso
            cases v with
            | none => simp [Node.hasValue, leafHasValue] at hk'
            | some v => exact hnv [] v ⟨l, rfl, by simpa [Node.hasValue, leafHasValue] using hk'.2⟩
          | aos m e =>
            exfalso
            have := (ha'.1.2 [] e.length).2 ⟨m, e, rfl, rfl, by have := hk'.2; simp [Node.hasValue] at this; omega⟩
            have := sizeAt_hasValue this
            rw [hno] at this; simp at this
  · intro m e ih y mm hx hy wx wy hv ha
    cases mm with
    | leaf => simp [Typed] at hx
    | struct => simp [Typed] at hx
    | aos mm =>
      cases y with
      | leaf => simp [Typed] at hy
      | struct => simp [Typed] at hy
      | aos m' f =>
        simp only [Typed] at hx hy
        simp only [WF] at wx wy
        have hpos : e.length ≠ 0 := by
          rcases hv with hv | ⟨c, hv⟩
          · simp [Node.hasValue] at hv; omega
          · simp at hv
        obtain ⟨m2, f2, h1, h2, -⟩ := (ha.1.2 [] e.length).1 ⟨m, e, rfl, rfl, hpos⟩
        simp [Node.at] at h1
        obtain ⟨rfl, rfl⟩ := h1
        simp only [NoDiff]
        refine ⟨h2.symm, (noDiffE_iff eqv wx.2 h2.symm).2 ?_⟩
        intro i c d hc hd
        refine ih i c hc (.struct d) (.struct mm) ?_ ?_ ?_ ?_ (.inr ⟨c, rfl⟩) ⟨ha.2 m e m' f i c d rfl rfl hc hd, ?_⟩
        · simpa only [Typed] using typed_elem hx.2 hc
        · simpa only [Typed] using typed_elem hy.2 hd
        · simpa only [WF] using wf_elem wx.2 hc
        · simpa only [WF] using wf_elem wy.2 hd
        · intro _ _ _ _ _ _ _ h; simp at h

/-! ### Content -/

theorem filled_content (c : Fields V) (k : Name) :
    filled (contentF c) k = (filled c k).map content := by
  simp only [filled, contentF_get?]
  cases h : c.get? k with
  | none => rfl
  | some x => simp only [Option.map_some, Option.filter, content_hasValue]; split <;> simp

theorem blank_content (x : Node V) : Blank (content x) ↔ Blank x := by
  cases x <;> simp [content, Blank, iter_contentF]

theorem noDiff_content (x : Node V) : (x.hasValue = true ∨ ∃ c, x = .struct c) → WF x →
    ∀ y, NoDiff eqv (content x) y ↔ NoDiff eqv x y := by
  refine node_induct (fun x => (x.hasValue = true ∨ ∃ c, x = .struct c) → WF x →
    ∀ y, NoDiff eqv (content x) y ↔ NoDiff eqv x y) ?_ ?_ ?_ x
  · intro l v hv _ y
    have : v.filter (fun x => !Value.isEmpty x) = v := by
      rcases hv with hv | ⟨c, hv⟩
      · cases v with
        | none => rfl
        | some v => simpa [Node.hasValue, leafHasValue, Option.filter] using hv
      · simp at hv
    simp only [content, this]
  · intro c ih _ hw y
    cases y with
    | leaf l w => simp [content, NoDiff]
    | aos m e => simp [content, NoDiff]
    | struct d =>
      have hw' := wf_content _ hw
      simp only [content] at hw' ⊢
      simp only [WF] at hw hw'
      rw [noDiff_struct eqv hw, noDiff_struct eqv hw']
      simp only [NoDiffC, filled_content, Option.map_eq_none_iff, Option.map_eq_some_iff]
      refine and_congr_left fun _ => ?_
      constructor
      · intro h k x hk
        have := h k (content x) ⟨x, hk, rfl⟩
        cases hd : filled d k with
        | none => rw [hd] at this; exact (blank_content x).1 this
        | some y =>
          rw [hd] at this
          exact (ih k x hk (.inl (filled_iff.1 hk).2) (wf_get hw (filled_iff.1 hk).1) y).1 this
      · rintro h k _ ⟨x, hk, rfl⟩
        have := h k x hk
        cases hd : filled d k with
        | none => rw [hd] at this; exact (blank_content x).2 this
        | some y =>
          rw [hd] at this
          exact (ih k x hk (.inl (filled_iff.1 hk).2) (wf_get hw (filled_iff.1 hk).1) y).2 this
  · intro m e ih _ hw y
    cases y with
    | leaf l w => simp [content, NoDiff]
    | struct d => simp [content, NoDiff]
    | aos m' f =>
      have hw' := wf_content _ hw
      simp only [content] at hw' ⊢
      simp only [WF] at hw hw'
      simp only [NoDiff, contentE_length]
      refine and_congr_right fun hl => ?_
      rw [noDiffE_iff eqv hw.2 hl, noDiffE_iff eqv hw'.2 (by rw [contentE_length]; exact hl)]
      simp only [contentE_get?, Option.map_eq_some_iff]
      constructor
      · intro h i c d hc hd
        have := h i _ d ⟨c, hc, rfl⟩ hd
        exact (ih i c hc (.inr ⟨c, rfl⟩) (by simpa only [WF] using wf_elem hw.2 hc) _).1
          (by simpa only [content] using this)
      · rintro h i _ d ⟨c, hc, rfl⟩ hd
        have := (ih i c hc (.inr ⟨c, rfl⟩) (by simpa only [WF] using wf_elem hw.2 hc) _).2 (h i c d hc hd)
        simpa only [content] using this

mutual
theorem wfMeta_of_contentM (m : Meta) (h : WF (contentM m : Node V)) : WFMeta m := by
  cases m with
  | leaf l => simp [WFMeta]
  | struct c => simp only [contentM, WF] at h; simp only [WFMeta]; exact wfMFields_of_contentMF c h
  | aos c => simp only [contentM, WF] at h; simp only [WFMeta]; exact h.1
theorem wfMFields_of_contentMF (c : MFields) (h : WFFields (contentMF c : Fields V)) :
    WFMFields c := by
  cases c with
  | nil => simp [WFMFields]
  | cons n m r =>
    simp only [contentMF, WFFields, names_contentMF] at h
    simp only [WFMFields]
    exact ⟨h.1, wfMeta_of_contentM m h.2.1, wfMFields_of_contentMF r h.2.2⟩
end

mutual
theorem wf_of_content (n : Node V) (h : WF (content n)) : WF n := by
  cases n with
  | leaf l v => simp [WF]
  | struct c => simp only [content, WF] at h ⊢; exact wf_of_contentF c h
  | aos m e => simp only [content, WF] at h ⊢; exact ⟨h.1, wf_of_contentE e h.2⟩
theorem wf_of_contentF (c : Fields V) (h : WFFields (contentF c)) : WFFields c := by
  cases c with
  | nil => simp [WFFields]
  | absent n m r =>
    simp only [contentF, WFFields, contentF_names] at h ⊢
    exact ⟨h.1, wfMeta_of_contentM (V := V) m h.2.1, wf_of_contentF r h.2.2⟩
  | present n x r =>
    simp only [contentF, WFFields, contentF_names] at h ⊢
    exact ⟨h.1, wf_of_content x h.2.1, wf_of_contentF r h.2.2⟩
theorem wf_of_contentE (e : Elems V) (h : WFElems (contentE e)) : WFElems e := by
  cases e with
  | nil => simp [WFElems]
  | cons c r =>
    simp only [contentE, WFElems] at h ⊢
    exact ⟨wf_of_contentF c h.1, wf_of_contentE r h.2⟩
end

end Verif.Ids
