import Verif.Lemmas.NcLook
/-
The nodes that are stored in a netCDF group: those with a value.
-/
namespace Verif.Nc
open Verif.Ids Verif.TreeSpec Verif.NcSpec
open Verif.ConvertSpec (mchild child metaAt)
open Verif.AlSpec (arraysOf)

set_option linter.unusedSectionVars false

section
variable {V : Type} [Value V]

mutual
theorem fresh_noValue : ∀ m : Meta, (m.fresh : Node V).hasValue = false
  | .leaf l => rfl
  | .struct c => by simp [Meta.fresh, Node.hasValue, freshF_noValue c]
  | .aos c => by simp [Meta.fresh, Node.hasValue, Elems.length]
theorem freshF_noValue : ∀ m : MFields, (m.fresh : Fields V).hasValue = false
  | .nil => rfl
  | .cons n m r => by simp [MFields.fresh, Fields.hasValue, freshF_noValue r]
end

theorem get_hasValue {k : Name} {x : Node V} : ∀ {c : Fields V}, c.get? k = some x → x.hasValue = true → c.hasValue = true
  | .nil, h, _ => by simp [Fields.get?] at h
  | .absent n m r, h, hx => by
    simp only [Fields.get?] at h
    simp only [Fields.hasValue]
    split at h
    · cases h; rw [fresh_noValue] at hx; cases hx
    · exact get_hasValue h hx
  | .present n y r, h, hx => by
    simp only [Fields.get?] at h
    simp only [Fields.hasValue, Bool.or_eq_true]
    split at h
    · cases h; exact .inl hx
    · exact .inr (get_hasValue h hx)

/-- What contains a node with a value has a value. -/
theorem look_hasValue : ∀ (q : Path) {c : Fields V} {i : List Nat} {y : Node V}, look c q i = some y → y.hasValue = true →
    c.hasValue = true
  | [], _, _, _, h, _ => by simp [look] at h
  | [k], c, i, y, h, hy => by
    rw [look_one] at h
    split at h
    · exact get_hasValue h hy
    · cases h
  | k :: k' :: q, c, i, y, h, hy => by
    rcases (look_ind (by simp)).1 h with ⟨d, h1, h2⟩ | ⟨m, e, j, i', d, h1, rfl, h2, h3⟩
    · exact get_hasValue h1 (by simp only [Node.hasValue]; exact look_hasValue _ h2 hy)
    · refine get_hasValue h1 ?_
      have : j < e.length := elems_get.1 (by rw [h2]; rfl)
      simp only [Node.hasValue, decide_eq_true_eq]
      omega

theorem below_hasValue {q : Path} {x : Node V} {i : List Nat} {y : Node V} (h : below (fun d i => look d q i) x i = some y)
    (hy : y.hasValue = true) : x.hasValue = true := by
  rcases below_some.1 h with ⟨d, rfl, h2⟩ | ⟨m, e, j, i', d, rfl, rfl, h2, h3⟩
  · simp only [Node.hasValue]; exact look_hasValue _ h2 hy
  · have : j < e.length := elems_get.1 (by rw [h2]; rfl)
    simp only [Node.hasValue, decide_eq_true_eq]
    omega

theorem get_names {k : Name} {x : Node V} : ∀ {c : Fields V}, c.get? k = some x → k ∈ c.names
  | .nil, h => by simp [Fields.get?] at h
  | .absent n m r, h => by
    simp only [Fields.get?] at h
    simp only [Fields.names, List.mem_cons]
    split at h
    · rename_i e; exact .inl (by simpa using e)
    · exact .inr (get_names h)
  | .present n y r, h => by
    simp only [Fields.get?] at h
    simp only [Fields.names, List.mem_cons]
    split at h
    · rename_i e; exact .inl (by simpa using e)
    · exact .inr (get_names h)

end

variable {S : Type}

/-- The content of a node that is stored. -/
def contentOf : Node (Arr S) → Option (Content S)
  | .leaf l v => v.map (.data l)
  | .struct _ => some .struct
  | .aos _ e => some (.aos e.length)

/-- The node with path `q` and index `i` is stored as this item. -/
def Stored (b : Path) (i0 : List Nat) (f : Path → List Nat → Option (Node (Arr S))) (it : Item S) : Prop :=
  ∃ q i y, q ≠ [] ∧ it.path = b ++ q ∧ it.index = i0 ++ i ∧ f q i = some y ∧ y.hasValue = true ∧ contentOf y = some it.content

theorem look_present_same {n : Name} {x : Node (Arr S)} {r : Fields (Arr S)} {q : Path} (hq : q ≠ []) {i : List Nat} :
    look (.present n x r) (n :: q) i = below (fun d i => look d q i) x i := by
  rw [look_cons _ _ _ hq]; simp [Fields.get?]

theorem look_skip {c r : Fields (Arr S)} {k : Name} (h : c.get? k = r.get? k) (q : Path) (i : List Nat) :
    look c (k :: q) i = look r (k :: q) i := by
  cases q with
  | nil => simp [look_one, h]
  | cons k' q => rw [look_cons _ _ _ (by simp), look_cons _ _ _ (by simp), h]

mutual
theorem items_node : ∀ (x : Node (Arr S)) (b : Path) (i0 : List Nat) (it : Item S), WF x → x.hasValue = true →
    (it ∈ filledNode b i0 x ↔ (it.path = b ∧ it.index = i0 ∧ contentOf x = some it.content) ∨
      Stored b i0 (fun q i => below (fun d i => look d q i) x i) it)
  | .leaf l none, b, i0, it, _, hv => by simp [Node.hasValue, leafHasValue] at hv
  | .leaf l (some v), b, i0, it, _, _ => by
    simp only [filledNode, List.mem_singleton]
    constructor
    · rintro rfl; exact .inl ⟨rfl, rfl, rfl⟩
    · rintro (⟨h1, h2, h3⟩ | ⟨q, i, y, _, _, _, h, _⟩)
      · obtain ⟨p, i, c⟩ := it
        simp only at h1 h2 h3
        simp only [contentOf, Option.map_some, Option.some.injEq] at h3
        subst h1 h2 h3
        rfl
      · cases i <;> simp [below] at h
  | .struct c, b, i0, it, hw, _ => by
    simp only [WF] at hw
    simp only [filledNode, List.mem_cons, items_fields c b i0 it hw]
    constructor
    · rintro (rfl | h)
      · exact .inl ⟨rfl, rfl, rfl⟩
      · exact .inr (by simpa only [Stored, below] using h)
    · rintro (⟨h1, h2, h3⟩ | h)
      · obtain ⟨p, i, c⟩ := it
        simp only at h1 h2 h3
        simp only [contentOf, Option.some.injEq] at h3
        subst h1 h2 h3
        exact .inl rfl
      · exact .inr (by simpa only [Stored, below] using h)
  | .aos m e, b, i0, it, hw, _ => by
    simp only [WF] at hw
    simp only [filledNode, List.mem_cons, items_elems e b i0 0 it hw.2]
    constructor
    · rintro (rfl | ⟨j, d, hj, q, i, y, h1, h2, h3, h4, h5, h6⟩)
      · exact .inl ⟨rfl, rfl, rfl⟩
      · refine .inr ⟨q, j :: i, y, h1, h2, by simpa using h3, ?_, h5, h6⟩
        simp only [below, hj, Option.bind_some, h4]
    · rintro (⟨h1, h2, h3⟩ | ⟨q, i, y, h1, h2, h3, h4, h5, h6⟩)
      · obtain ⟨p, i, c⟩ := it
        simp only at h1 h2 h3
        simp only [contentOf, Option.some.injEq] at h3
        subst h1 h2 h3
        exact .inl rfl
      · rcases below_some.1 h4 with ⟨d, h7, _⟩ | ⟨m', e', j, i', d, h7, rfl, h8, h9⟩
        · cases h7
        · cases h7
          exact .inr ⟨j, d, h8, q, i', y, h1, h2, by simpa using h3, h9, h5, h6⟩
theorem items_fields : ∀ (c : Fields (Arr S)) (b : Path) (i0 : List Nat) (it : Item S), WFFields c →
    (it ∈ filledFields b i0 c ↔ Stored b i0 (look c) it)
  | .nil, b, i0, it, _ => by
    simp only [filledFields, List.not_mem_nil, false_iff]
    rintro ⟨q, i, y, h1, _, _, h, _⟩
    cases q with
    | nil => exact h1 rfl
    | cons k q => cases q with
      | nil => simp [look_one, Fields.get?] at h
      | cons k' q => simp [look, Fields.get?] at h
  | .absent n m r, b, i0, it, hw => by
    simp only [WFFields] at hw
    simp only [filledFields, items_fields r b i0 it hw.2.2]
    constructor
    · rintro ⟨q, i, y, h1, h2, h3, h4, h5⟩
      refine ⟨q, i, y, h1, h2, h3, ?_, h5⟩
      cases q with
      | nil => exact absurd rfl h1
      | cons k q =>
        rw [look_skip (r := r) ?_, h4]
        have : k ≠ n := by
          rintro rfl
          cases hg : r.get? k with
          | some z => exact hw.1 (get_names hg)
          | none =>
            cases q with
            | nil => rw [look_one, hg] at h4; split at h4 <;> cases h4
            | cons k' q => rw [look_cons _ _ _ (by simp), hg] at h4; cases h4
        simp [Fields.get?, this]
    · rintro ⟨q, i, y, h1, h2, h3, h4, h5, h6⟩
      refine ⟨q, i, y, h1, h2, h3, ?_, h5, h6⟩
      cases q with
      | nil => exact absurd rfl h1
      | cons k q =>
        by_cases hk : k = n
        · exfalso
          subst hk
          cases q with
          | nil =>
            rw [look_one] at h4
            split at h4
            · simp only [Fields.get?, if_true, Option.some.injEq] at h4
              rw [← h4, fresh_noValue] at h5
              cases h5
            · cases h4
          | cons k' q =>
            rw [look_cons _ _ _ (by simp)] at h4
            simp only [Fields.get?, if_true, Option.bind_some] at h4
            have := below_hasValue h4 h5
            rw [fresh_noValue] at this
            cases this
        · rwa [look_skip (r := r) (by simp [Fields.get?, hk])] at h4
  | .present n x r, b, i0, it, hw => by
    simp only [WFFields] at hw
    simp only [filledFields, List.mem_append, items_fields r b i0 it hw.2.2]
    have hleft : it ∈ (if x.hasValue = true then filledNode (b ++ [n]) i0 x else []) ↔ x.hasValue = true ∧
        ((it.path = b ++ [n] ∧ it.index = i0 ∧ contentOf x = some it.content) ∨
          Stored (b ++ [n]) i0 (fun q i => below (fun d i => look d q i) x i) it) := by
      by_cases hv : x.hasValue = true
      · simp only [hv, if_true, true_and]; exact items_node x _ i0 it hw.2.1 hv
      · simp [hv]
    rw [hleft]
    constructor
    · rintro (⟨hv, ⟨h1, h2, h3⟩ | ⟨q, i, y, h1, h2, h3, h4, h5, h6⟩⟩ | ⟨q, i, y, h1, h2, h3, h4, h5⟩)
      · exact ⟨[n], [], x, by simp, h1, by simpa using h2, by simp [look, Fields.get?], hv, h3⟩
      · exact ⟨n :: q, i, y, by simp, by simpa using h2, h3, by rw [look_present_same h1]; exact h4, h5, h6⟩
      · refine ⟨q, i, y, h1, h2, h3, ?_, h5⟩
        cases q with
        | nil => exact absurd rfl h1
        | cons k q =>
          rw [look_skip (r := r) ?_, h4]
          have : k ≠ n := by
            rintro rfl
            cases hg : r.get? k with
            | some z => exact hw.1 (get_names hg)
            | none =>
              cases q with
              | nil => rw [look_one, hg] at h4; split at h4 <;> cases h4
              | cons k' q => rw [look_cons _ _ _ (by simp), hg] at h4; cases h4
          simp [Fields.get?, this]
    · rintro ⟨q, i, y, h1, h2, h3, h4, h5, h6⟩
      cases q with
      | nil => exact absurd rfl h1
      | cons k q =>
        by_cases hk : k = n
        · subst hk
          cases q with
          | nil =>
            rw [look_one] at h4
            split at h4
            · rename_i e
              subst e
              simp only [Fields.get?, if_true, Option.some.injEq] at h4
              subst h4
              exact .inl ⟨h5, .inl ⟨h2, by simpa using h3, h6⟩⟩
            · cases h4
          | cons k' q =>
            rw [look_present_same (by simp)] at h4
            exact .inl ⟨below_hasValue h4 h5, .inr ⟨k' :: q, i, y, by simp, by simpa using h2, h3, h4, h5, h6⟩⟩
        · exact .inr ⟨k :: q, i, y, h1, h2, h3, by rwa [look_skip (r := r) (by simp [Fields.get?, hk])] at h4, h5, h6⟩
theorem items_elems : ∀ (e : Elems (Arr S)) (b : Path) (i0 : List Nat) (k : Nat) (it : Item S), WFElems e →
    (it ∈ filledElems b i0 k e ↔ ∃ j d, e.get? j = some d ∧ Stored b (i0 ++ [k + j]) (look d) it)
  | .nil, b, i0, k, it, _ => by simp [filledElems, Elems.get?]
  | .cons c r, b, i0, k, it, hw => by
    simp only [WFElems] at hw
    simp only [filledElems, List.mem_append, items_fields c b _ it hw.1, items_elems r b i0 (k + 1) it hw.2]
    constructor
    · rintro (h | ⟨j, d, hj, h⟩)
      · exact ⟨0, c, rfl, h⟩
      · exact ⟨j + 1, d, hj, by rwa [show k + (j + 1) = k + 1 + j by omega]⟩
    · rintro ⟨j, d, hj, h⟩
      cases j with
      | zero => simp only [Elems.get?, Option.some.injEq] at hj; subst hj; exact .inl h
      | succ j => exact .inr ⟨j, d, hj, by rwa [show k + 1 + j = k + (j + 1) by omega]⟩
end

/-- The items of a tree. -/
theorem mem_items {c : Fields (Arr S)} (hw : WFFields c) {it : Item S} :
    it ∈ filledFields [] [] c ↔ ∃ y, look c it.path it.index = some y ∧ y.hasValue = true ∧ contentOf y = some it.content := by
  rw [items_fields c [] [] it hw]
  constructor
  · rintro ⟨q, i, y, _, h2, h3, h4, h5⟩
    rw [List.nil_append] at h2 h3
    exact ⟨y, by rw [h2, h3]; exact h4, h5⟩
  · rintro ⟨y, h1, h2⟩
    refine ⟨it.path, it.index, y, ?_, rfl, rfl, h1, h2⟩
    intro e
    rw [e] at h1
    simp [look] at h1

end Verif.Nc
