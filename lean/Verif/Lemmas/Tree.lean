import Verif.Spec.Tree
import Verif.Lemmas.Goto
set_option linter.unusedSectionVars false
namespace Verif.Ids
open Verif.TreeSpec

variable {V : Type} [Value V]

/-! ### Content -/

mutual
theorem content_contentM (m : Meta) : content (contentM m : Node V) = contentM m := by
  cases m with
  | leaf l => simp [contentM, content]
  | struct c => simp [contentM, content, contentF_contentMF c]
  | aos c => simp [contentM, content, contentE]
theorem contentF_contentMF (c : MFields) : contentF (contentMF c : Fields V) = contentMF c := by
  cases c with
  | nil => simp [contentMF, contentF]
  | cons n m r => simp [contentMF, contentF, content_contentM m, contentF_contentMF r]
end

theorem contentF_fresh (c : MFields) : contentF (c.fresh : Fields V) = contentMF c := by
  cases c with
  | nil => simp [MFields.fresh, contentF, contentMF]
  | cons n m r => simp [MFields.fresh, contentF, contentMF, contentF_fresh r]

theorem content_fresh (m : Meta) : content (m.fresh : Node V) = contentM m := by
  cases m with
  | leaf l => simp [Meta.fresh, content, contentM]
  | struct c => simp [Meta.fresh, content, contentM, contentF_fresh]
  | aos c => simp [Meta.fresh, content, contentM, contentE]

theorem contentF_names (c : Fields V) : (contentF c).names = c.names := by
  cases c with
  | nil => simp [contentF]
  | absent n m r => simp [contentF, Fields.names, contentF_names r]
  | present n x r => simp [contentF, Fields.names, contentF_names r]

theorem contentE_length (e : Elems V) : (contentE e).length = e.length := by
  cases e with
  | nil => simp [contentE]
  | cons c r => simp [contentE, Elems.length, contentE_length r]

theorem contentF_get? (c : Fields V) (k : Name) : (contentF c).get? k = (c.get? k).map content := by
  cases c with
  | nil => simp [contentF, Fields.get?]
  | absent n m r =>
    simp only [contentF, Fields.get?]; split
    · simp [content_fresh]
    · exact contentF_get? r k
  | present n x r =>
    simp only [contentF, Fields.get?]; split
    · simp
    · exact contentF_get? r k

theorem contentE_get? (e : Elems V) (i : Nat) : (contentE e).get? i = (e.get? i).map contentF := by
  induction i generalizing e with
  | zero => cases e <;> simp [contentE, Elems.get?]
  | succ i ih => cases e <;> simp [contentE, Elems.get?, ih]

theorem content_item (n : Node V) (s : Name × Option Nat) :
    (content n).item s = (n.item s).map content := by
  cases n with
  | leaf l v => simp [content, Node.item]
  | aos m e => simp [content, Node.item]
  | struct c =>
    obtain ⟨k, i⟩ := s
    simp only [content, Node.item, contentF_get?]
    cases hc : c.get? k with
    | none => simp
    | some x =>
      cases i with
      | none => simp
      | some i =>
        cases x with
        | leaf l v => simp [content]
        | struct c => simp [content]
        | aos m e =>
          simp only [content, contentE_get?, Option.map_some]
          cases e.get? i <;> simp [content]

theorem content_at (n : Node V) (a : Addr) : (content n).at a = (n.at a).map content := by
  induction a generalizing n with
  | nil => simp [Node.at]
  | cons s a ih =>
    simp only [Node.at, content_item]
    cases n.item s with
    | none => simp
    | some x => simp [ih]

theorem leafHasValue_filter (v : Option V) :
    leafHasValue (v.filter fun x => !Value.isEmpty x) = leafHasValue v := by
  cases v with
  | none => simp [leafHasValue]
  | some v =>
    cases h : Value.isEmpty v <;> simp [leafHasValue, Option.filter, h]

mutual
theorem contentM_hasValue (m : Meta) : (contentM m : Node V).hasValue = false := by
  cases m with
  | leaf l => simp [contentM, Node.hasValue, leafHasValue]
  | struct c => simp [contentM, Node.hasValue, contentMF_hasValue c]
  | aos c => simp [contentM, Node.hasValue, Elems.length]
theorem contentMF_hasValue (c : MFields) : (contentMF c : Fields V).hasValue = false := by
  cases c with
  | nil => simp [contentMF, Fields.hasValue]
  | cons n m r => simp [contentMF, Fields.hasValue, contentM_hasValue m, contentMF_hasValue r]
end

mutual
theorem content_hasValue (n : Node V) : (content n).hasValue = n.hasValue := by
  cases n with
  | leaf l v => simp [content, Node.hasValue, leafHasValue_filter]
  | struct c => simp [content, Node.hasValue, contentF_hasValue c]
  | aos m e => simp [content, Node.hasValue, contentE_length]
theorem contentF_hasValue (c : Fields V) : (contentF c).hasValue = c.hasValue := by
  cases c with
  | nil => simp [contentF, Fields.hasValue]
  | absent n m r => simp [contentF, Fields.hasValue, contentM_hasValue, contentF_hasValue r]
  | present n x r => simp [contentF, Fields.hasValue, content_hasValue x, contentF_hasValue r]
end

/-! ### Reads keep the content -/

theorem contentF_touch (c : Fields V) (k : Name) : contentF (c.touch k) = contentF c := by
  cases c with
  | nil => simp [Fields.touch]
  | absent n m r =>
    simp only [Fields.touch]; split
    · simp [contentF, content_fresh]
    · simp [contentF, contentF_touch r k]
  | present n x r =>
    simp only [Fields.touch]; split
    · rfl
    · simp [contentF, contentF_touch r k]

theorem Fields.get?_touch (c : Fields V) (k : Name) : (c.touch k).get? k = c.get? k := by
  cases c with
  | nil => simp [Fields.touch]
  | absent n m r =>
    simp only [Fields.touch]; split
    · next h => simp [Fields.get?, h]
    · next h => simp [Fields.get?, h, Fields.get?_touch r k]
  | present n x r =>
    simp only [Fields.touch]; split
    · rfl
    · next h => simp [Fields.get?, h, Fields.get?_touch r k]

theorem contentF_put {c : Fields V} {k : Name} {x y : Node V} (h : c.get? k = some x)
    (he : content y = content x) : contentF (c.put k y) = contentF c := by
  cases c with
  | nil => simp [Fields.put]
  | absent n m r =>
    simp only [Fields.put, Fields.get?] at *; split
    · next hk => simp only [hk, if_true, Option.some.injEq] at h; subst h; simp [contentF, he, content_fresh]
    · next hk => simp only [hk, if_false] at h; simp [contentF, contentF_put h he]
  | present n x' r =>
    simp only [Fields.put, Fields.get?] at *; split
    · next hk => simp only [hk, if_true, Option.some.injEq] at h; subst h; simp [contentF, he]
    · next hk => simp only [hk, if_false] at h; simp [contentF, contentF_put h he]

theorem contentE_set {e : Elems V} {i : Nat} {f g : Fields V} (h : e.get? i = some f)
    (he : contentF g = contentF f) : contentE (e.set i g) = contentE e := by
  induction i generalizing e with
  | zero => cases e with
    | nil => simp [Elems.get?] at h
    | cons c r => simp [Elems.get?] at h; subst h; simp [Elems.set, contentE, he]
  | succ i ih => cases e with
    | nil => simp [Elems.get?] at h
    | cons c r => simp [Elems.get?] at h; simp [Elems.set, contentE, ih h]

theorem content_readLeaf (l : LeafMeta) (v : Option V) :
    content (.leaf l (readLeaf l v)) = content (.leaf l v) := by
  cases v with
  | none =>
    simp only [readLeaf]; split
    · rfl
    · simp [content, Option.filter, Value.isEmpty_emptyArray]
  | some v => simp [readLeaf]

theorem content_read (n : Node V) (a : Addr) : content (n.read a) = content n := by
  induction a generalizing n with
  | nil => cases n <;> simp [Node.read, content_readLeaf]
  | cons s a ih =>
    obtain ⟨k, i⟩ := s
    cases n with
    | leaf l v => simp [Node.read]
    | aos m e => simp [Node.read]
    | struct c =>
      simp only [Node.read]
      split
      · rfl
      · next x hx =>
        cases i with
        | none => simp only [content]; rw [contentF_put hx (ih x), contentF_touch]
        | some i =>
          cases x with
          | leaf l v => simp [content, contentF_touch]
          | struct f => simp [content, contentF_touch]
          | aos m e =>
            simp only []
            split
            · simp [content, contentF_touch]
            · next f hf =>
              have h := ih (.struct f)
              split
              · next f' hf' =>
                rw [hf'] at h
                simp only [content, Node.struct.injEq] at h
                have hput := contentF_put (y := .aos m (e.set i f')) hx
                  (by simp only [content]; rw [contentE_set hf h])
                simp only [content]
                rw [hput, contentF_touch]
              · simp [content, contentF_touch]

theorem Fields.get?_touch_any (c : Fields V) (k j : Name) : (c.touch k).get? j = c.get? j := by
  match c with
  | .nil => rfl
  | .absent n m r =>
    simp only [Fields.touch]
    split
    · simp [Fields.get?]
    · simp only [Fields.get?]; rw [Fields.get?_touch_any r k j]
  | .present n x r =>
    simp only [Fields.touch]
    split
    · rfl
    · simp only [Fields.get?]; rw [Fields.get?_touch_any r k j]

theorem content_reads (n : Node V) (as : List Addr) : content (n.reads as) = content n := by
  induction as generalizing n with
  | nil => rfl
  | cons a as ih => simp [Node.reads, ih, content_read]

/-! ### has_value -/

theorem hasValue_struct (c : Fields V) : (Node.struct c).hasValue = c.hasValue := by simp [Node.hasValue]

theorem filled_hasValue {x : Node V} (h : Filled x) : x.hasValue = true := by
  cases x with
  | leaf l v => cases v <;> simp_all [Filled, Node.hasValue, leafHasValue]
  | struct c => simp [Filled] at h
  | aos m e => simp [Filled] at h; simp [Node.hasValue]; omega

theorem fresh_hasValue (m : Meta) : (m.fresh : Node V).hasValue = false := by
  rw [← content_hasValue, content_fresh, contentM_hasValue]

theorem Fields.hasValue_of_get? {c : Fields V} {k : Name} {x : Node V} (h : c.get? k = some x)
    (hx : x.hasValue = true) : c.hasValue = true := by
  cases c with
  | nil => simp [Fields.get?] at h
  | absent n m r =>
    simp only [Fields.get?] at h; split at h
    · simp at h; subst h; rw [fresh_hasValue] at hx; simp at hx
    · simp [Fields.hasValue, Fields.hasValue_of_get? h hx]
  | present n y r =>
    simp only [Fields.get?] at h; split at h
    · simp at h; subst h; simp [Fields.hasValue, hx]
    · simp [Fields.hasValue, Fields.hasValue_of_get? h hx]

theorem item_cases {n x : Node V} {s : Name × Option Nat} (h : n.item s = some x) :
    ∃ c, n = .struct c ∧
      ((s.2 = none ∧ c.get? s.1 = some x) ∨
       (∃ i m e f, s.2 = some i ∧ c.get? s.1 = some (.aos m e) ∧ e.get? i = some f ∧ x = .struct f)) := by
  cases n with
  | leaf l v => simp [Node.item] at h
  | aos m e => simp [Node.item] at h
  | struct c =>
    refine ⟨c, rfl, ?_⟩
    obtain ⟨k, i⟩ := s
    simp only [Node.item] at h
    cases hc : c.get? k with
    | none => simp [hc] at h
    | some y =>
      cases i with
      | none => simp [hc] at h; subst h; exact .inl ⟨rfl, rfl⟩
      | some i =>
        cases y with
        | leaf l v => simp [hc] at h
        | struct d => simp [hc] at h
        | aos m e =>
          simp [hc] at h
          obtain ⟨f, hf, rfl⟩ := h
          exact .inr ⟨i, m, e, f, rfl, rfl, hf, rfl⟩

theorem hasValue_of_item {n x : Node V} {s : Name × Option Nat} (h : n.item s = some x)
    (hx : x.hasValue = true ∨ s.2 ≠ none) : n.hasValue = true := by
  obtain ⟨c, rfl, h | ⟨i, m, e, f, hi, hc, hf, rfl⟩⟩ := item_cases h
  · rw [hasValue_struct]
    rcases hx with hx | hx
    · exact Fields.hasValue_of_get? h.2 hx
    · exact absurd h.1 hx
  · rw [hasValue_struct]
    refine Fields.hasValue_of_get? hc ?_
    have := Elems.get?_lt hf
    simp [Node.hasValue]; omega

theorem hasValue_of_filled (n : Node V) (a : Addr) (x : Node V) (h : n.at a = some x)
    (hf : Filled x) : n.hasValue = true := by
  induction a generalizing n with
  | nil => simp [Node.at] at h; subst h; exact filled_hasValue hf
  | cons s a ih =>
    simp only [Node.at] at h
    cases hi : n.item s with
    | none => simp [hi] at h
    | some y =>
      rw [hi] at h
      exact hasValue_of_item hi (.inl (ih y h))

mutual
theorem filled_of_hasValue (n : Node V) (hw : WF n) (h : n.hasValue = true) :
    ∃ a x, n.at a = some x ∧ Filled x := by
  cases n with
  | leaf l v =>
    refine ⟨[], _, rfl, ?_⟩
    cases v <;> simp_all [Filled, Node.hasValue, leafHasValue]
  | aos m e =>
    refine ⟨[], _, rfl, ?_⟩
    simp [Node.hasValue] at h; simp [Filled]; omega
  | struct c =>
    simp only [WF] at hw
    obtain ⟨k, a, x, y, h1, h2, h3⟩ := filled_of_hasValueF c hw (by simpa [Node.hasValue] using h)
    refine ⟨(k, none) :: a, x, ?_, h3⟩
    simp [Node.at, Node.item, h1, h2]
theorem filled_of_hasValueF (c : Fields V) (hw : WFFields c) (h : c.hasValue = true) :
    ∃ k a x y, c.get? k = some y ∧ y.at a = some x ∧ Filled x := by
  cases c with
  | nil => simp [Fields.hasValue] at h
  | absent n m r =>
    simp only [WFFields] at hw
    obtain ⟨k, a, x, y, h1, h2, h3⟩ := filled_of_hasValueF r hw.2.2 (by simpa [Fields.hasValue] using h)
    refine ⟨k, a, x, y, ?_, h2, h3⟩
    have : k ≠ n := by
      rintro rfl; exact hw.1 (get?_mem_names h1)
    simp [Fields.get?, this, h1]
  | present n z r =>
    simp only [WFFields] at hw
    simp only [Fields.hasValue, Bool.or_eq_true] at h
    rcases h with h | h
    · obtain ⟨a, x, h1, h2⟩ := filled_of_hasValue z hw.2.1 h
      exact ⟨n, a, x, z, by simp [Fields.get?], h1, h2⟩
    · obtain ⟨k, a, x, y, h1, h2, h3⟩ := filled_of_hasValueF r hw.2.2 h
      refine ⟨k, a, x, y, ?_, h2, h3⟩
      have : k ≠ n := by
        rintro rfl; exact hw.1 (get?_mem_names h1)
      simp [Fields.get?, this, h1]
theorem get?_mem_names {c : Fields V} {k : Name} {x : Node V} (h : c.get? k = some x) :
    k ∈ c.names := by
  cases c with
  | nil => simp [Fields.get?] at h
  | absent n m r =>
    simp only [Fields.get?] at h; simp only [Fields.names, List.mem_cons]; split at h
    · next hk => exact .inl hk
    · exact .inr (get?_mem_names h)
  | present n y r =>
    simp only [Fields.get?] at h; simp only [Fields.names, List.mem_cons]; split at h
    · next hk => exact .inl hk
    · exact .inr (get?_mem_names h)
end

end Verif.Ids
