import Verif.Lemmas.Update
import Verif.Lemmas.TreeIter
/-!
Properties of IDS trees: C07 (tree iteration) and C08 (`has_value`, and reading does not
change it).
-/
namespace Verif.Props
open Verif.Ids Verif.TreeSpec

variable {V : Type} [Value V]

/-- **C07.** `tree_iter` on any structure yields exactly the nodes below it that exist,
restricted to data nodes with `leaf_only` and to nodes with a value (and elements of arrays of
structures) without `visit_empty`, plus the structure itself with `include_node`. -/
theorem C07_iter_members (leafOnly visitEmpty includeNode : Bool) (c : Fields V)
    (hw : WFFields c) (a : Addr) :
    a ∈ treeIter leafOnly visitEmpty includeNode c ↔
      (a = [] ∧ includeNode = true ∧ leafOnly = false) ∨
      (a ≠ [] ∧ ∃ x, (Node.struct c).at a = some x ∧ (leafOnly = true → IsLeaf x) ∧
        (visitEmpty = true ∨ IsElement a ∨ x.hasValue = true)) := by
  have := mem_iterF' leafOnly visitEmpty c hw a
  simp only [Vis] at this
  simp only [treeIter, List.mem_append, this]
  cases includeNode <;> cases leafOnly <;> simp

/-- **C07.** The nodes come in document order, ... -/
theorem C07_iter_order (leafOnly visitEmpty includeNode : Bool) (c : Fields V)
    (hw : WFFields c) :
    (treeIter leafOnly visitEmpty includeNode c).Pairwise (DocBefore (.struct c)) := by
  simp only [treeIter, List.pairwise_append]
  refine ⟨by split <;> simp, iterF_ordered' _ _ c hw, ?_⟩
  intro a ha b hb
  have hb' := ((mem_iterF' _ _ c hw b).1 hb).1
  split at ha
  · simp at ha; subst ha
    cases b with
    | nil => exact absurd rfl hb'
    | cons t b => simp [DocBefore]
  · simp at ha

/-- **C07.** ... and none comes twice. -/
theorem C07_iter_once (leafOnly visitEmpty includeNode : Bool) (c : Fields V)
    (hw : WFFields c) : (treeIter leafOnly visitEmpty includeNode c).Nodup := by
  refine (C07_iter_order leafOnly visitEmpty includeNode c hw).imp ?_
  rintro a _ h rfl; exact docBefore_irrefl _ _ h

/-- **C07.** Iteration does not depend on which children have been looked at before. -/
theorem C07_iter_after_reads (leafOnly visitEmpty includeNode : Bool) (c d : Fields V)
    (as : List Addr) (h : (Node.struct c).reads as = .struct d) :
    treeIter leafOnly visitEmpty includeNode d = treeIter leafOnly visitEmpty includeNode c := by
  have : content (.struct d) = content (.struct c) := by rw [← h, content_reads]
  simp only [content, Node.struct.injEq] at this
  rw [treeIter, treeIter, ← iter_contentF, this, iter_contentF]

/-- **C08.** A node has a value iff some node at or below it is a data node with a value or
an array of structures with elements. -/
theorem C08_has_value_iff (n : Node V) (hw : WF n) :
    n.hasValue = true ↔ ∃ a x, n.at a = some x ∧ Filled x :=
  ⟨filled_of_hasValue n hw, fun ⟨a, x, h, hf⟩ => hasValue_of_filled n a x h hf⟩

/-- **C08.** After any sequence of reads (accessing attributes and items, and values), every
node exists and has a value exactly if it did before. -/
theorem C08_reads_keep_has_value (n : Node V) (as : List Addr) (a : Addr) :
    ((n.reads as).at a).map Node.hasValue = (n.at a).map Node.hasValue := by
  have h : content (n.reads as) = content n := content_reads n as
  have e : ∀ m : Node V, (m.at a).map Node.hasValue = ((content m).at a).map Node.hasValue := by
    intro m; rw [content_at]; cases m.at a <;> simp [content_hasValue]
  rw [e, h, ← e]

/-- **C08.** More generally, reads keep the observable content of the whole tree. -/
theorem C08_reads_keep_content (n : Node V) (as : List Addr) :
    content (n.reads as) = content n := content_reads n as

theorem leaf_at_nil {l l' : LeafMeta} {v v' : Option V} {b : Addr} (h : (Node.leaf l v).at b = some (.leaf l' v')) :
    b = [] ∧ l = l' ∧ v = v' := by
  cases b with
  | nil => simp [Node.at] at h; exact ⟨rfl, h⟩
  | cons s b => simp [Node.at, Node.item] at h

theorem readLeaf_cases (l : LeafMeta) (v : Option V) :
    readLeaf l v = v ∨ (v = none ∧ l.ndim ≠ 0 ∧ readLeaf l v = some (Value.emptyArray l)) := by
  cases v with
  | none => by_cases h : l.ndim = 0 <;> simp [readLeaf, h]
  | some v => exact .inl rfl

theorem read_leaf (n : Node V) (a b : Addr) (l : LeafMeta) (v : Option V) (h : n.at b = some (.leaf l v)) :
    (n.read a).at b = some (.leaf l v) ∨ (n.read a).at b = some (.leaf l (readLeaf l v)) := by
  induction a generalizing n b with
  | nil =>
    cases n with
    | leaf l' v' =>
      obtain ⟨rfl, rfl, rfl⟩ := leaf_at_nil h
      exact .inr rfl
    | struct c => exact .inl (by simpa [Node.read] using h)
    | aos m e => exact .inl (by simpa [Node.read] using h)
  | cons s a ih =>
    obtain ⟨k, i⟩ := s
    cases n with
    | leaf l' v' => exact .inl (by simpa [Node.read] using h)
    | aos m e => exact .inl (by simpa [Node.read] using h)
    | struct c =>
      have touched : ∀ b, (Node.struct (c.touch k)).at b = some (.leaf l v) ↔ (Node.struct c).at b = some (.leaf l v) := by
        intro b
        cases b with
        | nil => simp [Node.at]
        | cons t b => simp only [Node.at, Node.item, Fields.get?_touch_any]
      simp only [Node.read]
      cases hx : (c.touch k).get? k with
      | none => exact .inl h
      | some x =>
        have h := (touched b).2 h
        cases b with
        | nil => simp [Node.at] at h
        | cons t b =>
          obtain ⟨j, o⟩ := t
          cases i with
          | none =>
            by_cases hj : j = k
            · subst hj
              simp only [Node.at, Node.item, Fields.get?_put_same hx, hx] at h ⊢
              cases o with
              | none => exact ih x b h
              | some o =>
                cases x with
                | leaf l' v' => simp at h
                | struct f => simp at h
                | aos m e =>
                  have : (Node.aos m e : Node V).read a = .aos m e := by cases a <;> rfl
                  simp only [this]
                  exact .inl h
            · refine .inl ?_
              simpa only [Node.at, Node.item, Fields.get?_put_other hj] using h
          | some i =>
            cases x with
            | leaf l' v' => exact .inl h
            | struct f => exact .inl h
            | aos m e =>
              simp only
              cases hf : e.get? i with
              | none => exact .inl h
              | some f =>
                simp only
                split
                · next f' hf' =>
                  by_cases hj : j = k
                  · subst hj
                    simp only [Node.at, Node.item, Fields.get?_put_same hx, hx] at h ⊢
                    cases o with
                    | none =>
                      have h : (Node.aos m e).at b = some (.leaf l v) := h
                      cases b <;> simp [Node.at, Node.item] at h
                    | some o =>
                      by_cases ho : o = i
                      · subst ho
                        simp only [hf, Elems.get?_set_same hf, Option.map_some, Option.bind_some] at h ⊢
                        have := ih (.struct f) b h
                        rw [hf'] at this
                        exact this
                      · simp only [Elems.get?_set_other ho]
                        exact .inl h
                  · refine .inl ?_
                    simpa only [Node.at, Node.item, Fields.get?_put_other hj] using h
                · exact .inl h

/-- **C08.** After any sequence of reads, every data node holds what it held before. The only exception: reading an unset array
stores an empty one in the node. -/
theorem C08_reads_keep_values (n : Node V) (as : List Addr) (a : Addr) (l : LeafMeta) (v : Option V)
    (h : n.at a = some (.leaf l v)) :
    (n.reads as).at a = some (.leaf l v) ∨
      (v = none ∧ l.ndim ≠ 0 ∧ (n.reads as).at a = some (.leaf l (some (Value.emptyArray l)))) := by
  induction as generalizing n v with
  | nil => exact .inl h
  | cons b as ih =>
    simp only [Node.reads]
    have key : (n.read b).at a = some (.leaf l v) ∨
        (v = none ∧ l.ndim ≠ 0 ∧ (n.read b).at a = some (.leaf l (some (Value.emptyArray l)))) := by
      rcases read_leaf n b a l v h with h1 | h1
      · exact .inl h1
      · rcases readLeaf_cases l v with h2 | ⟨h2, h3, h4⟩
        · rw [h2] at h1; exact .inl h1
        · rw [h4] at h1; exact .inr ⟨h2, h3, h1⟩
    rcases key with h1 | ⟨h1, h2, h3⟩
    · exact ih _ v h1
    · rcases ih _ _ h3 with h4 | ⟨h4, -⟩
      · exact .inr ⟨h1, h2, h4⟩
      · cases h4

/-- **C08.** A newly created node has no value, and neither has anything below it. -/
theorem C08_fresh_empty (m : Meta) (a : Addr) (x : Node V)
    (h : (m.fresh : Node V).at a = some x) : x.hasValue = false := by
  cases hx : x.hasValue with
  | false => rfl
  | true =>
    have := vis_hasValue (lo := false) (ve := false) ⟨x, h, by simp, .inr (.inr hx)⟩
    simp [fresh_hasValue] at this

/-! ### Concrete cases -/

/-- Integers as 0D values, lists as 1D values. -/
instance sampleValue : Value (List Int) where
  isEmpty v := v.isEmpty
  emptyArray _ := []
  isEmpty_emptyArray _ := rfl

/-- A structure with an array of two elements (one empty), an unset array and an untouched
child structure. -/
def sampleFields : Fields (List Int) :=
  .present "w".toList (.aos (.cons "x".toList (.leaf ⟨.int, 0, false⟩) .nil)
      (.cons (.present "x".toList (.leaf ⟨.int, 0, false⟩ (some [5])) .nil)
        (.cons (.absent "x".toList (.leaf ⟨.int, 0, false⟩) .nil) .nil)))
    (.present "t".toList (.leaf ⟨.flt, 1, false⟩ none)
      (.absent "p".toList (.struct (.cons "q".toList (.leaf ⟨.str, 0, false⟩) .nil)) .nil))

example : WFFields sampleFields := by
  simp [sampleFields, WFFields, WFMFields, WFMeta, WF, WFElems, Fields.names, mnames]
example : treeIter true false true sampleFields =
    [[("w".toList, some 0), ("x".toList, none)]] := by with_unfolding_all rfl
example : (treeIter false true true sampleFields).length = 9 := by with_unfolding_all rfl
example := C08_reads_keep_values (.struct sampleFields) [[("t".toList, none)]] [("w".toList, some 0), ("x".toList, none)]
  ⟨.int, 0, false⟩ (some [5]) rfl
example : ((Node.struct sampleFields).reads [[("t".toList, none)], [("p".toList, none)]]) ≠
    .struct sampleFields := by
  simp [sampleFields, Node.reads, Node.read, Fields.touch, Fields.get?, Fields.put, readLeaf]

end Verif.Props
