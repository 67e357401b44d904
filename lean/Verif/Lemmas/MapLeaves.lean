import Verif.Spec.Convert
import Verif.Lemmas.ConvertSent
/-
Trees in which each value is replaced by a function of its position, type and value.
-/
set_option linter.unusedSectionVars false
namespace Verif.Ids
open Verif.TreeSpec Verif.DiffSpec Verif.Convert Verif.ConvertSpec

variable {V : Type}

section
variable (f : Addr → LeafMeta → V → V)

mutual
/-- All values below the node at `a`. -/
def mapNode (a : Addr) : Node V → Node V
  | .leaf l v => .leaf l (v.map (f a l))
  | .struct c => .struct (mapFields a c)
  | .aos m e => .aos m (mapElems a 0 e)
def mapFields (a : Addr) : Fields V → Fields V
  | .nil => .nil
  | .absent n m r => .absent n m (mapFields a r)
  | .present n x r => .present n (mapNode (a ++ [(n, none)]) x) (mapFields a r)
def mapElems (a : Addr) (i : Nat) : Elems V → Elems V
  | .nil => .nil
  | .cons c r => .cons (mapFields (elemOf a i) c) (mapElems a (i + 1) r)
end

theorem mapElems_length (a : Addr) (i : Nat) (e : Elems V) : (mapElems f a i e).length = e.length := by
  cases e with
  | nil => rfl
  | cons c r => simp [mapElems, Elems.length, mapElems_length a (i + 1) r]

theorem mapElems_get (a : Addr) (i j : Nat) (e : Elems V) :
    (mapElems f a i e).get? j = (e.get? j).map (mapFields f (elemOf a (i + j))) := by
  induction j generalizing i e with
  | zero => cases e <;> simp [mapElems, Elems.get?]
  | succ j ih =>
    cases e with
    | nil => simp [mapElems, Elems.get?]
    | cons c r => simp only [mapElems, Elems.get?, ih]; congr 3; omega

theorem mapFields_names (a : Addr) (c : Fields V) : (mapFields f a c).names = c.names := by
  cases c with
  | nil => rfl
  | absent n m r => simp [mapFields, Fields.names, mapFields_names a r]
  | present n x r => simp [mapFields, Fields.names, mapFields_names a r]

theorem mapFields_fresh (a : Addr) (m : MFields) : mapFields f a (m.fresh : Fields V) = m.fresh := by
  cases m with
  | nil => rfl
  | cons n m r => simp [MFields.fresh, mapFields, mapFields_fresh a r]

theorem mapNode_fresh (a : Addr) (m : Meta) : mapNode f a (m.fresh : Node V) = m.fresh := by
  cases m with
  | leaf l => rfl
  | struct c => simp [Meta.fresh, mapNode, mapFields_fresh]
  | aos c => simp [Meta.fresh, mapNode, mapElems]

theorem mapFields_get (a : Addr) (c : Fields V) (n : Name) :
    (mapFields f a c).get? n = (c.get? n).map (mapNode f (a ++ [(n, none)])) := by
  cases c with
  | nil => rfl
  | absent k m r =>
    simp only [mapFields, Fields.get?]
    split
    · simp [mapNode_fresh]
    · exact mapFields_get a r n
  | present k x r =>
    simp only [mapFields, Fields.get?]
    split
    · next h => subst h; rfl
    · exact mapFields_get a r n

theorem mapNode_item (a : Addr) (x : Node V) (s : Name × Option Nat) :
    (mapNode f a x).item s = (x.item s).map (mapNode f (a ++ [s])) := by
  obtain ⟨n, i⟩ := s
  cases x with
  | leaf => simp [mapNode, Node.item]
  | aos => simp [mapNode, Node.item]
  | struct c =>
    simp only [mapNode, Node.item, mapFields_get]
    cases h : c.get? n with
    | none => simp
    | some x =>
      cases i with
      | none => simp
      | some i =>
        cases x with
        | leaf => simp [mapNode]
        | struct => simp [mapNode]
        | aos m e =>
          simp only [mapNode, Option.map_some, mapElems_get, Option.map_map]
          have : elemOf (a ++ [(n, none)]) (0 + i) = a ++ [(n, some i)] := by
            rw [Nat.zero_add, elemOf_snoc]
          rw [this]
          rfl

theorem mapNode_at (a : Addr) (x : Node V) (A : Addr) :
    (mapNode f a x).at A = (x.at A).map (mapNode f (a ++ A)) := by
  induction A generalizing a x with
  | nil => simp [Node.at]
  | cons s A ih =>
    simp only [Node.at, mapNode_item]
    cases x.item s with
    | none => rfl
    | some y => simp [ih]

mutual
theorem wf_mapNode (a : Addr) (x : Node V) (h : WF x) : WF (mapNode f a x) := by
  cases x with
  | leaf => simp [mapNode, WF]
  | struct c => simp only [mapNode, WF] at h ⊢; exact wf_mapFields a c h
  | aos m e => simp only [mapNode, WF] at h ⊢; exact ⟨h.1, wf_mapElems a 0 e h.2⟩
theorem wf_mapFields (a : Addr) (c : Fields V) (h : WFFields c) : WFFields (mapFields f a c) := by
  cases c with
  | nil => simp [mapFields, WFFields]
  | absent n m r =>
    simp only [mapFields, WFFields, mapFields_names] at h ⊢
    exact ⟨h.1, h.2.1, wf_mapFields a r h.2.2⟩
  | present n x r =>
    simp only [mapFields, WFFields, mapFields_names] at h ⊢
    exact ⟨h.1, wf_mapNode _ x h.2.1, wf_mapFields a r h.2.2⟩
theorem wf_mapElems (a : Addr) (i : Nat) (e : Elems V) (h : WFElems e) : WFElems (mapElems f a i e) := by
  cases e with
  | nil => simp [mapElems, WFElems]
  | cons c r =>
    simp only [mapElems, WFElems] at h ⊢
    exact ⟨wf_mapFields _ c h.1, wf_mapElems a (i + 1) r h.2⟩
end

mutual
theorem typed_mapNode (a : Addr) (x : Node V) (m : Meta) (h : Typed x m) : Typed (mapNode f a x) m := by
  cases x with
  | leaf l v => cases m <;> simp [Typed, mapNode] at h ⊢; exact h
  | struct c =>
    cases m <;> simp only [Typed, mapNode] at h ⊢
    exact typed_mapFields a c _ h
  | aos k e =>
    cases m <;> simp only [Typed, mapNode] at h ⊢
    exact ⟨h.1, typed_mapElems a 0 e _ h.2⟩
theorem typed_mapFields (a : Addr) (c : Fields V) (m : MFields) (h : TypedF c m) :
    TypedF (mapFields f a c) m := by
  cases c with
  | nil => cases m <;> simp [mapFields, TypedF] at h ⊢
  | absent n m' r =>
    cases m <;> simp only [mapFields, TypedF] at h ⊢
    exact ⟨h.1, h.2.1, typed_mapFields a r _ h.2.2⟩
  | present n x r =>
    cases m <;> simp only [mapFields, TypedF] at h ⊢
    exact ⟨h.1, typed_mapNode _ x _ h.2.1, typed_mapFields a r _ h.2.2⟩
theorem typed_mapElems (a : Addr) (i : Nat) (e : Elems V) (m : MFields) (h : TypedE e m) :
    TypedE (mapElems f a i e) m := by
  cases e with
  | nil => simp [mapElems, TypedE]
  | cons c r =>
    simp only [mapElems, TypedE] at h ⊢
    exact ⟨typed_mapFields _ c m h.1, typed_mapElems a (i + 1) r m h.2⟩
end

variable [Value V]

section
variable (he : ∀ a l v, Value.isEmpty (f a l v) = Value.isEmpty v)
include he

mutual
theorem hasValue_mapNode (a : Addr) (x : Node V) : (mapNode f a x).hasValue = x.hasValue := by
  cases x with
  | leaf l v => cases v <;> simp [mapNode, Node.hasValue, leafHasValue, he]
  | struct c => simp only [mapNode, Node.hasValue]; exact hasValue_mapFields a c
  | aos m e => simp only [mapNode, Node.hasValue, mapElems_length]
theorem hasValue_mapFields (a : Addr) (c : Fields V) : (mapFields f a c).hasValue = c.hasValue := by
  cases c with
  | nil => rfl
  | absent n m r => simp only [mapFields, Fields.hasValue]; exact hasValue_mapFields a r
  | present n x r =>
    simp only [mapFields, Fields.hasValue, hasValue_mapNode _ x, hasValue_mapFields a r]
end

theorem filled_mapNode (a : Addr) (x : Node V) : Filled (mapNode f a x) ↔ Filled x := by
  cases x with
  | leaf l v => cases v <;> simp [mapNode, Filled, he]
  | struct c => simp [mapNode, Filled]
  | aos m e => simp [mapNode, Filled, mapElems_length]

theorem acts_mapNode (cx : Cfg V) (q : List Name) (a : Addr) (x : Node V) :
    Acts cx q (mapNode f a x) ↔ Acts cx q x := by
  unfold Acts
  rw [filled_mapNode f he, hasValue_mapNode f he]
end

/-- Nodes go to the same places. -/
theorem sent_map {cx : Cfg V} {tm : Meta} {p : List Name} {t : Addr} {c : Fields V} {A B : Addr}
    (h : Sent cx tm p t c A B) (a : Addr) : Sent cx tm p t (mapFields f a c) A B := by
  induction h generalizing a with
  | here h hb => exact .here (by rw [mapFields_get, h]; rfl) hb
  | child h hb hc _ ih => exact .child (by rw [mapFields_get, h]; rfl) hb hc (ih _)
  | element h hi hb hc _ ih =>
    exact .element (by rw [mapFields_get, h]; rfl) (by rw [mapElems_get, hi]; rfl) hb hc (ih _)
  | toArray h hb hc _ ih => exact .toArray (by rw [mapFields_get, h]; rfl) hb hc (ih _)
  | ofArray h hb hc _ ih => exact .ofArray (by rw [mapFields_get, h]; rfl) hb hc (ih _)

theorem mapNode_struct {a : Addr} {x : Node V} {d : Fields V} (h : mapNode f a x = .struct d) :
    ∃ d0, x = .struct d0 ∧ d = mapFields f a d0 := by
  cases x <;> simp [mapNode] at h
  exact ⟨_, rfl, h.symm⟩

theorem mapNode_aos {a : Addr} {x : Node V} {m : MFields} {e : Elems V} (h : mapNode f a x = .aos m e) :
    ∃ e0, x = .aos m e0 ∧ e = mapElems f a 0 e0 := by
  cases x <;> simp [mapNode] at h
  obtain ⟨rfl, rfl⟩ := h
  exact ⟨_, rfl, rfl⟩

theorem sent_of_map {cx : Cfg V} {tm : Meta} {p : List Name} {t : Addr} {c : Fields V} {A B : Addr}
    {a : Addr} (h : Sent cx tm p t (mapFields f a c) A B) : Sent cx tm p t c A B := by
  generalize hc' : mapFields f a c = c' at h
  induction h generalizing a c with
  | here h hb =>
    subst hc'
    rw [mapFields_get, Option.map_eq_some_iff] at h
    obtain ⟨x, h1, h2⟩ := h
    exact .here h1 hb
  | child h hb hc _ ih =>
    subst hc'
    rw [mapFields_get, Option.map_eq_some_iff] at h
    obtain ⟨x, h1, h2⟩ := h
    obtain ⟨d0, rfl, rfl⟩ := mapNode_struct f h2
    exact .child h1 hb hc (ih rfl)
  | element h hi hb hc _ ih =>
    subst hc'
    rw [mapFields_get, Option.map_eq_some_iff] at h
    obtain ⟨x, h1, h2⟩ := h
    obtain ⟨e0, rfl, rfl⟩ := mapNode_aos f h2
    rw [mapElems_get, Option.map_eq_some_iff] at hi
    obtain ⟨d0, h3, rfl⟩ := hi
    exact .element h1 h3 hb hc (ih rfl)
  | toArray h hb hc _ ih =>
    subst hc'
    rw [mapFields_get, Option.map_eq_some_iff] at h
    obtain ⟨x, h1, h2⟩ := h
    obtain ⟨d0, rfl, rfl⟩ := mapNode_struct f h2
    exact .toArray h1 hb hc (ih rfl)
  | ofArray h hb hc _ ih =>
    subst hc'
    rw [mapFields_get, Option.map_eq_some_iff] at h
    obtain ⟨x, h1, h2⟩ := h
    obtain ⟨e0, rfl, h3⟩ := mapNode_aos f h2
    cases e0 with
    | nil => simp [mapElems] at h3
    | cons d0 r =>
      cases r with
      | cons => simp [mapElems] at h3
      | nil =>
        simp [mapElems] at h3
        subst h3
        exact .ofArray h1 hb hc (ih rfl)

end

end Verif.Ids
