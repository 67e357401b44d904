import Verif.Lemmas.NcWrite
import Verif.Model.Xarray
/-
An IDS without the data at paths that are not converted.
-/
namespace Verif.Nc
open Verif.Ids Verif.TreeSpec Verif.NcSpec
open Verif.ConvertSpec (mchild child metaAt)
open Verif.AlSpec (arraysOf IsDataPath)

set_option linter.unusedSectionVars false
variable {V : Type}

mutual
/-- Data at other paths are removed. -/
def pruneNode (keep : Path → Bool) (p : Path) : Node V → Node V
  | .leaf l v => .leaf l (if keep p then v else none)
  | .struct c => .struct (pruneFields keep p c)
  | .aos m e => .aos m (if keep p then pruneElems keep p e else .nil)
def pruneFields (keep : Path → Bool) (p : Path) : Fields V → Fields V
  | .nil => .nil
  | .absent n m r => .absent n m (pruneFields keep p r)
  | .present n x r => .present n (pruneNode keep (p ++ [n]) x) (pruneFields keep p r)
def pruneElems (keep : Path → Bool) (p : Path) : Elems V → Elems V
  | .nil => .nil
  | .cons c r => .cons (pruneFields keep p c) (pruneElems keep p r)
end

variable {keep : Path → Bool}

theorem prune_freshF : ∀ (m : MFields) (p : Path), pruneFields keep p (m.fresh : Fields V) = m.fresh
  | .nil, _ => rfl
  | .cons n m r, p => by simp [MFields.fresh, pruneFields, prune_freshF r p]

theorem prune_fresh (m : Meta) (p : Path) : pruneNode keep p (m.fresh : Node V) = m.fresh := by
  cases m with
  | leaf l => simp [Meta.fresh, pruneNode]
  | struct c => simp [Meta.fresh, pruneNode, prune_freshF]
  | aos c => simp [Meta.fresh, pruneNode, pruneElems]

theorem prune_get (k : Name) (p : Path) : ∀ c : Fields V, (pruneFields keep p c).get? k = (c.get? k).map (pruneNode keep (p ++ [k]))
  | .nil => rfl
  | .absent n m r => by
    simp only [pruneFields, Fields.get?]
    split
    · simp [prune_fresh]
    · exact prune_get k p r
  | .present n x r => by
    simp only [pruneFields, Fields.get?]
    split
    · rename_i h; subst h; rfl
    · exact prune_get k p r

theorem prune_length (p : Path) : ∀ e : Elems V, (pruneElems keep p e).length = e.length
  | .nil => rfl
  | .cons c r => by simp [pruneElems, Elems.length, prune_length p r]

theorem prune_elem (p : Path) : ∀ (e : Elems V) (j : Nat), (pruneElems keep p e).get? j = (e.get? j).map (pruneFields keep p)
  | .nil, j => by simp [pruneElems, Elems.get?]
  | .cons c r, 0 => by simp [pruneElems, Elems.get?]
  | .cons c r, j + 1 => by simp only [pruneElems, Elems.get?]; exact prune_elem p r j

mutual
theorem prune_typed : ∀ (x : Node V) (m : Meta) (p : Path), Typed x m → Typed (pruneNode keep p x) m
  | .leaf l v, m, p, h => by cases m <;> simp_all [Typed, pruneNode]
  | .struct c, m, p, h => by
    cases m with
    | struct d => simp only [Typed, pruneNode] at h ⊢; exact prune_typedF c d p h
    | leaf => simp [Typed] at h
    | aos => simp [Typed] at h
  | .aos m' e, m, p, h => by
    cases m with
    | aos d =>
      simp only [Typed, pruneNode] at h ⊢
      refine ⟨h.1, ?_⟩
      split
      · exact prune_typedE e d p h.2
      · simp [TypedE]
    | leaf => simp [Typed] at h
    | struct => simp [Typed] at h
theorem prune_typedF : ∀ (c : Fields V) (m : MFields) (p : Path), TypedF c m → TypedF (pruneFields keep p c) m
  | .nil, m, p, h => by cases m <;> simp_all [TypedF, pruneFields]
  | .absent n x r, m, p, h => by
    cases m with
    | nil => simp [TypedF] at h
    | cons n' m' r' =>
      simp only [TypedF, pruneFields] at h ⊢
      exact ⟨h.1, h.2.1, prune_typedF r r' p h.2.2⟩
  | .present n x r, m, p, h => by
    cases m with
    | nil => simp [TypedF] at h
    | cons n' m' r' =>
      simp only [TypedF, pruneFields] at h ⊢
      exact ⟨h.1, prune_typed x m' _ h.2.1, prune_typedF r r' p h.2.2⟩
theorem prune_typedE : ∀ (e : Elems V) (m : MFields) (p : Path), TypedE e m → TypedE (pruneElems keep p e) m
  | .nil, m, p, h => by simp [TypedE, pruneElems]
  | .cons c r, m, p, h => by
    simp only [TypedE, pruneElems] at h ⊢
    exact ⟨prune_typedF c m p h.1, prune_typedE r m p h.2⟩
end

/-- Nodes of the pruned tree. -/
theorem prune_look [Value V] : ∀ (q : Path) {c : Fields V} {m : MFields} (b : Path) {i : List Nat} {y : Node V}, TypedF c m →
    (look (pruneFields keep b c) q i = some y ↔
      (∀ a ∈ arraysOf m b q, keep a = true) ∧ ∃ x, look c q i = some x ∧ y = pruneNode keep (b ++ q) x)
  | [], c, m, b, i, y, _ => by simp [look]
  | [k], c, m, b, i, y, _ => by
    rw [look_one, look_one]
    split
    · rw [prune_get]
      simp only [arraysOf, List.not_mem_nil, false_implies, implies_true, true_and, Option.map_eq_some_iff]
      constructor
      · rintro ⟨x, h1, h2⟩; exact ⟨x, h1, h2.symm⟩
      · rintro ⟨x, h1, h2⟩; exact ⟨x, h1, h2.symm⟩
    · constructor
      · intro h; cases h
      · rintro ⟨-, x, h, -⟩; cases h
  | k :: k' :: q, c, m, b, i, y, ht => by
    rw [look_ind (by simp), prune_get, arraysOf]
    rcases typed_child ht k with ⟨h1, h2⟩ | ⟨z, w, h1, h2, h3⟩
    · simp [look, h2]
    · rw [h1, h2]
      cases w with
      | leaf l v =>
        constructor
        · rintro (⟨d, h, -⟩ | ⟨m', e, j, i', d, h, -⟩) <;> simp [pruneNode] at h
        · rintro ⟨-, x, h, -⟩
          rcases (look_ind (by simp)).1 h with ⟨d, h4, -⟩ | ⟨m', e, j, i', d, h4, -⟩ <;> rw [h2] at h4 <;> cases h4
      | struct d =>
        cases z with
        | leaf => simp [Typed] at h3
        | aos => simp [Typed] at h3
        | struct dm =>
          simp only [Typed] at h3
          have ih := prune_look (k' :: q) (c := d) (m := dm) (b ++ [k]) (i := i) (y := y) h3
          simp only [Option.map_some, pruneNode, Option.some.injEq, Node.struct.injEq, reduceCtorEq, false_and, exists_false,
            or_false, exists_eq_left', List.append_assoc, List.cons_append, List.nil_append] at ih ⊢
          rw [ih]
          apply and_congr Iff.rfl
          have hl : ∀ x, look c (k :: k' :: q) i = some x ↔ look d (k' :: q) i = some x := by
            intro x
            rw [look_cons _ _ _ (by simp), h2]
            simp [below]
          simp only [hl]
      | aos m' e =>
        cases z with
        | leaf => simp [Typed] at h3
        | struct => simp [Typed] at h3
        | aos dm =>
          simp only [Typed] at h3
          obtain ⟨rfl, h3⟩ := h3
          simp only [Option.map_some, pruneNode, List.mem_cons, forall_eq_or_imp]
          constructor
          · rintro (⟨d, h, -⟩ | ⟨m1, e1, j, i', d, h4, rfl, h5, h6⟩)
            · simp at h
            · simp only [Option.some.injEq, Node.aos.injEq] at h4
              obtain ⟨rfl, rfl⟩ := h4
              by_cases hk : keep (b ++ [k]) = true
              · rw [if_pos hk, prune_elem] at h5
                cases h7 : e.get? j with
                | none => rw [h7] at h5; cases h5
                | some d0 =>
                  rw [h7] at h5
                  simp only [Option.map_some, Option.some.injEq] at h5
                  subst h5
                  obtain ⟨h8, x, h9, h10⟩ := (prune_look (k' :: q) (b ++ [k]) (typed_elem h3 h7)).1 h6
                  refine ⟨⟨hk, h8⟩, x, ?_, by simpa using h10⟩
                  exact (look_ind (by simp)).2 (.inr ⟨_, e, j, i', d0, h2, rfl, h7, h9⟩)
              · rw [if_neg hk] at h5
                simp [Elems.get?] at h5
          · rintro ⟨⟨hk, h8⟩, x, h9, rfl⟩
            rcases (look_ind (by simp)).1 h9 with ⟨d, h4, -⟩ | ⟨m1, e1, j, i', d, h4, rfl, h5, h6⟩
            · rw [h2] at h4; cases h4
            · rw [h2] at h4
              cases h4
              refine .inr ⟨_, pruneElems keep (b ++ [k]) e, j, i', pruneFields keep (b ++ [k]) d, by rw [if_pos hk], rfl, by rw [prune_elem, h5]; rfl, ?_⟩
              exact (prune_look (k' :: q) (b ++ [k]) (typed_elem h3 h5)).2 ⟨h8, x, h6, by simp⟩

variable {S : Type}

/-- A pruned node that is not a structure. -/
theorem prune_content {p : Path} {y : Node (Arr S)} (hy : ∀ d, y ≠ .struct d) {z : Content S} :
    ((pruneNode keep p y).hasValue = true ∧ contentOf (pruneNode keep p y) = some z) ↔
      keep p = true ∧ y.hasValue = true ∧ contentOf y = some z := by
  cases y with
  | struct d => exact absurd rfl (hy d)
  | leaf l v =>
    by_cases hk : keep p = true
    · simp [pruneNode, hk]
    · simp [pruneNode, hk, Node.hasValue, leafHasValue]
  | aos m e =>
    by_cases hk : keep p = true
    · simp [pruneNode, hk, Node.hasValue, contentOf, prune_length]
    · simp [pruneNode, hk, Node.hasValue, Elems.length]

theorem prune_filled {p : Path} {y : Node (Arr S)} : Filled (pruneNode keep p y) ↔ keep p = true ∧ Filled y := by
  cases y with
  | struct d => simp [pruneNode, Filled]
  | leaf l v =>
    by_cases hk : keep p = true
    · simp [pruneNode, hk]
    · simp [pruneNode, hk, Filled]
  | aos m e =>
    by_cases hk : keep p = true
    · simp [pruneNode, hk, Filled, prune_length]
    · simp [pruneNode, hk, Filled, Elems.length]

theorem prune_extent {p : Path} (hk : keep p = true) (y : Node (Arr S)) : extent (pruneNode keep p y) = extent y := by
  cases y with
  | struct d => rfl
  | leaf l v => simp [pruneNode, hk]
  | aos m e => simp [pruneNode, hk, extent, prune_length]

theorem prune_ranks {c : Fields (Arr S)} {m : MFields} (ht : TypedF c m) (hr : RanksOk c) : RanksOk (pruneFields keep [] c) := by
  intro p i l v h
  obtain ⟨-, x, h1, h2⟩ := (prune_look p [] ht).1 h
  cases x with
  | struct => simp [pruneNode] at h2
  | aos => simp [pruneNode] at h2
  | leaf l' w =>
    simp only [pruneNode, Node.leaf.injEq] at h2
    obtain ⟨rfl, h2⟩ := h2
    split at h2
    · subst h2; exact hr p i l v h1
    · cases h2

end Verif.Nc
