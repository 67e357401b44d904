import Verif.Spec.NcData
import Verif.Lemmas.NcDims
import Verif.Lemmas.ConvertPlan
/-
Nodes given by path and indices.
-/
namespace Verif.Nc
open Verif.Ids Verif.TreeSpec Verif.NcSpec
open Verif.ConvertSpec (mchild child metaAt)
open Verif.AlSpec (arraysOf)

set_option linter.unusedSectionVars false
variable {V : Type} [Value V]

theorem mget_mchild (k : Name) : ∀ m : MFields, mget k m = mchild m k
  | .nil => rfl
  | .cons n m r => by simp only [mget, mchild, mget_mchild k r]

/-- The child of a typed structure. -/
theorem typed_child {c : Fields V} {m : MFields} (h : TypedF c m) (k : Name) :
    (mchild m k = none ∧ c.get? k = none) ∨ ∃ y x, mchild m k = some y ∧ c.get? k = some x ∧ Typed x y := by
  have := typed_get h k
  rw [mget_mchild] at this
  cases hm : mchild m k with
  | none => rw [hm] at this; exact .inl ⟨rfl, this⟩
  | some y => rw [hm] at this; obtain ⟨x, h1, h2⟩ := this; exact .inr ⟨y, x, rfl, h1, h2⟩

theorem metaChild_eq (k : Name) : ∀ m : MFields, metaChild m k = mchild m k
  | .nil => rfl
  | .cons n m r => by simp only [metaChild, mchild, metaChild_eq k r]

theorem metaOf_eq : ∀ (p : Path) (m : MFields), p ≠ [] → metaOf m p = metaAt (.struct m) p
  | [], _, h => absurd rfl h
  | [k], m, _ => by simp only [metaOf, metaAt, child, metaChild_eq]; cases mchild m k <;> rfl
  | k :: q :: p, m, _ => by
    rw [metaOf, metaAt, child, metaChild_eq]
    cases mchild m k with
    | none => rfl
    | some x =>
      cases x with
      | leaf l => simp [metaAt, child]
      | struct c => simp [metaOf_eq (q :: p) c (by simp)]
      | aos c => simp [metaOf_eq (q :: p) c (by simp), metaAt, child]

theorem look_cons (c : Fields V) (k : Name) (p : Path) (hp : p ≠ []) (i : List Nat) :
    look c (k :: p) i = (c.get? k).bind fun x => below (fun d i => look d p i) x i := by
  cases p with
  | nil => exact absurd rfl hp
  | cons k' p => rw [look]

theorem look_one (c : Fields V) (k : Name) (i : List Nat) : look c [k] i = if i = [] then c.get? k else none := by
  cases i <;> simp [look]

theorem below_some {f : Fields V → List Nat → Option (Node V)} {x : Node V} {i : List Nat} {y : Node V} :
    below f x i = some y ↔ (∃ d, x = .struct d ∧ f d i = some y) ∨
      ∃ m e j i' d, x = .aos m e ∧ i = j :: i' ∧ e.get? j = some d ∧ f d i' = some y := by
  cases x with
  | leaf l v => simp [below]
  | struct d => simp [below]
  | aos m e =>
    cases i with
    | nil => simp [below]
    | cons j i =>
      simp only [below]
      constructor
      · intro h
        cases hd : e.get? j with
        | none => rw [hd] at h; cases h
        | some d => rw [hd] at h; exact .inr ⟨m, e, j, i, d, rfl, rfl, hd, h⟩
      · rintro (⟨d, h, _⟩ | ⟨m', e', j', i', d, h, h1, h2, h3⟩)
        · cases h
        · cases h; cases h1; rw [h2]; exact h3

/-- Induction over nodes found. -/
theorem look_ind {c : Fields V} {k : Name} {p : Path} (hp : p ≠ []) {i : List Nat} {y : Node V} :
    look c (k :: p) i = some y ↔ (∃ d, c.get? k = some (.struct d) ∧ look d p i = some y) ∨
      ∃ m e j i' d, c.get? k = some (.aos m e) ∧ i = j :: i' ∧ e.get? j = some d ∧ look d p i' = some y := by
  rw [look_cons _ _ _ hp]
  constructor
  · intro h
    cases hc : c.get? k with
    | none => rw [hc] at h; cases h
    | some x =>
      rw [hc] at h
      simp only [Option.bind_some] at h
      rcases below_some.1 h with ⟨d, rfl, h'⟩ | ⟨m, e, j, i', d, rfl, h'⟩
      · exact .inl ⟨d, rfl, h'⟩
      · exact .inr ⟨m, e, j, i', d, rfl, h'⟩
  · rintro (⟨d, h, h'⟩ | ⟨m, e, j, i', d, h, h'⟩)
    · rw [h, Option.bind_some, below_some]; exact .inl ⟨d, rfl, h'⟩
    · rw [h, Option.bind_some, below_some]; exact .inr ⟨m, e, j, i', d, rfl, h'⟩

/-- Found nodes have the type the metadata say. -/
theorem look_typed : ∀ (p : Path) {c : Fields V} {m : MFields} (b : Path) {i : List Nat} {x : Node V}, TypedF c m →
    look c p i = some x → ∃ y, metaAt (.struct m) p = some y ∧ Typed x y ∧ i.length = (arraysOf m b p).length
  | [], _, _, _, _, _, _, h => by simp [look] at h
  | [k], c, m, b, i, x, ht, h => by
    rw [look_one] at h
    split at h
    · rename_i hi
      rcases typed_child ht k with ⟨-, h1⟩ | ⟨y, z, h1, h2, h3⟩
      · rw [h1] at h; cases h
      · rw [h2] at h; cases h
        exact ⟨y, by simp [metaAt, child, h1], h3, by simp [hi, arraysOf]⟩
    · cases h
  | k :: k' :: p, c, m, b, i, x, ht, h => by
    rcases typed_child ht k with ⟨-, h1⟩ | ⟨y, z, h1, h2, h3⟩
    · simp [look, h1] at h
    · rcases (look_ind (by simp)).1 h with ⟨d, h4, h5⟩ | ⟨m', e, j, i', d, h4, rfl, h5, h6⟩
      · rw [h4] at h2; cases h2
        cases y with
        | leaf l => simp [Typed] at h3
        | aos m' => simp [Typed] at h3
        | struct m' =>
          simp only [Typed] at h3
          obtain ⟨y, h7, h8, h9⟩ := look_typed (k' :: p) (b ++ [k]) h3 h5
          refine ⟨y, ?_, h8, ?_⟩
          · rw [metaAt, child, h1]; exact h7
          · rw [arraysOf, h1]; exact h9
      · rw [h4] at h2; cases h2
        cases y with
        | leaf l => simp [Typed] at h3
        | struct m' => simp [Typed] at h3
        | aos m' =>
          simp only [Typed] at h3
          obtain ⟨rfl, h3⟩ := h3
          obtain ⟨y, h7, h8, h9⟩ := look_typed (k' :: p) (b ++ [k]) (typed_elem h3 h5) h6
          refine ⟨y, ?_, h8, ?_⟩
          · rw [metaAt, child, h1]; simpa [metaAt, child] using h7
          · rw [arraysOf, h1]; simp [h9]

/-- Something below a node. -/
theorem look_append : ∀ (p : Path) {c : Fields V} {q : Path} (_ : p ≠ []) (_ : q ≠ []) {i : List Nat} {y : Node V},
    look c (p ++ q) i = some y ↔ ∃ i1 i2 x, i = i1 ++ i2 ∧ look c p i1 = some x ∧ below (fun d i => look d q i) x i2 = some y
  | [], _, _, h, _, _, _ => absurd rfl h
  | [k], c, q, _, hq, i, y => by
    rw [List.cons_append, List.nil_append, look_cons _ _ _ hq]
    constructor
    · intro h
      cases hc : c.get? k with
      | none => rw [hc] at h; cases h
      | some x => rw [hc] at h; exact ⟨[], i, x, rfl, by simp [look, hc], h⟩
    · rintro ⟨i1, i2, x, rfl, h, h'⟩
      rw [look_one] at h
      split at h
      · rename_i e; subst e; rw [h]; exact h'
      · cases h
  | k :: k' :: p, c, q, _, hq, i, y => by
    rw [List.cons_append, look_ind (by simp)]
    constructor
    · rintro (⟨d, h, h'⟩ | ⟨m, e, j, i', d, h, rfl, h2, h3⟩)
      · obtain ⟨i1, i2, x, rfl, h4, h5⟩ := (look_append (k' :: p) (by simp) hq).1 h'
        exact ⟨i1, i2, x, rfl, (look_ind (by simp)).2 (.inl ⟨d, h, h4⟩), h5⟩
      · obtain ⟨i1, i2, x, rfl, h4, h5⟩ := (look_append (k' :: p) (by simp) hq).1 h3
        exact ⟨j :: i1, i2, x, rfl, (look_ind (by simp)).2 (.inr ⟨m, e, j, i1, d, h, rfl, h2, h4⟩), h5⟩
    · rintro ⟨i1, i2, x, rfl, h, h'⟩
      rcases (look_ind (by simp)).1 h with ⟨d, h4, h5⟩ | ⟨m', e, j, i', d, h4, rfl, h5, h6⟩
      · exact .inl ⟨d, h4, (look_append (k' :: p) (by simp) hq).2 ⟨i1, i2, x, rfl, h5, h'⟩⟩
      · exact .inr ⟨m', e, j, i' ++ i2, d, h4, rfl, h5, (look_append (k' :: p) (by simp) hq).2 ⟨i', i2, x, rfl, h6, h'⟩⟩

theorem elems_get {e : Elems V} {j : Nat} : (e.get? j).isSome ↔ j < e.length := by
  match e, j with
  | .nil, j => simp [Elems.get?, Elems.length]
  | .cons c r, 0 => simp [Elems.get?, Elems.length]
  | .cons c r, j + 1 => simpa [Elems.get?, Elems.length] using elems_get (e := r) (j := j)

/-- If arrays of structures have at least as many elements, nodes that exist on one side exist on the other. -/
theorem look_exists : ∀ (q : Path) {c t : Fields V} {m : MFields}, TypedF c m → TypedF t m →
    (∀ p i m1 e1 m2 e2, look c p i = some (.aos m1 e1) → look t p i = some (.aos m2 e2) → e1.length ≤ e2.length) →
    ∀ {i : List Nat} {x : Node V}, look c q i = some x → ∃ y, look t q i = some y
  | [], _, _, _, _, _, _, _, _, h => by simp [look] at h
  | [k], c, t, m, hc, ht, _, i, x, h => by
    rw [look_one] at h ⊢
    split at h
    · rename_i e
      rw [if_pos e]
      rcases typed_child hc k with ⟨-, h1⟩ | ⟨y, z, h1, h2, h3⟩
      · rw [h1] at h; cases h
      · rcases typed_child ht k with ⟨h4, -⟩ | ⟨y', z', h4, h5, h6⟩
        · rw [h4] at h1; cases h1
        · exact ⟨z', h5⟩
    · cases h
  | k :: k' :: p, c, t, m, hc, ht, hl, i, x, h => by
    rcases typed_child hc k with ⟨-, h1⟩ | ⟨y, z, h1, h2, h3⟩
    · simp [look, h1] at h
    rcases typed_child ht k with ⟨h4, -⟩ | ⟨y', z', h4, h5, h6⟩
    · rw [h4] at h1; cases h1
    rw [h1] at h4; cases h4
    rcases (look_ind (by simp)).1 h with ⟨d, h7, h8⟩ | ⟨m', e, j, i', d, h7, rfl, h8, h9⟩
    · rw [h7] at h2; cases h2
      cases y with
      | leaf l => simp [Typed] at h3
      | aos m' => simp [Typed] at h3
      | struct m' =>
        cases z' with
        | leaf => simp [Typed] at h6
        | aos => simp [Typed] at h6
        | struct d' =>
          simp only [Typed] at h3 h6
          obtain ⟨y, hy⟩ := look_exists (k' :: p) h3 h6 (fun p i m1 e1 m2 e2 ha hb => by
            have hp : p ≠ [] := by rintro rfl; simp [look] at ha
            exact hl (k :: p) i m1 e1 m2 e2 ((look_ind hp).2 (.inl ⟨_, h7, ha⟩)) ((look_ind hp).2 (.inl ⟨_, h5, hb⟩))) h8
          exact ⟨y, (look_ind (by simp)).2 (.inl ⟨_, h5, hy⟩)⟩
    · rw [h7] at h2; cases h2
      cases y with
      | leaf l => simp [Typed] at h3
      | struct m' => simp [Typed] at h3
      | aos m' =>
        cases z' with
        | leaf => simp [Typed] at h6
        | struct => simp [Typed] at h6
        | aos m1 e' =>
          simp only [Typed] at h3 h6
          obtain ⟨rfl, h3⟩ := h3
          obtain ⟨rfl, h6⟩ := h6
          have hle := hl [k] [] _ e _ e' (by rw [look]; exact h7) (by rw [look]; exact h5)
          have hj := elems_get.1 (by rw [h8]; rfl : (e.get? j).isSome = true)
          cases hj' : e'.get? j with
          | none =>
            have := elems_get (e := e') (j := j)
            rw [hj'] at this
            simp at this
            omega
          | some d' =>
            obtain ⟨y, hy⟩ := look_exists (k' :: p) (typed_elem h3 h8) (typed_elem h6 hj') (fun p i m2 e1 m3 e2 ha hb => by
              have hp : p ≠ [] := by rintro rfl; simp [look] at ha
              exact hl (k :: p) (j :: i) m2 e1 m3 e2 ((look_ind hp).2 (.inr ⟨_, _, _, _, _, h7, rfl, h8, ha⟩))
                ((look_ind hp).2 (.inr ⟨_, _, _, _, _, h5, rfl, hj', hb⟩))) h9
            exact ⟨y, (look_ind (by simp)).2 (.inr ⟨_, _, _, _, _, h5, rfl, hj', hy⟩)⟩

theorem fresh_get (k : Name) : ∀ m : MFields, (m.fresh : Fields V).get? k = (mchild m k).map Meta.fresh
  | .nil => rfl
  | .cons n m r => by
    simp only [MFields.fresh, Fields.get?, mchild]
    split
    · rfl
    · exact fresh_get k r

/-- New structures contain nothing. -/
theorem look_fresh : ∀ (p : Path) {m : MFields} {i : List Nat} {x : Node V}, look (m.fresh : Fields V) p i = some x →
    ∃ y : Meta, x = y.fresh
  | [], _, _, _, h => by simp [look] at h
  | [k], m, i, x, h => by
    rw [look_one] at h
    split at h
    · rw [fresh_get] at h
      cases hm : mchild m k with
      | none => rw [hm] at h; cases h
      | some y => rw [hm] at h; cases h; exact ⟨y, rfl⟩
    · cases h
  | k :: k' :: p, m, i, x, h => by
    rcases (look_ind (by simp)).1 h with ⟨d, h4, h5⟩ | ⟨m', e, j, i', d, h4, rfl, h5, h6⟩
    · rw [fresh_get] at h4
      cases hm : mchild m k with
      | none => rw [hm] at h4; cases h4
      | some y =>
        rw [hm] at h4
        cases y with
        | leaf => cases h4
        | aos => cases h4
        | struct m' =>
          cases h4
          exact look_fresh (k' :: p) h5
    · rw [fresh_get] at h4
      cases hm : mchild m k with
      | none => rw [hm] at h4; cases h4
      | some y =>
        rw [hm] at h4
        cases y with
        | leaf => cases h4
        | struct => cases h4
        | aos m' =>
          cases h4
          simp [Elems.get?] at h5

end Verif.Nc
