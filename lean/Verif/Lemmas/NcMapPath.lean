import Verif.Lemmas.NcLook
/-
Changing all nodes with a path.
-/
namespace Verif.Nc
open Verif.Ids Verif.TreeSpec Verif.NcSpec
open Verif.ConvertSpec (mchild child metaAt)
open Verif.AlSpec (arraysOf)

set_option linter.unusedSectionVars false
variable {S : Type} [DecidableEq S]

abbrev NodeMap (S : Type) := List Nat → Node (Arr S) → Except NcErr (Node (Arr S))

theorem mapElems_ok {g : Nat → Fields (Arr S) → Except NcErr (Fields (Arr S))} : ∀ {e e' : Elems (Arr S)} {k : Nat},
    mapElems g k e = .ok e' → e'.length = e.length ∧ ∀ j d', e'.get? j = some d' → ∃ d, e.get? j = some d ∧ g (k + j) d = .ok d'
  | .nil, e', k, h => by
    simp only [mapElems, Except.ok.injEq] at h
    subst h
    simp [Elems.get?]
  | .cons c r, e', k, h => by
    simp only [mapElems] at h
    split at h
    · cases h
    · rename_i c' hc
      split at h
      · cases h
      · rename_i r' hr
        cases h
        obtain ⟨h1, h2⟩ := mapElems_ok hr
        refine ⟨by simp [Elems.length, h1], ?_⟩
        intro j d' hj
        cases j with
        | zero => simp only [Elems.get?, Option.some.injEq] at hj; subst hj; exact ⟨c, rfl, hc⟩
        | succ j =>
          obtain ⟨d, h3, h4⟩ := h2 j d' hj
          exact ⟨d, h3, by rw [← h4]; congr 1; omega⟩

theorem mapElems_success {g : Nat → Fields (Arr S) → Except NcErr (Fields (Arr S))} : ∀ {e : Elems (Arr S)} {k : Nat},
    (∀ j d, e.get? j = some d → ∃ d', g (k + j) d = .ok d') → ∃ e', mapElems g k e = .ok e'
  | .nil, k, _ => ⟨.nil, rfl⟩
  | .cons c r, k, h => by
    obtain ⟨c', hc⟩ := h 0 c rfl
    obtain ⟨r', hr⟩ := mapElems_success (e := r) (k := k + 1) fun j d hj => by
      obtain ⟨d', hd⟩ := h (j + 1) d hj
      exact ⟨d', by rw [← hd]; congr 1; omega⟩
    rw [Nat.add_zero] at hc
    exact ⟨.cons c' r', by simp [mapElems, hc, hr]⟩

/-- The two ways in which a path is followed. -/
theorem mapPath_cons {f : NodeMap S} {k k' : Name} {p : Path} {i : List Nat} {c c' : Fields (Arr S)}
    (h : mapPath f (k :: k' :: p) i c = .ok c') :
    (∃ d d', c.get? k = some (.struct d) ∧ mapPath f (k' :: p) i d = .ok d' ∧ c' = c.put k (.struct d')) ∨
    ∃ m e e', c.get? k = some (.aos m e) ∧ mapElems (fun j d => mapPath f (k' :: p) (i ++ [j]) d) 0 e = .ok e' ∧
      c' = c.put k (.aos m e') := by
  rw [mapPath] at h
  split at h
  · rename_i d hd
    split at h
    · cases h
    · rename_i d' hd'
      cases h
      exact .inl ⟨d, d', hd, hd', rfl⟩
  · rename_i m e he
    split at h
    · cases h
    · rename_i e' he'
      cases h
      exact .inr ⟨m, e, e', he, he', rfl⟩
  · cases h

theorem mapPath_one {f : NodeMap S} {k : Name} {i : List Nat} {c c' : Fields (Arr S)}
    (h : mapPath f [k] i c = .ok c') : ∃ x y, c.get? k = some x ∧ f i x = .ok y ∧ c' = c.put k y := by
  rw [mapPath] at h
  split at h
  · cases h
  · rename_i x hx
    split at h
    · cases h
    · rename_i y hy
      cases h
      exact ⟨x, y, hx, hy, rfl⟩

/-- The changed nodes. -/
theorem mapPath_at {f : NodeMap S} : ∀ {p : Path} {i0 : List Nat} {c c' : Fields (Arr S)}, mapPath f p i0 c = .ok c' →
    ∀ {i : List Nat} {y : Node (Arr S)}, look c' p i = some y → ∃ x, look c p i = some x ∧ f (i0 ++ i) x = .ok y
  | [], _, _, _, _, _, _, h => by simp [look] at h
  | [k], i0, c, c', hm, i, y, h => by
    obtain ⟨x, y', h1, h2, rfl⟩ := mapPath_one hm
    rw [look_one] at h ⊢
    split at h
    · rename_i e
      subst e
      rw [Fields.get?_put_same h1] at h
      cases h
      exact ⟨x, h1, by simpa using h2⟩
    · cases h
  | k :: k' :: p, i0, c, c', hm, i, y, h => by
    rcases mapPath_cons hm with ⟨d, d', h1, h2, rfl⟩ | ⟨m, e, e', h1, h2, rfl⟩
    · rcases (look_ind (by simp)).1 h with ⟨d1, h4, h5⟩ | ⟨m', e, j, i', d1, h4, rfl, h5, h6⟩
      · rw [Fields.get?_put_same h1] at h4
        cases h4
        obtain ⟨x, h6, h7⟩ := mapPath_at h2 h5
        exact ⟨x, (look_ind (by simp)).2 (.inl ⟨d, h1, h6⟩), h7⟩
      · rw [Fields.get?_put_same h1] at h4
        cases h4
    · rcases (look_ind (by simp)).1 h with ⟨d1, h4, h5⟩ | ⟨m', e1, j, i', d1, h4, rfl, h5, h6⟩
      · rw [Fields.get?_put_same h1] at h4
        cases h4
      · rw [Fields.get?_put_same h1] at h4
        cases h4
        obtain ⟨-, h7⟩ := mapElems_ok h2
        obtain ⟨d, h8, h9⟩ := h7 j d1 h5
        obtain ⟨x, h10, h11⟩ := mapPath_at h9 h6
        refine ⟨x, (look_ind (by simp)).2 (.inr ⟨m, e, j, i', d, h1, rfl, h8, h10⟩), ?_⟩
        simpa using h11

/-- Other nodes. -/
theorem mapPath_other {f : NodeMap S} : ∀ {p : Path} {i0 : List Nat} {c c' : Fields (Arr S)}, mapPath f p i0 c = .ok c' →
    ∀ {q : Path} {i : List Nat} {y : Node (Arr S)}, ¬ p <+: q → look c' q i = some y →
    ∃ x, look c q i = some x ∧ obs x = obs y
  | [], _, _, _, _, q, _, _, hq, _ => absurd q.nil_prefix hq
  | _ :: _, _, _, _, _, [], _, _, _, h => by simp [look] at h
  | [k], i0, c, c', hm, [n], i, y, hq, h => by
    obtain ⟨x, y', h1, h2, rfl⟩ := mapPath_one hm
    have hk : n ≠ k := by rintro rfl; exact hq (List.prefix_refl _)
    rw [look_one] at h ⊢
    rw [Fields.get?_put_other hk] at h
    exact ⟨y, h, rfl⟩
  | [k], i0, c, c', hm, n :: n' :: q, i, y, hq, h => by
    obtain ⟨x, y', h1, h2, rfl⟩ := mapPath_one hm
    have hk : n ≠ k := by rintro rfl; exact hq (by simp)
    rw [look_cons _ _ _ (by simp)] at h ⊢
    rw [Fields.get?_put_other hk] at h
    exact ⟨y, h, rfl⟩
  | k :: k' :: p, i0, c, c', hm, [n], i, y, hq, h => by
    rw [look_one] at h ⊢
    split at h
    · rename_i ei
      rw [if_pos ei]
      rcases mapPath_cons hm with ⟨d, d', h1, h2, rfl⟩ | ⟨m, e, e', h1, h2, rfl⟩
      · by_cases hk : n = k
        · subst hk
          rw [Fields.get?_put_same h1] at h
          cases h
          exact ⟨_, h1, rfl⟩
        · rw [Fields.get?_put_other hk] at h
          exact ⟨y, h, rfl⟩
      · by_cases hk : n = k
        · subst hk
          rw [Fields.get?_put_same h1] at h
          cases h
          exact ⟨_, h1, by simp [obs, (mapElems_ok h2).1]⟩
        · rw [Fields.get?_put_other hk] at h
          exact ⟨y, h, rfl⟩
    · cases h
  | k :: k' :: p, i0, c, c', hm, n :: n' :: q, i, y, hq, h => by
    by_cases hk : n = k
    · subst hk
      have hq' : ¬ k' :: p <+: n' :: q := by
        intro hp
        exact hq ((List.prefix_cons_inj n).2 hp)
      rcases mapPath_cons hm with ⟨d, d', h1, h2, rfl⟩ | ⟨m, e, e', h1, h2, rfl⟩
      · rcases (look_ind (by simp)).1 h with ⟨d1, h4, h5⟩ | ⟨m', e, j, i', d1, h4, rfl, h5, h6⟩
        · rw [Fields.get?_put_same h1] at h4
          cases h4
          obtain ⟨x, h6, h7⟩ := mapPath_other h2 hq' h5
          exact ⟨x, (look_ind (by simp)).2 (.inl ⟨d, h1, h6⟩), h7⟩
        · rw [Fields.get?_put_same h1] at h4
          cases h4
      · rcases (look_ind (by simp)).1 h with ⟨d1, h4, h5⟩ | ⟨m', e1, j, i', d1, h4, rfl, h5, h6⟩
        · rw [Fields.get?_put_same h1] at h4
          cases h4
        · rw [Fields.get?_put_same h1] at h4
          cases h4
          obtain ⟨-, h7⟩ := mapElems_ok h2
          obtain ⟨d, h8, h9⟩ := h7 j d1 h5
          obtain ⟨x, h10, h11⟩ := mapPath_other h9 hq' h6
          exact ⟨x, (look_ind (by simp)).2 (.inr ⟨m, e, j, i', d, h1, rfl, h8, h10⟩), h11⟩
    · have : c'.get? n = c.get? n := by
        rcases mapPath_cons hm with ⟨d, d', h1, h2, rfl⟩ | ⟨m, e, e', h1, h2, rfl⟩
        · rw [Fields.get?_put_other hk]
        · rw [Fields.get?_put_other hk]
      rw [look_cons _ _ _ (by simp)] at h ⊢
      rw [this] at h
      exact ⟨y, h, rfl⟩

theorem typedE_iff {V : Type} {m : MFields} : ∀ {e : Elems V}, TypedE e m ↔ ∀ j d, e.get? j = some d → TypedF d m
  | .nil => by simp [TypedE, Elems.get?]
  | .cons c r => by
    rw [TypedE, typedE_iff (e := r)]
    constructor
    · rintro ⟨h, h'⟩ j d hd
      cases j with
      | zero => cases hd; exact h
      | succ j => exact h' j d hd
    · intro h
      exact ⟨h 0 c rfl, fun j d hd => h (j + 1) d hd⟩

/-- Types are kept. -/
theorem mapPath_typed {f : NodeMap S} (hf : ∀ i x y z, f i x = .ok y → Typed x z → Typed y z) :
    ∀ {p : Path} {i0 : List Nat} {c c' : Fields (Arr S)} {m : MFields}, mapPath f p i0 c = .ok c' → TypedF c m → TypedF c' m
  | [], _, _, _, _, h, _ => by simp [mapPath] at h
  | [k], i0, c, c', m, hm, ht => by
    obtain ⟨x, y', h1, h2, rfl⟩ := mapPath_one hm
    rcases typed_child ht k with ⟨-, h3⟩ | ⟨y, z, h3, h4, h5⟩
    · rw [h3] at h1; cases h1
    · rw [h4] at h1
      cases h1
      exact Verif.Convert.typed_put ht (by rw [mget_mchild]; exact h3) (hf _ _ _ _ h2 h5)
  | k :: k' :: p, i0, c, c', m, hm, ht => by
    rcases typed_child ht k with ⟨-, h3⟩ | ⟨y, z, h3, h4, h5⟩
    · rcases mapPath_cons hm with ⟨d, d', h1, h2, rfl⟩ | ⟨m, e, e', h1, h2, rfl⟩
      · rw [h3] at h1; cases h1
      · rw [h3] at h1; cases h1
    · rcases mapPath_cons hm with ⟨d, d', h1, h2, rfl⟩ | ⟨m1, e, e', h1, h2, rfl⟩
      · rw [h4] at h1
        cases h1
        refine Verif.Convert.typed_put ht (by rw [mget_mchild]; exact h3) ?_
        cases y with
        | leaf => simp [Typed] at h5
        | aos => simp [Typed] at h5
        | struct m' =>
          simp only [Typed] at h5 ⊢
          exact mapPath_typed hf h2 h5
      · rw [h4] at h1
        cases h1
        refine Verif.Convert.typed_put ht (by rw [mget_mchild]; exact h3) ?_
        cases y with
        | leaf => simp [Typed] at h5
        | struct => simp [Typed] at h5
        | aos m' =>
          simp only [Typed] at h5 ⊢
          refine ⟨h5.1, typedE_iff.2 ?_⟩
          intro j d' hd'
          obtain ⟨d, h8, h9⟩ := (mapElems_ok h2).2 j d' hd'
          exact mapPath_typed hf h9 (typed_elem h5.2 h8)

/-- It succeeds if all nodes can be changed. -/
theorem mapPath_success {f : NodeMap S} : ∀ {p : Path} {i0 : List Nat} {c : Fields (Arr S)} {m : MFields} {z : Meta}, TypedF c m →
    p ≠ [] → metaAt (.struct m) p = some z → (∀ i x, look c p i = some x → ∃ y, f (i0 ++ i) x = .ok y) →
    ∃ c', mapPath f p i0 c = .ok c'
  | [], _, _, _, _, _, h, _, _ => absurd rfl h
  | [k], i0, c, m, z, ht, _, hz, hf => by
    rcases typed_child ht k with ⟨h3, -⟩ | ⟨y, x, h3, h4, h5⟩
    · simp [metaAt, child, h3] at hz
    · obtain ⟨y, hy⟩ := hf [] x (by rw [look]; exact h4)
      rw [List.append_nil] at hy
      exact ⟨c.put k y, by simp [mapPath, h4, hy]⟩
  | k :: k' :: p, i0, c, m, z, ht, _, hz, hf => by
    rcases typed_child ht k with ⟨h3, -⟩ | ⟨y, x, h3, h4, h5⟩
    · simp [metaAt, child, h3] at hz
    · rw [metaAt, child, h3, Option.bind_some] at hz
      cases x with
      | leaf l v =>
        cases y with
        | leaf => simp [metaAt, child] at hz
        | struct => simp [Typed] at h5
        | aos => simp [Typed] at h5
      | struct d =>
        cases y with
        | leaf => simp [Typed] at h5
        | aos => simp [Typed] at h5
        | struct m' =>
          simp only [Typed] at h5
          obtain ⟨d', hd'⟩ := mapPath_success (i0 := i0) h5 (by simp) hz fun i x hx =>
            hf i x ((look_ind (by simp)).2 (.inl ⟨d, h4, hx⟩))
          exact ⟨_, by rw [mapPath, h4]; simp only [hd']; rfl⟩
      | aos m1 e =>
        cases y with
        | leaf => simp [Typed] at h5
        | struct => simp [Typed] at h5
        | aos m' =>
          simp only [Typed] at h5
          have hz' : metaAt (.struct m') (k' :: p) = some z := by simpa only [metaAt, child] using hz
          obtain ⟨e', he'⟩ := mapElems_success (g := fun j d => mapPath f (k' :: p) (i0 ++ [j]) d) (e := e) (k := 0) fun j d hj => by
            simp only [Nat.zero_add]
            refine mapPath_success (typed_elem h5.2 hj) (by simp) hz' fun i x hx => ?_
            have := hf (j :: i) x ((look_ind (by simp)).2 (.inr ⟨m1, e, j, i, d, h4, rfl, hj, hx⟩))
            simpa using this
          exact ⟨_, by rw [mapPath, h4]; simp only [he']; rfl⟩

end Verif.Nc
