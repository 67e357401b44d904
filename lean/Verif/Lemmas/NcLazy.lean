import Verif.Lemmas.NcEager
/-
Lazily loaded nodes are those of an eager read.
-/
namespace Verif.Nc
open Verif.Ids Verif.TreeSpec Verif.NcSpec
open Verif.ConvertSpec (mchild child metaAt)
open Verif.AlSpec (arraysOf IsDataPath)

set_option linter.unusedSectionVars false
variable {S : Type} [DecidableEq S]

section
variable (R : Reader S) (hom : Bool) (lm : List (Path × Path))

mutual
/-- The loaded nodes are what `get_child` gives. -/
def LoadedX (p : Path) (i : List Nat) : Node (Arr S) → Prop
  | .leaf l w => lazyNode R hom lm p i (.leaf l) = .ok (.leaf l w)
  | .struct c => LoadedF p i c
  | .aos m e => lazyNode R hom lm p i (.aos m) = .ok (.aos m (freshElems m e.length)) ∧ LoadedE p i 0 e
def LoadedF (p : Path) (i : List Nat) : Fields (Arr S) → Prop
  | .nil => True
  | .absent _ _ r => LoadedF p i r
  | .present n x r => LoadedX (p ++ [n]) i x ∧ LoadedF p i r
def LoadedE (p : Path) (i : List Nat) (k : Nat) : Elems (Arr S) → Prop
  | .nil => True
  | .cons c r => LoadedF p (i ++ [k]) c ∧ LoadedE p i (k + 1) r
end

variable {R hom lm}

theorem loaded_fresh (p : Path) (i : List Nat) : ∀ m : MFields, LoadedF R hom lm p i (m.fresh : Fields (Arr S))
  | .nil => by simp [MFields.fresh, LoadedF]
  | .cons n m r => by simpa [MFields.fresh, LoadedF] using loaded_fresh p i r

theorem loaded_freshElems (p : Path) (i : List Nat) (m : MFields) : ∀ (n k : Nat), LoadedE R hom lm p i k (freshElems m n : Elems (Arr S))
  | 0, _ => by simp [freshElems, LoadedE]
  | n + 1, k => by simpa [freshElems, LoadedE] using ⟨loaded_fresh p (i ++ [k]) m, loaded_freshElems p i m n (k + 1)⟩

theorem lazyNode_aos {p : Path} {i : List Nat} {m : MFields} {x : Node (Arr S)} (h : lazyNode R hom lm p i (.aos m) = .ok x) :
    ∃ n, x = .aos m (freshElems m n) := by
  unfold lazyNode at h
  split at h
  · rename_i c e; cases e
  · rename_i c e
    cases e
    split at h
    · cases h; exact ⟨0, rfl⟩
    · split at h
      · cases h
      · split at h
        · cases h
        · rename_i n _; cases h; exact ⟨n, rfl⟩
  · rename_i c e; cases e

theorem lazyNode_leaf {p : Path} {i : List Nat} {l : LeafMeta} {x : Node (Arr S)} (h : lazyNode R hom lm p i (.leaf l) = .ok x) :
    ∃ w, x = .leaf l w := by
  unfold lazyNode at h
  split at h
  · rename_i c e; cases e
  · rename_i c e; cases e
  · rename_i c e
    cases e
    split at h
    · cases h; exact ⟨none, rfl⟩
    · split at h
      · cases h
      · split at h
        · cases h
        · rename_i n _; cases h; exact ⟨n, rfl⟩

theorem loaded_new {p : Path} {i : List Nat} {m : Meta} {x : Node (Arr S)} (h : lazyNode R hom lm p i m = .ok x) :
    LoadedX R hom lm p i x ∧ Typed x m := by
  cases m with
  | leaf l =>
    obtain ⟨w, rfl⟩ := lazyNode_leaf h
    exact ⟨h, rfl⟩
  | struct c =>
    simp only [lazyNode, Except.ok.injEq] at h
    subst h
    exact ⟨loaded_fresh p i c, typed_freshF c⟩
  | aos m =>
    obtain ⟨n, rfl⟩ := lazyNode_aos h
    refine ⟨?_, rfl, freshElems_typed⟩
    simp only [LoadedX]
    exact ⟨by rw [freshElems_length]; exact h, loaded_freshElems p i m n 0⟩

theorem loaded_obs {p : Path} {i : List Nat} {m : Meta} {x y : Node (Arr S)} (h : LoadedX R hom lm p i x) (ht : Typed x m)
    (hy : lazyNode R hom lm p i m = .ok y) : obs x = obs y := by
  cases m with
  | leaf l =>
    cases x with
    | leaf l' w =>
      simp only [Typed] at ht
      subst ht
      simp only [LoadedX] at h
      rw [h] at hy
      cases hy
      rfl
    | struct => simp [Typed] at ht
    | aos => simp [Typed] at ht
  | struct c =>
    simp only [lazyNode, Except.ok.injEq] at hy
    subst hy
    cases x with
    | leaf => simp [Typed] at ht
    | struct => rfl
    | aos => simp [Typed] at ht
  | aos m =>
    cases x with
    | leaf => simp [Typed] at ht
    | struct => simp [Typed] at ht
    | aos m' e =>
      simp only [Typed] at ht
      obtain ⟨rfl, -⟩ := ht
      simp only [LoadedX] at h
      rw [h.1] at hy
      cases hy
      simp [obs, freshElems_length]

theorem loaded_put {p : Path} {i : List Nat} {k : Name} {y : Node (Arr S)} (hy : LoadedX R hom lm (p ++ [k]) i y) :
    ∀ {c : Fields (Arr S)}, LoadedF R hom lm p i c → LoadedF R hom lm p i (c.put k y)
  | .nil, _ => by simp [Fields.put, LoadedF]
  | .absent n m r, h => by
    simp only [LoadedF] at h
    simp only [Fields.put]
    split
    · rename_i e; subst e; simp only [LoadedF]; exact ⟨hy, h⟩
    · simp only [LoadedF]; exact loaded_put hy h
  | .present n x r, h => by
    simp only [LoadedF] at h
    simp only [Fields.put]
    split
    · rename_i e; subst e; simp only [LoadedF]; exact ⟨hy, h.2⟩
    · simp only [LoadedF]; exact ⟨h.1, loaded_put hy h.2⟩

theorem loaded_set {p : Path} {i : List Nat} {d : Fields (Arr S)} : ∀ {e : Elems (Arr S)} {k a : Nat},
    LoadedF R hom lm p (i ++ [k + a]) d → LoadedE R hom lm p i k e → LoadedE R hom lm p i k (e.set a d)
  | .nil, _, _, _, _ => by simp [Elems.set, LoadedE]
  | .cons c r, k, 0, hd, h => by
    simp only [LoadedE] at h
    simp only [Elems.set, LoadedE]
    exact ⟨by simpa using hd, h.2⟩
  | .cons c r, k, a + 1, hd, h => by
    simp only [LoadedE] at h
    simp only [Elems.set, LoadedE]
    exact ⟨h.1, loaded_set (by rw [show k + 1 + a = k + (a + 1) by omega]; exact hd) h.2⟩

theorem loaded_get {p : Path} {i : List Nat} : ∀ {e : Elems (Arr S)} {k a : Nat} {d : Fields (Arr S)},
    LoadedE R hom lm p i k e → e.get? a = some d → LoadedF R hom lm p (i ++ [k + a]) d
  | .nil, _, _, _, _, h => by simp [Elems.get?] at h
  | .cons c r, k, 0, d, h, hd => by
    simp only [LoadedE] at h
    simp only [Elems.get?, Option.some.injEq] at hd
    subst hd
    exact h.1
  | .cons c r, k, a + 1, d, h, hd => by
    simp only [LoadedE] at h
    have := loaded_get h.2 (by simpa [Elems.get?] using hd)
    rw [show k + 1 + a = k + (a + 1) by omega] at this
    exact this

theorem set_length {V : Type} : ∀ {e : Elems V} {a : Nat} {d : Fields V}, (e.set a d).length = e.length
  | .nil, _, _ => by simp [Elems.set]
  | .cons c r, 0, _ => by simp [Elems.set, Elems.length]
  | .cons c r, a + 1, d => by simp [Elems.set, Elems.length, set_length (e := r)]

/-- Access to a child. -/
theorem lazyChild_ok {p : Path} {i : List Nat} {k : Name} : ∀ {c : Fields (Arr S)} {m : MFields}, TypedF c m →
    LoadedF R hom lm p i c →
    (mchild m k = none → lazyChild R hom lm p i k c = (c, .error .attribute)) ∧
    ∀ z x0, mchild m k = some z → lazyNode R hom lm (p ++ [k]) i z = .ok x0 →
      ∃ c' x, lazyChild R hom lm p i k c = (c', .ok x) ∧ c'.get? k = some x ∧ Typed x z ∧ LoadedX R hom lm (p ++ [k]) i x ∧
        TypedF c' m ∧ LoadedF R hom lm p i c'
  | .nil, .nil, _, _ => by simp [mchild, lazyChild]
  | .nil, .cons .., h, _ => by simp [TypedF] at h
  | .absent .., .nil, h, _ => by simp [TypedF] at h
  | .present .., .nil, h, _ => by simp [TypedF] at h
  | .absent n m1 r, .cons n' m' r', ht, hl => by
    simp only [TypedF] at ht
    obtain ⟨rfl, rfl, ht⟩ := ht
    simp only [LoadedF] at hl
    obtain ⟨h1, h2⟩ := lazyChild_ok ht hl
    simp only [mchild, lazyChild]
    by_cases hk : k = n
    · subst hk
      simp only [if_true]
      refine ⟨by simp, ?_⟩
      rintro z x0 ⟨⟩ hx
      obtain ⟨h3, h4⟩ := loaded_new hx
      simp only [hx]
      exact ⟨_, _, rfl, by simp [Fields.get?], h4, h3, by simp only [TypedF]; exact ⟨trivial, h4, ht⟩, by simp only [LoadedF]; exact ⟨h3, hl⟩⟩
    · simp only [if_neg hk]
      refine ⟨fun hn => by rw [h1 hn], ?_⟩
      intro z x0 hz hx
      obtain ⟨c', x, h3, h4, h5, h6, h7, h8⟩ := h2 z x0 hz hx
      simp only [h3]
      exact ⟨_, _, rfl, by simp [Fields.get?, if_neg hk, h4], h5, h6, by simp only [TypedF]; exact ⟨trivial, trivial, h7⟩, by simp only [LoadedF]; exact h8⟩
  | .present n y r, .cons n' m' r', ht, hl => by
    simp only [TypedF] at ht
    obtain ⟨rfl, hy, ht⟩ := ht
    simp only [LoadedF] at hl
    obtain ⟨h1, h2⟩ := lazyChild_ok ht hl.2
    simp only [mchild, lazyChild]
    by_cases hk : k = n
    · subst hk
      simp only [if_true]
      refine ⟨by simp, ?_⟩
      rintro z x0 ⟨⟩ hx
      exact ⟨_, _, rfl, by simp [Fields.get?], hy, hl.1, by simp only [TypedF]; exact ⟨trivial, hy, ht⟩, by simp only [LoadedF]; exact hl⟩
    · simp only [if_neg hk]
      refine ⟨fun hn => by rw [h1 hn], ?_⟩
      intro z x0 hz hx
      obtain ⟨c', x, h3, h4, h5, h6, h7, h8⟩ := h2 z x0 hz hx
      simp only [h3]
      exact ⟨_, _, rfl, by simp [Fields.get?, if_neg hk, h4], h5, h6, by simp only [TypedF]; exact ⟨trivial, hy, h7⟩, by simp only [LoadedF]; exact ⟨hl.1, h8⟩⟩

/-- The nodes of `d` (with path `p` and indices `i`) are those a lazy load gives. -/
def EagerAs (R : Reader S) (hom : Bool) (lm : List (Path × Path)) (p : Path) (i : List Nat) (d : Fields (Arr S)) : Prop :=
  ∀ q j x z, look d q j = some x → Typed x z → ∃ x', lazyNode R hom lm (p ++ q) (i ++ j) z = .ok x' ∧ obs x' = obs x

theorem lazyGet_ok : ∀ (q : Path) {p : Path} {i j : List Nat} {c d : Fields (Arr S)} {m : MFields}, TypedF c m → TypedF d m →
    LoadedF R hom lm p i c → EagerAs R hom lm p i d →
    TypedF (lazyGet R hom lm p i q j c).1 m ∧ LoadedF R hom lm p i (lazyGet R hom lm p i q j c).1 ∧
      SameResult (look d q j) (lazyGet R hom lm p i q j c).2
  | [], p, i, j, c, d, m, hc, hd, hl, he => by
    simp only [lazyGet, look]
    exact ⟨hc, hl, _, rfl⟩
  | [k], p, i, j, c, d, m, hc, hd, hl, he => by
    cases j with
    | cons a j => simp only [lazyGet, look]; exact ⟨hc, hl, _, rfl⟩
    | nil =>
      simp only [lazyGet, look]
      obtain ⟨h1, h2⟩ := lazyChild_ok (k := k) hc hl
      rcases typed_child hd k with ⟨h3, h4⟩ | ⟨z, x, h3, h4, h5⟩
      · rw [h1 h3, h4]
        exact ⟨hc, hl, _, rfl⟩
      · obtain ⟨x', h6, h7⟩ := he [k] [] x z (by rw [look]; exact h4) h5
        rw [List.append_nil] at h6
        obtain ⟨c', y, h8, h9, h10, h11, h12, h13⟩ := h2 z x' h3 h6
        rw [h8, h4]
        exact ⟨h12, h13, y, rfl, (loaded_obs h11 h10 h6).trans h7⟩
  | k :: k' :: q, p, i, j, c, d, m, hc, hd, hl, he => by
    rw [lazyGet]
    obtain ⟨h1, h2⟩ := lazyChild_ok (k := k) hc hl
    rcases typed_child hd k with ⟨h3, h4⟩ | ⟨z, x, h3, h4, h5⟩
    · rw [h1 h3, look_cons _ _ _ (by simp), h4]
      exact ⟨hc, hl, _, rfl⟩
    · obtain ⟨x', h6, h7⟩ := he [k] [] x z (by rw [look]; exact h4) h5
      rw [List.append_nil] at h6
      obtain ⟨c', y, h8, h9, h10, h11, h12, h13⟩ := h2 z x' h3 h6
      have h14 := (loaded_obs h11 h10 h6).trans h7
      rw [h8, look_cons _ _ _ (by simp), h4, Option.bind_some]
      cases z with
      | leaf l =>
        cases x <;> simp only [Typed] at h5
        cases y <;> simp only [Typed] at h10
        exact ⟨h12, h13, _, rfl⟩
      | struct mf =>
        cases x <;> simp only [Typed] at h5
        cases y <;> simp only [Typed] at h10
        rename_i d1 c1
        have he' : EagerAs R hom lm (p ++ [k]) i d1 := by
          intro q' j' x z hx hz
          have hq' : q' ≠ [] := by rintro rfl; simp [look] at hx
          have := he (k :: q') j' x z ((look_ind hq').2 (.inl ⟨_, h4, hx⟩)) hz
          simpa using this
        simp only [LoadedX] at h11
        obtain ⟨h15, h16, h17⟩ := lazyGet_ok (k' :: q) (j := j) h10 h5 h11 he'
        exact ⟨Verif.Convert.typed_put h12 (by rw [mget_mchild]; exact h3) (by simpa only [Typed] using h15),
          loaded_put (by simpa only [LoadedX] using h16) h13, h17⟩
      | aos mf =>
        cases x <;> simp only [Typed] at h5
        cases y <;> simp only [Typed] at h10
        rename_i m1 e1 m2 e2
        obtain ⟨rfl, h5⟩ := h5
        obtain ⟨rfl, h10⟩ := h10
        cases j with
        | nil => exact ⟨h12, h13, _, rfl⟩
        | cons a j =>
          simp only [obs, Obs.aos.injEq] at h14
          simp only [LoadedX] at h11
          cases h15 : e2.get? a with
          | none =>
            have : e1.get? a = none := by
              cases h16 : e1.get? a with
              | none => rfl
              | some w =>
                have h17 := elems_get.1 (by rw [h16]; rfl : (e1.get? a).isSome = true)
                rw [← h14] at h17
                have h18 := elems_get.2 h17
                rw [h15] at h18
                cases h18
            simp only [below, this, h15]
            exact ⟨h12, h13, _, rfl⟩
          | some c2 =>
            have : ∃ d2, e1.get? a = some d2 := by
              cases h16 : e1.get? a with
              | some w => exact ⟨w, rfl⟩
              | none =>
                have h17 := elems_get.1 (by rw [h15]; rfl : (e2.get? a).isSome = true)
                rw [h14] at h17
                have h18 := elems_get.2 h17
                rw [h16] at h18
                cases h18
            obtain ⟨d2, h16⟩ := this
            have he' : EagerAs R hom lm (p ++ [k]) (i ++ [a]) d2 := by
              intro q' j' x z hx hz
              have hq' : q' ≠ [] := by rintro rfl; simp [look] at hx
              have := he (k :: q') (a :: j') x z ((look_ind hq').2 (.inr ⟨_, _, _, _, _, h4, rfl, h16, hx⟩)) hz
              simpa using this
            have h18 := loaded_get h11.2 h15
            rw [Nat.zero_add] at h18
            obtain ⟨h19, h20, h21⟩ := lazyGet_ok (k' :: q) (j := j) (typed_elem h10 h15) (typed_elem h5 h16) h18 he'
            simp only [below, h16, h15, Option.bind_some]
            refine ⟨Verif.Convert.typed_put h12 (by rw [mget_mchild]; exact h3)
              (by simp only [Typed]; exact ⟨trivial, Verif.Convert.typed_set h10 h19⟩), loaded_put ?_ h13, h21⟩
            simp only [LoadedX]
            exact ⟨by rw [set_length]; exact h11.1, loaded_set (by simpa using h20) h11.2⟩

theorem lazyGets_ok {d : Fields (Arr S)} {m : MFields} (hd : TypedF d m) (he : EagerAs R hom lm [] [] d) :
    ∀ (acc : List (Path × List Nat)) {c : Fields (Arr S)}, TypedF c m → LoadedF R hom lm [] [] c →
    TypedF (lazyGets R hom lm acc c) m ∧ LoadedF R hom lm [] [] (lazyGets R hom lm acc c)
  | [], _, hc, hl => ⟨hc, hl⟩
  | (q, j) :: r, c, hc, hl => by
    obtain ⟨h1, h2, -⟩ := lazyGet_ok q (j := j) hc hd hl he
    exact lazyGets_ok hd he r h1 h2

end

/-! ### `_lazy_map` -/

/-- The variables with names in `D` are in the map. -/
def LazyMapOk (R : Reader S) (D : List (Path × Bool)) (l : List (Path × Path)) : Prop :=
  ∀ q p, dget l q = some p ↔ (p, false) ∈ D ∧ IsDataPath R.stored p ∧ targetOf R.map p = some q

theorem lazyMap_ok {R : Reader S} (ha : Aligned R.stored R.target (targetOf R.map)) :
    ∀ {L D : List (Path × Bool)} {l l' : List (Path × Path)}, LazyMapOk R D l → lazyMap R L l = .ok l' → LazyMapOk R (D ++ L) l'
  | [], D, l, l', hi, h => by
    simp only [lazyMap, Except.ok.injEq] at h
    subst h
    rwa [List.append_nil]
  | (p, true) :: r, D, l, l', hi, h => by
    simp only [lazyMap] at h
    have : LazyMapOk R (D ++ [(p, true)]) l := by
      intro q p'
      rw [hi q p']
      simp
    simpa using lazyMap_ok ha this h
  | (p, false) :: r, D, l, l', hi, h => by
    simp only [lazyMap] at h
    split at h
    · cases h
    · rename_i d hd
      have : LazyMapOk R (D ++ [(p, false)]) l := by
        intro q p'
        rw [hi q p']
        constructor
        · rintro ⟨h1, h2⟩; exact ⟨by simp [h1], h2⟩
        · rintro ⟨h1, h2⟩
          refine ⟨?_, h2⟩
          rcases List.mem_append.1 h1 with h1 | h1
          · exact h1
          · simp only [List.mem_singleton, Prod.mk.injEq, and_true] at h1
            subst h1
            obtain ⟨⟨x, hx, hn⟩, -⟩ := h2
            have hp : p' ≠ [] := by rintro rfl; simp [metaOf] at hd
            rw [metaOf_eq _ _ hp, hx] at hd
            cases hd
            exact absurd rfl (hn _)
      simpa using lazyMap_ok ha this h
    · rename_i m hns hm
      have hp : p ≠ [] := by rintro rfl; simp [metaOf] at hm
      have hdp : IsDataPath R.stored p := ⟨m, by rw [← metaOf_eq _ _ hp]; exact hm, by rintro d rfl; exact absurd rfl (hns d)⟩
      split at h
      · rename_i ht
        have : LazyMapOk R (D ++ [(p, false)]) l := by
          intro q p'
          rw [hi q p']
          constructor
          · rintro ⟨h1, h2⟩; exact ⟨by simp [h1], h2⟩
          · rintro ⟨h1, h2⟩
            refine ⟨?_, h2⟩
            rcases List.mem_append.1 h1 with h1 | h1
            · exact h1
            · simp only [List.mem_singleton, Prod.mk.injEq, and_true] at h1
              subst h1
              rw [ht] at h2
              cases h2.2
        simpa using lazyMap_ok ha this h
      · rename_i q0 ht
        split at h
        · cases h
        · have : LazyMapOk R (D ++ [(p, false)]) (dset l q0 p) := by
            intro q p'
            rw [dget_dset]
            split
            · rename_i e
              subst e
              constructor
              · rintro ⟨⟩; exact ⟨by simp, hdp, ht⟩
              · rintro ⟨h1, h2, h3⟩
                rw [ha.inj p p' _ hdp h2 ht h3]
            · rename_i hne
              rw [hi q p']
              constructor
              · rintro ⟨h1, h2⟩; exact ⟨by simp [h1], h2⟩
              · rintro ⟨h1, h2⟩
                refine ⟨?_, h2⟩
                rcases List.mem_append.1 h1 with h1 | h1
                · exact h1
                · simp only [List.mem_singleton, Prod.mk.injEq, and_true] at h1
                  subst h1
                  rw [ht] at h2
                  cases h2.2
                  exact absurd rfl hne
          simpa using lazyMap_ok ha this h

/-- It can be made if all variables can be read. -/
theorem lazyMap_success {R : Reader S} {hom : Bool} : ∀ {L : List (Path × Bool)} {c c' : Fields (Arr S)} {l : List (Path × Path)},
    readVars R hom L c = .ok c' → ∃ l', lazyMap R L l = .ok l'
  | [], _, _, l, _ => ⟨l, rfl⟩
  | (p, true) :: r, c, c', l, h => by
    simp only [readVars, readVar] at h
    simp only [lazyMap]
    exact lazyMap_success h
  | (p, false) :: r, c, c', l, h => by
    simp only [readVars] at h
    split at h
    · cases h
    · rename_i c1 h1
      simp only [readVar] at h1
      simp only [lazyMap]
      split at h1
      · rename_i d hd
        simp only [hd]
        exact lazyMap_success h
      · rename_i m v hns hm hv
        rw [hm]
        cases m with
        | struct d => exact absurd rfl (hns d)
        | leaf lf =>
          simp only
          split at h1
          · exact lazyMap_success h
          · rename_i q ht
            split at h1
            · cases h1
            · exact lazyMap_success h
        | aos d =>
          simp only
          split at h1
          · exact lazyMap_success h
          · rename_i q ht
            split at h1
            · cases h1
            · exact lazyMap_success h
      · cases h1

/-! ### Eager and lazy -/

theorem sub_nil (a : Arr S) : a.sub [] = some a := by
  simp only [Arr.sub, fits]
  congr 1

/-- The value does not depend on how data that are not tensorized are read. -/
theorem readValue_whole {R : Reader S} {b : Bool} {p : Path} {l l' : LeafMeta} {v : Var S} {i : List Nat} {w : Option (Arr S)}
    (hl : l.ndim = l'.ndim) (hi : b = true → i = []) (h : readValue R b p l v i = .ok w) : readValue R false p l' v i = .ok w := by
  unfold readValue at h ⊢
  rw [← hl]
  split at h
  · rename_i hs
    rw [if_pos hs]
    exact h
  · rename_i hs
    rw [if_neg hs]
    split at h
    · rename_i hb
      rw [hi hb, sub_nil]
      simp only [Bool.false_eq_true, if_false]
      split at h
      · exact h
      · cases h
    · rename_i hb
      simp only [Bool.false_eq_true, if_false]
      exact h

/-- Without index in arrays of structures if the path is in none. -/
def AosOk (N : NcMeta) (m : MFields) : Prop :=
  ∀ p, IsDataPath m p → N.aos p = (arraysOf m [] p).getLast?

/-- Arrays of structures that are not sparse have the dimension of what they are stored as. -/
def SizesKnown (R : Reader S) (hom : Bool) : Prop :=
  ∀ p q v, (∃ c, metaAt (.struct R.stored) p = some (.aos c)) → targetOf R.map p = some q → dget R.group.vars p = some v →
    v.sparse = false → (R.N.getDims hom q).getLast? = (R.N.getDims hom p).getLast?

theorem eagerAs {R : Reader S} {hom : Bool} {lm : List (Path × Path)} (ha : Aligned R.stored R.target (targetOf R.map))
    (hN : AosOk R.N R.stored) (hs : SizesKnown R hom) {c : Fields (Arr S)} (hc : EagerInv R hom R.group.names c)
    (hlm : LazyMapOk R R.group.names lm) : EagerAs R hom lm [] [] c := by
  intro q i x z hx hz
  simp only [List.nil_append]
  cases z with
  | struct mf =>
    cases x with
    | leaf => simp [Typed] at hz
    | aos => simp [Typed] at hz
    | struct d => exact ⟨_, rfl, rfl⟩
  | leaf l =>
    cases x with
    | struct => simp [Typed] at hz
    | aos => simp [Typed] at hz
    | leaf l' w =>
      simp only [Typed] at hz
      subst hz
      simp only [lazyNode]
      cases hq : dget lm q with
      | none =>
        have := hc.unset q i _ hx fun p h1 h2 h3 => by
          rw [(hlm q p).2 ⟨h1, h2, h3⟩] at hq
          cases hq
        simp only [Unset] at this
        subst this
        exact ⟨_, rfl, rfl⟩
      | some p =>
        obtain ⟨h1, h2, h3⟩ := (hlm q p).1 hq
        obtain ⟨v, l0, h4, h5, h6⟩ := hc.read q i _ hx p h1 h2 h3
        have hp := isDataPath_ne h2
        rw [metaOf_eq _ _ hp] at h5
        obtain ⟨-, y, h7, h8⟩ := ha.kind p q _ hp h5 id h3
        obtain ⟨y', h9, h10, h11⟩ := look_typed q [] hc.typed hx
        rw [h7] at h9
        cases h9
        cases y with
        | struct => cases h8
        | aos => cases h8
        | leaf l1 =>
          simp only [Typed] at h10
          subst h10
          have harr := congrArg List.length (ha.arrays p q h2 h3)
          simp only [List.length_map] at harr
          have := readValue_whole (l' := l') (h8.2) (fun hb => by
            rw [hN p h2, Option.isNone_iff_eq_none, List.getLast?_eq_none_iff] at hb
            rw [hb] at harr
            simp only [List.length_nil] at harr
            rw [← harr] at h11
            exact List.eq_nil_of_length_eq_zero h11) h6
          simp only [h4, this]
          exact ⟨_, rfl, rfl⟩
  | aos mf =>
    cases x with
    | struct => simp [Typed] at hz
    | leaf => simp [Typed] at hz
    | aos m' e =>
      simp only [Typed] at hz
      obtain ⟨rfl, -⟩ := hz
      simp only [lazyNode]
      cases hq : dget lm q with
      | none =>
        have := hc.unset q i _ hx fun p h1 h2 h3 => by
          rw [(hlm q p).2 ⟨h1, h2, h3⟩] at hq
          cases hq
        simp only [Unset] at this
        exact ⟨_, rfl, by simp [obs, this, Elems.length]⟩
      | some p =>
        obtain ⟨h1, h2, h3⟩ := (hlm q p).1 hq
        obtain ⟨v, c0, h4, h5, h6⟩ := hc.read q i _ hx p h1 h2 h3
        rw [metaOf_eq _ _ (isDataPath_ne h2)] at h5
        have : readSize R hom p q v i = .ok e.length := by
          unfold readSize at h6 ⊢
          split
          · rename_i hsp
            rw [if_pos hsp] at h6
            exact h6
          · rename_i hsp
            rw [if_neg hsp] at h6
            rw [hs p q v ⟨c0, h5⟩ h3 h4 (by simpa using hsp)]
            exact h6
        simp only [h4, this]
        exact ⟨_, rfl, by simp [obs, freshElems_length]⟩

end Verif.Nc
