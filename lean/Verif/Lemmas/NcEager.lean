import Verif.Lemmas.NcMapPath
import Verif.Lemmas.NcSort
/-
What an eager read of a netCDF group gives.
-/
namespace Verif.Nc
open Verif.Ids Verif.TreeSpec Verif.NcSpec
open Verif.ConvertSpec (mchild child metaAt)
open Verif.AlSpec (arraysOf IsDataPath)

set_option linter.unusedSectionVars false
variable {S : Type} [DecidableEq S]

/-- What is read for a node from the variable with path `p`. -/
def ReadAs (R : Reader S) (hom : Bool) (p : Path) (i : List Nat) : Node (Arr S) → Prop
  | .leaf _ w => ∃ v l, dget R.group.vars p = some v ∧ metaOf R.stored p = some (.leaf l) ∧
      readValue R (R.N.aos p).isNone p l v i = .ok w
  | .aos _ e => ∃ v c, dget R.group.vars p = some v ∧ metaOf R.stored p = some (.aos c) ∧
      readSize R hom p p v i = .ok e.length
  | .struct _ => False

/-- Nothing is set. -/
def Unset {V : Type} : Node V → Prop
  | .leaf _ w => w = none
  | .aos _ e => e.length = 0
  | .struct _ => True

/-- The variables with names in `D` are read. -/
structure EagerInv (R : Reader S) (hom : Bool) (D : List (Path × Bool)) (c : Fields (Arr S)) : Prop where
  typed : TypedF c R.target
  read : ∀ q i x, look c q i = some x → ∀ p, (p, false) ∈ D → IsDataPath R.stored p → targetOf R.map p = some q →
    ReadAs R hom p i x
  unset : ∀ q i x, look c q i = some x → (∀ p, (p, false) ∈ D → IsDataPath R.stored p → targetOf R.map p ≠ some q) → Unset x

theorem readAs_obs {R : Reader S} {hom : Bool} {p : Path} {i : List Nat} {x y : Node (Arr S)} (h : obs x = obs y)
    (hr : ReadAs R hom p i x) : ReadAs R hom p i y := by
  cases x <;> cases y <;> simp_all [obs, ReadAs]

theorem unset_obs {V : Type} {x y : Node V} (h : obs x = obs y) (hr : Unset x) : Unset y := by
  cases x <;> cases y <;> simp_all [obs, Unset]

theorem unset_fresh {V : Type} (m : Meta) : Unset (m.fresh : Node V) := by
  cases m <;> simp [Unset, Meta.fresh, Elems.length]

theorem freshElems_get {m : MFields} : ∀ {n : Nat} {j : Nat} {d : Fields (Arr S)}, (freshElems m n).get? j = some d → d = m.fresh
  | 0, _, _, h => by simp [freshElems, Elems.get?] at h
  | n + 1, 0, _, h => by simp [freshElems, Elems.get?] at h; exact h.symm
  | n + 1, j + 1, _, h => freshElems_get (n := n) (by simpa [freshElems, Elems.get?] using h)

theorem freshElems_length {m : MFields} : ∀ {n : Nat}, (freshElems m n : Elems (Arr S)).length = n
  | 0 => rfl
  | n + 1 => by simp [freshElems, Elems.length, freshElems_length (n := n)]

theorem freshElems_typed {m : MFields} {n : Nat} : TypedE (freshElems m n : Elems (Arr S)) m :=
  typedE_iff.2 fun _ _ h => by rw [freshElems_get h]; exact typed_freshF m

/-- What happens to a node. -/
theorem readNode_ok {R : Reader S} {hom : Bool} {p : Path} {m : Meta} {v : Var S} {i : List Nat} {x y : Node (Arr S)}
    (hm : metaOf R.stored p = some m) (hv : dget R.group.vars p = some v) (hx : Unset x) (hs : ¬ IsStruct m)
    (h : readNode R hom p m v i x = .ok y) :
    ReadAs R hom p i y ∧ (∀ z, Typed x z → Typed y z) ∧
      (∀ q j z, below (fun d i => look d q i) y j = some z → Unset z) := by
  cases m with
  | struct c => exact absurd trivial hs
  | leaf l =>
    simp only [readNode] at h
    split at h
    · cases h
    · rename_i w hw
      cases x with
      | struct => cases h
      | aos => cases h
      | leaf l' u =>
        simp only [Unset] at hx
        subst hx
        simp only [setLeaf, Option.or_none, Except.ok.injEq] at h
        subst h
        refine ⟨⟨v, l, hv, hm, hw⟩, ?_, ?_⟩
        · intro z hz; cases z <;> simp_all [Typed]
        · intro q j z hz; cases j <;> simp [below] at hz
  | aos c =>
    simp only [readNode] at h
    split at h
    · cases h
    · rename_i n hn
      cases x with
      | struct => cases h
      | leaf => cases h
      | aos mf e =>
        simp only [resizeNode, Except.ok.injEq] at h
        subst h
        refine ⟨⟨v, c, hv, hm, by rw [hn, freshElems_length]⟩, ?_, ?_⟩
        · intro z hz
          cases z with
          | leaf => simp [Typed] at hz
          | struct => simp [Typed] at hz
          | aos m' =>
            simp only [Typed] at hz ⊢
            obtain ⟨rfl, -⟩ := hz
            exact ⟨rfl, freshElems_typed⟩
        · intro q j z hz
          rcases below_some.1 hz with ⟨d, h1, -⟩ | ⟨m', e', k, i', d, h1, rfl, h2, h3⟩
          · cases h1
          · cases h1
            rw [freshElems_get h2] at h3
            obtain ⟨y, rfl⟩ := look_fresh q h3
            exact unset_fresh y

theorem readNode_typed {R : Reader S} {hom : Bool} {p : Path} {m : Meta} {v : Var S} {i : List Nat} {x y : Node (Arr S)}
    (h : readNode R hom p m v i x = .ok y) {z : Meta} (hx : Typed x z) : Typed y z := by
  cases m with
  | struct c => simp only [readNode, Except.ok.injEq] at h; subst h; exact hx
  | leaf l =>
    simp only [readNode] at h
    split at h
    · cases h
    · cases x with
      | struct => cases h
      | aos => cases h
      | leaf l' u =>
        simp only [setLeaf, Except.ok.injEq] at h
        subst h
        cases z <;> simp_all [Typed]
  | aos c =>
    simp only [readNode] at h
    split at h
    · cases h
    · cases x with
      | struct => cases h
      | leaf => cases h
      | aos mf e =>
        simp only [resizeNode, Except.ok.injEq] at h
        subst h
        cases z with
        | leaf => simp [Typed] at hx
        | struct => simp [Typed] at hx
        | aos m' =>
          simp only [Typed] at hx ⊢
          obtain ⟨rfl, -⟩ := hx
          exact ⟨rfl, freshElems_typed⟩

theorem isDataPath_ne {m : MFields} {p : Path} (h : IsDataPath m p) : p ≠ [] := by
  rintro rfl
  obtain ⟨x, hx, h⟩ := h
  simp only [metaAt, Option.some.injEq] at hx
  exact h _ hx.symm

/-- An array of structures above a node. -/
theorem arrays_mem : ∀ (p : Path) (m : MFields) (b : Path) (k : Name) (r : Path) (c : MFields) (z : Meta), p ≠ [] →
    metaAt (.struct m) p = some (.aos c) → metaAt (.struct m) (p ++ k :: r) = some z → b ++ p ∈ arraysOf m b (p ++ k :: r)
  | [], _, _, _, _, _, _, h, _, _ => absurd rfl h
  | [n], m, b, k, r, c, z, _, h, _ => by
    simp only [metaAt, child] at h
    cases hc : mchild m n with
    | none => rw [hc] at h; cases h
    | some y =>
      rw [hc] at h
      cases h
      simp [arraysOf, hc]
  | n :: n' :: p, m, b, k, r, c, z, _, h, hz => by
    rw [metaAt, child] at h
    simp only [List.cons_append] at hz ⊢
    rw [metaAt, child] at hz
    rw [arraysOf]
    cases hc : mchild m n with
    | none => rw [hc] at h; cases h
    | some y =>
      rw [hc] at h hz
      simp only [Option.bind_some] at h hz
      cases y with
      | leaf l => simp [metaAt, child] at h
      | struct d =>
        have := arrays_mem (n' :: p) d (b ++ [n]) k r c z (by simp) h (by simpa using hz)
        simpa using this
      | aos d =>
        have h' : metaAt (.struct d) (n' :: p) = some (.aos c) := by simpa only [metaAt, child] using h
        have := arrays_mem (n' :: p) d (b ++ [n]) k r c z (by simp) h' (by simpa [metaAt, child] using hz)
        simp only [List.mem_cons]
        exact .inr (by simpa using this)

theorem mem_arrays (m : MFields) (p : Path) : ∀ (b a : Path), a ∈ arraysOf m b p →
    ∃ t k r, a = b ++ t ∧ p = t ++ k :: r ∧ t ≠ [] ∧ ∃ c, metaAt (.struct m) t = some (.aos c) := by
  induction p generalizing m with
  | nil => intro b a h; simp [arraysOf] at h
  | cons n p ih =>
    intro b a h
    cases p with
    | nil => simp [arraysOf] at h
    | cons k p =>
      rw [arraysOf] at h
      cases hc : mchild m n with
      | none => rw [hc] at h; cases h
      | some y =>
        rw [hc] at h
        cases y with
        | leaf l => cases h
        | struct d =>
          obtain ⟨t, k', r, h1, h2, h3, c, h4⟩ := ih d _ _ h
          exact ⟨n :: t, k', r, by simp [h1], by simp [h2], by simp, c, by rw [metaAt, child, hc]; exact h4⟩
        | aos d =>
          rcases List.mem_cons.1 h with rfl | h
          · exact ⟨[n], k, p, by simp, by simp, by simp, d, by simp [metaAt, child, hc]⟩
          · obtain ⟨t, k', r, h1, h2, h3, c, h4⟩ := ih d _ _ h
            refine ⟨n :: t, k', r, by simp [h1], by simp [h2], by simp, c, ?_⟩
            rw [metaAt, child, hc, Option.bind_some]
            cases t with
            | nil => exact absurd rfl h3
            | cons a t => simpa only [metaAt, child] using h4

theorem readVar_ok {R : Reader S} {hom : Bool} (ha : Aligned R.stored R.target (targetOf R.map)) {D : List (Path × Bool)}
    {c c' : Fields (Arr S)} {x : Path × Bool} (hi : EagerInv R hom D c) (hx : x ∉ D)
    (hb : ∀ p k r, x = (p, false) → (p ++ k :: r, false) ∉ D)
    (h : readVar R hom c x = .ok c') : EagerInv R hom (D ++ [x]) c' := by
  obtain ⟨p, b⟩ := x
  have skip : c' = c → (b = true ∨ (b = false ∧ ¬ IsDataPath R.stored p) ∨ targetOf R.map p = none) →
      EagerInv R hom (D ++ [(p, b)]) c' := by
    rintro rfl hs
    have key : ∀ p', (p', false) ∈ D ++ [(p, b)] → IsDataPath R.stored p' → ∀ q, targetOf R.map p' = some q →
        (p', false) ∈ D := by
      intro p' hp' hd q hq
      rcases List.mem_append.1 hp' with h1 | h1
      · exact h1
      · simp only [List.mem_singleton, Prod.mk.injEq] at h1
        obtain ⟨rfl, rfl⟩ := h1
        rcases hs with hs | ⟨-, hs⟩ | hs
        · cases hs
        · exact absurd hd hs
        · rw [hs] at hq; cases hq
    refine ⟨hi.typed, fun q i x hl p' hp' hd hq => hi.read q i x hl p' (key p' hp' hd q hq) hd hq, ?_⟩
    intro q i x hl hn
    exact hi.unset q i x hl fun p' hp' hd => hn p' (List.mem_append.2 (.inl hp')) hd
  cases b with
  | true =>
    simp only [readVar, Except.ok.injEq] at h
    exact skip h.symm (.inl rfl)
  | false =>
    simp only [readVar] at h
    split at h
    · rename_i d hd
      cases h
      refine skip rfl (.inr (.inl ⟨rfl, ?_⟩))
      rintro ⟨y, hy, hn⟩
      cases p with
      | nil => simp [metaOf] at hd
      | cons a p => rw [metaOf_eq _ _ (by simp), hy] at hd; cases hd; exact hn _ rfl
    · rename_i m v hns hm hv
      have hp : p ≠ [] := by rintro rfl; simp [metaOf] at hm
      have hm' := hm
      rw [metaOf_eq _ _ hp] at hm'
      have hs : ¬ IsStruct m := by
        cases m with
        | struct d => exact absurd rfl (hns d)
        | leaf => exact id
        | aos => exact id
      have hdp : IsDataPath R.stored p := ⟨m, hm', by rintro d rfl; exact hs trivial⟩
      split at h
      · rename_i ht
        cases h
        exact skip rfl (.inr (.inr ht))
      · rename_i q0 ht
        split at h
        · cases h
        · rename_i z0 hz0
          obtain ⟨hq0, y0, hy0, hk⟩ := ha.kind p q0 m hp hm' hs ht
          have fresh : ∀ i x, look c q0 i = some x → Unset x := fun i x hl =>
            hi.unset q0 i x hl fun p' hp' hd' hq' => by
              have := ha.inj p' p q0 hd' hdp hq' ht
              subst this
              exact hx hp'
          refine ⟨mapPath_typed (fun i x y z hxy hz => readNode_typed hxy hz) h hi.typed, ?_, ?_⟩
          · intro q i y hl p' hp' hd' hq'
            rcases List.mem_append.1 hp' with h1 | h1
            · by_cases hpre : q0 <+: q
              · obtain ⟨r, rfl⟩ := hpre
                cases r with
                | nil =>
                  rw [List.append_nil] at hq'
                  have := ha.inj p' p q0 hd' hdp hq' ht
                  subst this
                  exact absurd h1 hx
                | cons k r =>
                  exfalso
                  -- the array of structures is read before what is inside
                  obtain ⟨i1, i2, w, rfl, h3, h4⟩ := (look_append q0 hq0 (by simp)).1 hl
                  have : ∃ a ∈ arraysOf R.stored [] p', targetOf R.map a = some q0 := by
                    obtain ⟨x', hx', hns'⟩ := hd'
                    have hsx' : ¬ IsStruct x' := by
                      cases x' with
                      | struct d => exact absurd rfl (hns' d)
                      | leaf => exact id
                      | aos => exact id
                    obtain ⟨-, y', hy', -⟩ := ha.kind p' _ x' (isDataPath_ne ⟨x', hx', hns'⟩) hx' hsx' hq'
                    have hq0a : q0 ∈ arraysOf R.target [] (q0 ++ k :: r) := by
                      cases y0 with
                      | leaf l =>
                        exfalso
                        obtain ⟨x1, h5, h6⟩ := mapPath_at h h3
                        obtain ⟨z, hz, hz', -⟩ := look_typed q0 [] (mapPath_typed (fun i x y z hxy hz => readNode_typed hxy hz) h hi.typed) h3
                        rw [hy0] at hz
                        cases hz
                        cases w with
                        | leaf => simp [below] at h4
                        | struct => simp [Typed] at hz'
                        | aos => simp [Typed] at hz'
                      | struct d => cases m <;> exact absurd hk (by simp [SameKind])
                      | aos d =>
                        have := arrays_mem q0 R.target [] k r d y' hq0 hy0 hy'
                        simpa using this
                    have harr := ha.arrays p' _ ⟨x', hx', hns'⟩ hq'
                    have : some q0 ∈ (arraysOf R.target [] (q0 ++ k :: r)).map some := List.mem_map.2 ⟨_, hq0a, rfl⟩
                    rw [← harr] at this
                    obtain ⟨a, h5, h6⟩ := List.mem_map.1 this
                    exact ⟨a, h5, h6⟩
                  obtain ⟨a, h5, h6⟩ := this
                  obtain ⟨t, k', r', h7, h8, h9, d, h10⟩ := mem_arrays _ _ _ _ h5
                  rw [List.nil_append] at h7
                  subst h7
                  have := ha.inj a p q0 ⟨_, h10, by rintro _ ⟨⟩⟩ hdp h6 ht
                  subst this
                  subst h8
                  exact hb a k' r' rfl h1
              · obtain ⟨x, h3, h4⟩ := mapPath_other h hpre hl
                exact readAs_obs h4 (hi.read q i x h3 p' h1 hd' hq')
            · simp only [List.mem_singleton, Prod.mk.injEq, and_true] at h1
              subst h1
              rw [ht] at hq'
              cases hq'
              obtain ⟨x, h3, h4⟩ := mapPath_at h hl
              rw [List.nil_append] at h4
              exact (readNode_ok hm hv (fresh i x h3) hs h4).1
          · intro q i y hl hn
            by_cases hpre : q0 <+: q
            · obtain ⟨r, rfl⟩ := hpre
              cases r with
              | nil =>
                rw [List.append_nil] at hn
                exact absurd ht (hn p (by simp) hdp)
              | cons k r =>
                obtain ⟨i1, i2, w, rfl, h3, h4⟩ := (look_append q0 hq0 (by simp)).1 hl
                obtain ⟨x, h5, h6⟩ := mapPath_at h h3
                rw [List.nil_append] at h6
                exact (readNode_ok hm hv (fresh i1 x h5) hs h6).2.2 _ _ _ h4
            · obtain ⟨x, h3, h4⟩ := mapPath_other h hpre hl
              exact unset_obs h4 (hi.unset q i x h3 fun p' hp' hd' => hn p' (List.mem_append.2 (.inl hp')) hd')
    · cases h

theorem readVars_ok {R : Reader S} {hom : Bool} (ha : Aligned R.stored R.target (targetOf R.map)) :
    ∀ {L D : List (Path × Bool)} {c c' : Fields (Arr S)}, EagerInv R hom D c → (D ++ L).Nodup → (D ++ L).Pairwise NameLe →
    (∀ x ∈ D ++ L, x.1 ≠ []) → readVars R hom L c = .ok c' → EagerInv R hom (D ++ L) c'
  | [], D, c, c', hi, _, _, _, h => by
    simp only [readVars, Except.ok.injEq] at h
    subst h
    rwa [List.append_nil]
  | x :: L, D, c, c', hi, hn, hs, h0, h => by
    simp only [readVars] at h
    split at h
    · cases h
    · rename_i c1 h1
      have hx : x ∉ D := by
        intro hx
        rw [List.nodup_append] at hn
        exact hn.2.2 x hx x (by simp) rfl
      have := readVar_ok ha hi hx (fun p k r e => by
        subst e
        exact sorted_before (h0 (p, false) (by simp)) hs) h1
      have := readVars_ok ha (L := L) this (by simpa using hn) (by simpa using hs) (by simpa using h0) h
      simpa using this

theorem mem_names {g : Group S} {p : Path} : (p, false) ∈ g.names ↔ p ∈ g.vars.map (·.1) := by
  simp [Group.names, mem_sortNames]

theorem mem_names_shape {g : Group S} {p : Path} : (p, true) ∈ g.names ↔ p ∈ g.shapes.map (·.1) := by
  simp [Group.names, mem_sortNames]

theorem names_nodup {g : Group S} (h : NamesOk g) : g.names.Nodup := by
  refine sortNames_nodup (List.nodup_append.2 ⟨?_, ?_, ?_⟩)
  · have := List.Pairwise.map (f := fun p : Path => (p, false)) (R := fun a b => a ≠ b) (S := fun a b => a ≠ b)
      (fun a b hab h => hab (Prod.mk.inj h).1) h.vars
    rw [List.map_map] at this
    exact this
  · have := List.Pairwise.map (f := fun p : Path => (p, true)) (R := fun a b => a ≠ b) (S := fun a b => a ≠ b)
      (fun a b hab h => hab (Prod.mk.inj h).1) h.shapes
    rw [List.map_map] at this
    exact this
  · intro a ha b hb
    obtain ⟨x, -, rfl⟩ := List.mem_map.1 ha
    obtain ⟨y, -, rfl⟩ := List.mem_map.1 hb
    intro e
    cases (Prod.mk.inj e).2

theorem eager_start (R : Reader S) (hom : Bool) : EagerInv R hom [] (R.target.fresh : Fields (Arr S)) := by
  refine ⟨typed_freshF _, fun _ _ _ _ p hp => absurd hp (by simp), ?_⟩
  intro q i x hl _
  obtain ⟨y, rfl⟩ := look_fresh q hl
  exact unset_fresh y

theorem names_ne {g : Group S} (h : NamesOk g) : ∀ x ∈ g.names, x.1 ≠ [] := by
  rintro ⟨p, b⟩ hx rfl
  cases b with
  | false => exact h.nonempty (mem_names.1 hx)
  | true => exact h.nonempty' (mem_names_shape.1 hx)

/-- What an eager read gives. -/
theorem eager {R : Reader S} {hom : Bool} (ha : Aligned R.stored R.target (targetOf R.map)) (hg : NamesOk R.group)
    {c : Fields (Arr S)} (h : readVars R hom R.group.names R.target.fresh = .ok c) : EagerInv R hom R.group.names c := by
  have := readVars_ok ha (L := R.group.names) (D := []) (eager_start R hom) (by simpa using names_nodup hg)
    (sortNames_sorted _) (by simpa using names_ne hg) h
  simpa using this

end Verif.Nc
