import Verif.Spec.NcValid
import Verif.Lemmas.NcValid
/-
What validation checks.
-/
namespace Verif.Nc
open Verif.Ids Verif.TreeSpec Verif.NcSpec
open Verif.ConvertSpec (mchild child metaAt)
open Verif.AlSpec (arraysOf IsDataPath)

set_option linter.unusedSectionVars false
variable {S : Type} [DecidableEq S]
variable {R : Reader S} {hom : Bool} {own : Path → List Dim}

theorem mem_errorNames {p a : Path} : a ∈ errorNames p ↔ ErrorOf p a := by
  unfold errorNames ErrorOf
  rcases List.eq_nil_or_concat p with rfl | ⟨q, n, rfl⟩
  · simp
  · simp only [List.concat_eq_append, List.getLast?_append, List.getLast?_singleton, Option.some_or, List.dropLast_concat,
      List.mem_cons, List.not_mem_nil, or_false]
    constructor
    · intro h
      exact ⟨q, n, rfl, h⟩
    · rintro ⟨q', n', h1, h2⟩
      obtain ⟨rfl, h3⟩ := List.append_inj' h1 rfl
      cases h3
      exact h2

theorem ndimOf_eq (y : Meta) : ndimOf y = NcSpec.rank y := by cases y <;> rfl

theorem validateData_ok {p : Path} {l : LeafMeta} {v : Var S} : validateData R hom p l v = .ok () ↔
    v.type = .data l.type ∧ v.dims = (R.N.getDims hom p).map .dd ∧
    (∀ names, v.coordinates = some names → ∀ a ∈ names, a ∈ R.N.getCoords hom p) ∧
    (∀ names, v.ancillary = some names → ∀ a ∈ names, ErrorOf p a) := by
  unfold validateData
  have sub : ∀ (o : Option (List Path)) (L : List Path) (P : Path → Prop), (∀ a, a ∈ L ↔ P a) →
      ((o.getD []).any (fun c => !L.contains c) = true ↔ ¬ ∀ names, o = some names → ∀ a ∈ names, P a) := by
    intro o L P hP
    cases o with
    | none => simp
    | some names => simp [← hP]
  by_cases h1 : v.type = .data l.type
  · by_cases h2 : v.dims = (R.N.getDims hom p).map .dd
    · by_cases h3 : ∀ names, v.coordinates = some names → ∀ a ∈ names, a ∈ R.N.getCoords hom p
      · by_cases h4 : ∀ names, v.ancillary = some names → ∀ a ∈ names, ErrorOf p a
        · rw [if_neg (by simp [h1]), if_neg (by simp [h2]), if_neg (by rw [sub _ _ _ fun a => Iff.rfl]; simpa using h3),
            if_neg (by rw [sub _ _ _ fun a => mem_errorNames]; simpa using h4)]
          exact ⟨fun _ => ⟨h1, h2, h3, h4⟩, fun _ => rfl⟩
        · rw [if_neg (by simp [h1]), if_neg (by simp [h2]), if_neg (by rw [sub _ _ _ fun a => Iff.rfl]; simpa using h3),
            if_pos (by rw [sub _ _ _ fun a => mem_errorNames]; exact h4)]
          exact ⟨fun h => (by cases h), fun h => absurd h.2.2.2 h4⟩
      · rw [if_neg (by simp [h1]), if_neg (by simp [h2]), if_pos (by rw [sub _ _ _ fun a => Iff.rfl]; exact h3)]
        exact ⟨fun h => (by cases h), fun h => absurd h.2.2.1 h3⟩
    · rw [if_neg (by simp [h1]), if_pos h2]
      exact ⟨fun h => (by cases h), fun h => absurd h.2.1 h2⟩
  · rw [if_pos h1]
    exact ⟨fun h => (by cases h), fun h => absurd h.1 h1⟩

theorem validateData_error {p : Path} {l : LeafMeta} {v : Var S} {e : NcErr} (h : validateData R hom p l v = .error e) : e = .invalid := by
  unfold validateData at h
  repeat' split at h
  all_goals cases h
  all_goals rfl

theorem aosDims_eq {p : Path} (ha : R.N.aos p = (arraysOf R.stored [] p).getLast?) : (aosDims R.N hom p).map NcDim.dd =
    (match (arraysOf R.stored [] p).getLast? with
      | none => []
      | some a => (R.N.getDims hom a).map .dd) := by
  unfold aosDims
  rw [ha]
  cases (arraysOf R.stored [] p).getLast? <;> rfl

theorem validateSparsity_ok {p : Path} {y : Meta} (ha : R.N.aos p = (arraysOf R.stored [] p).getLast?) :
    validateSparsity R hom p y = .ok () ↔ (NcSpec.rank y ≠ 0 → ∃ s d, dget R.group.shapes p = some s ∧
      s.dims = (match (arraysOf R.stored [] p).getLast? with
        | none => []
        | some a => (R.N.getDims hom a).map .dd) ++ [d] ∧
      dget R.group.dims d = some (NcSpec.rank y) ∧ s.integer = true) := by
  unfold validateSparsity
  rw [ndimOf_eq, ← aosDims_eq ha]
  by_cases h0 : NcSpec.rank y = 0
  · rw [if_pos h0]
    exact ⟨fun _ h => absurd h0 h, fun _ => rfl⟩
  · rw [if_neg h0]
    cases hs : dget R.group.shapes p with
    | none =>
      simp only
      refine ⟨fun h => (by cases h), fun h => ?_⟩
      obtain ⟨s, d, h1, -⟩ := h h0
      cases h1
    | some s =>
      simp only
      rcases List.eq_nil_or_concat s.dims with hd | ⟨q, d, hd⟩
      · rw [hd]
        refine ⟨fun h => (by simp at h), fun h => ?_⟩
        obtain ⟨s', d, h1, h2, -⟩ := h h0
        cases h1
        rw [hd] at h2
        simp at h2
      · rw [List.concat_eq_append] at hd
        rw [hd]
        simp only [List.getLast?_append, List.getLast?_singleton, Option.some_or, List.dropLast_concat]
        by_cases hq : q = (aosDims R.N hom p).map .dd
        · rw [if_neg (by simp [hq])]
          cases hn : dget R.group.dims d with
          | none =>
            refine ⟨fun h => (by cases h), fun h => ?_⟩
            obtain ⟨s', d', h1, h2, h3, -⟩ := h h0
            cases h1
            rw [hd] at h2
            have := (List.append_inj' h2 rfl).2
            cases this
            rw [hn] at h3
            cases h3
          | some n =>
            simp only
            by_cases hr : n = NcSpec.rank y
            · rw [if_neg (by simp [hr])]
              cases hi : s.integer with
              | true =>
                simp only [if_true]
                exact ⟨fun _ _ => ⟨s, d, rfl, by rw [hd, hq], by rw [hn, hr], hi⟩, fun _ => trivial⟩
              | false =>
                refine ⟨fun h => (by cases h), fun h => ?_⟩
                obtain ⟨s', d', h1, -, -, h4⟩ := h h0
                cases h1
                rw [hi] at h4
                cases h4
            · rw [if_pos hr]
              refine ⟨fun h => (by cases h), fun h => ?_⟩
              obtain ⟨s', d', h1, h2, h3, -⟩ := h h0
              cases h1
              rw [hd] at h2
              have := (List.append_inj' h2 rfl).2
              cases this
              rw [hn] at h3
              exact absurd (Option.some.inj h3) hr
        · rw [if_pos hq]
          refine ⟨fun h => (by cases h), fun h => ?_⟩
          obtain ⟨s', d', h1, h2, -⟩ := h h0
          cases h1
          rw [hd] at h2
          exact absurd (List.append_inj' h2 rfl).1 hq

theorem validateSparsity_error {p : Path} {y : Meta} {e : NcErr} (hd : DimsExist R.group)
    (hs : NcSpec.rank y ≠ 0 → dget R.group.shapes p ≠ none) (h : validateSparsity R hom p y = .error e) : e = .invalid := by
  unfold validateSparsity at h
  rw [ndimOf_eq] at h
  split at h
  · cases h
  · rename_i h0
    split at h
    · rename_i hn
      exact absurd hn (hs h0)
    · rename_i s hs'
      split at h
      · cases h; rfl
      · rename_i d hl
        split at h
        · cases h; rfl
        · split at h
          · rename_i hn
            have := hd p s hs' d (List.mem_of_getLast? hl)
            rw [hn] at this
            cases this
          · repeat' split at h
            all_goals cases h
            all_goals rfl

/-- One variable. -/
theorem validateVar_ok {p : Path} {y : Meta} {v : Var S} (ha : R.N.aos p = (arraysOf R.stored [] p).getLast?) :
    validateVar R hom p y v = .ok () ↔ ValidVar R.stored R.N R.tx R.group hom p y v := by
  have hsp : (if v.sparse = true then validateSparsity R hom p y else .ok ()) = .ok () ↔
      (v.sparse = true → validateSparsity R hom p y = .ok ()) := by
    cases v.sparse <;> simp
  constructor
  · intro h
    unfold validateVar at h
    split at h
    · cases h
    · rename_i x hx
      split at h
      · cases h
      · rename_i hu
        split at h
        · cases h
        · rename_i x' hx'
          cases x'
          rw [hsp, validateSparsity_ok ha] at hx'
          split at h
          · cases h
          · rename_i ho
            have ho : v.other = [] := by simpa using ho
            have hu : R.tx.units p ≠ [] → v.units = some (R.tx.units p) := by simpa using hu
            cases y with
            | leaf l =>
              simp only at hx
              obtain ⟨h1, h2, h3, h4⟩ := validateData_ok.1 hx
              exact ⟨by rintro _ ⟨⟩; exact h1, by rintro _ ⟨⟩; exact h2, by rintro _ ⟨⟩; exact h3, by rintro _ ⟨⟩; exact h4,
                fun h => absurd rfl (h l), hu, hx', ho⟩
            | struct d =>
              simp only at h
              split at h
              · cases h
              · rename_i hn
                exact ⟨by rintro _ ⟨⟩, by rintro _ ⟨⟩, by rintro _ ⟨⟩, by rintro _ ⟨⟩, fun _ => by simpa using hn, hu, hx', ho⟩
            | aos d =>
              simp only at h
              split at h
              · cases h
              · rename_i hn
                exact ⟨by rintro _ ⟨⟩, by rintro _ ⟨⟩, by rintro _ ⟨⟩, by rintro _ ⟨⟩, fun _ => by simpa using hn, hu, hx', ho⟩
  · intro h
    have h5 := hsp.2 fun hs => (validateSparsity_ok ha).2 (h.sparse hs)
    have hu : ¬ (R.tx.units p ≠ [] ∧ v.units ≠ some (R.tx.units p)) := by
      rintro ⟨h1, h2⟩
      exact h2 (h.units h1)
    unfold validateVar
    rw [h5]
    cases y with
    | leaf l =>
      have := validateData_ok (R := R).2 ⟨h.type l rfl, h.dims l rfl, h.coordinates l rfl, h.errors l rfl⟩
      simp only [this]
      rw [if_neg hu]
      simp [h.other]
    | struct d =>
      obtain ⟨h1, h2⟩ := h.noData (by rintro _ ⟨⟩)
      simp only
      rw [if_neg hu]
      simp [h.other, h1, h2]
    | aos d =>
      obtain ⟨h1, h2⟩ := h.noData (by rintro _ ⟨⟩)
      simp only
      rw [if_neg hu]
      simp [h.other, h1, h2]

theorem validateVar_error {p : Path} {y : Meta} {v : Var S} {e : NcErr} (hd : DimsExist R.group)
    (hs : v.sparse = true → NcSpec.rank y ≠ 0 → dget R.group.shapes p ≠ none) (h : validateVar R hom p y v = .error e) : e = .invalid := by
  unfold validateVar at h
  split at h
  · rename_i e' he
    cases h
    cases y with
    | leaf l => exact validateData_error he
    | struct => cases he
    | aos => cases he
  · split at h
    · cases h; rfl
    · split at h
      · rename_i e' he
        cases h
        split at he
        · rename_i hsp
          exact validateSparsity_error hd (hs hsp) he
        · cases he
      · repeat' split at h
        all_goals cases h
        all_goals rfl

/-! ### Groups -/

theorem validateAll_ok : ∀ {l : List (Path × Bool)}, validateAll R hom l = .ok () ↔ ∀ x ∈ l, validateName R hom x = .ok ()
  | [] => by simp [validateAll]
  | x :: r => by
    rw [validateAll]
    cases hx : validateName R hom x with
    | error e =>
      simp only
      refine ⟨fun h => (by cases h), fun h => ?_⟩
      rw [h x (by simp)] at hx
      cases hx
    | ok u =>
      simp only [validateAll_ok (l := r), List.mem_cons, forall_eq_or_imp, hx, true_and]

theorem validateAll_error : ∀ {l : List (Path × Bool)} {e : NcErr}, validateAll R hom l = .error e → ∃ x ∈ l, validateName R hom x = .error e
  | [], _, h => by cases h
  | x :: r, e, h => by
    rw [validateAll] at h
    split at h
    · rename_i e' he
      cases h
      exact ⟨x, by simp, he⟩
    · obtain ⟨y, hy, h1⟩ := validateAll_error h
      exact ⟨y, by simp [hy], h1⟩

/-- All variables. -/
theorem validateGroup_ok (hg : NamesOk R.group) (ha : ∀ p y, p ≠ [] → metaAt (.struct R.stored) p = some y →
      R.N.aos p = (arraysOf R.stored [] p).getLast?) :
    validateAll R hom R.group.names = .ok () ↔
      (∀ p v, dget R.group.vars p = some v → ∃ y, metaAt (.struct R.stored) p = some y ∧
        ValidVar R.stored R.N R.tx R.group hom p y v) ∧
      ∀ p s, dget R.group.shapes p = some s → ∃ v, dget R.group.vars p = some v ∧ v.sparse = true := by
  rw [validateAll_ok]
  constructor
  · intro h
    constructor
    · intro p v hv
      have hmem : p ∈ R.group.vars.map (·.1) := List.mem_map.2 ⟨_, mem_of_dget hv, rfl⟩
      have hp : p ≠ [] := by rintro rfl; exact hg.nonempty hmem
      have := h (p, false) (mem_names.2 hmem)
      simp only [validateName, hv] at this
      split at this
      · cases this
      · rename_i y hy
        rw [metaOf_eq _ _ hp] at hy
        exact ⟨y, hy, (validateVar_ok (ha p y hp hy)).1 this⟩
    · intro p s hs
      have := h (p, true) (mem_names_shape.2 (List.mem_map.2 ⟨_, mem_of_dget hs, rfl⟩))
      simp only [validateName] at this
      split at this
      · cases this
      · rename_i v hv
        split at this
        · rename_i hsp; exact ⟨v, hv, hsp⟩
        · cases this
  · rintro ⟨h1, h2⟩ ⟨p, b⟩ hx
    cases b with
    | false =>
      have hmem := mem_names.1 hx
      have hp : p ≠ [] := by rintro rfl; exact hg.nonempty hmem
      obtain ⟨v, hv⟩ := dget_of_name hmem
      obtain ⟨y, hy, hval⟩ := h1 p v hv
      simp only [validateName, hv, metaOf_eq _ _ hp, hy]
      exact (validateVar_ok (ha p y hp hy)).2 hval
    | true =>
      have hmem := mem_names_shape.1 hx
      cases hs : dget R.group.shapes p with
      | none => exact absurd hmem (dget_none.1 hs)
      | some s =>
        obtain ⟨v, hv, hsp⟩ := h2 p s hs
        simp [validateName, hv, hsp]

theorem validateGroup_error (hd : DimsExist R.group) (hg : NamesOk R.group)
    (hs : ∀ p y v, metaAt (.struct R.stored) p = some y → dget R.group.vars p = some v → v.sparse = true → NcSpec.rank y ≠ 0 →
      dget R.group.shapes p ≠ none) {e : NcErr} (h : validateAll R hom R.group.names = .error e) : e = .invalid := by
  obtain ⟨⟨p, b⟩, hx, h⟩ := validateAll_error h
  cases b with
  | false =>
    have hmem := mem_names.1 hx
    have hp : p ≠ [] := by rintro rfl; exact hg.nonempty hmem
    obtain ⟨v, hv⟩ := dget_of_name hmem
    simp only [validateName, hv] at h
    split at h
    · cases h; rfl
    · rename_i y hy
      rw [metaOf_eq _ _ hp] at hy
      exact validateVar_error hd (hs p y v hy hv) h
  | true =>
    simp only [validateName] at h
    repeat' split at h
    all_goals cases h
    all_goals rfl

/-! ### Reading does not raise this error -/

theorem mapElems_error {g : Nat → Fields (Arr S) → Except NcErr (Fields (Arr S))} : ∀ {el : Elems (Arr S)} {k : Nat} {e : NcErr},
    mapElems g k el = .error e → ∃ j d, g j d = .error e
  | .nil, _, _, h => by cases h
  | .cons c r, k, e, h => by
    rw [mapElems] at h
    split at h
    · rename_i e' he
      cases h
      exact ⟨k, c, he⟩
    · split at h
      · rename_i e' he
        cases h
        exact mapElems_error he
      · cases h

theorem mapPath_error {f : NodeMap S} : ∀ {p : Path} {i : List Nat} {c : Fields (Arr S)} {e : NcErr}, mapPath f p i c = .error e →
    e = .key ∨ e = .attribute ∨ ∃ i x, f i x = .error e
  | [], _, _, _, h => by cases h; exact .inl rfl
  | [k], i, c, e, h => by
    rw [mapPath] at h
    split at h
    · cases h; exact .inr (.inl rfl)
    · split at h
      · rename_i x _ _ e' he
        cases h
        exact .inr (.inr ⟨i, x, he⟩)
      · cases h
  | k :: k' :: p, i, c, e, h => by
    rw [mapPath] at h
    split at h
    · split at h
      · rename_i e' he
        cases h
        exact mapPath_error he
      · cases h
    · split at h
      · rename_i e' he
        cases h
        obtain ⟨j, d, hj⟩ := mapElems_error he
        exact mapPath_error hj
      · cases h
    · cases h; exact .inr (.inl rfl)

theorem readNode_error {p : Path} {y : Meta} {v : Var S} {i : List Nat} {x : Node (Arr S)} : readNode R hom p y v i x ≠ .error .invalid := by
  intro h
  cases y with
  | struct => cases h
  | aos d =>
    simp only [readNode] at h
    split at h
    · rename_i e he
      cases h
      unfold readSize at he
      repeat' split at he
      all_goals cases he
    · cases x <;> cases h
  | leaf l =>
    simp only [readNode] at h
    split at h
    · rename_i e he
      cases h
      unfold readValue at he
      repeat' split at he
      all_goals cases he
    · cases x <;> cases h

theorem readVars_error : ∀ {l : List (Path × Bool)} {c : Fields (Arr S)}, readVars R hom l c ≠ .error .invalid
  | [], _, h => by cases h
  | (p, b) :: r, c, h => by
    rw [readVars] at h
    split at h
    · rename_i e he
      cases h
      cases b with
      | true => cases he
      | false =>
        simp only [readVar] at he
        split at he
        · cases he
        · split at he
          · cases he
          · split at he
            · have := Except.error.inj he
              split at this <;> cases this
            · rcases mapPath_error he with h | h | ⟨i, x, h⟩
              · cases h
              · cases h
              · exact readNode_error h
        · cases he
    · exact readVars_error h

/-- The time mode is outside of arrays of structures, and a single number. -/
structure ModeOk (m : MFields) : Prop where
  leaf : ∃ l, metaAt (.struct m) modePath = some (.leaf l) ∧ l.ndim = 0
  outside : arraysOf m [] modePath = []

/-- Validity of the time mode does not depend on the time mode. -/
theorem validMode {I : Info} {fuel : Nat} (hw : WFMFields R.stored) (hN : ncMetadata fuel I R.stored = .ok R.N) (hm : ModeOk R.stored)
    {y : Meta} (hy : metaAt (.struct R.stored) modePath = some y) {v : Var S} {h h' : Bool}
    (hv : ValidVar R.stored R.N R.tx R.group h modePath y v) : ValidVar R.stored R.N R.tx R.group h' modePath y v := by
  obtain ⟨l, hl, hnd⟩ := hm.leaf
  rw [hl] at hy
  cases hy
  have hdp : IsDataPath R.stored modePath := ⟨_, hl, by rintro _ ⟨⟩⟩
  have dims0 : ∀ h, R.N.getDims h modePath = [] := by
    intro h
    obtain ⟨o, ho⟩ := layout hw hN h
    rw [ho.tuple _ hdp, hm.outside]
    have := ho.rank _ _ (by simp [modePath]) hl
    simp only [NcSpec.rank, hnd] at this
    simp [List.length_eq_zero_iff.1 this]
  have coords0 : ∀ h, R.N.getCoords h modePath = [] := by
    intro h
    obtain ⟨o, ho⟩ := layout hw hN h
    exact ho.coords _ _ hl (.inr ⟨hnd, hm.outside⟩)
  exact ⟨hv.type, by rw [dims0]; rw [← dims0 h]; exact hv.dims, by rw [coords0]; rw [← coords0 h]; exact hv.coordinates, hv.errors,
    hv.noData, hv.units, fun _ h => absurd hnd h, hv.other⟩

theorem readMode_ok {I : Info} {fuel : Nat} (hw : WFMFields R.stored) (hN : ncMetadata fuel I R.stored = .ok R.N) (hm : ModeOk R.stored)
    (ht : metaOf R.target modePath = metaOf R.stored modePath) : (∃ h, readMode R = .ok h ∧ hom = h) ↔
    ∃ v y k, dget R.group.vars modePath = some v ∧ metaAt (.struct R.stored) modePath = some y ∧
      ValidVar R.stored R.N R.tx R.group true modePath y v ∧ (v.data.get []).bind R.sc.int = some k ∧ (k = 0 ∨ k = 1 ∨ k = 2) ∧
      hom = decide (k = 1) := by
  obtain ⟨o, ho⟩ := layout hw hN true
  have hne : modePath ≠ [] := by simp [modePath]
  obtain ⟨l, hl, hnd⟩ := hm.leaf
  have ha := ho.aos _ _ hne hl
  unfold readMode
  rw [ht, metaOf_eq _ _ hne, hl]
  cases hv : dget R.group.vars modePath with
  | none => simp
  | some v =>
    simp only
    cases hval : validateVar R true modePath (.leaf l) v with
    | error e =>
      simp only
      refine ⟨?_, ?_⟩
      · rintro ⟨h, h1, -⟩; cases h1
      · rintro ⟨v', y, k, h1, h2, h3, -⟩
        cases h1
        cases h2
        rw [(validateVar_ok ha).2 h3] at hval
        cases hval
    | ok u =>
      have hval' := (validateVar_ok ha).1 hval
      simp only
      cases hk : (v.data.get []).bind R.sc.int with
      | none =>
        simp only
        refine ⟨?_, ?_⟩
        · rintro ⟨h, h1, -⟩; cases h1
        · rintro ⟨v', y, k, h1, h2, h3, h4, -⟩
          cases h1
          rw [hk] at h4
          cases h4
      | some k =>
        simp only
        by_cases hk' : k = 0 ∨ k = 1 ∨ k = 2
        · rw [if_pos hk']
          refine ⟨?_, ?_⟩
          · rintro ⟨h, h1, rfl⟩
            cases h1
            exact ⟨v, _, k, rfl, rfl, hval', hk, hk', rfl⟩
          · rintro ⟨v', y, k1, h1, h2, h3, h4, h5, rfl⟩
            cases h1
            rw [hk] at h4
            cases h4
            exact ⟨_, rfl, rfl⟩
        · rw [if_neg hk']
          refine ⟨?_, ?_⟩
          · rintro ⟨h, h1, -⟩; cases h1
          · rintro ⟨v', y, k1, h1, h2, h3, h4, h5, -⟩
            cases h1
            rw [hk] at h4
            cases h4
            exact absurd h5 hk'

theorem readMode_error (hm : ModeOk R.stored) (ht : metaOf R.target modePath = metaOf R.stored modePath) (hd : DimsExist R.group)
    {e : NcErr} (h : readMode R = .error e) : e = .invalid := by
  have hne : modePath ≠ [] := by simp [modePath]
  obtain ⟨l, hl, hnd⟩ := hm.leaf
  unfold readMode at h
  rw [ht, metaOf_eq _ _ hne, hl] at h
  split at h
  · cases h; rfl
  · simp only at h
    split at h
    · rename_i e' he
      cases h
      exact validateVar_error (y := .leaf l) hd (fun _ h => absurd hnd h) he
    · split at h
      · cases h; rfl
      · split at h
        · cases h
        · cases h; rfl

end Verif.Nc
