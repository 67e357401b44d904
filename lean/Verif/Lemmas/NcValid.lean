import Verif.Lemmas.NcBack
/-
Validation accepts groups that were written.
-/
namespace Verif.Nc
open Verif.Ids Verif.TreeSpec Verif.NcSpec
open Verif.ConvertSpec (mchild child metaAt)
open Verif.AlSpec (arraysOf IsDataPath)

set_option linter.unusedSectionVars false
variable {S : Type} [DecidableEq S]
variable {m : MFields} {N : NcMeta} {hom : Bool} {own : Path → List Dim} {c : Fields (Arr S)} {sizes : List (NcDim × Nat)}
variable {sc : Scalars S} {tx : Texts} {g : Group S}

theorem nonempty_getD {A : Type} (l : List A) : (nonempty l).getD [] = l := by
  cases l <;> rfl

theorem nonempty_none {A : Type} {l : List A} (h : l = []) : nonempty l = none := by
  subst h; rfl

theorem units_ok (l : List Char) : ¬ (l ≠ [] ∧ nonempty l ≠ some l) := by
  cases l <;> simp [nonempty]

/-- No attribute for paths without data. -/
theorem filter_none {f : Path → Bool} {l : List Path} (h : ∀ p ∈ l, f p = false) : l.filter f = [] := by
  rw [List.filter_eq_nil_iff]
  intro p hp
  simp [h p hp]

theorem noItem (hs : Sized m N hom own c sizes) {p : Path} (h : metaAt (.struct m) p = none) :
    (filledFields [] [] c).any (·.path = p) = false := by
  cases hb : (filledFields [] [] c).any (·.path = p) with
  | false => rfl
  | true =>
    obtain ⟨i, x, hx, -⟩ := (hasItem_iff hs).1 hb
    obtain ⟨y, hy, -⟩ := look_typed p [] hs.typed hx
    rw [h] at hy
    cases hy

theorem sparsity_ok (hs : Sized m N hom own c sizes) (hg : Written sc tx N hom m own c sizes g) {p : Path} {y : Meta} {sp : Sparsity}
    (hy : metaAt (.struct m) p = some y) (hpo : PathOk m own c sizes p sp) (hsp : sp.isShapes = true ∨ ndimOf y = 0)
    (hshape : ∀ a, sp = .shapes a → dget g.shapes p = some (shapeVar N hom p (ndimOf y) a))
    (hpseudo : ∀ a, sp = .shapes a → dget g.dims (.pseudo (ndimOf y)) = some (ndimOf y)) :
    validateSparsity (backReader sc tx N m g) hom p y = .ok () := by
  unfold validateSparsity
  by_cases h0 : ndimOf y = 0
  · rw [if_pos h0]
  · rw [if_neg h0]
    rcases hsp with hsp | hsp
    · cases sp with
      | dense => cases hsp
      | missing => cases hsp
      | shapes a =>
        simp only [backReader, hshape a rfl, shapeVar, List.getLast?_append, List.getLast?_singleton, Option.some_or,
          List.dropLast_concat, hpseudo a rfl, aosDims]
        simp
        cases N.aos p <;> simp
    · exact absurd hsp h0

/-- Each variable is accepted. -/
theorem validateVar_back (hs : Sized m N hom own c sizes) (hg : Written sc tx N hom m own c sizes g) (he : ErrorsOk m)
    {p : Path} {v : Var S} (hv : dget g.vars p = some v) :
    ∃ y, metaOf m p = some y ∧ validateVar (backReader sc tx N m g) hom p y v = .ok () := by
  obtain ⟨sp, y, hpo, ⟨y2, hy2, hvar⟩, hy, hshape, hpseudo⟩ := hg.var p v hv
  have hpo' := hpo
  obtain ⟨hp, y1, hy1, hst, hsh⟩ := hpo'
  rw [hy] at hy1 hy2
  cases hy1
  cases hy2
  refine ⟨y, by rw [metaOf_eq _ _ hp, hy], ?_⟩
  have hshape' : ∀ a, sp = .shapes a → dget g.shapes p = some (shapeVar N hom p (ndimOf y) a) := by
    rintro a rfl
    exact hshape
  have hsp : sp = .dense ∨ (sp.isShapes = true ∨ ndimOf y = 0) := by
    cases sp with
    | dense => exact .inl rfl
    | shapes => exact .inr (.inl rfl)
    | missing =>
      refine .inr (.inr ?_)
      cases y with
      | struct => rfl
      | aos d =>
        have h1 := (hsh id).1
        have h2 := hs.layout.rank p _ hp hy
        simp only [List.map_eq_nil_iff] at h1
        rw [h1] at h2
        cases h2
      | leaf l =>
        have h1 := (hsh id).1
        have h2 := hs.layout.rank p _ hp hy
        simp only [List.map_eq_nil_iff] at h1
        rw [h1] at h2
        exact h2.symm
  have hsparse : (if v.sparse = true then validateSparsity (backReader sc tx N m g) hom p y else .ok ()) = .ok () := by
    rcases hsp with hd | hsp
    · have : v.sparse = false := by
        subst hd
        cases y <;> simp only at hvar
        · obtain ⟨a, -, rfl⟩ := hvar; rfl
        · subst hvar; rfl
        · subst hvar; rfl
      rw [this]
      rfl
    · split
      · exact sparsity_ok hs hg hy hpo hsp hshape' hpseudo
      · rfl
  have hunits : v.units = nonempty (tx.units p) := by
    cases y <;> simp only at hvar
    · obtain ⟨a, -, rfl⟩ := hvar; rfl
    · subst hvar; rfl
    · subst hvar; rfl
  have hother : v.other = [] := by
    cases y <;> simp only at hvar
    · obtain ⟨a, -, rfl⟩ := hvar; rfl
    · subst hvar; rfl
    · subst hvar; rfl
  have hu : ¬ (tx.units p ≠ [] ∧ v.units ≠ some (tx.units p)) := by rw [hunits]; exact units_ok _
  unfold validateVar
  rw [hsparse]
  cases y with
  | leaf l =>
    simp only at hvar
    obtain ⟨a, -, rfl⟩ := hvar
    have hd : validateData (backReader sc tx N m g) hom p l (varAttrs tx N hom (fun q => (filledFields [] [] c).any (·.path = q)) p (.leaf l) sp
          { type := .data l.type, dims := (N.getDims hom p).map .dd, data := a
            fill := if l.type = .cpx then none else some (sc.fill l.type) }) = .ok () := by
      unfold validateData
      simp only [varAttrs, ne_eq, not_true_eq_false, if_false, backReader, nonempty_getD]
      rw [if_neg, if_neg]
      · simp only [List.any_eq_true, not_exists, not_and, List.mem_filter]
        rintro q ⟨hq, -⟩
        simp [hq]
      · simp only [List.any_eq_true, not_exists, not_and, List.mem_filter]
        rintro q ⟨hq, -⟩
        simp [hq]
    simp only [hd]
    rw [if_neg (by exact hu)]
    simp only [hother, ne_eq, not_true_eq_false, if_false]
  | struct d =>
    simp only at hvar
    rw [if_neg (by exact hu)]
    simp only [hother, ne_eq, not_true_eq_false, if_false]
    subst hvar
    have hc := hs.layout.coords p _ hy (.inl trivial)
    have ha : ∀ q ∈ errorNames p, (filledFields [] [] c).any (·.path = q) = false :=
      fun q hq => noItem hs (he p _ hy (by rintro _ ⟨⟩) q hq)
    simp only [varAttrs, hc, filter_none ha, List.filter_nil, nonempty]
    rfl
  | aos d =>
    simp only at hvar
    rw [if_neg (by exact hu)]
    simp only [hother, ne_eq, not_true_eq_false, if_false]
    subst hvar
    have ha : ∀ q ∈ errorNames p, (filledFields [] [] c).any (·.path = q) = false :=
      fun q hq => noItem hs (he p _ hy (by rintro _ ⟨⟩) q hq)
    simp only [varAttrs, filter_none ha, nonempty]
    rfl

theorem validateAll_iff {R : Reader S} {hom : Bool} : ∀ {l : List (Path × Bool)}, (∀ x ∈ l, validateName R hom x = .ok ()) →
    validateAll R hom l = .ok ()
  | [], _ => rfl
  | x :: r, h => by
    rw [validateAll, h x (by simp)]
    exact validateAll_iff fun y hy => h y (by simp [hy])

theorem dget_of_name {l : List (Path × Var S)} {p : Path} (h : p ∈ l.map (·.1)) : ∃ v, dget l p = some v := by
  cases hd : dget l p with
  | none => exact absurd h (dget_none.1 hd)
  | some v => exact ⟨v, rfl⟩

/-- The group is accepted. -/
theorem validateAll_back (hs : Sized m N hom own c sizes) (hg : Written sc tx N hom m own c sizes g) (he : ErrorsOk m) :
    validateAll (backReader sc tx N m g) hom g.names = .ok () := by
  refine validateAll_iff ?_
  rintro ⟨p, b⟩ hx
  cases b with
  | false =>
    obtain ⟨v, hv⟩ := dget_of_name (mem_names.1 hx)
    obtain ⟨y, h1, h2⟩ := validateVar_back hs hg he hv
    simp only [validateName]
    rw [show (backReader sc tx N m g).group = g from rfl, hv, show (backReader sc tx N m g).stored = m from rfl, h1]
    exact h2
  | true =>
    have hx' := mem_names_shape.1 hx
    obtain ⟨v, hv⟩ := dget_of_name (hg.shapeNames p hx')
    simp only [validateName]
    rw [show (backReader sc tx N m g).group = g from rfl, hv]
    obtain ⟨sp, y, -, ⟨y2, hy2, hvar⟩, hy, hshape, -⟩ := hg.var p v hv
    rw [hy] at hy2
    cases hy2
    have : v.sparse = true := by
      cases sp with
      | shapes a =>
        cases y <;> simp only at hvar
        · obtain ⟨a, -, rfl⟩ := hvar; rfl
        · subst hvar; rfl
        · subst hvar; rfl
      | dense =>
        simp only at hshape
        exact absurd hx' (dget_none.1 hshape)
      | missing =>
        simp only at hshape
        exact absurd hx' (dget_none.1 hshape)
    simp [this]

/-- The time mode is found. -/
theorem readMode_back {I : Info} {fuel : Nat} (hN : ncMetadata fuel I m = .ok N) (hs : Sized m N hom own c sizes)
    (hg : Written sc tx N hom m own c sizes g) (hom' : hom = isHomogeneous sc c) {k : Int} (hk : timeMode sc c = some k)
    (hk' : k = 0 ∨ k = 1 ∨ k = 2) : readMode (backReader sc tx N m g) = .ok hom := by
  have hh : hom = decide (k = 1) := by
    rw [hom', isHomogeneous, hk]
    by_cases h : k = 1
    · simp [h]
    · simp [h]
  unfold timeMode at hk
  split at hk
  · rename_i d hd
    split at hk
    · rename_i l u hu
      have hx : look c modePath [] = some (.leaf l (some u)) :=
        (look_ind (by simp)).2 (.inl ⟨d, hd, by rw [look]; exact hu⟩)
      obtain ⟨y, hy, hty, -⟩ := look_typed modePath [] hs.typed hx
      cases y with
      | struct => simp [Typed] at hty
      | aos => simp [Typed] at hty
      | leaf l' =>
        simp only [Typed] at hty
        subst hty
        have hus : u.shape = [] := by
          have : (u.get []).isSome = true := by
            cases hz : u.get [] with
            | none => rw [hz] at hk; cases hk
            | some => rfl
          rw [u.ok] at this
          cases hsh : u.shape with
          | nil => rfl
          | cons a r => rw [hsh] at this; simp [inside] at this
        have hnd : l.ndim = 0 := by rw [← hs.ranks _ _ _ _ hx, hus]; rfl
        have hf : Filled (Node.leaf l (some u)) := by simp [Filled, Value.isEmpty, hus]
        have harr : arraysOf m [] modePath = [] := by
          simp only [modePath, arraysOf]
          rcases typed_child hs.typed "ids_properties".toList with ⟨-, h3⟩ | ⟨y, z, h3, h4, h5⟩
          · rw [h3] at hd; cases hd
          · rw [hd] at h4
            cases h4
            cases y with
            | leaf => simp [Typed] at h5
            | aos => simp [Typed] at h5
            | struct e => rw [h3]
        have hitem : HasItem c modePath := ⟨[], _, hx, (look_filled hs hy id hx).1 hf⟩
        obtain ⟨v, hv⟩ := dget_of_name ((hg.names modePath).2 hitem)
        have hne : modePath ≠ [] := by simp [modePath]
        have hdp : IsDataPath m modePath := ⟨_, hy, by rintro _ ⟨⟩⟩
        obtain ⟨sp, y, -, ⟨y2, hy2, hvar⟩, hy', -⟩ := hg.var modePath v hv
        rw [hy] at hy' hy2
        cases hy'
        cases hy2
        obtain ⟨a, hda, rfl⟩ := hvar
        obtain ⟨own', hl'⟩ := layout hs.wf hN true
        have dims0 : ∀ {h o}, Layout m N h o → N.getDims h modePath = [] := by
          intro h o hl
          rw [hl.tuple _ hdp, harr]
          have := hl.rank _ _ hne hy
          simp only [NcSpec.rank, hnd] at this
          simp [List.length_eq_zero_iff.1 this]
        have coords0 : ∀ {h o}, Layout m N h o → N.getCoords h modePath = [] := by
          intro h o hl
          exact hl.coords _ _ hy (.inr ⟨hnd, harr⟩)
        unfold readMode
        rw [show (backReader sc tx N m g).group = g from rfl, hv, show (backReader sc tx N m g).target = m from rfl,
          metaOf_eq _ _ hne, hy]
        have hval : validateVar (backReader sc tx N m g) true modePath (.leaf l) (varAttrs tx N hom
            (fun q => (filledFields [] [] c).any (·.path = q)) modePath (.leaf l) sp
          { type := .data l.type, dims := (N.getDims hom modePath).map .dd, data := a
            fill := if l.type = .cpx then none else some (sc.fill l.type) }) = .ok () := by
          have hd' : validateData (backReader sc tx N m g) true modePath l (varAttrs tx N hom
              (fun q => (filledFields [] [] c).any (·.path = q)) modePath (.leaf l) sp
            { type := .data l.type, dims := (N.getDims hom modePath).map .dd, data := a
              fill := if l.type = .cpx then none else some (sc.fill l.type) }) = .ok () := by
            unfold validateData
            simp only [varAttrs, ne_eq, not_true_eq_false, if_false, backReader, nonempty_getD, dims0 hl', dims0 hs.layout,
              coords0 hl', coords0 hs.layout, List.filter_nil, List.any_nil, List.map_nil]
            rw [if_neg (by simp), if_neg]
            simp only [List.any_eq_true, not_exists, not_and, List.mem_filter]
            rintro q ⟨hq, -⟩
            simp [hq]
          unfold validateVar
          simp only [hd']
          rw [if_neg (by exact units_ok _)]
          have : validateSparsity (backReader sc tx N m g) true modePath (.leaf l) = .ok () := by
            unfold validateSparsity
            rw [if_pos (show ndimOf (.leaf l) = 0 from hnd)]
          rw [this]
          cases sp <;> simp [varAttrs]
        simp only [hval]
        have hget := hda.filled [] l u (index_inside hs hx).2 hx hf [] (by
          have := hs.layout.rank _ _ hne hy
          simp only [NcSpec.rank, hnd] at this
          simp [List.length_eq_zero_iff.1 this, inside])
        rw [get_getD (by rw [hus]; rfl), List.append_nil] at hget
        rw [show (backReader sc tx N m g).sc = sc from rfl]
        simp only [varAttrs, hget, hk]
        rw [if_pos hk', hh]
    · cases hk
  · cases hk

end Verif.Nc
