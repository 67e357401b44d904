import Verif.Lemmas.NcVersion
import Verif.Props.NcRound
import Verif.Props.VersionNbc
/-
C67: reading netCDF files of another Data Dictionary version.
-/
namespace Verif.Props
open Verif.Ids Verif.Nc Verif.NcSpec Verif.TreeSpec Verif.VMapSpec
open Verif.VMap hiding Path Nbc
open Verif.ConvertSpec (metaAt)
open Verif.AlSpec (arraysOf IsDataPath)

set_option linter.unusedSectionVars false
variable {S : Type} [DecidableEq S]

theorem unset_empty {x : Node (Arr S)} (h : Unset x) : ¬ Filled x := by
  cases x with
  | leaf l w => simp only [Unset] at h; subst h; exact id
  | struct d => exact id
  | aos m e => simpa [Unset, Filled] using h

/-- Reading with a map that agrees with `link` on everything that is stored. -/
theorem ncv_read {m mt : MFields} {I : Info} {fuel : Nat} {N : NcMeta} {sc : Scalars S} {tx : Texts} {c : Fields (Arr S)} {M : NcMap}
    {link : Path → Option Path} (hw : WFMFields m) (hN : ncMetadata fuel I m = .ok N) (he : ErrorsOk m) (ht : TypedF c m) (hr : RanksOk c)
    {k : Int} (hk : timeMode sc c = some k) (hk' : k = 0 ∨ k = 1 ∨ k = 2)
    (hs : Storable sc (N.getDims (decide (k = 1))) c) (validate : Bool)
    (hmode : metaAt (.struct mt) modePath = metaAt (.struct m) modePath) (ha : Aligned m mt link)
    (hag : ∀ p i x, look c p i = some x → Filled x → IsDataPath m p → targetOf (some M) p = link p) :
    ∃ g c', writeIds sc tx N m c = .ok g ∧ readIds (otherReader sc tx N m mt (some M) g) validate = .ok c' ∧ TypedF c' mt ∧
      (∀ p q, IsDataPath m p → link p = some q → ∀ i, (look c' q i).map obs = (look c p i).map fun x => (obs x).norm) ∧
      (∀ q i x, look c' q i = some x → (∀ p, IsDataPath m p → link p ≠ some q) → ¬ Filled x) := by
  have hh : decide (k = 1) = isHomogeneous sc c := by
    rw [isHomogeneous, hk]
    by_cases h : k = 1 <;> simp [h]
  rw [hh] at hs
  obtain ⟨own, hl⟩ := layout hw hN (isHomogeneous sc c)
  obtain ⟨g, h1, hg⟩ := written (tx := tx) hw rfl hl ht hr
  have hz := sized hw hl ht hr
  let M' : Option NcMap := some ⟨fun p => some (link p), fun _ => false⟩
  have hM' : targetOf M' = link := rfl
  obtain ⟨c', h2, h3, h4, h5⟩ := read_other (M := M') hz hg hs (by rw [hM']; exact ha)
  rw [hM'] at h4 h5
  refine ⟨g, c', h1, ?_, h3, h4, fun q i x hx hn => unset_empty (h5 q i x hx hn)⟩
  have hag' : ∀ p, (p, false) ∈ g.names → IsDataPath m p → targetOf (some M) p = targetOf M' p := by
    intro p hp hd
    obtain ⟨i, x, hx, hv⟩ := (hg.names p).1 (mem_names.1 hp)
    obtain ⟨y, hy, hn⟩ := id hd
    have hns : ¬ IsStruct y := by
      cases y with
      | struct d => exact absurd rfl (hn d)
      | leaf => exact id
      | aos => exact id
    exact hag p i x hx ((look_filled hz hy hns hx).2 hv) hd
  have hmo : readMode (otherReader sc tx N m mt (some M) g) = readMode (backReader sc tx N m g) := by
    unfold readMode
    rw [show (otherReader sc tx N m mt (some M) g).target = mt from rfl, show (backReader sc tx N m g).target = m from rfl,
      metaOf_eq _ mt (by simp [modePath]), metaOf_eq _ m (by simp [modePath]), hmode]
    rfl
  have hva : ∀ hom L, validateAll (otherReader sc tx N m mt (some M) g) hom L = validateAll (backReader sc tx N m g) hom L := by
    intro hom L
    induction L with
    | nil => rfl
    | cons x L ih =>
      simp only [validateAll]
      rw [ih]
      rfl
  unfold readIds
  rw [hmo, readMode_back hN hz hg rfl hk hk']
  simp only
  rw [show (otherReader sc tx N m mt (some M) g).group = g from rfl, hva, validateAll_back hz hg he]
  simp only [ite_self]
  rw [readVars_agree (M' := M') hag' (by
    intro p q hp hd hq
    rw [hag' p hp hd, hM'] at hq
    obtain ⟨y, hy, hn⟩ := id hd
    have hns : ¬ IsStruct y := by
      cases y with
      | struct d => exact absurd rfl (hn d)
      | leaf => exact id
      | aos => exact id
    obtain ⟨hq0, z, hz, -⟩ := ha.kind p q y (isDataPath_ne hd) hy hns hq
    rw [metaOf_eq _ _ hq0, hz]
    simp)]
  exact h2

/-- **C67, files of an older version.** Reading an IDS from a netCDF file of an older Data Dictionary version gives exactly the
values and sizes of the nodes that the dictionaries identify, also of nodes and structures with other names. Everything else is not
set. The structures around everything that is stored must be in both versions, with the same type. -/
theorem C67_get_old (d : Dicts) (G : Given d) (L : Placed d) (hr : RenamedOnly d) (hkind : KeepsKind d) {m1 m2 : MFields}
    (s1 : Shows d.old m1) (s2 : Shows d.new m2) (hty : SameTypes d m1 m2)
    (hmode : metaAt (.struct m2) modePath = metaAt (.struct m1) modePath)
    {I : Info} {fuel : Nat} {N : NcMeta} {sc : Scalars S} {tx : Texts} {c : Fields (Arr S)}
    (hw : WFMFields m1) (hN : ncMetadata fuel I m1 = .ok N) (he : ErrorsOk m1) (ht : TypedF c m1) (hra : RanksOk c)
    {k : Int} (hk : timeMode sc c = some k) (hk' : k = 0 ∨ k = 1 ∨ k = 2)
    (hs : Storable sc (N.getDims (decide (k = 1))) c) (hin : AroundKept (KeptOld d) c) (validate : Bool) :
    ∃ g c', writeIds sc tx N m1 c = .ok g ∧ readIds (otherReader sc tx N m1 m2 (some (ncMap d true)) g) validate = .ok c' ∧
      TypedF c' m2 ∧
      (∀ f o, SameNode d f o → IsDataPath m1 o.path → ∀ i,
        (look c' f.path i).map obs = (look c o.path i).map fun x => (obs x).norm) ∧
      (∀ q i x, look c' q i = some x → ¬ KeptNew d q → ¬ Filled x) := by
  obtain ⟨link, hl, hd⟩ := describes_new (V := Unit) G L hr hkind s1 s2 (fun _ => 0) (fun _ => 0) (fun _ _ => false) (fun _ _ => false)
  have hl' : ∀ p q, link p = some q ↔ ∃ o f, Same (fun o f => Claim d f o) (fun o f => Changed d f o) o f ∧ o.path = p ∧ f.path = q := by
    intro p q
    rw [hl]
    constructor
    · rintro ⟨f, o, h1, h2, h3⟩; exact ⟨o, f, (same_node_iff G L).2 h1, h2, h3⟩
    · rintro ⟨o, f, h1, h2, h3⟩; exact ⟨f, o, (same_node_iff G L).1 h1, h2, h3⟩
  have ha : Aligned m1 m2 link := side_aligned G.new (side_new G L hr hkind) s1 s2
    (fun o f _ h => by have := keeps_kinds hkind h; exact ⟨this.1.symm, this.2.symm⟩)
    (fun o f hc hh l l' h1 h2 => by
      have hsame : d.same f.dtype o.dtype = true := by
        cases h : d.same f.dtype o.dtype with
        | true => rfl
        | false => exact absurd (.inl h) hh
      have := hty f hc.1 o hc.2.1 hsame l' l h2 h1
      exact ⟨this.1.symm, this.2.symm⟩)
    (fun o f o' f' h h' e => (G.one _ _ _ _ h h').1 e) hl' hd.arrays
  obtain ⟨g, c', h1, h2, h3, h4, h5⟩ := ncv_read (tx := tx) (M := ncMap d true) hw hN he ht hra hk hk' hs validate hmode ha (by
    intro p i x hx hf hdp
    refine side_target G.old (side_new G L hr hkind) s1 hl' hdp fun t r e ht hr' => ?_
    obtain ⟨f, o, h6, rfl⟩ := hin p i x hx hf t r e ht hr'
    exact ⟨f.path, (hl _ _).2 ⟨f, o, h6, rfl, rfl⟩⟩)
  refine ⟨g, c', h1, h2, h3, fun f o h6 hdp => h4 _ _ hdp ((hl _ _).2 ⟨f, o, h6, rfl, rfl⟩), fun q i x hx hn => h5 q i x hx ?_⟩
  intro p _ h
  obtain ⟨f, o, h6, -, h7⟩ := (hl _ _).1 h
  exact hn ⟨f, o, h6, h7⟩

/-- **C67, files of a newer version.** The same for reading files of a newer version with an older one. -/
theorem C67_get_new (d : Dicts) (G : Given d) (L : Placed d) (hr : RenamedOnly d) (hkind : KeepsKind d) {m1 m2 : MFields}
    (s1 : Shows d.old m1) (s2 : Shows d.new m2) (hty : SameTypes d m1 m2)
    (hmode : metaAt (.struct m1) modePath = metaAt (.struct m2) modePath)
    {I : Info} {fuel : Nat} {N : NcMeta} {sc : Scalars S} {tx : Texts} {c : Fields (Arr S)}
    (hw : WFMFields m2) (hN : ncMetadata fuel I m2 = .ok N) (he : ErrorsOk m2) (ht : TypedF c m2) (hra : RanksOk c)
    {k : Int} (hk : timeMode sc c = some k) (hk' : k = 0 ∨ k = 1 ∨ k = 2)
    (hs : Storable sc (N.getDims (decide (k = 1))) c) (hin : AroundKept (KeptNew d) c) (validate : Bool) :
    ∃ g c', writeIds sc tx N m2 c = .ok g ∧ readIds (otherReader sc tx N m2 m1 (some (ncMap d false)) g) validate = .ok c' ∧
      TypedF c' m1 ∧
      (∀ f o, SameNode d f o → IsDataPath m2 f.path → ∀ i,
        (look c' o.path i).map obs = (look c f.path i).map fun x => (obs x).norm) ∧
      (∀ q i x, look c' q i = some x → ¬ KeptOld d q → ¬ Filled x) := by
  obtain ⟨link, hl, hd⟩ := describes_old (V := Unit) G L hr hkind s1 s2 (fun _ => 0) (fun _ => 0) (fun _ _ => false) (fun _ _ => false)
  have ha : Aligned m2 m1 link := side_aligned G.old (side_old G L hr hkind) s2 s1
    (fun f o _ h => keeps_kinds hkind h)
    (fun f o hc hh l l' h1 h2 => by
      have hsame : d.same f.dtype o.dtype = true := by
        cases h : d.same f.dtype o.dtype with
        | true => rfl
        | false => exact absurd (.inl h) hh
      exact hty f hc.1 o hc.2.1 hsame l l' h1 h2)
    (fun f o f' o' h h' e => (G.one _ _ _ _ h h').2 e) hl hd.arrays
  obtain ⟨g, c', h1, h2, h3, h4, h5⟩ := ncv_read (tx := tx) (M := ncMap d false) hw hN he ht hra hk hk' hs validate hmode ha (by
    intro p i x hx hf hdp
    refine side_target G.new (side_old G L hr hkind) s2 hl hdp fun t r e ht hr' => ?_
    obtain ⟨f, o, h6, rfl⟩ := hin p i x hx hf t r e ht hr'
    exact ⟨o.path, (hl _ _).2 ⟨f, o, h6, rfl, rfl⟩⟩)
  refine ⟨g, c', h1, h2, h3, fun f o h6 hdp => h4 _ _ hdp ((hl _ _).2 ⟨f, o, h6, rfl, rfl⟩), fun q i x hx hn => h5 q i x hx ?_⟩
  intro p _ h
  obtain ⟨f, o, h6, -, h7⟩ := (hl _ _).1 h
  exact hn ⟨f, o, h6, h7⟩

/-! ### Two versions -/

/-- The array `channel` is called `probe` now, `z` has another type, the structure `gone` was removed, `added` is new. -/
def ncDicts : Dicts where
  version := 38
  same a b := a = b
  old := [vmField [ncName "ids_properties"] tStruct, vmField [ncName "ids_properties", ncName "homogeneous_time"] tInt,
    vmField [ncName "channel"] tArray, vmField [ncName "channel", ncName "x"] tFlt, vmField [ncName "z"] tFlt,
    vmField [ncName "gone"] tStruct, vmField [ncName "gone", ncName "y"] tFlt]
  new := [vmField [ncName "ids_properties"] tStruct, vmField [ncName "ids_properties", ncName "homogeneous_time"] tInt,
    vmField [ncName "probe"] tArray (vmRename (ncName "channel")), vmField [ncName "probe", ncName "x"] tFlt, vmField [ncName "z"] tInt,
    vmField [ncName "added"] tFlt]

def ncOldMeta : MFields :=
  .cons (ncName "ids_properties") (.struct (.cons (ncName "homogeneous_time") (ncLeaf .int 0) .nil)) <|
  .cons (ncName "channel") (.aos (.cons (ncName "x") (ncLeaf .flt 0) .nil)) <|
  .cons (ncName "z") (ncLeaf .flt 0) <|
  .cons (ncName "gone") (.struct (.cons (ncName "y") (ncLeaf .flt 0) .nil)) .nil

def ncNewMeta : MFields :=
  .cons (ncName "ids_properties") (.struct (.cons (ncName "homogeneous_time") (ncLeaf .int 0) .nil)) <|
  .cons (ncName "probe") (.aos (.cons (ncName "x") (ncLeaf .flt 0) .nil)) <|
  .cons (ncName "z") (ncLeaf .int 0) <|
  .cons (ncName "added") (ncLeaf .flt 0) .nil

def ncProps : Node (Arr Int) := .struct (.present (ncName "homogeneous_time") (dataNode .int 0 (.scalar 0)) .nil)

def ncOldTree : Fields (Arr Int) :=
  .present (ncName "ids_properties") ncProps <|
  .present (ncName "channel") (.aos (.cons (ncName "x") (ncLeaf .flt 0) .nil)
    (.cons (dataPart (some (.scalar 5))) (.cons (dataPart (some (.scalar 6))) .nil))) <|
  .present (ncName "z") (dataNode .flt 0 (.scalar 3)) <|
  .absent (ncName "gone") (.struct (.cons (ncName "y") (ncLeaf .flt 0) .nil)) .nil

def ncNewTree : Fields (Arr Int) :=
  .present (ncName "ids_properties") ncProps <|
  .present (ncName "probe") (.aos (.cons (ncName "x") (ncLeaf .flt 0) .nil)
    (.cons (dataPart (some (.scalar 5))) (.cons (dataPart (some (.scalar 6))) .nil))) <|
  .present (ncName "z") (dataNode .int 0 (.scalar 3)) <|
  .present (ncName "added") (dataNode .flt 0 (.scalar 4)) .nil

theorem ncDicts_given : Given ncDicts := given_of_check (by decide +kernel)
theorem ncDicts_level : Level ncDicts := level_of_check ncDicts_given.old ncDicts_given.new (by decide +kernel)
theorem ncDicts_renamed : RenamedOnly ncDicts := renamedOnly_of_check ncDicts_given (by decide +kernel)
theorem ncDicts_old : Shows ncDicts.old ncOldMeta := shows_of_check (by decide +kernel)
theorem ncDicts_new : Shows ncDicts.new ncNewMeta := shows_of_check (by decide +kernel)

theorem ncDicts_kinds : KeepsKind ncDicts := by
  intro a b h
  have : a = b := by simpa [ncDicts] using h
  subst this
  exact ⟨Iff.rfl, Iff.rfl⟩

theorem ncDicts_types : SameTypes ncDicts ncOldMeta ncNewMeta := by
  have h : (ncDicts.new.all fun f => ncDicts.old.all fun o => !ncDicts.same f.dtype o.dtype ||
      match metaAt (.struct ncNewMeta) f.path, metaAt (.struct ncOldMeta) o.path with
      | some (.leaf l), some (.leaf l') => l.type = l'.type && l.ndim = l'.ndim
      | _, _ => true) = true := by decide +kernel
  simp only [List.all_eq_true] at h
  intro f hf o ho hs l l' h1 h2
  have := h f hf o ho
  rw [hs, h1, h2] at this
  simpa using this

theorem same_of_check {d : Dicts} (G : Given d) {f o : Field} (hc : Claim d f o)
    (h : (d.new.all fun f' => d.old.all fun o' => !(claimB d f' o' && changedB d f' o' && f'.path.isPrefixOf f.path)) = true) :
    SameNode d f o := by
  refine ⟨hc, fun f' o' r hc' e hch => ?_⟩
  simp only [List.all_eq_true] at h
  have h4 := h f' hc'.1 o' hc'.2.1
  have h5 : f'.path <+: f.path := ⟨r, e.symm⟩
  rw [claim_claimB G.old G.new hc', changed_changedB hch, List.isPrefixOf_iff_prefix.2 h5] at h4
  cases h4

theorem ncDicts_props : SameNode ncDicts (vmField [ncName "ids_properties"] tStruct) (vmField [ncName "ids_properties"] tStruct) :=
  same_of_check ncDicts_given (ncDicts_level.reuse _ (by simp [ncDicts]) _ (by simp [ncDicts]) rfl) (by decide +kernel)

theorem ncDicts_probe : SameNode ncDicts (vmField [ncName "probe"] tArray (vmRename (ncName "channel"))) (vmField [ncName "channel"] tArray) := by
  obtain ⟨-, f, o, h1, h2, h3, -⟩ := C21_linked ncDicts_given [ncName "probe"] [ncName "channel"] (by decide +kernel)
  cases field_once ncDicts_given.new.once h1.1 (by simp [ncDicts] : vmField [ncName "probe"] tArray (vmRename (ncName "channel")) ∈ ncDicts.new) h2
  cases field_once ncDicts_given.old.once h1.2.1 (by simp [ncDicts] : vmField [ncName "channel"] tArray ∈ ncDicts.old) h3
  exact same_of_check ncDicts_given h1 (by decide +kernel)

theorem around_of_check {m : MFields} {c : Fields (Arr Int)} {kept : Path → Prop} (l : List Path) (hl : ∀ p ∈ l, kept p) (ht : TypedF c m)
    (hw : WFMFields m) (h : ((filledFields [] [] c).all fun x => (List.range x.path.length).all fun n => n = 0 || l.contains (x.path.take n)) = true) :
    AroundKept kept c := by
  intro p i x hx hf t r e ht0 hr0
  have hv := (filled_hasValue.1 hf).1
  obtain ⟨z, hz⟩ : ∃ z, contentOf x = some z := by
    cases x with
    | leaf l w =>
      cases w with
      | none => exact absurd hf id
      | some v => exact ⟨_, rfl⟩
    | struct d => exact ⟨_, rfl⟩
    | aos m e => exact ⟨_, rfl⟩
  have := (mem_items (it := ⟨p, i, z⟩) (Verif.Convert.wf_of_typedF c m ht hw)).2 ⟨x, hx, hv, hz⟩
  simp only [List.all_eq_true] at h
  have h1 := h _ this t.length (by rw [e]; simp; exact List.length_pos_iff.2 hr0)
  have h2 : p.take t.length = t := by rw [e, List.take_left' rfl]
  simp only [h2, Bool.or_eq_true, decide_eq_true_eq, List.length_eq_zero_iff] at h1
  rcases h1 with h1 | h1
  · exact absurd h1 ht0
  · exact hl t (by simpa using h1)

theorem ncOldMeta_wf : WFMFields ncOldMeta := by
  simp [ncOldMeta, WFMFields, WFMeta, mnames, ncLeaf]; decide +kernel
theorem ncNewMeta_wf : WFMFields ncNewMeta := by
  simp [ncNewMeta, WFMFields, WFMeta, mnames, ncLeaf]; decide +kernel

theorem ncOldTree_typed : TypedF ncOldTree ncOldMeta := by
  simp [ncOldTree, ncOldMeta, TypedF, Typed, TypedE, dataNode, dataPart, ncLeaf, ncProps]
theorem ncNewTree_typed : TypedF ncNewTree ncNewMeta := by
  simp [ncNewTree, ncNewMeta, TypedF, Typed, TypedE, dataNode, dataPart, ncLeaf, ncProps]

/-- The hypotheses are met by data with renamed structures and changed types, in both directions. -/
example (N : NcMeta) (hN : ncMetadata 10 movedInfo ncOldMeta = .ok N) :=
  C67_get_old ncDicts ncDicts_given (ncDicts_level.placed ncDicts_given) ncDicts_renamed ncDicts_kinds ncDicts_old ncDicts_new ncDicts_types rfl
    (tx := dataTexts) (sc := dataScalars) ncOldMeta_wf hN (errors_ok (by decide +kernel)) ncOldTree_typed (ranks_ok (by decide +kernel))
    (k := 0) (by decide +kernel) (.inl rfl) (storable_ok (by decide +kernel))
    (around_of_check [[ncName "ids_properties"], [ncName "channel"]] (by
      intro p hp
      simp only [List.mem_cons, List.not_mem_nil, or_false] at hp
      rcases hp with rfl | rfl
      · exact ⟨_, _, ncDicts_props, rfl⟩
      · exact ⟨_, _, ncDicts_probe, rfl⟩) ncOldTree_typed ncOldMeta_wf (by decide +kernel)) true

example (N : NcMeta) (hN : ncMetadata 10 movedInfo ncNewMeta = .ok N) :=
  C67_get_new ncDicts ncDicts_given (ncDicts_level.placed ncDicts_given) ncDicts_renamed ncDicts_kinds ncDicts_old ncDicts_new ncDicts_types rfl
    (tx := dataTexts) (sc := dataScalars) ncNewMeta_wf hN (errors_ok (by decide +kernel)) ncNewTree_typed (ranks_ok (by decide +kernel))
    (k := 0) (by decide +kernel) (.inl rfl) (storable_ok (by decide +kernel))
    (around_of_check [[ncName "ids_properties"], [ncName "probe"]] (by
      intro p hp
      simp only [List.mem_cons, List.not_mem_nil, or_false] at hp
      rcases hp with rfl | rfl
      · exact ⟨_, _, ncDicts_props, rfl⟩
      · exact ⟨_, _, ncDicts_probe, rfl⟩) ncNewTree_typed ncNewMeta_wf (by decide +kernel)) true

example : (ncMetadata 10 movedInfo ncOldMeta).isOk = true ∧ (ncMetadata 10 movedInfo ncNewMeta).isOk = true := by decide +kernel

/-- Writes in one version and reads in the other one. -/
def otherTest (m mt : MFields) (M : NcMap) (c : Fields (Arr Int)) (f : NcMeta → Group Int → Except NcErr (Fields (Arr Int)) → Bool) : Bool :=
  match ncMetadata 10 movedInfo m with
  | .error _ => false
  | .ok N =>
    match writeIds dataScalars dataTexts N m c with
    | .error _ => false
    | .ok g => f N g (readIds (otherReader dataScalars dataTexts N m mt (some M) g) true)

/-- The array is read under its new name; `z`, which has another type, is not. -/
example : otherTest ncOldMeta ncNewMeta (ncMap ncDicts true) ncOldTree (fun _ _ r => match r with
    | .error _ => false
    | .ok c => sizeOf' (look c [ncName "probe"] []) = some 2 && elemOf (look c [ncName "probe", ncName "x"] [1]) [] = some 6 &&
      elemOf (look c [ncName "z"] []) [] = none) = true := by decide +kernel

/-- Something is stored in the structure that was removed. -/
def ncGoneTree : Fields (Arr Int) :=
  .present (ncName "ids_properties") ncProps <|
  .absent (ncName "channel") (.aos (.cons (ncName "x") (ncLeaf .flt 0) .nil)) <|
  .absent (ncName "z") (ncLeaf .flt 0) <|
  .present (ncName "gone") (.struct (.present (ncName "y") (dataNode .flt 0 (.scalar 4)) .nil)) .nil

/-- **C67, limit.** If something is stored in a structure that the other version does not have, the IDS cannot be read at all: only
the path of the structure is mapped to nothing (`_map_missing`, ids_convert.py 464-484), the paths inside are not in the map, and the
data inside are read to the same path of the IDS, where nothing is (nc2ids.py 97-120). In its own version the group can be read. -/
theorem C67_removed_limit : ∃ (d : Dicts) (m1 m2 : MFields) (N : NcMeta) (c c' : Fields (Arr Int)) (g : Group Int),
    Given d ∧ Level d ∧ RenamedOnly d ∧ KeepsKind d ∧ Shows d.old m1 ∧ Shows d.new m2 ∧ SameTypes d m1 m2 ∧
    ncMetadata 10 movedInfo m1 = .ok N ∧ TypedF c m1 ∧ writeIds dataScalars dataTexts N m1 c = .ok g ∧
    readIds (backReader dataScalars dataTexts N m1 g) true = .ok c' ∧
    readIds (otherReader dataScalars dataTexts N m1 m2 (some (ncMap d true)) g) true = .error .attribute := by
  have h : otherTest ncOldMeta ncNewMeta (ncMap ncDicts true) ncGoneTree (fun N g r =>
      match readIds (backReader dataScalars dataTexts N ncOldMeta g) true, r with
      | .ok _, .error .attribute => true
      | _, _ => false) = true := by decide +kernel
  unfold otherTest at h
  split at h
  · cases h
  · rename_i N hN
    split at h
    · cases h
    · rename_i g hg
      dsimp only at h
      split at h
      · rename_i c' h1 h2
        exact ⟨ncDicts, ncOldMeta, ncNewMeta, N, ncGoneTree, c', g, ncDicts_given, ncDicts_level, ncDicts_renamed, ncDicts_kinds,
          ncDicts_old, ncDicts_new, ncDicts_types, hN,
          by simp [ncGoneTree, ncOldMeta, TypedF, Typed, dataNode, ncLeaf, ncProps], hg, h1, h2⟩
      · cases h

end Verif.Props
