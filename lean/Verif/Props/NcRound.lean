import Verif.Lemmas.NcRound
import Verif.Lemmas.NcCheck
import Verif.Props.NcWrite
/-
Storing an IDS to a netCDF group and reading it back (C30), and which groups are accepted (C33).
-/
namespace Verif.Props
open Verif.Ids Verif.Nc Verif.NcSpec Verif.TreeSpec
open Verif.ConvertSpec (mchild child metaAt)
open Verif.AlSpec (arraysOf IsDataPath)

set_option linter.unusedSectionVars false
variable {S : Type} [DecidableEq S]

/-- C30: storing an IDS and reading it back gives nodes at the same places, with the same values and numbers of elements; empty
arrays are unset afterwards. If there are gaps between 0D values in arrays of structures, they must differ from the fill value, and
complex ones must all be set (`Storable`). -/
theorem C30_round_trip {m : MFields} {I : Info} {fuel : Nat} {N : NcMeta} {sc : Scalars S} {tx : Texts} {c : Fields (Arr S)}
    (hw : WFMFields m) (hN : ncMetadata fuel I m = .ok N) (he : ErrorsOk m) (ht : TypedF c m) (hr : RanksOk c)
    {k : Int} (hk : timeMode sc c = some k) (hk' : k = 0 ∨ k = 1 ∨ k = 2)
    (hs : Storable sc (N.getDims (decide (k = 1))) c) (validate : Bool) :
    ∃ g c', writeIds sc tx N m c = .ok g ∧ readIds (backReader sc tx N m g) validate = .ok c' ∧ TypedF c' m ∧
      ∀ p i, (look c' p i).map obs = (look c p i).map fun x => (obs x).norm := by
  have hh : decide (k = 1) = isHomogeneous sc c := by
    rw [isHomogeneous, hk]
    by_cases h : k = 1 <;> simp [h]
  rw [hh] at hs
  obtain ⟨own, hl⟩ := layout hw hN (isHomogeneous sc c)
  obtain ⟨g, h1, hg⟩ := written (tx := tx) hw rfl hl ht hr
  have hz := sized hw hl ht hr
  obtain ⟨c', h2, h3, h4⟩ := read_back hz hg hs
  refine ⟨g, c', h1, ?_, h3, h4⟩
  unfold readIds
  rw [readMode_back hN hz hg rfl hk hk']
  simp only
  rw [show (backReader sc tx N m g).group = g from rfl, validateAll_back hz hg he]
  simp only [ite_self]
  exact h2

/-- C33: reading a group raises `InvalidNetCDFEntry` exactly when it does not agree with the Data Dictionary. Sparse variables with
dimensions have a `:shape` variable. -/
theorem C33_exact {R : Reader S} {I : Info} {fuel : Nat} (hw : WFMFields R.stored) (hN : ncMetadata fuel I R.stored = .ok R.N)
    (hm : ModeOk R.stored) (ht : metaOf R.target modePath = metaOf R.stored modePath) (hg : NamesOk R.group) (hd : DimsExist R.group)
    (hs : ∀ p y v, metaAt (.struct R.stored) p = some y → dget R.group.vars p = some v → v.sparse = true → NcSpec.rank y ≠ 0 →
      dget R.group.shapes p ≠ none) :
    readIds R true = .error .invalid ↔ ¬ ValidGroup R.stored R.N R.tx R.sc R.group := by
  obtain ⟨own, hl⟩ := layout hw hN true
  have hne : modePath ≠ [] := by simp [modePath]
  unfold readIds
  cases hmode : readMode R with
  | error e =>
    have := readMode_error hm ht hd hmode
    subst this
    refine ⟨fun _ => ?_, fun _ => rfl⟩
    rintro ⟨v, k, h1, h2, h3, h4, -⟩
    obtain ⟨y, h5, h6⟩ := h4 _ _ h1
    obtain ⟨h, h7, -⟩ := (readMode_ok (hom := decide (k = 1)) hw hN hm ht).2 ⟨v, y, k, h1, h5, validMode hw hN hm h5 h6, h2, h3, rfl⟩
    rw [hmode] at h7
    cases h7
  | ok hom =>
    obtain ⟨v, y, k, h1, h2, h3, h4, h5, rfl⟩ := (readMode_ok hw hN hm ht).1 ⟨hom, hmode, rfl⟩
    simp only [if_true]
    have hok := validateGroup_ok (hom := decide (k = 1)) hg hl.aos
    cases hall : validateAll R (decide (k = 1)) R.group.names with
    | error e =>
      have := validateGroup_error hd hg hs hall
      subst this
      refine ⟨fun _ => ?_, fun _ => rfl⟩
      rintro ⟨v', k', h6, h7, h8, h9⟩
      cases h1.symm.trans h6
      rw [h4] at h7
      cases h7
      rw [hok.2 h9] at hall
      cases hall
    | ok u =>
      simp only
      refine ⟨fun h => absurd h readVars_error, fun h => ?_⟩
      obtain ⟨h6, h7⟩ := hok.1 hall
      exact absurd ⟨v, k, h1, h4, h5, h6, h7⟩ h

/-- C33: groups written by the library are valid. -/
theorem C33_written {m : MFields} {I : Info} {fuel : Nat} {N : NcMeta} {sc : Scalars S} {tx : Texts} {c : Fields (Arr S)}
    (hw : WFMFields m) (hN : ncMetadata fuel I m = .ok N) (he : ErrorsOk m) (ht : TypedF c m) (hr : RanksOk c)
    {k : Int} (hk : timeMode sc c = some k) (hk' : k = 0 ∨ k = 1 ∨ k = 2) {g : Group S} (hg : writeIds sc tx N m c = .ok g) :
    ValidGroup m N tx sc g := by
  obtain ⟨own, hl⟩ := layout hw hN (isHomogeneous sc c)
  obtain ⟨g', h1, hg'⟩ := written (tx := tx) hw rfl hl ht hr
  rw [hg] at h1
  cases h1
  have hz := sized hw hl ht hr
  have hmode := readMode_back hN hz hg' rfl hk hk'
  have hall := validateAll_back hz hg' he
  have hm : ModeOk m := by
    unfold timeMode at hk
    split at hk
    · rename_i d hd
      split at hk
      · rename_i l u hu
        have hx : look c modePath [] = some (.leaf l (some u)) :=
          (look_ind (by simp)).2 (.inl ⟨d, hd, by rw [look]; exact hu⟩)
        obtain ⟨y, hy, hty, hlen⟩ := look_typed modePath [] hz.typed hx
        cases y with
        | struct => simp [Typed] at hty
        | aos => simp [Typed] at hty
        | leaf l' =>
          simp only [Typed] at hty
          subst hty
          refine ⟨⟨l, hy, ?_⟩, List.length_eq_zero_iff.1 (by simpa using hlen.symm)⟩
          have : (u.get []).isSome = true := by
            cases hz : u.get [] with
            | none => rw [hz] at hk; cases hk
            | some => rfl
          rw [u.ok] at this
          rw [← hr _ _ _ _ hx]
          cases hsh : u.shape with
          | nil => rfl
          | cons a r => rw [hsh] at this; simp [inside] at this
      · cases hk
    · cases hk
  obtain ⟨v, y, k', h3, h4, h5, h6, h7, h8⟩ := (readMode_ok (R := backReader sc tx N m g) hw hN hm rfl).1 ⟨_, hmode, rfl⟩
  rw [h8] at hall
  obtain ⟨h9, h10⟩ := (validateGroup_ok (R := backReader sc tx N m g) (namesOk_back hg') hl.aos).1 hall
  exact ⟨v, k', h3, h6, h7, h9, h10⟩

/-! ### Examples -/

mutual
def namesMeta (f : Name → Bool) : Meta → Bool
  | .leaf _ => true
  | .struct c => namesMFields f c
  | .aos c => namesMFields f c
def namesMFields (f : Name → Bool) : MFields → Bool
  | .nil => true
  | .cons n m r => f n && namesMeta f m && namesMFields f r
end

theorem names_child {f : Name → Bool} {k : Name} {y : Meta} : ∀ {m : MFields}, namesMFields f m = true → mchild m k = some y →
    f k = true ∧ namesMeta f y = true
  | .nil, _, h => by cases h
  | .cons n z r, hn, h => by
    simp only [namesMFields, Bool.and_eq_true] at hn
    simp only [mchild] at h
    split at h
    · rename_i e
      subst e
      cases h
      exact hn.1
    · exact names_child hn.2 h

theorem names_meta {f : Name → Bool} : ∀ {q : Path} {n : Name} {m : MFields} {y : Meta}, namesMFields f m = true →
    metaAt (.struct m) (q ++ [n]) = some y → f n = true
  | [], n, m, y, hn, h => by
    simp only [List.nil_append, metaAt, child] at h
    cases hc : mchild m n with
    | none => rw [hc] at h; cases h
    | some z => exact (names_child hn hc).1
  | k :: q, n, m, y, hn, h => by
    rw [List.cons_append, metaAt, child] at h
    cases hc : mchild m k with
    | none => rw [hc] at h; cases h
    | some z =>
      rw [hc, Option.bind_some] at h
      have hz := (names_child hn hc).2
      cases z with
      | leaf l => cases q <;> simp [metaAt, child] at h
      | struct d => exact names_meta (q := q) hz h
      | aos d =>
        refine names_meta (q := q) (m := d) (y := y) hz ?_
        cases q <;> simpa [metaAt, child] using h

/-- The name of an error bar. -/
def errorName (n : Name) : Bool := "_error_upper".toList.isSuffixOf n || "_error_lower".toList.isSuffixOf n

theorem errors_ok {m : MFields} (h : namesMFields (fun n => !errorName n) m = true) : ErrorsOk m := by
  intro p y _ _ q hq
  obtain ⟨r, n, -, h2⟩ := mem_errorNames.1 hq
  cases hm : metaAt (.struct m) q with
  | none => rfl
  | some z =>
    exfalso
    rcases h2 with rfl | rfl
    · have := names_meta h hm
      simp only [errorName, Bool.not_eq_true', Bool.or_eq_false_iff] at this
      have h3 := this.1
      rw [Bool.eq_false_iff] at h3
      exact h3 (List.isSuffixOf_iff_suffix.2 ⟨n, rfl⟩)
    · have := names_meta h hm
      simp only [errorName, Bool.not_eq_true', Bool.or_eq_false_iff] at this
      have h3 := this.2
      rw [Bool.eq_false_iff] at h3
      exact h3 (List.isSuffixOf_iff_suffix.2 ⟨n, rfl⟩)

def storeTest (sc : Scalars S) (l : LeafMeta) (w : Option (Arr S)) : Bool :=
  l.ndim ≠ 0 || l.type ≠ .cpx && (match w with
    | none => true
    | some v => v.get [] ≠ some (sc.fill l.type))

theorem storable_ok {sc : Scalars S} {dims : Path → List Dim} {c : Fields (Arr S)} (h : leavesFields (storeTest sc) c = true) :
    Storable sc dims c := by
  intro p _ i l w hx hnd
  have := leaves_look p h hx
  simp only [leavesNode, storeTest, hnd] at this
  simp only [ne_eq, not_true_eq_false, decide_false, Bool.false_or, Bool.and_eq_true, decide_eq_true_eq] at this
  refine ⟨fun h => absurd h this.1, ?_⟩
  rintro - v rfl
  simpa using this.2

/-- The hypotheses of `C30_round_trip` are met for data with different shapes, unset nodes and sparse variables. -/
example : ∃ N : NcMeta, WFMFields dataMeta ∧ ncMetadata 10 dataInfo dataMeta = .ok N ∧ ErrorsOk dataMeta ∧ TypedF dataTree dataMeta ∧
    RanksOk dataTree ∧ timeMode dataScalars dataTree = some 1 ∧ Storable dataScalars (N.getDims true) dataTree := by
  obtain ⟨N, g, c, hb⟩ := dataBack_some
  obtain ⟨h1, -, -⟩ := dataBack_ok hb
  exact ⟨N, dataMeta_wf, h1, errors_ok (by decide +kernel), dataTree_typed, dataTree_ranks, by decide +kernel, storable_ok (by decide +kernel)⟩

def lossMeta (t : BaseType) : MFields :=
  .cons (ncName "ids_properties") (.struct (.cons (ncName "homogeneous_time") (ncLeaf .int 0) .nil)) <|
  .cons (ncName "part") (.aos (.cons (ncName "x") (ncLeaf t 0) .nil)) .nil

/-- Two elements; only the first one contains a value. -/
def lossTree (t : BaseType) (k : Int) : Fields (Arr Int) :=
  .present (ncName "ids_properties") (.struct (.present (ncName "homogeneous_time") (dataNode .int 0 (.scalar 0)) .nil)) <|
  .present (ncName "part") (.aos (.cons (ncName "x") (ncLeaf t 0) .nil)
    (.cons (.present (ncName "x") (dataNode t 0 (.scalar k)) .nil) (.cons (.absent (ncName "x") (ncLeaf t 0) .nil) .nil))) .nil

/-- Writes and reads back. -/
def backTest (m : MFields) (c : Fields (Arr Int)) (f : Group Int → Except NcErr (Fields (Arr Int)) → Bool) : Bool :=
  match ncMetadata 10 movedInfo m with
  | .error _ => false
  | .ok N =>
    match writeIds dataScalars dataTexts N m c with
    | .error _ => false
    | .ok g => f g (readIds (backReader dataScalars dataTexts N m g) true)

theorem backTest_ok {m : MFields} {c : Fields (Arr Int)} {f : Group Int → Except NcErr (Fields (Arr Int)) → Bool}
    (h : backTest m c f = true) : ∃ N g, ncMetadata 10 movedInfo m = .ok N ∧ writeIds dataScalars dataTexts N m c = .ok g ∧
      f g (readIds (backReader dataScalars dataTexts N m g) true) = true := by
  unfold backTest at h
  split at h
  · cases h
  · rename_i N hN
    split at h
    · cases h
    · rename_i g hg
      exact ⟨N, g, hN, hg, h⟩

theorem loss_typed (t : BaseType) (k : Int) : TypedF (lossTree t k) (lossMeta t) := by
  simp [lossTree, lossMeta, TypedF, Typed, TypedE, dataNode, ncLeaf]

/-- C30, limit: a value that equals the fill value is lost if another node with the same path is unset. -/
theorem C30_fill_value_limit : ∃ (m : MFields) (N : NcMeta) (c c' : Fields (Arr Int)) (g : Group Int) (p : Path) (i : List Nat),
    TypedF c m ∧ RanksOk c ∧ ErrorsOk m ∧ ncMetadata 10 movedInfo m = .ok N ∧ writeIds dataScalars dataTexts N m c = .ok g ∧
    readIds (backReader dataScalars dataTexts N m g) true = .ok c' ∧ (look c p i).map obs = some (.leaf (some (.scalar 7777))) ∧
    (look c' p i).map obs = some (.leaf none) := by
  obtain ⟨N, g, hN, hg, h⟩ := backTest_ok (m := lossMeta .flt) (c := lossTree .flt 7777) (f := fun _ r =>
    match r with
    | .error _ => false
    | .ok c' => match look c' [ncName "part", ncName "x"] [0] with
      | some (.leaf _ none) => true
      | _ => false) (by decide +kernel)
  split at h
  · cases h
  · rename_i c' hc
    split at h
    · rename_i l hl
      exact ⟨lossMeta .flt, N, lossTree .flt 7777, c', g, [ncName "part", ncName "x"], [0], loss_typed _ _, ranks_ok (by decide +kernel),
        errors_ok (by decide +kernel), hN, hg, hc, rfl, by rw [hl]; rfl⟩
    · cases h

/-- C30, limit: an unset complex number is read back as a value if another node with the same path is set (there is no `_FillValue`
for complex numbers, `ids2nc.py` lines 75-76). -/
theorem C30_complex_limit : ∃ (m : MFields) (N : NcMeta) (c c' : Fields (Arr Int)) (g : Group Int) (p : Path) (i : List Nat),
    TypedF c m ∧ RanksOk c ∧ ErrorsOk m ∧ ncMetadata 10 movedInfo m = .ok N ∧ writeIds dataScalars dataTexts N m c = .ok g ∧
    readIds (backReader dataScalars dataTexts N m g) true = .ok c' ∧ (look c p i).map obs = some (.leaf none) ∧
    ∃ v, (look c' p i).map obs = some (.leaf (some v)) := by
  obtain ⟨N, g, hN, hg, h⟩ := backTest_ok (m := lossMeta .cpx) (c := lossTree .cpx 5) (f := fun _ r =>
    match r with
    | .error _ => false
    | .ok c' => match look c' [ncName "part", ncName "x"] [1] with
      | some (.leaf _ (some _)) => true
      | _ => false) (by decide +kernel)
  split at h
  · cases h
  · rename_i c' hc
    split at h
    · rename_i l v hl
      exact ⟨lossMeta .cpx, N, lossTree .cpx 5, c', g, [ncName "part", ncName "x"], [1], loss_typed _ _, ranks_ok (by decide +kernel),
        errors_ok (by decide +kernel), hN, hg, hc, rfl, v, by rw [hl]; rfl⟩
    · cases h

def clashMeta : MFields :=
  .cons (ncName "ids_properties") (.struct (.cons (ncName "homogeneous_time") (ncLeaf .int 0) .nil)) <|
  .cons (ncName "a") (.struct (.cons (ncName "x") (ncLeaf .flt 0) .nil)) <|
  .cons (ncName "a_error_upper") (ncLeaf .flt 0) .nil

def clashTree : Fields (Arr Int) :=
  .present (ncName "ids_properties") (.struct (.present (ncName "homogeneous_time") (dataNode .int 0 (.scalar 0)) .nil)) <|
  .present (ncName "a") (.struct (.present (ncName "x") (dataNode .flt 0 (.scalar 1)) .nil)) <|
  .present (ncName "a_error_upper") (dataNode .flt 0 (.scalar 2)) .nil

/-- C33, limit: if the Data Dictionary had a structure with an error bar, groups written by the library would be rejected: the
attribute `ancillary_variables` is written for structures (ids2nc.py 86-92), and not allowed when reading (nc2ids.py 214-274). -/
theorem C33_error_names_limit : ∃ (m : MFields) (N : NcMeta) (c : Fields (Arr Int)) (g : Group Int),
    TypedF c m ∧ RanksOk c ∧ ncMetadata 10 movedInfo m = .ok N ∧ writeIds dataScalars dataTexts N m c = .ok g ∧
    readIds (backReader dataScalars dataTexts N m g) true = .error .invalid := by
  obtain ⟨N, g, hN, hg, h⟩ := backTest_ok (m := clashMeta) (c := clashTree) (f := fun _ r =>
    match r with
    | .error .invalid => true
    | _ => false) (by decide +kernel)
  split at h
  · rename_i hc
    exact ⟨clashMeta, N, clashTree, g, by simp [clashTree, clashMeta, TypedF, Typed, dataNode, ncLeaf],
      ranks_ok (by decide +kernel), hN, hg, hc⟩
  · cases h

/-- The time mode of the example. -/
theorem dataMeta_mode : ModeOk dataMeta := ⟨⟨_, rfl, rfl⟩, rfl⟩

def dimsTest (g : Group Int) : Bool := g.shapes.all fun s => s.2.dims.all fun d => (dget g.dims d).isSome

theorem dimsTest_ok {g : Group Int} (h : dimsTest g = true) : DimsExist g := by
  intro p s hs d hd
  simp only [dimsTest, List.all_eq_true] at h
  exact h (p, s) (mem_of_dget hs) d hd

/-- Without `:shape` variables. -/
def noShapes (g : Group Int) : Group Int := { g with shapes := [] }

/-- C33, limit: a sparse variable without `:shape` variable gives an `AttributeError` (`_validate_sparsity`, nc2ids.py 276-311). -/
theorem C33_missing_shape_limit : ∃ (R : Reader Int) (I : Info), WFMFields R.stored ∧ ncMetadata 10 I R.stored = .ok R.N ∧ NamesOk R.group ∧
    DimsExist R.group ∧ ¬ ValidGroup R.stored R.N R.tx R.sc R.group ∧ readIds R true = .error .attribute := by
  obtain ⟨N, g, c, hb⟩ := dataBack_some
  obtain ⟨h1, h2, -⟩ := dataBack_ok hb
  refine ⟨dataReader N (noShapes g), dataInfo, dataMeta_wf, h1, ?_, ?_, ?_, ?_⟩
  · exact namesTest_ok (dataTest_ok (f := fun N g c => namesTest (noShapes g)) (by decide +kernel) hb)
  · exact dimsTest_ok (dataTest_ok (f := fun N g c => dimsTest (noShapes g)) (by decide +kernel) hb)
  · rintro ⟨v, k, -, -, -, hv, -⟩
    have ht := dataTest_ok (f := fun N g c => match dget g.vars [ncName "channel", ncName "data"] with
      | some v => v.sparse
      | none => false) (by decide +kernel) hb
    split at ht
    · rename_i v' hv'
      obtain ⟨y, hy, hval⟩ := hv _ v' hv'
      have hy' : y = ncLeaf .flt 1 := (Option.some.inj (hy.symm.trans rfl))
      subst hy'
      obtain ⟨s, d, h3, -⟩ := hval.sparse ht (by simp [NcSpec.rank, ncLeaf])
      cases h3
    · cases ht
  · have ht := dataTest_ok (f := fun N g c => match readIds (dataReader N (noShapes g)) true with
      | .error .attribute => true
      | _ => false) (by decide +kernel) hb
    split at ht
    · assumption
    · cases ht

/-- With another unit for the time. -/
def otherUnits (g : Group Int) : Group Int :=
  { g with vars := g.vars.map fun v => (v.1, { v.2 with units := v.2.units.map fun _ => ['m', 's'] }) }

/-- The hypotheses of `C33_exact` are met for data with sparse variables and wrong units. -/
example : ∃ (R : Reader Int) (I : Info), WFMFields R.stored ∧ ncMetadata 10 I R.stored = .ok R.N ∧ ModeOk R.stored ∧
    metaOf R.target modePath = metaOf R.stored modePath ∧ NamesOk R.group ∧ DimsExist R.group ∧
    (∀ p y v, metaAt (.struct R.stored) p = some y → dget R.group.vars p = some v → v.sparse = true → NcSpec.rank y ≠ 0 →
      dget R.group.shapes p ≠ none) ∧ R.group.vars.any (·.2.sparse) = true ∧ readIds R true = .error .invalid := by
  obtain ⟨N, g, c, hb⟩ := dataBack_some
  obtain ⟨h1, h2, -⟩ := dataBack_ok hb
  refine ⟨dataReader N (otherUnits g), dataInfo, dataMeta_wf, h1, dataMeta_mode, rfl, ?_, ?_, ?_, ?_, ?_⟩
  · exact namesTest_ok (dataTest_ok (f := fun N g c => namesTest (otherUnits g)) (by decide +kernel) hb)
  · exact dimsTest_ok (dataTest_ok (f := fun N g c => dimsTest (otherUnits g)) (by decide +kernel) hb)
  · intro p y v hy hv hsp hr
    have ht := dataTest_ok (f := fun N g c => (otherUnits g).vars.all fun v => !v.2.sparse || (dget (otherUnits g).shapes v.1).isSome ||
      (match metaOf dataMeta v.1 with
        | some y => NcSpec.rank y = 0
        | none => false)) (by decide +kernel) hb
    simp only [List.all_eq_true] at ht
    have := ht (p, v) (mem_of_dget hv)
    have hp : p ≠ [] := by rintro rfl; cases hy; exact hr rfl
    simp only [metaOf_eq _ _ hp, show metaAt (.struct dataMeta) p = some y from hy] at this
    intro hn
    rw [show (dataReader N (otherUnits g)).group = otherUnits g from rfl] at hn
    simp [hsp, hn, hr] at this
  · exact dataTest_ok (f := fun N g c => (otherUnits g).vars.any (·.2.sparse)) (by decide +kernel) hb
  · have ht := dataTest_ok (f := fun N g c => match readIds (dataReader N (otherUnits g)) true with
      | .error .invalid => true
      | _ => false) (by decide +kernel) hb
    split at ht
    · assumption
    · cases ht

end Verif.Props
