import Verif.Lemmas.NcBack
import Verif.Props.NcLazy
/-
Sizes of netCDF dimensions (C31).
-/
namespace Verif.Props
open Verif.Ids Verif.Nc Verif.NcSpec Verif.TreeSpec
open Verif.ConvertSpec (metaAt)
open Verif.AlSpec (arraysOf IsDataPath)

set_option linter.unusedSectionVars false
variable {S : Type} [DecidableEq S]

/-- C31: writing an IDS succeeds, and each dimension of the group has the greatest size that data and arrays of structures have
in it; there are no dimensions that nothing uses. -/
theorem C31_sizes {m : MFields} {I : Info} {fuel : Nat} {N : NcMeta} {sc : Scalars S} {tx : Texts} {c : Fields (Arr S)}
    (hw : WFMFields m) (hN : ncMetadata fuel I m = .ok N) (ht : TypedF c m) (hr : RanksOk c) :
    ∃ g, writeIds sc tx N m c = .ok g ∧
      ∀ d, IsMax (Uses (N.getDims (isHomogeneous sc c)) c d) (dget g.dims (.dd d)) := by
  obtain ⟨own, hl⟩ := layout hw hN (isHomogeneous sc c)
  obtain ⟨g, h1, h2⟩ := written (tx := tx) hw rfl hl ht hr
  refine ⟨g, h1, fun d => ?_⟩
  rw [h2.dims]
  exact (sized hw hl ht hr).max d

/-- The dimensions are known. -/
theorem known_dims {m : MFields} {N : NcMeta} {hom : Bool} {own : Path → List Dim} {c : Fields (Arr S)} {sizes : List (NcDim × Nat)}
    (hs : Sized m N hom own c sizes) {p : Path} {i : List Nat} {x : Node (Arr S)} (hx : look c p i = some x) (hf : Filled x) :
    (aroundDims m own p ++ own p).map (fun d => dget sizes (.dd d)) =
      ((aroundDims m own p).map (szOf sizes) ++ (own p).map (szOf sizes)).map some := by
  rw [← List.map_append, List.map_map]
  apply List.map_congr_left
  intro d hd
  have : (dget sizes (.dd d)).isSome = true := by
    rcases List.mem_append.1 hd with h | h
    · exact (index_inside hs hx).1 d h
    · exact own_known hs hx hf d h
  obtain ⟨n, hn⟩ := Option.isSome_iff_exists.1 this
  simp [szOf, hn]

/-- C31: the data of a variable have the sizes of its dimensions; the value of each data node is stored in the variable with its
path, at the indices of the elements around it; other places contain the fill value. -/
theorem C31_fits {m : MFields} {I : Info} {fuel : Nat} {N : NcMeta} {sc : Scalars S} {tx : Texts} {c : Fields (Arr S)}
    (hw : WFMFields m) (hN : ncMetadata fuel I m = .ok N) (ht : TypedF c m) (hr : RanksOk c) {g : Group S}
    (hg : writeIds sc tx N m c = .ok g) {p : Path} {l : LeafMeta} (hp : metaAt (.struct m) p = some (.leaf l)) :
    (dget g.vars p = none ↔ ∀ i x, look c p i = some x → ¬ Filled x) ∧
    ∀ v, dget g.vars p = some v →
      v.dims.map (dget g.dims) = v.data.shape.map some ∧
      (∀ i u, look c p i = some (.leaf l (some u)) → Value.isEmpty u = false → ∀ j, (u.get j).isSome = true →
        v.data.get (i ++ j) = u.get j) ∧
      ∀ i j, i.length = (arraysOf m [] p).length → (v.data.get (i ++ j)).isSome = true →
        (∀ u, look c p i = some (.leaf l (some u)) → Value.isEmpty u = false → (u.get j).isSome = false) →
        v.data.get (i ++ j) = some (sc.fill l.type) := by
  obtain ⟨own, hl⟩ := layout hw hN (isHomogeneous sc c)
  obtain ⟨g', h1, h2⟩ := written (sc := sc) (tx := tx) hw rfl hl ht hr
  rw [hg] at h1
  cases h1
  have hs := sized hw hl ht hr
  have hp0 : p ≠ [] := by rintro rfl; simp [metaAt] at hp
  have hdp : IsDataPath m p := ⟨_, hp, by rintro _ ⟨⟩⟩
  constructor
  · rw [dget_none, h2.names]
    constructor
    · intro h i x hx hf
      exact h ⟨i, x, hx, (look_filled hs hp id hx).1 hf⟩
    · rintro h ⟨i, x, hx, hf⟩
      exact h i x hx ((look_filled hs hp id hx).2 hf)
  · intro v hv
    obtain ⟨sp, y, ⟨-, -⟩, ⟨y', hy', hvar⟩, hy, -⟩ := h2.var p v hv
    rw [hp] at hy hy'
    cases hy
    cases hy'
    obtain ⟨a, hda, rfl⟩ := hvar
    have : HasItem c p := (h2.names p).1 (List.mem_map.2 ⟨_, mem_of_dget hv, rfl⟩)
    obtain ⟨i0, x0, hx0, hv0⟩ := this
    have hf0 := (look_filled hs hp id hx0).2 hv0
    refine ⟨?_, ?_, ?_⟩
    · simp only [varAttrs]
      rw [hda.shape, ← known_dims hs hx0 hf0, hl.tuple p hdp, List.map_map]
      exact List.map_congr_left fun d _ => h2.dims d
    · intro i u hx hne j hj
      have hf : Filled (Node.leaf l (some u)) := by simpa [Filled] using hne
      rw [u.ok] at hj
      simp only [varAttrs]
      rw [hda.filled i l u (index_inside hs hx).2 hx hf j (inside_leq hj (extent_leq hs hx hf))]
      exact get_getD hj
    · intro i j hi hj hno
      simp only [varAttrs] at hj ⊢
      rw [a.ok, hda.shape] at hj
      have hlen : i.length = ((aroundDims m own p).map (szOf (collectSizes (N.getDims (isHomogeneous sc c)) (filledFields [] [] c) []))).length := by
        rw [List.length_map, hi, around_length hl]
      obtain ⟨hii, hjj⟩ := inside_both hlen hj
      by_cases hex : ∃ u, look c p i = some (.leaf l (some u)) ∧ Filled (Node.leaf l (some u))
      · obtain ⟨u, hx, hf⟩ := hex
        rw [hda.filled i l u hii hx hf j hjj]
        have := hno u hx (by simpa [Filled] using hf)
        rw [none_of this, Option.getD_none]
      · refine hda.unset i hii ?_ j hjj
        intro x hx hf
        obtain ⟨y, hy, hty, -⟩ := look_typed p [] ht hx
        rw [hp] at hy
        cases hy
        cases x with
        | struct => simp [Typed] at hty
        | aos => simp [Typed] at hty
        | leaf l' w =>
          simp only [Typed] at hty
          subst hty
          cases w with
          | none => simp [Filled] at hf
          | some u => exact hex ⟨u, hx, hf⟩

/-! ### Examples -/

/-! A test for all data nodes. -/

mutual
def leavesMeta (f : LeafMeta → Option (Arr S) → Bool) : Meta → Bool
  | .leaf l => f l none
  | .struct c => leavesMFields f c
  | .aos _ => true
def leavesMFields (f : LeafMeta → Option (Arr S) → Bool) : MFields → Bool
  | .nil => true
  | .cons _ m r => leavesMeta f m && leavesMFields f r
end

mutual
def leavesNode (f : LeafMeta → Option (Arr S) → Bool) : Node (Arr S) → Bool
  | .leaf l v => f l v
  | .struct c => leavesFields f c
  | .aos _ e => leavesElems f e
def leavesFields (f : LeafMeta → Option (Arr S) → Bool) : Fields (Arr S) → Bool
  | .nil => true
  | .absent _ m r => leavesMeta f m && leavesFields f r
  | .present _ x r => leavesNode f x && leavesFields f r
def leavesElems (f : LeafMeta → Option (Arr S) → Bool) : Elems (Arr S) → Bool
  | .nil => true
  | .cons c r => leavesFields f c && leavesElems f r
end

variable {f : LeafMeta → Option (Arr S) → Bool}

theorem leaves_fresh : ∀ d : MFields, leavesMFields f d = true → leavesFields f (d.fresh : Fields (Arr S)) = true
  | .nil, _ => rfl
  | .cons n m r, h => by
    simp only [leavesMFields, Bool.and_eq_true] at h
    simp only [MFields.fresh, leavesFields, Bool.and_eq_true]
    exact ⟨h.1, leaves_fresh r h.2⟩

theorem leaves_get {k : Name} {x : Node (Arr S)} : ∀ {c : Fields (Arr S)}, leavesFields f c = true → c.get? k = some x →
    leavesNode f x = true
  | .nil, _, h => by simp [Fields.get?] at h
  | .absent n y r, hr, h => by
    simp only [Fields.get?] at h
    simp only [leavesFields, Bool.and_eq_true] at hr
    split at h
    · cases h
      cases y with
      | leaf => exact hr.1
      | aos => rfl
      | struct d => exact leaves_fresh d hr.1
    · exact leaves_get (c := r) hr.2 h
  | .present n y r, hr, h => by
    simp only [Fields.get?] at h
    simp only [leavesFields, Bool.and_eq_true] at hr
    split at h
    · cases h; exact hr.1
    · exact leaves_get (c := r) hr.2 h

theorem leaves_elem : ∀ {e : Elems (Arr S)} {j : Nat} {d : Fields (Arr S)}, leavesElems f e = true → e.get? j = some d →
    leavesFields f d = true
  | .nil, _, _, _, h => by simp [Elems.get?] at h
  | .cons c r, 0, _, hr, h => by
    simp only [leavesElems, Bool.and_eq_true] at hr
    simp only [Elems.get?, Option.some.injEq] at h
    exact h ▸ hr.1
  | .cons c r, j + 1, _, hr, h => by
    simp only [leavesElems, Bool.and_eq_true] at hr
    exact leaves_elem (e := r) hr.2 h

theorem leaves_look : ∀ (p : Path) {c : Fields (Arr S)} {i : List Nat} {x : Node (Arr S)}, leavesFields f c = true → look c p i = some x →
    leavesNode f x = true
  | [], _, _, _, _, h => by simp [look] at h
  | [k], c, i, x, hr, h => by
    rw [look_one] at h
    split at h
    · exact leaves_get hr h
    · cases h
  | k :: k' :: p, c, i, x, hr, h => by
    rcases (look_ind (by simp)).1 h with ⟨d, h7, h8⟩ | ⟨m', e, j, i', d, h7, rfl, h8, h9⟩
    · exact leaves_look (k' :: p) (by simpa [leavesNode] using leaves_get hr h7) h8
    · exact leaves_look (k' :: p) (leaves_elem (by simpa [leavesNode] using leaves_get hr h7) h8) h9

def rankTest (l : LeafMeta) : Option (Arr S) → Bool
  | none => true
  | some v => v.shape.length = l.ndim

theorem ranks_ok {c : Fields (Arr S)} (h : leavesFields rankTest c = true) : RanksOk c := by
  intro p i l v hl
  have := leaves_look p h hl
  simpa [leavesNode, rankTest] using this

theorem dataMeta_wf : WFMFields dataMeta := by
  simp only [WFMFields, WFMeta, dataMeta, ncLeaf, mnames]
  decide +kernel

theorem dataTree_typed : TypedF dataTree dataMeta := by
  simp [dataTree, dataMeta, TypedF, Typed, TypedE, dataNode, dataPart, ncLeaf]

theorem dataTree_ranks : RanksOk dataTree := ranks_ok (by decide +kernel)

/-- The hypotheses are met for data with shapes that differ: `channel` and `time` have size 2, `part` has size 2 although one of
the two arrays has one element. -/
example : ∃ (N : NcMeta) (g : Group Int), WFMFields dataMeta ∧ ncMetadata 10 dataInfo dataMeta = .ok N ∧ TypedF dataTree dataMeta ∧
    RanksOk dataTree ∧ writeIds dataScalars dataTexts N dataMeta dataTree = .ok g ∧
    (g.dims.filterMap fun d => match d.1 with
      | .dd _ => some d.2
      | _ => none) = [2, 2, 2] ∧
    ((dget g.vars [ncName "channel", ncName "part", ncName "x"]).map fun v => (v.data.get [0, 1], v.data.get [1, 0], v.data.get [1, 1])) =
      some (some 5, some 6, some 7777) := by
  obtain ⟨N, g, c, hb⟩ := dataBack_some
  obtain ⟨h1, h2, -⟩ := dataBack_ok hb
  refine ⟨N, g, dataMeta_wf, h1, dataTree_typed, dataTree_ranks, h2, ?_, ?_⟩
  · have := dataTest_ok (f := fun N g c => (g.dims.filterMap fun d => match d.1 with
      | .dd _ => some d.2
      | _ => none) = [2, 2, 2]) (by decide +kernel) hb
    exact of_decide_eq_true this
  · have := dataTest_ok (f := fun N g c => ((dget g.vars [ncName "channel", ncName "part", ncName "x"]).map fun v => (v.data.get [0, 1], v.data.get [1, 0], v.data.get [1, 1])) =
      some (some 5, some 6, some 7777)) (by decide +kernel) hb
    exact of_decide_eq_true this

end Verif.Props
