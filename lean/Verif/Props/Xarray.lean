import Verif.Lemmas.XarrayData
import Verif.Lemmas.XarraySource
import Verif.Props.NcWrite
/-
Conversion to xarray (C35).
-/
namespace Verif.Props
open Verif.Ids Verif.Nc Verif.NcSpec Verif.TreeSpec
open Verif.ConvertSpec (mchild child metaAt)
open Verif.AlSpec (arraysOf IsDataPath)

set_option linter.unusedSectionVars false
variable {S : Type} [DecidableEq S]

/-- C35: the selection ends, and gives each of these paths once: the selected paths, the arrays of structures around them, and the
coordinates of all these paths. -/
theorem C35_paths {m : MFields} {I : Info} {fuel : Nat} {N : NcMeta} (hw : WFMFields m) (hN : ncMetadata fuel I m = .ok N) (hom : Bool)
    {sel : List Path} (hsel : ∀ p ∈ sel, ∃ x, metaAt (.struct m) p = some x) :
    ∃ n, ∀ k, n ≤ k → ∃ l, includePaths k N hom sel = some l ∧ l.Nodup ∧ ∀ p, p ∈ l ↔ Needed m (N.getCoords hom) sel p :=
  include_ok hw hN hom hsel

/-- C35: coordinates of nodes are those that the Data Dictionary names, or nodes that are coordinates themselves. -/
theorem C35_sources {m : MFields} {I : Info} {fuel : Nat} {N : NcMeta} (hw : WFMFields m) (hN : ncMetadata fuel I m = .ok N) (hom : Bool)
    {p q : Path} (hq : q ∈ N.getCoords hom p) : CoordinateSource I m q :=
  coords_sourced hw hN hq

/-- Arrays of structures around arrays of structures. -/
theorem arrays_inner {m : MFields} {p a b : Path} {x : Meta} (hp : metaAt (.struct m) p = some x) (ha : a ∈ arraysOf m [] p)
    (hb : b ∈ arraysOf m [] a) : b ∈ arraysOf m [] p := by
  obtain ⟨t, k, r, e, h1, h2, h3, h4⟩ := (mem_arrays_iff p [] m x hp a).1 ha
  rw [List.nil_append] at h2
  subst h2
  obtain ⟨t', k', r', e', h5, h6, h7, h8⟩ := (mem_arrays_iff a [] m _ h4 b).1 hb
  refine (mem_arrays_iff p [] m x hp b).2 ⟨t', k', r' ++ k :: r, e', ?_, h6, h7, h8⟩
  rw [h1, h5]
  simp

theorem mem_nonempty {A : Type} {l : List A} : (nonempty l).getD [] = l := by
  cases l <;> simp [nonempty]

/-- C35: conversion succeeds, and gives one variable for each chosen data node of the Data Dictionary that has a value somewhere.
Variables have the dimensions of the node; the size of a dimension is the greatest one that the chosen nodes have. Values are
in their places and other places contain the fill value. The coordinates of a variable are those coordinates of the node that are
in the data set, and the coordinates of the data set are all of these.

Coordinates of chosen nodes have to be data nodes, and the arrays of structures around them have to be chosen too. -/
theorem C35_dataset {m : MFields} {I : Info} {fuel : Nat} {N : NcMeta} {sc : Scalars S} {fill : BaseType → S} {tx : Texts}
    {c : Fields (Arr S)} {isLazy : Bool} {sel : List Path}
    (hw : WFMFields m) (hN : ncMetadata fuel I m = .ok N) (ht : TypedF c m) (hr : RanksOk c)
    (hsel : ∀ p ∈ sel, p ≠ [] ∧ ∃ x, metaAt (.struct m) p = some x) (hlazy : isLazy = true → sel ≠ [])
    (hdata : ∀ p q, Chosen m (N.getCoords (isHomogeneous sc c)) sel p → q ∈ N.getCoords (isHomogeneous sc c) p →
      ∃ l, metaAt (.struct m) q = some (.leaf l))
    (harr : ∀ p q, Chosen m (N.getCoords (isHomogeneous sc c)) sel p → q ∈ N.getCoords (isHomogeneous sc c) p →
      ∀ a ∈ arraysOf m [] q, Chosen m (N.getCoords (isHomogeneous sc c)) sel a) :
    ∃ n, ∀ k, n ≤ k → ∃ ds sizes, toXarray k sc fill tx N m isLazy c sel = .ok ds ∧
      (∀ d, IsMax (UsesOf (Chosen m (N.getCoords (isHomogeneous sc c)) sel) (N.getDims (isHomogeneous sc c)) c d) (sizes d)) ∧
      ((Dataset.all ds).map (·.1)).Nodup ∧
      (∀ p, p ∈ (Dataset.all ds).map (·.1) ↔ Chosen m (N.getCoords (isHomogeneous sc c)) sel p ∧
        (∃ l, metaAt (.struct m) p = some (.leaf l)) ∧ ∃ i x, look c p i = some x ∧ Filled x) ∧
      (∀ p v, (p, v) ∈ Dataset.all ds → ∀ l, metaAt (.struct m) p = some (.leaf l) →
        v.dims = N.getDims (isHomogeneous sc c) p ∧
        Holds c p l (arraysOf m [] p).length (v.dims.map sizes) (fill l.type) v.data ∧
        v.documentation = tx.documentation p ∧ v.units.getD [] = tx.units p ∧
        v.coordinates.getD [] = (N.getCoords (isHomogeneous sc c) p).filter fun q => decide (q ∈ (Dataset.all ds).map (·.1))) ∧
      ∀ q, q ∈ ds.coords.map (·.1) ↔ ∃ p v, (p, v) ∈ Dataset.all ds ∧ q ∈ v.coordinates.getD [] := by
  obtain ⟨own, hl⟩ := layout hw hN (isHomogeneous sc c)
  obtain ⟨n, hn⟩ := include_ok hw hN (isHomogeneous sc c) (sel := sel) fun p hp => (hsel p hp).2
  refine ⟨n, fun k hk => ?_⟩
  obtain ⟨paths, hp1, -, hp3⟩ := hn k hk
  generalize hhom : isHomogeneous sc c = hom at *
  -- what is chosen
  have hnil : sel = [] ↔ paths = [] := by
    constructor
    · intro h
      cases hpe : paths with
      | nil => rfl
      | cons p r =>
        have := (hp3 p).1 (by rw [hpe]; simp)
        rw [h] at this
        have hno : ∀ p, ¬ Needed m (N.getCoords hom) [] p := by
          intro p hp
          induction hp with
          | selected h => cases h
          | array h => cases h
          | coordinate _ _ ih => exact ih
        exact absurd this (hno p)
    · intro h
      cases hse : sel with
      | nil => rfl
      | cons p r =>
        have := (hp3 p).2 (.selected (by rw [hse]; simp))
        rw [h] at this
        cases this
  have hch : ∀ p, decide (paths = [] ∨ p ∈ paths) = true ↔ Chosen m (N.getCoords hom) sel p := by
    intro p
    rw [decide_eq_true_eq, Chosen, hnil, hp3]
  generalize hkeep : (fun p => decide (paths = [] ∨ p ∈ paths)) = keep at *
  have hch : ∀ p, keep p = true ↔ Chosen m (N.getCoords hom) sel p := fun p => by rw [← hkeep]; exact hch p
  have hcoord : ∀ p q, Chosen m (N.getCoords hom) sel p → q ∈ N.getCoords hom p → Chosen m (N.getCoords hom) sel q := by
    rintro p q (h | h) hq
    · exact .inl h
    · exact .inr (.coordinate h hq)
  have hexist : ∀ p, Needed m (N.getCoords hom) sel p → p ≠ [] ∧ ∃ x, metaAt (.struct m) p = some x := by
    intro p hp
    cases hp with
    | selected h => exact hsel p h
    | array h ha =>
      obtain ⟨t, k', r, e, h1, h2, h3, h4⟩ := (mem_arrays_iff _ [] m _ (hsel _ h).2.choose_spec p).1 ha
      rw [List.nil_append] at h2
      subst h2
      exact ⟨h3, _, h4⟩
    | coordinate h hq =>
      obtain ⟨l, hl⟩ := hdata _ p (.inr h) hq
      refine ⟨?_, _, hl⟩
      rintro rfl
      simp [metaAt] at hl
  have hka : KeepsArrays m keep := by
    intro p hp a ha
    rw [hch] at hp ⊢
    rcases hp with hp | hp
    · exact .inl hp
    · cases hp with
      | selected h => exact .inr (.array h ha)
      | array h ha' => exact .inr (.array h (arrays_inner (hsel _ h).2.choose_spec ha' ha))
      | coordinate h hq => exact harr _ p (.inr h) hq a ha
  -- the items
  obtain ⟨items, hi1, hi2⟩ := chosenItems_ok (c := c) hw ht (paths := paths) (keep := keep)
    (fun p hp => by
      obtain ⟨h1, x, h2⟩ := hexist p ((hp3 p).1 hp)
      rw [metaOf_eq _ _ h1, h2]
      rfl)
    (fun p => by rw [← hkeep, decide_eq_true_eq])
  have hs := kept_sized hw hl ht hr hka hi2
  generalize hsz : collectSizes (N.getDims hom) items [] = sizes at hs
  have hpaths : ∀ p, p ∈ N.paths.filter (fun p => items.any (·.path = p)) ↔ keep p = true ∧ HasItem c p := by
    intro p
    rw [List.mem_filter, kept_any hi2]
    constructor
    · rintro ⟨-, h⟩; exact h
    · rintro ⟨h1, i, x, h2, h3⟩
      obtain ⟨y, hy, -, -⟩ := look_typed p [] ht h2
      exact ⟨(hl.paths p).2 ⟨by rintro rfl; simp [look] at h2, y, hy⟩, h1, i, x, h2, h3⟩
  obtain ⟨sps, hsp1, hsp2, hsp3⟩ := allShapes_items hs (items := items) (l := N.paths.filter fun p => items.any (·.path = p)) (by
    intro p hp
    obtain ⟨h1, i, x, h2, h3⟩ := (hpaths p).1 hp
    obtain ⟨y, hy, -, -⟩ := look_typed p [] ht h2
    exact ⟨by rintro rfl; simp [look] at h2, y, hy, fun hst => ⟨kept_hasItem ht hka h1 hy hst ⟨i, x, h2, h3⟩,
      kept_itemsOk ht hka hi2 hy hst⟩⟩)
  obtain ⟨vars, hv1, hv2, hv3, hv4⟩ := allXVars_ok fill tx ht hka hi2 hs (sps := sps) (by
    intro x hx
    refine ⟨(hpaths x.1).1 ?_, hsp3 x hx⟩
    rw [← hsp2]
    exact List.mem_map.2 ⟨x, hx, rfl⟩) (by rw [hsp2]; exact hl.nodup.filter _)
  -- names of variables
  have hnames : ∀ p, p ∈ vars.map (·.1) ↔ Chosen m (N.getCoords hom) sel p ∧
      (∃ l, metaAt (.struct m) p = some (.leaf l)) ∧ ∃ i x, look c p i = some x ∧ Filled x := by
    intro p
    rw [hv3, hsp2, hpaths, hch]
    constructor
    · rintro ⟨⟨h1, i, x, h2, h3⟩, l, h4⟩
      refine ⟨h1, ⟨l, h4⟩, i, x, h2, filled_hasValue.2 ⟨h3, ?_⟩⟩
      rintro d rfl
      obtain ⟨y, hy, hy', -⟩ := look_typed p [] ht h2
      rw [h4] at hy
      cases hy
      simp [Typed] at hy'
    · rintro ⟨h1, ⟨l, h4⟩, i, x, h2, h3⟩
      exact ⟨⟨h1, i, x, h2, (filled_hasValue.1 h3).1⟩, l, h4⟩
  have hcn : ∀ p l v, XVarOk fill tx N hom m own (pruneFields keep [] c) sizes (fun q => items.any (·.path = q)) p l v → (p, v) ∈ vars →
      v.coordinates.getD [] = (N.getCoords hom p).filter fun q => decide (q ∈ vars.map (·.1)) := by
    intro p l v hv hm
    rw [hv.coords, mem_nonempty]
    apply List.filter_congr
    intro q hq
    have hp := (hnames p).1 (List.mem_map.2 ⟨_, hm, rfl⟩)
    rw [Bool.eq_iff_iff, kept_any hi2, hch, decide_eq_true_eq, hnames]
    obtain ⟨l', hl'⟩ := hdata p q hp.1 hq
    constructor
    · rintro ⟨h1, i, x, h2, h3⟩
      refine ⟨h1, ⟨l', hl'⟩, i, x, h2, filled_hasValue.2 ⟨h3, ?_⟩⟩
      rintro d rfl
      obtain ⟨y, hy, hy', -⟩ := look_typed q [] ht h2
      rw [hl'] at hy
      cases hy
      simp [Typed] at hy'
    · rintro ⟨h1, -, i, x, h2, h3⟩
      exact ⟨h1, i, x, h2, (filled_hasValue.1 h3).1⟩
  have hcmem : ∀ q, q ∈ coordinateNames vars ↔ ∃ p v, (p, v) ∈ vars ∧ q ∈ v.coordinates.getD [] := by
    intro q
    rw [coordinateNames, List.mem_eraseDups, List.mem_flatMap]
    constructor
    · rintro ⟨x, h1, h2⟩; exact ⟨x.1, x.2, h1, h2⟩
    · rintro ⟨p, v, h1, h2⟩; exact ⟨_, h1, h2⟩
  have hcin : ∀ q ∈ coordinateNames vars, q ∈ vars.map (·.1) := by
    intro q hq
    obtain ⟨p, v, h1, h2⟩ := (hcmem q).1 hq
    obtain ⟨l, -, h3⟩ := hv4 _ h1
    rw [hcn p l v h3 h1, List.mem_filter, decide_eq_true_eq] at h2
    exact h2.2
  obtain ⟨ds, hd1, hd2, hd3, hd4, hd5⟩ := moveCoords_ok (names := coordinateNames vars) (vars := vars) (nodup_dups _ _ (Nat.le_refl _)) hv2 hcin
  have hall : ∀ y, y ∈ Dataset.all ds ↔ y ∈ vars := by
    intro y
    rw [Dataset.all, List.mem_append, hd4, hd5]
    by_cases h : y.1 ∈ coordinateNames vars <;> simp [h]
  have hallN : ∀ p, p ∈ (Dataset.all ds).map (·.1) ↔ p ∈ vars.map (·.1) := by
    intro p
    simp only [List.mem_map, hall]
  refine ⟨ds, fun d => dget sizes (.dd d), ?_, ?_, ?_, ?_, ?_, ?_⟩
  · have hcp : checkPaths m sel = true := by
      rw [checkPaths, List.all_eq_true]
      intro p hp
      obtain ⟨h1, x, h2⟩ := hsel p hp
      rw [metaOf_eq _ _ h1, h2]
      rfl
    have hlz : (isLazy && sel.isEmpty) = false := by
      cases isLazy with
      | false => rfl
      | true => simpa using hlazy rfl
    simp only [toXarray, hcp, hlz, hhom, hp1, hi1, hsz, hsp1, hv1, hd1, XErr.lift]
    rfl
  · intro d
    refine isMax_congr ?_ (hs.max d)
    intro n
    rw [kept_uses hka ht]
    simp only [UsesOf, hch]
  · rw [Dataset.all, List.map_append, List.nodup_append]
    refine ⟨hd2, by rw [hd3]; exact nodup_dups _ _ (Nat.le_refl _), ?_⟩
    intro a ha b hb hab
    subst hab
    rw [hd3] at hb
    obtain ⟨y, hy, rfl⟩ := List.mem_map.1 ha
    exact ((hd4 y).1 hy).2 hb
  · intro p
    rw [hallN]
    exact hnames p
  · intro p v hm l hp
    rw [hall] at hm
    obtain ⟨l', hl', hv⟩ := hv4 _ hm
    simp only at hl' hv
    rw [hp] at hl'
    cases hl'
    obtain ⟨hc1, -, i0, x0, hx0, hf0⟩ := (hnames p).1 (List.mem_map.2 ⟨_, hm, rfl⟩)
    have hkp : keep p = true := (hch p).2 hc1
    have hdp : IsDataPath m p := ⟨_, hp, by rintro _ ⟨⟩⟩
    have hlook : ∀ i u, look (pruneFields keep [] c) p i = some (.leaf l (some u)) ↔ look c p i = some (.leaf l (some u)) := by
      intro i u
      rw [kept_look hka ht hkp]
      constructor
      · rintro ⟨x, h1, h2⟩
        cases x with
        | leaf l' w =>
          simp only [pruneNode, hkp, if_true] at h2
          rw [h2]
          exact h1
        | struct => simp [pruneNode] at h2
        | aos => simp [pruneNode] at h2
      · intro h
        exact ⟨_, h, by simp [pruneNode, hkp]⟩
    have hx0' := (kept_look hka ht hkp).2 ⟨x0, hx0, rfl⟩
    have hf0' : Filled (pruneNode keep p x0) := prune_filled.2 ⟨hkp, hf0⟩
    refine ⟨hv.dims, ⟨?_, ?_, ?_⟩, hv.doc, by rw [hv.units, mem_nonempty], ?_⟩
    · rw [hv.data.shape, ← known_dims hs hx0' hf0', hv.dims, hl.tuple p hdp]
      rfl
    · intro i u hx hne j hj
      have hx' := (hlook i u).2 hx
      have hf : Filled (Node.leaf l (some u)) := by simpa [Filled] using hne
      rw [u.ok] at hj
      rw [hv.data.filled i l u (index_inside hs hx').2 hx' hf j (inside_leq hj (extent_leq hs hx' hf))]
      exact get_getD hj
    · intro i j hi hj hno
      rw [v.data.ok, hv.data.shape] at hj
      have hlen : i.length = ((aroundDims m own p).map (szOf sizes)).length := by
        rw [List.length_map, hi, around_length hl]
      obtain ⟨hii, hjj⟩ := inside_both hlen hj
      by_cases hex : ∃ u, look c p i = some (.leaf l (some u)) ∧ Filled (Node.leaf l (some u))
      · obtain ⟨u, hx, hf⟩ := hex
        rw [hv.data.filled i l u hii ((hlook i u).2 hx) hf j hjj]
        have := hno u hx (by simpa [Filled] using hf)
        rw [none_of this, Option.getD_none]
      · refine hv.data.unset i hii ?_ j hjj
        intro x hx hf
        obtain ⟨y, hy, hty, -⟩ := look_typed p [] hs.typed hx
        rw [hp] at hy
        cases hy
        cases x with
        | struct => simp [Typed] at hty
        | aos => simp [Typed] at hty
        | leaf l' w =>
          simp only [Typed] at hty
          subst hty
          cases w with
          | none => simp [Filled] at hf
          | some u => exact hex ⟨u, (hlook i u).1 hx, hf⟩
    · rw [hcn p l v hv hm]
      apply List.filter_congr
      intro q _
      rw [Bool.eq_iff_iff, decide_eq_true_eq, decide_eq_true_eq, hallN]
  · intro q
    rw [hd3, hcmem]
    simp only [hall]

/-- C35: coordinates are data nodes if those in the Data Dictionary are. -/
theorem C35_coordinates_data {m : MFields} {I : Info} {fuel : Nat} {N : NcMeta} (hw : WFMFields m) (hN : ncMetadata fuel I m = .ok N) (hom : Bool)
    (hin : ∀ p i q others, HasDim m p i → I.refs p i = q :: others → NcSpec.Inside q p → ∃ l, metaAt (.struct m) q = some (.leaf l))
    (halt : ∀ a q, Alternative I m a q → ∃ l, metaAt (.struct m) a = some (.leaf l))
    (htime : ∀ d, TimeDim I m d → ∃ l, metaAt (.struct m) ["time".toList] = some (.leaf l))
    {p q : Path} (hq : q ∈ N.getCoords hom p) : ∃ l, metaAt (.struct m) q = some (.leaf l) := by
  cases C35_sources hw hN hom hq with
  | inside hd _ h hi => exact hin _ _ _ _ hd h hi
  | index hp => exact ⟨_, hp⟩
  | alternative h => exact halt _ _ h
  | time h => exact htime _ h

/-! ### Examples -/

/-- C35: paths that are not in the Data Dictionary are refused, and so is the conversion of all of a lazy loaded IDS. In both
cases no data set is made. -/
theorem C35_refused {m : MFields} {fuel : Nat} {N : NcMeta} {sc : Scalars S} {fill : BaseType → S} {tx : Texts}
    {c : Fields (Arr S)} {isLazy : Bool} {sel : List Path}
    (h : (∃ p ∈ sel, p ≠ [] ∧ metaAt (.struct m) p = none) ∨ (isLazy = true ∧ sel = [])) :
    toXarray fuel sc fill tx N m isLazy c sel = .error (.error .value) ∨
    toXarray fuel sc fill tx N m isLazy c sel = .error .runtime := by
  rcases h with ⟨p, hp, h1, h2⟩ | ⟨rfl, rfl⟩
  · left
    have : checkPaths m sel = false := by
      rw [checkPaths, List.all_eq_false]
      exact ⟨p, hp, by rw [metaOf_eq _ _ h1, h2]; simp⟩
    simp [toXarray, this]
  · right
    simp [toXarray, checkPaths]

/-- The paths that are needed in a concrete case. -/
def neededTest (N : NcMeta) (hom : Bool) (sel l : List Path) : Bool :=
  match includePaths 100 N hom sel with
  | some k => decide (k = l)
  | none => false

theorem needed_ok {m : MFields} {I : Info} {fuel : Nat} {N : NcMeta} (hw : WFMFields m) (hN : ncMetadata fuel I m = .ok N) {hom : Bool}
    {sel l : List Path} (hsel : ∀ p ∈ sel, ∃ x, metaAt (.struct m) p = some x) (h : neededTest N hom sel l = true) (p : Path) :
    Needed m (N.getCoords hom) sel p ↔ p ∈ l := by
  unfold neededTest at h
  split at h
  · rename_i k hk
    have := of_decide_eq_true h
    subst this
    obtain ⟨n, hn⟩ := include_ok hw hN hom hsel
    obtain ⟨l', h1, -, h3⟩ := hn (n + 100) (by omega)
    have hmono : ∀ (a : Nat) (q d r : List Path), includeLoop (N.getCoords hom) a q d = some r → ∀ b, a ≤ b →
        includeLoop (N.getCoords hom) b q d = some r := by
      intro a
      induction a with
      | zero =>
        intro q d r h b _
        cases q with
        | nil => cases b <;> simpa [includeLoop] using h
        | cons => simp [includeLoop] at h
      | succ a ih =>
        intro q d r h b hb
        cases q with
        | nil => cases b <;> simpa [includeLoop] using h
        | cons x q =>
          cases b with
          | zero => omega
          | succ b =>
            rw [includeLoop] at h ⊢
            split at h
            · rename_i hx; rw [if_pos hx]; exact ih _ _ _ h b (by omega)
            · rename_i hx; rw [if_neg hx]; exact ih _ _ _ h b (by omega)
    have := hmono _ _ _ _ hk (n + 100) (by omega)
    rw [includePaths] at h1
    rw [this] at h1
    cases h1
    exact (h3 p).symm
  · cases h

/-- The data nodes in a concrete case. -/
def isData (m : MFields) (p : Path) : Bool :=
  match metaAt (.struct m) p with
  | some (.leaf _) => true
  | _ => false

theorem isData_ok {m : MFields} {p : Path} (h : isData m p = true) : ∃ l, metaAt (.struct m) p = some (.leaf l) := by
  unfold isData at h
  split at h
  · exact ⟨_, ‹_›⟩
  · cases h

def sizesTest (m : MFields) (N : NcMeta) (hom : Bool) (l : List Path) : Bool :=
  l.all fun p => (N.getCoords hom p).all fun q => isData m q && (arraysOf m [] q).all fun a => decide (a ∈ l)

theorem sizesTest_ok {m : MFields} {N : NcMeta} {hom : Bool} {l : List Path} (h : sizesTest m N hom l = true) {p q : Path} (hp : p ∈ l)
    (hq : q ∈ N.getCoords hom p) : (∃ l, metaAt (.struct m) q = some (.leaf l)) ∧ ∀ a ∈ arraysOf m [] q, a ∈ l := by
  have := List.all_eq_true.1 (List.all_eq_true.1 h p hp) q hq
  rw [Bool.and_eq_true, List.all_eq_true] at this
  exact ⟨isData_ok this.1, fun a ha => of_decide_eq_true (this.2 a ha)⟩

def xSel : List Path := [[ncName "channel", ncName "data"]]

def xPaths : List Path := [[ncName "channel", ncName "data"], [ncName "channel"], [ncName "channel", ncName "name"], [ncName "time"]]

/-- The data set for `channel/data`. -/
def xData (N : NcMeta) : Option (Dataset Int) :=
  match toXarray 100 dataScalars (fun _ => 7777) dataTexts N dataMeta true dataTree xSel with
  | .ok ds => some ds
  | .error _ => none

/-- The hypotheses of `C35_dataset` are met if `channel/data` is selected: it needs `channel`, whose coordinate is `channel/name`, and
`time`. -/
example : ∃ N : NcMeta, WFMFields dataMeta ∧ ncMetadata 10 dataInfo dataMeta = .ok N ∧ TypedF dataTree dataMeta ∧ RanksOk dataTree ∧
    (∀ p ∈ xSel, p ≠ [] ∧ ∃ x, metaAt (.struct dataMeta) p = some x) ∧
    (∀ p q, Chosen dataMeta (N.getCoords (isHomogeneous dataScalars dataTree)) xSel p → q ∈ N.getCoords (isHomogeneous dataScalars dataTree) p →
      (∃ l, metaAt (.struct dataMeta) q = some (.leaf l)) ∧
      ∀ a ∈ arraysOf dataMeta [] q, Chosen dataMeta (N.getCoords (isHomogeneous dataScalars dataTree)) xSel a) ∧
    (xData N).map (fun ds => (ds.vars.map (·.1), ds.coords.map (·.1))) =
      some ([[ncName "channel", ncName "data"]], [[ncName "channel", ncName "name"], [ncName "time"]]) ∧
    ((xData N).bind fun ds => (dget ds.vars [ncName "channel", ncName "data"]).map fun v => (v.data.get [0, 1], v.data.get [1, 0], v.data.get [1, 1])) =
      some (some 2, some 3, some 7777) := by
  obtain ⟨N, g, c, hb⟩ := dataBack_some
  obtain ⟨h1, -, -⟩ := dataBack_ok hb
  have hsel : ∀ p ∈ xSel, p ≠ [] ∧ ∃ x, metaAt (.struct dataMeta) p = some x := by
    intro p hp
    simp only [xSel, List.mem_singleton] at hp
    subst hp
    obtain ⟨l, hl⟩ := isData_ok (m := dataMeta) (p := [ncName "channel", ncName "data"]) (by decide +kernel)
    exact ⟨by simp, _, hl⟩
  have hneed := needed_ok dataMeta_wf h1 (hom := isHomogeneous dataScalars dataTree) (l := xPaths) (fun p hp => (hsel p hp).2)
    (dataTest_ok (f := fun N g c => neededTest N (isHomogeneous dataScalars dataTree) xSel xPaths) (by decide +kernel) hb)
  refine ⟨N, dataMeta_wf, h1, dataTree_typed, dataTree_ranks, hsel, ?_, ?_, ?_⟩
  · intro p q hp hq
    simp only [Chosen, hneed] at hp ⊢
    have hp := hp.resolve_left (by simp [xSel])
    obtain ⟨h2, h3⟩ := sizesTest_ok (dataTest_ok (f := fun N g c => sizesTest dataMeta N (isHomogeneous dataScalars dataTree) xPaths)
      (by decide +kernel) hb) hp hq
    exact ⟨h2, fun a ha => .inr (h3 a ha)⟩
  · exact of_decide_eq_true (dataTest_ok (f := fun N g c => (xData N).map (fun ds => (ds.vars.map (·.1), ds.coords.map (·.1))) =
      some ([[ncName "channel", ncName "data"]], [[ncName "channel", ncName "name"], [ncName "time"]])) (by decide +kernel) hb)
  · exact of_decide_eq_true (dataTest_ok (f := fun N g c =>
      ((xData N).bind fun ds => (dget ds.vars [ncName "channel", ncName "data"]).map fun v => (v.data.get [0, 1], v.data.get [1, 0], v.data.get [1, 1])) =
      some (some 2, some 3, some 7777)) (by decide +kernel) hb)

/-! ### A coordinate in another array of structures -/

/-- Tables with values of a coordinate, which are in another array of structures, as in `amns_data`. -/
def tableMeta : MFields :=
  .cons (ncName "ids_properties") (.struct (.cons (ncName "homogeneous_time") (ncLeaf .int 0) .nil)) <|
  .cons (ncName "coordinate_system") (.aos (.cons (ncName "values") (ncLeaf .flt 1) .nil)) <|
  .cons (ncName "process") (.aos (.cons (ncName "table") (ncLeaf .flt 1) .nil)) .nil

def tableInfo : Info where
  refs p _ := if p = [ncName "process", ncName "table"] then [[ncName "coordinate_system", ncName "values"]] else []
  time _ _ := false
  sameAs _ _ := []
  alternative _ := []

def tableTree : Fields (Arr Int) :=
  .present (ncName "ids_properties") (.struct (.present (ncName "homogeneous_time") (dataNode .int 0 (.scalar 2)) .nil)) <|
  .present (ncName "coordinate_system") (.aos (.cons (ncName "values") (ncLeaf .flt 1) .nil)
    (.cons (.present (ncName "values") (dataNode .flt 1 (.vec [1, 2])) .nil) .nil)) <|
  .present (ncName "process") (.aos (.cons (ncName "table") (ncLeaf .flt 1) .nil)
    (.cons (.present (ncName "table") (dataNode .flt 1 (.vec [3, 4])) .nil) .nil)) .nil

def tableResult (sel : List Path) : Option (Except XErr (Dataset Int)) :=
  match ncMetadata 10 tableInfo tableMeta with
  | .ok N => some (toXarray 100 dataScalars (fun _ => 7777) dataTexts N tableMeta false tableTree sel)
  | .error _ => none

def keyError : Option (Except XErr (Dataset Int)) → Bool
  | some (.error (.error .key)) => true
  | _ => false

def withNames (l : List Path) : Option (Except XErr (Dataset Int)) → Bool
  | some (.ok ds) => decide ((Dataset.all ds).map (·.1) = l)
  | _ => false

/-- C35, limit: arrays of structures are added for selected paths only, not for their coordinates. If the coordinate of a selected
path is in another array of structures, the conversion fails with `KeyError`, although the whole IDS can be converted, and the
conversion succeeds if the array of structures is selected too. -/
theorem C35_array_limit : keyError (tableResult [[ncName "process", ncName "table"]]) = true ∧
    withNames [[ncName "ids_properties", ncName "homogeneous_time"], [ncName "process", ncName "table"], [ncName "coordinate_system", ncName "values"]]
      (tableResult []) = true ∧
    withNames [[ncName "process", ncName "table"], [ncName "coordinate_system", ncName "values"]]
      (tableResult [[ncName "process", ncName "table"], [ncName "coordinate_system"]]) = true := by
  decide +kernel

end Verif.Props
