import Verif.Lemmas.NcFill
/-
What is written to a netCDF group.
-/
namespace Verif.Nc
open Verif.Ids Verif.TreeSpec Verif.NcSpec
open Verif.ConvertSpec (mchild child metaAt)
open Verif.AlSpec (arraysOf IsDataPath)

set_option linter.unusedSectionVars false
variable {S : Type}
variable {m : MFields} {N : NcMeta} {hom : Bool} {own : Path → List Dim} {c : Fields (Arr S)} {sizes : List (NcDim × Nat)}

/-- The data of a variable: `A` are the sizes around nodes, `F` those of themselves. -/
structure DataOk (c : Fields (Arr S)) (p : Path) (A F : List Nat) (fill : S) (a : Arr S) : Prop where
  shape : a.shape = A ++ F
  filled : ∀ i l v, inside i A = true → look c p i = some (.leaf l (some v)) → Filled (.leaf l (some v)) →
    ∀ j, inside j F = true → a.get (i ++ j) = some ((v.get j).getD fill)
  unset : ∀ i, inside i A = true → (∀ x, look c p i = some x → ¬ Filled x) → ∀ j, inside j F = true → a.get (i ++ j) = some fill

/-- Data that are tensorized. -/
theorem tensorized (fill : S) (hs : Sized m N hom own c sizes) {p : Path} {l : LeafMeta} (hy : metaAt (.struct m) p = some (.leaf l))
    {its : List (Item S)} (hits : ItemsOk c p its) {i0 : List Nat} {x0 : Node (Arr S)} (hx0 : look c p i0 = some x0) (hf0 : Filled x0) {sp : Sparsity}
    (hsp : ShapeOk c p ((aroundDims m own p).map (szOf sizes)) ((own p).map (szOf sizes)) sp) :
    sizesOf sizes (N.getDims hom p) = .ok ((aroundDims m own p).map (szOf sizes) ++ (own p).map (szOf sizes)) ∧
    (∀ x ∈ its, inside x.index ((aroundDims m own p).map (szOf sizes)) = true) ∧
    ∀ (items : List (Item S)) (slices : Bool), (∀ x ∈ items, x ∈ its) → (∀ x ∈ its, ∃ x' ∈ items, x'.index = x.index) →
      (slices = false → sp = .dense ∨ sp = .missing) →
      ∃ a, fillData slices items (.full ((aroundDims m own p).map (szOf sizes) ++ (own p).map (szOf sizes)) fill) = .ok a ∧
        DataOk c p ((aroundDims m own p).map (szOf sizes)) ((own p).map (szOf sizes)) fill a := by
  have hd : IsDataPath m p := ⟨_, hy, by rintro _ ⟨⟩⟩
  have hp := isDataPath_ne hd
  have hdims : N.getDims hom p = aroundDims m own p ++ own p := hs.layout.tuple p hd
  have hrank : (own p).length = l.ndim := hs.layout.rank p _ hp hy
  have ho := own_known hs hx0 hf0
  obtain ⟨ha, hi0⟩ := index_inside hs hx0
  have hsizes : sizesOf sizes (N.getDims hom p) = .ok ((aroundDims m own p).map (szOf sizes) ++ (own p).map (szOf sizes)) := by
    rw [hdims, sizesOf_ok, List.map_append]
    intro d hd
    rcases List.mem_append.1 hd with hd | hd
    · exact ha d hd
    · exact ho d hd
  -- every item
  have hitems : ∀ x ∈ its, inside x.index ((aroundDims m own p).map (szOf sizes)) = true ∧
      ∃ l' v, look c p x.index = some (.leaf l' (some v)) ∧ Filled (Node.leaf l' (some v)) ∧ x.value = some v ∧
        Arr.leq v.shape ((own p).map (szOf sizes)) = true := by
    intro x hx
    obtain ⟨rfl, w, h1, h2, h3⟩ := (hits _).1 hx
    obtain ⟨z, hz, hz', -⟩ := look_typed _ [] hs.typed h1
    rw [hy] at hz
    cases hz
    cases w with
    | struct => simp [Typed] at hz'
    | aos => simp [Typed] at hz'
    | leaf l' v =>
      cases v with
      | none => simp [contentOf] at h3
      | some v =>
        have hf : Filled (Node.leaf l' (some v)) := filled_hasValue.2 ⟨h2, by rintro _ ⟨⟩⟩
        refine ⟨(index_inside hs h1).2, l', v, h1, hf, ?_, extent_leq hs h1 hf⟩
        simp only [contentOf, Option.map_some, Option.some.injEq] at h3
        simp [Item.value, ← h3]
  generalize hA : (aroundDims m own p).map (szOf sizes) = A at *
  generalize hF : (own p).map (szOf sizes) = F at *
  -- data that are written completely
  have hdense : sp = .dense ∨ sp = .missing → ∀ i l' v, look c p i = some (.leaf l' (some v)) → Filled (Node.leaf l' (some v)) →
      v.shape = F := by
    rintro (rfl | rfl) i l' v h1 h2
    · obtain ⟨x, h3, -, h4⟩ := hsp i (by rw [← hA]; exact (index_inside hs h1).2)
      rw [h1] at h3
      cases h3
      exact h4
    · have h3 := extent_length hs h1 h2
      simp only [ShapeOk] at hsp
      rw [hsp.1] at hF
      rw [List.map_eq_nil_iff.1 hF] at h3
      rw [hsp.1]
      exact List.length_eq_zero_iff.1 h3
  refine ⟨hsizes, fun x hx => (hitems x hx).1, ?_⟩
  have fin : ∀ (items : List (Item S)) (slices : Bool), (∀ x ∈ items, x ∈ its) →
      (∀ x ∈ its, ∃ x' ∈ items, x'.index = x.index) →
      (slices = false → sp = .dense ∨ sp = .missing) →
      ∃ a, fillData slices items (.full (A ++ F) fill) = .ok a ∧ DataOk c p A F fill a := by
    intro items slices hin hall hsl
    have hok : ∀ x ∈ items, x.value = some (x.value.getD (.scalar fill)) ∧ inside x.index A = true ∧
        (if slices then Arr.leq (x.value.getD (.scalar fill)).shape F = true else (x.value.getD (.scalar fill)).shape = F) := by
      intro x hx
      obtain ⟨h1, l', v, h2, h3, h4, h5⟩ := hitems x (hin x hx)
      rw [h4]
      refine ⟨rfl, h1, ?_⟩
      cases slices with
      | true => exact h5
      | false => exact hdense (hsl rfl) _ _ _ h2 h3
    refine ⟨_, fillData_ok (A := A) (B := F) rfl hok, ?_⟩
    generalize hl : (items.map fun x => (x.index, x.value.getD (.scalar fill))) = w
    have hlen : ∀ x ∈ w, x.1.length = A.length := by
      intro x hx
      rw [← hl] at hx
      obtain ⟨x', hx', rfl⟩ := List.mem_map.1 hx
      exact inside_length (hok x' hx').2.1
    refine ⟨by rw [writeAll_shape]; rfl, ?_, ?_⟩
    · intro i l' v hi h1 h2 j hj
      obtain ⟨z, hz, hzm⟩ := item_of hits h1 h2
      have huniq : ∀ b, (i, b) ∈ w → b = v := by
        intro b hb
        rw [← hl] at hb
        obtain ⟨x, hx, hxe⟩ := List.mem_map.1 hb
        simp only [Prod.mk.injEq] at hxe
        obtain ⟨-, l'', v', h3, -, h4, -⟩ := hitems x (hin x hx)
        rw [hxe.1, h1] at h3
        cases h3
        rw [← hxe.2, h4]
        rfl
      obtain ⟨x', hx', hxi⟩ := hall _ hzm
      have hmem : (i, v) ∈ w := by
        have : (x'.index, x'.value.getD (.scalar fill)) ∈ w := by rw [← hl]; exact List.mem_map.2 ⟨x', hx', rfl⟩
        rw [hxi] at this
        simp only at this
        rwa [huniq _ this] at this
      rw [writeAll_mem hlen hmem huniq]
      simp [Arr.full, inside_split hi, hj]
    · intro i hi hno j hj
      rw [writeAll_not (inside_length hi) hlen]
      · simp [Arr.full, inside_split hi, hj]
      · intro b hb
        rw [← hl] at hb
        obtain ⟨x, hx, hxe⟩ := List.mem_map.1 hb
        simp only [Prod.mk.injEq] at hxe
        obtain ⟨-, l'', v', h3, h4, -⟩ := hitems x (hin x hx)
        rw [hxe.1] at h3
        exact hno _ h3 h4
  exact fin

theorem varData_ok {sc : Scalars S} (hs : Sized m N hom own c sizes) {p : Path} {l : LeafMeta} (hy : metaAt (.struct m) p = some (.leaf l))
    {its : List (Item S)} (hits : ItemsOk c p its) {i0 : List Nat} {x0 : Node (Arr S)} (hx0 : look c p i0 = some x0) (hf0 : Filled x0) {sp : Sparsity}
    (hsp : ShapeOk c p ((aroundDims m own p).map (szOf sizes)) ((own p).map (szOf sizes)) sp) :
    ∃ a, varData sc (N.getDims hom) sizes p l sp its = .ok a ∧
      DataOk c p ((aroundDims m own p).map (szOf sizes)) ((own p).map (szOf sizes)) (sc.fill l.type) a := by
  obtain ⟨hsizes, hin, fin⟩ := tensorized (sc.fill l.type) hs hy hits hx0 hf0 hsp
  have hd : IsDataPath m p := ⟨_, hy, by rintro _ ⟨⟩⟩
  have hdims : N.getDims hom p = aroundDims m own p ++ own p := hs.layout.tuple p hd
  have hrank : (own p).length = l.ndim := hs.layout.rank p _ (isDataPath_ne hd) hy
  generalize hA : (aroundDims m own p).map (szOf sizes) = A at *
  generalize hF : (own p).map (szOf sizes) = F at *
  have hslf : ∀ b : Bool, (sp.isShapes || b) = false → sp = .dense ∨ sp = .missing := by
    intro b
    cases sp <;> simp [Sparsity.isShapes]
  rw [varData, hsizes]
  simp only
  split
  · rename_i harr
    have hA0 : aroundDims m own p = [] := by
      rw [hdims, List.length_append, hrank] at harr
      exact List.length_eq_zero_iff.1 (by omega)
    have hA1 : A = [] := by rw [← hA, hA0]; rfl
    have hix : ∀ x ∈ its, x.index = [] := by
      intro x hx
      have := inside_length (hin x hx)
      rw [hA1] at this
      exact List.length_eq_zero_iff.1 this
    obtain ⟨z, hz, hm⟩ := item_of hits hx0 hf0
    cases hfind : its.find? (·.index = []) with
    | none =>
      have := List.find?_eq_none.1 hfind _ hm
      simp at this
      exact absurd (hix _ hm) this
    | some x =>
      have hxm := List.mem_of_find?_eq_some hfind
      simp only
      refine fin [x] _ ?_ ?_ (fun h => hslf _ h)
      · intro x' hx'
        rw [List.mem_singleton] at hx'
        rw [hx']
        exact hxm
      · intro x' hx'
        exact ⟨x, by simp, by rw [hix x hxm, hix x' hx']⟩
  · exact fin _ _ (fun x hx => hx) (fun x hx => ⟨x, hx, rfl⟩) (fun h => hslf false (by rw [Bool.or_false]; exact h))

/-! ### All variables -/

/-- A path with its shapes. -/
def PathOk (m : MFields) (own : Path → List Dim) (c : Fields (Arr S)) (sizes : List (NcDim × Nat)) (p : Path) (sp : Sparsity) : Prop :=
  p ≠ [] ∧ ∃ y, metaAt (.struct m) p = some y ∧ (IsStruct y → sp = .dense) ∧
    (¬ IsStruct y → ShapeOk c p ((aroundDims m own p).map (szOf sizes)) ((own p).map (szOf sizes)) sp)

/-- The path of a stored node. -/
def HasItem (c : Fields (Arr S)) (p : Path) : Prop := ∃ i x, look c p i = some x ∧ x.hasValue = true

theorem not_isStruct {y : Meta} (h : ¬ IsStruct y) : ∀ d, y ≠ .struct d := by
  rintro d rfl; exact h trivial

theorem look_filled (hs : Sized m N hom own c sizes) {p : Path} {y : Meta} (hy : metaAt (.struct m) p = some y) (hn : ¬ IsStruct y)
    {i : List Nat} {x : Node (Arr S)} (h : look c p i = some x) : Filled x ↔ x.hasValue = true := by
  rw [filled_hasValue]
  refine ⟨fun h => h.1, fun hv => ⟨hv, ?_⟩⟩
  rintro d rfl
  obtain ⟨z, hz, hz', -⟩ := look_typed _ [] hs.typed h
  rw [hy] at hz
  cases hz
  cases y <;> simp_all [Typed, IsStruct]

theorem allShapes_items (hs : Sized m N hom own c sizes) {items : List (Item S)} : ∀ {l : List Path},
    (∀ p ∈ l, p ≠ [] ∧ ∃ y, metaAt (.struct m) p = some y ∧ (¬ IsStruct y → HasItem c p ∧ ItemsOk c p (itemsAt items p))) →
    ∃ sps, allShapes N hom m sizes items l = .ok sps ∧ sps.map (·.1) = l ∧ ∀ x ∈ sps, PathOk m own c sizes x.1 x.2
  | [], _ => ⟨[], rfl, rfl, by simp⟩
  | p :: r, h => by
    obtain ⟨sps, h1, h2, h3⟩ := allShapes_items (l := r) hs fun p hp => h p (by simp [hp])
    obtain ⟨hp, y, hy, hd⟩ := h p (by simp)
    have : ∃ sp, dataShape (N.getDims hom) N.aos sizes p y (itemsAt items p) = .ok sp ∧ PathOk m own c sizes p sp := by
      by_cases hst : IsStruct y
      · cases y with
        | leaf => exact absurd hst id
        | aos => exact absurd hst id
        | struct d => exact ⟨.dense, rfl, hp, _, hy, fun _ => rfl, fun h => absurd trivial h⟩
      · obtain ⟨⟨i, x, hx, hv⟩, hits⟩ := hd hst
        obtain ⟨sp, h4, h5⟩ := dataShape_ok hs hy (not_isStruct hst) hits hx ((look_filled hs hy hst hx).2 hv)
        exact ⟨sp, h4, hp, y, hy, fun h => absurd h hst, fun _ => h5⟩
    obtain ⟨sp, h4, h5⟩ := this
    refine ⟨(p, sp) :: sps, ?_, by simp [h2], ?_⟩
    · rw [allShapes, metaOf_eq _ _ hp, hy]
      simp only [h4, h1]
    · intro x hx
      rcases List.mem_cons.1 hx with rfl | hx
      · exact h5
      · exact h3 x hx

theorem allShapes_ok (hs : Sized m N hom own c sizes) {l : List Path} (h : ∀ p ∈ l, HasItem c p) :
    ∃ sps, allShapes N hom m sizes (filledFields [] [] c) l = .ok sps ∧ sps.map (·.1) = l ∧
      ∀ x ∈ sps, PathOk m own c sizes x.1 x.2 := by
  refine allShapes_items hs fun p hp => ?_
  obtain ⟨i, x, hx, hv⟩ := h p hp
  obtain ⟨y, hy, -, -⟩ := look_typed p [] hs.typed hx
  exact ⟨by rintro rfl; simp [look] at hx, y, hy, fun _ => ⟨⟨i, x, hx, hv⟩, itemsOk hs p⟩⟩

/-- A variable that is written. -/
def VarOk (sc : Scalars S) (tx : Texts) (N : NcMeta) (hom : Bool) (m : MFields) (own : Path → List Dim) (c : Fields (Arr S))
    (sizes : List (NcDim × Nat)) (p : Path) (sp : Sparsity) (v : Var S) : Prop :=
  ∃ y, metaAt (.struct m) p = some y ∧
    match y with
    | .leaf l => ∃ a, DataOk c p ((aroundDims m own p).map (szOf sizes)) ((own p).map (szOf sizes)) (sc.fill l.type) a ∧
        v = varAttrs tx N hom (fun q => (filledFields [] [] c).any (·.path = q)) p (.leaf l) sp
          { type := .data l.type, dims := (N.getDims hom p).map .dd, data := a
            fill := if l.type = .cpx then none else some (sc.fill l.type) }
    | y => v = varAttrs tx N hom (fun q => (filledFields [] [] c).any (·.path = q)) p y sp
        { type := .dummy, dims := [], data := .scalar sc.unset }

theorem allVars_ok {sc : Scalars S} {tx : Texts} (hs : Sized m N hom own c sizes) : ∀ {sps : List (Path × Sparsity)},
    (∀ x ∈ sps, HasItem c x.1 ∧ PathOk m own c sizes x.1 x.2) →
    ∃ vars, allVars sc tx N hom m sizes (filledFields [] [] c) sps = .ok vars ∧ vars.map (·.1) = sps.map (·.1) ∧
      ∀ x ∈ vars, ∃ sp, (x.1, sp) ∈ sps ∧ VarOk sc tx N hom m own c sizes x.1 sp x.2
  | [], _ => ⟨[], rfl, rfl, by simp⟩
  | (p, sp) :: r, h => by
    obtain ⟨vars, h1, h2, h3⟩ := allVars_ok (sc := sc) (tx := tx) (sps := r) hs fun x hx => h x (by simp [hx])
    obtain ⟨⟨i, x, hx, hv⟩, hp, y, hy, -, hsh⟩ := h (p, sp) (by simp)
    simp only at hp hy hsh hx
    have : ∃ v, makeVar sc tx N hom (fun q => (filledFields [] [] c).any (·.path = q)) sizes p y sp (itemsAt (filledFields [] [] c) p) = .ok v ∧
        VarOk sc tx N hom m own c sizes p sp v := by
      cases y with
      | leaf l =>
        obtain ⟨a, h4, h5⟩ := varData_ok (sc := sc) hs hy (itemsOk hs p) hx ((look_filled hs hy id hx).2 hv) (hsh id)
        refine ⟨_, by rw [makeVar, h4], _, hy, ?_⟩
        exact ⟨a, h5, rfl⟩
      | struct d => exact ⟨_, rfl, _, hy, rfl⟩
      | aos d => exact ⟨_, rfl, _, hy, rfl⟩
    obtain ⟨v, h4, h5⟩ := this
    refine ⟨(p, v) :: vars, ?_, by simp [h2], ?_⟩
    · rw [allVars, metaOf_eq _ _ hp, hy]
      simp only [h4, h1]
    · intro x hx
      rcases List.mem_cons.1 hx with rfl | hx
      · exact ⟨sp, by simp, h5⟩
      · obtain ⟨sp', h6, h7⟩ := h3 x hx
        exact ⟨sp', by simp [h6], h7⟩

theorem allShapeVars_ok : ∀ {sps : List (Path × Sparsity)}, (∀ x ∈ sps, ∃ y, metaOf m x.1 = some y) → ∀ p,
    dget (allShapeVars N hom m sps) p = (match dget sps p with
      | some (.shapes a) => (metaOf m p).map fun y => shapeVar N hom p (ndimOf y) a
      | _ => none) ∨ ¬ (sps.map (·.1)).Nodup
  | [], _, p => .inl rfl
  | (q, sp) :: r, h, p => by
    by_cases hnd : (((q, sp) :: r).map (·.1)).Nodup
    · left
      rw [List.map_cons, List.nodup_cons] at hnd
      obtain ⟨y, hy⟩ := h (q, sp) (by simp)
      have ih := (allShapeVars_ok (sps := r) (fun x hx => h x (by simp [hx])) p).resolve_right (by simpa using hnd.2)
      have hq : dget r q = none := dget_none.2 hnd.1
      cases sp with
      | shapes a =>
        simp only at hy
        rw [allShapeVars, hy]
        simp only [dget]
        split
        · rename_i e; subst e; simp [hy]
        · exact ih
      | dense =>
        rw [allShapeVars]
        · by_cases e : p = q
          · subst e; rw [ih, hq]; simp [dget]
          · rw [ih]; simp [dget, e]
        · simp
      | missing =>
        rw [allShapeVars]
        · by_cases e : p = q
          · subst e; rw [ih, hq]; simp [dget]
          · rw [ih]; simp [dget, e]
        · simp
    · exact .inr hnd

theorem allShapeVars_names : ∀ {sps : List (Path × Sparsity)}, ((allShapeVars N hom m sps).map (·.1)).Sublist (sps.map (·.1))
  | [] => .slnil
  | (p, .shapes a) :: r => by
    rw [allShapeVars]
    split
    · exact allShapeVars_names.cons _
    · exact allShapeVars_names.cons_cons _
  | (p, .dense) :: r => by rw [allShapeVars]; exact allShapeVars_names.cons _; simp
  | (p, .missing) :: r => by rw [allShapeVars]; exact allShapeVars_names.cons _; simp

theorem addPseudo_ok : ∀ {sps : List (Path × Sparsity)} {s : List (NcDim × Nat)} (k : Nat),
    (∀ n, dget s (.pseudo k) = some n → n = k) → (∀ n, dget (addPseudo m sps s) (.pseudo k) = some n → n = k) ∧
    ((dget s (.pseudo k)).isSome ∨ (∃ p a y, (p, .shapes a) ∈ sps ∧ metaOf m p = some y ∧ ndimOf y = k) →
      dget (addPseudo m sps s) (.pseudo k) = some k)
  | [], s, k, h => by
    refine ⟨h, ?_⟩
    rintro (h1 | ⟨p, a, y, h1, -⟩)
    · obtain ⟨n, hn⟩ := Option.isSome_iff_exists.1 h1
      rw [addPseudo, hn, h n hn]
    · simp at h1
  | (p, .shapes a) :: r, s, k, h => by
    rw [addPseudo]
    split
    · rename_i hno
      obtain ⟨h1, h2⟩ := addPseudo_ok (sps := r) k h
      refine ⟨h1, ?_⟩
      rintro (h3 | ⟨q, b, y, h3, h4, h5⟩)
      · exact h2 (.inl h3)
      · rcases List.mem_cons.1 h3 with h3 | h3
        · cases h3; rw [hno] at h4; cases h4
        · exact h2 (.inr ⟨q, b, y, h3, h4, h5⟩)
    · rename_i x hx
      obtain ⟨h1, h2⟩ := addPseudo_ok (sps := r) (s := dset s (.pseudo (ndimOf x)) (ndimOf x)) k (by
        intro n hn
        rw [dget_dset] at hn
        split at hn
        · rename_i e; simp only [NcDim.pseudo.injEq] at e; cases hn; exact e.symm
        · exact h n hn)
      refine ⟨h1, ?_⟩
      rintro (h3 | ⟨q, b, y, h3, h4, h5⟩)
      · apply h2
        left
        rw [dget_dset]
        split
        · rfl
        · exact h3
      · rcases List.mem_cons.1 h3 with h3 | h3
        · cases h3
          rw [hx] at h4
          cases h4
          apply h2
          left
          rw [dget_dset, if_pos (by rw [h5])]
          rfl
        · exact h2 (.inr ⟨q, b, y, h3, h4, h5⟩)
  | (p, .dense) :: r, s, k, h => by
    obtain ⟨h1, h2⟩ := addPseudo_ok (sps := r) k h
    rw [addPseudo]
    · refine ⟨h1, ?_⟩
      rintro (h3 | ⟨q, b, y, h3, h4, h5⟩)
      · exact h2 (.inl h3)
      · rcases List.mem_cons.1 h3 with h3 | h3
        · cases h3
        · exact h2 (.inr ⟨q, b, y, h3, h4, h5⟩)
    · simp
  | (p, .missing) :: r, s, k, h => by
    obtain ⟨h1, h2⟩ := addPseudo_ok (sps := r) k h
    rw [addPseudo]
    · refine ⟨h1, ?_⟩
      rintro (h3 | ⟨q, b, y, h3, h4, h5⟩)
      · exact h2 (.inl h3)
      · rcases List.mem_cons.1 h3 with h3 | h3
        · cases h3
        · exact h2 (.inr ⟨q, b, y, h3, h4, h5⟩)
    · simp

/-- A group that is written. -/
structure Written (sc : Scalars S) (tx : Texts) (N : NcMeta) (hom : Bool) (m : MFields) (own : Path → List Dim) (c : Fields (Arr S))
    (sizes : List (NcDim × Nat)) (g : Group S) : Prop where
  dims : ∀ d, dget g.dims (.dd d) = dget sizes (.dd d)
  nodup : (g.vars.map (·.1)).Nodup
  names : ∀ p, p ∈ g.vars.map (·.1) ↔ HasItem c p
  var : ∀ p v, dget g.vars p = some v → ∃ sp y, PathOk m own c sizes p sp ∧ VarOk sc tx N hom m own c sizes p sp v ∧
    metaAt (.struct m) p = some y ∧
    dget g.shapes p = (match sp with
      | .shapes a => some (shapeVar N hom p (ndimOf y) a)
      | _ => none) ∧
    (∀ a, sp = .shapes a → dget g.dims (.pseudo (ndimOf y)) = some (ndimOf y))
  shapesNodup : (g.shapes.map (·.1)).Nodup
  shapeNames : ∀ p, p ∈ g.shapes.map (·.1) → p ∈ g.vars.map (·.1)

theorem hasItem_iff (hs : Sized m N hom own c sizes) {p : Path} : (filledFields [] [] c).any (·.path = p) = true ↔ HasItem c p := by
  simp only [List.any_eq_true, decide_eq_true_eq]
  have hwf := Verif.Convert.wf_of_typedF c m hs.typed hs.wf
  constructor
  · rintro ⟨x, hx, rfl⟩
    obtain ⟨y, h1, h2, -⟩ := (mem_items hwf).1 hx
    exact ⟨x.index, y, h1, h2⟩
  · rintro ⟨i, x, h1, h2⟩
    obtain ⟨z, hz⟩ : ∃ z, contentOf x = some z := by
      cases x with
      | struct => exact ⟨_, rfl⟩
      | aos => exact ⟨_, rfl⟩
      | leaf l v => cases v with
        | none => simp [Node.hasValue, leafHasValue] at h2
        | some v => exact ⟨_, rfl⟩
    exact ⟨⟨p, i, z⟩, (mem_items hwf).2 ⟨x, h1, h2, hz⟩, rfl⟩

theorem written {sc : Scalars S} {tx : Texts} (hw : WFMFields m) (hom' : hom = isHomogeneous sc c) (hl : Layout m N hom own) (ht : TypedF c m) (hr : RanksOk c) :
    ∃ g, writeIds sc tx N m c = .ok g ∧
      Written sc tx N hom m own c (collectSizes (N.getDims hom) (filledFields [] [] c) []) g := by
  have hs := sized hw hl ht hr
  have hpaths : ∀ p, p ∈ N.paths.filter (fun p => (filledFields [] [] c).any (·.path = p)) ↔ HasItem c p := by
    intro p
    rw [List.mem_filter, hasItem_iff hs]
    refine ⟨fun h => h.2, fun h => ⟨?_, h⟩⟩
    obtain ⟨i, x, h1, -⟩ := h
    rw [hl.paths]
    refine ⟨by rintro rfl; simp [look] at h1, ?_⟩
    obtain ⟨y, h2, -⟩ := look_typed p [] ht h1
    exact ⟨y, h2⟩
  obtain ⟨sps, h1, h2, h3⟩ := allShapes_ok hs (l := N.paths.filter (fun p => (filledFields [] [] c).any (·.path = p)))
    fun p hp => (hpaths p).1 hp
  have hin : ∀ p, p ∈ sps.map (·.1) ↔ HasItem c p := by rw [h2]; exact hpaths
  obtain ⟨vars, h4, h5, h6⟩ := allVars_ok (sc := sc) (tx := tx) hs (sps := sps) fun x hx =>
    ⟨(hin x.1).1 (List.mem_map.2 ⟨x, hx, rfl⟩), h3 x hx⟩
  have hnd : (sps.map (·.1)).Nodup := by rw [h2]; exact hl.nodup.sublist List.filter_sublist
  have hmeta : ∀ x ∈ sps, ∃ y, metaOf m x.1 = some y := by
    intro x hx
    obtain ⟨hp, y, hy, -⟩ := h3 x hx
    exact ⟨y, by rw [metaOf_eq _ _ hp, hy]⟩
  refine ⟨{ dims := addPseudo m sps (collectSizes (N.getDims hom) (filledFields [] [] c) []), vars := vars,
            shapes := allShapeVars N hom m sps }, ?_, ?_⟩
  · unfold writeIds
    simp only [← hom', h1, h4]
  · refine ⟨fun d => addPseudo_dd, by rw [h5]; exact hnd, by rw [h5]; exact hin, ?_, ?_, ?_⟩
    · intro p v hv
      obtain ⟨sp, h7, h8⟩ := h6 (p, v) (mem_of_dget hv)
      simp only at h7 h8
      have hpo := h3 _ h7
      obtain ⟨hp, y, hy, hst, hsh⟩ := hpo
      simp only at hp hy
      refine ⟨sp, y, h3 _ h7, h8, hy, ?_, ?_⟩
      · have := (allShapeVars_ok (N := N) (hom := hom) hmeta p).resolve_right (by simpa using hnd)
        simp only
        rw [this, dget_of_mem hnd h7, metaOf_eq _ _ hp, hy]
        cases sp <;> rfl
      · rintro a rfl
        exact (addPseudo_ok (m := m) (sps := sps) (ndimOf y) (by
          intro n hn
          rw [collectSizes_pseudo] at hn
          simp [dget] at hn)).2 (.inr ⟨p, a, y, h7, by rw [metaOf_eq _ _ hp, hy], rfl⟩)
    · exact hnd.sublist allShapeVars_names
    · intro p hp
      simp only at hp ⊢
      rw [h5]
      exact allShapeVars_names.subset hp

end Verif.Nc
