import Verif.Lemmas.NcSizes
/-
The arrays that are written.
-/
namespace Verif.Nc
open Verif.Ids Verif.TreeSpec Verif.NcSpec
open Verif.ConvertSpec (mchild child metaAt)
open Verif.AlSpec (arraysOf IsDataPath)

set_option linter.unusedSectionVars false
variable {S : Type}

/-! ### Arrays -/

theorem fits_append : ∀ {i A : List Nat} (B : List Nat), inside i A = true → fits i (A ++ B) = true
  | [], _, _, _ => by simp [fits]
  | _ :: _, [], _, h => by simp [inside] at h
  | a :: i, n :: A, B, h => by
    simp only [inside, Bool.and_eq_true] at h
    simp only [List.cons_append, fits, Bool.and_eq_true]
    exact ⟨h.1, fits_append B h.2⟩

theorem inside_length {i A : List Nat} (h : inside i A = true) : i.length = A.length := (inside_get.1 h).1

theorem drop_inside {i A : List Nat} (B : List Nat) (h : inside i A = true) : (A ++ B).drop i.length = B := by
  rw [inside_length h]; simp

theorem inside_split {i j A B : List Nat} (h : inside i A = true) : inside (i ++ j) (A ++ B) = inside j B := by
  rw [inside_append, fits_append B h, drop_inside B h, Bool.true_and]

theorem mem_indices : ∀ {i s : List Nat}, i ∈ Arr.indices s ↔ inside i s = true
  | i, [] => by cases i <;> simp [Arr.indices, inside]
  | [], n :: s => by simp [Arr.indices, inside]
  | a :: i, n :: s => by
    simp only [Arr.indices, List.mem_flatMap, List.mem_range, List.mem_map, List.cons.injEq, inside, Bool.and_eq_true,
      decide_eq_true_eq]
    constructor
    · rintro ⟨b, hb, j, hj, rfl, rfl⟩; exact ⟨hb, mem_indices.1 hj⟩
    · rintro ⟨h1, h2⟩; exact ⟨a, h1, i, mem_indices.2 h2, rfl, rfl⟩

theorem all_iff {T : Type} {a : Arr T} {P : List Nat → T → Bool} : a.all P = true ↔ ∀ i x, a.get i = some x → P i x = true := by
  simp only [Arr.all, List.all_eq_true]
  constructor
  · intro h i x hx
    have := h i (mem_indices.2 (by rw [← a.ok, hx]; rfl))
    rw [hx] at this
    exact this
  · intro h i hi
    split
    · rfl
    · rename_i x hx; exact h i x hx

/-- Writes one after the other. -/
def writeAll {T : Type} : List (List Nat × Arr T) → Arr T → Arr T
  | [], a => a
  | (i, b) :: r, a => writeAll r (a.write i b)

theorem writeAll_shape {T : Type} : ∀ {l : List (List Nat × Arr T)} {a : Arr T}, (writeAll l a).shape = a.shape
  | [], _ => rfl
  | (i, b) :: r, a => by rw [writeAll, writeAll_shape]; rfl

theorem write_same {T : Type} {a b : Arr T} {i j : List Nat} : (a.write i b).get (i ++ j) = (a.get (i ++ j)).map fun y => (b.get j).getD y := by
  simp [Arr.write]

theorem write_other {T : Type} {a b : Arr T} {i i' j : List Nat} (h : i.length = i'.length) (hn : i ≠ i') :
    (a.write i b).get (i' ++ j) = a.get (i' ++ j) := by
  have : i ≠ (i' ++ j).take i.length := by rw [h]; simpa using hn
  simp only [Arr.write, if_neg this]
  simp

/-- Places that are not written. -/
theorem writeAll_not {T : Type} {n : Nat} {i j : List Nat} (hi : i.length = n) : ∀ {l : List (List Nat × Arr T)} {a : Arr T},
    (∀ x ∈ l, x.1.length = n) → (∀ b, (i, b) ∉ l) → (writeAll l a).get (i ++ j) = a.get (i ++ j)
  | [], _, _, _ => rfl
  | (i', b) :: r, a, h1, h2 => by
    rw [writeAll, writeAll_not hi (fun x hx => h1 x (by simp [hx])) (fun b' hb => h2 b' (by simp [hb]))]
    refine write_other ?_ ?_
    · rw [hi]; exact h1 (i', b) (by simp)
    · rintro rfl; exact h2 b (by simp)

/-- Places that are written. -/
theorem writeAll_mem {T : Type} {n : Nat} {i j : List Nat} {b : Arr T} : ∀ {l : List (List Nat × Arr T)} {a : Arr T},
    (∀ x ∈ l, x.1.length = n) → (i, b) ∈ l → (∀ b', (i, b') ∈ l → b' = b) →
    (writeAll l a).get (i ++ j) = (a.get (i ++ j)).map fun y => (b.get j).getD y
  | [], _, _, h, _ => by simp at h
  | (i', b') :: r, a, h1, h2, h3 => by
    have hn : i.length = n := h1 _ h2
    rw [writeAll]
    by_cases hr : (i, b) ∈ r
    · rw [writeAll_mem (fun x hx => h1 x (by simp [hx])) hr (fun b' hb => h3 b' (by simp [hb]))]
      by_cases hi : i' = i
      · subst hi
        have := h3 b' (by simp)
        subst this
        rw [write_same, Option.map_map]
        congr 1
        funext y
        cases b'.get j <;> rfl
      · rw [write_other (by rw [hn]; exact h1 (i', b') (by simp)) hi]
    · rw [writeAll_not hn (fun x hx => h1 x (by simp [hx]))]
      · rcases List.mem_cons.1 h2 with h2 | h2
        · cases h2; exact write_same
        · exact absurd h2 hr
      · intro b'' hb
        have := h3 b'' (by simp [hb])
        subst this
        exact hr hb

/-- What is written as shape. -/
def shapeBlock (ndim : Nat) (x : Item S) : Arr Nat := if ndim = 0 then .scalar 1 else .vec x.content.shape

theorem fillShapes_ok {ndim : Nat} {A B : List Nat} : ∀ {items : List (Item S)} {a : Arr Nat}, a.shape = A ++ B →
    (∀ x ∈ items, inside x.index A = true ∧ (shapeBlock ndim x).shape = B) →
    fillShapes ndim items a = .ok (writeAll (items.map fun x => (x.index, shapeBlock ndim x)) a)
  | [], _, _, _ => rfl
  | x :: r, a, ha, h => by
    obtain ⟨h1, h2⟩ := h x (by simp)
    rw [fillShapes]
    have : a.setAt x.index (if ndim = 0 then .scalar 1 else .vec x.content.shape) = some (a.write x.index (shapeBlock ndim x)) := by
      rw [Arr.setAt]
      have : (if ndim = 0 then Arr.scalar 1 else Arr.vec x.content.shape) = shapeBlock ndim x := rfl
      rw [this, ha, fits_append B h1, drop_inside B h1, h2]
      simp
    rw [this]
    simp only [List.map_cons, writeAll]
    exact fillShapes_ok (a := a.write x.index (shapeBlock ndim x)) ha fun y hy => h y (by simp [hy])

theorem fillData_ok {slices : Bool} {A B : List Nat} : ∀ {items : List (Item S)} {a : Arr S} {f : Item S → Arr S}, a.shape = A ++ B →
    (∀ x ∈ items, x.value = some (f x) ∧ inside x.index A = true ∧
      (if slices then Arr.leq (f x).shape B = true else (f x).shape = B)) →
    fillData slices items a = .ok (writeAll (items.map fun x => (x.index, f x)) a)
  | [], _, _, _, _ => rfl
  | x :: r, a, f, ha, h => by
    obtain ⟨h0, h1, h2⟩ := h x (by simp)
    rw [fillData, h0]
    have : (if slices = true then a.setSlice x.index (f x) else a.setAt x.index (f x)) = some (a.write x.index (f x)) := by
      cases slices with
      | true =>
        simp only [if_true] at h2 ⊢
        rw [Arr.setSlice, ha, fits_append B h1, drop_inside B h1, h2]
        simp
      | false =>
        simp only [Bool.false_eq_true, if_false] at h2 ⊢
        rw [Arr.setAt, ha, fits_append B h1, drop_inside B h1, h2]
        simp
    simp only [this, List.map_cons, writeAll]
    exact fillData_ok (a := a.write x.index (f x)) ha fun y hy => h y (by simp [hy])

/-! ### Shapes -/

section
variable {m : MFields} {N : NcMeta} {hom : Bool} {own : Path → List Dim} {c : Fields (Arr S)} {sizes : List (NcDim × Nat)}

/-- What is known of the shapes of nodes with a path: `A` are the sizes around them, `F` those of themselves. -/
def ShapeOk (c : Fields (Arr S)) (p : Path) (A F : List Nat) : Sparsity → Prop
  | .dense => ∀ i, inside i A = true → ∃ x, look c p i = some x ∧ Filled x ∧ extent x = F
  | .missing => F = [] ∧ ∃ i, inside i A = true ∧ ∀ x, look c p i = some x → ¬ Filled x
  | .shapes a => F ≠ [] ∧ a.shape = A ++ [F.length] ∧ ∀ i, inside i A = true →
      (∀ x, look c p i = some x → Filled x → ∀ k, k < F.length → a.get (i ++ [k]) = (extent x)[k]?) ∧
      ((∀ x, look c p i = some x → ¬ Filled x) → ∀ k, k < F.length → a.get (i ++ [k]) = some 0)

theorem content_extent (hr : RanksOk c) {p : Path} {i : List Nat} {y : Node (Arr S)} {z : Content S} (h : look c p i = some y)
    (hz : contentOf y = some z) : z.shape = extent y := by
  cases y with
  | struct d => cases hz; rfl
  | aos m e => cases hz; rfl
  | leaf l v =>
    cases v with
    | none => cases hz
    | some v =>
      cases hz
      simp only [Content.shape, extent]
      split
      · rename_i h0
        have := hr p i l v h
        rw [h0] at this
        exact (List.length_eq_zero_iff.1 this).symm
      · rfl

theorem mem_itemsAt (hs : Sized m N hom own c sizes) {p : Path} {x : Item S} : x ∈ itemsAt (filledFields [] [] c) p ↔
    x.path = p ∧ ∃ y, look c p x.index = some y ∧ y.hasValue = true ∧ contentOf y = some x.content := by
  simp only [itemsAt, List.mem_filter, decide_eq_true_eq, mem_items (Verif.Convert.wf_of_typedF c m hs.typed hs.wf)]
  constructor
  · rintro ⟨⟨y, h1, h2, h3⟩, rfl⟩; exact ⟨rfl, y, h1, h2, h3⟩
  · rintro ⟨rfl, y, h1, h2, h3⟩; exact ⟨⟨y, h1, h2, h3⟩, rfl⟩

/-- `its` are the nodes with path `p` that have a value. -/
def ItemsOk (c : Fields (Arr S)) (p : Path) (its : List (Item S)) : Prop :=
  ∀ x : Item S, x ∈ its ↔ x.path = p ∧ ∃ y, look c p x.index = some y ∧ y.hasValue = true ∧ contentOf y = some x.content

theorem itemsOk (hs : Sized m N hom own c sizes) (p : Path) : ItemsOk c p (itemsAt (filledFields [] [] c) p) :=
  fun _ => mem_itemsAt hs

theorem item_of {its : List (Item S)} {p : Path} (hits : ItemsOk c p its) {i : List Nat} {y : Node (Arr S)} (h : look c p i = some y) (hf : Filled y) :
    ∃ z, contentOf y = some z ∧ (⟨p, i, z⟩ : Item S) ∈ its := by
  obtain ⟨z, hz⟩ : ∃ z, contentOf y = some z := by
    cases y with
    | struct => exact ⟨_, rfl⟩
    | aos => exact ⟨_, rfl⟩
    | leaf l v => cases v with
      | none => exact absurd hf id
      | some v => exact ⟨_, rfl⟩
  exact ⟨z, hz, (hits _).2 ⟨rfl, y, h, (filled_hasValue.1 hf).1, hz⟩⟩

theorem dataShape_ok (hs : Sized m N hom own c sizes) {p : Path} {y : Meta} (hy : metaAt (.struct m) p = some y) (hns : ∀ d, y ≠ .struct d)
    {its : List (Item S)} (hits : ItemsOk c p its) {i0 : List Nat} {x0 : Node (Arr S)} (hx0 : look c p i0 = some x0) (hf0 : Filled x0) :
    ∃ sp, dataShape (N.getDims hom) N.aos sizes p y its = .ok sp ∧
      ShapeOk c p ((aroundDims m own p).map (szOf sizes)) ((own p).map (szOf sizes)) sp := by
  have hd : IsDataPath m p := ⟨y, hy, hns⟩
  have hp := isDataPath_ne hd
  have hdims : N.getDims hom p = aroundDims m own p ++ own p := hs.layout.tuple p hd
  have hrank : (own p).length = ndimOf y := by
    rw [hs.layout.rank p y hp hy]
    cases y <;> rfl
  have ho := own_known hs hx0 hf0
  obtain ⟨ha, hi0⟩ := index_inside hs hx0
  -- every item
  have hitems : ∀ x ∈ its, inside x.index ((aroundDims m own p).map (szOf sizes)) = true ∧
      ∃ w, look c p x.index = some w ∧ Filled w ∧ x.content.shape = extent w := by
    intro x hx
    obtain ⟨rfl, w, h1, h2, h3⟩ := (hits _).1 hx
    refine ⟨(index_inside hs h1).2, w, h1, filled_hasValue.2 ⟨h2, ?_⟩, content_extent hs.ranks h1 h3⟩
    rintro d rfl
    obtain ⟨z, hz, hz', -⟩ := look_typed _ [] hs.typed h1
    rw [hy] at hz
    cases hz
    cases y <;> simp_all [Typed]
  have hfull : ∃ full, sizesOf sizes (lastDims (N.getDims hom p) (ndimOf y)) = .ok full ∧
      (ndimOf y ≠ 0 ∨ aroundDims m own p = [] → full = (own p).map (szOf sizes)) := by
    by_cases h0 : ndimOf y = 0
    · have : own p = [] := List.length_eq_zero_iff.1 (by omega)
      rw [lastDims, if_pos h0, hdims, this, List.append_nil, sizesOf_ok ha]
      refine ⟨_, rfl, ?_⟩
      rintro (h | h)
      · exact absurd h0 h
      · rw [h]
    · rw [lastDims, if_neg h0, hdims, ← hrank, List.length_append, Nat.add_sub_cancel, List.drop_left, sizesOf_ok ho]
      exact ⟨_, rfl, fun _ => rfl⟩
  obtain ⟨full, hfull, hfull'⟩ := hfull
  generalize hA : (aroundDims m own p).map (szOf sizes) = A at *
  generalize hF : (own p).map (szOf sizes) = F at *
  have hFl : F.length = ndimOf y := by rw [← hF, List.length_map, hrank]
  have unfoldD : dataShape (N.getDims hom) N.aos sizes p y its =
      if (N.getDims hom p).length = ndimOf y then
        match its.find? (·.index = []) with
        | none => .error .key
        | some x => .ok (if x.content.shape = full then .dense else .shapes (.vec x.content.shape))
      else
        match N.aos p with
        | none => .error .key
        | some a =>
          match sizesOf sizes (N.getDims hom a) with
          | .error x => .error x
          | .ok l =>
            match fillShapes (ndimOf y) its (.full (if ndimOf y = 0 then l else l ++ [ndimOf y]) 0) with
            | .error x => .error x
            | .ok s =>
              if ndimOf y = 0 then .ok (if s.all fun _ k => k ≠ 0 then .dense else .missing)
              else .ok (if s.all fun i k => full[i.getLast?.getD 0]? = some k then .dense else .shapes s) := by
    cases y with
    | struct d => exact absurd rfl (hns d)
    | leaf l => simp only [dataShape, hfull]; rfl
    | aos e => simp only [dataShape, hfull]; rfl
  rw [unfoldD]
  by_cases harr : (N.getDims hom p).length = ndimOf y
  · rw [if_pos harr]
    have hA0 : aroundDims m own p = [] := by
      rw [hdims, List.length_append, hrank] at harr
      exact List.length_eq_zero_iff.1 (by omega)
    have hA1 : A = [] := by rw [← hA, hA0]; rfl
    subst hA1
    have hi00 : i0 = [] := List.length_eq_zero_iff.1 (by simpa using inside_length hi0)
    subst hi00
    obtain ⟨z, hz, hm⟩ := item_of hits hx0 hf0
    cases hfind : its.find? (·.index = []) with
    | none =>
      have := List.find?_eq_none.1 hfind _ hm
      simp at this
    | some x =>
      have hxm := List.mem_of_find?_eq_some hfind
      have hxi : x.index = [] := by simpa using List.find?_some hfind
      obtain ⟨-, w, h1, h2, h3⟩ := hitems x hxm
      rw [hxi, hx0] at h1
      cases h1
      have hful := hfull' (.inr hA0)
      subst hful
      refine ⟨_, rfl, ?_⟩
      have hi : ∀ i, inside i [] = true → i = [] := by
        intro i h
        exact List.length_eq_zero_iff.1 (by simpa using inside_length h)
      split
      · rename_i heq
        intro i hii
        rw [hi i hii]
        exact ⟨x0, hx0, hf0, by rw [← h3]; exact heq⟩
      · rename_i hne
        have hlen : (extent x0).length = full.length := by rw [extent_length hs hx0 hf0, ← hF]; simp
        refine ⟨?_, ?_, ?_⟩
        · rintro rfl
          apply hne
          rw [h3]
          exact List.length_eq_zero_iff.1 hlen
        · simp [Arr.vec, h3, hlen]
        · intro i hii
          rw [hi i hii]
          refine ⟨?_, ?_⟩
          · intro x' hx' hf' k hk
            rw [hx0] at hx'
            cases hx'
            simp [Arr.vec, h3]
          · intro hno
            exact absurd hf0 (hno x0 hx0)
  · rw [if_neg harr]
    have hne : arraysOf m [] p ≠ [] := by
      intro e
      apply harr
      rw [hdims, aroundDims, e]
      simpa using hrank
    obtain ⟨a, hlast⟩ : ∃ a, (arraysOf m [] p).getLast? = some a := by
      cases h : (arraysOf m [] p).getLast? with
      | none => exact absurd (List.getLast?_eq_none_iff.1 h) hne
      | some a => exact ⟨a, rfl⟩
    rw [hs.layout.aos p y hp hy, hlast]
    simp only
    obtain ⟨t, h1, h2, h3, e, h4⟩ := arrays_last m p [] a hlast
    rw [List.nil_append] at h1
    subst h1
    have hda : N.getDims hom a = aroundDims m own p := by
      rw [hs.layout.tuple a ⟨_, h4, by rintro _ ⟨⟩⟩, aroundDims, h2]
      simp
    rw [hda, sizesOf_ok ha, hA]
    simp only
    generalize hB : (if ndimOf y = 0 then ([] : List Nat) else [ndimOf y]) = B
    have hAB : (if ndimOf y = 0 then A else A ++ [ndimOf y]) = A ++ B := by
      rw [← hB]; split <;> simp
    have hblock : ∀ x ∈ its, inside x.index A = true ∧ (shapeBlock (ndimOf y) x).shape = B := by
      intro x hx
      obtain ⟨h5, w, h6, h7, h8⟩ := hitems x hx
      refine ⟨h5, ?_⟩
      have hl := extent_length hs h6 h7
      rw [shapeBlock, ← hB]
      split
      · rfl
      · simp [Arr.vec, h8, hl, hrank]
    rw [hAB, fillShapes_ok (A := A) (B := B) rfl hblock]
    simp only
    generalize hl : (its.map fun x => (x.index, shapeBlock (ndimOf y) x)) = l
    have hlen : ∀ x ∈ l, x.1.length = A.length := by
      intro x hx
      rw [← hl] at hx
      obtain ⟨x', hx', rfl⟩ := List.mem_map.1 hx
      exact inside_length (hblock x' hx').1
    have hmem : ∀ i w, look c p i = some w → Filled w →
        ∃ b, (i, b) ∈ l ∧ (∀ b', (i, b') ∈ l → b' = b) ∧ b = (if ndimOf y = 0 then Arr.scalar 1 else Arr.vec (extent w)) := by
      intro i w hw hfw
      obtain ⟨z, hz, hzm⟩ := item_of hits hw hfw
      have hsh : ∀ x ∈ its, x.index = i →
          shapeBlock (ndimOf y) x = (if ndimOf y = 0 then Arr.scalar 1 else Arr.vec (extent w)) := by
        intro x hx hxi
        obtain ⟨-, w', h6, -, h8⟩ := hitems x hx
        rw [hxi, hw] at h6
        cases h6
        simp [shapeBlock, h8]
      refine ⟨_, ?_, ?_, rfl⟩
      · rw [← hl]
        exact List.mem_map.2 ⟨_, hzm, by simp only [Prod.mk.injEq, true_and]; exact hsh _ hzm rfl⟩
      · intro b' hb'
        rw [← hl] at hb'
        obtain ⟨x, hx, hxe⟩ := List.mem_map.1 hb'
        simp only [Prod.mk.injEq] at hxe
        rw [← hxe.2]
        exact hsh x hx hxe.1
    have hnot : ∀ i, (∀ w, look c p i = some w → ¬ Filled w) → ∀ b, (i, b) ∉ l := by
      intro i hno b hb
      rw [← hl] at hb
      obtain ⟨x, hx, hxe⟩ := List.mem_map.1 hb
      simp only [Prod.mk.injEq] at hxe
      obtain ⟨-, w, h6, h7, -⟩ := hitems x hx
      rw [hxe.1] at h6
      exact hno w h6 h7
    have hget : ∀ i j w, inside i A = true → inside j B = true → look c p i = some w → Filled w →
        (writeAll l (.full (A ++ B) 0)).get (i ++ j) =
          some (((if ndimOf y = 0 then Arr.scalar 1 else Arr.vec (extent w)).get j).getD 0) := by
      intro i j w hi hj hw hfw
      obtain ⟨b, h5, h6, rfl⟩ := hmem i w hw hfw
      rw [writeAll_mem hlen h5 h6]
      simp [Arr.full, inside_split hi, hj]
    have hget0 : ∀ i j, inside i A = true → inside j B = true → (∀ w, look c p i = some w → ¬ Filled w) →
        (writeAll l (.full (A ++ B) 0)).get (i ++ j) = some 0 := by
      intro i j hi hj hno
      rw [writeAll_not (inside_length hi) hlen (hnot i hno)]
      simp [Arr.full, inside_split hi, hj]
    have hem : ∀ i, (∃ w, look c p i = some w ∧ Filled w) ∨ ∀ w, look c p i = some w → ¬ Filled w := by
      intro i
      by_cases h : ∃ w, look c p i = some w ∧ Filled w
      · exact .inl h
      · exact .inr fun w hw hfw => h ⟨w, hw, hfw⟩
    by_cases h0 : ndimOf y = 0
    · rw [if_pos h0]
      refine ⟨_, rfl, ?_⟩
      have hF0 : F = [] := List.length_eq_zero_iff.1 (by omega)
      have hB0 : B = [] := by rw [← hB, if_pos h0]
      split
      · rename_i hall
        rw [all_iff] at hall
        intro i hi
        rcases hem i with ⟨w, hw, hfw⟩ | hno
        · exact ⟨w, hw, hfw, by
            rw [hF0]
            exact List.length_eq_zero_iff.1 (by rw [extent_length hs hw hfw, hrank, h0])⟩
        · have := hall _ _ (hget0 i [] hi (by rw [hB0]; rfl) hno)
          simp at this
      · rename_i hall
        refine ⟨hF0, ?_⟩
        apply Classical.byContradiction
        intro hgap
        apply hall
        rw [all_iff]
        intro j k hk
        have hj : inside j A = true := by
          have := (writeAll l (.full (A ++ B) 0)).ok j
          rw [hk, writeAll_shape] at this
          simpa [Arr.full, hB0] using this.symm
        rcases hem j with ⟨w, hw, hfw⟩ | hno
        · have := hget j [] w hj (by rw [hB0]; rfl) hw hfw
          rw [List.append_nil, hk] at this
          simp [h0, Arr.scalar] at this
          simp [this]
        · exact absurd ⟨j, hj, hno⟩ hgap
    · rw [if_neg h0]
      refine ⟨_, rfl, ?_⟩
      have hBn : B = [ndimOf y] := by rw [← hB, if_neg h0]
      have hful := hfull' (.inl h0)
      subst hful
      have hjk : ∀ k, k < full.length → inside [k] B = true := by
        intro k hk
        rw [hBn, ← hFl]
        simp [inside, hk]
      split
      · rename_i hall
        rw [all_iff] at hall
        intro i hi
        rcases hem i with ⟨w, hw, hfw⟩ | hno
        · refine ⟨w, hw, hfw, ?_⟩
          have hel : (extent w).length = full.length := by rw [extent_length hs hw hfw, hrank, hFl]
          apply List.ext_getElem? 
          intro k
          by_cases hk : k < full.length
          · have := hall _ _ (hget i [k] w hi (hjk k hk) hw hfw)
            simp only [List.getLast?_append, List.getLast?_singleton, Option.some_or, Option.getD_some, if_neg h0, Arr.vec,
              decide_eq_true_eq] at this
            rw [this]
            have hk' : k < (extent w).length := by omega
            simp [List.getElem?_eq_getElem hk']
          · rw [List.getElem?_eq_none (by omega), List.getElem?_eq_none (by omega)]
        · exfalso
          have hk : 0 < full.length := by omega
          have := hall _ _ (hget0 i [0] hi (hjk 0 hk) hno)
          simp only [List.getLast?_append, List.getLast?_singleton, Option.some_or, Option.getD_some, decide_eq_true_eq] at this
          -- the greatest size is not zero
          have hpos : Arr.leq (extent x0) full = true := by rw [← hF]; exact extent_leq hs hx0 hf0
          have hex : (extent x0).length = full.length := by rw [extent_length hs hx0 hf0, hrank, hFl]
          have h00 := (leq_iff.1 hpos).2 0 _ _ (List.getElem?_eq_getElem (show 0 < (extent x0).length by omega)) this
          have hmem0 : (extent x0)[0] ∈ extent x0 := List.getElem_mem _
          have : (extent x0)[0] = 0 := by omega
          rw [this] at hmem0
          cases x0 with
          | struct => exact hf0
          | aos m' e' =>
            simp only [extent, List.mem_singleton] at hmem0
            exact hf0 hmem0.symm
          | leaf l' v =>
            cases v with
            | none => exact hf0
            | some v =>
              simp only [Filled, Value.isEmpty] at hf0
              simp only [extent] at hmem0
              simp [hmem0] at hf0
      · refine ⟨?_, ?_, ?_⟩
        · rintro rfl; simp at hFl; omega
        · rw [writeAll_shape, hFl]; simp [Arr.full, hBn]
        · intro i hi
          refine ⟨?_, ?_⟩
          · intro w hw hfw k hk
            rw [hget i [k] w hi (hjk k hk) hw hfw]
            have hk' : k < (extent w).length := by rw [extent_length hs hw hfw, hrank, ← hFl]; exact hk
            simp [h0, Arr.vec, List.getElem?_eq_getElem hk']
          · intro hno k hk
            exact hget0 i [k] hi (hjk k hk) hno

end
end Verif.Nc
