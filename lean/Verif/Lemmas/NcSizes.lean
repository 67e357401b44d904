import Verif.Spec.NcSize
import Verif.Lemmas.NcItems
import Verif.Lemmas.NcLayout
import Verif.Lemmas.NcEager
import Verif.Lemmas.ConvertIdentity
/-
Sizes of the dimensions of a tree that is written to a netCDF group.
-/
namespace Verif.Nc
open Verif.Ids Verif.TreeSpec Verif.NcSpec
open Verif.ConvertSpec (mchild child metaAt)
open Verif.AlSpec (arraysOf IsDataPath)

set_option linter.unusedSectionVars false
variable {S : Type}

theorem isMax_congr {P Q : Nat → Prop} (h : ∀ n, P n ↔ Q n) {o : Option Nat} (ho : IsMax P o) : IsMax Q o := by
  have : P = Q := funext fun n => propext (h n)
  rwa [← this]

theorem growSizes_max : ∀ {l : List (Dim × Nat)} {s : List (NcDim × Nat)} {Q : Dim → Nat → Prop},
    (∀ d, IsMax (Q d) (dget s (.dd d))) → ∀ d, IsMax (fun n => Q d n ∨ (d, n) ∈ l) (dget (growSizes s l) (.dd d))
  | [], s, Q, h, d => isMax_congr (by simp) (h d)
  | (d0, n0) :: l, s, Q, h, d => by
    rw [growSizes]
    have : ∀ d, IsMax (fun n => Q d n ∨ (d, n) = (d0, n0))
        (dget (dset s (.dd d0) (max ((dget s (.dd d0)).getD 0) n0)) (.dd d)) := by
      intro d
      rw [dget_dset]
      by_cases hd : d = d0
      · subst hd
        rw [if_pos rfl]
        have := h d
        cases hg : dget s (.dd d) with
        | none =>
          rw [hg] at this
          simp only [IsMax] at this
          simp only [Option.getD_none, IsMax, Nat.zero_max, Prod.mk.injEq, true_and, or_true]
          rintro n (h1 | h1)
          · exact absurd h1 (this n)
          · omega
        | some k =>
          rw [hg] at this
          simp only [IsMax] at this
          simp only [Option.getD_some, IsMax, Prod.mk.injEq, true_and]
          refine ⟨?_, ?_⟩
          · rcases Nat.le_total k n0 with hk | hk
            · exact .inr (Nat.max_eq_right hk)
            · rw [Nat.max_eq_left hk]; exact .inl this.1
          · rintro n (h1 | h1)
            · have := this.2 n h1; omega
            · omega
      · rw [if_neg (by simpa using hd)]
        exact isMax_congr (by simp [hd]) (h d)
    refine isMax_congr ?_ (growSizes_max this d)
    intro n
    rw [List.mem_cons, or_assoc]

theorem collectSizes_max {dims : Path → List Dim} : ∀ {items : List (Item S)} {s : List (NcDim × Nat)} {Q : Dim → Nat → Prop},
    (∀ d, IsMax (Q d) (dget s (.dd d))) → ∀ d, IsMax (fun n => Q d n ∨ ∃ x ∈ items, x.content.ndim ≠ 0 ∧
      (d, n) ∈ (lastDims (dims x.path) x.content.ndim).zip x.content.shape) (dget (collectSizes dims items s) (.dd d))
  | [], s, Q, h, d => isMax_congr (by simp) (h d)
  | x :: r, s, Q, h, d => by
    rw [collectSizes]
    split
    · rename_i hx
      refine isMax_congr ?_ (collectSizes_max h d)
      intro n
      simp only [List.mem_cons, exists_eq_or_imp, hx, ne_eq, not_true_eq_false, false_and, false_or]
    · rename_i hx
      refine isMax_congr ?_ (collectSizes_max (growSizes_max h) d)
      intro n
      simp only [List.mem_cons, exists_eq_or_imp, hx, ne_eq, not_false_eq_true, true_and, or_assoc]

theorem growSizes_pseudo {k : Nat} : ∀ {l : List (Dim × Nat)} {s : List (NcDim × Nat)}, dget (growSizes s l) (.pseudo k) = dget s (.pseudo k)
  | [], _ => rfl
  | _ :: l, s => by rw [growSizes, growSizes_pseudo, dget_dset, if_neg (by simp)]

theorem collectSizes_pseudo {dims : Path → List Dim} {k : Nat} : ∀ {items : List (Item S)} {s : List (NcDim × Nat)},
    dget (collectSizes dims items s) (.pseudo k) = dget s (.pseudo k)
  | [], _ => rfl
  | x :: r, s => by
    rw [collectSizes, collectSizes_pseudo]
    split
    · rfl
    · rw [growSizes_pseudo]

theorem addPseudo_dd {m : MFields} {d : Dim} : ∀ {l : List (Path × Sparsity)} {s : List (NcDim × Nat)},
    dget (addPseudo m l s) (.dd d) = dget s (.dd d)
  | [], _ => rfl
  | (p, .shapes a) :: r, s => by
    rw [addPseudo]
    split
    · exact addPseudo_dd
    · rw [addPseudo_dd, dget_dset, if_neg (by simp)]
  | (p, .dense) :: r, s => by rw [addPseudo]; exact addPseudo_dd; simp
  | (p, .missing) :: r, s => by rw [addPseudo]; exact addPseudo_dd; simp

/-! ### Dimensions of a tree -/

/-- Arrays of structures around a node. -/
theorem look_arrays : ∀ (p : Path) {c : Fields (Arr S)} {m : MFields} (b : Path) {i : List Nat} {x : Node (Arr S)}, TypedF c m →
    look c p i = some x → ∀ (k : Nat) a, (arraysOf m b p)[k]? = some a → ∃ t m' e j, a = b ++ t ∧ look c t (i.take k) = some (.aos m' e) ∧
      i[k]? = some j ∧ j < e.length
  | [], _, _, _, _, _, _, h, _, _, _ => by simp [look] at h
  | [n], _, _, _, _, _, _, _, _, _, ha => by simp [arraysOf] at ha
  | n :: n' :: p, c, m, b, i, x, ht, h, k, a, ha => by
    rw [arraysOf] at ha
    rcases typed_child ht n with ⟨-, h1⟩ | ⟨y, z, h1, h2, h3⟩
    · simp [look, h1] at h
    · rw [h1] at ha
      rcases (look_ind (by simp)).1 h with ⟨d, h4, h5⟩ | ⟨m', e, j, i', d, h4, rfl, h5, h6⟩
      · rw [h4] at h2; cases h2
        cases y with
        | leaf l => simp [Typed] at h3
        | aos m' => simp [Typed] at h3
        | struct m' =>
          simp only [Typed] at h3
          obtain ⟨t, m1, e, j, rfl, h7, h8, h9⟩ := look_arrays (n' :: p) (b ++ [n]) h3 h5 k a ha
          refine ⟨n :: t, m1, e, j, by simp, ?_, h8, h9⟩
          have htn : t ≠ [] := by rintro rfl; simp [look] at h7
          exact (look_ind htn).2 (.inl ⟨d, h4, h7⟩)
      · rw [h4] at h2; cases h2
        cases y with
        | leaf l => simp [Typed] at h3
        | struct m' => simp [Typed] at h3
        | aos m' =>
          simp only [Typed] at h3
          obtain ⟨rfl, h3⟩ := h3
          cases k with
          | zero =>
            simp only [List.getElem?_cons_zero, Option.some.injEq] at ha
            subst ha
            exact ⟨[n], _, e, j, rfl, by simpa [look] using h4, rfl, elems_get.1 (by rw [h5]; rfl)⟩
          | succ k =>
            simp only [List.getElem?_cons_succ] at ha
            obtain ⟨t, m1, e1, j1, rfl, h7, h8, h9⟩ := look_arrays (n' :: p) (b ++ [n]) (typed_elem h3 h5) h6 k a ha
            refine ⟨n :: t, m1, e1, j1, by simp, ?_, by simpa using h8, h9⟩
            have htn : t ≠ [] := by rintro rfl; simp [look] at h7
            exact (look_ind htn).2 (.inr ⟨_, e, j, i'.take k, d, h4, by simp, h5, h7⟩)

theorem inside_get : ∀ {i s : List Nat}, inside i s = true ↔ i.length = s.length ∧ ∀ k j n : Nat, i[k]? = some j → s[k]? = some n → j < n
  | [], [] => by simp [inside]
  | [], _ :: _ => by simp [inside]
  | _ :: _, [] => by simp [inside]
  | a :: i, b :: s => by
    simp only [inside, Bool.and_eq_true, decide_eq_true_eq, inside_get, List.length_cons, Nat.add_right_cancel_iff]
    constructor
    · rintro ⟨h1, h2, h3⟩
      refine ⟨h2, ?_⟩
      intro k j n hj hn
      cases k with
      | zero => simp only [List.getElem?_cons_zero, Option.some.injEq] at hj hn; omega
      | succ k => exact h3 k j n (by simpa using hj) (by simpa using hn)
    · rintro ⟨h2, h3⟩
      exact ⟨h3 0 a b rfl rfl, h2, fun k j n hj hn => h3 (k + 1) j n (by simpa using hj) (by simpa using hn)⟩

theorem leq_iff : ∀ {i s : List Nat}, Arr.leq i s = true ↔ i.length = s.length ∧ ∀ k j n : Nat, i[k]? = some j → s[k]? = some n → j ≤ n
  | [], [] => by simp [Arr.leq]
  | [], _ :: _ => by simp [Arr.leq]
  | _ :: _, [] => by simp [Arr.leq]
  | a :: i, b :: s => by
    simp only [Arr.leq, Bool.and_eq_true, decide_eq_true_eq, leq_iff, List.length_cons, Nat.add_right_cancel_iff]
    constructor
    · rintro ⟨h1, h2, h3⟩
      refine ⟨h2, ?_⟩
      intro k j n hj hn
      cases k with
      | zero => simp only [List.getElem?_cons_zero, Option.some.injEq] at hj hn; omega
      | succ k => exact h3 k j n (by simpa using hj) (by simpa using hn)
    · rintro ⟨h2, h3⟩
      exact ⟨h3 0 a b rfl rfl, h2, fun k j n hj hn => h3 (k + 1) j n (by simpa using hj) (by simpa using hn)⟩

/-- The size of a dimension. -/
def szOf (sizes : List (NcDim × Nat)) (d : Dim) : Nat := (dget sizes (.dd d)).getD 0

theorem sizesOf_ok {sizes : List (NcDim × Nat)} : ∀ {l : List Dim}, (∀ d ∈ l, (dget sizes (.dd d)).isSome) →
    sizesOf sizes l = .ok (l.map (szOf sizes))
  | [], _ => rfl
  | d :: r, h => by
    have h0 := h d (by simp)
    rw [sizesOf]
    cases hd : dget sizes (.dd d) with
    | none => rw [hd] at h0; cases h0
    | some n =>
      simp only
      rw [sizesOf_ok fun d hd => h d (by simp [hd])]
      simp [szOf, hd]

/-- A tree that is written, its metadata, and the sizes of dimensions. -/
structure Sized (m : MFields) (N : NcMeta) (hom : Bool) (own : Path → List Dim) (c : Fields (Arr S)) (sizes : List (NcDim × Nat)) :
    Prop where
  wf : WFMFields m
  layout : Layout m N hom own
  typed : TypedF c m
  ranks : RanksOk c
  max : ∀ d, IsMax (Uses (N.getDims hom) c d) (dget sizes (.dd d))

section
variable {m : MFields} {N : NcMeta} {hom : Bool} {own : Path → List Dim} {c : Fields (Arr S)} {sizes : List (NcDim × Nat)}

theorem ownAos (hl : Layout m N hom own) {p a : Path} (h : a ∈ arraysOf m [] p) : ∃ d, own a = [d] := by
  obtain ⟨t, k, r, h1, -, h2, e, h3⟩ := mem_arrays _ _ _ _ h
  rw [List.nil_append] at h1
  subst h1
  have := hl.rank a _ h2 h3
  simp only [rank] at this
  exact List.length_eq_one_iff.1 this

/-- The dimensions of the arrays of structures around a node. -/
def aroundDims (m : MFields) (own : Path → List Dim) (p : Path) : List Dim := (arraysOf m [] p).flatMap own

theorem flatMap_one {A B : Type} {f : A → List B} : ∀ {l : List A}, (∀ a ∈ l, ∃ b, f a = [b]) → (l.flatMap f).length = l.length ∧
    ∀ (k : Nat) d, (l.flatMap f)[k]? = some d ↔ ∃ a, l[k]? = some a ∧ f a = [d]
  | [], _ => by simp
  | a :: l, h => by
    obtain ⟨b, hb⟩ := h a (by simp)
    obtain ⟨h1, h2⟩ := flatMap_one (l := l) fun a ha => h a (by simp [ha])
    refine ⟨by simp [hb, h1], ?_⟩
    intro k d
    rw [List.flatMap_cons, hb]
    cases k with
    | zero => simp [hb]
    | succ k => simp [h2]

theorem around_length (hl : Layout m N hom own) (p : Path) : (aroundDims m own p).length = (arraysOf m [] p).length :=
  (flatMap_one fun _ h => ownAos hl h).1

/-- Dimensions of a node itself. -/
theorem own_dim (hs : Sized m N hom own c sizes) {p : Path} {i : List Nat} {x : Node (Arr S)} (h : look c p i = some x)
    (hd : IsDataPath m p) (k : Nat) : (N.getDims hom p)[i.length + k]? = (own p)[k]? := by
  obtain ⟨y, -, -, hi⟩ := look_typed p [] hs.typed h
  rw [hs.layout.tuple p hd, hi, ← around_length hs.layout p]
  rw [List.getElem?_append_right (by simp [aroundDims])]
  congr 1
  simp [aroundDims]

theorem look_dataPath (hs : TypedF c m) {p : Path} {i : List Nat} {x : Node (Arr S)} (h : look c p i = some x)
    (hx : ∀ d, x ≠ .struct d) : IsDataPath m p := by
  obtain ⟨y, h1, h2, -⟩ := look_typed p [] hs h
  refine ⟨y, h1, ?_⟩
  rintro d rfl
  cases x with
  | leaf => simp [Typed] at h2
  | aos => simp [Typed] at h2
  | struct e => exact hx e rfl

/-- Sizes of filled nodes. -/
theorem use (hs : Sized m N hom own c sizes) {p : Path} {i : List Nat} {x : Node (Arr S)} (h : look c p i = some x) (hf : Filled x)
    {k n : Nat} {d : Dim} (hd : (own p)[k]? = some d) (hn : (extent x)[k]? = some n) :
    ∃ z, dget sizes (.dd d) = some z ∧ n ≤ z := by
  have hu : Uses (N.getDims hom) c d n := by
    refine ⟨p, i, x, k, h, hf, ?_, hn⟩
    rw [own_dim hs h (look_dataPath hs.typed h (by rintro d rfl; exact hf))]
    exact hd
  have := hs.max d
  cases hz : dget sizes (.dd d) with
  | none => rw [hz] at this; exact absurd hu (this n)
  | some z => rw [hz] at this; exact ⟨z, rfl, this.2 n hu⟩

/-- The extent of a node with a value has the right length. -/
theorem extent_length (hs : Sized m N hom own c sizes) {p : Path} {i : List Nat} {x : Node (Arr S)} (h : look c p i = some x)
    (hf : Filled x) : (extent x).length = (own p).length := by
  obtain ⟨y, h1, h2, -⟩ := look_typed p [] hs.typed h
  have hp : p ≠ [] := by rintro rfl; simp [look] at h
  rw [hs.layout.rank p y hp h1]
  cases x with
  | struct => exact absurd hf id
  | aos m' e => cases y <;> simp_all [Typed, extent, rank]
  | leaf l v =>
    cases v with
    | none => exact absurd hf id
    | some v =>
      have := hs.ranks p i l v h
      cases y <;> simp_all [Typed, extent, rank]

/-- The extent of a node with a value fits. -/
theorem extent_leq (hs : Sized m N hom own c sizes) {p : Path} {i : List Nat} {x : Node (Arr S)} (h : look c p i = some x)
    (hf : Filled x) : Arr.leq (extent x) ((own p).map (szOf sizes)) = true := by
  rw [leq_iff]
  refine ⟨by rw [extent_length hs h hf]; simp, ?_⟩
  intro k j n hj hn
  rw [List.getElem?_map] at hn
  cases hd : (own p)[k]? with
  | none => rw [hd] at hn; cases hn
  | some d =>
    rw [hd] at hn
    simp only [Option.map_some, Option.some.injEq] at hn
    obtain ⟨z, h1, h2⟩ := use hs h hf hd hj
    rw [szOf, h1] at hn
    simp only [Option.getD_some] at hn
    omega

/-- Dimensions of nodes with a value have a size. -/
theorem own_known (hs : Sized m N hom own c sizes) {p : Path} {i : List Nat} {x : Node (Arr S)} (h : look c p i = some x)
    (hf : Filled x) : ∀ d ∈ own p, (dget sizes (.dd d)).isSome := by
  intro d hd
  obtain ⟨k, hk⟩ := List.mem_iff_getElem?.1 hd
  have hlt : k < (extent x).length := by
    rw [extent_length hs h hf]
    exact (List.getElem?_eq_some_iff.1 hk).1
  obtain ⟨z, h1, -⟩ := use hs h hf hk (List.getElem?_eq_getElem hlt)
  simp [h1]

/-- Indices of nodes are in range. -/
theorem index_inside (hs : Sized m N hom own c sizes) {p : Path} {i : List Nat} {x : Node (Arr S)} (h : look c p i = some x) :
    (∀ d ∈ aroundDims m own p, (dget sizes (.dd d)).isSome) ∧ inside i ((aroundDims m own p).map (szOf sizes)) = true := by
  have key : ∀ (k : Nat) d, (aroundDims m own p)[k]? = some d → ∃ j z, i[k]? = some j ∧ dget sizes (.dd d) = some z ∧ j < z := by
    intro k d hd
    obtain ⟨a, ha, hda⟩ := ((flatMap_one fun _ h => ownAos hs.layout h).2 k d).1 hd
    obtain ⟨t, m', e, j, rfl, h1, h2, h3⟩ := look_arrays p [] hs.typed h k a ha
    obtain ⟨z, h4, h5⟩ := use hs h1 (show Filled _ by simp only [Filled]; omega) (k := 0) (d := d)
      (by rw [hda]; rfl) rfl
    exact ⟨j, z, h2, h4, by omega⟩
  refine ⟨?_, ?_⟩
  · intro d hd
    obtain ⟨k, hk⟩ := List.mem_iff_getElem?.1 hd
    obtain ⟨j, z, -, h2, -⟩ := key k d hk
    simp [h2]
  · rw [inside_get]
    obtain ⟨y, -, -, hi⟩ := look_typed p [] hs.typed h
    refine ⟨by rw [hi, ← around_length hs.layout p]; simp, ?_⟩
    intro k j n hj hn
    rw [List.getElem?_map] at hn
    cases hd : (aroundDims m own p)[k]? with
    | none => rw [hd] at hn; cases hn
    | some d =>
      rw [hd] at hn
      simp only [Option.map_some, Option.some.injEq] at hn
      obtain ⟨j', z, h1, h2, h3⟩ := key k d hd
      rw [szOf, h2] at hn
      rw [h1] at hj
      simp only [Option.getD_some] at hn
      cases hj
      omega

theorem filled_hasValue {x : Node (Arr S)} : Filled x ↔ x.hasValue = true ∧ ∀ d, x ≠ .struct d := by
  cases x with
  | struct d => simp [Filled]
  | aos m e => simp [Filled, Node.hasValue]; omega
  | leaf l v => cases v <;> simp [Filled, Node.hasValue, leafHasValue]

/-- The sizes that are collected are the greatest ones. -/
theorem sized_items (hw : WFMFields m) (hl : Layout m N hom own) (ht : TypedF c m) (hr' : RanksOk c) {items : List (Item S)}
    (hitems : ∀ x : Item S, x.content.ndim ≠ 0 → (x ∈ items ↔ ∃ y, look c x.path x.index = some y ∧ y.hasValue = true ∧
      contentOf y = some x.content)) : Sized m N hom own c (collectSizes (N.getDims hom) items []) where
  wf := hw
  layout := hl
  typed := ht
  ranks := hr'
  max d := by
    have := collectSizes_max (dims := N.getDims hom) (items := items) (s := []) (Q := fun _ _ => False)
      (by intro d; simp [dget, IsMax]) d
    refine isMax_congr ?_ this
    intro n
    simp only [false_or]
    -- what an item uses
    have key : ∀ (x : Item S) (y : Node (Arr S)), look c x.path x.index = some y → y.hasValue = true →
        contentOf y = some x.content → ((x.content.ndim ≠ 0 ∧
          (d, n) ∈ (lastDims (N.getDims hom x.path) x.content.ndim).zip x.content.shape) ↔
          Filled y ∧ ∃ k, (N.getDims hom x.path)[x.index.length + k]? = some d ∧ (extent y)[k]? = some n) := by
      intro x y h1 h2 h3
      have hlast : ∀ y' : Node (Arr S), y = y' → (∀ d, y' ≠ .struct d) → ∀ r, r ≠ 0 → (own x.path).length = r →
          lastDims (N.getDims hom x.path) r = own x.path ∧ ∀ k, (N.getDims hom x.path)[x.index.length + k]? = (own x.path)[k]? := by
        rintro y' rfl hy r hr0 hr
        have hd := look_dataPath ht h1 hy
        refine ⟨?_, ?_⟩
        · rw [lastDims, if_neg hr0, hl.tuple _ hd, List.drop_append_of_le_length (by simp; omega)]
          simp [hr]
        · intro k
          obtain ⟨_, -, -, hi⟩ := look_typed _ [] ht h1
          rw [hl.tuple _ hd, hi, ← around_length hl, List.getElem?_append_right (by simp [aroundDims])]
          congr 1
          simp [aroundDims]
      have hzip : ∀ (a : List Dim) (b : List Nat), (d, n) ∈ a.zip b ↔ ∃ k : Nat, a[k]? = some d ∧ b[k]? = some n := by
        intro a b
        rw [List.mem_iff_getElem?]
        simp [List.getElem?_zip_eq_some]
      obtain ⟨w, hw1, hw2, -⟩ := look_typed _ [] ht h1
      have hp : x.path ≠ [] := by intro e; rw [e] at h1; simp [look] at h1
      have hrk := hl.rank _ w hp hw1
      cases hy : y with
      | struct e =>
        rw [hy] at h3
        simp only [contentOf, Option.some.injEq] at h3
        simp [← h3, Content.ndim, Filled]
      | aos m' e =>
        rw [hy] at h3 hw2 h2
        simp only [contentOf, Option.some.injEq] at h3
        have hr : (own x.path).length = 1 := by cases w <;> simp_all [Typed, rank]
        obtain ⟨h4, h5⟩ := hlast _ hy (by rintro _ ⟨⟩) 1 (by simp) hr
        simp only [← h3, Content.ndim, Content.shape, h4, h5, extent, hzip]
        simp only [Node.hasValue, decide_eq_true_eq] at h2
        simp only [Filled]
        constructor
        · rintro ⟨-, h6⟩; exact ⟨by omega, h6⟩
        · rintro ⟨-, h6⟩; exact ⟨by simp, h6⟩
      | leaf l v =>
        rw [hy] at h3 hw2 h2
        cases v with
        | none => simp [contentOf] at h3
        | some v =>
          simp only [contentOf, Option.map_some, Option.some.injEq] at h3
          have hr : (own x.path).length = l.ndim := by cases w <;> simp_all [Typed, rank]
          have hv := hr'  _ _ _ _ (hy ▸ h1)
          by_cases h0 : l.ndim = 0
          · rw [h0] at hv
            simp [← h3, Content.ndim, h0, extent, List.length_eq_zero_iff.1 hv]
          · obtain ⟨h4, h5⟩ := hlast _ hy (by rintro _ ⟨⟩) l.ndim h0 hr
            simp only [← h3, Content.ndim, Content.shape, if_neg h0, h4, h5, extent, hzip]
            have hf : Filled (Node.leaf l (some v)) := filled_hasValue.2 ⟨h2, by rintro _ ⟨⟩⟩
            simp [h0, hf]
    constructor
    · rintro ⟨x, hx, h1⟩
      obtain ⟨y, h2, h3, h4⟩ := (hitems x h1.1).1 hx
      obtain ⟨h5, k, h6, h7⟩ := (key x y h2 h3 h4).1 h1
      exact ⟨x.path, x.index, y, k, h2, h5, h6, h7⟩
    · rintro ⟨p, i, x, k, h1, h2, h3, h4⟩
      have hv := (filled_hasValue.1 h2).1
      obtain ⟨z, hz⟩ : ∃ z, contentOf x = some z := by
        cases x with
        | struct => exact ⟨_, rfl⟩
        | aos => exact ⟨_, rfl⟩
        | leaf l v => cases v with
          | none => exact absurd h2 id
          | some v => exact ⟨_, rfl⟩
      have hk := (key ⟨p, i, z⟩ x h1 hv hz).2 ⟨h2, k, h3, h4⟩
      exact ⟨⟨p, i, z⟩, (hitems _ hk.1).2 ⟨x, h1, hv, hz⟩, hk⟩

theorem sized (hw : WFMFields m) (hl : Layout m N hom own) (ht : TypedF c m) (hr' : RanksOk c) :
    Sized m N hom own c (collectSizes (N.getDims hom) (filledFields [] [] c) []) :=
  sized_items hw hl ht hr' fun _ _ => mem_items (Verif.Convert.wf_of_typedF c m ht hw)

end
end Verif.Nc
