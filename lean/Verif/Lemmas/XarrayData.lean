import Verif.Lemmas.XarrayPrune
import Verif.Lemmas.XarrayPaths
/-
What a conversion to xarray gives.
-/
namespace Verif.Nc
open Verif.Ids Verif.TreeSpec Verif.NcSpec
open Verif.ConvertSpec (mchild child metaAt)
open Verif.AlSpec (arraysOf IsDataPath)

set_option linter.unusedSectionVars false
variable {S : Type}

/-! ### Nodes that are visited -/

theorem mem_itemOf {p : Path} {i : List Nat} {y : Node (Arr S)} {x : Item S} :
    x ∈ itemOf p i y ↔ x.path = p ∧ x.index = i ∧ y.hasValue = true ∧ contentOf y = some x.content := by
  obtain ⟨xp, xi, xc⟩ := x
  cases y with
  | leaf l v =>
    simp only [itemOf, contentOf]
    split
    · rename_i h
      cases v with
      | none => simp
      | some v => simp [h]; intro _ _; exact eq_comm
    · rename_i h; simp [h]
  | struct c =>
    simp only [itemOf, contentOf]
    split
    · rename_i h; simp [h]; intro _ _; exact eq_comm
    · rename_i h; simp [h]
  | aos m e =>
    simp only [itemOf, contentOf]
    split
    · rename_i h; simp [h]; intro _ _; exact eq_comm
    · rename_i h; simp [h]

theorem mem_eachElem {A : Type} {f : Nat → Fields (Arr S) → List A} {a : A} : ∀ {k : Nat} {e : Elems (Arr S)},
    a ∈ eachElem f k e ↔ ∃ j d, e.get? j = some d ∧ a ∈ f (k + j) d
  | k, .nil => by simp [eachElem, Elems.get?]
  | k, .cons c r => by
    rw [eachElem, List.mem_append, mem_eachElem]
    constructor
    · rintro (h | ⟨j, d, h1, h2⟩)
      · exact ⟨0, c, rfl, h⟩
      · exact ⟨j + 1, d, h1, by rwa [show k + (j + 1) = k + 1 + j by omega]⟩
    · rintro ⟨j, d, h1, h2⟩
      cases j with
      | zero =>
        simp only [Elems.get?, Option.some.injEq] at h1
        subst h1
        exact .inl h2
      | succ j => exact .inr ⟨j, d, h1, by rwa [show k + (j + 1) = k + 1 + j by omega] at h2⟩

theorem mem_nodesAt {full : Path} : ∀ {p : Path} {i0 : List Nat} {c : Fields (Arr S)} {x : Item S},
    x ∈ nodesAt full p i0 c ↔ x.path = full ∧ ∃ j y, x.index = i0 ++ j ∧ look c p j = some y ∧ y.hasValue = true ∧
      contentOf y = some x.content
  | [], i0, c, x => by simp [nodesAt, look]
  | [k], i0, c, x => by
    rw [nodesAt]
    cases hk : c.get? k with
    | none =>
      simp only [List.not_mem_nil, false_iff]
      rintro ⟨-, j, y, -, h, -⟩
      rw [look_one] at h
      split at h
      · rw [hk] at h; cases h
      · cases h
    | some y =>
      simp only
      rw [mem_itemOf]
      constructor
      · rintro ⟨h1, h2, h3, h4⟩
        exact ⟨h1, [], y, by simp [h2], by rw [look_one, if_pos rfl, hk], h3, h4⟩
      · rintro ⟨h1, j, y', h2, h3, h4, h5⟩
        rw [look_one] at h3
        split at h3
        · rename_i hj
          rw [hk] at h3
          cases h3
          exact ⟨h1, by simp [h2, hj], h4, h5⟩
        · cases h3
  | k :: k' :: p, i0, c, x => by
    rw [nodesAt]
    split
    · rename_i d hk
      rw [mem_nodesAt]
      apply and_congr Iff.rfl
      have hl : ∀ j y, look c (k :: k' :: p) j = some y ↔ look d (k' :: p) j = some y := by
        intro j y
        rw [look_cons _ _ _ (by simp), hk]
        simp [below]
      simp only [hl]
    · rename_i m' e hk
      rw [mem_eachElem]
      constructor
      · rintro ⟨j, d, h1, h2⟩
        obtain ⟨h3, i, y, h4, h5, h6⟩ := mem_nodesAt.1 h2
        rw [Nat.zero_add] at h4
        exact ⟨h3, j :: i, y, by simp [h4], (look_ind (by simp)).2 (.inr ⟨_, e, j, i, d, hk, rfl, h1, h5⟩), h6⟩
      · rintro ⟨h3, i, y, h4, h5, h6⟩
        rcases (look_ind (by simp)).1 h5 with ⟨d, h7, h8⟩ | ⟨m1, e1, j, i', d, h7, rfl, h8, h9⟩
        · rw [hk] at h7; cases h7
        · rw [hk] at h7
          cases h7
          refine ⟨j, d, h8, mem_nodesAt.2 ⟨h3, i', y, ?_, h9, h6⟩⟩
          rw [h4, Nat.zero_add]
          simp
    · rename_i h1 h2
      simp only [List.not_mem_nil, false_iff]
      rintro ⟨-, i, y, -, h, -⟩
      rcases (look_ind (by simp)).1 h with ⟨d, h7, h8⟩ | ⟨m1, e1, j, i', d, h7, rfl, h8, h9⟩
      · exact h1 _ h7
      · exact h2 _ _ h7

/-- The nodes with a value at kept paths. -/
def KeptItems (keep : Path → Bool) (c : Fields (Arr S)) (items : List (Item S)) : Prop :=
  ∀ x : Item S, x ∈ items ↔ keep x.path = true ∧ ∃ y, look c x.path x.index = some y ∧ y.hasValue = true ∧ contentOf y = some x.content

theorem selectedItems_ok {m : MFields} {c : Fields (Arr S)} : ∀ {paths : List Path}, (∀ p ∈ paths, (metaOf m p).isSome = true) →
    ∃ items, selectedItems m c paths = .ok items ∧ ∀ x : Item S, x ∈ items ↔ x.path ∈ paths ∧ ∃ y, look c x.path x.index = some y ∧
      y.hasValue = true ∧ contentOf y = some x.content
  | [], _ => ⟨[], rfl, by simp⟩
  | p :: r, h => by
    obtain ⟨items, h1, h2⟩ := selectedItems_ok (m := m) (c := c) (paths := r) fun q hq => h q (by simp [hq])
    have hp := h p (by simp)
    rw [selectedItems]
    cases hm : metaOf m p with
    | none => rw [hm] at hp; cases hp
    | some y =>
      simp only [h1]
      refine ⟨_, rfl, ?_⟩
      intro x
      rw [List.mem_append, h2, mem_nodesAt, List.mem_cons]
      constructor
      · rintro (⟨h3, j, y, h4, h5, h6⟩ | ⟨h3, h4⟩)
        · exact ⟨.inl h3, y, by rw [h3, h4]; exact h5, h6⟩
        · exact ⟨.inr h3, h4⟩
      · rintro ⟨h3 | h3, y, h4, h5⟩
        · exact .inl ⟨h3, x.index, y, rfl, by rw [← h3]; exact h4, h5⟩
        · exact .inr ⟨h3, y, h4, h5⟩

theorem chosenItems_ok {m : MFields} {c : Fields (Arr S)} (hw : WFMFields m) (ht : TypedF c m) {paths : List Path}
    (h : ∀ p ∈ paths, (metaOf m p).isSome = true) {keep : Path → Bool} (hk : ∀ p, keep p = true ↔ paths = [] ∨ p ∈ paths) :
    ∃ items, chosenItems m c paths = .ok items ∧ KeptItems keep c items := by
  cases paths with
  | nil =>
    refine ⟨_, rfl, fun x => ?_⟩
    rw [mem_items (Verif.Convert.wf_of_typedF c m ht hw), (hk _).2 (.inl rfl)]
    simp
  | cons p r =>
    obtain ⟨items, h1, h2⟩ := selectedItems_ok (c := c) h
    refine ⟨items, h1, fun x => ?_⟩
    rw [h2, hk]
    simp

/-! ### Shapes and data of kept nodes -/

section
variable {m : MFields} {N : NcMeta} {hom : Bool} {own : Path → List Dim} {c : Fields (Arr S)} {keep : Path → Bool} {items : List (Item S)}

/-- Arrays of structures around kept paths are kept. -/
def KeepsArrays (m : MFields) (keep : Path → Bool) : Prop := ∀ p, keep p = true → ∀ a ∈ arraysOf m [] p, keep a = true

theorem kept_look (hk : KeepsArrays m keep) (ht : TypedF c m) {p : Path} (hp : keep p = true) {i : List Nat} {y : Node (Arr S)} :
    look (pruneFields keep [] c) p i = some y ↔ ∃ x, look c p i = some x ∧ y = pruneNode keep p x := by
  rw [prune_look p [] ht]
  exact ⟨fun h => h.2, fun h => ⟨hk p hp, h⟩⟩

/-- The same items, as nodes of the pruned tree. -/
theorem kept_item (hk : KeepsArrays m keep) (ht : TypedF c m) {p : Path} {i : List Nat} {z : Content S} (hz : z ≠ .struct) :
    (keep p = true ∧ ∃ y, look c p i = some y ∧ y.hasValue = true ∧ contentOf y = some z) ↔
      ∃ y, look (pruneFields keep [] c) p i = some y ∧ y.hasValue = true ∧ contentOf y = some z := by
  have hns : ∀ y : Node (Arr S), contentOf y = some z → ∀ d, y ≠ .struct d := by
    rintro _ h d rfl
    simp only [contentOf, Option.some.injEq] at h
    exact hz h.symm
  constructor
  · rintro ⟨h1, y, h2, h3, h4⟩
    have := (prune_content (keep := keep) (p := p) (hns y h4) (z := z)).2 ⟨h1, h3, h4⟩
    exact ⟨_, (kept_look hk ht h1).2 ⟨y, h2, rfl⟩, this⟩
  · rintro ⟨y', h2, h3, h4⟩
    obtain ⟨-, y, h5, h6⟩ := (prune_look p [] ht).1 h2
    rw [List.nil_append] at h6
    have hy : ∀ d, y ≠ .struct d := by
      rintro d rfl
      exact hns _ h4 _ h6
    subst h6
    obtain ⟨h7, h8⟩ := (prune_content hy).1 ⟨h3, h4⟩
    exact ⟨h7, y, h5, h8⟩

theorem kept_sized (hw : WFMFields m) (hl : Layout m N hom own) (ht : TypedF c m) (hr : RanksOk c) (hk : KeepsArrays m keep)
    (hi : KeptItems keep c items) : Sized m N hom own (pruneFields keep [] c) (collectSizes (N.getDims hom) items []) := by
  refine sized_items hw hl (prune_typedF c m [] ht) (prune_ranks ht hr) fun x hx => ?_
  rw [hi, kept_item hk ht]
  intro h
  rw [h] at hx
  exact hx rfl

theorem kept_uses (hk : KeepsArrays m keep) (ht : TypedF c m) {dims : Path → List Dim} {d : Dim} {n : Nat} :
    Uses dims (pruneFields keep [] c) d n ↔ UsesOf (fun p => keep p = true) dims c d n := by
  constructor
  · rintro ⟨p, i, x, k, h1, h2, h3, h4⟩
    obtain ⟨-, y, h5, h6⟩ := (prune_look p [] ht).1 h1
    rw [List.nil_append] at h6
    subst h6
    obtain ⟨h7, h8⟩ := prune_filled.1 h2
    rw [prune_extent h7] at h4
    exact ⟨p, i, y, k, h7, h5, h8, h3, h4⟩
  · rintro ⟨p, i, x, k, h1, h2, h3, h4, h5⟩
    exact ⟨p, i, _, k, (kept_look hk ht h1).2 ⟨x, h2, rfl⟩, prune_filled.2 ⟨h1, h3⟩, h4, by rw [prune_extent h1]; exact h5⟩

/-- Items of a path that is not a structure. -/
theorem kept_itemsOk (ht : TypedF c m) (hk : KeepsArrays m keep) (hi : KeptItems keep c items) {p : Path} {y : Meta}
    (hy : metaAt (.struct m) p = some y) (hn : ¬ IsStruct y) : ItemsOk (pruneFields keep [] c) p (itemsAt items p) := by
  intro x
  simp only [itemsAt, List.mem_filter, decide_eq_true_eq, hi x]
  have hz : ∀ w : Node (Arr S), look c x.path x.index = some w → contentOf w = some x.content → x.path = p → x.content ≠ .struct := by
    rintro w h1 h2 rfl h3
    obtain ⟨z, h4, h5, -⟩ := look_typed _ [] ht h1
    rw [hy] at h4
    cases h4
    rw [h3] at h2
    cases w with
    | leaf l v => simp [contentOf] at h2
    | aos => simp [contentOf] at h2
    | struct d => cases y <;> simp_all [Typed, IsStruct]
  have hz' : ∀ w : Node (Arr S), look (pruneFields keep [] c) x.path x.index = some w → contentOf w = some x.content → x.path = p →
      x.content ≠ .struct := by
    rintro w h1 h2 rfl h3
    obtain ⟨-, y', h5, h6⟩ := (prune_look _ [] ht).1 h1
    rw [h3] at h2
    subst h6
    cases y' with
    | leaf l v => simp [contentOf, pruneNode] at h2
    | aos => simp [contentOf, pruneNode] at h2
    | struct d => exact hz _ h5 (by rw [h3]; rfl) rfl h3
  constructor
  · rintro ⟨⟨h1, w, h2, h3, h4⟩, h5⟩
    refine ⟨h5, ?_⟩
    rw [← h5]
    exact (kept_item hk ht (hz w h2 h4 h5)).1 ⟨h1, w, h2, h3, h4⟩
  · rintro ⟨h5, w, h2, h3, h4⟩
    rw [← h5] at h2
    exact ⟨(kept_item hk ht (hz' w h2 h4 h5)).2 ⟨w, h2, h3, h4⟩, h5⟩

/-- A path of an item. -/
theorem kept_any (hi : KeptItems keep c items) {p : Path} : (items.any (·.path = p)) = true ↔ keep p = true ∧ HasItem c p := by
  rw [List.any_eq_true]
  constructor
  · rintro ⟨x, h1, h2⟩
    have h2 := of_decide_eq_true h2
    subst h2
    obtain ⟨h3, y, h4, h5, -⟩ := (hi x).1 h1
    exact ⟨h3, x.index, y, h4, h5⟩
  · rintro ⟨h1, i, y, h2, h3⟩
    have : ∃ z, contentOf y = some z := by
      cases y with
      | leaf l v =>
        cases v with
        | none => simp [Node.hasValue, leafHasValue] at h3
        | some v => exact ⟨_, rfl⟩
      | struct => exact ⟨_, rfl⟩
      | aos => exact ⟨_, rfl⟩
    obtain ⟨z, hz⟩ := this
    exact ⟨⟨p, i, z⟩, (hi _).2 ⟨h1, y, h2, h3, hz⟩, by simp⟩

theorem kept_hasItem (ht : TypedF c m) (hk : KeepsArrays m keep) {p : Path} (hp : keep p = true) {y : Meta}
    (hy : metaAt (.struct m) p = some y) (hn : ¬ IsStruct y) (h : HasItem c p) : HasItem (pruneFields keep [] c) p := by
  obtain ⟨i, x, h1, h2⟩ := h
  refine ⟨i, _, (kept_look hk ht hp).2 ⟨x, h1, rfl⟩, ?_⟩
  obtain ⟨z, h4, h5, -⟩ := look_typed _ [] ht h1
  rw [hy] at h4
  cases h4
  cases x with
  | leaf l v => simpa [pruneNode, hp] using h2
  | aos m' e => simpa [pruneNode, hp, Node.hasValue, prune_length] using h2
  | struct d => cases y <;> simp_all [Typed, IsStruct]

/-- A variable of the data set. -/
structure XVarOk (fill : BaseType → S) (tx : Texts) (N : NcMeta) (hom : Bool) (m : MFields) (own : Path → List Dim) (c : Fields (Arr S))
    (sizes : List (NcDim × Nat)) (filled : Path → Bool) (p : Path) (l : LeafMeta) (v : XVar S) : Prop where
  dims : v.dims = N.getDims hom p
  data : DataOk c p ((aroundDims m own p).map (szOf sizes)) ((own p).map (szOf sizes)) (fill l.type) v.data
  doc : v.documentation = tx.documentation p
  units : v.units = nonempty (tx.units p)
  coords : v.coordinates = nonempty ((N.getCoords hom p).filter filled)

theorem allXVars_ok (fill : BaseType → S) (tx : Texts) (ht : TypedF c m) (hk : KeepsArrays m keep) (hi : KeptItems keep c items)
    {sizes : List (NcDim × Nat)} (hs : Sized m N hom own (pruneFields keep [] c) sizes) : ∀ {sps : List (Path × Sparsity)},
    (∀ x ∈ sps, (keep x.1 = true ∧ HasItem c x.1) ∧ PathOk m own (pruneFields keep [] c) sizes x.1 x.2) → (sps.map (·.1)).Nodup →
    ∃ vars, allXVars fill tx N hom m sizes items sps = .ok vars ∧ (vars.map (·.1)).Nodup ∧
      (∀ p, p ∈ vars.map (·.1) ↔ p ∈ sps.map (·.1) ∧ ∃ l, metaAt (.struct m) p = some (.leaf l)) ∧
      ∀ x ∈ vars, ∃ l, metaAt (.struct m) x.1 = some (.leaf l) ∧
        XVarOk fill tx N hom m own (pruneFields keep [] c) sizes (fun q => items.any (·.path = q)) x.1 l x.2
  | [], _, _ => ⟨[], rfl, by simp, by simp, by simp⟩
  | (p, sp) :: r, h, hn => by
    rw [List.map_cons, List.nodup_cons] at hn
    obtain ⟨vars, h1, h2, h3, h4⟩ := allXVars_ok (sps := r) fill tx ht hk hi hs (fun x hx => h x (by simp [hx])) hn.2
    obtain ⟨⟨hkp, hit⟩, hp, y, hy, -, hsh⟩ := h (p, sp) (by simp)
    simp only at hp hy hsh hit hkp hn
    rw [allXVars, metaOf_eq _ _ hp, hy]
    cases y with
    | leaf l =>
      obtain ⟨i0, x0, hx0, hv0⟩ := kept_hasItem ht hk hkp hy id hit
      obtain ⟨h5, -, h6⟩ := tensorized (fill l.type) hs hy (kept_itemsOk ht hk hi hy id) hx0 ((look_filled hs hy id hx0).2 hv0) (hsh id)
      obtain ⟨a, h7, h8⟩ := h6 (itemsAt items p) sp.isShapes (fun x hx => hx) (fun x hx => ⟨x, hx, rfl⟩) (by
        intro hsp
        cases sp <;> simp [Sparsity.isShapes] at hsp ⊢)
      simp only [makeXVar, h5, h7, h1]
      refine ⟨_, rfl, ?_, ?_, ?_⟩
      · rw [List.map_cons, List.nodup_cons]
        refine ⟨?_, h2⟩
        intro hm
        exact hn.1 ((h3 p).1 hm).1
      · intro q
        rw [List.map_cons, List.mem_cons, List.map_cons, List.mem_cons, h3]
        constructor
        · rintro (rfl | ⟨h9, h10⟩)
          · exact ⟨.inl rfl, l, hy⟩
          · exact ⟨.inr h9, h10⟩
        · rintro ⟨rfl | h9, h10⟩
          · exact .inl rfl
          · exact .inr ⟨h9, h10⟩
      · intro x hx
        rcases List.mem_cons.1 hx with rfl | hx
        · exact ⟨l, hy, rfl, h8, rfl, rfl, rfl⟩
        · exact h4 x hx
    | struct d =>
      refine ⟨vars, h1, h2, ?_, h4⟩
      intro q
      rw [h3, List.map_cons, List.mem_cons]
      constructor
      · rintro ⟨h5, h6⟩; exact ⟨.inr h5, h6⟩
      · rintro ⟨rfl | h5, l, h6⟩
        · rw [hy] at h6; cases h6
        · exact ⟨h5, l, h6⟩
    | aos d =>
      refine ⟨vars, h1, h2, ?_, h4⟩
      intro q
      rw [h3, List.map_cons, List.mem_cons]
      constructor
      · rintro ⟨h5, h6⟩; exact ⟨.inr h5, h6⟩
      · rintro ⟨rfl | h5, l, h6⟩
        · rw [hy] at h6; cases h6
        · exact ⟨h5, l, h6⟩

end

/-! ### Coordinates -/

theorem nodup_fst {A B : Type} : ∀ {l : List (A × B)}, (l.map (·.1)).Nodup → ∀ {a : A} {b b' : B}, (a, b) ∈ l → (a, b') ∈ l → b = b'
  | [], _, _, _, _, h, _ => by simp at h
  | (z, w) :: l, hn, a, b, b', hx, hy => by
    rw [List.map_cons, List.nodup_cons] at hn
    simp only [List.mem_cons, Prod.mk.injEq] at hx hy
    rcases hx with ⟨rfl, rfl⟩ | hx
    · rcases hy with ⟨-, rfl⟩ | hy
      · rfl
      · exact absurd (List.mem_map.2 ⟨_, hy, rfl⟩) hn.1
    · rcases hy with ⟨rfl, rfl⟩ | hy
      · exact absurd (List.mem_map.2 ⟨_, hx, rfl⟩) hn.1
      · exact nodup_fst hn.2 hx hy

theorem popVar_ok {x : Path} : ∀ {vars : List (Path × XVar S)}, (vars.map (·.1)).Nodup → x ∈ vars.map (·.1) →
    ∃ v r, popVar x vars = some (v, r) ∧ (r.map (·.1)).Nodup ∧ (x, v) ∈ vars ∧ ∀ y, y ∈ r ↔ y ∈ vars ∧ y.1 ≠ x
  | [], _, h => by simp at h
  | (k, w) :: vars, hn, h => by
    rw [List.map_cons, List.nodup_cons] at hn
    rw [popVar]
    split
    · rename_i he
      subst he
      refine ⟨w, vars, rfl, hn.2, by simp, ?_⟩
      intro y
      constructor
      · intro hy
        refine ⟨by simp [hy], ?_⟩
        rintro rfl
        exact hn.1 (List.mem_map.2 ⟨y, hy, rfl⟩)
      · rintro ⟨hy, hne⟩
        rcases List.mem_cons.1 hy with rfl | hy
        · exact absurd rfl hne
        · exact hy
    · rename_i he
      rw [List.map_cons, List.mem_cons] at h
      obtain ⟨v, r, h1, h2, h3, h4⟩ := popVar_ok hn.2 (h.resolve_left he)
      simp only [h1]
      refine ⟨v, _, rfl, ?_, by simp [h3], ?_⟩
      · rw [List.map_cons, List.nodup_cons]
        refine ⟨?_, h2⟩
        intro hm
        obtain ⟨y, hy, hy'⟩ := List.mem_map.1 hm
        exact hn.1 (List.mem_map.2 ⟨y, ((h4 y).1 hy).1, hy'⟩)
      · intro y
        rw [List.mem_cons, h4, List.mem_cons]
        constructor
        · rintro (rfl | ⟨h5, h6⟩)
          · exact ⟨.inl rfl, fun e => he e.symm⟩
          · exact ⟨.inr h5, h6⟩
        · rintro ⟨rfl | h5, h6⟩
          · exact .inl rfl
          · exact .inr ⟨h5, h6⟩

theorem moveCoords_ok : ∀ {names : List Path} {vars : List (Path × XVar S)}, names.Nodup → (vars.map (·.1)).Nodup →
    (∀ x ∈ names, x ∈ vars.map (·.1)) →
    ∃ ds, moveCoords names vars = .ok ds ∧ (ds.vars.map (·.1)).Nodup ∧ ds.coords.map (·.1) = names ∧
      (∀ y, y ∈ ds.vars ↔ y ∈ vars ∧ y.1 ∉ names) ∧ ∀ y, y ∈ ds.coords ↔ y ∈ vars ∧ y.1 ∈ names
  | [], vars, _, hv, _ => ⟨_, rfl, hv, rfl, by simp, by simp⟩
  | x :: r, vars, hn, hv, h => by
    rw [List.nodup_cons] at hn
    obtain ⟨v, vars', h1, h2, h3, h4⟩ := popVar_ok hv (h x (by simp))
    obtain ⟨ds, h5, h6, h7, h8, h9⟩ := moveCoords_ok (names := r) (vars := vars') hn.2 h2 (by
      intro y hy
      obtain ⟨z, hz, rfl⟩ := List.mem_map.1 (h y (by simp [hy]))
      refine List.mem_map.2 ⟨z, (h4 z).2 ⟨hz, ?_⟩, rfl⟩
      intro e
      rw [e] at hy
      exact hn.1 hy)
    simp only [moveCoords, h1, h5]
    refine ⟨_, rfl, h6, by simp [h7], ?_, ?_⟩
    · intro y
      simp only [h8, h4, List.mem_cons, not_or, and_assoc]
    · intro y
      simp only [List.mem_cons, h9, h4]
      constructor
      · rintro (rfl | ⟨⟨h10, h11⟩, h12⟩)
        · exact ⟨h3, .inl rfl⟩
        · exact ⟨h10, .inr h12⟩
      · rintro ⟨h10, h11⟩
        by_cases he : y.1 = x
        · left
          obtain ⟨y1, y2⟩ := y
          simp only at he
          subst he
          rw [nodup_fst hv h10 h3]
        · exact .inr ⟨⟨h10, he⟩, h11.resolve_left he⟩

end Verif.Nc
