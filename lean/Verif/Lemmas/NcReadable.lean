import Verif.Lemmas.NcCheck
import Verif.Lemmas.NcRound
import Verif.Spec.NcReadable
/-
Valid netCDF groups can be read.
-/
namespace Verif.Nc
open Verif.Ids Verif.TreeSpec Verif.NcSpec
open Verif.ConvertSpec (mchild child metaAt)
open Verif.AlSpec (arraysOf IsDataPath)

set_option linter.unusedSectionVars false
variable {S : Type} [DecidableEq S]
variable {R : Reader S} {hom : Bool} {own : Path → List Dim}

theorem fits_get : ∀ {i s : List Nat}, i.length ≤ s.length → (∀ k j n : Nat, i[k]? = some j → s[k]? = some n → j < n) → fits i s = true
  | [], _, _, _ => rfl
  | _ :: _, [], h, _ => by simp at h
  | a :: i, b :: s, h, hk => by
    simp only [fits, Bool.and_eq_true, decide_eq_true_eq]
    refine ⟨hk 0 a b rfl rfl, fits_get (by simpa using h) fun k j n h1 h2 => hk (k + 1) j n (by simpa using h1) (by simpa using h2)⟩

/-- The reader without conversion, and the facts about its group. -/
structure Plain (R : Reader S) (hom : Bool) (own : Path → List Dim) : Prop where
  same : R.target = R.stored
  map : R.map = none
  layout : Layout R.stored R.N hom own
  names : NamesOk R.group
  fit : DataFits R.group
  arrays : ArraysFit R.stored R.N hom R.group
  valid : ∀ p v, dget R.group.vars p = some v → ∃ y, metaAt (.struct R.stored) p = some y ∧
    ValidVar R.stored R.N R.tx R.group hom p y v

theorem Plain.link (hp : Plain R hom own) : targetOf R.map = some := by rw [hp.map]; rfl

theorem Plain.aligned (hp : Plain R hom own) : Aligned R.stored R.target (targetOf R.map) := by
  rw [hp.link, hp.same]; exact aligned_refl

/-- The last dimension of an array of structures is its own. -/
theorem Plain.last (hp : Plain R hom own) {a : Path} {c : MFields} (h : metaAt (.struct R.stored) a = some (.aos c)) (ha : a ≠ []) :
    ∃ d, own a = [d] ∧ (R.N.getDims hom a).getLast? = some d := by
  have h1 := hp.layout.rank a _ ha h
  simp only [rank] at h1
  obtain ⟨d, hd⟩ := List.length_eq_one_iff.1 h1
  refine ⟨d, hd, ?_⟩
  rw [hp.layout.tuple a ⟨_, h, by rintro _ ⟨⟩⟩, hd]
  simp

/-- Sizes that are read are at most the size of the dimension. -/
theorem Plain.size_le (hp : Plain R hom own) {a : Path} {c : MFields} (h : metaAt (.struct R.stored) a = some (.aos c)) (ha : a ≠ [])
    {v : Var S} (hv : dget R.group.vars a = some v) {i : List Nat} {n k : Nat} (hn : readSize R hom a a v i = .ok n) {d : Dim}
    (hd : own a = [d]) (hk : dget R.group.dims (.dd d) = some k) : n ≤ k := by
  obtain ⟨d', hd', hl⟩ := hp.last h ha
  rw [hd] at hd'
  cases hd'
  unfold readSize at hn
  split at hn
  · rename_i hs
    split at hn
    · cases hn
    · rename_i s hs'
      split at hn
      · cases hn
      · rename_i x hx
        cases hn
        cases hsub : s.data.sub i with
        | none => rw [hsub] at hx; cases hx
        | some b =>
          rw [hsub] at hx
          simp only [Option.bind_some] at hx
          unfold Arr.sub at hsub
          split at hsub
          · cases hsub
            exact (hp.arrays a c v d h hv hl).2 hs s i n k hs' hx hk
          · cases hsub
  · rw [hl] at hn
    simp only [hk] at hn
    cases hn
    exact Nat.le_refl _

/-- While reading, indices of nodes are in the dimensions of the arrays of structures around them. -/
theorem Plain.index (hp : Plain R hom own) {D : List (Path × Bool)} {t : Fields (Arr S)} (hi : EagerInv R hom D t) {p : Path} {i : List Nat}
    {x : Node (Arr S)} (hx : look t p i = some x) : i.length = (arraysOf R.stored [] p).length ∧
      ∀ (k : Nat) (j : Nat) (a : Path) (d : Dim) (n : Nat), i[k]? = some j → (arraysOf R.stored [] p)[k]? = some a → own a = [d] →
        dget R.group.dims (.dd d) = some n → j < n := by
  have hty : TypedF t R.stored := by have := hi.typed; rwa [hp.same] at this
  obtain ⟨-, -, -, hlen⟩ := look_typed p [] hty hx
  refine ⟨hlen, fun k j a d n hj ha hd hn => ?_⟩
  obtain ⟨a', m', e, j', h1, h2, h3, h4⟩ := look_arrays p [] hty hx k a ha
  rw [List.nil_append] at h1
  subst h1
  rw [hj] at h3
  cases h3
  obtain ⟨c, hc⟩ := aos_meta hty h2
  have hne : a ≠ [] := by rintro rfl; simp [look] at h2
  by_cases hq : (a, false) ∈ D
  · obtain ⟨v, -, hv, -, hr⟩ := hi.read a _ _ h2 a hq ⟨_, hc, by rintro _ ⟨⟩⟩ (by rw [hp.link])
    have := hp.size_le hc hne hv hr hd hn
    omega
  · have := hi.unset a _ _ h2 (by
      intro p' hp' _ hpq
      rw [hp.link] at hpq
      cases hpq
      exact hq hp')
    simp only [Unset] at this
    omega

/-- Such indices fit to data with the dimensions of the arrays of structures, and perhaps more. -/
theorem Plain.fits (hp : Plain R hom own) {D : List (Path × Bool)} {t : Fields (Arr S)} (hi : EagerInv R hom D t) {p : Path} {i : List Nat}
    {x : Node (Arr S)} (hx : look t p i = some x) {dims : List NcDim} {shape : List Nat} {more : List NcDim}
    (h1 : dims = ((arraysOf R.stored [] p).flatMap own).map .dd ++ more) (h2 : dims.map (dget R.group.dims) = shape.map some) :
    fits i shape = true ∧ shape.length = i.length + more.length := by
  obtain ⟨hlen, hb⟩ := hp.index hi hx
  obtain ⟨f1, f2⟩ := flatMap_one (f := own) (l := arraysOf R.stored [] p) fun _ h => ownAos hp.layout h
  have hl : shape.length = i.length + more.length := by
    have := congrArg List.length h2
    rw [h1] at this
    simp only [List.length_map, List.length_append] at this
    omega
  refine ⟨fits_get (by omega) ?_, hl⟩
  intro k j n hj hn
  have hk : k < (arraysOf R.stored [] p).length := by
    rw [← hlen]
    exact (List.getElem?_eq_some_iff.1 hj).1
  obtain ⟨a, ha⟩ : ∃ a, (arraysOf R.stored [] p)[k]? = some a := ⟨_, List.getElem?_eq_getElem hk⟩
  obtain ⟨d, hd⟩ := ownAos hp.layout (List.mem_of_getElem? ha)
  refine hb k j a d n hj ha hd ?_
  have h3 : dims[k]? = some (.dd d) := by
    rw [h1, List.getElem?_append_left (by simp [f1, hk]), List.getElem?_map, (f2 k d).2 ⟨a, ha, hd⟩]
    rfl
  have h4 : (dims.map (dget R.group.dims))[k]? = (shape.map some)[k]? := by rw [h2]
  rw [List.getElem?_map, List.getElem?_map, h3, hn] at h4
  simpa using h4

/-- The dimensions of `:shape` variables. -/
theorem Plain.around (hp : Plain R hom own) {p : Path} :
    (match (arraysOf R.stored [] p).getLast? with
      | none => []
      | some a => (R.N.getDims hom a).map NcDim.dd) = ((arraysOf R.stored [] p).flatMap own).map .dd := by
  cases h : (arraysOf R.stored [] p).getLast? with
  | none => rw [List.getLast?_eq_none_iff.1 h]; rfl
  | some a =>
    simp only
    obtain ⟨t, h1, h2, h3, c, h4⟩ := arrays_last R.stored p [] a h
    rw [List.nil_append] at h1
    subst h1
    rw [hp.layout.tuple a ⟨_, h4, by rintro _ ⟨⟩⟩, h2]
    simp

/-- The `:shape` variable of a sparse variable with dimensions, at the index of a node. -/
theorem Plain.shapeAt (hp : Plain R hom own) {D : List (Path × Bool)} {t : Fields (Arr S)} (hi : EagerInv R hom D t) {p : Path} {i : List Nat}
    {x : Node (Arr S)} (hx : look t p i = some x) {y : Meta} {v : Var S} (hv : ValidVar R.stored R.N R.tx R.group hom p y v)
    (hs : v.sparse = true) (hr : NcSpec.rank y ≠ 0) :
    ∃ s b, dget R.group.shapes p = some s ∧ s.data.sub i = some b ∧ b.shape = [NcSpec.rank y] := by
  obtain ⟨s, d, h1, h2, h3, -⟩ := hv.sparse hs hr
  have h2 : s.dims = ((arraysOf R.stored [] p).flatMap own).map .dd ++ [d] := by
    rw [h2]
    congr 1
    exact hp.around
  have hf := hp.fit.shapes p s h1
  obtain ⟨h4, h5⟩ := hp.fits hi hx h2 hf
  refine ⟨s, _, h1, by rw [Arr.sub, dif_pos h4], ?_⟩
  simp only
  have h6 : s.data.shape.length = i.length + 1 := by simpa using h5
  have h7 : s.data.shape[i.length]? = some (NcSpec.rank y) := by
    have h8 : (s.dims.map (dget R.group.dims))[i.length]? = (s.data.shape.map some)[i.length]? := by rw [hf]
    have h9 : s.dims[i.length]? = some d := by
      rw [h2, List.getElem?_append_right]
      · have := (flatMap_one (f := own) (l := arraysOf R.stored [] p) fun _ h => ownAos hp.layout h).1
        rw [List.length_map, this, ← (hp.index hi hx).1]
        simp
      · have := (flatMap_one (f := own) (l := arraysOf R.stored [] p) fun _ h => ownAos hp.layout h).1
        rw [List.length_map, this, ← (hp.index hi hx).1]
        exact Nat.le_refl _
    rw [List.getElem?_map, List.getElem?_map, h9] at h8
    simp only [Option.map_some, h3] at h8
    cases h10 : s.data.shape[i.length]? with
    | none => rw [h10] at h8; cases h8
    | some z => rw [h10] at h8; simpa using h8.symm
  obtain ⟨h8, h9⟩ := List.getElem?_eq_some_iff.1 h7
  rw [List.drop_eq_getElem_cons h8, h9, List.drop_eq_nil_of_le (by omega)]

/-- Nodes can be read. -/
theorem Plain.node (hp : Plain R hom own) {D : List (Path × Bool)} {t : Fields (Arr S)} (hi : EagerInv R hom D t) {p : Path} {i : List Nat}
    {x : Node (Arr S)} (hx : look t p i = some x) {y : Meta} {v : Var S} (hy : metaAt (.struct R.stored) p = some y)
    (hv : dget R.group.vars p = some v) (hval : ValidVar R.stored R.N R.tx R.group hom p y v) :
    ∃ w, readNode R hom p y v i x = .ok w := by
  have hne : p ≠ [] := by rintro rfl; simp [look] at hx
  have hty : TypedF t R.stored := by have := hi.typed; rwa [hp.same] at this
  obtain ⟨y', hy', htx, -⟩ := look_typed p [] hty hx
  rw [hy] at hy'
  cases hy'
  cases y with
  | struct d => exact ⟨x, rfl⟩
  | aos c =>
    cases x <;> simp only [Typed] at htx
    rename_i m' e
    have hsz : ∃ n, readSize R hom p p v i = .ok n := by
      obtain ⟨d, hd, hl⟩ := hp.last hy hne
      unfold readSize
      cases hs : v.sparse with
      | true =>
        obtain ⟨s, b, h1, h2, h3⟩ := hp.shapeAt hi hx hval hs (by simp [NcSpec.rank])
        simp only [if_true, h1, h2, Option.bind_some]
        have : (b.get [0]).isSome = true := by rw [b.ok, h3]; simp [NcSpec.rank, inside]
        obtain ⟨z, hz⟩ := Option.isSome_iff_exists.1 this
        exact ⟨z, by simp [hz]⟩
      | false =>
        have h1 := (hp.arrays p c v d hy hv hl).1 hs
        simp only [Bool.false_eq_true, if_false, hl]
        cases h2 : dget R.group.dims (.dd d) with
        | none => exact absurd h2 h1
        | some n => exact ⟨n, rfl⟩
    obtain ⟨n, hn⟩ := hsz
    exact ⟨_, by simp only [readNode, hn, resizeNode]; rfl⟩
  | leaf l =>
    cases x <;> simp only [Typed] at htx
    rename_i l' w0
    have hdp : IsDataPath R.stored p := ⟨_, hy, by rintro _ ⟨⟩⟩
    have hown : (own p).length = l.ndim := hp.layout.rank p _ hne hy
    have hdims : v.dims = ((arraysOf R.stored [] p).flatMap own).map .dd ++ (own p).map .dd := by
      rw [hval.dims l rfl, hp.layout.tuple p hdp, List.map_append]
    obtain ⟨h1, h2⟩ := hp.fits hi hx hdims (hp.fit.vars p v hv)
    rw [List.length_map, hown] at h2
    have hval' : ∃ w, readValue R (R.N.aos p).isNone p l v i = .ok w := by
      unfold readValue
      cases hs : v.sparse with
      | true =>
        simp only [if_true]
        by_cases h0 : l.ndim = 0
        · rw [if_pos h0]
          rw [Arr.sub, dif_pos h1]
          simp only
          have : (v.data.get (i ++ [])).isSome = true := by
            rw [v.data.ok, inside_append, h1, List.drop_eq_nil_of_le (by omega)]
            rfl
          obtain ⟨z, hz⟩ := Option.isSome_iff_exists.1 this
          simp only [hz]
          exact ⟨_, rfl⟩
        · rw [if_neg h0]
          obtain ⟨s, b, h3, h4, h5⟩ := hp.shapeAt hi hx hval hs (by simpa [NcSpec.rank] using h0)
          simp only [h3, h4]
          have h6 : vecList b = some ((List.range l.ndim).map fun i => (b.get [i]).getD 0) := by
            unfold vecList
            rw [h5]
            rfl
          simp only [h6]
          split
          · exact ⟨_, rfl⟩
          · rw [Arr.slice, dif_pos ⟨h1, by simp; omega⟩]
            exact ⟨_, rfl⟩
      | false =>
        simp only [Bool.false_eq_true, if_false]
        split
        · rename_i hw
          have h3 := hp.layout.aos p _ hne hy
          rw [h3] at hw
          have h4 : arraysOf R.stored [] p = [] := by simpa using hw
          have h5 := (hp.index hi hx).1
          rw [h4] at h5
          rw [if_pos (by simp at h5; simp [h5] at h2; omega)]
          exact ⟨_, rfl⟩
        · rw [Arr.sub, dif_pos h1]
          exact ⟨_, rfl⟩
    obtain ⟨w, hw⟩ := hval'
    exact ⟨_, by simp only [readNode, hw, setLeaf]; rfl⟩

theorem Plain.readVar (hp : Plain R hom own) {D : List (Path × Bool)} {t : Fields (Arr S)} (hi : EagerInv R hom D t) {x : Path × Bool}
    (hx : x ∈ R.group.names) : ∃ t', readVar R hom t x = .ok t' := by
  obtain ⟨p, b⟩ := x
  cases b with
  | true => exact ⟨t, rfl⟩
  | false =>
    obtain ⟨v, hv⟩ := dget_of_name (mem_names.1 hx)
    obtain ⟨y, hy, hval⟩ := hp.valid p v hv
    have hne : p ≠ [] := names_ne hp.names _ hx
    have hmo : metaOf R.stored p = some y := by rw [metaOf_eq _ _ hne, hy]
    have hty : TypedF t R.stored := by have := hi.typed; rwa [hp.same] at this
    have hm := mapPath_success (f := readNode R hom p y v) (i0 := []) hty hne hy fun i x hx => by
      rw [List.nil_append]; exact hp.node hi hx hy hv hval
    simp only [Nc.readVar]
    rw [hmo, hv, hp.link, hp.same]
    cases y with
    | struct d => exact ⟨t, rfl⟩
    | aos d => simp only [hmo]; exact hm
    | leaf l => simp only [hmo]; exact hm

theorem Plain.readVars (hp : Plain R hom own) : ∀ {L D : List (Path × Bool)} {t : Fields (Arr S)}, EagerInv R hom D t →
    D ++ L = R.group.names → ∃ t', readVars R hom L t = .ok t'
  | [], D, t, _, _ => ⟨t, rfl⟩
  | x :: L, D, t, hi, he => by
    have hx : x ∈ R.group.names := by rw [← he]; simp
    obtain ⟨t1, h1⟩ := hp.readVar hi hx
    have hnd := names_nodup hp.names
    have hso : R.group.names.Pairwise NameLe := sortNames_sorted _
    rw [← he] at hnd hso
    have hxD : x ∉ D := by
      intro hx
      rw [List.nodup_append] at hnd
      exact hnd.2.2 x hx x (by simp) rfl
    have hne := names_ne hp.names x hx
    have hi1 := readVar_ok (R := R) hp.aligned hi hxD (fun p k r e => by
      subst e
      exact sorted_before hne hso) h1
    obtain ⟨t', ht'⟩ := hp.readVars (L := L) hi1 (by simpa using he)
    exact ⟨t', by simp only [Nc.readVars, h1]; exact ht'⟩

/-- Everything can be read. -/
theorem Plain.all (hp : Plain R hom own) : ∃ c, Nc.readVars R hom R.group.names R.target.fresh = .ok c :=
  hp.readVars (D := []) (eager_start R hom) rfl

end Verif.Nc
