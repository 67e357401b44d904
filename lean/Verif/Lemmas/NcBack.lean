import Verif.Lemmas.NcWrite
/-
Reading a netCDF group that was written.
-/
namespace Verif.Nc
open Verif.Ids Verif.TreeSpec Verif.NcSpec
open Verif.ConvertSpec (mchild child metaAt)
open Verif.AlSpec (arraysOf IsDataPath)

set_option linter.unusedSectionVars false
variable {S : Type} [DecidableEq S]
variable {m : MFields} {N : NcMeta} {hom : Bool} {own : Path → List Dim} {c : Fields (Arr S)} {sizes : List (NcDim × Nat)}
variable {sc : Scalars S} {tx : Texts} {g : Group S}

/-- Reading the group in the same Data Dictionary version. -/
def backReader (sc : Scalars S) (tx : Texts) (N : NcMeta) (m : MFields) (g : Group S) : Reader S where
  sc := sc
  tx := tx
  N := N
  stored := m
  target := m
  map := none
  group := g

theorem none_of {T : Type} {o : Option T} (h : o.isSome = false) : o = none := by
  cases o with
  | none => rfl
  | some => simp at h

theorem sub_eq {T : Type} {a b : Arr T} {i A F : List Nat} (ha : a.shape = A ++ F) (hi : inside i A = true) (hb : b.shape = F)
    (h : ∀ j, inside j F = true → a.get (i ++ j) = b.get j) : a.sub i = some b := by
  have hf : fits i a.shape = true := by rw [ha]; exact fits_append F hi
  rw [Arr.sub, dif_pos hf]
  congr 1
  apply Arr.ext'
  · simp only [ha, hb]; exact drop_inside F hi
  · intro j
    simp only
    by_cases hj : inside j F = true
    · exact h j hj
    · have h1 : (b.get j).isSome = false := by rw [b.ok, hb]; simpa using hj
      have h2 : (a.get (i ++ j)).isSome = false := by rw [a.ok, ha, inside_split hi]; simpa using hj
      rw [none_of h1, none_of h2]

theorem clip_leq : ∀ {s n : List Nat}, Arr.leq s n = true → Arr.clip s n = s
  | [], [], _ => rfl
  | [], _ :: _, h => by simp [Arr.leq] at h
  | _ :: _, [], h => by simp [Arr.leq] at h
  | a :: s, b :: n, h => by
    simp only [Arr.leq, Bool.and_eq_true, decide_eq_true_eq] at h
    simp only [Arr.clip, clip_leq h.2, Nat.min_eq_left h.1]

theorem inside_leq : ∀ {i s n : List Nat}, inside i s = true → Arr.leq s n = true → inside i n = true
  | [], [], [], _, _ => rfl
  | [], [], _ :: _, _, h => by simp [Arr.leq] at h
  | [], _ :: _, _, h, _ => by simp [inside] at h
  | _ :: _, [], _, h, _ => by simp [inside] at h
  | _ :: _, _ :: _, [], _, h => by simp [Arr.leq] at h
  | j :: i, a :: s, b :: n, h, h' => by
    simp only [Arr.leq, inside, Bool.and_eq_true, decide_eq_true_eq] at h h' ⊢
    exact ⟨by omega, inside_leq h.2 h'.2⟩

theorem slice_eq {T : Type} {a b : Arr T} {i A F : List Nat} (ha : a.shape = A ++ F) (hi : inside i A = true)
    (hb : Arr.leq b.shape F = true) (h : ∀ j, inside j b.shape = true → a.get (i ++ j) = b.get j) : a.slice i b.shape = some b := by
  have hd : a.shape.drop i.length = F := by rw [ha]; exact drop_inside F hi
  have hf : fits i a.shape = true ∧ b.shape.length ≤ (a.shape.drop i.length).length :=
    ⟨by rw [ha]; exact fits_append F hi, by rw [hd, (leq_iff.1 hb).1]; exact Nat.le_refl _⟩
  rw [Arr.slice, dif_pos hf]
  congr 1
  apply Arr.ext'
  · simp only [hd, clip_leq hb]
  · intro j
    simp only [hd, clip_leq hb]
    split
    · rename_i hj; exact h j hj
    · rename_i hj
      have h1 : (b.get j).isSome = false := by rw [b.ok]; simpa using hj
      rw [none_of h1]

theorem get_getD {T : Type} {v : Arr T} {j : List Nat} {d : T} (h : inside j v.shape = true) : some ((v.get j).getD d) = v.get j := by
  have := v.ok j
  rw [h] at this
  obtain ⟨x, hx⟩ := Option.isSome_iff_exists.1 this
  simp [hx]

theorem inside_both : ∀ {i A j B : List Nat}, i.length = A.length → inside (i ++ j) (A ++ B) = true → inside i A = true ∧ inside j B = true
  | [], [], _, _, _, h => ⟨rfl, h⟩
  | [], _ :: _, _, _, h, _ => by simp at h
  | _ :: _, [], _, _, h, _ => by simp at h
  | a :: i, b :: A, j, B, hl, h => by
    simp only [List.cons_append, inside, Bool.and_eq_true, decide_eq_true_eq] at h ⊢
    obtain ⟨h1, h2⟩ := inside_both (by simpa using hl) h.2
    exact ⟨⟨h.1, h1⟩, h2⟩

/-- What a node with a value shows. -/
theorem norm_filled {l : LeafMeta} {w : Option (Arr S)} : (Filled (Node.leaf l w) → ∃ v, w = some v ∧ w.filter (fun x => !Value.isEmpty x) = some v) ∧
    (¬ Filled (Node.leaf l w) → w.filter (fun x => !Value.isEmpty x) = none) := by
  cases w with
  | none => simp [Filled]
  | some v => cases h : Value.isEmpty v <;> simp [Filled, h, Option.filter]

theorem gap_of (hs : Sized m N hom own c sizes) {p : Path} (hd : IsDataPath m p) (ho : own p = []) {i : List Nat}
    (hi : inside i ((aroundDims m own p).map (szOf sizes)) = true) (hn : ∀ x, look c p i = some x → ¬ Filled x) :
    Gap (N.getDims hom) c p := by
  have hdims : N.getDims hom p = aroundDims m own p := by rw [hs.layout.tuple p hd, ho, List.append_nil]; rfl
  rw [inside_get] at hi
  refine ⟨i, by rw [hdims, hi.1]; simp, ?_, hn⟩
  intro k j d hj hk
  rw [hdims] at hk
  have := hi.2 k j (szOf sizes d) hj (by rw [List.getElem?_map, hk]; rfl)
  have hm := hs.max d
  unfold szOf at this
  cases hz : dget sizes (.dd d) with
  | none => rw [hz] at this; simp at this
  | some n => rw [hz] at this hm; exact ⟨n, hm.1, this⟩

/-- What is read for a node. -/
theorem back_read (hs : Sized m N hom own c sizes) (hg : Written sc tx N hom m own c sizes g) (hst : Storable sc (N.getDims hom) c)
    {p : Path} {v : Var S} (hv : dget g.vars p = some v) {i : List Nat} {x : Node (Arr S)} (hx : look c p i = some x) :
    match x with
    | .struct _ => True
    | .aos _ e => readSize (backReader sc tx N m g) hom p p v i = .ok e.length
    | .leaf l w => readValue (backReader sc tx N m g) (N.aos p).isNone p l v i = .ok (w.filter fun x => !Value.isEmpty x) := by
  obtain ⟨sp, y, ⟨hp, y1, hy1, -, hsh⟩, ⟨y2, hy2, hvar⟩, hy, hshape, hpseudo⟩ := hg.var p v hv
  rw [hy] at hy1 hy2
  cases hy1
  cases hy2
  obtain ⟨y3, hy3, htx, hlen⟩ := look_typed p [] hs.typed hx
  rw [hy] at hy3
  cases hy3
  have hrank := hs.layout.rank p y hp hy
  obtain ⟨ha, hi⟩ := index_inside hs hx
  cases x with
  | struct d => trivial
  | aos m' e =>
    cases y with
    | leaf => simp [Typed] at htx
    | struct => simp [Typed] at htx
    | aos d =>
      have hdp : IsDataPath m p := ⟨_, hy, by rintro _ ⟨⟩⟩
      have hok := hsh id
      simp only at hvar ⊢
      simp only [NcSpec.rank] at hrank
      obtain ⟨d0, hd0⟩ := List.length_eq_one_iff.1 hrank
      have hdims : N.getDims hom p = aroundDims m own p ++ [d0] := by rw [← hd0]; exact hs.layout.tuple p hdp
      cases sp with
      | missing =>
        have := hok.1
        rw [hd0] at this
        simp at this
      | dense =>
        obtain ⟨x', h1, h2, h3⟩ := hok i hi
        rw [hx] at h1
        cases h1
        simp only [extent, hd0, List.map_cons, List.map_nil, List.cons.injEq, and_true] at h3
        have hk := own_known hs hx h2 d0 (by rw [hd0]; simp)
        rw [readSize, hvar]
        simp only [varAttrs, Bool.false_eq_true, if_false, backReader, hdims, List.getLast?_append, List.getLast?_singleton,
          Option.some_or, hg.dims]
        obtain ⟨n, hn⟩ := Option.isSome_iff_exists.1 hk
        simp only [hn, h3, szOf, Option.getD_some]
      | shapes a =>
        obtain ⟨h1, h2, h3⟩ := hok
        have hF : ((own p).map (szOf sizes)).length = 1 := by simp [hrank]
        obtain ⟨h4, h5⟩ := h3 i hi
        rw [readSize, hvar]
        simp only [varAttrs, if_true, backReader]
        simp only at hshape
        rw [hshape]
        simp only [shapeVar]
        have hget : a.get (i ++ [0]) = some e.length := by
          by_cases hf : Filled (Node.aos m' e)
          · rw [h4 _ hx hf 0 (by omega)]
            rfl
          · rw [h5 (by intro x' hx'; rw [hx] at hx'; cases hx'; exact hf) 0 (by omega)]
            simp only [Filled, ne_eq, Classical.not_not] at hf
            rw [hf]
        rw [hF] at h2
        rw [Arr.sub, dif_pos (by rw [h2]; exact fits_append _ hi)]
        simp only [Option.bind_some, hget]
  | leaf l w =>
    cases y with
    | aos => simp [Typed] at htx
    | struct => simp [Typed] at htx
    | leaf l' =>
      simp only [Typed] at htx
      subst htx
      have hdp : IsDataPath m p := ⟨_, hy, by rintro _ ⟨⟩⟩
      have hok := hsh id
      simp only at hvar ⊢
      simp only [NcSpec.rank] at hrank
      obtain ⟨a, hda, hvar⟩ := hvar
      obtain ⟨hn1, hn2⟩ := norm_filled (l := l) (w := w)
      cases sp with
      | dense =>
        obtain ⟨x', h1, h2, h3⟩ := hok i hi
        rw [hx] at h1
        cases h1
        obtain ⟨u, rfl, hu⟩ := hn1 h2
        rw [hu]
        simp only [extent] at h3
        have hget : ∀ j, inside j ((own p).map (szOf sizes)) = true → a.get (i ++ j) = u.get j := by
          intro j hj
          rw [hda.filled i l u hi hx h2 j hj]
          exact get_getD (by rw [h3]; exact hj)
        rw [readValue, hvar]
        simp only [varAttrs, Bool.false_eq_true, if_false]
        split
        · rename_i hwh
          have harr : arraysOf m [] p = [] := by
            rw [hs.layout.aos p _ hp hy] at hwh
            simpa using hwh
          have hA0 : aroundDims m own p = [] := by simp [aroundDims, harr]
          have hi0 : i = [] := List.length_eq_zero_iff.1 (by rw [hlen, harr]; rfl)
          subst hi0
          have hsh' := hda.shape
          rw [hA0] at hsh'
          simp only [List.map_nil, List.nil_append] at hsh'
          have hal : a.shape.length = l.ndim := by rw [hsh']; simp [hrank]
          simp only [hal, if_true]
          congr 2
          apply Arr.ext'
          · rw [hsh', h3]
          · intro j
            by_cases hj : inside j ((own p).map (szOf sizes)) = true
            · exact hget j hj
            · have h1 : (u.get j).isSome = false := by rw [u.ok, h3]; simpa using hj
              have h2 : (a.get j).isSome = false := by rw [a.ok, hsh']; simpa using hj
              rw [none_of h1, none_of h2]
        · rw [sub_eq hda.shape hi h3 hget]
      | missing =>
        obtain ⟨hF, ig, hig, hno⟩ := hok
        have hown : own p = [] := by simpa using hF
        have hnd : l.ndim = 0 := by rw [hown] at hrank; exact hrank.symm
        have hgap := gap_of hs hdp hown hig hno
        obtain ⟨hc1, hc2⟩ := hst p hgap i l w hx hnd
        have hshape' := hda.shape
        rw [hF] at hshape'
        rw [readValue, hvar]
        simp only [varAttrs, if_true, hnd]
        by_cases hf : Filled (Node.leaf l w)
        · obtain ⟨u, rfl, hu⟩ := hn1 hf
          have hus : u.shape = [] := List.length_eq_zero_iff.1 (by rw [hs.ranks p i l u hx, hnd])
          have hget := hda.filled i l u hi hx hf [] (by rw [hF]; rfl)
          rw [get_getD (by rw [hus]; rfl)] at hget
          rw [sub_eq (F := []) (b := u) hshape' hi hus (by
            intro j hj
            have : j = [] := List.length_eq_zero_iff.1 (by simpa using inside_length hj)
            subst this
            exact hget)]
          have hs0 : (u.get []).isSome = true := by rw [u.ok, hus]; rfl
          obtain ⟨z, hz⟩ := Option.isSome_iff_exists.1 hs0
          rw [hu]
          simp only [hz]
          by_cases hcx : l.type = .cpx
          · simp only [hcx, if_true]
            simp
          · have := hc2 hcx u rfl
            rw [hz] at this
            simp only [hcx, if_false, this]
        · rw [hn2 hf]
          have hw0 : w = none := by
            cases w with
            | none => rfl
            | some u =>
              exfalso
              apply hf
              have hus : u.shape = [] := List.length_eq_zero_iff.1 (by rw [hs.ranks p i l u hx, hnd])
              simp [Filled, Value.isEmpty, hus]
          have hcx : l.type ≠ .cpx := fun h => hc1 h hw0
          have hget := hda.unset i hi (by intro x' hx'; rw [hx] at hx'; cases hx'; exact hf) [] (by rw [hF]; rfl)
          rw [sub_eq (F := []) (b := Arr.scalar (sc.fill l.type)) hshape' hi rfl (by
            intro j hj
            have : j = [] := List.length_eq_zero_iff.1 (by simpa using inside_length hj)
            subst this
            exact hget)]
          simp [Arr.scalar, hcx]
      | shapes b =>
        obtain ⟨h1, h2, h3⟩ := hok
        have hF : ((own p).map (szOf sizes)).length = l.ndim := by simp [hrank]
        have hnd : l.ndim ≠ 0 := by
          intro h0
          apply h1
          exact List.length_eq_zero_iff.1 (by omega)
        obtain ⟨h4, h5⟩ := h3 i hi
        rw [hF] at h2 h4 h5
        simp only at hshape
        rw [readValue, hvar]
        simp only [varAttrs, if_true, hnd, if_false, backReader, hshape, shapeVar]
        by_cases hf : Filled (Node.leaf l w)
        · obtain ⟨u, rfl, hu⟩ := hn1 hf
          rw [hu]
          have hul := hs.ranks p i l u hx
          rw [sub_eq (b := Arr.vec u.shape) h2 hi (by simp [Arr.vec, hul]) (by
            intro j hj
            match j, hj with
            | [], hj => simp [inside] at hj
            | [k], hj =>
              simp only [inside, Bool.and_true, decide_eq_true_eq] at hj
              rw [h4 _ hx hf k hj]
              rfl
            | _ :: _ :: _, hj => simp [inside] at hj)]
          have hvl : vecList (Arr.vec u.shape) = some u.shape := by
            simp only [vecList, Arr.vec, Option.some.injEq]
            apply List.ext_getElem?
            intro k
            by_cases hk : k < u.shape.length
            · simp [hk]
            · simp [hk]
          simp only [hvl]
          have hnz : u.shape.contains 0 = false := by
            simp only [Filled, Value.isEmpty] at hf
            exact hf
          rw [hnz]
          simp only [Bool.false_eq_true, if_false]
          rw [slice_eq hda.shape hi (extent_leq hs hx hf) (by
            intro j hj
            rw [hda.filled i l u hi hx hf j (inside_leq hj (extent_leq hs hx hf))]
            exact get_getD hj)]
        · rw [hn2 hf]
          rw [sub_eq (b := Arr.full [l.ndim] 0) h2 hi rfl (by
            intro j hj
            match j, hj with
            | [], hj => simp [inside] at hj
            | [k], hj =>
              have hk : k < l.ndim := by simpa [inside] using hj
              rw [h5 (by intro x' hx'; rw [hx] at hx'; cases hx'; exact hf) k hk]
              simp [Arr.full, hj]
            | _ :: _ :: _, hj => simp [inside] at hj)]
          have hvl : vecList (Arr.full [l.ndim] 0) = some (List.replicate l.ndim 0) := by
            simp only [vecList, Arr.full, Option.some.injEq]
            apply List.ext_getElem?
            intro k
            by_cases hk : k < l.ndim
            · simp [hk, inside]
            · simp [hk, inside]
          simp only [hvl]
          have : (List.replicate l.ndim 0).contains 0 = true := by
            simp [hnd]
          rw [this]
          simp

end Verif.Nc
