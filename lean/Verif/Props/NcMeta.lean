import Verif.Lemmas.NcCoord
/-
netCDF dimensions of the nodes of an IDS (C29).
-/
namespace Verif.Props
open Verif.Ids Verif.Nc Verif.NcSpec Verif.TreeSpec
open Verif.ConvertSpec (metaAt)
open Verif.AlSpec (arraysOf)

variable {I : Info} {m : MFields}

/-- How the dimensions of all nodes are made up. `own p` are the dimensions of a node itself. -/
structure Dimensions (I : Info) (m : MFields) (N : NcMeta) (own : Path → List Dim) : Prop where
  /-- As many dimensions as the node has. -/
  rank : ∀ p x, p ≠ [] → metaAt (.struct m) p = some x → (own p).length = rank x
  /-- First those of the arrays of structures around the node. -/
  tuple : ∀ p x, p ≠ [] → metaAt (.struct m) p = some x → ¬ IsStruct x →
    N.getDims false p = (arraysOf m [] p).flatMap own ++ own p
  /-- With homogeneous time all time dimensions are the dimension of the root `time`. -/
  time : ∀ p (T : Dim → Dim), (∀ d, TimeDim I m d → T d = timeDim) → (∀ d, ¬ TimeDim I m d → T d = d) →
    N.getDims true p = (N.getDims false p).map T
  /-- A shared dimension is one dimension of both nodes. -/
  shared : ∀ a b, Shares I m a b → ∃ d, (own a.1)[a.2]? = some d ∧ (own b.1)[b.2]? = some d
  /-- A node that shares its dimension with no other names it. -/
  named : ∀ p i d, Own I m p i d → (own p)[i]? = some d
  /-- Only dimensions that should be are the same. -/
  same : ∀ p i q j, HasDim m p i → HasDim m q j → ((own p)[i]? = (own q)[j]? ↔ Same I m (p, i) (q, j))

theorem own_get {N : NcMeta} {P : Pending} {ut : Ut} (h : Final I m N P ut) (p : Path) (i : Nat) :
    (ownDims ut p)[i]?.map some = dimAt ut p i ∧ ∀ u, dget ut p = some u → (ownDims ut p).length = u.length := by
  have key : ∀ u : List (Option Dim), (∀ i : Nat, u[i]? ≠ some none) → (u.filterMap id).map some = u := by
    intro u
    induction u with
    | nil => simp
    | cons a r ih =>
      intro hu
      cases a with
      | none => exact absurd rfl (hu 0)
      | some d =>
        have := ih fun i => by simpa using hu (i + 1)
        simp [this]
  cases hu : dget ut p with
  | none => simp [ownDims, dimAt, hu]
  | some u =>
    have hk := key u fun i => by
      have := h.named p i
      simpa [dimAt, hu] using this
    simp only [ownDims, hu, Option.getD_some, dimAt, Option.bind_some]
    constructor
    · rw [← List.getElem?_map, hk]
    · rintro _ ⟨⟩
      have := congrArg List.length hk
      simpa using this

theorem own_some {N : NcMeta} {P : Pending} {ut : Ut} (h : Final I m N P ut) {p : Path} {i : Nat} {d : Dim} :
    (ownDims ut p)[i]? = some d ↔ dimAt ut p i = some (some d) := by
  have := (own_get h p i).1
  rw [← this]
  cases (ownDims ut p)[i]? <;> simp

/-- Where the references from a dimension lead to. -/
theorem leads {N : NcMeta} {P : Pending} {ut : Ut} (h : Final I m N P ut) {n : Nat} : ∀ {a : Path × Nat}, Depth P n a →
    ∃ b, dget P b = none ∧ Same I m a b ∧ dimAt ut a.1 a.2 = dimAt ut b.1 b.2 := by
  induction n with
  | zero => intro a ha; exact ⟨a, ha, .refl a, rfl⟩
  | succ n ih =>
    intro a ha
    rcases ha with ha | ⟨t, ha, ht⟩
    · exact ⟨a, ha, .refl a, rfl⟩
    · obtain ⟨b, h1, h2, h3⟩ := ih ht
      have hs := (h.pending a t).1 ha
      exact ⟨b, h1, .trans (.shares hs) h2, (h.shared a t hs).1.trans h3⟩

theorem own_pending {N : NcMeta} {P : Pending} {ut : Ut} (h : Final I m N P ut) {p : Path} {i : Nat} {d : Dim} (ho : Own I m p i d) :
    dget P (p, i) = none := by
  cases hd : dget P (p, i) with
  | none => rfl
  | some b =>
    exfalso
    have hs := (h.pending _ b).1 hd
    cases hs with
    | coordinate _ hr h1 hin =>
      cases ho with
      | inside _ _ h2 hin' _ => rw [h1] at h2; cases h2; exact hin hin'
      | index _ _ _ h2 _ _ => rw [h1] at h2; cases h2
    | sameAs _ hr h1 h2 =>
      cases ho with
      | inside _ _ h3 _ _ => rw [h1] at h3; cases h3
      | index _ _ _ _ h3 _ => rw [h2] at h3; cases h3
    | error _ hb =>
      have : Regular p := by
        cases ho with
        | inside _ hr _ _ _ => exact hr
        | index _ _ hr _ _ _ => exact hr
      exact this ⟨_, hb⟩
    | alternative ha =>
      cases ho with
      | inside _ _ _ _ hn => exact hn _ ha
      | index _ _ _ _ _ hn => exact hn _ ha

/-- What is not shared is named by the node. -/
theorem pending_own {N : NcMeta} {P : Pending} {ut : Ut} (h : Final I m N P ut) {p : Path} {i : Nat} {d : Dim}
    (hp : dget P (p, i) = none) (hd : dimAt ut p i = some (some d)) : Own I m p i d := by
  obtain ⟨t, ht⟩ := (h.makes p i hp d).1 hd
  refine makes_own ht ?_
  intro r ha
  have hone := h.one p r ha
  cases hu : dget ut p with
  | none => rw [hu] at hone; cases hone
  | some u =>
    rw [hu] at hone
    simp only [Option.map_some, Option.some.injEq] at hone
    simp only [dimAt, hu, Option.bind_some] at hd
    have hi := (List.getElem?_eq_some_iff.1 hd).1
    have : i = 0 := by omega
    subst this
    rw [(h.pending (p, 0) (r, 0)).2 (.alternative ha)] at hp
    cases hp

/-- Names differ unless the arrays of structures have the same coordinate in them. -/
theorem own_same {p q : Path} {i j : Nat} {d : Dim} (h : Own I m p i d) (h' : Own I m q j d) : Same I m (p, i) (q, j) := by
  have key := @inside_index m
  have ho := h
  have ho' := h'
  cases h with
  | @inside r o hd hr hc hin ha =>
    generalize hd' : (⟨r, none⟩ : Dim) = d at h' ho ho'
    cases h' with
    | inside hd2 hr2 hc2 hin2 ha2 =>
      cases hd'
      exact .inside ho ho' hin hin2
    | index hx hi hr2 hc2 hs2 ha2 =>
      simp only [Dim.mk.injEq] at hd'
      exact (key hd hin hd'.1 hx hi hd'.2).elim
  | @index x hx hi hr hc hs ha =>
    generalize hd' : (⟨p, indexSuffix m p x i⟩ : Dim) = d at h' ho ho'
    cases h' with
    | inside hd2 hr2 hc2 hin2 ha2 =>
      simp only [Dim.mk.injEq] at hd'
      exact (key hd2 hin2 hd'.1.symm hx hi hd'.2.symm).elim
    | index hx2 hi2 hr2 hc2 hs2 ha2 =>
      simp only [Dim.mk.injEq] at hd'
      obtain ⟨rfl, hd'⟩ := hd'
      rw [hx] at hx2
      cases hx2
      have : i = j := by
        cases x with
        | leaf l =>
          simp only [indexSuffix] at hd'
          simp only [NcSpec.rank] at hi hi2
          split at hd'
          · omega
          · simpa using hd'
        | struct c => simp [rank] at hi
        | aos c => simpa [indexSuffix] using hd'
      subst this
      exact .refl _

theorem dimensions_of {N : NcMeta} {P : Pending} {ut : Ut} (hf : Final I m N P ut) : Dimensions I m N (ownDims ut) := by
  have hlead : ∀ a : Path × Nat, ∃ b, dget P b = none ∧ Same I m a b ∧ dimAt ut a.1 a.2 = dimAt ut b.1 b.2 := by
    intro a
    obtain ⟨n, hn⟩ := hf.depth a
    exact leads hf hn
  have hnamed : ∀ p i d, Own I m p i d → (ownDims ut p)[i]? = some d := by
    intro p i d ho
    rw [own_some hf, hf.makes p i (own_pending hf ho)]
    exact own_makes ho
  have hshared : ∀ a b, Shares I m a b → ∃ d, (ownDims ut a.1)[a.2]? = some d ∧ (ownDims ut b.1)[b.2]? = some d := by
    intro a b hs
    obtain ⟨h1, d, h2⟩ := hf.shared a b hs
    exact ⟨d, (own_some hf).2 (h1.trans h2), (own_some hf).2 h2⟩
  have hrank : ∀ p x, p ≠ [] → metaAt (.struct m) p = some x → (ownDims ut p).length = rank x := by
    intro p x hp hx
    cases hu : dget ut p with
    | some u =>
      rw [(own_get hf p 0).2 u hu]
      obtain ⟨x', -, hx', -, hl⟩ := hf.exist p u hu
      rw [hx] at hx'
      cases hx'
      exact hl
    | none =>
      simp only [ownDims, hu, Option.getD_none, List.filterMap_nil, List.length_nil]
      by_cases hr : rank x = 0
      · exact hr.symm
      · have hs : ¬ IsStruct x := by
          intro hs
          cases x <;> simp [IsStruct, rank] at hs hr
        obtain ⟨u, hu', -⟩ := hf.len p x hp hx hs (.inl hr)
        rw [hu] at hu'
        cases hu'
  refine ⟨hrank, ?_, ?_, hshared, hnamed, ?_⟩
  · intro p x hp hx hs
    unfold NcMeta.getDims
    cases hd : dget N.dims p with
    | some l => simpa [fullDims] using hf.dims p l hd
    | none =>
      by_cases hr : rank x = 0 ∧ arraysOf m [] p = []
      · have := hrank p x hp hx
        rw [hr.1, List.length_eq_zero_iff] at this
        simp [hr.2, this]
      · obtain ⟨u, hu, -⟩ := hf.len p x hp hx hs (by
          by_cases h0 : rank x = 0
          · exact .inr fun h1 => hr ⟨h0, h1⟩
          · exact .inl h0)
        have := (hf.keys p).2 (by rw [hu]; rfl)
        rw [hd] at this
        cases this
  · intro p T h1 h2
    unfold NcMeta.getDims
    cases dget N.dims p with
    | none => rfl
    | some l =>
      simp only [if_true, Bool.false_eq_true, if_false, List.map_inj_left]
      intro d _
      by_cases ht : TimeDim I m d
      · rw [if_pos ((hf.times d).2 ht), h1 d ht]
      · rw [if_neg fun h => ht ((hf.times d).1 h), h2 d ht]
  · intro p i q j hp hq
    constructor
    · intro he
      obtain ⟨x, hx, hi⟩ := hp
      have hl := hrank p x (hasDim_path ⟨x, hx, hi⟩) hx
      have : ∃ d, (ownDims ut p)[i]? = some d := ⟨_, List.getElem?_eq_getElem (by omega)⟩
      obtain ⟨d, hd⟩ := this
      have hd2 := hd
      rw [he] at hd2
      obtain ⟨a, a1, a2, a3⟩ := hlead (p, i)
      obtain ⟨b, b1, b2, b3⟩ := hlead (q, j)
      rw [own_some hf] at hd hd2
      have oa := pending_own hf a1 (a3.symm.trans hd)
      have ob := pending_own hf b1 (b3.symm.trans hd2)
      exact .trans a2 (.trans (own_same oa ob) (.symm b2))
    · intro hs
      have : ∀ a b, Same I m a b → (ownDims ut a.1)[a.2]? = (ownDims ut b.1)[b.2]? := by
        intro a b hs
        induction hs with
        | refl => rfl
        | symm _ ih => exact ih.symm
        | trans _ _ ih ih' => exact ih.trans ih'
        | shares h =>
          obtain ⟨d, h1, h2⟩ := hshared _ _ h
          rw [h1, h2]
        | inside h h' _ _ => rw [hnamed _ _ _ h, hnamed _ _ _ h']
      exact this (p, i) (q, j) hs

/-- C29: for every Data Dictionary: the dimensions of a node are those of the arrays of structures around it (outermost
first) followed by as many as the node has itself; dimensions are the same exactly where the Data Dictionary says so. -/
theorem C29_dimensions (hw : WFMFields m) {fuel : Nat} {N : NcMeta} (h : ncMetadata fuel I m = .ok N) :
    ∃ own, Dimensions I m N own := by
  obtain ⟨P, ut, hf⟩ := final hw h
  exact ⟨_, dimensions_of hf⟩

/-- Which coordinates the nodes have. `own p` are the dimensions of a node itself, `listed p` its coordinates. -/
structure Coordinates (I : Info) (m : MFields) (N : NcMeta) (own : Path → List Dim) (listed : Path → List Path) : Prop where
  /-- First those of the arrays of structures around the node. -/
  tuple : ∀ p x, p ≠ [] → metaAt (.struct m) p = some x → ¬ IsStruct x →
    N.getCoords false p = (arraysOf m [] p).flatMap listed ++ listed p
  /-- Then those of its dimensions for which the Data Dictionary has a coordinate, and the labels of its elements. -/
  listed : ∀ p x, p ≠ [] → metaAt (.struct m) p = some x → ¬ IsStruct x → ∀ c, c ∈ listed p ↔
    (∃ (i : Nat) (d : Dim), (own p)[i]? = some d ∧ I.refs p i ≠ [] ∧ DimCoord I m d c) ∨ Label m p c
  /-- With homogeneous time the root `time` replaces all coordinates that give their name to a time dimension. -/
  time : ∀ p (T : Path → Path), (∀ c, (∃ d, TimeDim I m d ∧ d.path = c) → T c = ["time".toList]) →
    (∀ c, (¬ ∃ d, TimeDim I m d ∧ d.path = c) → T c = c) → N.getCoords true p = (N.getCoords false p).map T

/-- C29: for every Data Dictionary: the coordinates of a variable are those of the arrays of structures around the node,
followed by the coordinates of its own dimensions and the labels of its elements. -/
theorem C29_coordinates (hw : WFMFields m) {fuel : Nat} {N : NcMeta} (h : ncMetadata fuel I m = .ok N) :
    ∃ own listed, Dimensions I m N own ∧ Coordinates I m N own listed := by
  obtain ⟨s, s1, ut, hs⟩ := stages hw h
  have hf := hs.final
  have hdim := dimensions_of hf
  obtain ⟨-, hc⟩ := dim_coords hw hs
  obtain ⟨N0, e1, e2, ht⟩ := hs.tensor
  have hT := tensorizeAll_coords (I := I) hw _ (fun e he => he)
    (⟨fun p hp => (by rw [e1] at hp; simp [dget] at hp), fun p _ => by rw [e2]; rfl⟩ : TensorInv I { s1 with ut := ut } m N0) ht
  -- nodes outside arrays of structures and without dimensions have no coordinates
  have hnone : ∀ p x, p ≠ [] → metaAt (.struct m) p = some x → ¬ IsStruct x → dget N.dims p = none →
      ownDims ut p = [] ∧ arraysOf m [] p = [] ∧ ∃ l, x = .leaf l := by
    intro p x hp hx hns hd
    have hk : dget ut p = none := by
      cases hu : dget ut p with
      | none => rfl
      | some u =>
        have := (hf.keys p).2 (by rw [hu]; rfl)
        rw [hd] at this
        cases this
    have hr : ¬ (rank x ≠ 0 ∨ arraysOf m [] p ≠ []) := by
      intro hr
      obtain ⟨u, hu, -⟩ := hf.len p x hp hx hns hr
      rw [hk] at hu
      cases hu
    have hr0 : rank x = 0 := Decidable.byContradiction fun h0 => hr (.inl h0)
    have ha0 : arraysOf m [] p = [] := Decidable.byContradiction fun h0 => hr (.inr h0)
    refine ⟨by simp [ownDims, hk], ha0, ?_⟩
    cases x with
    | leaf l => exact ⟨l, rfl⟩
    | struct c => exact absurd trivial hns
    | aos c => simp [rank] at hr0
  have hrefs : ∀ p x, p ≠ [] → metaAt (.struct m) p = some x → ¬ IsStruct x →
      ∃ l, refCoords I { s1 with ut := ut } p 0 (ownDims ut p) = .ok l := by
    intro p x hp hx hns
    cases hd : dget N.dims p with
    | none => rw [(hnone p x hp hx hns hd).1]; exact ⟨[], rfl⟩
    | some l => exact (hT.some p (by rw [hd]; rfl)).2
  refine ⟨ownDims ut, ownCoords I { s1 with ut := ut } m, hdim, ?_, ?_, ?_⟩
  · intro p x hp hx hns
    have hg : N.getCoords false p = (dget N.coords p).getD [] := by
      unfold NcMeta.getCoords
      cases dget N.coords p <;> rfl
    rw [hg]
    cases hd : dget N.dims p with
    | some l => exact (hT.some p (by rw [hd]; rfl)).1
    | none =>
      obtain ⟨h1, h2, l, rfl⟩ := hnone p x hp hx hns hd
      rw [hT.none p hd, h2]
      simp [ownCoords, h1, refCoords, hx, labelsFor]
  · intro p x hp hx hns c
    obtain ⟨l, hl⟩ := hrefs p x hp hx hns
    have hm := refCoords_mem (x := c) _ _ hl
    simp only [Nat.zero_add] at hm
    have : ownCoords I { s1 with ut := ut } m p = l ++ labelsFor p x := by
      unfold ownCoords
      simp only [hl, hx]
    rw [this, List.mem_append, hm, mem_labels hx]
    apply or_congr _ Iff.rfl
    constructor
    · rintro ⟨j, d, g1, g2, k, g3, g4⟩
      exact ⟨j, d, g1, g2, (hc d k g3 c).1 g4⟩
    · rintro ⟨j, d, g1, g2, g3⟩
      obtain ⟨k, hk⟩ := refCoords_some _ _ hl j d g1 (by rwa [Nat.zero_add])
      exact ⟨j, d, g1, g2, k, hk, (hc d k hk c).2 g3⟩
  · intro p T h1 h2
    unfold NcMeta.getCoords
    cases dget N.coords p with
    | none => rfl
    | some l =>
      simp only [if_true, Bool.false_eq_true, if_false, List.map_inj_left]
      intro c _
      by_cases hc : ∃ d, TimeDim I m d ∧ d.path = c
      · rw [h1 c hc, if_pos]
        · rfl
        · obtain ⟨d, hd, rfl⟩ := hc
          exact List.mem_map.2 ⟨d, (hf.times d).2 hd, rfl⟩
      · rw [h2 c hc, if_neg]
        intro hm
        obtain ⟨d, hd, rfl⟩ := List.mem_map.1 hm
        exact hc ⟨d, (hf.times d).1 hd, rfl⟩

/-- C29: if there are no circular references (and no longer chains of references than nested calls are allowed), resolving
them ends. -/
theorem C29_terminates (hw : WFMFields m) {fuel : Nat} (f : Path × Nat → Nat) (hf : ∀ a b, Shares I m a b → f b < f a)
    (hn : ∀ a, f a < fuel) : ncMetadata fuel I m ≠ .error .circular := noCircular hw f hf hn

/-- C29: circular references are never accepted. -/
theorem C29_acyclic (hw : WFMFields m) {fuel : Nat} {N : NcMeta} (h : ncMetadata fuel I m = .ok N) (a : Path × Nat) :
    ¬ Relation.TransGen (Shares I m) a a := by
  obtain ⟨P, ut, hf⟩ := final hw h
  have first : ∀ {a b : Path × Nat}, Relation.TransGen (Shares I m) a b →
      ∃ t, Shares I m a t ∧ (t = b ∨ Relation.TransGen (Shares I m) t b) := by
    intro a b h
    induction h with
    | single h => exact ⟨_, h, .inl rfl⟩
    | tail _ h ih =>
      obtain ⟨t, h1, h2 | h2⟩ := ih
      · subst h2; exact ⟨_, h1, .inr (.single h)⟩
      · exact ⟨t, h1, .inr (.tail h2 h)⟩
  have key : ∀ (n : Nat) (a : Path × Nat), Depth P n a → ¬ Relation.TransGen (Shares I m) a a := by
    intro n
    induction n with
    | zero =>
      intro a ha hc
      obtain ⟨t, h1, -⟩ := first hc
      have := (hf.pending a t).2 h1
      rw [show dget P a = none from ha] at this
      cases this
    | succ n ih =>
      intro a ha hc
      obtain ⟨t, h1, h2⟩ := first hc
      have hp := (hf.pending a t).2 h1
      rcases ha with ha | ⟨t', ha, hd⟩
      · rw [ha] at hp; cases hp
      · rw [ha] at hp
        cases hp
        rcases h2 with h2 | h2
        · subst h2; exact ih _ hd hc
        · exact ih _ hd (.tail h2 h1)
  obtain ⟨n, hn⟩ := hf.depth a
  exact key n a hn

/-! ### Examples -/

def ncName (s : String) : Name := s.toList

def ncLeaf (t : BaseType) (n : Nat) : Meta := .leaf ⟨t, n, false⟩

/-- `time`, an array of structures `profile` with its own time inside, data in it on the grid `rho` or `psi`, error bars, and
data with the dimensions of other data. -/
def ncMeta : MFields :=
  .cons (ncName "time") (ncLeaf .flt 1) <|
  .cons (ncName "profile") (.aos <|
    .cons (ncName "time") (ncLeaf .flt 0) <|
    .cons (ncName "rho") (ncLeaf .flt 1) <|
    .cons (ncName "psi") (ncLeaf .flt 1) <|
    .cons (ncName "n") (ncLeaf .flt 1) <|
    .cons (ncName "n_error_upper") (ncLeaf .flt 1) <|
    .cons (ncName "t") (ncLeaf .flt 2) .nil) <|
  .cons (ncName "ip") (ncLeaf .flt 1) .nil

def ncInfo : Info where
  refs p _ :=
    if p = [ncName "profile"] then [[ncName "profile", ncName "time"]]
    else if p = [ncName "profile", ncName "n"] then [[ncName "profile", ncName "rho"], [ncName "profile", ncName "psi"]]
    else if p = [ncName "ip"] then [[ncName "time"]]
    else []
  time p _ := p = [ncName "profile"]
  sameAs p i := if p = [ncName "profile", ncName "t"] ∧ i = 0 then [[ncName "profile", ncName "n"]] else []
  alternative _ := []

def ncDimsOf (homogeneous : Bool) (p : List String) : Option (List Dim) :=
  match ncMetadata 10 ncInfo ncMeta with
  | .error _ => none
  | .ok N => some (N.getDims homogeneous (p.map ncName))

/-- The hypotheses of `C29_dimensions` and `C29_acyclic` are met, and these are the dimensions. -/
example : WFMFields ncMeta ∧ (∃ N, ncMetadata 10 ncInfo ncMeta = .ok N) ∧
    ncDimsOf false ["profile", "n_error_upper"] =
      some [⟨[ncName "profile", ncName "time"], none⟩, ⟨[ncName "profile", ncName "rho"], some 0⟩] ∧
    ncDimsOf false ["profile", "t"] = some [⟨[ncName "profile", ncName "time"], none⟩,
      ⟨[ncName "profile", ncName "rho"], some 0⟩, ⟨[ncName "profile", ncName "t"], some 1⟩] ∧
    ncDimsOf true ["profile", "psi"] = some [timeDim, ⟨[ncName "profile", ncName "rho"], some 0⟩] ∧
    ncDimsOf false ["ip"] = some [timeDim] := by
  refine ⟨?_, ?_, ?_, ?_, ?_, ?_⟩
  · simp only [WFMFields, WFMeta, ncMeta, ncLeaf, mnames]
    decide +kernel
  · have h : (match ncMetadata 10 ncInfo ncMeta with
      | .error _ => false
      | .ok _ => true) = true := by decide +kernel
    revert h
    cases ncMetadata 10 ncInfo ncMeta with
    | error => intro h; cases h
    | ok N => intro _; exact ⟨N, rfl⟩
  all_goals decide +kernel

def ncCoordsOf (homogeneous : Bool) (p : List String) : Option (List Path) :=
  match ncMetadata 10 ncInfo ncMeta with
  | .error _ => none
  | .ok N => some (N.getCoords homogeneous (p.map ncName))

/-- The coordinates in the same case. -/
example : ncCoordsOf false ["profile", "n"] = some [[ncName "profile", ncName "time"], [ncName "profile", ncName "rho"],
      [ncName "profile", ncName "psi"]] ∧
    ncCoordsOf true ["profile", "n"] = some [[ncName "time"], [ncName "profile", ncName "rho"], [ncName "profile", ncName "psi"]] ∧
    ncCoordsOf false ["ip"] = some [[ncName "time"]] := by
  refine ⟨?_, ?_, ?_⟩ <;> decide +kernel

def ncSmall : MFields := .cons (ncName "time") (ncLeaf .flt 1) (.cons (ncName "ip") (ncLeaf .flt 1) .nil)

/-- The hypotheses of `C29_terminates` are met: `ip` refers to `time`. -/
example : WFMFields ncSmall ∧ (Shares ncInfo ncSmall ([ncName "ip"], 0) ([ncName "time"], 0)) ∧
    ∃ f : Path × Nat → Nat, (∀ a b, Shares ncInfo ncSmall a b → f b < f a) ∧ ∀ a, f a < 2 := by
  have hdim : ∀ p i, HasDim ncSmall p i → p = [ncName "time"] ∨ p = [ncName "ip"] := by
    rintro p i ⟨x, hx, hi⟩
    cases p with
    | nil =>
      simp only [metaAt, Option.some.injEq] at hx
      subst hx
      simp [rank] at hi
    | cons n r =>
      simp only [metaAt, ncSmall, Verif.ConvertSpec.child, Verif.ConvertSpec.mchild, ncLeaf] at hx
      split at hx
      · rename_i hn
        cases r with
        | nil => exact .inl (by rw [hn])
        | cons => simp [metaAt, Verif.ConvertSpec.child] at hx
      · split at hx
        · rename_i hn
          cases r with
          | nil => exact .inr (by rw [hn])
          | cons => simp [metaAt, Verif.ConvertSpec.child] at hx
        · cases hx
  have hip : ([ncName "ip"] : Path) ≠ [ncName "profile"] := by decide +kernel
  have hip2 : ([ncName "ip"] : Path) ≠ [ncName "profile", ncName "n"] := by decide +kernel
  have ht : ∀ i, ncInfo.refs [ncName "time"] i = [] := by
    intro i
    simp only [ncInfo]
    rw [if_neg (by decide +kernel), if_neg (by decide +kernel), if_neg (by decide +kernel)]
  have hi : ∀ i, ncInfo.refs [ncName "ip"] i = [[ncName "time"]] := by
    intro i
    simp only [ncInfo]
    rw [if_neg hip, if_neg hip2, if_pos trivial]
  have hs : ∀ p i, HasDim ncSmall p i → ncInfo.sameAs p i = [] := by
    intro p i h
    simp only [ncInfo]
    rw [if_neg]
    rintro ⟨rfl, -⟩
    rcases hdim _ _ h with h | h
    · revert h; decide +kernel
    · revert h; decide +kernel
  refine ⟨?_, ?_, fun a => if a.1 = [ncName "ip"] then 1 else 0, ?_, ?_⟩
  · simp only [WFMFields, WFMeta, ncSmall, ncLeaf, mnames]
    decide +kernel
  · refine .coordinate ⟨ncLeaf .flt 1, rfl, by decide +kernel⟩ (regular_iff.2 (by decide +kernel)) (hi 0) ?_
    rw [inside_iff]
    decide +kernel
  · intro a b h
    have hne : ([ncName "time"] : Path) ≠ [ncName "ip"] := by decide +kernel
    cases h with
    | coordinate hd hr h hin =>
      rcases hdim _ _ hd with rfl | rfl
      · rw [ht] at h; cases h
      · rw [hi] at h
        cases h
        simp [hne]
    | sameAs hd hr h0 h => rw [hs _ _ hd] at h; cases h
    | error hd h =>
      rcases hdim _ _ hd with rfl | rfl
      · rw [← errorBase_iff, show errorBase [ncName "time"] = none by decide +kernel] at h; cases h
      · rw [← errorBase_iff, show errorBase [ncName "ip"] = none by decide +kernel] at h; cases h
    | alternative h =>
      cases h with
      | coordinate hd hr h hin ha =>
        rcases hdim _ _ hd with rfl | rfl
        · rw [ht] at h; cases h
        · rw [hi] at h
          cases h
          simp at ha
      | node hd hr ha => simp [ncInfo] at ha
  · intro a
    simp only
    split <;> omega

end Verif.Props
