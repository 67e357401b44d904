import Verif.Lemmas.NcResolve
/-
The dimensions `NCMetadata` gives to the nodes of an IDS.
-/
namespace Verif.Nc
open Verif.Ids Verif.NcSpec Verif.TreeSpec
open Verif.ConvertSpec (metaAt)
open Verif.AlSpec (arraysOf)

/-! ### Tensorize -/

/-- The dimensions of a node itself. -/
def ownDims (ut : Ut) (p : Path) : List Dim := ((dget ut p).getD []).filterMap id

def fullDims (ut : Ut) (m : MFields) (p : Path) : List Dim := (arraysOf m [] p).flatMap (ownDims ut) ++ ownDims ut p

/-- What is known about the nodes that are visited. -/
def Known (m : MFields) (e : Entry) : Prop := ∃ x, EntryOk [] none 0 m e e.path x

theorem tensorizeOne_ok {I : Info} {s : Parse} {m : MFields} {e : Entry} {u : List (Option Dim)} {N N' : NcMeta}
    (hm : Known m e) (hu : dget s.ut e.path = some u) (hN : ∀ p l, dget N.dims p = some l → l = fullDims s.ut m p)
    (hr : tensorizeOne I s e u N = .ok N') :
    N'.times = N.times ∧ ∀ p, dget N'.dims p = if p = e.path then some (fullDims s.ut m p) else dget N.dims p := by
  obtain ⟨x, -, -, -, -, -, -, hpar, -⟩ := hm
  simp only [Option.or_none] at hpar
  have hown : ownDims s.ut e.path = u.filterMap id := by simp [ownDims, hu]
  unfold tensorizeOne at hr
  simp only at hr
  split at hr
  · cases hr
  · rename_i d c hd
    have hd' : d = (arraysOf m [] e.path).flatMap (ownDims s.ut) := by
      cases ha : e.parent with
      | none =>
        rw [ha] at hd hpar
        cases hd
        rw [List.getLast?_eq_none_iff.1 hpar.symm]
        rfl
      | some a =>
        rw [ha] at hd hpar
        simp only at hd
        cases hg : dget N.dims a with
        | none => rw [hg] at hd; cases hd
        | some l =>
          rw [hg] at hd
          simp only [Option.map_some, Option.some.injEq, Prod.mk.injEq] at hd
          rw [← hd.1, hN a l hg]
          obtain ⟨t, rfl, h2, -⟩ := arrays_last m e.path [] a hpar.symm
          rw [h2]
          simp [fullDims]
    split at hr
    · cases hr
    · cases hr
      refine ⟨rfl, ?_⟩
      intro p
      simp only [dget_dset]
      split
      · rename_i e; subst e
        rw [fullDims, hown, hd']
      · rfl

theorem tensorizeAll_ok {I : Info} {s : Parse} {m : MFields} : ∀ (r : List Entry) {N N' : NcMeta},
    (∀ e ∈ r, Known m e) → (∀ p l, dget N.dims p = some l → l = fullDims s.ut m p) → tensorizeAll I s r N = .ok N' →
    N'.times = N.times ∧ (∀ p l, dget N'.dims p = some l → l = fullDims s.ut m p) ∧
      ∀ p, (dget N'.dims p).isSome ↔ (dget N.dims p).isSome ∨ ∃ e ∈ r, e.path = p ∧ (dget s.ut p).isSome
  | [], N, N', _, hN, hr => by
    simp only [tensorizeAll, Except.ok.injEq] at hr
    subst hr
    exact ⟨rfl, hN, by simp⟩
  | e :: r, N, N', hm, hN, hr => by
    unfold tensorizeAll at hr
    split at hr
    · rename_i hu
      obtain ⟨h1, h2, h3⟩ := tensorizeAll_ok r (fun e he => hm e (by simp [he])) hN hr
      refine ⟨h1, h2, ?_⟩
      intro p
      rw [h3]
      apply or_congr Iff.rfl
      constructor
      · rintro ⟨e', he, h⟩; exact ⟨e', by simp [he], h⟩
      · rintro ⟨e', he, h, h'⟩
        rcases List.mem_cons.1 he with he | he
        · subst he; subst h
          rw [hu] at h'; cases h'
        · exact ⟨e', he, h, h'⟩
    · rename_i u hu
      split at hr
      · cases hr
      · rename_i N1 h0
        obtain ⟨g1, g2⟩ := tensorizeOne_ok (hm e (by simp)) hu hN h0
        obtain ⟨h1, h2, h3⟩ := tensorizeAll_ok r (fun e he => hm e (by simp [he])) (by
          intro p l hl
          rw [g2] at hl
          split at hl
          · cases hl; rfl
          · exact hN p l hl) hr
        refine ⟨h1.trans g1, h2, ?_⟩
        intro p
        rw [h3, g2]
        constructor
        · rintro (h | ⟨e', he, h⟩)
          · split at h
            · rename_i e'; subst e'
              exact .inr ⟨e, by simp, rfl, by rw [hu]; rfl⟩
            · exact .inl h
          · exact .inr ⟨e', by simp [he], h⟩
        · rintro (h | ⟨e', he, h, h'⟩)
          · left
            split
            · rfl
            · exact h
          · rcases List.mem_cons.1 he with he | he
            · subst he; subst h
              left; simp
            · exact .inr ⟨e', he, h, h'⟩

/-! ### From the nodes visited to the Data Dictionary -/

section
variable {I : Info} {m : MFields}

theorem inside_iff {q p : Path} : Inside q p ↔ isAncestorOf p q = true := by
  simp only [Inside, isAncestorOf, Bool.and_eq_true, decide_eq_true_eq, beq_iff_eq]
  constructor
  · rintro ⟨n, r, rfl⟩
    simp
  · rintro ⟨h1, h2⟩
    have := List.take_append_drop p.length q
    rw [h2] at this
    cases hd : q.drop p.length with
    | nil =>
      have h3 := congrArg List.length hd
      simp at h3
      omega
    | cons n r => exact ⟨n, r, by rw [← hd, this]⟩

theorem walk_known (hw : WFMFields m) {e : Entry} (he : e ∈ walkFields [] none 0 m) : Known m e := by
  obtain ⟨q, x, h⟩ := walk_ok m [] none 0 e hw he
  have : e.path = q := by simpa using h.2.1
  subst this
  exact ⟨x, h⟩

theorem walk_entry (hw : WFMFields m) {p : Path} {x : Meta} (hp : p ≠ []) (hx : metaAt (.struct m) p = some x) :
    ∃ e ∈ walkFields [] none 0 m, e.path = p ∧ EntryOk [] none 0 m e p x := by
  obtain ⟨e, he, h⟩ := walk_complete m [] none 0 p x hp hx
  have : e.path = p := by simpa using h
  subst this
  obtain ⟨y, hy⟩ := walk_known hw he
  have := hy.2.2.1
  rw [hx] at this
  cases this
  exact ⟨e, he, rfl, hy⟩

theorem hasDim_entry (hw : WFMFields m) {p : Path} {i : Nat} (h : HasDim m p i) :
    ∃ e ∈ walkFields [] none 0 m, ∃ x, e.path = p ∧ EntryOk [] none 0 m e p x ∧ i < e.ndim ∧ e.kind ≠ .struct := by
  obtain ⟨x, hx, hi⟩ := h
  have hp : p ≠ [] := by
    rintro rfl
    simp only [metaAt, Option.some.injEq] at hx
    subst hx
    simp [rank] at hi
  obtain ⟨e, he, h1, h2⟩ := walk_entry hw hp hx
  refine ⟨e, he, x, h1, h2, by rw [h2.2.2.2.1]; exact hi, ?_⟩
  intro hk
  have := h2.2.2.2.2.1.1 hk
  cases x <;> simp [IsStruct, rank] at this hi

theorem entry_hasDim {e : Entry} (h : Known m e) {i : Nat} (hi : i < e.ndim) : HasDim m e.path i := by
  obtain ⟨x, -, -, hx, hn, -⟩ := h
  exact ⟨x, hx, by omega⟩

theorem planOf_ref {e : Entry} {i : Nat} {q : Path} {k : Nat} {o : List Path} :
    planOf I e i = .ok (.ref q k o) ↔
      (I.refs e.path i = q :: o ∧ ¬ Inside q e.path ∧ k = 0) ∨ (I.refs e.path i = [] ∧ I.sameAs e.path i = [q] ∧ k = i ∧ o = []) := by
  unfold planOf
  cases hr : I.refs e.path i with
  | cons main others =>
    simp only
    split
    · rename_i ha
      constructor
      · intro h; cases h
      · rintro (⟨h, h', -⟩ | ⟨h, -⟩)
        · cases h; exact absurd (inside_iff.2 ha) h'
        · cases h
    · rename_i ha
      constructor
      · intro h; cases h
        exact .inl ⟨rfl, fun h => ha (inside_iff.1 h), rfl⟩
      · rintro (⟨h, h', rfl⟩ | ⟨h, -⟩)
        · cases h; rfl
        · cases h
  | nil =>
    simp only
    cases hs : I.sameAs e.path i with
    | nil => simp
    | cons a r =>
      cases r with
      | nil =>
        simp only [Except.ok.injEq, Plan.ref.injEq, List.cons.injEq, and_true]
        constructor
        · rintro ⟨rfl, rfl, rfl⟩; exact .inr ⟨trivial, rfl, rfl, rfl⟩
        · rintro (⟨h, -⟩ | ⟨-, rfl, rfl, rfl⟩)
          · cases h
          · exact ⟨rfl, rfl, rfl⟩
      | cons b r => simp

theorem altBy_iff (hw : WFMFields m) {a q : Path} : AltBy I (walkFields [] none 0 m) a q ↔ Alternative I m a q := by
  constructor
  · rintro ⟨e, he, hk, hn, hb, ⟨i, k, o, hi, hp, ha⟩ | ⟨rfl, ha⟩⟩
    · rcases planOf_ref.1 hp with ⟨h1, h2, -⟩ | ⟨-, -, -, rfl⟩
      · exact .coordinate (entry_hasDim (walk_known hw he) hi) (regular_iff.2 hb) h1 h2 ha
      · simp at ha
    · exact .node (entry_hasDim (walk_known hw he) (by omega)) (regular_iff.2 hb) ha
  · intro h
    cases h with
    | coordinate hd hr h hin ha =>
      obtain ⟨e, he, x, rfl, h1, h2, h3⟩ := hasDim_entry hw hd
      exact ⟨e, he, h3, by omega, regular_iff.1 hr, .inl ⟨_, 0, _, h2, planOf_ref.2 (.inl ⟨h, hin, rfl⟩), ha⟩⟩
    | node hd hr ha =>
      obtain ⟨e, he, x, rfl, h1, h2, h3⟩ := hasDim_entry hw hd
      exact ⟨e, he, h3, by omega, regular_iff.1 hr, .inr ⟨rfl, ha⟩⟩

/-- The pending references before they are resolved. -/
theorem pending_iff (hw : WFMFields m) {s s1 : Parse} (h : ParseInv I (walkFields [] none 0 m) s)
    (h1 : MergeInv s (fun q a => AltBy I (walkFields [] none 0 m) a q) s1) (a b : Path × Nat) :
    dget s1.pending a = some b ↔ Shares I m a b := by
  constructor
  · intro hd
    rcases h1.new a b hd with h2 | ⟨q, p, h2, rfl, rfl⟩
    · obtain ⟨p, i⟩ := a
      obtain ⟨q, k⟩ := b
      obtain ⟨e, he, hk, rfl, hi, o, hp⟩ := h.pend' p i _ h2
      have hdim := entry_hasDim (walk_known hw he) hi
      cases hb : errorBase e.path with
      | some base =>
        simp only [planFor, hb, Except.ok.injEq, Plan.ref.injEq] at hp
        obtain ⟨rfl, rfl, -⟩ := hp
        exact .error hdim (errorBase_iff.1 hb)
      | none =>
        simp only [planFor, hb] at hp
        rcases planOf_ref.1 hp with ⟨h3, h4, rfl⟩ | ⟨h3, h4, rfl, -⟩
        · exact .coordinate hdim (regular_iff.2 hb) h3 h4
        · exact .sameAs hdim (regular_iff.2 hb) h3 h4
    · exact .alternative ((altBy_iff hw).1 h2)
  · intro hs
    cases hs with
    | @coordinate p i q others hd hr hc hin =>
      obtain ⟨e, he, x, rfl, h2, h3, h4⟩ := hasDim_entry hw hd
      have hr : errorBase e.path = none := regular_iff.1 hr
      apply h1.keep
      refine h.pend e he h4 _ h3 _ _ others ?_
      rw [planFor, hr]
      exact planOf_ref.2 (.inl ⟨hc, hin, rfl⟩)
    | sameAs hd hr h0 hc =>
      obtain ⟨e, he, x, rfl, h2, h3, h4⟩ := hasDim_entry hw hd
      have hr : errorBase e.path = none := regular_iff.1 hr
      apply h1.keep
      refine h.pend e he h4 _ h3 _ _ [] ?_
      rw [planFor, hr]
      exact planOf_ref.2 (.inr ⟨h0, hc, rfl, rfl⟩)
    | error hd hb =>
      have hb := errorBase_iff.2 hb
      obtain ⟨e, he, x, rfl, h2, h3, h4⟩ := hasDim_entry hw hd
      apply h1.keep
      refine h.pend e he h4 _ h3 _ _ [] ?_
      rw [planFor, hb]
    | alternative ha => exact h1.merged _ _ ((altBy_iff hw).2 ha)

/-- A dimension a node makes. -/
inductive Makes (I : Info) (m : MFields) : Path → Nat → Dim → Bool → Prop
  | inside {p : Path} {i : Nat} {q : Path} {others : List Path} (hd : HasDim m p i) (hr : Regular p)
      (h : I.refs p i = q :: others) (hin : Inside q p) : Makes I m p i ⟨q, none⟩ (I.time p i)
  | index {p : Path} {i : Nat} {x : Meta} (hx : metaAt (.struct m) p = some x) (hi : i < rank x) (hr : Regular p)
      (h : I.refs p i = []) (h' : I.sameAs p i = []) :
      Makes I m p i ⟨p, indexSuffix m p x i⟩ (decide (p.getLast? = some ['t', 'i', 'm', 'e']))

theorem suffix_eq {e : Entry} {p : Path} {x : Meta} (h : EntryOk [] none 0 m e p x) {i : Nat} (hi : i < e.ndim) :
    (if e.level + e.ndim ≠ 1 || e.kind = .aos then some i else none) = indexSuffix m p x i := by
  obtain ⟨-, -, -, hn, hs, ha, -, hl⟩ := h
  rw [hn] at hi ⊢
  rw [hl]
  cases x with
  | leaf l =>
    have : e.kind ≠ .aos := fun h => by obtain ⟨c, hc⟩ := ha.1 h; cases hc
    simp only [rank] at hi
    simp only [indexSuffix, rank, Nat.zero_add, this, decide_false, Bool.or_false, decide_eq_true_eq, ne_eq]
    by_cases h0 : arraysOf m [] p = []
    · simp only [h0, List.length_nil, Nat.zero_add, true_and]
      by_cases h1 : l.ndim = 1 <;> simp [h1]
    · have : (arraysOf m [] p).length ≠ 0 := by simpa using h0
      rw [if_pos (by omega), if_neg (by simp [h0])]
  | struct c => simp [rank] at hi
  | aos c =>
    have : e.kind = .aos := ha.2 ⟨c, rfl⟩
    simp [indexSuffix, this]

theorem planFor_own (hw : WFMFields m) {e : Entry} (he : e ∈ walkFields [] none 0 m) {i : Nat} (hi : i < e.ndim) {d : Dim}
    {t : Bool} {c : List Path} (h : planFor I e i = .ok (.own d t c)) : Makes I m e.path i d t := by
  obtain ⟨x, hx⟩ := walk_known hw he
  have hdim := entry_hasDim (walk_known hw he) hi
  cases hb : errorBase e.path with
  | some base => simp [planFor, hb] at h
  | none =>
    simp only [planFor, hb] at h
    unfold planOf at h
    cases hr : I.refs e.path i with
    | cons main others =>
      rw [hr] at h
      simp only at h
      split at h
      · rename_i ha
        cases h
        exact .inside hdim (regular_iff.2 hb) hr (inside_iff.2 ha)
      · cases h
    | nil =>
      rw [hr] at h
      simp only at h
      cases hs : I.sameAs e.path i with
      | nil =>
        rw [hs] at h
        simp only [Except.ok.injEq, Plan.own.injEq] at h
        obtain ⟨rfl, rfl, -⟩ := h
        rw [suffix_eq hx hi]
        exact .index hx.2.2.1 (by rw [← hx.2.2.2.1]; exact hi) (regular_iff.2 hb) hr hs
      | cons a r =>
        rw [hs] at h
        cases r with
        | nil => cases h
        | cons b r => cases h

theorem makes_plan (hw : WFMFields m) {p : Path} {i : Nat} {d : Dim} {t : Bool} (h : Makes I m p i d t) :
    ∃ e ∈ walkFields [] none 0 m, e.kind ≠ .struct ∧ e.path = p ∧ i < e.ndim ∧ ∃ c, planFor I e i = .ok (.own d t c) := by
  cases h with
  | inside hd hr hc hin =>
    obtain ⟨e, he, x, rfl, h1, h2, h3⟩ := hasDim_entry hw hd
    have hr : errorBase e.path = none := regular_iff.1 hr
    refine ⟨e, he, h3, rfl, h2, ?_⟩
    rw [planFor, hr]
    simp only [planOf, hc]
    rw [if_pos (inside_iff.1 hin)]
    exact ⟨_, rfl⟩
  | index hx hi hr hc hs =>
    obtain ⟨e, he, x, rfl, h1, h2, h3⟩ := hasDim_entry hw ⟨_, hx, hi⟩
    have hr : errorBase e.path = none := regular_iff.1 hr
    have hx' := h1.2.2.1
    rw [hx] at hx'
    cases hx'
    refine ⟨e, he, h3, rfl, h2, ?_⟩
    rw [planFor, hr]
    simp only [planOf, hc, hs, suffix_eq h1 h2]
    exact ⟨_, rfl⟩

theorem makes_time {d : Dim} : TimeDim I m d ↔ ∃ p i, Makes I m p i d true := by
  constructor
  · intro h
    cases h with
    | inside hd hr h hin ht =>
      have := Makes.inside hd hr h hin
      rw [ht] at this
      exact ⟨_, _, this⟩
    | index hx hi hr h h' ht =>
      have := Makes.index hx hi hr h h'
      rw [decide_eq_true (show _ = some ['t', 'i', 'm', 'e'] from ht)] at this
      exact ⟨_, _, this⟩
  · rintro ⟨p, i, h⟩
    generalize ht : true = t at h
    cases h with
    | inside hd hr h hin => exact .inside hd hr h hin ht.symm
    | index hx hi hr h h' => exact .index hx hi hr h h' (of_decide_eq_true ht.symm)

theorem own_makes {p : Path} {i : Nat} {d : Dim} (h : Own I m p i d) : ∃ t, Makes I m p i d t := by
  cases h with
  | inside hd hr h hin _ => exact ⟨_, .inside hd hr h hin⟩
  | index hx hi hr h h' _ => exact ⟨_, .index hx hi hr h h'⟩

theorem makes_own {p : Path} {i : Nat} {d : Dim} {t : Bool} (h : Makes I m p i d t)
    (ha : ∀ r, ¬ Alternative I m p r) : Own I m p i d := by
  cases h with
  | inside hd hr h hin => exact .inside hd hr h hin ha
  | index hx hi hr h h' => exact .index hx hi hr h h' ha

/-- All that is known about the result. -/
structure Final (I : Info) (m : MFields) (N : NcMeta) (P : Pending) (ut : Ut) : Prop where
  pending : ∀ a b, dget P a = some b ↔ Shares I m a b
  depth : ∀ a, ∃ n, Depth P n a
  named : ∀ p i, dimAt ut p i ≠ some none
  shared : ∀ a b, Shares I m a b → dimAt ut a.1 a.2 = dimAt ut b.1 b.2 ∧ ∃ d, dimAt ut b.1 b.2 = some (some d)
  makes : ∀ p i, dget P (p, i) = none → ∀ d, dimAt ut p i = some (some d) ↔ ∃ t, Makes I m p i d t
  len : ∀ p x, p ≠ [] → metaAt (.struct m) p = some x → ¬ IsStruct x → rank x ≠ 0 ∨ arraysOf m [] p ≠ [] →
    ∃ u, dget ut p = some u ∧ u.length = rank x
  exist : ∀ p u, dget ut p = some u → ∃ x, p ≠ [] ∧ metaAt (.struct m) p = some x ∧ ¬ IsStruct x ∧ u.length = rank x
  one : ∀ a q, Alternative I m a q → (dget ut a).map List.length = some 1
  times : ∀ d, d ∈ N.times ↔ TimeDim I m d
  dims : ∀ p l, dget N.dims p = some l → l = fullDims ut m p
  keys : ∀ p, (dget N.dims p).isSome ↔ (dget ut p).isSome

/-- The stages of `NCMetadata.__init__`. -/
structure Stages (I : Info) (m : MFields) (fuel : Nat) (N : NcMeta) (s s1 : Parse) (ut : Ut) : Prop where
  parse : ParseInv I (walkFields [] none 0 m) s
  parsed : parseAll I (walkFields [] none 0 m) {} = .ok s
  merged : mergeAll s.alts s = .ok s1
  resolved : resolve fuel s1.pending s1.ut = .ok ut
  tensor : ∃ N0 : NcMeta, N0.dims = [] ∧ N0.coords = [] ∧ tensorizeAll I { s1 with ut := ut } (walkFields [] none 0 m) N0 = .ok N
  final : Final I m N s1.pending ut

theorem stages {fuel : Nat} {N : NcMeta} (hw : WFMFields m) (h : ncMetadata fuel I m = .ok N) :
    ∃ s s1 ut, Stages I m fuel N s s1 ut := by
  unfold ncMetadata at h
  simp only at h
  split at h
  · cases h
  · rename_i s hs
    have hp := parseAll_ok I _ [] {} (parseInv_nil I) (by simpa using walk_nodup m [] none 0 hw) hs
    rw [List.nil_append] at hp
    split at h
    · cases h
    · rename_i s1 h1
      have hm := merge_ok hp h1
      split at h
      · cases h
      · rename_i ut hut
        have hr := resolve_ok fuel (resolveInv_start hm.unnamed hm.nodup) hut
        obtain ⟨t1, t2, t3⟩ := tensorizeAll_ok (m := m) _ (fun e he => walk_known hw he) (by simp [dget]) h
        simp only at t1 t2 t3
        have hpend := pending_iff hw hp hm
        have hlen : ∀ p, (dget ut p).map List.length = (dget s.ut p).map List.length := fun p => (hr.len p).trans (hm.len p)
        have hnamed : ∀ p i, dimAt ut p i ≠ some none := by
          intro p i hn
          have := (hr.unnamed p i).1 hn
          simp at this
        have hexist : ∀ p u, dget ut p = some u →
            ∃ x, p ≠ [] ∧ metaAt (.struct m) p = some x ∧ ¬ IsStruct x ∧ u.length = rank x := by
          intro p u hu
          have := hlen p
          rw [hu] at this
          cases hu0 : dget s.ut p with
          | none => rw [hu0] at this; cases this
          | some u0 =>
            rw [hu0] at this
            simp only [Option.map_some, Option.some.injEq] at this
            obtain ⟨e, he, hrel, rfl⟩ := hp.ut' p u0 hu0
            obtain ⟨u', hu', hl, -⟩ := hp.ut e he hrel
            rw [hu0] at hu'
            cases hu'
            obtain ⟨x, hx⟩ := walk_known hw he
            refine ⟨x, hx.1, hx.2.2.1, fun h => hrel.1 (hx.2.2.2.2.1.2 h), ?_⟩
            rw [this, hl, hx.2.2.2.1]
        refine ⟨s, s1, ut, hp, hs, h1, hut, ⟨_, rfl, rfl, h⟩, hpend, fun a => hr.depth a (by simp), hnamed, ?_, ?_, ?_, hexist, ?_, ?_, t2, ?_⟩
        · intro a b hab
          exact hr.same a.1 a.2 b.1 b.2 ((hpend a b).2 hab) (by simp)
        · intro p i hnp d
          have hnp0 : dget s.pending (p, i) = none := by
            cases h : dget s.pending (p, i) with
            | none => rfl
            | some t => rw [hm.keep _ _ h] at hnp; cases hnp
          have hd0 := hm.dims p i hnp
          constructor
          · intro hd
            -- the dimension was named before
            have hs1 : dimAt s1.ut p i = some (some d) := by
              have hl := hr.len p
              simp only [dimAt] at hd ⊢
              cases hu : dget ut p with
              | none => rw [hu] at hd; cases hd
              | some u =>
                rw [hu] at hd hl
                simp only [Option.bind_some] at hd
                cases hu1 : dget s1.ut p with
                | none => rw [hu1] at hl; cases hl
                | some u1 =>
                  rw [hu1] at hl
                  simp only [Option.map_some, Option.some.injEq] at hl
                  have hi : i < u1.length := by
                    rw [← hl]
                    exact (List.getElem?_eq_some_iff.1 hd).1
                  cases hv : u1[i] with
                  | none =>
                    have : dimAt s1.ut p i = some none := by simp [dimAt, hu1, hi, hv]
                    rw [hm.unnamed, hnp] at this
                    cases this
                  | some d' =>
                    have := hr.keep p i d' (by simp [dimAt, hu1, hi, hv])
                    simp only [dimAt, hu, Option.bind_some, hd] at this
                    simp [hi, hv]
                    simpa using this.symm
            rw [hd0] at hs1
            simp only [dimAt] at hs1
            cases hu : dget s.ut p with
            | none => rw [hu] at hs1; cases hs1
            | some u =>
              rw [hu] at hs1
              simp only [Option.bind_some] at hs1
              obtain ⟨e, he, hrel, rfl⟩ := hp.ut' p u hu
              obtain ⟨u', hu', hl, hpl⟩ := hp.ut e he hrel
              rw [hu] at hu'
              cases hu'
              have hi : i < e.ndim := by
                rw [← hl]
                exact (List.getElem?_eq_some_iff.1 hs1).1
              obtain ⟨pl, g1, g2⟩ := hpl i hi
              rw [hs1] at g2
              cases pl with
              | ref => simp [Plan.dim] at g2
              | own d' t c =>
                simp only [Plan.dim, Option.some.injEq] at g2
                subst g2
                exact ⟨t, planFor_own hw he hi g1⟩
          · rintro ⟨t, ht⟩
            obtain ⟨e, he, hk, rfl, hi, c, hc⟩ := makes_plan hw ht
            obtain ⟨u, hu, hl, hpl⟩ := hp.ut e he ⟨hk, .inl (by omega)⟩
            obtain ⟨pl, g1, g2⟩ := hpl i hi
            rw [hc] at g1
            cases g1
            apply hr.keep
            rw [hd0]
            simp [dimAt, hu, g2, Plan.dim]
        · intro p x hne hx hns hrel
          obtain ⟨e, he, rfl, hok⟩ := walk_entry hw hne hx
          have : Relevant e := by
            refine ⟨fun h => hns (hok.2.2.2.2.1.1 h), ?_⟩
            rcases hrel with hrel | hrel
            · left; rw [hok.2.2.2.1]; exact hrel
            · right
              rw [hok.2.2.2.2.2.2.1, Option.or_none]
              cases hl : (arraysOf m [] e.path).getLast? with
              | none => exact absurd (List.getLast?_eq_none_iff.1 hl) hrel
              | some _ => rfl
          obtain ⟨u0, hu0, hl0, -⟩ := hp.ut e he this
          have hl := hlen e.path
          rw [hu0] at hl
          cases hu : dget ut e.path with
          | none => rw [hu] at hl; cases hl
          | some u =>
            rw [hu] at hl
            simp only [Option.map_some, Option.some.injEq] at hl
            exact ⟨u, rfl, by rw [hl, hl0, hok.2.2.2.1]⟩
        · intro a q ha
          rw [hlen]
          exact hm.one q a ((altBy_iff hw).2 ha)
        · intro d
          rw [t1, hm.times, hp.times, makes_time]
          constructor
          · rintro ⟨e, he, hk, i, c, hi, hpl⟩
            exact ⟨_, _, planFor_own hw he hi hpl⟩
          · rintro ⟨p, i, hmk⟩
            obtain ⟨e, he, hk, -, hi, c, hc⟩ := makes_plan hw hmk
            exact ⟨e, he, hk, i, c, hi, hc⟩
        · intro p
          rw [t3]
          constructor
          · rintro (h | ⟨_, _, _, h⟩)
            · simp [dget] at h
            · exact h
          · intro hp'
            cases hu : dget ut p with
            | none => rw [hu] at hp'; cases hp'
            | some u =>
              obtain ⟨x, hne, hx, -⟩ := hexist p u hu
              obtain ⟨e, he, rfl, -⟩ := walk_entry hw hne hx
              exact .inr ⟨e, he, rfl, by simp⟩

theorem final {fuel : Nat} {N : NcMeta} (hw : WFMFields m) (h : ncMetadata fuel I m = .ok N) : ∃ P ut, Final I m N P ut := by
  obtain ⟨s, s1, ut, hs⟩ := stages hw h
  exact ⟨_, _, hs.final⟩

theorem planOf_noCircular (e : Entry) (i : Nat) : planOf I e i ≠ .error .circular := by
  unfold planOf
  split
  · split <;> simp
  · split <;> simp

theorem parseDims_noCircular (e : Entry) : ∀ (n i : Nat) (s : Parse), parseDims I e n i s ≠ .error .circular
  | 0, i, s, h => by cases h
  | n + 1, i, s, h => by
    unfold parseDims at h
    split at h
    · rename_i x hx
      cases h
      exact planOf_noCircular e i hx
    all_goals
      split at h
      · rename_i x hx
        cases h
        exact parseDims_noCircular e n _ _ hx
      · cases h

theorem parseAll_noCircular : ∀ (r : List Entry) (s : Parse), parseAll I r s ≠ .error .circular
  | [], s, h => by cases h
  | e :: r, s, h => by
    unfold parseAll at h
    split at h
    · rename_i x hx
      cases h
      unfold parseNode at hx
      split at hx
      · cases hx
      · split at hx
        · unfold parseEntry at hx
          split at hx
          · cases hx
          · split at hx
            · rename_i h1
              cases hx
              exact parseDims_noCircular e _ _ _ h1
            · split at hx
              · rename_i h1
                cases hx
                unfold parseAlternatives at h1
                split at h1
                · cases h1
                · split at h1
                  · cases h1
                  · split at h1 <;> cases h1
              · cases hx
        · split at hx <;> cases hx
    · exact parseAll_noCircular r _ h

theorem mergeAlts_noCircular (p : Path) : ∀ (l : List Path) (s : Parse), mergeAlts p l s ≠ .error .circular
  | [], s, h => by cases h
  | a :: r, s, h => by
    unfold mergeAlts at h
    split at h
    · rename_i hx
      cases h
      unfold mergeOne at hx
      split at hx
      · cases hx
      · split at hx <;> cases hx
      · cases hx
      · cases hx
    · exact mergeAlts_noCircular p r _ h

theorem mergeAll_noCircular : ∀ (l : List (Path × List Path)) (s : Parse), mergeAll l s ≠ .error .circular
  | [], s, h => by cases h
  | (p, l) :: r, s, h => by
    unfold mergeAll at h
    split at h
    · cases h
    · split at h
      · cases h
      · split at h
        · rename_i hx
          cases h
          exact mergeAlts_noCircular p l s hx
        · split at h
          · rename_i hx
            cases h
            unfold mergeCoords at hx
            split at hx
            · split at hx <;> cases hx
            · cases hx
          · exact mergeAll_noCircular r _ h

theorem refCoords_noCircular (s : Parse) (p : Path) : ∀ (i : Nat) (l : List Dim), refCoords I s p i l ≠ .error .circular
  | _, [], h => by cases h
  | i, d :: r, h => by
    unfold refCoords at h
    split at h
    · rename_i hx
      cases h
      exact refCoords_noCircular s p _ r hx
    · split at h
      · cases h
      · split at h <;> cases h

theorem tensorizeAll_noCircular (s : Parse) : ∀ (r : List Entry) (N : NcMeta), tensorizeAll I s r N ≠ .error .circular
  | [], N, h => by cases h
  | e :: r, N, h => by
    unfold tensorizeAll at h
    split at h
    · exact tensorizeAll_noCircular s r N h
    · split at h
      · rename_i hx
        cases h
        unfold tensorizeOne at hx
        simp only at hx
        split at hx
        · cases hx
        · split at hx
          · rename_i h1
            cases hx
            exact refCoords_noCircular s _ _ _ h1
          · cases hx
      · exact tensorizeAll_noCircular s r _ h

/-- No circular references: enough rounds resolve everything. -/
theorem noCircular {fuel : Nat} (hw : WFMFields m) (f : Path × Nat → Nat) (hf : ∀ a b, Shares I m a b → f b < f a)
    (hn : ∀ a, f a < fuel) : ncMetadata fuel I m ≠ .error .circular := by
  intro h
  unfold ncMetadata at h
  simp only at h
  split at h
  · rename_i hx
    cases h
    exact parseAll_noCircular _ _ hx
  · rename_i s hs
    have hp := parseAll_ok I _ [] {} (parseInv_nil I) (by simpa using walk_nodup m [] none 0 hw) hs
    rw [List.nil_append] at hp
    split at h
    · rename_i hx
      cases h
      exact mergeAll_noCircular _ _ hx
    · rename_i s1 h1
      have hm := merge_ok hp h1
      have hpend := pending_iff hw hp hm
      have hdepth : ∀ (n : Nat) (a : Path × Nat), f a ≤ n → Depth s1.pending n a := by
        intro n
        induction n with
        | zero =>
          intro a ha
          cases hd : dget s1.pending a with
          | none => exact hd
          | some b =>
            have := hf a b ((hpend a b).1 hd)
            omega
        | succ n ih =>
          intro a ha
          cases hd : dget s1.pending a with
          | none => exact .inl hd
          | some b =>
            have := hf a b ((hpend a b).1 hd)
            exact .inr ⟨b, hd, ih b (by omega)⟩
      split at h
      · rename_i hx
        cases h
        refine resolve_noCircular (n := 0) fuel (resolveInv_start hm.unnamed hm.nodup) ?_ ?_ hx
        · intro x hx
          refine ⟨by rw [Nat.zero_add]; exact hdepth fuel x.1 (Nat.le_of_lt (hn x.1)), ?_⟩
          intro hd
          have := dget_of_mem hm.nodup hx
          rw [show dget s1.pending x.1 = none from hd] at this
          cases this
        · exact Nat.lt_of_le_of_lt (Nat.zero_le _) (hn ([], 0))
      · exact tensorizeAll_noCircular _ _ _ h

end
end Verif.Nc
