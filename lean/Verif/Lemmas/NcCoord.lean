import Verif.Lemmas.NcDims
/-
The coordinates `NCMetadata` gives to the dimensions and the nodes of an IDS.
-/
namespace Verif.Nc
open Verif.Ids Verif.NcSpec Verif.TreeSpec
open Verif.ConvertSpec (metaAt child mchild)
open Verif.AlSpec (arraysOf)

section
variable (I : Info)

/-- A node names a dimension, with the given coordinates. -/
def OwnPlan (e : Entry) (i : Nat) (d : Dim) (c : List Path) : Prop :=
  e.kind ≠ .struct ∧ i < e.ndim ∧ ∃ t, planFor I e i = .ok (.own d t c)

/-- What parsing the dimensions of a node does with the coordinates. -/
theorem parseDims_coords (e : Entry) : ∀ (n i : Nat) (s : Parse) {l : List (Option Dim)} {s' : Parse},
    parseDims I e n i s = .ok (l, s') → ∀ d,
    (∃ j, j < n ∧ ∃ t c, planOf I e (i + j) = .ok (.own d t c) ∧ dget s'.coords d = some c) ∨
    ((∀ j, j < n → ∀ t c, planOf I e (i + j) ≠ .ok (.own d t c)) ∧ dget s'.coords d = dget s.coords d)
  | 0, i, s, l, s', h, d => by
    simp only [parseDims, Except.ok.injEq, Prod.mk.injEq] at h
    obtain ⟨rfl, rfl⟩ := h
    exact .inr ⟨fun j hj => by omega, rfl⟩
  | n + 1, i, s, l, s', h, d => by
    unfold parseDims at h
    split at h
    · cases h
    · rename_i d' t c hp
      split at h
      · cases h
      · rename_i l' s'' hr
        cases h
        rcases parseDims_coords e n (i + 1) _ hr d with ⟨j, hj, t', c', h1, h2⟩ | ⟨h1, h2⟩
        · exact .inl ⟨j + 1, by omega, t', c', by rw [← h1]; congr 1; omega, h2⟩
        · simp only [dget_dset] at h2
          by_cases hd : d = d'
          · subst hd
            rw [if_pos rfl] at h2
            exact .inl ⟨0, by omega, t, c, hp, h2⟩
          · rw [if_neg hd] at h2
            refine .inr ⟨?_, h2⟩
            intro j hj t' c' he
            cases j with
            | zero => rw [Nat.add_zero, hp] at he; cases he; exact hd rfl
            | succ j => exact h1 j (by omega) t' c' (by rw [← he]; congr 1; omega)
    · rename_i q k o hp
      split at h
      · cases h
      · rename_i l' s'' hr
        cases h
        rcases parseDims_coords e n (i + 1) _ hr d with ⟨j, hj, t', c', h1, h2⟩ | ⟨h1, h2⟩
        · exact .inl ⟨j + 1, by omega, t', c', by rw [← h1]; congr 1; omega, h2⟩
        · refine .inr ⟨?_, h2⟩
          intro j hj t' c' he
          cases j with
          | zero => rw [Nat.add_zero, hp] at he; cases he
          | succ j => exact h1 j (by omega) t' c' (by rw [← he]; congr 1; omega)

theorem parseError_coords_kept (p b : Path) : ∀ (n i : Nat) (s : Parse), (parseError p b n i s).coords = s.coords
  | 0, _, _ => rfl
  | n + 1, i, s => by rw [parseError, parseError_coords_kept p b n]

/-- What the coordinates say about the nodes visited so far. -/
structure CoordInv (es : List Entry) (s : Parse) : Prop where
  named : ∀ e ∈ es, ∀ i d c, OwnPlan I e i d c → ∃ k, dget s.coords d = some k ∧ ∀ x ∈ c, x ∈ k
  only : ∀ d k x, dget s.coords d = some k → x ∈ k → ∃ e ∈ es, ∃ i c, OwnPlan I e i d c ∧
    (x ∈ c ∨ (errorBase e.path = none ∧ x ∈ I.alternative e.path))

/-- The coordinates of a dimension do not depend on the node that names it. -/
def Functional (A : Entry → Prop) : Prop :=
  ∀ e e' i i' d c c', A e → A e' → OwnPlan I e i d c → OwnPlan I e' i' d c' → c = c'

theorem coordInv_more {es : List Entry} {s : Parse} (h : CoordInv I es s) (e : Entry) (he : ∀ i d c, ¬ OwnPlan I e i d c)
    {s' : Parse} (hc : s'.coords = s.coords) : CoordInv I (es ++ [e]) s' where
  named x hx i d c ho := by
    rw [hc]
    rcases List.mem_append.1 hx with hx | hx
    · exact h.named x hx i d c ho
    · simp at hx; subst hx; exact absurd ho (he i d c)
  only d k x hd hx := by
    rw [hc] at hd
    obtain ⟨e', he', r⟩ := h.only d k x hd hx
    exact ⟨e', by simp [he'], r⟩

theorem parseEntry_coords {A : Entry → Prop} (hf : Functional I A) {es : List Entry} (hA : ∀ x ∈ es, A x) {s s' : Parse}
    (h : CoordInv I es s) {e : Entry} (heA : A e) (hk : e.kind ≠ .struct) (hn : e.ndim ≠ 0) (hr : parseEntry I e s = .ok s') :
    CoordInv I (es ++ [e]) s' := by
  unfold parseEntry at hr
  split at hr
  · rename_i base hb
    cases hr
    refine coordInv_more I h e ?_ (parseError_coords_kept _ _ _ _ _)
    rintro i d c ⟨-, -, t, ht⟩
    simp [planFor, hb] at ht
  · rename_i hb
    split at hr
    · cases hr
    · rename_i l s1 hd
      have hl := parseDims_ok I e _ _ _ hd
      have hcs := parseDims_coords I e _ _ _ hd
      have hpl : planFor I e = planOf I e := by funext j; simp [planFor, hb]
      -- after the loop over the dimensions
      have h1 : CoordInv I (es ++ [e]) s1 := by
        constructor
        · intro x hx i d c ho
          rcases hcs d with ⟨j, hj, t, c', g1, g2⟩ | ⟨g1, g2⟩
          · rw [Nat.zero_add, ← hpl] at g1
            refine ⟨c', g2, ?_⟩
            have hx' : A x := by
              rcases List.mem_append.1 hx with hx | hx
              · exact hA x hx
              · simp at hx; subst hx; exact heA
            rw [hf x e i j d c c' hx' heA ho ⟨hk, hj, t, g1⟩]
            exact fun _ h => h
          · rw [g2]
            rcases List.mem_append.1 hx with hx | hx
            · exact h.named x hx i d c ho
            · simp at hx; subst hx
              obtain ⟨-, hi, t, ht⟩ := ho
              rw [hpl] at ht
              exact absurd (by rw [Nat.zero_add]; exact ht) (g1 i hi t c)
        · intro d k x hd' hx
          rcases hcs d with ⟨j, hj, t, c', g1, g2⟩ | ⟨g1, g2⟩
          · rw [g2] at hd'
            cases hd'
            rw [Nat.zero_add, ← hpl] at g1
            exact ⟨e, by simp, j, k, ⟨hk, hj, t, g1⟩, .inl hx⟩
          · rw [g2] at hd'
            obtain ⟨e', he', r⟩ := h.only d k x hd' hx
            exact ⟨e', by simp [he'], r⟩
      split at hr
      · cases hr
      · rename_i s2 ha
        cases hr
        unfold parseAlternatives at ha
        split at ha
        · cases ha
          exact ⟨h1.named, h1.only⟩
        · split at ha
          · cases ha
          · rename_i d hlast
            split at ha
            · cases ha
            · rename_i c hc
              cases ha
              constructor
              · intro x hx i d' c' ho
                obtain ⟨k, g1, g2⟩ := h1.named x hx i d' c' ho
                simp only [dget_dset]
                by_cases hd' : d' = d
                · subst hd'
                  rw [hc] at g1
                  cases g1
                  rw [if_pos rfl]
                  exact ⟨_, rfl, fun y hy => List.mem_append_left _ (g2 y hy)⟩
                · rw [if_neg hd']
                  exact ⟨k, g1, g2⟩
              · intro d' k x hd' hx
                simp only [dget_dset] at hd'
                split at hd'
                · rename_i hdd
                  subst hdd
                  cases hd'
                  rcases List.mem_append.1 hx with hx | hx
                  · exact h1.only d' c x hc hx
                  · -- the last dimension of the node itself
                    have hlen := hl.length
                    have hne : l ≠ [] := fun h0 => by rw [h0] at hlen; exact hn hlen.symm
                    rw [List.getLast?_eq_some_getLast hne, Option.getD_some, List.getLast_eq_getElem] at hlast
                    have hj : l.length - 1 < e.ndim := by omega
                    obtain ⟨pl, g1, g2⟩ := hl.plans (l.length - 1) hj
                    rw [List.getElem?_eq_getElem (by omega), hlast] at g2
                    rw [Nat.zero_add, ← hpl] at g1
                    cases pl with
                    | ref => simp [Plan.dim] at g2
                    | own d2 t2 c2 =>
                      simp only [Plan.dim, Option.some.injEq] at g2
                      subst g2
                      exact ⟨e, by simp, _, c2, ⟨hk, hj, t2, g1⟩, .inr ⟨hb, hx⟩⟩
                · exact h1.only d' k x hd' hx

theorem parseNode_coords {A : Entry → Prop} (hf : Functional I A) {es : List Entry} (hA : ∀ x ∈ es, A x) {s s' : Parse}
    (h : CoordInv I es s) {e : Entry} (heA : A e) (hr : parseNode I e s = .ok s') : CoordInv I (es ++ [e]) s' := by
  unfold parseNode at hr
  split at hr
  · rename_i hk
    cases hr
    exact coordInv_more I h e (fun i d c ho => ho.1 hk) rfl
  · rename_i hk
    split at hr
    · rename_i hn
      exact parseEntry_coords I hf hA h heA hk hn hr
    · rename_i hn
      have hno : ∀ i d c, ¬ OwnPlan I e i d c := fun i d c ho => by have := ho.2.1; omega
      split at hr <;> cases hr <;> exact coordInv_more I h e hno rfl

theorem parseAll_coords {A : Entry → Prop} (hf : Functional I A) : ∀ (r es : List Entry) (s : Parse) {s' : Parse}, CoordInv I es s →
    (∀ x ∈ es ++ r, A x) → parseAll I r s = .ok s' → CoordInv I (es ++ r) s'
  | [], es, s, s', h, _, hr => by
    simp only [parseAll, Except.ok.injEq] at hr
    subst hr
    simpa using h
  | e :: r, es, s, s', h, hA, hr => by
    unfold parseAll at hr
    split at hr
    · cases hr
    · rename_i s1 h1
      have := parseAll_coords hf r (es ++ [e]) s1
        (parseNode_coords I hf (fun x hx => hA x (by simp [hx])) h (hA e (by simp)) h1) (by simpa using hA) hr
      simpa using this

theorem coordInv_nil : CoordInv I [] {} := ⟨by simp, by simp [dget]⟩

end

/-! ### Merging alternatives -/

theorem mergeOne_coords_kept {p a : Path} {s s' : Parse} (h : mergeOne p a s = .ok s') : s'.coords = s.coords := by
  unfold mergeOne at h
  split at h
  · cases h
  · split at h <;> cases h; rfl
  · cases h; rfl
  · cases h

theorem mergeAlts_coords_kept {p : Path} : ∀ (l : List Path) {s s' : Parse}, mergeAlts p l s = .ok s' → s'.coords = s.coords
  | [], s, s', h => by cases h; rfl
  | a :: r, s, s', h => by
    unfold mergeAlts at h
    split at h
    · cases h
    · rename_i s1 h1
      exact (mergeAlts_coords_kept r h).trans (mergeOne_coords_kept h1)

theorem mem_addNew_iff (l : List Path) : ∀ (c : List Path) (x : Path), x ∈ addNew c l ↔ x ∈ c ∨ x ∈ l := by
  induction l with
  | nil => simp [addNew]
  | cons a r ih =>
    intro c x
    rw [addNew, ih]
    split
    · rename_i h
      constructor
      · rintro (h' | h')
        · exact .inl h'
        · exact .inr (by simp [h'])
      · rintro (h' | h')
        · exact .inl h'
        · rcases List.mem_cons.1 h' with rfl | h'
          · exact .inl h
          · exact .inr h'
    · simp [or_assoc]

/-- What merging does to the coordinates. -/
theorem mergeAll_coords {s0 : Parse} : ∀ (l : List (Path × List Path)) {s s' : Parse} {D : Path → Path → Prop}, MergeInv s0 D s →
    mergeAll l s = .ok s' →
    (∀ p k, (p, k) ∈ l → (dget s0.ut p).map List.length = some 1 ∧ ∃ d, dimAt s0.ut p 0 = some (some d)) ∧
    ∀ d, (∀ k, dget s.coords d = some k → ∃ k', dget s'.coords d = some k') ∧
      ∀ k', dget s'.coords d = some k' → ∃ k, dget s.coords d = some k ∧
        ∀ x, x ∈ k' ↔ x ∈ k ∨ ∃ p a, (p, a) ∈ l ∧ x ∈ a ∧ dimAt s0.ut p 0 = some (some d)
  | [], s, s', D, h, hr => by
    simp only [mergeAll, Except.ok.injEq] at hr
    subst hr
    exact ⟨by simp, fun d => ⟨fun k hk => ⟨k, hk⟩, fun k hk => ⟨k, hk, by simp⟩⟩⟩
  | (p, k) :: r, s, s', D, h, hr => by
    unfold mergeAll at hr
    split at hr
    · cases hr
    · rename_i u hu
      split at hr
      · cases hr
      · rename_i hlen
        split at hr
        · cases hr
        · rename_i s1 h1
          split at hr
          · cases hr
          · rename_i s2 h2
            have i1 := mergeAlts_ok k h h1
            have i2 := mergeCoords_ok i1 h2
            obtain ⟨g1, g2⟩ := mergeAll_coords r i2 hr
            have e1 := mergeAlts_coords_kept k h1
            -- the dimension of `p`
            unfold mergeCoords at h2
            split at h2
            · rename_i d hd
              have hnp : dget s1.pending (p, 0) = none := by
                cases hp : dget s1.pending (p, 0) with
                | none => rfl
                | some t =>
                  have := (i1.unnamed p 0).2 (by rw [hp]; rfl)
                  simp [dimAt, hd] at this
              have hd0 : dimAt s0.ut p 0 = some (some d) := by
                rw [← i1.dims p 0 hnp]
                simp [dimAt, hd]
              split at h2
              · cases h2
              · rename_i c hc
                cases h2
                rw [e1] at hc
                refine ⟨?_, ?_⟩
                · intro q a hq
                  rcases List.mem_cons.1 hq with hq | hq
                  · cases hq
                    refine ⟨?_, d, hd0⟩
                    rw [← h.len, hu]
                    simp only [Option.map_some, Option.some.injEq]
                    omega
                  · exact g1 q a hq
                · intro d'
                  obtain ⟨f1, f2⟩ := g2 d'
                  simp only [dget_dset, e1] at f1 f2
                  constructor
                  · intro k' hk'
                    by_cases hdd : d' = d
                    · exact f1 _ (by rw [if_pos hdd])
                    · exact f1 k' (by rw [if_neg hdd]; exact hk')
                  · intro k' hk'
                    obtain ⟨k0, hk0, hm⟩ := f2 k' hk'
                    by_cases hdd : d' = d
                    · subst hdd
                      rw [if_pos rfl] at hk0
                      cases hk0
                      refine ⟨c, hc, fun x => ?_⟩
                      rw [hm, mem_addNew_iff]
                      constructor
                      · rintro ((h' | h') | ⟨q, a, h', h''⟩)
                        · exact .inl h'
                        · exact .inr ⟨p, k, by simp, h', hd0⟩
                        · exact .inr ⟨q, a, by simp [h'], h''⟩
                      · rintro (h' | ⟨q, a, h', h'', h3⟩)
                        · exact .inl (.inl h')
                        · rcases List.mem_cons.1 h' with h' | h'
                          · cases h'; exact .inl (.inr h'')
                          · exact .inr ⟨q, a, h', h'', h3⟩
                    · rw [if_neg hdd] at hk0
                      refine ⟨k0, hk0, fun x => ?_⟩
                      rw [hm]
                      apply or_congr Iff.rfl
                      constructor
                      · rintro ⟨q, a, h', h''⟩; exact ⟨q, a, by simp [h'], h''⟩
                      · rintro ⟨q, a, h', h'', h3⟩
                        rcases List.mem_cons.1 h' with h' | h'
                        · cases h'
                          rw [hd0] at h3
                          cases h3
                          exact absurd rfl hdd
                        · exact ⟨q, a, h', h'', h3⟩
            · cases h2

/-! ### Labels -/

/-- The labels of a node. -/
def labelsFor (p : Path) : Meta → List Path
  | .aos c => aosLabels p c
  | _ => []

theorem walk_labels (m : MFields) : ∀ (p : Path) (a : Option Path) (l : Nat) (e : Entry), WFMFields m →
    e ∈ walkFields p a l m → ∃ q x, q ≠ [] ∧ e.path = p ++ q ∧ metaAt (.struct m) q = some x ∧ e.labels = labelsFor e.path x := by
  induction m using MFields.rec (motive_1 := fun m => ∀ (p : Path) (a : Option Path) (l : Nat) (e : Entry), WFMeta m →
      e ∈ walkNode p a l m → ∃ q x, e.path = p ++ q ∧ metaAt m q = some x ∧ e.labels = labelsFor e.path x) with
  | leaf lm =>
    rename_i p a l e hw he
    simp [walkNode] at he
    subst he
    exact ⟨[], .leaf lm, by simp, rfl, rfl⟩
  | struct c ih =>
    rename_i p a l e hw he
    simp only [walkNode, List.mem_cons] at he
    rcases he with rfl | he
    · exact ⟨[], .struct c, by simp, rfl, rfl⟩
    · obtain ⟨q, x, -, h1, h2, h3⟩ := ih p a l e hw he
      exact ⟨q, x, h1, h2, h3⟩
  | aos c ih =>
    rename_i p a l e hw he
    simp only [walkNode, List.mem_cons] at he
    rcases he with rfl | he
    · exact ⟨[], .aos c, by simp, rfl, rfl⟩
    · obtain ⟨q, x, h0, h1, h2, h3⟩ := ih p (some p) (l + 1) e hw he
      cases q with
      | nil => exact absurd rfl h0
      | cons k t => exact ⟨k :: t, x, h1, h2, h3⟩
  | nil => intro p a l e _ he; simp [walkFields] at he
  | cons n y r ih1 ih2 =>
    intro p a l e hw he
    obtain ⟨hn, hy, hr⟩ := hw
    simp only [walkFields, List.mem_append] at he
    rcases he with he | he
    · obtain ⟨q, x, h1, h2, h3⟩ := ih1 (p ++ [n]) a l e hy he
      exact ⟨n :: q, x, by simp, by simp [h1], by rw [metaAt]; simp [child, mchild]; exact h2, h3⟩
    · obtain ⟨q, x, h0, h1, h2, h3⟩ := ih2 p a l e hr he
      exact ⟨q, x, h0, h1, meta_cons hn h2 h0, h3⟩

theorem isLabel_iff (c : MFields) (n : Name) :
    isLabel c n = true ↔ ∃ l, mchild c n = some (.leaf l) ∧ l.type = .str ∧ l.ndim = 0 := by
  induction c using MFields.rec (motive_1 := fun _ => True) with
  | leaf => trivial
  | struct => trivial
  | aos => trivial
  | nil => simp [isLabel, mchild]
  | cons k y r _ ih =>
    unfold isLabel mchild
    by_cases h : n = k
    · rw [if_pos h, if_pos h]
      cases y <;> simp
    · rw [if_neg h, if_neg h]
      exact ih

theorem metaAt_snoc (x : Meta) (p : Path) (n : Name) : metaAt x (p ++ [n]) = (metaAt x p).bind fun y => child y n := by
  induction p generalizing x with
  | nil =>
    simp only [List.nil_append, metaAt, Option.bind_some]
    cases child x n <;> rfl
  | cons k p ih =>
    simp only [List.cons_append, metaAt]
    cases child x k with
    | none => rfl
    | some y => exact ih y

theorem mem_labels {m : MFields} {p : Path} {x : Meta} (hx : metaAt (.struct m) p = some x) (c : Path) :
    c ∈ labelsFor p x ↔ Label m p c := by
  have key : ∀ y n, x = .aos y → ((∃ l, metaAt (.struct m) (p ++ [n]) = some (.leaf l) ∧ l.type = .str ∧ l.ndim = 0) ↔
      isLabel y n = true) := by
    intro y n hy
    subst hy
    rw [isLabel_iff, metaAt_snoc, hx]
    rfl
  unfold Label labelsFor
  cases x with
  | leaf l => simp [hx]
  | struct y => simp [hx]
  | aos y =>
    have key := fun n => key y n rfl
    simp only [aosLabels, List.mem_map, List.mem_filter]
    constructor
    · rintro ⟨n, ⟨hn, hl⟩, rfl⟩
      refine ⟨⟨y, hx⟩, ?_, (key n).2 hl⟩
      simp only [List.mem_cons, List.not_mem_nil, or_false] at hn
      rcases hn with rfl | rfl | rfl
      · exact .inl rfl
      · exact .inr (.inl rfl)
      · exact .inr (.inr rfl)
    · rintro ⟨-, hc, hl⟩
      rcases hc with rfl | rfl | rfl
      · exact ⟨"name".toList, ⟨.head _, (key _).1 hl⟩, rfl⟩
      · exact ⟨"identifier".toList, ⟨.tail _ (.head _), (key _).1 hl⟩, rfl⟩
      · exact ⟨"label".toList, ⟨.tail _ (.tail _ (.head _)), (key _).1 hl⟩, rfl⟩

/-! ### The coordinates of dimensions -/

section
variable {I : Info} {m : MFields}

theorem walk_labels' (hw : WFMFields m) {e : Entry} (he : e ∈ walkFields [] none 0 m) {x : Meta}
    (hx : metaAt (.struct m) e.path = some x) : e.labels = labelsFor e.path x := by
  obtain ⟨q, y, -, h1, h2, h3⟩ := walk_labels m [] none 0 e hw he
  simp only [List.nil_append] at h1
  rw [← h1, hx] at h2
  cases h2
  exact h3

theorem ownPlan_cases (hw : WFMFields m) {e : Entry} (he : e ∈ walkFields [] none 0 m) {i : Nat} {d : Dim} {c : List Path} :
    OwnPlan I e i d c ↔ Regular e.path ∧ HasDim m e.path i ∧
      ((∃ q o, I.refs e.path i = q :: o ∧ Inside q e.path ∧ d = ⟨q, none⟩ ∧ c = [q]) ∨
       (I.refs e.path i = [] ∧ I.sameAs e.path i = [] ∧ ∃ x, metaAt (.struct m) e.path = some x ∧
        d = ⟨e.path, indexSuffix m e.path x i⟩ ∧
        ((∃ l, x = .leaf l ∧ c = [e.path]) ∨ (∃ y, x = .aos y ∧ c = labelsFor e.path x)))) := by
  obtain ⟨x, hx⟩ := walk_known hw he
  have hlab := walk_labels' hw he hx.2.2.1
  constructor
  · rintro ⟨hk, hi, t, h⟩
    have hdim := entry_hasDim (walk_known hw he) hi
    cases hb : errorBase e.path with
    | some base => simp [planFor, hb] at h
    | none =>
      refine ⟨regular_iff.2 hb, hdim, ?_⟩
      simp only [planFor, hb] at h
      unfold planOf at h
      cases hr : I.refs e.path i with
      | cons main others =>
        rw [hr] at h
        simp only at h
        split at h
        · rename_i ha
          cases h
          exact .inl ⟨main, others, rfl, inside_iff.2 ha, rfl, rfl⟩
        · cases h
      | nil =>
        rw [hr] at h
        simp only at h
        cases hs : I.sameAs e.path i with
        | nil =>
          rw [hs] at h
          simp only [Except.ok.injEq, Plan.own.injEq] at h
          obtain ⟨rfl, rfl, rfl⟩ := h
          rw [suffix_eq hx hi]
          refine .inr ⟨rfl, rfl, x, hx.2.2.1, rfl, ?_⟩
          cases x with
          | leaf l =>
            have : e.kind ≠ .aos := fun h => by obtain ⟨c, hc⟩ := hx.2.2.2.2.2.1.1 h; cases hc
            exact .inl ⟨l, rfl, by rw [if_neg this]⟩
          | struct y => exact absurd (hx.2.2.2.2.1.2 trivial) hk
          | aos y => exact .inr ⟨y, rfl, by rw [if_pos (hx.2.2.2.2.2.1.2 ⟨y, rfl⟩), hlab]⟩
        | cons a r =>
          rw [hs] at h
          cases r with
          | nil => cases h
          | cons b r => cases h
  · rintro ⟨hreg, hdim, h⟩
    obtain ⟨e', he', x', hp, h1, h2, h3⟩ := hasDim_entry hw hdim
    have hi : i < e.ndim := by
      have := h1.2.2.1
      rw [hx.2.2.1] at this
      cases this
      rw [hx.2.2.2.1, ← h1.2.2.2.1]
      exact h2
    have hk : e.kind ≠ .struct := by
      intro h0
      have := hx.2.2.2.2.1.1 h0
      rw [hx.2.2.2.1] at hi
      cases x <;> simp [IsStruct, rank] at this hi
    refine ⟨hk, hi, ?_⟩
    have hb : errorBase e.path = none := regular_iff.1 hreg
    simp only [planFor, hb]
    unfold planOf
    rcases h with ⟨q, o, h1, h2, rfl, rfl⟩ | ⟨h1, h2, x', hx', rfl, h3⟩
    · rw [h1]
      simp only
      rw [if_pos (inside_iff.1 h2)]
      exact ⟨_, rfl⟩
    · rw [hx.2.2.1] at hx'
      cases hx'
      rw [h1, h2]
      simp only [suffix_eq hx hi]
      refine ⟨decide (e.path.getLast? = some ['t', 'i', 'm', 'e']), ?_⟩
      · congr 2
        rcases h3 with ⟨l, rfl, rfl⟩ | ⟨y, rfl, rfl⟩
        · have : e.kind ≠ .aos := fun h => by obtain ⟨c, hc⟩ := hx.2.2.2.2.2.1.1 h; cases hc
          rw [if_neg this]
        · rw [if_pos (hx.2.2.2.2.2.1.2 ⟨y, rfl⟩), hlab]

/-- Something inside a node with dimensions is in an array of structures. -/
theorem inside_arrays : ∀ (p : Path) (m : MFields) (b : Path) (n : Name) (r : Path) (x y : Meta), p ≠ [] →
    metaAt (.struct m) p = some x → rank x ≠ 0 → metaAt (.struct m) (p ++ n :: r) = some y →
    arraysOf m b (p ++ n :: r) ≠ []
  | [], _, _, _, _, _, _, h, _, _, _ => absurd rfl h
  | [k], m, b, n, r, x, y, _, hx, hr, hy => by
    simp only [metaAt, child] at hx
    simp only [List.cons_append, List.nil_append, metaAt, child] at hy
    simp only [List.cons_append, List.nil_append, arraysOf]
    cases hc : mchild m k with
    | none => rw [hc] at hx; cases hx
    | some z =>
      rw [hc] at hx hy
      simp only [Option.bind_some, Option.some.injEq] at hx
      subst hx
      cases z with
      | leaf l => simp at hy
      | struct c => simp [rank] at hr
      | aos c => simp
  | k :: k' :: p, m, b, n, r, x, y, _, hx, hr, hy => by
    rw [metaAt] at hx
    rw [List.cons_append, metaAt] at hy
    simp only [child] at hx hy
    simp only [List.cons_append, arraysOf]
    cases hc : mchild m k with
    | none => rw [hc] at hx; cases hx
    | some z =>
      rw [hc] at hx hy
      simp only [Option.bind_some] at hx hy
      cases z with
      | leaf l => simp [metaAt, child] at hx
      | struct c => exact inside_arrays (k' :: p) c _ n r x y (by simp) hx hr hy
      | aos c => simp

theorem hasDim_path {p : Path} {i : Nat} (h : HasDim m p i) : p ≠ [] := by
  rintro rfl
  obtain ⟨x, hx, hi⟩ := h
  simp only [metaAt, Option.some.injEq] at hx
  subst hx
  simp [rank] at hi

/-- A coordinate inside an array of structures names another dimension than a node does. -/
theorem inside_index {p q r : Path} {i j : Nat} {x : Meta} (hp : HasDim m p i) (hr : Inside r p) (hq : r = q)
    (hx : metaAt (.struct m) q = some x) (hj : j < rank x) (hs : none = indexSuffix m q x j) : False := by
  obtain ⟨y, hy, hi⟩ := hp
  obtain ⟨n, t, rfl⟩ := hr
  subst hq
  have hne := inside_arrays p m [] n t y x (hasDim_path ⟨y, hy, hi⟩) hy (by omega) hx
  cases x with
  | leaf l => simp [indexSuffix, hne] at hs
  | struct c => simp [rank] at hj
  | aos c => simp [indexSuffix] at hs

theorem functional (hw : WFMFields m) : Functional I (· ∈ walkFields [] none 0 m) := by
  intro e e' i i' d c c' he he' h h'
  obtain ⟨-, g1, g2⟩ := (ownPlan_cases hw he).1 h
  obtain ⟨-, g1', g2'⟩ := (ownPlan_cases hw he').1 h'
  have clash : ∀ {e e' : Entry} {i i' : Nat} {q : Path} {x : Meta}, HasDim m e.path i → HasDim m e'.path i' →
      Inside q e.path → d = ⟨q, none⟩ → metaAt (.struct m) e'.path = some x → d = ⟨e'.path, indexSuffix m e'.path x i'⟩ → False := by
    intro e e' i i' q x h1 h2 h3 h4 h5 h6
    rw [h4] at h6
    simp only [Dim.mk.injEq] at h6
    obtain ⟨y, hy, hj⟩ := h2
    rw [h5] at hy
    cases hy
    exact inside_index h1 h3 h6.1 h5 hj h6.2
  rcases g2 with ⟨q, o, k1, k2, k3, rfl⟩ | ⟨k1, k2, x, k3, k4, k5⟩
  · rcases g2' with ⟨q', o', l1, l2, l3, rfl⟩ | ⟨l1, l2, x', l3, l4, l5⟩
    · rw [k3] at l3
      simp only [Dim.mk.injEq, and_true] at l3
      rw [l3]
    · exact (clash g1 g1' k2 k3 l3 l4).elim
  · rcases g2' with ⟨q', o', l1, l2, l3, rfl⟩ | ⟨l1, l2, x', l3, l4, l5⟩
    · exact (clash g1' g1 l2 l3 k3 k4).elim
    · rw [k4] at l4
      simp only [Dim.mk.injEq] at l4
      rw [l4.1] at k3 k5
      rw [k3] at l3
      cases l3
      rcases k5 with ⟨l, rfl, rfl⟩ | ⟨y, rfl, rfl⟩
      · rcases l5 with ⟨l, h, rfl⟩ | ⟨y, h, rfl⟩
        · rfl
        · cases h
      · rcases l5 with ⟨l, h, rfl⟩ | ⟨y, h, rfl⟩
        · cases h
        · rfl

theorem names_iff {p : Path} {i : Nat} {d : Dim} : Names I m p i d ↔ ∃ t, Makes I m p i d t := by
  constructor
  · intro h
    cases h with
    | inside hd hr h hin => exact ⟨_, .inside hd hr h hin⟩
    | index hx hi hr h h' => exact ⟨_, .index hx hi hr h h'⟩
  · rintro ⟨t, h⟩
    cases h with
    | inside hd hr h hin => exact .inside hd hr h hin
    | index hx hi hr h h' => exact .index hx hi hr h h'

theorem names_plan (hw : WFMFields m) {p : Path} {i : Nat} {d : Dim} (h : Names I m p i d) :
    ∃ e ∈ walkFields [] none 0 m, e.path = p ∧ ∃ c, OwnPlan I e i d c := by
  obtain ⟨t, ht⟩ := names_iff.1 h
  obtain ⟨e, he, hk, h1, h2, c, hc⟩ := makes_plan hw ht
  exact ⟨e, he, h1, c, hk, h2, t, hc⟩

theorem plan_names (hw : WFMFields m) {e : Entry} (he : e ∈ walkFields [] none 0 m) {i : Nat} {d : Dim} {c : List Path}
    (h : OwnPlan I e i d c) : Names I m e.path i d := by
  obtain ⟨-, hi, t, ht⟩ := h
  exact names_iff.2 ⟨t, planFor_own hw he hi ht⟩

/-- The dimension of a node before references are resolved. -/
theorem parse_dim (hw : WFMFields m) {s : Parse} (hp : ParseInv I (walkFields [] none 0 m) s) {p : Path} {i : Nat} {d : Dim} :
    dimAt s.ut p i = some (some d) ↔ Names I m p i d := by
  constructor
  · intro hd
    simp only [dimAt] at hd
    cases hu : dget s.ut p with
    | none => rw [hu] at hd; cases hd
    | some u =>
      rw [hu] at hd
      simp only [Option.bind_some] at hd
      obtain ⟨e, he, hrel, rfl⟩ := hp.ut' p u hu
      obtain ⟨u', hu', hl, hpl⟩ := hp.ut e he hrel
      rw [hu] at hu'
      cases hu'
      have hi : i < e.ndim := by
        rw [← hl]
        exact (List.getElem?_eq_some_iff.1 hd).1
      obtain ⟨pl, g1, g2⟩ := hpl i hi
      rw [hd] at g2
      cases pl with
      | ref => simp [Plan.dim] at g2
      | own d' t c =>
        simp only [Plan.dim, Option.some.injEq] at g2
        subst g2
        exact plan_names hw he ⟨hrel.1, hi, t, g1⟩
  · intro h
    obtain ⟨e, he, rfl, c, hk, hi, t, ht⟩ := names_plan hw h
    obtain ⟨u, hu, hl, hpl⟩ := hp.ut e he ⟨hk, .inl (by omega)⟩
    obtain ⟨pl, g1, g2⟩ := hpl i hi
    rw [ht] at g1
    cases g1
    simp [dimAt, hu, g2, Plan.dim]

theorem dimCoord_plan (hw : WFMFields m) {e : Entry} (he : e ∈ walkFields [] none 0 m) {i : Nat} {d : Dim} {c : List Path}
    (h : OwnPlan I e i d c) {x : Path} (hx : x ∈ c) : DimCoord I m d x := by
  obtain ⟨hr, hd, ⟨q, o, k1, k2, rfl, rfl⟩ | ⟨k1, k2, y, k3, rfl, k5⟩⟩ := (ownPlan_cases hw he).1 h
  · simp at hx
    subst hx
    exact .inside hd hr k1 k2
  · rcases k5 with ⟨l, rfl, rfl⟩ | ⟨z, rfl, rfl⟩
    · simp at hx
      subst hx
      obtain ⟨y, hy, hi⟩ := hd
      rw [k3] at hy
      cases hy
      exact .index k3 hi hr k1 k2
    · obtain ⟨y, hy, hi⟩ := hd
      rw [k3] at hy
      cases hy
      have : i = 0 := by simp only [rank] at hi; omega
      subst this
      exact .label ((mem_labels k3 x).1 hx) hr k1 k2

/-- The coordinates of the dimensions after merging. -/
theorem dim_coords (hw : WFMFields m) {fuel : Nat} {N : NcMeta} {s s1 : Parse} {ut : Ut} (h : Stages I m fuel N s s1 ut) :
    (∀ p i d, Names I m p i d → (dget s1.coords d).isSome) ∧
    ∀ d k, dget s1.coords d = some k → ∀ x, x ∈ k ↔ DimCoord I m d x := by
  have hc : CoordInv I (walkFields [] none 0 m) s := by
    have := parseAll_coords I (functional hw) _ [] {} (coordInv_nil I) (by simp) h.parsed
    simpa using this
  obtain ⟨g1, g2⟩ := mergeAll_coords s.alts (mergeInv_start (parse_matches h.parse) h.parse.nodupP) h.merged
  have halt : ∀ x p, (∃ a, (p, a) ∈ s.alts ∧ x ∈ a) ↔ Alternative I m x p := by
    intro x p
    rw [← altBy_iff hw, ← h.parse.alts]
    simp only [inAlts]
    constructor
    · rintro ⟨a, h1, h2⟩; exact ⟨a, dget_of_mem h.parse.nodupA h1, h2⟩
    · rintro ⟨a, h1, h2⟩; exact ⟨a, mem_of_dget h1, h2⟩
  have hsome : ∀ p i d, Names I m p i d → ∃ k, dget s1.coords d = some k := by
    intro p i d hn
    obtain ⟨e, he, rfl, c, ho⟩ := names_plan hw hn
    obtain ⟨k, hk, -⟩ := hc.named e he i d c ho
    exact (g2 d).1 k hk
  refine ⟨fun p i d hn => by obtain ⟨k, hk⟩ := hsome p i d hn; rw [hk]; rfl, ?_⟩
  intro d k hk x
  obtain ⟨k0, hk0, hm⟩ := (g2 d).2 k hk
  rw [hm]
  constructor
  · rintro (hx | ⟨p, a, h1, h2, h3⟩)
    · obtain ⟨e, he, i, c, ho, hx | ⟨hb, hx⟩⟩ := hc.only d k0 x hk0 hx
      · exact dimCoord_plan hw he ho hx
      · -- an alternative of the node that names the dimension
        have hd : HasDim m e.path i := entry_hasDim (walk_known hw he) ho.2.1
        have ha : Alternative I m x e.path :=
          .node (entry_hasDim (walk_known hw he) (by have := ho.2.1; omega)) (regular_iff.2 hb) hx
        obtain ⟨a, h1, -⟩ := (halt x e.path).2 ha
        obtain ⟨hl, -⟩ := g1 e.path a h1
        obtain ⟨u, hu, hu2, -⟩ := h.parse.ut e he ⟨ho.1, .inl (by have := ho.2.1; omega)⟩
        rw [hu] at hl
        simp only [Option.map_some, Option.some.injEq] at hl
        have : i = 0 := by have := ho.2.1; omega
        subst this
        exact .alternative ha (plan_names hw he ho)
    · exact .alternative ((halt x p).1 ⟨a, h1, h2⟩) ((parse_dim hw h.parse).1 h3)
  · intro hx
    have plan : ∀ e ∈ walkFields [] none 0 m, ∀ i c, OwnPlan I e i d c → x ∈ c → x ∈ k0 := by
      intro e he i c ho hxc
      obtain ⟨k', hk', hsub⟩ := hc.named e he i d c ho
      rw [hk0] at hk'
      cases hk'
      exact hsub x hxc
    cases hx with
    | inside hd hr h1 hin =>
      obtain ⟨e, he, -, rfl, -, h2, h3⟩ := hasDim_entry hw hd
      exact .inl (plan e he _ _ ((ownPlan_cases hw he).2 ⟨hr, hd, .inl ⟨_, _, h1, hin, rfl, rfl⟩⟩) (by simp))
    | index hy hi hr h1 h1' =>
      obtain ⟨e, he, -, rfl, -, h2, h3⟩ := hasDim_entry hw ⟨_, hy, hi⟩
      exact .inl (plan e he _ _ ((ownPlan_cases hw he).2 ⟨hr, ⟨_, hy, hi⟩, .inr ⟨h1, h1', _, hy, rfl, .inl ⟨_, rfl, rfl⟩⟩⟩) (by simp))
    | label hl hr h1 h1' =>
      obtain ⟨y, hy⟩ := hl.1
      have hd : HasDim m _ 0 := ⟨_, hy, by simp [rank]⟩
      obtain ⟨e, he, -, rfl, -, h2, h3⟩ := hasDim_entry hw hd
      exact .inl (plan e he 0 _ ((ownPlan_cases hw he).2 ⟨hr, hd, .inr ⟨h1, h1', _, hy, rfl, .inr ⟨_, rfl, rfl⟩⟩⟩)
        ((mem_labels hy x).2 hl))
    | alternative ha hn =>
      obtain ⟨a, h1, h2⟩ := (halt _ _).2 ha
      exact .inr ⟨_, a, h1, h2, (parse_dim hw h.parse).2 hn⟩

/-! ### The coordinates of nodes -/

theorem refCoords_mem {s : Parse} {p x : Path} : ∀ (ds : List Dim) (i : Nat) {l : List Path}, refCoords I s p i ds = .ok l →
    (x ∈ l ↔ ∃ (j : Nat) (d : Dim), ds[j]? = some d ∧ I.refs p (i + j) ≠ [] ∧ ∃ c, dget s.coords d = some c ∧ x ∈ c)
  | [], i, l, h => by cases h; simp
  | d :: r, i, l, h => by
    unfold refCoords at h
    split at h
    · cases h
    · rename_i l' hl'
      have ih := refCoords_mem (x := x) r (i + 1) hl'
      have shift : (∃ (j : Nat) (d' : Dim), (d :: r)[j]? = some d' ∧ I.refs p (i + j) ≠ [] ∧ ∃ c, dget s.coords d' = some c ∧ x ∈ c) ↔
          (I.refs p i ≠ [] ∧ ∃ c, dget s.coords d = some c ∧ x ∈ c) ∨ x ∈ l' := by
        rw [ih]
        constructor
        · rintro ⟨j, d', h1, h2, h3⟩
          cases j with
          | zero => cases h1; exact .inl ⟨h2, h3⟩
          | succ j => exact .inr ⟨j, d', by simpa using h1, by rwa [show i + 1 + j = i + (j + 1) by omega], h3⟩
        · rintro (⟨h2, h3⟩ | ⟨j, d', h1, h2, h3⟩)
          · exact ⟨0, d, rfl, h2, h3⟩
          · exact ⟨j + 1, d', by simpa using h1, by rwa [show i + (j + 1) = i + 1 + j by omega], h3⟩
      rw [shift]
      split at h
      · rename_i hr
        cases h
        simp [hr]
      · rename_i hr
        split at h
        · cases h
        · rename_i c hc
          cases h
          simp [hr, hc]

theorem refCoords_some {s : Parse} {p : Path} : ∀ (ds : List Dim) (i : Nat) {l : List Path}, refCoords I s p i ds = .ok l →
    ∀ (j : Nat) (d : Dim), ds[j]? = some d → I.refs p (i + j) ≠ [] → ∃ c, dget s.coords d = some c
  | [], i, l, h, j, d, hd, _ => by simp at hd
  | d' :: r, i, l, h, j, d, hd, hr => by
    unfold refCoords at h
    split at h
    · cases h
    · rename_i l' hl'
      cases j with
      | succ j =>
        exact refCoords_some r (i + 1) hl' j d (by simpa using hd) (by rwa [show i + 1 + j = i + (j + 1) by omega])
      | zero =>
        cases hd
        rw [Nat.add_zero] at hr
        rw [if_neg hr] at h
        split at h
        · cases h
        · rename_i c hc
          exact ⟨c, hc⟩

/-- The coordinates of a node without those of the arrays of structures around it. -/
def ownCoords (I : Info) (s : Parse) (m : MFields) (p : Path) : List Path :=
  (match refCoords I s p 0 (ownDims s.ut p) with
    | .ok l => l
    | .error _ => []) ++
  (match metaAt (.struct m) p with
    | some x => labelsFor p x
    | none => [])

def fullCoords (I : Info) (s : Parse) (m : MFields) (p : Path) : List Path :=
  (arraysOf m [] p).flatMap (ownCoords I s m) ++ ownCoords I s m p

structure TensorInv (I : Info) (s : Parse) (m : MFields) (N : NcMeta) : Prop where
  some : ∀ p, (dget N.dims p).isSome → (dget N.coords p).getD [] = fullCoords I s m p ∧
    ∃ l, refCoords I s p 0 (ownDims s.ut p) = .ok l
  none : ∀ p, dget N.dims p = none → dget N.coords p = none

theorem tensorizeOne_coords (hw : WFMFields m) {s : Parse} {e : Entry} (he : e ∈ walkFields [] none 0 m)
    {u : List (Option Dim)} {N N' : NcMeta} (hu : dget s.ut e.path = some u) (hN : TensorInv I s m N)
    (hr : tensorizeOne I s e u N = .ok N') : TensorInv I s m N' := by
  obtain ⟨x, hx⟩ := walk_known hw he
  have hpar := hx.2.2.2.2.2.2.1
  have hlab := walk_labels' hw he hx.2.2.1
  simp only [Option.or_none] at hpar
  have hown : ownDims s.ut e.path = u.filterMap id := by simp [ownDims, hu]
  unfold tensorizeOne at hr
  simp only at hr
  split at hr
  · cases hr
  · rename_i d c hd
    have hc : c = (arraysOf m [] e.path).flatMap (ownCoords I s m) := by
      cases ha : e.parent with
      | none =>
        rw [ha] at hd hpar
        cases hd
        rw [List.getLast?_eq_none_iff.1 hpar.symm]
        rfl
      | some a =>
        rw [ha] at hd hpar
        simp only at hd
        cases hg : dget N.dims a with
        | none => rw [hg] at hd; cases hd
        | some l =>
          rw [hg] at hd
          simp only [Option.map_some, Option.some.injEq, Prod.mk.injEq] at hd
          rw [← hd.2, (hN.some a (by rw [hg]; rfl)).1]
          obtain ⟨t, rfl, h2, -⟩ := arrays_last m e.path [] a hpar.symm
          rw [h2]
          simp [fullCoords]
    split at hr
    · cases hr
    · rename_i l hl
      rw [← hown] at hl
      have ho : ownCoords I s m e.path = l ++ e.labels := by
        unfold ownCoords
        rw [hl, hx.2.2.1, hlab]
      have hfull : c ++ l ++ e.labels = fullCoords I s m e.path := by
        rw [fullCoords, ho, hc, List.append_assoc]
      cases hr
      constructor
      · intro p hp
        simp only [dget_dset] at hp ⊢
        by_cases hpe : p = e.path
        · subst hpe
          refine ⟨?_, l, hl⟩
          split
          · rename_i h0
            rw [← hfull, h0]
            cases hd' : dget N.dims e.path with
            | none => rw [hN.none _ hd']; rfl
            | some l' => rw [(hN.some _ (by rw [hd']; rfl)).1, ← hfull, h0]
          · simp [dget_dset, hfull]
        · rw [if_neg hpe] at hp
          have := hN.some p hp
          refine ⟨?_, this.2⟩
          rw [← this.1]
          split
          · rfl
          · rw [dget_dset, if_neg hpe]
      · intro p hp
        simp only [dget_dset] at hp ⊢
        by_cases hpe : p = e.path
        · rw [if_pos hpe] at hp; cases hp
        · rw [if_neg hpe] at hp
          split
          · exact hN.none p hp
          · rw [dget_dset, if_neg hpe]; exact hN.none p hp

theorem tensorizeAll_coords (hw : WFMFields m) {s : Parse} : ∀ (r : List Entry) {N N' : NcMeta},
    (∀ e ∈ r, e ∈ walkFields [] none 0 m) → TensorInv I s m N → tensorizeAll I s r N = .ok N' → TensorInv I s m N'
  | [], N, N', _, hN, hr => by
    simp only [tensorizeAll, Except.ok.injEq] at hr
    subst hr
    exact hN
  | e :: r, N, N', hm, hN, hr => by
    unfold tensorizeAll at hr
    split at hr
    · exact tensorizeAll_coords hw r (fun e he => hm e (by simp [he])) hN hr
    · rename_i u hu
      split at hr
      · cases hr
      · rename_i N1 h0
        exact tensorizeAll_coords hw r (fun e he => hm e (by simp [he])) (tensorizeOne_coords hw (hm e (by simp)) hu hN h0) hr

end

end Verif.Nc
