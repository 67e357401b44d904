import Verif.Lemmas.XarrayPaths
/-
Where the coordinates of nodes come from.
-/
namespace Verif.Nc
open Verif.Ids Verif.TreeSpec Verif.NcSpec
open Verif.ConvertSpec (mchild child metaAt)
open Verif.AlSpec (arraysOf IsDataPath)

theorem isLabel_leaf : ∀ {c : MFields} {k : Name}, isLabel c k = true → ∃ l, mchild c k = some (.leaf l)
  | .nil, k, h => by simp [isLabel] at h
  | .cons n m r, k, h => by
    unfold isLabel at h
    unfold mchild
    split at h
    · rename_i hk
      rw [if_pos hk]
      cases m with
      | leaf l => exact ⟨l, rfl⟩
      | struct => simp at h
      | aos => simp at h
    · rename_i hk
      rw [if_neg hk]
      exact isLabel_leaf h

theorem label_leaf {M : Meta} {p : Path} {c : MFields} (hp : metaAt M p = some (.aos c)) {q : Path} (hq : q ∈ aosLabels p c) :
    ∃ l, metaAt M q = some (.leaf l) := by
  simp only [aosLabels, List.mem_map, List.mem_filter] at hq
  obtain ⟨n, ⟨-, h⟩, rfl⟩ := hq
  obtain ⟨l, hl⟩ := isLabel_leaf h
  refine ⟨l, ?_⟩
  rw [Verif.Convert.metaAt_append, hp]
  simp [metaAt, child, hl]

mutual
theorem walkNode_labels {M : Meta} : ∀ (x : Meta) (p : Path) (a : Option Path) (l : Nat) (e : Entry), WFMeta x → metaAt M p = some x →
    e ∈ walkNode p a l x → ∀ q ∈ e.labels, ∃ l, metaAt M q = some (.leaf l)
  | .leaf d, p, a, l, e, _, _, he, q, hq => by
    simp only [walkNode, List.mem_singleton] at he
    subst he
    simp at hq
  | .struct c, p, a, l, e, hw, hp, he, q, hq => by
    rw [walkNode, List.mem_cons] at he
    rcases he with rfl | he
    · simp at hq
    · exact walkFields_labels c p a l e (by simpa [WFMeta] using hw)
        (fun n x h => by rw [Verif.Convert.metaAt_append, hp]; simp [metaAt, child, h]) he q hq
  | .aos c, p, a, l, e, hw, hp, he, q, hq => by
    rw [walkNode, List.mem_cons] at he
    rcases he with rfl | he
    · exact label_leaf hp hq
    · exact walkFields_labels c p _ _ e (by simpa [WFMeta] using hw)
        (fun n x h => by rw [Verif.Convert.metaAt_append, hp]; simp [metaAt, child, h]) he q hq
theorem walkFields_labels {M : Meta} : ∀ (c : MFields) (p : Path) (a : Option Path) (l : Nat) (e : Entry), WFMFields c →
    (∀ n x, mchild c n = some x → metaAt M (p ++ [n]) = some x) → e ∈ walkFields p a l c → ∀ q ∈ e.labels, ∃ l, metaAt M q = some (.leaf l)
  | .nil, p, a, l, e, _, _, he, q, hq => by simp [walkFields] at he
  | .cons n m r, p, a, l, e, hw, hp, he, q, hq => by
    simp only [WFMFields] at hw
    rw [walkFields, List.mem_append] at he
    rcases he with he | he
    · exact walkNode_labels m (p ++ [n]) a l e hw.2.1 (hp n m (by simp [mchild])) he q hq
    · refine walkFields_labels r p a l e hw.2.2 (fun k x h => hp k x ?_) he q hq
      rw [mchild, if_neg, h]
      rintro rfl
      exact hw.1 (mchild_names h)
end

section
variable {I : Info} {m : MFields}

/-- All coordinates of dimensions that are known have a source. -/
def Sourced (I : Info) (m : MFields) (coords : List (Dim × List Path)) : Prop :=
  ∀ d c, dget coords d = some c → ∀ q ∈ c, CoordinateSource I m q

theorem sourced_set {coords : List (Dim × List Path)} (h : Sourced I m coords) {d : Dim} {c : List Path}
    (hc : ∀ q ∈ c, CoordinateSource I m q) : Sourced I m (dset coords d c) := by
  intro d' c' h'
  rw [dget_dset] at h'
  split at h'
  · cases h'; exact hc
  · exact h d' c' h'

theorem plan_sourced {e : Entry} (he : Known m e) (hb : errorBase e.path = none)
    (hl : ∀ q ∈ e.labels, ∃ l, metaAt (.struct m) q = some (.leaf l)) {i : Nat} (hi : i < e.ndim) {d : Dim} {t : Bool} {c : List Path}
    (h : planOf I e i = .ok (.own d t c)) : ∀ q ∈ c, CoordinateSource I m q := by
  unfold planOf at h
  split at h
  · rename_i main others hr
    split at h
    · rename_i ha
      cases h
      intro q hq
      rw [List.mem_singleton] at hq
      subst hq
      exact .inside (entry_hasDim he hi) (regular_iff.2 hb) hr (inside_iff.2 ha)
    · cases h
  · split at h
    · cases h
    · cases h
    · cases h
      intro q hq
      split at hq
      · obtain ⟨l, hl⟩ := hl q hq
        exact .index hl
      · rename_i hk
        rw [List.mem_singleton] at hq
        subst hq
        obtain ⟨x, h1, h2, h3, h4, h5, h6, -⟩ := he
        cases x with
        | leaf l => exact .index h3
        | struct => rw [h4] at hi; simp [rank] at hi
        | aos c => exact absurd (h6.2 ⟨c, rfl⟩) hk

theorem parseDims_sourced {e : Entry} (he : Known m e) (hb : errorBase e.path = none)
    (hl : ∀ q ∈ e.labels, ∃ l, metaAt (.struct m) q = some (.leaf l)) : ∀ (n i : Nat) (s : Parse) {l : List (Option Dim)} {s' : Parse},
    i + n ≤ e.ndim → parseDims I e n i s = .ok (l, s') → Sourced I m s.coords → Sourced I m s'.coords
  | 0, i, s, l, s', _, h, hs => by
    simp only [parseDims, Except.ok.injEq, Prod.mk.injEq] at h
    obtain ⟨rfl, rfl⟩ := h
    exact hs
  | n + 1, i, s, l, s', hi, h, hs => by
    rw [parseDims] at h
    split at h
    · cases h
    · rename_i d t c hpl
      split at h
      · cases h
      · rename_i l' s1 h1
        cases h
        exact parseDims_sourced he hb hl n (i + 1) _ (by omega) h1
          (sourced_set hs (plan_sourced he hb hl (by omega) hpl))
    · rename_i q k o hpl
      split at h
      · cases h
      · rename_i l' s1 h1
        cases h
        exact parseDims_sourced he hb hl n (i + 1) _ (by omega) h1 hs

theorem parseError_coords (p base : Path) : ∀ (n i : Nat) (s : Parse), (parseError p base n i s).coords = s.coords
  | 0, _, _ => rfl
  | n + 1, i, s => by rw [parseError, parseError_coords]

theorem parseNode_sourced {e : Entry} (he : Known m e) (hl : ∀ q ∈ e.labels, ∃ l, metaAt (.struct m) q = some (.leaf l)) {s s' : Parse}
    (h : parseNode I e s = .ok s') (hs : Sourced I m s.coords) : Sourced I m s'.coords := by
  unfold parseNode at h
  split at h
  · cases h; exact hs
  · split at h
    · rename_i hk hn
      unfold parseEntry at h
      split at h
      · cases h
        rw [parseError_coords]
        exact hs
      · rename_i hb
        split at h
        · cases h
        · rename_i l s1 h1
          have hs1 := parseDims_sourced he hb hl e.ndim 0 s (by omega) h1 hs
          split at h
          · cases h
          · rename_i s2 h2
            cases h
            unfold parseAlternatives at h2
            split at h2
            · cases h2; exact hs1
            · split at h2
              · cases h2
              · split at h2
                · cases h2
                · rename_i d _ c hc
                  cases h2
                  refine sourced_set hs1 ?_
                  intro q hq
                  rcases List.mem_append.1 hq with hq | hq
                  · exact hs1 _ _ hc q hq
                  · exact .alternative (.node (entry_hasDim he (by omega)) (regular_iff.2 hb) hq)
    · split at h
      · cases h; exact hs
      · cases h; exact hs

theorem parseAll_sourced : ∀ (es : List Entry) {s s' : Parse}, (∀ e ∈ es, Known m e ∧ ∀ q ∈ e.labels, ∃ l, metaAt (.struct m) q = some (.leaf l)) →
    parseAll I es s = .ok s' → Sourced I m s.coords → Sourced I m s'.coords
  | [], s, s', _, h, hs => by
    simp only [parseAll, Except.ok.injEq] at h
    subst h
    exact hs
  | e :: r, s, s', he, h, hs => by
    rw [parseAll] at h
    split at h
    · cases h
    · rename_i s1 h1
      exact parseAll_sourced r (fun e he' => he e (by simp [he'])) h
        (parseNode_sourced (he e (by simp)).1 (he e (by simp)).2 h1 hs)

theorem mergeOne_coords {p a : Path} {s s' : Parse} (h : mergeOne p a s = .ok s') : s'.coords = s.coords := by
  unfold mergeOne at h
  split at h
  · cases h
  · split at h
    · cases h; rfl
    · cases h
  · cases h; rfl
  · cases h

theorem mergeAlts_coords {p : Path} : ∀ {l : List Path} {s s' : Parse}, mergeAlts p l s = .ok s' → s'.coords = s.coords
  | [], s, s', h => by simp only [mergeAlts, Except.ok.injEq] at h; rw [h]
  | a :: r, s, s', h => by
    rw [mergeAlts] at h
    split at h
    · cases h
    · rename_i s1 h1
      rw [mergeAlts_coords h, mergeOne_coords h1]

theorem mem_addNew : ∀ {l c : List Path} {q : Path}, q ∈ addNew c l ↔ q ∈ c ∨ q ∈ l
  | [], c, q => by simp [addNew]
  | a :: r, c, q => by
    rw [addNew, mem_addNew]
    split
    · rename_i h
      constructor
      · rintro (h1 | h1)
        · exact .inl h1
        · exact .inr (by simp [h1])
      · rintro (h1 | h1)
        · exact .inl h1
        · rcases List.mem_cons.1 h1 with rfl | h1
          · exact .inl h
          · exact .inr h1
    · simp [or_assoc]

theorem mergeAll_sourced : ∀ {alts : List (Path × List Path)} {s s' : Parse}, (∀ x ∈ alts, ∀ a ∈ x.2, CoordinateSource I m a) →
    mergeAll alts s = .ok s' → Sourced I m s.coords → Sourced I m s'.coords
  | [], s, s', _, h, hs => by
    simp only [mergeAll, Except.ok.injEq] at h
    subst h
    exact hs
  | (p, l) :: r, s, s', ha, h, hs => by
    rw [mergeAll] at h
    split at h
    · cases h
    · split at h
      · cases h
      · split at h
        · cases h
        · rename_i s1 h1
          split at h
          · cases h
          · rename_i s2 h2
            refine mergeAll_sourced (fun x hx => ha x (by simp [hx])) h ?_
            have hs1 : Sourced I m s1.coords := by rw [mergeAlts_coords h1]; exact hs
            unfold mergeCoords at h2
            split at h2
            · split at h2
              · cases h2
              · rename_i c hc
                cases h2
                refine sourced_set hs1 ?_
                intro q hq
                rcases mem_addNew.1 hq with hq | hq
                · exact hs1 _ _ hc q hq
                · exact ha (p, l) (by simp) q hq
            · cases h2

theorem refCoords_sourced {s : Parse} (hs : Sourced I m s.coords) {p : Path} : ∀ {l : List Dim} {i : Nat} {c : List Path},
    refCoords I s p i l = .ok c → ∀ q ∈ c, CoordinateSource I m q
  | [], i, c, h => by
    simp only [refCoords, Except.ok.injEq] at h
    subst h
    simp
  | d :: r, i, c, h => by
    rw [refCoords] at h
    split at h
    · cases h
    · rename_i l h1
      split at h
      · cases h; exact refCoords_sourced hs h1
      · split at h
        · cases h
        · rename_i c' hc
          cases h
          intro q hq
          rcases List.mem_append.1 hq with hq | hq
          · exact hs _ _ hc q hq
          · exact refCoords_sourced hs h1 q hq

theorem tensorizeAll_sourced {s : Parse} (hs : Sourced I m s.coords) : ∀ {es : List Entry} {N N' : NcMeta},
    (∀ e ∈ es, ∀ q ∈ e.labels, ∃ l, metaAt (.struct m) q = some (.leaf l)) → tensorizeAll I s es N = .ok N' →
    (∀ p c, dget N.coords p = some c → ∀ q ∈ c, CoordinateSource I m q) → ∀ p c, dget N'.coords p = some c → ∀ q ∈ c, CoordinateSource I m q
  | [], N, N', _, h, hN => by
    simp only [tensorizeAll, Except.ok.injEq] at h
    subst h
    exact hN
  | e :: r, N, N', he, h, hN => by
    rw [tensorizeAll] at h
    split at h
    · exact tensorizeAll_sourced hs (fun e he' => he e (by simp [he'])) h hN
    · rename_i u hu
      split at h
      · cases h
      · rename_i N1 h1
        refine tensorizeAll_sourced hs (fun e he' => he e (by simp [he'])) h ?_
        unfold tensorizeOne at h1
        simp only at h1
        split at h1
        · cases h1
        · rename_i d c hdc
          split at h1
          · cases h1
          · rename_i l hrc
            have hc : ∀ q ∈ c, CoordinateSource I m q := by
              split at hdc
              · cases hdc; simp
              · rename_i a ha
                simp only [Option.map_eq_some_iff, Prod.mk.injEq] at hdc
                obtain ⟨d', -, -, rfl⟩ := hdc
                intro q hq
                cases hca : dget N.coords a with
                | none => rw [hca] at hq; simp at hq
                | some c' => rw [hca] at hq; exact hN _ _ hca q hq
            have hall : ∀ q ∈ c ++ l ++ e.labels, CoordinateSource I m q := by
              intro q hq
              rcases List.mem_append.1 hq with hq | hq
              · rcases List.mem_append.1 hq with hq | hq
                · exact hc q hq
                · exact refCoords_sourced hs hrc q hq
              · obtain ⟨l', hl'⟩ := he e (by simp) q hq
                exact .index hl'
            cases h1
            intro p c' hp
            simp only at hp
            split at hp
            · exact hN p c' hp
            · rw [dget_dset] at hp
              split at hp
              · cases hp; exact hall
              · exact hN p c' hp

/-- Coordinates have a source. -/
theorem coords_sourced {fuel : Nat} {N : NcMeta} (hw : WFMFields m) (h : ncMetadata fuel I m = .ok N) {hom : Bool} {p q : Path}
    (hq : q ∈ N.getCoords hom p) : CoordinateSource I m q := by
  obtain ⟨P, ut, hf⟩ := final hw h
  have hlab : ∀ e ∈ walkFields [] none 0 m, ∀ q ∈ e.labels, ∃ l, metaAt (.struct m) q = some (.leaf l) := fun e he =>
    walkFields_labels m [] none 0 e hw (fun n x h => by simp [metaAt, child, h]) he
  have key : ∀ p c, dget N.coords p = some c → ∀ q ∈ c, CoordinateSource I m q := by
    unfold ncMetadata at h
    simp only at h
    split at h
    · cases h
    · rename_i s hs
      have hpi := parseAll_ok I _ [] {} (parseInv_nil I) (by simpa using walk_nodup m [] none 0 hw) hs
      rw [List.nil_append] at hpi
      have h0 := parseAll_sourced (I := I) (m := m) _ (fun e he => ⟨walk_known hw he, hlab e he⟩) hs (by simp [Sourced, dget])
      split at h
      · cases h
      · rename_i s1 h1
        have h2 := mergeAll_sourced (I := I) (m := m) (by
          intro x hx a ha
          refine .alternative ((altBy_iff hw).1 ((hpi.alts x.1 a).1 ⟨x.2, ?_, ha⟩))
          exact dget_of_mem hpi.nodupA hx) h1 h0
        split at h
        · cases h
        · rename_i ut' _
          exact tensorizeAll_sourced (s := { s1 with ut := ut' }) h2 hlab h (by simp [dget])
  unfold NcMeta.getCoords at hq
  split at hq
  · simp at hq
  · rename_i c hc
    split at hq
    · obtain ⟨q', hq', he⟩ := List.mem_map.1 hq
      split at he
      · rename_i ht
        subst he
        obtain ⟨d, hd, -⟩ := List.mem_map.1 ht
        exact .time ((hf.times d).1 hd)
      · subst he; exact key p c hc _ hq'
    · exact key p c hc q hq

end
end Verif.Nc
