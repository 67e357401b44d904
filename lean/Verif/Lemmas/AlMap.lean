import Verif.Spec.AlMap
import Verif.Lemmas.AlRound
/-
Storage keys with a version map.
-/
namespace Verif.Al
open Verif.Ids Verif.AlSpec Verif.TreeSpec Verif.DiffSpec Verif.ConvertSpec
open Verif.Convert (names)

set_option linter.unusedSectionVars false
variable {V : Type} [Value V]

/-- Paths of the arrays of structures whose elements are on the way. -/
def indexed : Path → Addr → List Path
  | _, [] => []
  | p, (n, none) :: a => indexed (p ++ [n]) a
  | p, (n, some _) :: a => (p ++ [n]) :: indexed (p ++ [n]) a

/-- The parts of a key. -/
theorem keyOf_parts (T : Path → Option Path) (a : Addr) : ∀ (p : Path) (P Q : Pos) (q : Path),
    keyOf T p P a = some (P ++ Q, q) →
    Q.map (·.2) = a.filterMap (·.2) ∧ Q.map (fun x => some x.1) = (indexed p a).map T ∧
      T (p ++ names a) = some q := by
  induction a with
  | nil => intro p P Q q h; simp [keyOf] at h
  | cons s a ih =>
    intro p P Q q h
    obtain ⟨n, i⟩ := s
    cases i with
    | none =>
      cases a with
      | nil =>
        rw [keyOf_last] at h
        obtain ⟨r, hr, h⟩ := Option.map_eq_some_iff.1 h
        simp only [Prod.mk.injEq] at h
        have hq : Q = [] := by simpa using h.1
        subst hq
        rw [← h.2]
        simp [indexed, names, hr]
      | cons b a =>
        rw [keyOf] at h
        obtain ⟨r, hr, h⟩ := Option.bind_eq_some_iff.1 h
        obtain ⟨h1, h2, h3⟩ := ih _ _ _ _ h
        refine ⟨by simpa using h1, by rw [indexed]; exact h2, ?_⟩
        rw [names_cons]
        simpa using h3
    | some i =>
      rw [keyOf_elem] at h
      obtain ⟨r, hr, h⟩ := Option.bind_eq_some_iff.1 h
      obtain ⟨R, hR⟩ := keyOf_ext _ _ _ _ _ _ h
      have hQ : Q = (r, i) :: R := by simpa using hR
      subst hQ
      obtain ⟨h1, h2, h3⟩ := ih (p ++ [n]) (P ++ [(r, i)]) R q (by simpa using h)
      refine ⟨by simp [h1], by rw [indexed]; simp [hr, h2], ?_⟩
      rw [names_cons]
      simpa using h3

theorem pos_ext : ∀ (P Q : Pos), P.map (·.2) = Q.map (·.2) → P.map (fun x => some x.1) = Q.map (fun x => some x.1) →
    P = Q := by
  intro P
  induction P with
  | nil => intro Q h _; cases Q <;> simp at h; rfl
  | cons x P ih =>
    intro Q h1 h2
    cases Q with
    | nil => simp at h1
    | cons y Q =>
      simp only [List.map_cons, List.cons.injEq, Option.some.injEq] at h1 h2
      rw [ih Q h1.2 h2.2]
      congr 1
      exact Prod.ext h2.1 h1.1

theorem indexed_eq (a : Addr) : ∀ (m : MFields) (p : Path), IsNode m a → indexed p a = arraysOf m p (names a) := by
  induction a with
  | nil => rintro m p ⟨x, hx, hs⟩; simp [atMeta] at hx; exact absurd hx.symm (hs m)
  | cons s a ih =>
    rintro m p ⟨x, hx, hs⟩
    obtain ⟨n, i⟩ := s
    rw [atMeta_cons] at hx
    rw [names_cons]
    cases hc : mchild m n with
    | none => simp [hc] at hx
    | some y =>
      rw [hc] at hx
      cases i with
      | none =>
        cases a with
        | nil => simp [indexed, arraysOf, names]
        | cons s a =>
          cases y with
          | leaf l => simp [atMeta] at hx
          | aos l => simp [atMeta] at hx
          | struct d =>
            have := ih d (p ++ [n]) ⟨x, hx, hs⟩
            obtain ⟨k, j⟩ := s
            rw [names_cons] at this ⊢
            rw [indexed, arraysOf, hc]
            exact this
      | some i =>
        cases y with
        | leaf l => simp at hx
        | struct l => simp at hx
        | aos d =>
          have hn : IsNode d a := ⟨x, hx, hs⟩
          have := ih d (p ++ [n]) hn
          cases a with
          | nil => exfalso; simp [atMeta] at hx; exact hs d hx.symm
          | cons s a =>
            obtain ⟨k, j⟩ := s
            rw [names_cons] at this ⊢
            rw [indexed, arraysOf, hc, this]

theorem dataPath_of_node {m : MFields} {a : Addr} (h : IsNode m a) : IsDataPath m (names a) := by
  obtain ⟨x, hx, hs⟩ := h
  refine ⟨x, ?_, hs⟩
  suffices ∀ (a : Addr) (m : Meta), atMeta m a = some x → metaAt m (names a) = some x from this a _ hx
  intro a
  induction a with
  | nil => intro m h; simpa [atMeta, names, metaAt] using h
  | cons s a ih =>
    intro m h
    obtain ⟨n, i⟩ := s
    cases m with
    | leaf l => simp [atMeta] at h
    | aos l => simp [atMeta] at h
    | struct c =>
      rw [atMeta_cons] at h
      rw [names_cons, metaAt, child]
      cases hc : mchild c n with
      | none => simp [hc] at h
      | some y =>
        rw [hc] at h
        cases i with
        | none => exact ih y h
        | some i =>
          cases y with
          | leaf l => simp at h
          | struct d => simp at h
          | aos d =>
            have := ih (.struct d) h
            rw [Option.bind_some]
            cases hn : names a with
            | nil =>
              -- an element itself
              rw [hn] at this
              cases a with
              | nil => simp [atMeta] at h; exact absurd h.symm (hs d)
              | cons s a => simp [names] at hn
            | cons k r =>
              rw [hn] at this
              rw [metaAt] at this ⊢
              exact this

/-- The node with a path and given element indices. -/
theorem node_exists (q : Path) : ∀ (m : MFields) (p : Path) (is : List Nat), IsDataPath m q →
    (arraysOf m p q).length = is.length → ∃ b, IsNode m b ∧ names b = q ∧ b.filterMap (·.2) = is := by
  induction q with
  | nil => rintro m p is ⟨x, hx, hs⟩ _; simp [metaAt] at hx; exact absurd hx.symm (hs m)
  | cons n q ih =>
    rintro m p is ⟨x, hx, hs⟩ hl
    rw [metaAt, child] at hx
    cases hc : mchild m n with
    | none => simp [hc] at hx
    | some y =>
      rw [hc, Option.bind_some] at hx
      cases q with
      | nil =>
        simp only [arraysOf, List.length_nil] at hl
        have : is = [] := by cases is <;> simp at hl; rfl
        subst this
        refine ⟨[(n, none)], ⟨x, ?_, hs⟩, by simp [names], by simp⟩
        rw [atMeta_cons, hc]
        simpa [metaAt, atMeta] using hx
      | cons k q =>
        cases y with
        | leaf l => simp [metaAt, child] at hx
        | struct d =>
          rw [arraysOf, hc] at hl
          obtain ⟨b, ⟨z, hz, hzs⟩, h2, h3⟩ := ih d (p ++ [n]) is ⟨x, hx, hs⟩ hl
          refine ⟨(n, none) :: b, ⟨z, ?_, hzs⟩, by rw [names_cons, h2], by simpa using h3⟩
          rw [atMeta_cons, hc]
          exact hz
        | aos d =>
          rw [arraysOf, hc] at hl
          cases is with
          | nil => simp at hl
          | cons i is =>
            obtain ⟨b, ⟨z, hz, hzs⟩, h2, h3⟩ := ih d (p ++ [n]) is
              ⟨x, by rw [metaAt] at hx ⊢; exact hx, hs⟩ (by simpa using hl)
            refine ⟨(n, some i) :: b, ⟨z, ?_, hzs⟩, by rw [names_cons, h2], by simp [h3]⟩
            rw [atMeta_cons, hc]
            exact hz

/-- A node is determined by its path and element indices. -/
theorem node_unique (a : Addr) : ∀ (m : MFields) (b : Addr), IsNode m a → IsNode m b → names a = names b →
    a.filterMap (·.2) = b.filterMap (·.2) → a = b := by
  induction a with
  | nil => rintro m b _ _ h _; cases b <;> simp [names] at h; rfl
  | cons s a ih =>
    rintro m b ⟨x, hx, hs⟩ ⟨y, hy, hs'⟩ h1 h2
    cases b with
    | nil => simp [names] at h1
    | cons t b =>
      obtain ⟨n, i⟩ := s
      obtain ⟨n', j⟩ := t
      rw [names_cons, names_cons, List.cons.injEq] at h1
      obtain ⟨rfl, h1⟩ := h1
      rw [atMeta_cons] at hx hy
      cases hc : mchild m n with
      | none => simp [hc] at hx
      | some z =>
        rw [hc] at hx hy
        cases z with
        | leaf l =>
          cases i with
          | some i => simp at hx
          | none =>
            cases j with
            | some i => simp at hy
            | none =>
              cases a with
              | cons _ _ => simp [atMeta] at hx
              | nil =>
                cases b with
                | cons _ _ => simp [atMeta] at hy
                | nil => rfl
        | struct d =>
          cases i with
          | some i => simp at hx
          | none =>
            cases j with
            | some i => simp at hy
            | none => rw [ih d b ⟨x, hx, hs⟩ ⟨y, hy, hs'⟩ h1 (by simpa using h2)]
        | aos d =>
          cases i with
          | none =>
            cases a with
            | cons _ _ => simp [atMeta] at hx
            | nil =>
              cases j with
              | none =>
                cases b with
                | cons _ _ => simp [atMeta] at hy
                | nil => rfl
              | some j => simp at h2
          | some i =>
            cases j with
            | none =>
              cases b with
              | cons _ _ => simp [atMeta] at hy
              | nil => simp [names] at h1; subst h1; simp [atMeta] at hx; exact absurd hx.symm (hs d)
            | some j =>
              simp only [List.filterMap_cons, List.cons.injEq] at h2
              rw [h2.1, ih d b ⟨x, hx, hs⟩ ⟨y, hy, hs'⟩ h1 h2.2]

theorem pathOf_mapped (N : Nbc) (I : Info V) (mode : Mode) (p : Path) :
    pathOf ⟨I, mode, some N⟩ p = if mode = .independent ∧ I.dynamic p = true then none else mapped N I p := by
  unfold pathOf target mapped
  by_cases h : mode = .independent ∧ I.dynamic p = true
  · rw [if_pos h, if_pos (by simp [h.1, h.2])]; rfl
  · rw [if_neg h, if_neg (by simpa using h)]
    rcases hp : N.path p with _ | _ | ⟨q, tb⟩
    · cases hc : N.change p <;> simp [hp, hc]
    · simp [hp]
    · simp [hp]

section
variable {N : Nbc} {I1 I2 : Info V} {m1 m2 : MFields} {link : Path → Option Path} {mode : Mode}

theorem arrays_dataPath (m : MFields) : ∀ (p r q : Path) , q ∈ arraysOf m p r → ∃ t, q = p ++ t ∧ t ≠ [] ∧ t <+: r ∧ t ≠ r ∧
    ∃ d, metaAt (.struct m) t = some (.aos d) := by
  intro p r
  induction r generalizing m p with
  | nil => intro q h; simp [arraysOf] at h
  | cons n r ih =>
    intro q h
    cases r with
    | nil => simp [arraysOf] at h
    | cons k r =>
      rw [arraysOf] at h
      cases hc : mchild m n with
      | none => simp [hc] at h
      | some y =>
        rw [hc] at h
        have lift : ∀ d, (y = .struct d ∨ y = .aos d) → q ∈ arraysOf d (p ++ [n]) (k :: r) →
            ∃ t, q = p ++ t ∧ t ≠ [] ∧ t <+: n :: k :: r ∧ t ≠ n :: k :: r ∧ ∃ d, metaAt (.struct m) t = some (.aos d) := by
          intro d hd h
          obtain ⟨t, h1, h2, h3, h4, d', h5⟩ := ih d (p ++ [n]) q h
          refine ⟨n :: t, by rw [h1]; simp, by simp, ?_, by simpa using h4, d', ?_⟩
          · obtain ⟨u, hu⟩ := h3; exact ⟨u, by rw [← hu]; rfl⟩
          · rw [metaAt, child, hc, Option.bind_some]
            cases t with
            | nil => exact absurd rfl h2
            | cons k' t => rcases hd with rfl | rfl <;> (rw [metaAt] at h5 ⊢; exact h5)
        cases y with
        | leaf l => simp at h
        | struct d => exact lift d (.inl rfl) h
        | aos d =>
          simp only [List.mem_cons] at h
          rcases h with h | h
          · refine ⟨[n], h, by simp, ⟨k :: r, rfl⟩, by simp, d, ?_⟩
            simp [metaAt, child, hc]
          · exact lift d (.inr rfl) h

theorem keyOf_mono {T T' : Path → Option Path} (h : ∀ p q, T p = some q → T' p = some q) (a : Addr) :
    ∀ (p : Path) (P : Pos) (R : Pos × Path), keyOf T p P a = some R → keyOf T' p P a = some R := by
  induction a with
  | nil => intro p P R h; simp [keyOf] at h
  | cons s a ih =>
    intro p P R hk
    obtain ⟨n, i⟩ := s
    cases i with
    | some i =>
      rw [keyOf_elem] at hk ⊢
      obtain ⟨q, hq, hk⟩ := Option.bind_eq_some_iff.1 hk
      rw [h _ _ hq]
      exact ih _ _ _ hk
    | none =>
      cases a with
      | nil =>
        rw [keyOf_last] at hk ⊢
        obtain ⟨q, hq, hk⟩ := Option.map_eq_some_iff.1 hk
        rw [h _ _ hq, ← hk]
        rfl
      | cons b a =>
        rw [keyOf] at hk ⊢
        obtain ⟨q, hq, hk⟩ := Option.bind_eq_some_iff.1 hk
        rw [h _ _ hq]
        exact ih _ _ _ hk

theorem linked_path (hN : Describes N I1 I2 m1 m2 link) {p q r : Path} (hp : IsDataPath m2 p) (hl : link p = some r)
    (h : pathOf ⟨I2, mode, some N⟩ p = some q) : I1.ctxPath r = q := by
  rw [pathOf_mapped] at h
  split at h
  · cases h
  · rw [hN.here p r hp hl] at h
    exact Option.some.inj h

/-- Nodes with a key are linked. -/
theorem key_linked (hN : Describes N I1 I2 m1 m2 link) {a : Addr} (ha : IsNode m2 a)
    (h : (keyOf (pathOf ⟨I2, mode, some N⟩) [] [] a).isSome) : ∃ q, link (names a) = some q := by
  cases hl : link (names a) with
  | some q => exact ⟨q, rfl⟩
  | none =>
    obtain ⟨t, h1, h2, h3⟩ := hN.skip _ (dataPath_of_node ha) hl
    have := (keyOf_isSome _ a [] [] (isNode_last ha)).1 h t h1 h2
    rw [List.nil_append, pathOf_mapped] at this
    split at this
    · cases this
    · rw [h3] at this; cases this

/-- Counterparts have the same key. -/
theorem counterpart_key (hN : Describes N I1 I2 m1 m2 link) {a b : Addr} (ha : IsNode m2 a) (hb : IsNode m1 b)
    (hcp : Counterpart link a b) (h2 : (keyOf (pathOf ⟨I2, mode, some N⟩) [] [] a).isSome) :
    keyOf (fun p => some (I1.ctxPath p)) [] [] b = keyOf (pathOf ⟨I2, mode, some N⟩) [] [] a := by
  obtain ⟨hl, hi⟩ := hcp
  have h1 : (keyOf (fun p => some (I1.ctxPath p)) [] [] b).isSome := by
    rw [keyOf_isSome _ b [] [] (isNode_last hb)]; simp
  obtain ⟨⟨Q1, q1⟩, e1⟩ := Option.isSome_iff_exists.1 h1
  obtain ⟨⟨Q2, q2⟩, e2⟩ := Option.isSome_iff_exists.1 h2
  obtain ⟨u1, u2, u3⟩ := keyOf_parts _ b [] [] Q1 q1 e1
  obtain ⟨w1, w2, w3⟩ := keyOf_parts _ a [] [] Q2 q2 e2
  rw [e1, e2]
  have hq : q1 = q2 := by
    simp only [List.nil_append] at u3 w3
    have := linked_path hN (dataPath_of_node ha) hl w3
    simp only [Option.some.injEq] at u3
    rw [← u3]
    exact this
  have hQ : Q1 = Q2 := by
    refine pos_ext _ _ (by rw [u1, w1, hi]) ?_
    rw [u2, w2, indexed_eq b m1 [] hb, indexed_eq a m2 [] ha]
    have harr := hN.arrays _ _ (dataPath_of_node ha) hl
    -- both lists of low-level paths are those of the linked arrays
    have hlen : (arraysOf m2 [] (names a)).length = (arraysOf m1 [] (names b)).length := by
      simpa using congrArg List.length harr
    refine List.ext_getElem (by simpa using hlen.symm) fun i g1 g2 => ?_
    simp only [List.length_map] at g1 g2
    simp only [List.getElem_map]
    have hx : link (arraysOf m2 [] (names a))[i] = some (arraysOf m1 [] (names b))[i] := by
      have h := congrArg (fun l => l[i]?) harr
      simp only [List.getElem?_map, List.getElem?_eq_getElem g1, List.getElem?_eq_getElem g2, Option.map_some] at h
      simpa using h
    have s2 : ∃ r, pathOf ⟨I2, mode, some N⟩ (arraysOf m2 [] (names a))[i] = some r := by
      have h := congrArg (fun l => l[i]?) w2
      rw [indexed_eq a m2 [] ha] at h
      simp only [List.getElem?_map, List.getElem?_eq_getElem g2, Option.map_some] at h
      cases hq : Q2[i]? with
      | none => simp [hq] at h
      | some z => rw [hq] at h; exact ⟨z.1, by simpa using h.symm⟩
    obtain ⟨r2, s2⟩ := s2
    have hp2 : IsDataPath m2 (arraysOf m2 [] (names a))[i] := by
      obtain ⟨t, e, -, -, -, d, hd⟩ := arrays_dataPath m2 [] (names a) _ (List.getElem_mem g2)
      rw [e]
      exact ⟨_, hd, by simp⟩
    rw [s2, linked_path hN hp2 hx s2]
  rw [hq, hQ]

/-- Every key is the key of a node of the stored version. -/
theorem counterpart_exists (hN : Describes N I1 I2 m1 m2 link) {a : Addr} (ha : IsNode m2 a) {R : Pos × Path}
    (e : keyOf (pathOf ⟨I2, mode, some N⟩) [] [] a = some R) :
    ∃ b, IsNode m1 b ∧ Counterpart link a b ∧ keyOf (fun p => some (I1.ctxPath p)) [] [] b = some R := by
  obtain ⟨Q, q⟩ := R
  obtain ⟨w1, w2, w3⟩ := keyOf_parts _ a [] [] Q q e
  have hda := dataPath_of_node ha
  obtain ⟨p1, hl⟩ := key_linked hN ha (by rw [e]; rfl)
  obtain ⟨b', g1, g2, g3⟩ := node_exists p1 m1 [] (a.filterMap (·.2)) (hN.exist _ _ hda hl) (by
    have harr := congrArg List.length (hN.arrays _ _ hda hl)
    simp only [List.length_map] at harr
    rw [← harr, ← indexed_eq a m2 [] ha]
    have h3 := congrArg List.length w2
    have h4 := congrArg List.length w1
    simp only [List.length_map] at h3 h4
    rw [← h3, h4])
  have hcp : Counterpart link a b' := ⟨by rw [hl, g2], g3.symm⟩
  exact ⟨b', g1, hcp, (counterpart_key hN ha g1 hcp (by rw [e]; rfl)).trans e⟩

theorem plain_inj (hctx : ∀ t, t ≠ [] → I1.ctxPath t = relPath m1 [] t) {b c : Addr} {R : Pos × Path}
    (hb : IsNode m1 b) (hc : IsNode m1 c) (h1 : keyOf (fun p => some (I1.ctxPath p)) [] [] b = some R)
    (h2 : keyOf (fun p => some (I1.ctxPath p)) [] [] c = some R) : b = c := by
  refine key_inj _ b m1 [] [] [] c R ?_ hb hc h1 h2
  intro t q h1 h2
  simp only [List.nil_append, Option.some.injEq] at h2
  rw [← h2]
  exact hctx t h1

theorem plain_path {p q : Path} (h : pathOf ⟨I1, mode, none⟩ p = some q) : q = I1.ctxPath p := by
  rw [pathOf_plain] at h
  split at h <;> cases h
  rfl

theorem plain_mono {b : Addr} {R : Pos × Path} (h : keyOf (pathOf ⟨I1, mode, none⟩) [] [] b = some R) :
    keyOf (fun p => some (I1.ctxPath p)) [] [] b = some R :=
  keyOf_mono (fun p q h => by rw [plain_path h]) b [] [] R h

/-- With a map, two nodes have the same key exactly if they are counterparts. -/
theorem counterpart_iff (hN : Describes N I1 I2 m1 m2 link) (hctx : ∀ t, t ≠ [] → I1.ctxPath t = relPath m1 [] t)
    {a b : Addr} (ha : IsNode m2 a) (hb : IsNode m1 b) :
    (keyOf (pathOf ⟨I1, mode, none⟩) [] [] b = keyOf (pathOf ⟨I2, mode, some N⟩) [] [] a ∧
      (keyOf (pathOf ⟨I2, mode, some N⟩) [] [] a).isSome) ↔
    (Counterpart link a b ∧ ¬ (mode = .independent ∧ TimeDependent I2 a) ∧
      ¬ (mode = .independent ∧ TimeDependent I1 b)) := by
  constructor
  · rintro ⟨h1, h2⟩
    obtain ⟨R, e⟩ := Option.isSome_iff_exists.1 h2
    rw [e] at h1
    obtain ⟨b', g1, hcp, hk⟩ := counterpart_exists hN ha e
    have hbb : b = b' := plain_inj hctx hb g1 (plain_mono h1) hk
    subst hbb
    refine ⟨hcp, ?_, ?_⟩
    · rintro ⟨h3, t, h4, h5, h6⟩
      have := (keyOf_isSome _ a [] [] (isNode_last ha)).1 h2 t h4 h5
      rw [List.nil_append, pathOf_mapped, if_pos ⟨h3, h6⟩] at this
      cases this
    · exact (stored_iff I1 mode (isNode_last hb)).1 (by rw [h1]; rfl)
  · rintro ⟨hcp, h1, h2⟩
    have k2 : (keyOf (pathOf ⟨I2, mode, some N⟩) [] [] a).isSome := by
      rw [keyOf_isSome _ a [] [] (isNode_last ha)]
      intro t ht hp
      rw [List.nil_append, pathOf_mapped, if_neg (fun h => h1 ⟨h.1, t, ht, hp, h.2⟩)]
      exact hN.above _ _ t (dataPath_of_node ha) hcp.1 ht hp
    refine ⟨?_, k2⟩
    have k1 := (stored_iff I1 mode (isNode_last hb)).2 h2
    obtain ⟨R, e⟩ := Option.isSome_iff_exists.1 k1
    rw [e, ← counterpart_key hN ha hb hcp k2, plain_mono e]

end

end Verif.Al
