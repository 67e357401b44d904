import Verif.Lemmas.DiffAddr
import Verif.Spec.DiffReport
/-! Which differences `idsdiffgen` yields. -/
set_option linter.unusedSectionVars false
namespace Verif.Ids.DiffReport
open Verif.Ids Verif.TreeSpec Verif.DiffSpec

variable {V : Type} [Value V] (eqv : V → V → Bool)

/-! ### One level -/

theorem filledAt_absent {n : Name} {m : Meta} {r : Fields V} (h : n ∉ r.names) (k : Name) :
    filled (Fields.absent n m r) k = filled r k := by
  by_cases e : k = n
  · subst e
    rw [filled_not_name h, filled_none]
    intro x hx; simp [Fields.get?] at hx; subst hx; exact fresh_hasValue m
  · simp [filled, Fields.get?, e]

theorem filledAt_present (n : Name) (x : Node V) (r : Fields V) (k : Name) :
    filled (Fields.present n x r) k = if k = n then (if x.hasValue then some x else none) else filled r k := by
  by_cases e : k = n
  · subst e; simp [filled, Fields.get?, Option.filter]
  · simp [filled, Fields.get?, e]

theorem mem_diffFields_ch (path : List Name) (D : Diff) (c : Fields V) (hc : WFFields c) :
    ∀ (ch : List (Name × Node V)), (ch.map (·.1)).Nodup →
    (D ∈ diffFields eqv path c ch ↔
      (∃ n x, filled c n = some x ∧ lookup n ch = none ∧ ∃ q ∈ onlyPaths path n x, D = .left q) ∨
      (∃ n x y, filled c n = some x ∧ lookup n ch = some y ∧ D ∈ diffNode eqv (path ++ [n]) x y) ∨
      (∃ n y, filled c n = none ∧ lookup n ch = some y ∧ ∃ q ∈ onlyPaths path n y, D = .right q)) := by
  match c with
  | .nil =>
    intro ch hch
    have hf : ∀ n, filled (Fields.nil : Fields V) n = none := fun n => by simp [filled, Fields.get?]
    simp only [diffFields, List.mem_flatMap, List.mem_map, hf]
    constructor
    · rintro ⟨⟨n, y⟩, hp, q, hq, rfl⟩
      exact .inr (.inr ⟨n, y, trivial, lookup_mem hch hp, q, hq, rfl⟩)
    · rintro (⟨n, x, h, -⟩ | ⟨n, x, y, h, -⟩ | ⟨n, y, -, h, q, hq, rfl⟩)
      · cases h
      · cases h
      · exact ⟨(n, y), mem_lookup h, q, hq, rfl⟩
  | .absent n m r =>
    intro ch hch
    simp only [WFFields] at hc
    simp only [diffFields, filledAt_absent hc.1]
    exact mem_diffFields_ch path D r hc.2.2 ch hch
  | .present n x r =>
    intro ch hch
    simp only [WFFields] at hc
    have hr : filled r n = none := filled_not_name hc.1
    simp only [diffFields]
    by_cases hv : x.hasValue = true
    · have hnd := pop_nodup (k := n) hch
      have ih := mem_diffFields_ch path D r hc.2.2 (pop n ch).2 hnd.1
      have hp : pop n ch = (lookup n ch, (pop n ch).2) := by rw [← pop_fst]
      have hpop : ∀ k, k ≠ n → lookup k (pop n ch).2 = lookup k ch := fun k hk => by
        rw [lookup_pop hch, if_neg hk]
      have hpn : lookup n (pop n ch).2 = none := by rw [lookup_pop hch, if_pos rfl]
      have hfil : ∀ k, k ≠ n → filled (Fields.present n x r) k = filled r k := fun k hk => by
        rw [filledAt_present, if_neg hk]
      have hfn : filled (Fields.present n x r) n = some x := by
        rw [filledAt_present, if_pos rfl, if_pos hv]
      have rest : D ∈ diffFields eqv path r (pop n ch).2 ↔
          (∃ k z, k ≠ n ∧ filled (Fields.present n x r) k = some z ∧ lookup k ch = none ∧
            ∃ q ∈ onlyPaths path k z, D = .left q) ∨
          (∃ k z y, k ≠ n ∧ filled (Fields.present n x r) k = some z ∧ lookup k ch = some y ∧
            D ∈ diffNode eqv (path ++ [k]) z y) ∨
          (∃ k y, k ≠ n ∧ filled (Fields.present n x r) k = none ∧ lookup k ch = some y ∧
            ∃ q ∈ onlyPaths path k y, D = .right q) := by
        rw [ih]
        constructor
        · rintro (⟨k, z, h1, h2, h3⟩ | ⟨k, z, y, h1, h2, h3⟩ | ⟨k, y, h1, h2, h3⟩)
          · have hk : k ≠ n := by rintro rfl; rw [hr] at h1; cases h1
            exact .inl ⟨k, z, hk, by rw [hfil k hk]; exact h1, by rw [← hpop k hk]; exact h2, h3⟩
          · have hk : k ≠ n := by rintro rfl; rw [hr] at h1; cases h1
            exact .inr (.inl ⟨k, z, y, hk, by rw [hfil k hk]; exact h1, by rw [← hpop k hk]; exact h2, h3⟩)
          · have hk : k ≠ n := by rintro rfl; rw [hpn] at h2; cases h2
            exact .inr (.inr ⟨k, y, hk, by rw [hfil k hk]; exact h1, by rw [← hpop k hk]; exact h2, h3⟩)
        · rintro (⟨k, z, hk, h1, h2, h3⟩ | ⟨k, z, y, hk, h1, h2, h3⟩ | ⟨k, y, hk, h1, h2, h3⟩)
          · exact .inl ⟨k, z, by rw [← hfil k hk]; exact h1, by rw [hpop k hk]; exact h2, h3⟩
          · exact .inr (.inl ⟨k, z, y, by rw [← hfil k hk]; exact h1, by rw [hpop k hk]; exact h2, h3⟩)
          · exact .inr (.inr ⟨k, y, by rw [← hfil k hk]; exact h1, by rw [hpop k hk]; exact h2, h3⟩)
      rw [if_pos hv, hp]
      have split : D ∈ (match (lookup n ch, (pop n ch).2) with
          | (none, ch) => (onlyPaths path n x).map Diff.left ++ diffFields eqv path r ch
          | (some y, ch) => diffNode eqv (path ++ [n]) x y ++ diffFields eqv path r ch) ↔
          (lookup n ch = none ∧ ∃ q ∈ onlyPaths path n x, D = .left q) ∨
          (∃ y, lookup n ch = some y ∧ D ∈ diffNode eqv (path ++ [n]) x y) ∨
          D ∈ diffFields eqv path r (pop n ch).2 := by
        cases hl : lookup n ch with
        | none =>
          simp only [List.mem_append, List.mem_map]
          constructor
          · rintro (⟨q, hq, rfl⟩ | h)
            · exact .inl ⟨trivial, q, hq, rfl⟩
            · exact .inr (.inr h)
          · rintro (⟨-, q, hq, rfl⟩ | ⟨y, h, -⟩ | h)
            · exact .inl ⟨q, hq, rfl⟩
            · cases h
            · exact .inr h
        | some y =>
          simp only [List.mem_append]
          constructor
          · rintro (h | h)
            · exact .inr (.inl ⟨y, rfl, h⟩)
            · exact .inr (.inr h)
          · rintro (⟨h, -⟩ | ⟨y', h, h'⟩ | h)
            · cases h
            · cases h; exact .inl h'
            · exact .inr h
      refine split.trans ?_
      rw [rest]
      constructor
      · rintro (⟨h1, h2⟩ | ⟨y, h1, h2⟩ | ⟨k, z, -, h⟩ | ⟨k, z, y, -, h⟩ | ⟨k, y, -, h⟩)
        · exact .inl ⟨n, x, hfn, h1, h2⟩
        · exact .inr (.inl ⟨n, x, y, hfn, h1, h2⟩)
        · exact .inl ⟨k, z, h⟩
        · exact .inr (.inl ⟨k, z, y, h⟩)
        · exact .inr (.inr ⟨k, y, h⟩)
      · rintro (⟨k, z, h1, h2, h3⟩ | ⟨k, z, y, h1, h2, h3⟩ | ⟨k, y, h1, h2, h3⟩)
        · by_cases hk : k = n
          · subst hk; rw [hfn] at h1; cases h1; exact .inl ⟨h2, h3⟩
          · exact .inr (.inr (.inl ⟨k, z, hk, h1, h2, h3⟩))
        · by_cases hk : k = n
          · subst hk; rw [hfn] at h1; cases h1; exact .inr (.inl ⟨y, h2, h3⟩)
          · exact .inr (.inr (.inr (.inl ⟨k, z, y, hk, h1, h2, h3⟩)))
        · have hk : k ≠ n := by rintro rfl; rw [hfn] at h1; cases h1
          exact .inr (.inr (.inr (.inr ⟨k, y, hk, h1, h2, h3⟩)))
    · have hv' : x.hasValue = false := by simpa using hv
      have hfil : ∀ k, filled (Fields.present n x r) k = filled r k := by
        intro k; rw [filledAt_present]; split
        · next e => subst e; simp [hr]
        · rfl
      rw [if_neg hv]
      simp only [hfil]
      exact mem_diffFields_ch path D r hc.2.2 ch hch

/-- The differences of two structures, by children. -/
theorem mem_diffFields (path : List Name) (D : Diff) {c d : Fields V} (hc : WFFields c) (hd : WFFields d) :
    D ∈ diffFields eqv path c d.nonempty ↔
      (∃ n x, filled c n = some x ∧ filled d n = none ∧ ∃ q ∈ onlyPaths path n x, D = .left q) ∨
      (∃ n x y, filled c n = some x ∧ filled d n = some y ∧ D ∈ diffNode eqv (path ++ [n]) x y) ∨
      (∃ n y, filled c n = none ∧ filled d n = some y ∧ ∃ q ∈ onlyPaths path n y, D = .right q) := by
  rw [mem_diffFields_ch eqv path D c hc _ (nonempty_nodup hd)]
  simp only [lookup_nonempty hd]

theorem mem_diffElems (path : List Name) (D : Diff) (e : Elems V) : ∀ f : Elems V,
    D ∈ diffElems eqv path e f ↔
      ∃ i c d, e.get? i = some c ∧ f.get? i = some d ∧ D ∈ diffFields eqv path c d.nonempty := by
  match e with
  | .nil => intro f; simp [diffElems, Elems.get?]
  | .cons c r =>
    intro f
    cases f with
    | nil => simp [diffElems, Elems.get?]
    | cons d s =>
      simp only [diffElems, List.mem_append, mem_diffElems path D r s]
      constructor
      · rintro (h | ⟨i, c', d', h1, h2, h3⟩)
        · exact ⟨0, c, d, rfl, rfl, h⟩
        · exact ⟨i + 1, c', d', h1, h2, h3⟩
      · rintro ⟨i, c', d', h1, h2, h3⟩
        cases i with
        | zero => simp only [Elems.get?, Option.some.injEq] at h1 h2; subst h1; subst h2; exact .inl h3
        | succ i => exact .inr ⟨i, c', d', h1, h2, h3⟩

/-- The differences of two children with the same name. -/
theorem mem_diffNode (path : List Name) (D : Diff) {x y : Node V} (hx : x.hasValue = true)
    (hy : y.hasValue = true) :
    D ∈ diffNode eqv path x y ↔
      (D = .both path ∧ Unlike eqv x y) ∨
      (∃ c d, x = .struct c ∧ y = .struct d ∧ D ∈ diffFields eqv path c d.nonempty) ∨
      (∃ m e m' f i c d, x = .aos m e ∧ y = .aos m' f ∧ e.get? i = some c ∧ f.get? i = some d ∧
        D ∈ diffFields eqv path c d.nonempty) := by
  cases x with
  | leaf l v =>
    cases y with
    | leaf l' w =>
      cases v with
      | none => simp [Node.hasValue, leafHasValue] at hx
      | some v =>
        cases w with
        | none => simp [Node.hasValue, leafHasValue] at hy
        | some w => cases he : eqv v w <;> simp [diffNode, Unlike, he]
    | struct d => simp [diffNode, Unlike]
    | aos m f => simp [diffNode, Unlike]
  | struct c =>
    cases y with
    | leaf l' w => simp [diffNode, Unlike]
    | aos m f => simp [diffNode, Unlike]
    | struct d => simp [diffNode, Unlike]
  | aos m e =>
    cases y with
    | leaf l' w => simp [diffNode, Unlike]
    | struct d => simp [diffNode, Unlike]
    | aos m' f =>
      simp only [diffNode, Unlike, List.mem_append, mem_diffElems]
      constructor
      · rintro (h | ⟨i, c, d, h1, h2, h3⟩)
        · split at h
          · next hl => simp at h; exact .inl ⟨h, hl⟩
          · simp at h
        · exact .inr (.inr ⟨m, e, m', f, i, c, d, rfl, rfl, h1, h2, h3⟩)
      · rintro (⟨rfl, hl⟩ | ⟨c, d, h, -⟩ | ⟨_, _, _, _, i, c, d, h, h', h1, h2, h3⟩)
        · left; rw [if_pos hl]; simp
        · cases h
        · cases h; cases h'; exact .inr ⟨i, c, d, h1, h2, h3⟩

/-! ### Addresses -/

theorem at_child {c : Fields V} {n : Name} {r : Addr} {u : Node V} :
    (Node.struct c).at ((n, none) :: r) = some u ↔ ∃ x, c.get? n = some x ∧ x.at r = some u := by
  simp only [Node.at, Node.item]
  cases c.get? n with
  | none => simp
  | some x => simp

theorem at_element {c : Fields V} {n : Name} {i : Nat} {r : Addr} {u : Node V} :
    (Node.struct c).at ((n, some i) :: r) = some u ↔
      ∃ m e f, c.get? n = some (.aos m e) ∧ e.get? i = some f ∧ (Node.struct f).at r = some u := by
  simp only [Node.at, Node.item]
  cases c.get? n with
  | none => simp
  | some x =>
    cases x with
    | leaf l v => simp
    | struct d => simp
    | aos m e =>
      cases h : e.get? i with
      | none =>
        simp only [Option.bind_none, h]
        constructor
        · intro h; cases h
        · rintro ⟨m', e', f, h1, h2, -⟩; cases h1; rw [h] at h2; cases h2
      | some f =>
        simp only [Option.bind_some, h]
        constructor
        · intro h'; exact ⟨m, e, f, rfl, h, h'⟩
        · rintro ⟨m', e', f', h1, h2, h3⟩; cases h1; rw [h] at h2; cases h2; exact h3

theorem at_leaf {l : LeafMeta} {v : Option V} {r : Addr} {u : Node V} :
    (Node.leaf l v).at r = some u ↔ r = [] ∧ u = .leaf l v := by
  cases r with
  | nil => simp [Node.at, eq_comm]
  | cons s r => simp [Node.at, Node.item]

theorem at_aos {m : MFields} {e : Elems V} {r : Addr} {u : Node V} :
    (Node.aos m e).at r = some u ↔ r = [] ∧ u = .aos m e := by
  cases r with
  | nil => simp [Node.at, eq_comm]
  | cons s r => simp [Node.at, Node.item]

theorem hasValue_up {x u : Node V} {r : Addr} (h : x.at r = some u) (hu : u.hasValue = true) :
    x.hasValue = true := by
  induction r generalizing x with
  | nil => simp [Node.at] at h; subst h; exact hu
  | cons s r ih =>
    cases x with
    | leaf l v => simp [Node.at, Node.item] at h
    | aos m e => simp [Node.at, Node.item] at h
    | struct c =>
      obtain ⟨n, i⟩ := s
      cases i with
      | none =>
        obtain ⟨z, h1, h2⟩ := at_child.1 h
        rw [hasValue_struct]; exact Fields.hasValue_of_get? h1 (ih h2)
      | some i =>
        obtain ⟨m, e, f, h1, h2, h3⟩ := at_element.1 h
        rw [hasValue_struct]
        refine Fields.hasValue_of_get? h1 ?_
        exact elems_length_pos h2

theorem element_split {x u : Node V} {a : Addr} (hx : x.at a = some u) (h : IsElement a) :
    (∃ f, u = .struct f) ∧ x.hasValue = true := by
  obtain ⟨p, n, i, rfl⟩ := h
  rw [at_append] at hx
  cases hp : x.at p with
  | none => rw [hp] at hx; cases hx
  | some z =>
    rw [hp] at hx
    simp only [Option.bind_some] at hx
    cases z with
    | leaf l v => simp [Node.at, Node.item] at hx
    | aos m e => simp [Node.at, Node.item] at hx
    | struct c =>
      obtain ⟨m, e, f, h1, h2, h3⟩ := at_element.1 hx
      simp only [Node.at, Option.some.injEq] at h3
      refine ⟨⟨f, h3.symm⟩, hasValue_up hp ?_⟩
      rw [hasValue_struct]
      refine Fields.hasValue_of_get? h1 ?_
      exact elems_length_pos h2

theorem filled_of_kind {x : Node V} (h : x.hasValue = true) (hs : ∀ f, x ≠ .struct f) : Filled x := by
  cases x with
  | struct c => exact absurd rfl (hs c)
  | leaf l v => cases v <;> simp_all [Filled, Node.hasValue, leafHasValue]
  | aos m e => simp only [Node.hasValue, gt_iff_lt, decide_eq_true_eq] at h; simp only [Filled]; omega

/-! ### Differences on both sides -/

theorem both_mem (x : Node V) : ∀ c, (x = .struct c ∨ ∃ m e i, x = .aos m e ∧ Elems.get? e i = some c) →
    ∀ (d : Fields V) (path p : List Name), WFFields c → WFFields d →
    (.both p ∈ diffFields eqv path c d.nonempty ↔
      ∃ a u w, p = path ++ a.map (·.1) ∧ (Node.struct c).at a = some u ∧ (Node.struct d).at a = some w ∧
        u.hasValue = true ∧ w.hasValue = true ∧ Unlike eqv u w) := by
  refine node_induct (fun x => ∀ c, (x = .struct c ∨ ∃ m e i, x = .aos m e ∧ Elems.get? e i = some c) →
    ∀ (d : Fields V) (path p : List Name), WFFields c → WFFields d →
    (.both p ∈ diffFields eqv path c d.nonempty ↔
      ∃ a u w, p = path ++ a.map (·.1) ∧ (Node.struct c).at a = some u ∧ (Node.struct d).at a = some w ∧
        u.hasValue = true ∧ w.hasValue = true ∧ Unlike eqv u w)) ?_ ?_ ?_ x
  · rintro l v c (h | ⟨m, e, i, h, -⟩) <;> cases h
  · rintro c ih _ (h | ⟨m, e, i, h, -⟩)
    case inr => cases h
    cases h
    intro d path p hc hd
    rw [mem_diffFields eqv path _ hc hd]
    constructor
    · rintro (⟨n, x, -, -, q, -, h⟩ | ⟨n, x, y, hx, hy, h⟩ | ⟨n, y, -, -, q, -, h⟩)
      · cases h
      · obtain ⟨gx, vx⟩ := filled_iff.1 hx
        obtain ⟨gy, vy⟩ := filled_iff.1 hy
        rcases (mem_diffNode eqv _ _ vx vy).1 h with ⟨h, hu⟩ | ⟨c1, d1, rfl, rfl, h⟩ | ⟨m, e, m', f, i, c1, d1, rfl, rfl, h1, h2, h⟩
        · cases h
          exact ⟨[(n, none)], x, y, by simp, at_child.2 ⟨x, gx, rfl⟩, at_child.2 ⟨y, gy, rfl⟩, vx, vy, hu⟩
        · have w1 := wf_get hc gx
          have w2 := wf_get hd gy
          simp only [WF] at w1 w2
          obtain ⟨a, u, w, rfl, h1, h2, h3⟩ := (ih n _ hx c1 (.inl rfl) d1 _ p w1 w2).1 h
          exact ⟨(n, none) :: a, u, w, by simp, at_child.2 ⟨_, gx, h1⟩, at_child.2 ⟨_, gy, h2⟩, h3⟩
        · have w1 := wf_get hc gx
          have w2 := wf_get hd gy
          simp only [WF] at w1 w2
          obtain ⟨a, u, w, rfl, h3, h4, h5⟩ := (ih n _ hx c1 (.inr ⟨m, e, i, rfl, h1⟩) d1 _ p
            (wf_elem w1.2 h1) (wf_elem w2.2 h2)).1 h
          exact ⟨(n, some i) :: a, u, w, by simp, at_element.2 ⟨m, e, c1, gx, h1, h3⟩,
            at_element.2 ⟨m', f, d1, gy, h2, h4⟩, h5⟩
      · cases h
    · rintro ⟨a, u, w, rfl, h1, h2, vu, vw, hu⟩
      right; left
      cases a with
      | nil =>
        simp only [Node.at, Option.some.injEq] at h1 h2
        subst h1; subst h2; exact absurd hu (by simp [Unlike])
      | cons s r =>
        obtain ⟨n, i⟩ := s
        cases i with
        | none =>
          obtain ⟨x, gx, h1⟩ := at_child.1 h1
          obtain ⟨y, gy, h2⟩ := at_child.1 h2
          have vx := hasValue_up h1 vu
          have vy := hasValue_up h2 vw
          refine ⟨n, x, y, filled_iff.2 ⟨gx, vx⟩, filled_iff.2 ⟨gy, vy⟩, ?_⟩
          rw [mem_diffNode eqv _ _ vx vy]
          cases r with
          | nil =>
            simp only [Node.at, Option.some.injEq] at h1 h2
            subst h1; subst h2
            exact .inl ⟨by simp, hu⟩
          | cons s r =>
            right; left
            cases x with
            | leaf l v => simp [Node.at, Node.item] at h1
            | aos m e => simp [Node.at, Node.item] at h1
            | struct c1 =>
              cases y with
              | leaf l v => simp [Node.at, Node.item] at h2
              | aos m e => simp [Node.at, Node.item] at h2
              | struct d1 =>
                have w1 := wf_get hc gx
                have w2 := wf_get hd gy
                simp only [WF] at w1 w2
                refine ⟨c1, d1, rfl, rfl, ?_⟩
                rw [ih n _ (filled_iff.2 ⟨gx, vx⟩) c1 (.inl rfl) d1 _ _ w1 w2]
                exact ⟨s :: r, u, w, by simp, h1, h2, vu, vw, hu⟩
        | some i =>
          obtain ⟨m, e, c1, gx, e1, h1⟩ := at_element.1 h1
          obtain ⟨m', f, d1, gy, e2, h2⟩ := at_element.1 h2
          have vx : (Node.aos m e).hasValue = true := by
            exact elems_length_pos e1
          have vy : (Node.aos m' f).hasValue = true := by
            exact elems_length_pos e2
          refine ⟨n, _, _, filled_iff.2 ⟨gx, vx⟩, filled_iff.2 ⟨gy, vy⟩, ?_⟩
          rw [mem_diffNode eqv _ _ vx vy]
          right; right
          have w1 := wf_get hc gx
          have w2 := wf_get hd gy
          simp only [WF] at w1 w2
          refine ⟨m, e, m', f, i, c1, d1, rfl, rfl, e1, e2, ?_⟩
          rw [ih n _ (filled_iff.2 ⟨gx, vx⟩) c1 (.inr ⟨m, e, i, rfl, e1⟩) d1 _ _ (wf_elem w1.2 e1) (wf_elem w2.2 e2)]
          exact ⟨r, u, w, by simp, h1, h2, vu, vw, hu⟩
  · rintro m e ih c (h | ⟨m', e', i, h, hi⟩)
    · cases h
    · cases h
      exact ih i c hi c (.inl rfl)

/-! ### Differences on one side -/

theorem right_mem (x : Node V) : ∀ c, (x = .struct c ∨ ∃ m e i, x = .aos m e ∧ Elems.get? e i = some c) →
    ∀ (d : Fields V) (path p : List Name), WFFields c → WFFields d →
    (.right p ∈ diffFields eqv path c d.nonempty ↔ .left p ∈ diffFields eqv path d c.nonempty) := by
  refine node_induct (fun x => ∀ c, (x = .struct c ∨ ∃ m e i, x = .aos m e ∧ Elems.get? e i = some c) →
    ∀ (d : Fields V) (path p : List Name), WFFields c → WFFields d →
    (.right p ∈ diffFields eqv path c d.nonempty ↔ .left p ∈ diffFields eqv path d c.nonempty)) ?_ ?_ ?_ x
  · rintro l v c (h | ⟨m, e, i, h, -⟩) <;> cases h
  · rintro c ih _ (h | ⟨m, e, i, h, -⟩)
    case inr => cases h
    cases h
    intro d path p hc hd
    rw [mem_diffFields eqv path _ hc hd, mem_diffFields eqv path _ hd hc]
    have key : ∀ n x y, filled c n = some x → filled d n = some y →
        (.right p ∈ diffNode eqv (path ++ [n]) x y ↔ .left p ∈ diffNode eqv (path ++ [n]) y x) := by
      intro n x y hx hy
      obtain ⟨gx, vx⟩ := filled_iff.1 hx
      obtain ⟨gy, vy⟩ := filled_iff.1 hy
      have w1 := wf_get hc gx
      have w2 := wf_get hd gy
      rw [mem_diffNode eqv _ _ vx vy, mem_diffNode eqv _ _ vy vx]
      constructor
      · rintro (⟨h, -⟩ | ⟨c1, d1, rfl, rfl, h⟩ | ⟨m, e, m', f, i, c1, d1, rfl, rfl, h1, h2, h⟩)
        · cases h
        · simp only [WF] at w1 w2
          exact .inr (.inl ⟨d1, c1, rfl, rfl, (ih n _ hx c1 (.inl rfl) d1 _ p w1 w2).1 h⟩)
        · simp only [WF] at w1 w2
          exact .inr (.inr ⟨m', f, m, e, i, d1, c1, rfl, rfl, h2, h1, (ih n _ hx c1 (.inr ⟨m, e, i, rfl, h1⟩) d1 _ p
            (wf_elem w1.2 h1) (wf_elem w2.2 h2)).1 h⟩)
      · rintro (⟨h, -⟩ | ⟨d1, c1, rfl, rfl, h⟩ | ⟨m', f, m, e, i, d1, c1, rfl, rfl, h2, h1, h⟩)
        · cases h
        · simp only [WF] at w1 w2
          exact .inr (.inl ⟨c1, d1, rfl, rfl, (ih n _ hx c1 (.inl rfl) d1 _ p w1 w2).2 h⟩)
        · simp only [WF] at w1 w2
          exact .inr (.inr ⟨m, e, m', f, i, c1, d1, rfl, rfl, h1, h2, (ih n _ hx c1 (.inr ⟨m, e, i, rfl, h1⟩) d1 _ p
            (wf_elem w1.2 h1) (wf_elem w2.2 h2)).2 h⟩)
    constructor
    · rintro (⟨n, x, -, -, q, -, h⟩ | ⟨n, x, y, hx, hy, h⟩ | ⟨n, y, h1, h2, q, hq, h⟩)
      · cases h
      · exact .inr (.inl ⟨n, y, x, hy, hx, (key n x y hx hy).1 h⟩)
      · cases h; exact .inl ⟨n, y, h2, h1, _, hq, rfl⟩
    · rintro (⟨n, y, h2, h1, q, hq, h⟩ | ⟨n, y, x, hy, hx, h⟩ | ⟨n, x, -, -, q, -, h⟩)
      · cases h; exact .inr (.inr ⟨n, y, h1, h2, _, hq, rfl⟩)
      · exact .inr (.inl ⟨n, x, y, hx, hy, (key n x y hx hy).2 h⟩)
      · cases h
  · rintro m e ih c (h | ⟨m', e', i, h, hi⟩)
    · cases h
    · cases h
      exact ih i c hi c (.inl rfl)

theorem only_child {c d c1 d1 : Fields V} {n : Name} {a : Addr} (gx : c.get? n = some (.struct c1))
    (gy : d.get? n = some (.struct d1)) (vy : (Node.struct d1).hasValue = true)
    (h : Only (.struct c1) (.struct d1) a) : Only (.struct c) (.struct d) ((n, none) :: a) := by
  obtain ⟨b, k, r, u, z, g, rfl, h1, h2, h3, h4, h5, h6, h7⟩ := h
  refine ⟨(n, none) :: b, k, r, u, z, g, rfl, at_child.2 ⟨_, gx, h1⟩, h2, at_child.2 ⟨_, gx, h3⟩,
    at_child.2 ⟨_, gy, h4⟩, ?_, h6, h7⟩
  rcases h5 with rfl | h5 | h5
  · simp only [Node.at, Option.some.injEq, Node.struct.injEq] at h4; subst h4
    exact .inr (.inr (by rwa [hasValue_struct] at vy))
  · exact .inr (.inl (isElement_none.2 h5))
  · exact .inr (.inr h5)

theorem only_element {c d c1 d1 : Fields V} {n : Name} {i : Nat} {a : Addr} {m m' : MFields} {e f : Elems V}
    (gx : c.get? n = some (.aos m e)) (e1 : e.get? i = some c1)
    (gy : d.get? n = some (.aos m' f)) (e2 : f.get? i = some d1)
    (h : Only (.struct c1) (.struct d1) a) : Only (.struct c) (.struct d) ((n, some i) :: a) := by
  obtain ⟨b, k, r, u, z, g, rfl, h1, h2, h3, h4, h5, h6, h7⟩ := h
  refine ⟨(n, some i) :: b, k, r, u, z, g, rfl, at_element.2 ⟨m, e, c1, gx, e1, h1⟩, h2,
    at_element.2 ⟨m, e, c1, gx, e1, h3⟩, at_element.2 ⟨m', f, d1, gy, e2, h4⟩, ?_, h6, h7⟩
  rcases h5 with rfl | h5 | h5
  · exact .inr (.inl ⟨[], n, i, rfl⟩)
  · obtain ⟨p, k, j, rfl⟩ := h5
    exact .inr (.inl ⟨(n, some i) :: p, k, j, rfl⟩)
  · exact .inr (.inr h5)

theorem left_mem (x : Node V) : ∀ c, (x = .struct c ∨ ∃ m e i, x = .aos m e ∧ Elems.get? e i = some c) →
    ∀ (d : Fields V) (path p : List Name), WFFields c → WFFields d →
    (.left p ∈ diffFields eqv path c d.nonempty ↔
      ∃ a, p = path ++ a.map (·.1) ∧ Only (.struct c) (.struct d) a) := by
  refine node_induct (fun x => ∀ c, (x = .struct c ∨ ∃ m e i, x = .aos m e ∧ Elems.get? e i = some c) →
    ∀ (d : Fields V) (path p : List Name), WFFields c → WFFields d →
    (.left p ∈ diffFields eqv path c d.nonempty ↔
      ∃ a, p = path ++ a.map (·.1) ∧ Only (.struct c) (.struct d) a)) ?_ ?_ ?_ x
  · rintro l v c (h | ⟨m, e, i, h, -⟩) <;> cases h
  · rintro c ih _ (h | ⟨m, e, i, h, -⟩)
    case inr => cases h
    cases h
    intro d path p hc hd
    rw [mem_diffFields eqv path _ hc hd]
    constructor
    · rintro (⟨n, x, hx, hy, q, hq, h⟩ | ⟨n, x, y, hx, hy, h⟩ | ⟨n, y, -, -, q, -, h⟩)
      · cases h
        obtain ⟨gx, vx⟩ := filled_iff.1 hx
        rw [filled_none] at hy
        have self : (∀ f, x ≠ .struct f) → Only (.struct c) (.struct d) [(n, none)] := fun hk =>
          ⟨[], n, [], x, x, d, rfl, at_child.2 ⟨x, gx, rfl⟩, filled_of_kind vx hk, at_child.2 ⟨x, gx, rfl⟩, rfl,
            .inl rfl, hy, .inl rfl⟩
        cases x with
        | leaf l v =>
          simp only [onlyPaths, List.mem_singleton] at hq
          exact ⟨_, by simpa using hq, self (fun f h => by cases h)⟩
        | aos m e =>
          simp only [onlyPaths, List.mem_singleton] at hq
          exact ⟨_, by simpa using hq, self (fun f h => by cases h)⟩
        | struct f =>
          simp only [onlyPaths, List.mem_map] at hq
          obtain ⟨a, ha, rfl⟩ := hq
          have wf := wf_get hc gx
          simp only [WF] at wf
          obtain ⟨hne, u, hu, hl, hv⟩ := (mem_iterF' true false f wf a).1 ha
          have hleaf := hl rfl
          have vu : u.hasValue = true := by
            rcases hv with h | h | h
            · cases h
            · obtain ⟨⟨g, rfl⟩, -⟩ := element_split hu h
              exact absurd hleaf (by simp [IsLeaf])
            · exact h
          refine ⟨(n, none) :: a, by simp, [], n, a, u, .struct f, d, rfl, at_child.2 ⟨_, gx, hu⟩,
            filled_of_kind vu (fun g e => by subst e; exact absurd hleaf (by simp [IsLeaf])),
            at_child.2 ⟨_, gx, rfl⟩, rfl, .inl rfl, hy, .inr ⟨⟨f, rfl⟩, hleaf⟩⟩
      · obtain ⟨gx, vx⟩ := filled_iff.1 hx
        obtain ⟨gy, vy⟩ := filled_iff.1 hy
        have w1 := wf_get hc gx
        have w2 := wf_get hd gy
        rcases (mem_diffNode eqv _ _ vx vy).1 h with ⟨h, hu⟩ | ⟨c1, d1, rfl, rfl, h⟩ | ⟨m, e, m', f, i, c1, d1, rfl, rfl, h1, h2, h⟩
        · cases h
        · simp only [WF] at w1 w2
          obtain ⟨a, rfl, ho⟩ := (ih n _ hx c1 (.inl rfl) d1 _ p w1 w2).1 h
          exact ⟨(n, none) :: a, by simp, only_child gx gy vy ho⟩
        · simp only [WF] at w1 w2
          obtain ⟨a, rfl, ho⟩ := (ih n _ hx c1 (.inr ⟨m, e, i, rfl, h1⟩) d1 _ p
            (wf_elem w1.2 h1) (wf_elem w2.2 h2)).1 h
          exact ⟨(n, some i) :: a, by simp, only_element gx h1 gy h2 ho⟩
      · cases h
    · rintro ⟨a, rfl, b, n, r, u, z, g, rfl, h1, h2, h3, h4, h5, h6, h7⟩
      cases b with
      | nil =>
        left
        simp only [Node.at, Option.some.injEq, Node.struct.injEq] at h4
        subst h4
        obtain ⟨x, gx, h1⟩ := at_child.1 h1
        obtain ⟨x', gx', h3⟩ := at_child.1 h3
        rw [gx] at gx'; cases gx'
        simp only [Node.at, Option.some.injEq] at h3
        subst h3
        have vx := hasValue_up h1 (filled_hasValue h2)
        refine ⟨n, x, filled_iff.2 ⟨gx, vx⟩, filled_none.2 h6, _, ?_, rfl⟩
        rcases h7 with rfl | ⟨⟨f, rfl⟩, hl⟩
        · simp only [Node.at, Option.some.injEq] at h1
          subst h1
          cases x with
          | struct f => exact absurd h2 (by simp [Filled])
          | leaf l v => simp [onlyPaths]
          | aos m e => simp [onlyPaths]
        · have wf := wf_get hc gx
          simp only [WF] at wf
          simp only [onlyPaths, List.mem_map]
          refine ⟨r, (mem_iterF' true false f wf r).2 ⟨?_, u, h1, fun _ => hl, .inr (.inr (filled_hasValue h2))⟩, by simp⟩
          rintro rfl
          simp only [Node.at, Option.some.injEq] at h1
          subst h1; exact absurd hl (by simp [IsLeaf])
      | cons s b =>
        right; left
        obtain ⟨k, i⟩ := s
        cases i with
        | none =>
          obtain ⟨x, gx, h1⟩ := at_child.1 h1
          obtain ⟨x', gx', h3⟩ := at_child.1 h3
          rw [gx] at gx'; cases gx'
          obtain ⟨y, gy, h4⟩ := at_child.1 h4
          have vx := hasValue_up h1 (filled_hasValue h2)
          have vy : y.hasValue = true := by
            rcases h5 with h5 | h5 | h5
            · cases h5
            · exact (element_split h4 (isElement_none.1 h5)).2
            · exact hasValue_up h4 (by rw [hasValue_struct]; exact h5)
          refine ⟨k, x, y, filled_iff.2 ⟨gx, vx⟩, filled_iff.2 ⟨gy, vy⟩, ?_⟩
          rw [mem_diffNode eqv _ _ vx vy]
          right; left
          cases x with
          | leaf l v => cases b <;> simp [Node.at, Node.item] at h1
          | aos m e => cases b <;> simp [Node.at, Node.item] at h1
          | struct c1 =>
            have hy : ∃ d1, y = .struct d1 := by
              cases y with
              | struct d1 => exact ⟨d1, rfl⟩
              | leaf l v => rw [at_leaf] at h4; exact absurd h4.2 (by simp)
              | aos m e => rw [at_aos] at h4; exact absurd h4.2 (by simp)
            obtain ⟨d1, rfl⟩ := hy
            have w1 := wf_get hc gx
            have w2 := wf_get hd gy
            simp only [WF] at w1 w2
            refine ⟨c1, d1, rfl, rfl, ?_⟩
            rw [ih k _ (filled_iff.2 ⟨gx, vx⟩) c1 (.inl rfl) d1 _ _ w1 w2]
            refine ⟨b ++ (n, none) :: r, by simp, b, n, r, u, z, g, rfl, h1, h2, h3, h4, ?_, h6, h7⟩
            rcases h5 with h5 | h5 | h5
            · cases h5
            · by_cases hb : b = []
              · exact .inl hb
              · exact .inr (.inl (isElement_none.1 h5))
            · exact .inr (.inr h5)
        | some i =>
          obtain ⟨m, e, c1, gx, e1, h1⟩ := at_element.1 h1
          obtain ⟨m0, e0, c0, gx', e1', h3⟩ := at_element.1 h3
          rw [gx] at gx'; cases gx'
          rw [e1] at e1'; cases e1'
          obtain ⟨m', f, d1, gy, e2, h4⟩ := at_element.1 h4
          have vx : (Node.aos m e).hasValue = true := by
            exact elems_length_pos e1
          have vy : (Node.aos m' f).hasValue = true := by
            exact elems_length_pos e2
          refine ⟨k, _, _, filled_iff.2 ⟨gx, vx⟩, filled_iff.2 ⟨gy, vy⟩, ?_⟩
          rw [mem_diffNode eqv _ _ vx vy]
          right; right
          have w1 := wf_get hc gx
          have w2 := wf_get hd gy
          simp only [WF] at w1 w2
          refine ⟨m, e, m', f, i, c1, d1, rfl, rfl, e1, e2, ?_⟩
          rw [ih k _ (filled_iff.2 ⟨gx, vx⟩) c1 (.inr ⟨m, e, i, rfl, e1⟩) d1 _ _ (wf_elem w1.2 e1) (wf_elem w2.2 e2)]
          refine ⟨b ++ (n, none) :: r, by simp, b, n, r, u, z, g, rfl, h1, h2, h3, h4, ?_, h6, h7⟩
          rcases h5 with h5 | h5 | h5
          · cases h5
          · rcases isElement_some.1 h5 with h5 | h5
            · exact .inl h5
            · exact .inr (.inl h5)
          · exact .inr (.inr h5)
  · rintro m e ih c (h | ⟨m', e', i, h, hi⟩)
    · cases h
    · cases h
      exact ih i c hi c (.inl rfl)

end Verif.Ids.DiffReport
