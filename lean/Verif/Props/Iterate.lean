import Verif.Model.Iterate
import Verif.Spec.Iterate
import Verif.Props.Tree
import Verif.Lemmas.NcLook
/-!
C76: iteration with the indices of arrays of structures.
-/
namespace Verif.Props
open Verif.Ids Verif.Iterate Verif.IterateSpec Verif.TreeSpec
open Verif.ConvertSpec (metaAt mchild child)

section split

/-- One parent more. -/
def addParent (s : Name × Bool) : List (List Name) → List (List Name)
  | [] => [[s.1]]
  | g :: gs => if s.2 then [s.1] :: g :: gs else (s.1 :: g) :: gs

/-- The names between arrays of structures, from the top down. -/
def groups : List (Name × Bool) → List (List Name)
  | [] => []
  | [s] => [[s.1]]
  | s :: r => addParent s (groups r)

theorem groups_ne : ∀ l : List (Name × Bool), l ≠ [] → ∃ g gs, groups l = g :: gs ∧ g ≠ []
  | [], h => absurd rfl h
  | [s], _ => ⟨[s.1], [], rfl, by simp⟩
  | s :: t :: r, _ => by
    obtain ⟨g, gs, h, hg⟩ := groups_ne (t :: r) (by simp)
    rw [groups, h, addParent]
    · split
      · exact ⟨_, _, rfl, by simp⟩
      · exact ⟨_, _, rfl, by simp⟩
    · simp

theorem splitLoop_eq : ∀ (up : List (Name × Bool)) (cur : List Name) (paths : List (List Name)),
    splitLoop up cur paths = up.foldl (fun g s => addParent s g) (cur :: paths.reverse)
  | [], cur, paths => by simp [splitLoop]
  | (n, true) :: up, cur, paths => by rw [splitLoop, splitLoop_eq]; simp [addParent]
  | (n, false) :: up, cur, paths => by rw [splitLoop, splitLoop_eq]; simp [addParent]

theorem groups_append (s : Name × Bool) : ∀ l : List (Name × Bool), groups (l ++ [s]) = l.foldr addParent [[s.1]]
  | [] => rfl
  | t :: r => by
    rw [List.foldr_cons, ← groups_append s r, List.cons_append]
    cases r <;> rfl

theorem splitOnAos_eq (l : List (Name × Bool)) : splitOnAos l = groups l := by
  rcases List.eq_nil_or_concat l with rfl | ⟨r, s, rfl⟩
  · rfl
  · rw [List.concat_eq_append, groups_append]
    unfold splitOnAos
    rw [List.reverse_append]
    show splitLoop r.reverse [s.1] [] = _
    rw [splitLoop_eq, List.foldl_reverse]
    rfl

end split

variable {V : Type} [Value V]

/-- Name by name. -/
def walk : List (Name × Bool) → Fields V → List Nat → Except Exc (List (List Nat × Node V))
  | [], _, _ => .error .value
  | [s], c, cur =>
    match c.get? s.1 with
    | none => .error .attribute
    | some x => .ok [(cur, x)]
  | (n, true) :: r, c, cur =>
    match c.get? n with
    | none => .error .attribute
    | some (.aos _ e) => eachElem (fun i d => walk r d (cur ++ [i])) 0 e
    | some _ => .error .type
  | (n, false) :: r, c, cur =>
    match c.get? n with
    | none => .error .attribute
    | some (.struct d) => walk r d cur
    | some _ => .error .attribute

/-- Iteration over groups of names. -/
def iterGroups : List (List Name) → Fields V → List Nat → Except Exc (List (List Nat × Node V))
  | [], _, _ => .error .value
  | [p], c, cur => (follow c p).map fun x => [(cur, x)]
  | p :: q :: r, c, cur =>
    match follow c p with
    | .error e => .error e
    | .ok (.aos _ e) => eachElem (fun i d => iterGroups (q :: r) d (cur ++ [i])) 0 e
    | .ok _ => .error .type

omit [Value V] in
theorem treeIter_eq : ∀ (p q : List Name) (r : List (List Name)) (c : Fields V) (cur : List Nat),
    Iterate.treeIter (p :: q :: r) c cur = iterGroups (p :: q :: r) c cur
  | p, q, [], c, cur => by
    rw [Iterate.treeIter, iterGroups]
    rfl
  | p, q, q' :: r, c, cur => by
    rw [Iterate.treeIter, iterGroups]
    simp only [treeIter_eq q q' r]
    cases follow c p with
    | error => rfl
    | ok x => cases x <;> rfl

theorem indexedIter_eq (c : Fields V) (l : List (Name × Bool)) (hl : l ≠ []) :
    indexedIter c (some l) = iterGroups (groups l) c [] := by
  obtain ⟨g, gs, h, -⟩ := groups_ne l hl
  unfold indexedIter
  dsimp only
  rw [splitOnAos_eq, h]
  cases gs with
  | nil => rfl
  | cons q r => exact treeIter_eq g q r c []

omit [Value V] in
theorem follow_cons {c : Fields V} {n : Name} {p : List Name} (hp : p ≠ []) :
    follow c (n :: p) = match c.get? n with
      | none => .error .attribute
      | some (.struct d) => follow d p
      | some _ => .error .attribute := by
  cases p with
  | nil => exact absurd rfl hp
  | cons k p =>
    rw [follow]
    cases c.get? n with
    | none => rfl
    | some x => cases x <;> rfl

omit [Value V] in
theorem follow_one {c : Fields V} {n : Name} : follow c [n] = match c.get? n with
      | none => .error .attribute
      | some x => .ok x := by
  rw [follow]
  cases c.get? n <;> rfl

omit [Value V] in
theorem iterGroups_walk : ∀ (l : List (Name × Bool)) (c : Fields V) (cur : List Nat), l ≠ [] →
    iterGroups (groups l) c cur = walk l c cur
  | [], _, _, h => absurd rfl h
  | [s], c, cur, _ => by
    rw [groups, iterGroups, walk, follow_one]
    cases c.get? s.1 <;> rfl
  | (n, true) :: t :: r, c, cur, _ => by
    have ih := iterGroups_walk (t :: r)
    obtain ⟨g, gs, h, -⟩ := groups_ne (t :: r) (by simp)
    rw [groups, h]
    · simp only [addParent, if_true]
      rw [iterGroups, walk, follow_one]
      · cases c.get? n with
        | none => rfl
        | some x =>
          cases x with
          | leaf => rfl
          | struct => rfl
          | aos m e =>
            rw [h] at ih
            simp only [ih _ _ (List.cons_ne_nil t r)]
      · simp
    · simp
  | (n, false) :: t :: r, c, cur, _ => by
    have ih := iterGroups_walk (t :: r)
    obtain ⟨g, gs, h, hg⟩ := groups_ne (t :: r) (by simp)
    rw [groups, h]
    · simp only [addParent, Bool.false_eq_true, if_false]
      rw [walk]
      · rw [h] at ih
        cases gs with
        | nil =>
          rw [iterGroups, follow_cons hg]
          cases hc : c.get? n with
          | none => rfl
          | some x =>
            cases x with
            | leaf => rfl
            | struct d => exact ih d cur (List.cons_ne_nil t r)
            | aos m e => rfl
        | cons q gs =>
          rw [iterGroups, follow_cons hg]
          cases hc : c.get? n with
          | none => rfl
          | some x =>
            cases x with
            | leaf => rfl
            | struct d =>
              have := ih d cur (List.cons_ne_nil t r)
              rw [iterGroups] at this
              exact this
            | aos m e => rfl
      · simp
    · simp

/-- The addresses of the elements and what `f` gives below. -/
def elemAddrs (f : Fields V → List Addr) (n : Name) : Nat → Elems V → List Addr
  | _, .nil => []
  | i, .cons d r => (f d).map ((n, some i) :: ·) ++ elemAddrs f n (i + 1) r

/-- The addresses of the nodes that `walk` visits. -/
def walkAddrs : List (Name × Bool) → Fields V → List Addr
  | [], _ => []
  | [s], _ => [[(s.1, none)]]
  | (n, true) :: r, c =>
    match c.get? n with
    | some (.aos _ e) => elemAddrs (walkAddrs r) n 0 e
    | _ => []
  | (n, false) :: r, c =>
    match c.get? n with
    | some (.struct d) => (walkAddrs r d).map ((n, none) :: ·)
    | _ => []

theorem chain_cons (k : Name) (p : List Name) : ∀ m : MFields, chain m (k :: p) = match mchild m k with
    | none => none
    | some (.leaf _) => if p = [] then some [(k, false)] else none
    | some (.struct c) => (chain c p).map ((k, false) :: ·)
    | some (.aos c) => (chain c p).map ((k, true) :: ·)
  | .nil => by rw [chain]; rfl
  | .cons n x r => by
    conv => lhs; unfold chain
    rw [mchild]
    by_cases h : k = n
    · rw [if_pos h, if_pos h]
      cases x <;> rfl
    · rw [if_neg h, if_neg h, chain_cons k p r]

theorem chain_names : ∀ (p : List Name) (m : MFields) (l : List (Name × Bool)), chain m p = some l → l.map (·.1) = p
  | [], m, l, h => by cases m <;> (rw [chain] at h; cases h; rfl)
  | k :: p, m, l, h => by
    rw [chain_cons] at h
    split at h
    · cases h
    · split at h
      · next e => cases h; rw [e]; rfl
      · cases h
    · obtain ⟨r, hr, rfl⟩ := Option.map_eq_some_iff.1 h
      rw [List.map_cons, chain_names p _ r hr]
    · obtain ⟨r, hr, rfl⟩ := Option.map_eq_some_iff.1 h
      rw [List.map_cons, chain_names p _ r hr]

omit [Value V] in
theorem eachElem_lists {f : Nat → Fields V → Except Exc (List (List Nat × Node V))} {g : Fields V → List Addr} {n : Name}
    {c : Fields V} {m : MFields} {e0 : Elems V} {cur : List Nat} (hc : c.get? n = some (.aos m e0))
    (hf : ∀ i d, e0.get? i = some d → ∃ L, f i d = .ok L ∧ L.map (fun q => (q.1, some q.2)) =
      (g d).map fun A => (cur ++ [i] ++ indicesOf A, (Node.struct d).at A)) :
    ∀ (e : Elems V) (k : Nat), (∀ i, e.get? i = e0.get? (k + i)) → ∃ L, eachElem f k e = .ok L ∧
      L.map (fun q => (q.1, some q.2)) = (elemAddrs g n k e).map fun A => (cur ++ indicesOf A, (Node.struct c).at A)
  | .nil, k, _ => ⟨[], rfl, rfl⟩
  | .cons d r, k, hk => by
    have h0 : e0.get? k = some d := (hk 0).symm
    obtain ⟨L, h1, h2⟩ := hf k d h0
    obtain ⟨L', h3, h4⟩ := eachElem_lists hc hf r (k + 1) (fun i => by
      have := hk (i + 1)
      rw [show k + 1 + i = k + (i + 1) by omega, ← this]; rfl)
    refine ⟨L ++ L', by rw [eachElem, h1]; dsimp only; rw [h3], ?_⟩
    rw [List.map_append, h2, h4, elemAddrs, List.map_append, List.map_map]
    congr 1
    refine List.map_congr_left fun A _ => ?_
    simp only [Function.comp, indicesOf, List.filterMap_cons, Node.at, Node.item, hc, h0, Option.map_some, Option.bind_some,
      List.append_assoc, List.singleton_append]

theorem walk_lists : ∀ (p : List Name) (m : MFields) (c : Fields V) (l : List (Name × Bool)) (cur : List Nat), p ≠ [] →
    TypedF c m → chain m p = some l → ∃ L, walk l c cur = .ok L ∧
      L.map (fun q => (q.1, some q.2)) = (walkAddrs l c).map fun A => (cur ++ indicesOf A, (Node.struct c).at A)
  | [], _, _, _, _, h, _, _ => absurd rfl h
  | [k], m, c, l, cur, _, ht, hl => by
    rw [chain_cons] at hl
    rcases Nc.typed_child ht k with ⟨h, -⟩ | ⟨y, x, h, hx, -⟩
    · rw [h] at hl; cases hl
    · have : ∃ b, l = [(k, b)] := by
        rw [h] at hl
        cases y with
        | leaf => cases hl; exact ⟨_, rfl⟩
        | struct c => cases c <;> (cases hl; exact ⟨_, rfl⟩)
        | aos c => cases c <;> (cases hl; exact ⟨_, rfl⟩)
      obtain ⟨b, rfl⟩ := this
      refine ⟨[(cur, x)], by rw [walk, hx], ?_⟩
      simp [walkAddrs, indicesOf, Node.at, Node.item, hx]
  | k :: k' :: p, m, c, l, cur, _, ht, hl => by
    rw [chain_cons] at hl
    rcases Nc.typed_child ht k with ⟨h, -⟩ | ⟨y, x, h, hx, hxy⟩
    · rw [h] at hl; cases hl
    · rw [h] at hl
      cases y with
      | leaf => cases hl
      | struct m' =>
        obtain ⟨r, hr, rfl⟩ := Option.map_eq_some_iff.1 hl
        cases x with
        | struct d =>
          obtain ⟨L, h1, h2⟩ := walk_lists (k' :: p) m' d r cur (by simp) (by simpa only [Typed] using hxy) hr
          have hn : r ≠ [] := by
            rintro rfl
            have := chain_names _ _ _ hr
            cases this
          refine ⟨L, by rw [walk, hx]; exact h1; exact fun h => hn h, ?_⟩
          rw [h2, walkAddrs, hx]
          · simp only [List.map_map]
            refine List.map_congr_left fun A _ => ?_
            simp only [Function.comp, indicesOf, List.filterMap_cons, Node.at, Node.item, hx, Option.bind_some]
          · exact fun h => hn h
        | leaf => simp [Typed] at hxy
        | aos => simp [Typed] at hxy
      | aos m' =>
        obtain ⟨r, hr, rfl⟩ := Option.map_eq_some_iff.1 hl
        cases x with
        | struct d => simp [Typed] at hxy
        | leaf => simp [Typed] at hxy
        | aos m1 e =>
          have hxy : m1 = m' ∧ TypedE e m' := hxy
          have hn : r ≠ [] := by
            rintro rfl
            have := chain_names _ _ _ hr
            cases this
          obtain ⟨L, h1, h2⟩ := eachElem_lists (f := fun i d => walk r d (cur ++ [i])) (g := walkAddrs r) (cur := cur) hx
            (fun i d hd => walk_lists (k' :: p) m' d r (cur ++ [i]) (by simp) (typed_elem hxy.2 hd) hr) e 0 (by simp)
          refine ⟨L, by rw [walk, hx]; exact h1; exact fun h => hn h, ?_⟩
          rw [h2, walkAddrs, hx]
          exact fun h => hn h

theorem isElement_cons {s : Name × Option Nat} {A : Addr} (hA : A ≠ []) : IsElement (s :: A) ↔ IsElement A := by
  constructor
  · rintro ⟨p, n, i, h⟩
    cases p with
    | nil => simp at h; exact absurd h.2 hA
    | cons t p => simp at h; exact ⟨p, n, i, h.2⟩
  · rintro ⟨p, n, i, rfl⟩
    exact ⟨s :: p, n, i, rfl⟩

omit [Value V] in
theorem mem_elemAddrs {g : Fields V → List Addr} {n : Name} {A : Addr} : ∀ {e : Elems V} {k : Nat},
    A ∈ elemAddrs g n k e ↔ ∃ i d B, e.get? i = some d ∧ B ∈ g d ∧ A = (n, some (k + i)) :: B
  | .nil, k => by simp [elemAddrs, Elems.get?]
  | .cons d r, k => by
    rw [elemAddrs, List.mem_append, mem_elemAddrs (e := r)]
    constructor
    · rintro (h | ⟨i, d', B, h1, h2, rfl⟩)
      · obtain ⟨B, hB, rfl⟩ := List.mem_map.1 h
        exact ⟨0, d, B, rfl, hB, rfl⟩
      · exact ⟨i + 1, d', B, h1, h2, by rw [show k + 1 + i = k + (i + 1) by omega]⟩
    · rintro ⟨i, d', B, h1, h2, rfl⟩
      cases i with
      | zero => cases h1; exact .inl (List.mem_map.2 ⟨B, h2, rfl⟩)
      | succ i => exact .inr ⟨i, d', B, h1, h2, by rw [show k + 1 + i = k + (i + 1) by omega]⟩

theorem mem_walkAddrs : ∀ (p : List Name) (m : MFields) (c : Fields V) (l : List (Name × Bool)) (A : Addr), p ≠ [] →
    TypedF c m → chain m p = some l →
    (A ∈ walkAddrs l c ↔ namesOf A = p ∧ ¬ IsElement A ∧ ∃ x, (Node.struct c).at A = some x)
  | [], _, _, _, _, h, _, _ => absurd rfl h
  | [k], m, c, l, A, _, ht, hl => by
    have hp := chain_names _ _ _ hl
    rw [chain_cons] at hl
    rcases Nc.typed_child ht k with ⟨h, -⟩ | ⟨y, x, h, hx, -⟩
    · rw [h] at hl; cases hl
    · obtain ⟨s, rfl⟩ : ∃ s, l = [s] := by
        cases l with
        | nil => cases hp
        | cons s r => cases r with
          | nil => exact ⟨s, rfl⟩
          | cons => cases hp
      cases hp
      rw [walkAddrs, List.mem_singleton]
      constructor
      · rintro rfl
        refine ⟨rfl, ?_, x, by simp [Node.at, Node.item, hx]⟩
        rintro ⟨p, n, i, h⟩
        cases p with
        | nil => cases h
        | cons t p => cases p <;> cases h
      · rintro ⟨h1, h2, -⟩
        cases A with
        | nil => cases h1
        | cons t B =>
          cases B with
          | cons => simp [namesOf] at h1
          | nil =>
            obtain ⟨n, i⟩ := t
            simp [namesOf] at h1
            subst h1
            cases i with
            | none => rfl
            | some i => exact absurd ⟨[], s.1, i, rfl⟩ h2
  | k :: k' :: p, m, c, l, A, _, ht, hl => by
    rw [chain_cons] at hl
    have hne : ∀ {B : Addr}, namesOf B = k' :: p → B ≠ [] := by rintro B h rfl; cases h
    rcases Nc.typed_child ht k with ⟨h, -⟩ | ⟨y, x, h, hx, hxy⟩
    · rw [h] at hl; cases hl
    · rw [h] at hl
      cases y with
      | leaf => cases hl
      | struct m' =>
        obtain ⟨r, hr, rfl⟩ := Option.map_eq_some_iff.1 hl
        have hn : r ≠ [] := by rintro rfl; exact absurd (chain_names _ _ _ hr) (by simp)
        cases x with
        | struct d =>
          have ih := fun B => mem_walkAddrs (k' :: p) m' d r B (by simp) (by simpa only [Typed] using hxy) hr
          rw [walkAddrs, hx]
          · simp only [List.mem_map]
            constructor
            · rintro ⟨B, hB, rfl⟩
              obtain ⟨h1, h2, z, h3⟩ := (ih B).1 hB
              refine ⟨by rw [← h1]; rfl, by rw [isElement_cons (hne h1)]; exact h2, z, ?_⟩
              simpa [Node.at, Node.item, hx] using h3
            · rintro ⟨h1, h2, z, h3⟩
              cases A with
              | nil => cases h1
              | cons t B =>
                obtain ⟨n, i⟩ := t
                have hB : namesOf B = k' :: p := (List.cons.inj h1).2
                have e : n = k := (List.cons.inj h1).1
                subst e
                rw [isElement_cons (hne hB)] at h2
                cases i with
                | none => exact ⟨B, (ih B).2 ⟨hB, h2, z, by simpa [Node.at, Node.item, hx] using h3⟩, rfl⟩
                | some i => simp [Node.at, Node.item, hx] at h3
          · exact fun h => hn h
        | leaf => simp [Typed] at hxy
        | aos => simp [Typed] at hxy
      | aos m' =>
        obtain ⟨r, hr, rfl⟩ := Option.map_eq_some_iff.1 hl
        have hn : r ≠ [] := by rintro rfl; exact absurd (chain_names _ _ _ hr) (by simp)
        cases x with
        | struct d => simp [Typed] at hxy
        | leaf => simp [Typed] at hxy
        | aos m1 e =>
          have hxy : m1 = m' ∧ TypedE e m' := hxy
          have ih := fun i d (hd : e.get? i = some d) B => mem_walkAddrs (k' :: p) m' d r B (by simp) (typed_elem hxy.2 hd) hr
          rw [walkAddrs, hx]
          · simp only [mem_elemAddrs, Nat.zero_add]
            constructor
            · rintro ⟨i, d, B, hd, hB, rfl⟩
              obtain ⟨h1, h2, z, h3⟩ := (ih i d hd B).1 hB
              refine ⟨by rw [← h1]; rfl, by rw [isElement_cons (hne h1)]; exact h2, z, ?_⟩
              simpa [Node.at, Node.item, hx, hd] using h3
            · rintro ⟨h1, h2, z, h3⟩
              cases A with
              | nil => cases h1
              | cons t B =>
                obtain ⟨n, i⟩ := t
                have hB : namesOf B = k' :: p := (List.cons.inj h1).2
                have e' : n = k := (List.cons.inj h1).1
                subst e'
                rw [isElement_cons (hne hB)] at h2
                cases i with
                | none =>
                  cases B with
                  | nil => cases hB
                  | cons u B => simp [Node.at, Node.item, hx] at h3
                | some i =>
                  cases hd : e.get? i with
                  | none => simp [Node.at, Node.item, hx, hd] at h3
                  | some d =>
                    exact ⟨i, d, B, hd, (ih i d hd B).2 ⟨hB, h2, z, by simpa [Node.at, Node.item, hx, hd] using h3⟩, rfl⟩
          · exact fun h => hn h

omit [Value V] in
theorem elemAddrs_order {g : Fields V → List Addr} {n : Name} {c : Fields V} {m : MFields} {e0 : Elems V}
    (hc : c.get? n = some (.aos m e0)) (hg : ∀ i d, e0.get? i = some d → (g d).Pairwise (DocBefore (.struct d))) :
    ∀ (e : Elems V) (k : Nat), (∀ i, e.get? i = e0.get? (k + i)) → (elemAddrs g n k e).Pairwise (DocBefore (.struct c))
  | .nil, k, _ => .nil
  | .cons d r, k, hk => by
    have h0 : e0.get? k = some d := (hk 0).symm
    rw [elemAddrs, List.pairwise_append]
    refine ⟨?_, elemAddrs_order hc hg r (k + 1) (fun i => by
      have := hk (i + 1)
      rw [show k + 1 + i = k + (i + 1) by omega, ← this]; rfl), ?_⟩
    · rw [List.pairwise_map]
      refine (hg k d h0).imp fun {A B} h => ?_
      exact .inl ⟨rfl, .struct d, by simp [Node.item, hc, h0], h⟩
    · intro A hA B hB
      obtain ⟨A', -, rfl⟩ := List.mem_map.1 hA
      obtain ⟨i, d', B', -, -, rfl⟩ := mem_elemAddrs.1 hB
      refine .inr ⟨c, rfl, .inr ⟨rfl, ?_⟩⟩
      show k < k + 1 + i
      omega

omit [Value V] in
theorem walkAddrs_order : ∀ (l : List (Name × Bool)) (c : Fields V), (walkAddrs l c).Pairwise (DocBefore (.struct c))
  | [], _ => .nil
  | [s], _ => List.pairwise_singleton _ _
  | (n, true) :: t :: r, c => by
    rw [walkAddrs]
    · split
      · next m e hc => exact elemAddrs_order hc (fun _ d _ => walkAddrs_order (t :: r) d) e 0 (by simp)
      · exact .nil
    · simp
  | (n, false) :: t :: r, c => by
    rw [walkAddrs]
    · split
      · next d hc =>
        rw [List.pairwise_map]
        refine (walkAddrs_order (t :: r) d).imp fun {A B} h => ?_
        exact .inl ⟨rfl, .struct d, by simp [Node.item, hc], h⟩
      · exact .nil
    · simp

theorem chain_of_meta : ∀ (p : List Name) (m : MFields) (y : Meta), metaAt (.struct m) p = some y → ∃ l, chain m p = some l
  | [], m, _, _ => ⟨[], by cases m <;> rw [chain]⟩
  | k :: p, m, y, h => by
    rw [chain_cons]
    rw [metaAt, child] at h
    cases hm : mchild m k with
    | none => rw [hm] at h; cases h
    | some x =>
      rw [hm] at h
      have h : metaAt x p = some y := h
      cases x with
      | leaf l =>
        cases p with
        | nil => exact ⟨_, rfl⟩
        | cons n p => simp [metaAt, child] at h
      | struct c =>
        obtain ⟨l, hl⟩ := chain_of_meta p c y h
        exact ⟨(k, false) :: l, by simp [hl]⟩
      | aos c =>
        cases p with
        | nil => exact ⟨[(k, true)], by cases c <;> rfl⟩
        | cons n p =>
          obtain ⟨l, hl⟩ := chain_of_meta (n :: p) c y (by simpa [metaAt, child] using h)
          exact ⟨(k, true) :: l, by simp [hl]⟩

omit [Value V] in
/-- Nodes with the same path are in document order if they are sorted by their indices. -/
theorem indices_lt : ∀ (A B : Addr) (x : Node V), DocBefore x A B → namesOf A = namesOf B → ¬ IsElement B →
    (∃ y, x.at A = some y) → (∃ y, x.at B = some y) → indicesOf A < indicesOf B
  | [], [], _, h, _, _, _, _ => by simp [DocBefore] at h
  | _ :: _, [], _, h, _, _, _, _ => by simp [DocBefore] at h
  | [], _ :: _, _, _, h, _, _, _ => by cases h
  | (n, i) :: A, (n', j) :: B, x, h, hn, he, ⟨y, hy⟩, ⟨z, hz⟩ => by
    have e1 : n = n' := (List.cons.inj hn).1
    have e2 : namesOf A = namesOf B := (List.cons.inj hn).2
    subst e1
    rw [DocBefore] at h
    rcases h with ⟨h1, w, h2, h3⟩ | ⟨c, rfl, h1 | ⟨-, h1⟩⟩
    · have h1 : i = j := congrArg Prod.snd h1
      subst h1
      rw [Node.at, h2] at hy hz
      have he' : ¬ IsElement B := by
        rintro ⟨p, k, l, rfl⟩
        exact he ⟨(n, i) :: p, k, l, rfl⟩
      have ih := indices_lt A B w h3 e2 he' ⟨y, hy⟩ ⟨z, hz⟩
      cases i with
      | none => exact ih
      | some i => exact List.cons_lt_cons_self.2 ih
    · exact absurd h1 (Nat.lt_irrefl _)
    · cases j with
      | none => cases i <;> exact h1.elim
      | some j =>
        cases i with
        | none =>
          cases B with
          | nil => exact absurd ⟨[], n, j, rfl⟩ he
          | cons t B =>
            cases A with
            | nil => cases e2
            | cons u A =>
              simp only [Node.at, Node.item] at hy hz
              cases hc : c.get? n with
              | none => simp [hc] at hz
              | some x =>
                cases x with
                | leaf => simp [hc] at hz
                | struct => simp [hc] at hz
                | aos => simp [hc] at hy
        | some i => exact List.Lex.rel h1

/-- **C76.** Iterating over the nodes of an entry of the Data Dictionary gives each node of the IDS with this path exactly once, with
the numbers of the elements of arrays of structures around it, sorted by these numbers. It raises no exception. -/
theorem C76_path (c : Fields V) (m : MFields) (ht : TypedF c m) (p : List Name) (hp : p ≠ []) (y : Meta)
    (hy : metaAt (.struct m) p = some y) :
    ∃ l L As, chain m p = some l ∧ indexedIter c (some l) = .ok L ∧ Lists c As L ∧ (L.map (·.1)).Pairwise (· < ·) ∧
      ∀ A, A ∈ As ↔ namesOf A = p ∧ ¬ IsElement A ∧ ∃ x, (Node.struct c).at A = some x := by
  obtain ⟨l, hl⟩ := chain_of_meta p m y hy
  have hne : l ≠ [] := by rintro rfl; exact hp (chain_names _ _ _ hl).symm
  obtain ⟨L, h1, h2⟩ := walk_lists p m c l [] hp ht hl
  have h3 : Lists c (walkAddrs l c) L := by simpa [Lists] using h2
  have h4 := fun A => mem_walkAddrs p m c l A hp ht hl
  refine ⟨l, L, walkAddrs l c, hl, ?_, h3, ?_, h4⟩
  · rw [indexedIter_eq c l hne, iterGroups_walk l c [] hne, h1]
  · have h5 : L.map (·.1) = (walkAddrs l c).map indicesOf := by
      have := congrArg (List.map Prod.fst) h3
      simpa only [List.map_map, Function.comp_def] using this
    rw [h5, List.pairwise_map]
    refine (walkAddrs_order l c).imp_of_mem fun {A B} hA hB h => ?_
    obtain ⟨a1, -, a3⟩ := (h4 A).1 hA
    obtain ⟨b1, b2, b3⟩ := (h4 B).1 hB
    exact indices_lt A B _ h (a1.trans b1.symm) b2 a3 b3

/-- Not the address of an element of an array of structures. -/
def noElement (A : Addr) : Bool :=
  match A.getLast? with
  | some (_, some _) => false
  | _ => true

theorem noElement_iff {A : Addr} : noElement A = true ↔ ¬ IsElement A := by
  rcases List.eq_nil_or_concat A with rfl | ⟨B, ⟨n, i⟩, rfl⟩
  · simp [noElement, IsElement]
  · rw [List.concat_eq_append]
    unfold noElement
    rw [List.getLast?_append]
    cases i with
    | none =>
      simp only [List.getLast?_singleton, Option.some_or, true_iff]
      rintro ⟨p, n', j, h⟩
      have := (List.append_inj' h rfl).2
      cases this
    | some j =>
      simp only [List.getLast?_singleton, Option.some_or, Bool.false_eq_true, false_iff]
      exact fun h => h ⟨B, n, j, rfl⟩

theorem filter_cons {s : Name × Option Nat} : ∀ {l : List Addr}, (∀ A ∈ l, A ≠ []) →
    (l.map (s :: ·)).filter noElement = (l.filter noElement).map (s :: ·)
  | [], _ => rfl
  | A :: l, h => by
    have h1 : noElement (s :: A) = noElement A := by
      have hA := h A (by simp)
      unfold noElement
      rw [List.getLast?_cons_of_ne_nil hA]
    rw [List.map_cons, List.filter_cons, List.filter_cons, h1, filter_cons fun B hB => h B (by simp [hB])]
    split <;> rfl

mutual
theorem iter_ne (c : Fields V) : ∀ A ∈ c.iter false false, A ≠ [] := by
  intro A hA
  match c with
  | .nil => simp [Fields.iter] at hA
  | .absent n m r => simp [Fields.iter] at hA; exact iter_ne r A hA
  | .present n x r =>
    simp only [Fields.iter, Bool.false_or, List.mem_append] at hA
    rcases hA with hA | hA
    · split at hA
      · exact node_iter_ne n x A hA
      · simp at hA
    · exact iter_ne r A hA
termination_by structural c
theorem node_iter_ne (n : Name) (x : Node V) : ∀ A ∈ x.iter false false n, A ≠ [] := by
  intro A hA
  match x with
  | .leaf _ _ => simp [Node.iter] at hA; simp [hA]
  | .struct c =>
    simp [Node.iter] at hA
    rcases hA with rfl | ⟨B, -, rfl⟩ <;> simp
  | .aos m e =>
    simp [Node.iter] at hA
    rcases hA with rfl | hA
    · simp
    · exact elem_iter_ne n 0 e A hA
termination_by structural x
theorem elem_iter_ne (n : Name) (k : Nat) (e : Elems V) : ∀ A ∈ e.iter false false n k, A ≠ [] := by
  intro A hA
  match e with
  | .nil => simp [Elems.iter] at hA
  | .cons d r =>
    simp [Elems.iter] at hA
    rcases hA with rfl | ⟨B, -, rfl⟩ | hA
    · simp
    · simp
    · exact elem_iter_ne n (k + 1) r A hA
termination_by structural e
end

theorem filter_none (n : Name) : [[(n, (none : Option Nat))]].filter noElement = [[(n, none)]] := rfl

theorem filter_some (n : Name) (k : Nat) : [[(n, some k)]].filter noElement = [] := rfl

mutual
theorem full_node (n : Name) (x : Node V) (cur : List Nat) (c : Fields V) (hc : c.get? n = some x) (hw : WF x) :
    (fullNode cur x).map (fun q => (q.1, some q.2)) =
      ((x.iter false false n).filter noElement).map fun A => (cur ++ indicesOf A, (Node.struct c).at A) := by
  match x with
  | .leaf l v => simp [fullNode, Node.iter, filter_none, indicesOf, Node.at, Node.item, hc]
  | .struct d =>
    have ih := full_fields d cur d (fun _ _ => rfl) (by simpa only [WF] using hw)
    rw [fullNode, List.map_cons, ih, Node.iter, if_neg (by decide), List.filter_append, filter_cons (iter_ne d), List.map_append,
      List.map_map]
    simp [filter_none, indicesOf, Node.at, Node.item, hc, Function.comp]
  | .aos m e =>
    have hw : WFMFields m ∧ WFElems e := by simpa only [WF] using hw
    have ih := full_elems n e 0 cur c m e hc (by simp) hw.2
    rw [fullNode, List.map_cons, ih, Node.iter, if_neg (by decide), List.filter_append, List.map_append]
    simp [filter_none, indicesOf, Node.at, Node.item, hc]
termination_by structural x
theorem full_fields (d : Fields V) (cur : List Nat) (c : Fields V) (hc : ∀ k ∈ d.names, c.get? k = d.get? k) (hw : WFFields d) :
    (fullFields cur d).map (fun q => (q.1, some q.2)) =
      ((d.iter false false).filter noElement).map fun A => (cur ++ indicesOf A, (Node.struct c).at A) := by
  match d with
  | .nil => rfl
  | .absent n m r =>
    have hw : n ∉ r.names ∧ WFMeta m ∧ WFFields r := by simpa only [WFFields] using hw
    rw [fullFields, Fields.iter, full_fields r cur c (fun k hk => by
      rw [hc k (by simp [Fields.names, hk]), Fields.get?, if_neg (show ¬ k = n from fun h => hw.1 (h ▸ hk))]) hw.2.2]
    rfl
  | .present n x r =>
    have hw : n ∉ r.names ∧ WF x ∧ WFFields r := by simpa only [WFFields] using hw
    have h1 := full_fields r cur c (fun k hk => by
      rw [hc k (by simp [Fields.names, hk]), Fields.get?, if_neg (show ¬ k = n from fun h => hw.1 (h ▸ hk))]) hw.2.2
    have h2 := full_node n x cur c (by rw [hc n (by simp [Fields.names]), Fields.get?, if_pos rfl]) hw.2.1
    rw [fullFields, Fields.iter, List.map_append, h1, List.filter_append, List.map_append, Bool.false_or]
    congr 1
    split
    · exact h2
    · rfl
termination_by structural d
theorem full_elems (n : Name) (e : Elems V) (k : Nat) (cur : List Nat) (c : Fields V) (m : MFields) (e0 : Elems V)
    (hc : c.get? n = some (.aos m e0)) (hk : ∀ i, e.get? i = e0.get? (k + i)) (hw : WFElems e) :
    (fullElems cur k e).map (fun q => (q.1, some q.2)) =
      ((e.iter false false n k).filter noElement).map fun A => (cur ++ indicesOf A, (Node.struct c).at A) := by
  match e with
  | .nil => rfl
  | .cons d r =>
    have hw : WFFields d ∧ WFElems r := by simpa only [WFElems] using hw
    have h0 : e0.get? k = some d := (hk 0).symm
    have h1 := full_fields d (cur ++ [k]) d (fun _ _ => rfl) hw.1
    have h2 := full_elems n r (k + 1) cur c m e0 hc (fun i => by
      have := hk (i + 1)
      rw [show k + 1 + i = k + (i + 1) by omega, ← this]; rfl) hw.2
    rw [fullElems, List.map_append, h1, h2, Elems.iter, if_neg (by decide), List.filter_append, List.filter_append,
      filter_cons (iter_ne d), List.map_append, List.map_append, List.map_map]
    simp [filter_some, indicesOf, Node.at, Node.item, hc, h0, Function.comp]
termination_by structural e
end

/-- **C76.** Iterating over a whole IDS gives each data node, structure and array of structures with a value exactly once, with the
numbers of the elements of arrays of structures around it, in document order. -/
theorem C76_all (c : Fields V) (hw : WFFields c) :
    ∃ L As, indexedIter c none = .ok L ∧ Lists c As L ∧ As.Pairwise (DocBefore (.struct c)) ∧
      ∀ A, A ∈ As ↔ A ≠ [] ∧ ¬ IsElement A ∧ ∃ x, (Node.struct c).at A = some x ∧ x.hasValue = true := by
  have h := full_fields c [] c (fun _ _ => rfl) hw
  refine ⟨_, (c.iter false false).filter noElement, rfl, by simpa [Lists] using h, ?_, fun A => ?_⟩
  · have := C07_iter_order false false false c hw
    simp only [Ids.treeIter, Bool.false_and, Bool.false_eq_true, if_false, List.nil_append] at this
    exact this.filter _
  · have := C07_iter_members false false false c hw A
    simp only [Ids.treeIter, Bool.false_and, Bool.false_eq_true, if_false, List.nil_append] at this
    rw [List.mem_filter, this, noElement_iff]
    simp only [false_and, and_false, false_or, false_implies, true_and]
    constructor
    · rintro ⟨⟨h1, x, h2, h3 | h3⟩, h4⟩
      · exact absurd h3 h4
      · exact ⟨h1, h4, x, h2, h3⟩
    · rintro ⟨h1, h4, x, h2, h3⟩
      exact ⟨⟨h1, x, h2, .inr h3⟩, h4⟩

/-! ### Example -/

def iterInt : LeafMeta := ⟨.int, 0, false⟩

/-- `ion[:]/state/z`, and `z` next to it. -/
def iterIon : MFields := .cons ['s'] (.struct (.cons ['z'] (.leaf iterInt) .nil)) .nil
def iterMeta : MFields := .cons ['p'] (.struct (.cons ['i'] (.aos iterIon) .nil)) (.cons ['t'] (.leaf iterInt) .nil)

def iterData : Fields (List Int) :=
  .present ['p'] (.struct (.present ['i'] (.aos iterIon
    (.cons (.present ['s'] (.struct (.present ['z'] (.leaf iterInt (some [4])) .nil)) .nil)
      (.cons (.absent ['s'] (.struct (.cons ['z'] (.leaf iterInt) .nil)) .nil) .nil))) .nil))
    (.absent ['t'] (.leaf iterInt) .nil)

theorem iter_typed : TypedF iterData iterMeta := by
  simp [iterData, iterMeta, iterIon, TypedF, Typed, TypedE]

theorem iter_wf : WFFields iterData := by
  simp [iterData, iterIon, WFFields, WFMFields, WFMeta, WF, WFElems, Fields.names, mnames]

example := C76_path iterData iterMeta iter_typed [['p'], ['i'], ['s'], ['z']] (by simp) (.leaf iterInt) rfl

example := C76_all iterData iter_wf

/-- The path is split at the array, and both elements are visited, also the one without a value. -/
example : splitOnAos [(['p'], false), (['i'], true), (['s'], false), (['z'], false)] = [[['p'], ['i']], [['s'], ['z']]] ∧
    (indexedIter iterData (some [(['p'], false), (['i'], true), (['s'], false), (['z'], false)])).map (·.map (·.1)) =
      .ok [[0], [1]] := ⟨rfl, rfl⟩

/-- All nodes with a value: `p`, `p/i`, `p/i[0]/s`, `p/i[0]/s/z`. -/
example : (indexedIter iterData none).map (·.map (·.1)) = .ok [[], [], [0], [0]] := rfl

end Verif.Props
