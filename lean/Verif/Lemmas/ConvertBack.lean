import Verif.Lemmas.ConvertApart
/-
If two maps are one-to-one and inverse to each other, nodes go back to where they came from.
-/
set_option linter.unusedSectionVars false
namespace Verif.Convert
open Verif.Ids Verif.TreeSpec Verif.ConvertSpec Verif.DiffSpec

variable {V : Type} [Value V]

/-- How the index of a name changes when the node with path `q` is entered. -/
def Carry (cx : Cfg V) (q : List Name) (i j : Option Nat) : Prop :=
  (cx.change q = none ∧ i = j) ∨
  (cx.change q = some .structAos ∧ ((i = none ∧ j = some 0) ∨ (i = some 0 ∧ j = none)))

theorem goes_snoc {cx : Cfg V} {tm : Meta} {p t : List Name} (hg : Goes cx tm p t) {n : Name}
    {t' : List Name} : Goes cx tm (p ++ [n]) t' ↔ stepPath cx tm (p ++ [n]) n t = some t' := by
  unfold Goes at hg ⊢
  rw [pathFrom_append, hg]
  simp only [Option.bind_some, pathFrom, List.nil_append]
  cases stepPath cx tm (p ++ [n]) n t <;> simp

theorem goes_fun {cx : Cfg V} {tm : Meta} {p t t' : List Name} (h : Goes cx tm p t)
    (h' : Goes cx tm p t') : t = t' := by
  unfold Goes at h h'; rw [h] at h'; simpa using h'

/-- Parts of a path go somewhere if the path does. -/
theorem goes_prefix {cx : Cfg V} {tm : Meta} {p r t : List Name} (h : Goes cx tm (p ++ r) t) :
    ∃ u, Goes cx tm p u := by
  unfold Goes at h ⊢
  rw [pathFrom_append] at h
  cases hp : pathFrom cx tm [] [] p with
  | none => rw [hp] at h; simp at h
  | some u => exact ⟨u, rfl⟩

theorem metaAt_prefix {m : Meta} {p r : List Name} (h : (metaAt m (p ++ r)).isSome = true) :
    (metaAt m p).isSome = true := by
  rw [metaAt_append] at h
  cases hp : metaAt m p with
  | none => rw [hp] at h; simp at h
  | some x => rfl

/-- Parts of a path go above the place where the path goes. -/
theorem goes_mono {cx : Cfg V} {sm tm : Meta} (ho : OneToOne cx sm tm) (r : List Name) {p t t' : List Name}
    (hm : (metaAt sm (p ++ r)).isSome = true) (h : Goes cx tm p t) (h' : Goes cx tm (p ++ r) t') :
    t <+: t' := by
  induction r generalizing p t with
  | nil => rw [List.append_nil] at h'; rw [goes_fun h h']; exact List.prefix_refl _
  | cons n r ih =>
    have e : p ++ n :: r = (p ++ [n]) ++ r := by simp
    rw [e] at hm h'
    obtain ⟨u, hu⟩ := goes_prefix h'
    obtain ⟨w, rfl, -⟩ := ho.down p n t u (metaAt_prefix hm) h hu
    exact (List.prefix_append t w).trans (ih hm hu h')

theorem goes_strict {cx : Cfg V} {sm tm : Meta} (ho : OneToOne cx sm tm) (r : List Name) {p t t' : List Name}
    (hr : r ≠ []) (ha : Active cx sm (p ++ r)) (h : Goes cx tm p t) (h' : Goes cx tm (p ++ r) t') :
    t.length < t'.length := by
  have e : p ++ r = (p ++ r.dropLast) ++ [r.getLast hr] := by
    rw [List.append_assoc, List.dropLast_concat_getLast]
  have hm : (metaAt sm (p ++ r)).isSome = true := by obtain ⟨m, hm, -⟩ := ha; rw [hm]; rfl
  rw [e] at h' hm ha
  obtain ⟨u, hu⟩ := goes_prefix h'
  obtain ⟨w, rfl, hw⟩ := ho.down _ _ u t' hm hu h'
  have h1 := (goes_mono ho _ (metaAt_prefix hm) h hu).length_le
  have h2 : w.length ≠ 0 := by simpa using hw ha
  rw [List.length_append]; omega

/-- Names of the source with an index, and structures that became arrays, carry their index to the
target. -/
theorem sent_carry {cx : Cfg V} {sm tm : Meta} (ho : OneToOne cx sm tm) {A : Addr} {p : List Name}
    {t : Addr} {c : Fields V} (h : Here cx sm tm p t c) {B : Addr} (hs : Sent cx tm p t c A B)
    {A1 A2 : Addr} {n : Name} {i : Option Nat} (hA : A = A1 ++ (n, i) :: A2) (hne : A2 ≠ [])
    (ha : Active cx sm (p ++ names A1 ++ [n])) :
    ∃ B1 n' j B2, B = B1 ++ (n', j) :: B2 ∧ Goes cx tm (p ++ names A1 ++ [n]) (names B1 ++ [n']) ∧
      Carry cx (p ++ names A1 ++ [n]) i j := by
  induction A generalizing p t c A1 with
  | nil => simp at hA
  | cons s A ih =>
    rcases sent_cons hs with ⟨rfl, -⟩ | ⟨-, d, b, hi, he, hr⟩
    · cases A1 with
      | nil => simp only [List.nil_append, List.cons.injEq] at hA; exact absurd hA.2.symm hne
      | cons s' A1 => simp at hA
    · cases A1 with
      | nil =>
        simp only [List.nil_append, List.cons.injEq] at hA
        obtain ⟨rfl, rfl⟩ := hA
        simp only [names, List.map_nil, List.append_nil] at ha ⊢
        obtain ⟨r', rfl⟩ := sent_down ho (here_enter h hi he) hr
        obtain ⟨b0, h1, h2⟩ := he
        simp only at h1 h2
        obtain ⟨u, k, rfl⟩ := step_down ho h.goes ha h1
        have hg : Goes cx tm (p ++ [n]) (names (t ++ u) ++ [k]) := by
          rw [goes_snoc h.goes, step_names h1]
          simp [names]
        rw [← List.append_assoc, elemOf_snoc] at h2
        simp only [elemOf_snoc] at h2
        have fin : ∀ j, Carry cx (p ++ [n]) i j → b = (t ++ u) ++ [(k, j)] →
            ∃ B1 n' j B2, b ++ r' = B1 ++ (n', j) :: B2 ∧ Goes cx tm (p ++ [n]) (names B1 ++ [n']) ∧
              Carry cx (p ++ [n]) i j := by
          intro j hc hb
          exact ⟨t ++ u, k, j, r', by rw [hb]; simp, hg, hc⟩
        rcases h2 with ⟨h3, ⟨h4, h5⟩ | ⟨i', h4, h5⟩⟩ | ⟨h3, ⟨h4, h5⟩ | ⟨h4, h5⟩⟩
        · exact fin none (.inl ⟨h3, h4⟩) h5
        · exact fin (some i') (.inl ⟨h3, h4⟩) h5
        · exact fin (some 0) (.inr ⟨h3, .inl ⟨h4, rfl⟩⟩) h5
        · exact fin none (.inr ⟨h3, .inr ⟨h4, rfl⟩⟩) h5
      | cons s' A1 =>
        simp only [List.cons_append, List.cons.injEq] at hA
        obtain ⟨rfl, rfl⟩ := hA
        have e : p ++ names (s :: A1) ++ [n] = p ++ [s.1] ++ names A1 ++ [n] := by simp [names]
        rw [e] at ha ⊢
        exact ih (here_enter h hi he) hr rfl ha

/-- Every index in the target comes from the source. -/
theorem sent_carried {cx : Cfg V} {sm tm : Meta} (ho : OneToOne cx sm tm) {A : Addr} {p : List Name}
    {t : Addr} {c : Fields V} (h : Here cx sm tm p t c) {B : Addr} (hs : Sent cx tm p t c A B)
    {B1 B2 : Addr} {n' : Name} {j : Nat} (hB : B = B1 ++ (n', some j) :: B2)
    (ht : t.length ≤ B1.length) :
    ∃ A1 n i A2, A = A1 ++ (n, i) :: A2 ∧ A2 ≠ [] ∧ Active cx sm (p ++ names A1 ++ [n]) ∧
      Goes cx tm (p ++ names A1 ++ [n]) (names B1 ++ [n']) ∧
      Carry cx (p ++ names A1 ++ [n]) i (some j) := by
  induction A generalizing p t c with
  | nil => obtain ⟨s, A', x, h1, -⟩ := sent_head hs; simp at h1
  | cons s A ih =>
    have nomem : ∀ {r : List Name} {w : Addr}, t ++ r.map (·, none) ++ w = B1 ++ (n', some j) :: B2 →
        (t ++ r.map (fun n => ((n, none) : Name × Option Nat))).length ≤ B1.length ∨
        False := by
      intro r w hE
      by_cases hl : (t ++ r.map (fun n => ((n, none) : Name × Option Nat))).length ≤ B1.length
      · exact .inl hl
      · exfalso
        have h1 : (t ++ r.map (fun n => ((n, none) : Name × Option Nat)) ++ w)[B1.length]? =
            some (n', some j) := by rw [hE]; simp
        rw [List.getElem?_append_left (by omega), List.getElem?_append_right ht,
          List.getElem?_map] at h1
        cases hr : r[B1.length - t.length]? with
        | none => rw [hr] at h1; simp at h1
        | some x => rw [hr] at h1; simp at h1
    rcases sent_cons hs with ⟨rfl, -, h2, x, hx⟩ | ⟨hA, d, b, hi, he, hr⟩
    · obtain ⟨m, h3, -⟩ := here_item h (get_item hx)
      obtain ⟨r, rfl, -⟩ := step_weak ho h.goes (by rw [h3]; rfl) h2
      rcases nomem (r := r) (w := []) (by rw [List.append_nil]; exact hB) with h4 | h4
      · rw [hB] at h4; simp at h4; omega
      · exact h4.elim
    · obtain ⟨r', rfl⟩ := sent_down ho (here_enter h hi he) hr
      by_cases hl : b.length ≤ B1.length
      · obtain ⟨A1, n, i, A2, rfl, h4, h5, h6, h7⟩ := ih (here_enter h hi he) hr hl
        have e : p ++ names (s :: A1) ++ [n] = p ++ [s.1] ++ names A1 ++ [n] := by simp [names]
        exact ⟨s :: A1, n, i, A2, rfl, h4, by rw [e]; exact h5, by rw [e]; exact h6, by rw [e]; exact h7⟩
      · have he' := he
        obtain ⟨b0, h1, h2⟩ := he
        -- the position is the last item of `b`
        have last : ∀ {k : Nat} {i : Option Nat}, s.2 = i → Active cx sm (p ++ [s.1]) → b = elemOf b0 k →
            Carry cx (p ++ [s.1]) i (some k) →
            ∃ A1 n i A2, s :: A = A1 ++ (n, i) :: A2 ∧ A2 ≠ [] ∧ Active cx sm (p ++ names A1 ++ [n]) ∧
              Goes cx tm (p ++ names A1 ++ [n]) (names B1 ++ [n']) ∧
              Carry cx (p ++ names A1 ++ [n]) i (some j) := by
          intro k i hsi hact hb hc
          obtain ⟨r, e0, hr0⟩ := step_weak ho h.goes
            (by obtain ⟨m, hm, -⟩ := hact; rw [hm]; rfl) h1
          have hr0 := hr0 hact
          have e1 : b0 = (t ++ r.dropLast.map (·, none)) ++ [(r.getLast hr0, none)] := by
            rw [e0, List.append_assoc]
            congr 1
            conv => lhs; rw [← List.dropLast_concat_getLast hr0]
            simp
          rw [e1, elemOf_snoc] at hb
          have hB' : t ++ r.dropLast.map (·, none) ++ ([(r.getLast hr0, some k)] ++ r') =
              B1 ++ (n', some j) :: B2 := by rw [← hB, hb]; simp
          rcases nomem hB' with h4 | h4
          · have hlen : B1.length = (t ++ r.dropLast.map (fun n => ((n, none) : Name × Option Nat))).length := by
              rw [hb] at hl; simp at hl h4 ⊢; omega
            have hi := List.append_inj hB' hlen.symm
            obtain ⟨rfl, h6⟩ := hi
            simp only [List.cons_append, List.nil_append, List.cons.injEq, Prod.mk.injEq,
              Option.some.injEq] at h6
            obtain ⟨⟨e2, rfl⟩, -⟩ := h6
            refine ⟨[], s.1, i, A, by rw [← hsi]; rfl, hA, by simpa [names] using hact, ?_,
              by simpa [names] using hc⟩
            have : p ++ names [] ++ [s.1] = p ++ [s.1] := by simp [names]
            rw [this, goes_snoc h.goes, step_names h1, e1, ← e2]
            simp [names]
          · exact h4.elim
        rcases h2 with ⟨h3, ⟨h4, h5⟩ | ⟨i', h4, h5⟩⟩ | ⟨h3, ⟨h4, h5⟩ | ⟨h4, h5⟩⟩
        · exfalso
          obtain ⟨y, hy⟩ := item_get hi
          obtain ⟨m, h6, -⟩ := here_item h (get_item hy)
          obtain ⟨r, e0, -⟩ := step_weak ho h.goes (by rw [h6]; rfl) h1
          rw [h5, e0] at hB hl
          rcases nomem hB with h7 | h7
          · exact hl h7
          · exact h7
        · exact last h4 (enter_active h hi he' (.inl (by rw [h4]; simp))) h5 (.inl ⟨h3, rfl⟩)
        · exact last h4 (enter_active h hi he' (.inr (by rw [h3]; simp))) h5
            (.inr ⟨h3, .inl ⟨rfl, rfl⟩⟩)
        · exfalso
          obtain ⟨y, hy⟩ := item_get hi
          obtain ⟨m, h6, -⟩ := here_item h (get_item hy)
          obtain ⟨r, e0, -⟩ := step_weak ho h.goes (by rw [h6]; rfl) h1
          rw [h5, e0] at hB hl
          rcases nomem hB with h7 | h7
          · exact hl h7
          · exact h7

/-- The last part of the address of a node has no index. -/
theorem sent_last {cx : Cfg V} {tm : Meta} {A1 : Addr} {p : List Name} {t : Addr} {c : Fields V}
    {B : Addr} {n : Name} {i : Option Nat} (h : Sent cx tm p t c (A1 ++ [(n, i)]) B) : i = none := by
  induction A1 generalizing p t c with
  | nil =>
    rcases sent_cons h with ⟨-, h2, -⟩ | ⟨h2, -⟩
    · exact h2
    · exact absurd rfl h2
  | cons s A ih =>
    rcases sent_cons h with ⟨h2, -⟩ | ⟨-, d, b, -, -, h3⟩
    · simp at h2
    · exact ih h3

theorem at_get_typed {root : Node V} {sm : Meta} (ht : TypedAt root sm) {A1 A2 : Addr} {n : Name}
    {i : Option Nat} {x : Node V} (hx : root.at (A1 ++ (n, i) :: A2) = some x) :
    ∃ g y z m, root.at A1 = some (.struct g) ∧ (Node.struct g).item (n, i) = some y ∧ y.at A2 = some x ∧
      g.get? n = some z ∧ metaAt sm (names A1 ++ [n]) = some m ∧ Typed z m := by
  rw [at_append] at hx
  cases h1 : root.at A1 with
  | none => rw [h1] at hx; simp at hx
  | some w =>
    rw [h1] at hx
    simp only [Option.bind_some, Node.at, Option.bind_eq_some_iff] at hx
    obtain ⟨y, h2, h3⟩ := hx
    obtain ⟨g, rfl, -⟩ := item_cases h2
    obtain ⟨z, hz⟩ := item_get h2
    obtain ⟨m0, h4, h5⟩ := typedAt_at ht h1
    obtain ⟨mf, htf, hch⟩ := typedAt_struct h5
    have h6 := typed_get htf n
    cases hm : mget n mf with
    | none => rw [hm] at h6; simp only at h6; simp only at hz; rw [h6] at hz; simp at hz
    | some m =>
      rw [hm] at h6
      obtain ⟨z', hz', tz⟩ := h6
      simp only at hz
      rw [hz'] at hz; cases hz
      refine ⟨g, y, _, m, rfl, h2, h3, hz', ?_, tz⟩
      simp [metaAt_append, h4, metaAt, hch, hm]

/-- A name with an index belongs to an array of structures. -/
theorem index_active {cx : Cfg V} {sm : Meta} {root : Node V} (ht : TypedAt root sm) {A1 A2 : Addr}
    {n : Name} {i : Nat} {x : Node V} (hx : root.at (A1 ++ (n, some i) :: A2) = some x) :
    Active cx sm (names A1 ++ [n]) := by
  obtain ⟨g, y, z, m, -, h2, -, h4, h5, h6⟩ := at_get_typed ht hx
  refine active_of h5 (.inl h6) (.inl ?_)
  rintro c rfl
  obtain ⟨c', e, h2⟩ := item_cases h2
  cases e
  rcases h2 with ⟨h2, -⟩ | ⟨k, m', e, f, -, h2, -⟩
  · simp at h2
  · rw [h4] at h2; simp at h2

/-- The node at `A` of the source goes to `B`, with two maps that are inverse to each other. -/
structure Pair (cx cx' : Cfg V) (sm tm : Meta) (source data : Fields V) (A B : Addr) : Prop where
  one : OneToOne cx sm tm
  one' : OneToOne cx' tm sm
  inv : Inverse cx cx' sm tm
  inv' : Inverse cx' cx tm sm
  typed : Typed (.struct source) sm
  typed' : Typed (.struct data) tm
  at_ : ∃ x, (Node.struct source).at A = some x
  at' : ∃ y, (Node.struct data).at B = some y
  sent : Sent cx tm [] [] source A B
  act : Active cx sm (names A)

section
variable {cx cx' : Cfg V} {sm tm : Meta} {source data : Fields V} {A B : Addr}

theorem Pair.here (P : Pair cx cx' sm tm source data A B) : Here cx sm tm [] [] source :=
  ⟨rfl, sm, rfl, .inl P.typed⟩

theorem Pair.goes (P : Pair cx cx' sm tm source data A B) : Goes cx tm (names A) (names B) := by
  simpa [Goes, names] using sent_names P.sent

theorem Pair.metaB (P : Pair cx cx' sm tm source data A B) : (metaAt tm (names B)).isSome = true := by
  obtain ⟨y, hy⟩ := P.at'
  obtain ⟨m, h1, -⟩ := typedAt_at (.inl P.typed') hy
  rw [h1]; rfl

theorem Pair.metaA (P : Pair cx cx' sm tm source data A B) : (metaAt sm (names A)).isSome = true := by
  obtain ⟨y, hy⟩ := P.at_
  obtain ⟨m, h1, -⟩ := typedAt_at (.inl P.typed) hy
  rw [h1]; rfl

theorem Pair.goes' (P : Pair cx cx' sm tm source data A B) : Goes cx' sm (names B) (names A) :=
  (P.inv.back _ _ P.act P.goes P.metaB).1

theorem Pair.meta_prefix (P : Pair cx cx' sm tm source data A B) {q : List Name} (h : q <+: names B) :
    (metaAt tm q).isSome = true := by
  obtain ⟨r, hr⟩ := h
  have := P.metaB
  rw [← hr] at this
  exact metaAt_prefix this

theorem Pair.meta_prefix' (P : Pair cx cx' sm tm source data A B) {q : List Name} (h : q <+: names A) :
    (metaAt sm q).isSome = true := by
  obtain ⟨r, hr⟩ := h
  have := P.metaA
  rw [← hr] at this
  exact metaAt_prefix this

/-- An item of the source address with own target, that comes back between `names B1` and
`names B1 ++ [n']`, comes back from `n'`. -/
theorem Pair.between (P : Pair cx cx' sm tm source data A B) {B1 B3 : Addr} {n' : Name} {j : Option Nat}
    (hB : B = B1 ++ (n', j) :: B3) {s u : List Name} (g1 : Goes cx' sm (names B1) s)
    (g2 : Goes cx' sm (names B1 ++ [n']) u) {A1 A2 : Addr} {n : Name} {i : Option Nat}
    (hA : A = A1 ++ (n, i) :: A2) (hne : A2 ≠ []) (ha : Active cx sm (names A1 ++ [n]))
    (l1 : s.length ≤ A1.length) (l2 : A1.length < u.length) :
    u = names A1 ++ [n] ∧ Goes cx tm (names A1 ++ [n]) (names B1 ++ [n']) ∧
      Carry cx (names A1 ++ [n]) i j := by
  obtain ⟨C1, k, j', C2, h1, h2, h3⟩ := sent_carry P.one P.here P.sent hA hne (by simpa using ha)
  simp only [List.nil_append] at h2 h3
  have hpre : names C1 ++ [k] <+: names B := by rw [h1]; simp [names]
  have hb := P.inv.back _ _ ha h2 (P.meta_prefix hpre)
  have e := hB.symm.trans h1
  have hlen : (names A1).length = A1.length := by simp [names]
  rcases Nat.lt_trichotomy C1.length B1.length with hl | hl | hl
  · exfalso
    -- `names C1 ++ [k]` is a prefix of `names B1`
    obtain ⟨r, hr⟩ : names C1 ++ [k] <+: names B1 := by
      have h4 : names B1 <+: names B := by rw [hB]; simp [names]
      exact List.prefix_of_prefix_length_le hpre h4 (by simp [names]; omega)
    have hm : (metaAt tm ((names C1 ++ [k]) ++ r)).isSome = true := by
      rw [hr]; exact P.meta_prefix (by rw [hB]; simp [names])
    have := (goes_mono P.one' r hm hb.1 (by rw [hr]; exact g1)).length_le
    simp only [List.length_append, List.length_singleton, hlen] at this
    omega
  · have h4 := List.append_inj e hl.symm
    obtain ⟨rfl, h5⟩ := h4
    simp only [List.cons.injEq, Prod.mk.injEq] at h5
    obtain ⟨⟨rfl, rfl⟩, -⟩ := h5
    exact ⟨goes_fun g2 hb.1, h2, h3⟩
  · exfalso
    obtain ⟨r, hr⟩ : names B1 ++ [n'] <+: names C1 := by
      have h4 : names B1 ++ [n'] <+: names B := by rw [hB]; simp [names]
      have h5 : names C1 <+: names B := by rw [h1]; simp [names]
      exact List.prefix_of_prefix_length_le h4 h5 (by simp [names]; omega)
    have hact := hb.2
    have hgo := hb.1
    rw [← hr, List.append_assoc] at hact hgo
    have := goes_strict P.one' (r ++ [k]) (by simp) hact g2 hgo
    simp only [List.length_append, List.length_singleton, hlen] at this
    omega

/-- What comes back between `names B1` and `names B1 ++ [n']` has no index before the last name. -/
theorem Pair.plain_between (P : Pair cx cx' sm tm source data A B) {B1 B3 : Addr} {n' : Name}
    {j : Option Nat} (hB : B = B1 ++ (n', j) :: B3) {σ : Addr} (g1 : Goes cx' sm (names B1) (names σ))
    {u : List Name} (g2 : Goes cx' sm (names B1 ++ [n']) u) {w rest : Addr} (hA : A = σ ++ w ++ rest)
    (hu : ∀ A1 n i A2, A = A1 ++ (n, some i) :: A2 → σ.length ≤ A1.length →
      A1.length < (σ ++ w).length → A1.length < u.length ∧ u ≠ names A1 ++ [n]) :
    w = (names w).map (·, none) := by
  have key : ∀ s ∈ w, s.2 = none := by
    intro s hs
    obtain ⟨w1, w2, rfl⟩ := List.append_of_mem hs
    rcases s with ⟨n, _ | i⟩
    · rfl
    · exfalso
      have hA' : A = (σ ++ w1) ++ (n, some i) :: (w2 ++ rest) := by rw [hA]; simp
      obtain ⟨l2, hne⟩ := hu _ _ _ _ hA' (by simp) (by simp)
      obtain ⟨x, hx⟩ := P.at_
      have hne2 : w2 ++ rest ≠ [] := by
        intro h
        have hs := P.sent
        rw [hA', h] at hs
        simpa using sent_last hs
      obtain ⟨h1, -⟩ := P.between hB g1 g2 hA' hne2 (index_active (.inl P.typed) (hA' ▸ hx))
        (by simp [names]) l2
      exact hne h1
  clear hu hA
  induction w with
  | nil => rfl
  | cons s w ih =>
    simp only [names, List.map_cons]
    rw [← names, ← ih (fun t ht => key t (by simp [ht]))]
    congr 1
    exact Prod.ext rfl (key s (by simp))

theorem names_eq_append {w : Addr} {r s : List Name} (h : names w = r ++ s) :
    ∃ w1 w2, w = w1 ++ w2 ∧ names w1 = r ∧ names w2 = s := by
  refine ⟨w.take r.length, w.drop r.length, (List.take_append_drop _ _).symm, ?_, ?_⟩
  · have : names (w.take r.length) = (names w).take r.length := by simp [names, List.map_take]
    rw [this, h]; simp
  · have : names (w.drop r.length) = (names w).drop r.length := by simp [names, List.map_drop]
    rw [this, h]; simp

theorem step_of_path {cx : Cfg V} {tm : Meta} {q : List Name} {n : Name} {t : Addr} {u : List Name}
    (h : stepPath cx tm q n (names t) = some u) : ∃ b, step cx tm q n t = some b ∧ names b = u := by
  cases hb : step cx tm q n t with
  | none =>
    unfold step at hb; unfold stepPath at h
    split at hb
    · next e => rw [e] at h; simp at h
    · simp at hb
    · simp at hb
  | some b =>
    have := step_names hb
    rw [h] at this
    exact ⟨b, rfl, by simpa using this.symm⟩

/-- Nodes go back to where they came from. -/
theorem Pair.sent_back (P : Pair cx cx' sm tm source data A B)
    (hone : ∀ B1 n' B3 m e, B = B1 ++ (n', some 0) :: B3 → cx'.change (names B1 ++ [n']) = some .structAos →
      (Node.struct data).at (B1 ++ [(n', none)]) = some (.aos m e) → ∃ d, e = .cons d .nil)
    (B2 : Addr) {B1 : Addr} (hB : B = B1 ++ B2) (hne : B2 ≠ []) {g : Fields V}
    (hg : (Node.struct data).at B1 = some (.struct g)) {σ rest : Addr} (hσ : A = σ ++ rest)
    (g1 : Goes cx' sm (names B1) (names σ)) : Sent cx' sm (names B1) σ g B2 A := by
  induction B2 generalizing B1 g σ rest with
  | nil => exact absurd rfl hne
  | cons s B3 ih =>
    obtain ⟨n', j⟩ := s
    obtain ⟨y0, hy0⟩ := P.at'
    obtain ⟨g', y, z, m, k1, k2, k3, k4, k5, k6⟩ := at_get_typed (.inl P.typed') (hB ▸ hy0)
    rw [hg] at k1; cases k1
    -- where `n'` goes
    have hpre : names B1 ++ [n'] <+: names B := by rw [hB]; simp [names]
    obtain ⟨q, hq⟩ := hpre
    obtain ⟨u, g2⟩ := goes_prefix (hq.symm ▸ P.goes')
    have hun : u <+: names A := goes_mono P.one' q (hq.symm ▸ P.metaB) g2 (hq.symm ▸ P.goes')
    obtain ⟨b, hb, hbu⟩ := step_of_path ((goes_snoc g1).1 g2)
    obtain ⟨r, rfl, hr⟩ := step_weak P.one' g1 (by rw [k5]; rfl) hb
    rw [names_append, names_none] at hbu
    -- the part of `A` it corresponds to
    obtain ⟨w, rest', rfl, hw⟩ : ∃ w rest', rest = w ++ rest' ∧ names w = r := by
      have h1 : names σ ++ r <+: names σ ++ names rest := by rw [hbu, ← names_append, ← hσ]; exact hun
      rw [List.prefix_append_right_inj] at h1
      obtain ⟨v, hv⟩ := h1
      obtain ⟨w1, w2, e1, e2, -⟩ := names_eq_append hv.symm
      exact ⟨w1, w2, e1, e2⟩
    subst hw
    have hulen : u.length = σ.length + w.length := by rw [← hbu]; simp [names]
    have hunames : u = names (σ ++ w) := by rw [← hbu, names_append]
    -- all items are plain unless the last one carries an index
    have allplain : (∀ A1 n i, A = A1 ++ (n, some i) :: rest' → σ.length ≤ A1.length →
        σ ++ w = A1 ++ [(n, some i)] → False) →
        w = (names w).map (·, none) := by
      intro hno
      refine P.plain_between (j := j) (B3 := B3) hB g1 g2 (w := w) (rest := rest') (by rw [hσ]; simp) ?_
      intro A1 n i A2 hA l1 l2
      refine ⟨by rw [hulen]; simpa using l2, ?_⟩
      intro he
      have hl : (σ ++ w).length = A1.length + 1 := by
        have := congrArg List.length he
        rw [hunames] at this; simpa [names] using this
      have e1 : (σ ++ w) ++ rest' = (A1 ++ [(n, some i)]) ++ A2 := by
        rw [List.append_assoc, ← hσ, hA]; simp
      have e2 := List.append_inj e1 (by simpa using hl)
      exact hno A1 n i (by rw [hA, e2.2]) l1 e2.1
    by_cases hB3 : B3 = []
    · subst hB3
      have hu : u = names A := by
        have e : names B1 ++ [n'] = names B := by rw [hB]; simp [names]
        exact goes_fun g2 (e ▸ P.goes')
      have hrest : rest' = [] := by
        have := congrArg List.length hu
        rw [hunames, hσ] at this
        simp [names] at this
        exact this
      subst hrest
      have hp := allplain (by
        intro A1 n i hA _ _
        have hs := P.sent
        rw [hA] at hs
        simpa using sent_last hs)
      have hj : j = none := by
        rcases j with _ | j
        · rfl
        · exfalso
          obtain ⟨A1, n, i, A2, e1, e2, e3, e4, -⟩ := sent_carried P.one P.here P.sent hB (by simp)
          have hpr := P.one.apart _ _ _ _ P.act e3 P.goes e4 (by rw [hB]; simp [names])
          have h1 := hpr.length_le
          have h2 := List.length_pos_iff.2 e2
          have h3 := congrArg List.length e1
          simp only [names, List.length_append, List.length_map, List.length_cons, List.length_nil,
            List.nil_append] at h1 h3
          omega
      subst hj
      have hbA : σ ++ (names w).map (·, none) = A := by rw [← hp, hσ]; simp
      rw [hbA] at hb
      exact .here k4 hb
    · -- `y` is a structure
      obtain ⟨s3, B4, rfl⟩ : ∃ s B4, B3 = s :: B4 := by
        cases B3 with
        | nil => exact absurd rfl hB3
        | cons s B4 => exact ⟨s, B4, rfl⟩
      obtain ⟨d, rfl⟩ : ∃ d, y = .struct d := by
        simp only [Node.at, Option.bind_eq_some_iff] at k3
        obtain ⟨x, hx, -⟩ := k3
        obtain ⟨c, rfl, -⟩ := item_cases hx
        exact ⟨c, rfl⟩
      have hg' : (Node.struct data).at (B1 ++ [(n', j)]) = some (.struct d) := by
        rw [at_append, hg]; simp [Node.at, k2]
      have hBs : B = (B1 ++ [(n', j)]) ++ s3 :: B4 := by rw [hB]; simp
      have hnm : names (B1 ++ [(n', j)]) = names B1 ++ [n'] := by simp [names]
      -- an active node comes from an active node
      have active : Active cx' tm (names B1 ++ [n']) →
          ∃ A1 n i, σ ++ w = A1 ++ [(n, i)] ∧ u = names A1 ++ [n] ∧ Active cx sm u ∧ rest' ≠ [] ∧
            Goes cx tm u (names B1 ++ [n']) ∧ Carry cx u i j ∧
            σ ++ (names w).map (·, none) = A1 ++ [(n, none)] := by
        intro hact
        obtain ⟨hgu, hau⟩ := P.inv'.back _ _ hact g2 (P.meta_prefix' hun)
        have hwne : w ≠ [] := by
          intro h; have := hr hact; rw [h] at this; simp [names] at this
        have hwe : w = w.dropLast ++ [w.getLast hwne] := (List.dropLast_concat_getLast hwne).symm
        rcases hl : w.getLast hwne with ⟨n, i⟩
        have hw1 : σ ++ w = (σ ++ w.dropLast) ++ [(n, i)] := by
          rw [List.append_assoc, ← hl, ← hwe]
        have hu1 : u = names (σ ++ w.dropLast) ++ [n] := by
          rw [hunames, hw1]; simp [names]
        have hrest : rest' ≠ [] := by
          intro h
          have : u = names A := by rw [hunames, hσ, h]; simp
          rw [this] at hgu
          have := goes_fun hgu P.goes
          rw [← hnm, hBs] at this
          simp [names] at this
        have hA1 : A = (σ ++ w.dropLast) ++ (n, i) :: rest' := by
          rw [hσ, ← List.append_assoc, hw1]; simp
        obtain ⟨-, -, hc⟩ := P.between hB g1 g2 hA1 hrest (hu1 ▸ hau) (by simp [names])
          (by rw [hu1]; simp [names])
        have hdl : w.dropLast = (names w.dropLast).map (·, none) := by
          refine P.plain_between (j := j) hB g1 g2 (w := w.dropLast) (rest := (n, i) :: rest') hA1 ?_
          intro A1 n2 i2 A2 hA l1 l2
          refine ⟨by rw [hu1]; simp [names] at l2 ⊢; omega, ?_⟩
          intro he
          have := congrArg List.length he
          rw [hu1] at this
          simp [names] at this l2
          omega
        refine ⟨σ ++ w.dropLast, n, i, hw1, hu1, hau, hrest, hgu, by rw [hu1]; exact hc, ?_⟩
        rw [List.append_assoc]
        congr 1
        conv => lhs; rw [hwe, hl]
        conv => rhs; rw [hdl]
        simp [names]
      rcases hch : cx'.change (names B1 ++ [n']) with _ | (_ | f)
      · rcases j with _ | j
        · -- a plain structure
          have k2' : g.get? n' = some (.struct d) := by
            obtain ⟨c, e, h⟩ := item_cases k2
            cases e
            rcases h with h | ⟨i, m, e, f, h, -⟩
            · exact h.2
            · simp at h
          have hp := allplain (by
            intro A1 n i hA hl1 hw1
            have hu1 : u = names A1 ++ [n] := by rw [hunames, hw1]; simp [names]
            obtain ⟨x, hx⟩ := P.at_
            have hau : Active cx sm (names A1 ++ [n]) := index_active (.inl P.typed) (hA ▸ hx)
            have hrest : rest' ≠ [] := by
              intro h
              have hs := P.sent
              rw [hA, h] at hs
              simpa using sent_last hs
            obtain ⟨-, hgo, hc⟩ := P.between hB g1 g2 hA hrest hau (by simpa [names] using hl1)
              (by rw [hu1]; simp [names])
            rcases hc with ⟨-, hc⟩ | ⟨hc, -⟩
            · simp at hc
            · have := (P.inv.array _ _ hau hgo (by rw [k5]; rfl) hc).1
              rw [hch] at this; simp at this)
          refine .child k2' hb hch ?_
          have := ih hBs (by simp) hg' (σ := σ ++ w) (rest := rest') (by rw [hσ]; simp)
            (by rw [hnm, ← hunames]; exact g2)
          rw [hnm] at this
          rw [← hp]; exact this
        · -- an element
          obtain ⟨c, e, h⟩ := item_cases k2
          cases e
          rcases h with h | ⟨i0, m1, e1, f1, h, k2', k3', k4'⟩
          · simp at h
          simp only [Option.some.injEq] at h; subst h
          cases k4'
          simp only at k2' 
          obtain ⟨A1, n, i, hw1, hu1, hau, hrest, hgu, hc, hbe⟩ := active (index_active (.inl P.typed') (hB ▸ hy0))
          have hi : i = some j := by
            rcases hc with ⟨-, hc⟩ | ⟨hc, -⟩
            · exact hc
            · have := (P.inv.array _ _ hau hgu (by rw [k5]; rfl) hc).1
              rw [hch] at this; simp at this
          subst hi
          have := ih hBs (by simp) hg' (σ := σ ++ w) (rest := rest') (by rw [hσ]; simp)
            (by rw [hnm, ← hunames]; exact g2)
          rw [hnm] at this
          refine .element k2' k3' hb hch ?_
          rw [hbe, elemOf_snoc, ← hw1]; exact this
      · have hact : Active cx' tm (names B1 ++ [n']) :=
          active_of k5 (.inl k6) (.inr (.inl (by rw [hch]; simp)))
        obtain ⟨A1, n, i, hw1, hu1, hau, hrest, hgu, hc, hbe⟩ := active hact
        have hcu : cx.change u = some .structAos := 
          (P.inv'.array _ _ hact g2 (P.meta_prefix' hun) hch).1
        have := ih hBs (by simp) hg' (σ := σ ++ w) (rest := rest') (by rw [hσ]; simp)
          (by rw [hnm, ← hunames]; exact g2)
        rw [hnm] at this
        rcases hc with ⟨hc, -⟩ | ⟨-, ⟨rfl, rfl⟩ | ⟨rfl, rfl⟩⟩
        · rw [hcu] at hc; simp at hc
        · -- back to a structure
          obtain ⟨c, e, h⟩ := item_cases k2
          cases e
          rcases h with h | ⟨i0, m1, e1, f1, h, k2', k3', k4'⟩
          · simp at h
          simp only [Option.some.injEq] at h; subst h
          cases k4'
          simp only at k2'
          obtain ⟨d', rfl⟩ := hone B1 n' _ m1 e1 hB hch (by rw [at_append, hg]; simp [Node.at, Node.item, k2'])
          simp only [Elems.get?, Option.some.injEq] at k3'
          subst k3'
          refine .ofArray k2' hb hch ?_
          rw [hbe, ← hw1]; exact this
        · have k2' : g.get? n' = some (.struct d) := by
            obtain ⟨c, e, h⟩ := item_cases k2
            cases e
            rcases h with h | ⟨i, m, e, f, h, -⟩
            · exact h.2
            · simp at h
          refine .toArray k2' hb hch ?_
          rw [hbe, elemOf_snoc, ← hw1]; exact this
      · exfalso
        have hact : Active cx' tm (names B1 ++ [n']) :=
          active_of k5 (.inl k6) (.inr (.inl (by rw [hch]; simp)))
        obtain ⟨A1, n, i, hw1, hu1, hau, hrest, hgu, hc, hbe⟩ := active hact
        rcases hc with ⟨hc, -⟩ | ⟨hc, -⟩
        · have := P.inv.plain _ _ hau hgu (by rw [k5]; rfl) hc
          rw [hch] at this; simp at this
        · have := (P.inv.array _ _ hau hgu (by rw [k5]; rfl) hc).1
          rw [hch] at this; simp at this

end

theorem sent_at {cx : Cfg V} {tm : Meta} {A : Addr} {p : List Name} {t : Addr} {c : Fields V} {B : Addr}
    (hs : Sent cx tm p t c A B) : ∃ x, (Node.struct c).at A = some x := by
  induction A generalizing p t c with
  | nil => exact ⟨_, rfl⟩
  | cons s A ih =>
    rcases sent_cons hs with ⟨rfl, h2, -, x, hx⟩ | ⟨-, d, b, hi, -, hr⟩
    · obtain ⟨n, i⟩ := s
      simp only at h2 hx; subst h2
      exact ⟨x, by simp [Node.at, Node.item, hx]⟩
    · obtain ⟨x, hx⟩ := ih hr
      exact ⟨x, by simp only [Node.at, hi, Option.bind_some]; exact hx⟩

/-- The node above a part of the address goes to the part of the target before it. -/
theorem sent_init {cx : Cfg V} {sm tm : Meta} (ho : OneToOne cx sm tm) {A1 A2 : Addr} {p : List Name}
    {t : Addr} {c : Fields V} (h : Here cx sm tm p t c) {B : Addr} {n : Name} {i : Option Nat}
    (hs : Sent cx tm p t c (A1 ++ (n, i) :: A2) B) (hne : A2 ≠ [])
    (ha : Active cx sm (p ++ names A1 ++ [n])) :
    ∃ B1 n' j B2, B = B1 ++ (n', j) :: B2 ∧
      Sent cx tm p t c (A1 ++ [(n, none)]) (B1 ++ [(n', none)]) ∧
      Carry cx (p ++ names A1 ++ [n]) i j := by
  induction A1 generalizing p t c with
  | nil =>
    simp only [List.nil_append] at hs ⊢
    rcases sent_cons hs with ⟨h1, -⟩ | ⟨-, d, b, hi, he, hr⟩
    · exact absurd h1 hne
    · simp only [names, List.map_nil, List.append_nil] at ha
      obtain ⟨r', rfl⟩ := sent_down ho (here_enter h hi he) hr
      obtain ⟨b0, h1, h2⟩ := he
      simp only at h1 h2
      obtain ⟨u, k, rfl⟩ := step_down ho h.goes ha h1
      obtain ⟨y, hy⟩ := item_get hi
      rw [← List.append_assoc] at h1 h2
      simp only [elemOf_snoc] at h2
      have : ∃ j, b = (t ++ u) ++ [(k, j)] ∧ Carry cx (p ++ [n]) i j := by
        rcases h2 with ⟨h3, ⟨h4, h5⟩ | ⟨i', h4, h5⟩⟩ | ⟨h3, ⟨h4, h5⟩ | ⟨h4, h5⟩⟩
        · exact ⟨_, h5, .inl ⟨h3, h4⟩⟩
        · exact ⟨_, h5, .inl ⟨h3, h4⟩⟩
        · exact ⟨_, h5, .inr ⟨h3, .inl ⟨h4, rfl⟩⟩⟩
        · exact ⟨_, h5, .inr ⟨h3, .inr ⟨h4, rfl⟩⟩⟩
      obtain ⟨j, rfl, hc⟩ := this
      exact ⟨t ++ u, k, j, r', by simp, .here hy h1, by simpa [names] using hc⟩
  | cons s A1 ih =>
    have e : p ++ names (s :: A1) ++ [n] = p ++ [s.1] ++ names A1 ++ [n] := by simp [names]
    rw [e] at ha
    rw [e]
    simp only [List.cons_append] at hs ⊢
    generalize hA : A1 ++ (n, i) :: A2 = A at hs
    have hh : ∀ {d b}, (Node.struct c).item s = some (.struct d) → Enter cx tm p t s b →
        Here cx sm tm (p ++ [s.1]) b d := fun hi he => here_enter h hi he
    cases hs with
    | here h1 hb => simp at hA
    | child h1 hb hc r =>
      subst hA
      obtain ⟨B1, n', j, B2, rfl, h3, h4⟩ := ih (hh (by simp [Node.item, h1]) ⟨_, hb, .inl ⟨hc, .inl ⟨rfl, rfl⟩⟩⟩) r ha
      exact ⟨B1, n', j, B2, rfl, .child h1 hb hc h3, h4⟩
    | element h1 hi hb hc r =>
      subst hA
      obtain ⟨B1, n', j, B2, rfl, h3, h4⟩ := ih (hh (by simp [Node.item, h1, hi]) ⟨_, hb, .inl ⟨hc, .inr ⟨_, rfl, rfl⟩⟩⟩) r ha
      exact ⟨B1, n', j, B2, rfl, .element h1 hi hb hc h3, h4⟩
    | toArray h1 hb hc r =>
      subst hA
      obtain ⟨B1, n', j, B2, rfl, h3, h4⟩ := ih (hh (by simp [Node.item, h1]) ⟨_, hb, .inr ⟨hc, .inl ⟨rfl, rfl⟩⟩⟩) r ha
      exact ⟨B1, n', j, B2, rfl, .toArray h1 hb hc h3, h4⟩
    | ofArray h1 hb hc r =>
      subst hA
      obtain ⟨B1, n', j, B2, rfl, h3, h4⟩ := ih (hh (by simp [Node.item, h1, Elems.get?]) ⟨_, hb, .inr ⟨hc, .inr ⟨rfl, rfl⟩⟩⟩) r ha
      exact ⟨B1, n', j, B2, rfl, .ofArray h1 hb hc h3, h4⟩

/-! ### Checking concrete maps -/

mutual
/-- All paths of a Data Dictionary entry. -/
def metaPaths : Meta → List (List Name)
  | .leaf _ => [[]]
  | .struct c => [] :: mfPaths c
  | .aos c => [] :: mfPaths c
def mfPaths : MFields → List (List Name)
  | .nil => []
  | .cons n m r => (metaPaths m).map (n :: ·) ++ mfPaths r
end

mutual
theorem mem_metaPaths (m : Meta) (p : List Name) (h : (metaAt m p).isSome = true) : p ∈ metaPaths m := by
  match m with
  | .leaf l =>
    cases p with
    | nil => simp [metaPaths]
    | cons n p => simp [metaAt, child] at h
  | .struct c =>
    cases p with
    | nil => simp [metaPaths]
    | cons n p =>
      simp only [metaAt, child] at h
      simp only [metaPaths, List.mem_cons]
      exact .inr (mem_mfPaths c n p h)
  | .aos c =>
    cases p with
    | nil => simp [metaPaths]
    | cons n p =>
      simp only [metaAt, child] at h
      simp only [metaPaths, List.mem_cons]
      exact .inr (mem_mfPaths c n p h)
termination_by structural m
theorem mem_mfPaths (c : MFields) (n : Name) (p : List Name)
    (h : ((mchild c n).bind (metaAt · p)).isSome = true) : n :: p ∈ mfPaths c := by
  match c with
  | .nil => simp [mchild] at h
  | .cons k m r =>
    simp only [mchild] at h
    simp only [mfPaths, List.mem_append, List.mem_map]
    split at h
    · next e =>
      subst e
      exact .inl ⟨p, mem_metaPaths m p (by simpa using h), rfl⟩
    · exact .inr (mem_mfPaths r n p h)
termination_by structural c
end

def isActive (cx : Cfg V) (sm : Meta) (p : List Name) : Bool :=
  match metaAt sm p with
  | none => false
  | some (.struct _) => (cx.change p).isSome || (cx.post p).isSome
  | some _ => true

theorem isActive_iff {cx : Cfg V} {sm : Meta} {p : List Name} : isActive cx sm p = true ↔ Active cx sm p := by
  unfold isActive Active
  cases h : metaAt sm p with
  | none => simp
  | some m =>
    cases m with
    | leaf => simp
    | aos => simp
    | struct c =>
      simp only [Bool.or_eq_true, Option.some.injEq, exists_eq_left']
      constructor
      · rintro (h | h)
        · exact .inr (.inl (by rw [Option.isSome_iff_ne_none] at h; exact h))
        · exact .inr (.inr (by rw [Option.isSome_iff_ne_none] at h; exact h))
      · rintro (h | h | h)
        · exact absurd rfl (h c)
        · exact .inl (Option.isSome_iff_ne_none.2 h)
        · exact .inr (Option.isSome_iff_ne_none.2 h)

/-- Decides `OneToOne`. -/
def checkOneToOne (cx : Cfg V) (sm tm : Meta) : Bool :=
  ((metaPaths sm).all fun p =>
    match p.getLast? with
    | none => true
    | some _ =>
      match pathFrom cx tm [] [] p.dropLast, pathFrom cx tm [] [] p with
      | some q, some q' => q.isPrefixOf q' && (!isActive cx sm p || decide (q ≠ q'))
      | _, _ => true) &&
  ((metaPaths sm).all fun p => (metaPaths sm).all fun p' =>
    match pathFrom cx tm [] [] p, pathFrom cx tm [] [] p' with
    | some q, some q' =>
      !(isActive cx sm p && isActive cx sm p' && q.isPrefixOf q') || p.isPrefixOf p'
    | _, _ => true)

theorem oneToOne_of_check {cx : Cfg V} {sm tm : Meta} (h : checkOneToOne cx sm tm = true) :
    OneToOne cx sm tm := by
  simp only [checkOneToOne, Bool.and_eq_true, List.all_eq_true] at h
  obtain ⟨h1, h2⟩ := h
  constructor
  · intro p n q q' hm hq hq'
    have h3 := h1 _ (mem_metaPaths sm _ hm)
    unfold Goes at hq hq'
    simp only [List.getLast?_append, List.getLast?_singleton, Option.some_or, List.dropLast_concat, hq, hq',
      Bool.and_eq_true, List.isPrefixOf_iff_prefix, Bool.or_eq_true, Bool.not_eq_true',
      decide_eq_true_eq] at h3
    obtain ⟨⟨r, rfl⟩, h4⟩ := h3
    refine ⟨r, rfl, ?_⟩
    intro ha hr
    rw [hr] at h4
    rcases h4 with h4 | h4
    · rw [isActive_iff.2 ha] at h4; simp at h4
    · simp at h4
  · intro p p' q q' ha ha' hq hq' hpre
    have m1 : (metaAt sm p).isSome = true := by obtain ⟨m, hm, -⟩ := ha; rw [hm]; rfl
    have m2 : (metaAt sm p').isSome = true := by obtain ⟨m, hm, -⟩ := ha'; rw [hm]; rfl
    have h3 := h2 _ (mem_metaPaths sm _ m1) _ (mem_metaPaths sm _ m2)
    unfold Goes at hq hq'
    rw [hq, hq'] at h3
    simpa [isActive_iff.2 ha, isActive_iff.2 ha', List.isPrefixOf_iff_prefix.2 hpre,
      List.isPrefixOf_iff_prefix] using h3

/-- Decides `Inverse`. -/
def checkInverse (cx cx' : Cfg V) (sm tm : Meta) : Bool :=
  (metaPaths sm).all fun p =>
    match pathFrom cx tm [] [] p with
    | none => true
    | some q => !(isActive cx sm p && (metaAt tm q).isSome) ||
      (decide (pathFrom cx' sm [] [] q = some p) && isActive cx' tm q &&
        match cx.change p, cx'.change q with
        | none, none => true
        | none, some _ => false
        | some .structAos, some .structAos =>
          match metaAt sm p, metaAt tm q with
          | some (.struct _), some (.aos _) => true
          | some (.struct _), _ => false
          | _, _ => true
        | some .structAos, _ => false
        | some (.custom _), some (.custom _) => true
        | some (.custom _), _ => false)

theorem inverse_of_check {cx cx' : Cfg V} {sm tm : Meta} (h : checkInverse cx cx' sm tm = true) :
    Inverse cx cx' sm tm := by
  have key : ∀ p q, Active cx sm p → Goes cx tm p q → (metaAt tm q).isSome = true →
      (Goes cx' sm q p ∧ Active cx' tm q) ∧ (cx.change p = none → cx'.change q = none) ∧
      (cx.change p = some .structAos → cx'.change q = some .structAos ∧
        ((∃ c, metaAt sm p = some (.struct c)) → ∃ c, metaAt tm q = some (.aos c))) ∧
      (∀ f, cx.change p = some (.custom f) → ∃ f', cx'.change q = some (.custom f')) := by
    intro p q ha hq hm
    have m1 : (metaAt sm p).isSome = true := by obtain ⟨m, hm, -⟩ := ha; rw [hm]; rfl
    simp only [checkInverse, List.all_eq_true] at h
    have h3 := h _ (mem_metaPaths sm _ m1)
    unfold Goes at hq
    rw [hq] at h3
    simp only [isActive_iff.2 ha, hm, Bool.and_self, Bool.not_true, Bool.false_or, Bool.and_eq_true,
      decide_eq_true_eq] at h3
    obtain ⟨⟨h4, h5⟩, h6⟩ := h3
    refine ⟨⟨h4, isActive_iff.1 h5⟩, ?_, ?_, ?_⟩
    · intro hc
      rw [hc] at h6
      cases hc' : cx'.change q with
      | none => rfl
      | some f => rw [hc'] at h6; simp at h6
    · intro hc
      rw [hc] at h6
      rcases hc' : cx'.change q with _ | (_ | f) <;> rw [hc'] at h6
      · simp at h6
      · refine ⟨rfl, ?_⟩
        rintro ⟨c, hc1⟩
        rw [hc1] at h6
        cases hm2 : metaAt tm q with
        | none => rw [hm2] at h6; simp at h6
        | some m => rw [hm2] at h6; cases m <;> simp at h6; exact ⟨_, rfl⟩
      · simp at h6
    · intro f hc
      rw [hc] at h6
      rcases hc' : cx'.change q with _ | (_ | f') <;> rw [hc'] at h6
      · simp at h6
      · simp at h6
      · exact ⟨f', rfl⟩
  exact ⟨fun p q a b c => (key p q a b c).1, fun p q a b c => (key p q a b c).2.1,
    fun p q a b c => (key p q a b c).2.2.1, fun p q f a b c => (key p q a b c).2.2.2 f⟩

end Verif.Convert
