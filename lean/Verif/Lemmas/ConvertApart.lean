import Verif.Lemmas.ConvertMain
/-
If the map between the dictionaries is one-to-one, different nodes go to different places.
-/
set_option linter.unusedSectionVars false
namespace Verif.Convert
open Verif.Ids Verif.TreeSpec Verif.ConvertSpec Verif.DiffSpec
open Verif.GotoSpec (common)

variable {V : Type} [Value V]

theorem take_common : ∀ a b : List Name, a.take (common a b) = b.take (common a b)
  | [], b => by simp [common]
  | _ :: _, [] => by simp [common]
  | x :: xs, y :: ys => by
    simp only [common]
    split
    · next h => simp [h, take_common xs ys]
    · simp

theorem common_prefix (a r : List Name) : common a (a ++ r) = a.length := by
  induction a with
  | nil => cases r <;> simp [common]
  | cons x a ih => simp [common, ih]

theorem names_append (a b : Addr) : names (a ++ b) = names a ++ names b := by simp [names]

theorem names_none (q : List Name) : names (q.map (·, none)) = q := by
  simp only [names, List.map_map]
  have : ((fun x : Name × Option Nat => x.1) ∘ fun n : Name => (n, (none : Option Nat))) = id := rfl
  rw [this, List.map_id]

theorem names_relocate (t : Addr) (q : List Name) : names (relocate t q) = q := by
  unfold relocate
  rw [names_append, names_none]
  have : names (t.take (common (names t) q)) = (names t).take (common (names t) q) := by
    simp [names, List.map_take]
  rw [this, take_common, List.take_append_drop]

theorem names_elemOf (a : Addr) (i : Nat) : names (elemOf a i) = names a := by
  rcases elemOf_cases a i with h | ⟨p, n, h1, h2⟩
  · rw [h]
  · rw [h2, h1]; simp [names]

theorem step_names {cx : Cfg V} {tm : Meta} {q : List Name} {n : Name} {t b : Addr}
    (h : step cx tm q n t = some b) : stepPath cx tm q n (names t) = some (names b) := by
  unfold step at h
  unfold stepPath
  split at h
  · simp at h
  · next r hr => cases h; simp [names_relocate]
  · next hr =>
    cases h
    simp only [Option.some.injEq]
    split <;> simp [names]

/-- Position at which the conversion continues for the part `s` of a structure. -/
def Enter (cx : Cfg V) (tm : Meta) (p : List Name) (t : Addr) (s : Name × Option Nat) (b' : Addr) :
    Prop :=
  ∃ b, step cx tm (p ++ [s.1]) s.1 t = some b ∧
    ((cx.change (p ++ [s.1]) = none ∧ ((s.2 = none ∧ b' = b) ∨ ∃ i, s.2 = some i ∧ b' = elemOf b i)) ∨
     (cx.change (p ++ [s.1]) = some .structAos ∧
       ((s.2 = none ∧ b' = elemOf b 0) ∨ (s.2 = some 0 ∧ b' = b))))

theorem enter_fun {cx : Cfg V} {tm : Meta} {p : List Name} {t : Addr} {s : Name × Option Nat}
    {b b' : Addr} (h : Enter cx tm p t s b) (h' : Enter cx tm p t s b') : b = b' := by
  obtain ⟨c, h1, h2⟩ := h
  obtain ⟨c', h1', h2'⟩ := h'
  rw [h1] at h1'; cases h1'
  rcases h2 with ⟨h3, h4⟩ | ⟨h3, h4⟩ <;> rcases h2' with ⟨h3', h4'⟩ | ⟨h3', h4'⟩
  · rcases h4 with ⟨h5, rfl⟩ | ⟨i, h5, rfl⟩ <;> rcases h4' with ⟨h5', rfl⟩ | ⟨j, h5', rfl⟩
    · rfl
    · rw [h5] at h5'; simp at h5'
    · rw [h5] at h5'; simp at h5'
    · rw [h5] at h5'; cases h5'; rfl
  · rw [h3] at h3'; simp at h3'
  · rw [h3] at h3'; simp at h3'
  · rcases h4 with ⟨h5, rfl⟩ | ⟨h5, rfl⟩ <;> rcases h4' with ⟨h5', rfl⟩ | ⟨h5', rfl⟩
    · rfl
    · rw [h5] at h5'; simp at h5'
    · rw [h5] at h5'; simp at h5'
    · rfl

theorem enter_names {cx : Cfg V} {tm : Meta} {p : List Name} {t : Addr} {s : Name × Option Nat}
    {b : Addr} (h : Enter cx tm p t s b) :
    stepPath cx tm (p ++ [s.1]) s.1 (names t) = some (names b) := by
  obtain ⟨c, h1, h2⟩ := h
  rw [step_names h1]
  rcases h2 with ⟨-, ⟨-, rfl⟩ | ⟨i, -, rfl⟩⟩ | ⟨-, ⟨-, rfl⟩ | ⟨-, rfl⟩⟩ <;> simp [names_elemOf]

theorem sent_cons {cx : Cfg V} {tm : Meta} {p : List Name} {t : Addr} {c : Fields V}
    {s : Name × Option Nat} {A B : Addr} (h : Sent cx tm p t c (s :: A) B) :
    (A = [] ∧ s.2 = none ∧ step cx tm (p ++ [s.1]) s.1 t = some B ∧ ∃ x, c.get? s.1 = some x) ∨
    (A ≠ [] ∧ ∃ d b, (Node.struct c).item s = some (.struct d) ∧ Enter cx tm p t s b ∧
      Sent cx tm (p ++ [s.1]) b d A B) := by
  have ne : ∀ {p t d B}, Sent cx tm p t d A B → A ≠ [] := by
    intro p t d B h e
    obtain ⟨s, A', x, h1, -⟩ := sent_head h
    rw [e] at h1; simp at h1
  cases h with
  | here h hb => exact .inl ⟨rfl, rfl, hb, _, h⟩
  | child h hb hc r =>
    exact .inr ⟨ne r, _, _, by simp [Node.item, h], ⟨_, hb, .inl ⟨hc, .inl ⟨rfl, rfl⟩⟩⟩, r⟩
  | element h hi hb hc r =>
    exact .inr ⟨ne r, _, _, by simp [Node.item, h, hi], ⟨_, hb, .inl ⟨hc, .inr ⟨_, rfl, rfl⟩⟩⟩, r⟩
  | toArray h hb hc r =>
    exact .inr ⟨ne r, _, _, by simp [Node.item, h], ⟨_, hb, .inr ⟨hc, .inl ⟨rfl, rfl⟩⟩⟩, r⟩
  | ofArray h hb hc r =>
    exact .inr ⟨ne r, _, _, by simp [Node.item, h, Elems.get?], ⟨_, hb, .inr ⟨hc, .inr ⟨rfl, rfl⟩⟩⟩, r⟩

theorem pathFrom_append {cx : Cfg V} {tm : Meta} (p t a b : List Name) :
    pathFrom cx tm p t (a ++ b) =
      (pathFrom cx tm p t a).bind fun t' => pathFrom cx tm (p ++ a) t' b := by
  induction a generalizing p t with
  | nil => simp [pathFrom]
  | cons n a ih =>
    simp only [List.cons_append, pathFrom]
    cases stepPath cx tm (p ++ [n]) n t with
    | none => rfl
    | some t' => simp [ih]

theorem sent_names {cx : Cfg V} {tm : Meta} {A : Addr} {p : List Name} {t : Addr} {c : Fields V}
    {B : Addr} (h : Sent cx tm p t c A B) :
    pathFrom cx tm p (names t) (names A) = some (names B) := by
  induction A generalizing p t c with
  | nil => obtain ⟨s, A', x, h1, -⟩ := sent_head h; simp at h1
  | cons s A ih =>
    simp only [names, List.map_cons, pathFrom]
    rcases sent_cons h with ⟨rfl, -, h2, -⟩ | ⟨-, d, b, -, h2, h3⟩
    · rw [← names, step_names h2]; simp [pathFrom, names]
    · rw [← names, enter_names h2]
      exact ih h3

/-- The structure `c` with path `p` goes to `t`. -/
structure Here (cx : Cfg V) (sm tm : Meta) (p : List Name) (t : Addr) (c : Fields V) : Prop where
  goes : Goes cx tm p (names t)
  typed : ∃ m, metaAt sm p = some m ∧ TypedAt (.struct c) m

theorem here_item {cx : Cfg V} {sm tm : Meta} {p : List Name} {t : Addr} {c : Fields V}
    (h : Here cx sm tm p t c) {s : Name × Option Nat} {x : Node V}
    (hx : (Node.struct c).item s = some x) :
    ∃ m, metaAt sm (p ++ [s.1]) = some m ∧ TypedAt x m := by
  obtain ⟨m, h1, h2⟩ := h.typed
  obtain ⟨m', h3, h4⟩ := typedAt_item h2 hx
  exact ⟨m', by simp [metaAt_append, h1, metaAt, h3], h4⟩

theorem here_enter {cx : Cfg V} {sm tm : Meta} {p : List Name} {t : Addr} {c d : Fields V}
    (h : Here cx sm tm p t c) {s : Name × Option Nat} {b : Addr}
    (hi : (Node.struct c).item s = some (.struct d)) (he : Enter cx tm p t s b) :
    Here cx sm tm (p ++ [s.1]) b d := by
  refine ⟨?_, here_item h hi⟩
  unfold Goes
  rw [pathFrom_append]
  have := h.goes
  unfold Goes at this
  rw [this]
  simp [pathFrom, enter_names he]

theorem step_weak {cx : Cfg V} {sm tm : Meta} (ho : OneToOne cx sm tm) {p : List Name} {t : Addr}
    (hg : Goes cx tm p (names t)) {n : Name} (hm : (metaAt sm (p ++ [n])).isSome = true) {b : Addr}
    (hb : step cx tm (p ++ [n]) n t = some b) :
    ∃ r : List Name, b = t ++ r.map (·, none) ∧ (Active cx sm (p ++ [n]) → r ≠ []) := by
  have hg' : Goes cx tm (p ++ [n]) (names b) := by
    unfold Goes at hg ⊢
    rw [pathFrom_append, hg]
    simp [pathFrom, step_names hb]
  obtain ⟨r, h2, h1⟩ := ho.down p n _ _ hm hg hg'
  refine ⟨r, ?_, h1⟩
  unfold step at hb
  split at hb
  · simp at hb
  · next q hq =>
    cases hb
    rw [names_relocate] at h2
    subst h2
    unfold relocate
    rw [common_prefix]
    have e1 : (names t).length = t.length := by simp [names]
    rw [e1, List.take_length]
    rw [List.drop_append_of_le_length (by simp [e1]), List.drop_of_length_le (by simp [e1])]
    rw [List.nil_append]
  · next hq =>
    cases hb
    split
    · next hn =>
      simp only [hn, if_true, names_append] at h2
      have : r = [n] := by
        have := List.append_cancel_left h2
        simpa [names] using this.symm
      rw [this]; rfl
    · next hn =>
      simp only [hn, if_false, Bool.false_eq_true] at h2
      have : r = [] := by simpa using h2
      rw [this]; simp

theorem step_down {cx : Cfg V} {sm tm : Meta} (ho : OneToOne cx sm tm) {p : List Name} {t : Addr}
    (hg : Goes cx tm p (names t)) {n : Name} (hm : Active cx sm (p ++ [n])) {b : Addr}
    (hb : step cx tm (p ++ [n]) n t = some b) : ∃ r k, b = t ++ (r ++ [(k, none)]) := by
  obtain ⟨r, rfl, h1⟩ := step_weak ho hg (by obtain ⟨m, h, -⟩ := hm; rw [h]; rfl) hb
  have h1 := h1 hm
  refine ⟨r.dropLast.map (·, none), r.getLast h1, ?_⟩
  have e2 : r.map (fun n => ((n, none) : Name × Option Nat)) =
      r.dropLast.map (·, none) ++ [(r.getLast h1, none)] := by
    conv => lhs; rw [← List.dropLast_concat_getLast h1]
    simp
  rw [e2]

/-- Nodes that may write have active paths. -/
theorem active_of {cx : Cfg V} {sm : Meta} {q : List Name} {m : Meta} (hm : metaAt sm q = some m)
    {x : Node V} (ht : TypedAt x m)
    (h : (∀ c, x ≠ .struct c) ∨ cx.change q ≠ none ∨ cx.post q ≠ none) : Active cx sm q := by
  refine ⟨m, hm, ?_⟩
  rcases h with h | h
  · left
    rintro c rfl
    rcases ht with ht | ⟨f, mf, rfl, -⟩
    · cases x with
      | leaf => simp [Typed] at ht
      | aos => simp [Typed] at ht
      | struct d => exact h d rfl
    · exact h f rfl
  · exact .inr h

theorem get_item {c : Fields V} {n : Name} {x : Node V} (h : c.get? n = some x) :
    (Node.struct c).item (n, none) = some x := by simp [Node.item, h]

theorem item_get {c : Fields V} {s : Name × Option Nat} {x : Node V}
    (h : (Node.struct c).item s = some x) : ∃ y, c.get? s.1 = some y := by
  obtain ⟨c', e, h⟩ := item_cases h
  cases e
  rcases h with h | ⟨i, m, e, f, -, h, -⟩
  · exact ⟨_, h.2⟩
  · exact ⟨_, h⟩

theorem enter_active {cx : Cfg V} {sm tm : Meta} {p : List Name} {t : Addr} {c : Fields V}
    (h : Here cx sm tm p t c) {s : Name × Option Nat} {d : Fields V}
    (hd : (Node.struct c).item s = some (.struct d)) {b : Addr} (he : Enter cx tm p t s b)
    (hs : s.2 ≠ none ∨ cx.change (p ++ [s.1]) ≠ none) : Active cx sm (p ++ [s.1]) := by
  obtain ⟨y, hy⟩ := item_get hd
  obtain ⟨m, h3, h4⟩ := here_item h (get_item hy)
  refine active_of h3 h4 ?_
  rcases hs with hs | hs
  · left
    rintro c' rfl
    obtain ⟨c', e, hd⟩ := item_cases hd
    cases e
    rcases hd with hd | ⟨i, m, e, f, -, hd, -⟩
    · exact hs hd.1
    · rw [hy] at hd; simp at hd
  · exact .inr (.inl hs)

theorem enter_down {cx : Cfg V} {sm tm : Meta} (ho : OneToOne cx sm tm) {p : List Name} {t : Addr}
    {c : Fields V} (h : Here cx sm tm p t c) {s : Name × Option Nat} {d : Fields V}
    (hd : (Node.struct c).item s = some (.struct d)) {b : Addr}
    (he : Enter cx tm p t s b) : ∃ r, b = t ++ r := by
  have he' := he
  obtain ⟨b0, h1, h2⟩ := he
  rcases h2 with ⟨-, ⟨-, rfl⟩ | ⟨i, hi, rfl⟩⟩ | ⟨hc, ⟨-, rfl⟩ | ⟨-, rfl⟩⟩
  · obtain ⟨y, hy⟩ := item_get hd
    obtain ⟨m, h3, h4⟩ := here_item h (get_item hy)
    obtain ⟨r, rfl, -⟩ := step_weak ho h.goes (by rw [h3]; rfl) h1
    exact ⟨_, rfl⟩
  · obtain ⟨r, k, rfl⟩ := step_down ho h.goes (enter_active h hd he' (.inl (by rw [hi]; simp))) h1
    rw [← List.append_assoc, elemOf_snoc, List.append_assoc]; exact ⟨_, rfl⟩
  · obtain ⟨r, k, rfl⟩ := step_down ho h.goes (enter_active h hd he' (.inr (by rw [hc]; simp))) h1
    rw [← List.append_assoc, elemOf_snoc, List.append_assoc]; exact ⟨_, rfl⟩
  · obtain ⟨r, k, rfl⟩ := step_down ho h.goes (enter_active h hd he' (.inr (by rw [hc]; simp))) h1
    exact ⟨_, rfl⟩

theorem sent_down {cx : Cfg V} {sm tm : Meta} (ho : OneToOne cx sm tm) {A : Addr} {p : List Name}
    {t : Addr} {c : Fields V} (h : Here cx sm tm p t c) {B : Addr} (hs : Sent cx tm p t c A B) :
    ∃ r, B = t ++ r := by
  induction A generalizing p t c with
  | nil => obtain ⟨s, A', x, h1, -⟩ := sent_head hs; simp at h1
  | cons s A ih =>
    rcases sent_cons hs with ⟨rfl, -, h2, x, hx⟩ | ⟨-, d, b, hi, h2, h3⟩
    · obtain ⟨m, h3, -⟩ := here_item h (get_item hx)
      obtain ⟨r, rfl, -⟩ := step_weak ho h.goes (by rw [h3]; rfl) h2
      exact ⟨_, rfl⟩
    · obtain ⟨r, rfl⟩ := ih (here_enter h hi h2) h3
      obtain ⟨r', rfl⟩ := enter_down ho h hi h2
      exact ⟨r' ++ r, by simp⟩

/-- Nodes in different elements of an array go to different elements. -/
theorem sent_apart {cx : Cfg V} {sm tm : Meta} (ho : OneToOne cx sm tm) {A A' : Addr} {p : List Name}
    {t : Addr} {c : Fields V} (h : Here cx sm tm p t c) {B B' : Addr} (hs : Sent cx tm p t c A B)
    (hs' : Sent cx tm p t c A' B') (ha : Apart A A')
    (hn : names A <+: names A' ∨ names A' <+: names A) : ¬ Contains B B' := by
  induction A generalizing p t c A' with
  | nil => simp [Apart] at ha
  | cons s A ih =>
    cases A' with
    | nil => simp [Apart] at ha
    | cons s' A' =>
      have hn1 : s.1 = s'.1 := by
        rcases hn with hn | hn <;> simp only [names, List.map_cons, List.cons_prefix_cons] at hn
        · exact hn.1
        · exact hn.1.symm
      have hn2 : names A <+: names A' ∨ names A' <+: names A := by
        rcases hn with hn | hn <;> simp only [names, List.map_cons, List.cons_prefix_cons] at hn
        · exact .inl hn.2
        · exact .inr hn.2
      simp only [Apart] at ha
      rcases ha with ha | ⟨i, j, hi, hj, hij⟩ | ⟨rfl, ha⟩
      · exact absurd hn1 ha
      · rcases sent_cons hs with ⟨-, h2, -⟩ | ⟨-, d, b, hd, he, hr⟩
        · rw [hi] at h2; simp at h2
        rcases sent_cons hs' with ⟨-, h2, -⟩ | ⟨-, d', b', hd', he', hr'⟩
        · rw [hj] at h2; simp at h2
        obtain ⟨r, rfl⟩ := sent_down ho (here_enter h hd he) hr
        obtain ⟨r', rfl⟩ := sent_down ho (here_enter h hd' he') hr'
        have hact := enter_active h hd he (.inl (by rw [hi]; simp))
        obtain ⟨b0, h1, h2⟩ := he
        obtain ⟨b0', h1', h2'⟩ := he'
        rw [← hn1, h1] at h1'; cases h1'
        obtain ⟨u, k, rfl⟩ := step_down ho h.goes hact h1
        rw [← hn1] at h2'
        rcases h2 with ⟨hc, ⟨h4, -⟩ | ⟨i', h4, rfl⟩⟩ | ⟨hc, ⟨h4, -⟩ | ⟨h4, -⟩⟩
        · rw [hi] at h4; simp at h4
        · rw [hi] at h4; cases h4
          rcases h2' with ⟨hc', ⟨h4', -⟩ | ⟨j', h4', rfl⟩⟩ | ⟨hc', -⟩
          · rw [hj] at h4'; simp at h4'
          · rw [hj] at h4'; cases h4'
            rw [← List.append_assoc t u, elemOf_snoc, elemOf_snoc, List.append_assoc (t ++ u),
              List.append_assoc (t ++ u)]
            intro hco
            obtain ⟨r2, h5⟩ := contains_snoc_index hco
            have := List.append_cancel_left h5
            simp only [List.cons_append, List.nil_append, List.cons.injEq, Prod.mk.injEq,
              Option.some.injEq, true_and] at this
            exact hij this.1.symm
          · rw [hc] at hc'; simp at hc'
        · rw [hi] at h4; simp at h4
        · rw [hi] at h4; cases h4
          rcases h2' with ⟨hc', -⟩ | ⟨hc', ⟨h4', -⟩ | ⟨h4', -⟩⟩
          · rw [hc] at hc'; simp at hc'
          · rw [hj] at h4'; simp at h4'
          · rw [hj] at h4'; cases h4'; exact absurd rfl hij
      · rcases sent_cons hs with ⟨rfl, -⟩ | ⟨-, d, b, hd, he, hr⟩
        · simp [Apart] at ha
        rcases sent_cons hs' with ⟨rfl, -⟩ | ⟨-, d', b', hd', he', hr'⟩
        · cases A <;> simp [Apart] at ha
        rw [hd] at hd'; cases hd'
        cases enter_fun he he'
        exact ih (here_enter h hd he) hr hr' ha hn2

/-- What is below a node goes inside the target of that node. -/
theorem sent_inside {cx : Cfg V} {sm tm : Meta} (ho : OneToOne cx sm tm) {A A' : Addr} {p : List Name}
    {t : Addr} {c : Fields V} (h : Here cx sm tm p t c) {B B' : Addr} (hs : Sent cx tm p t c A B)
    (hs' : Sent cx tm p t c A' B') {x : Node V} (hx : (Node.struct c).at A = some x)
    (hc : Contains A A') (hne : A' ≠ A) (hw : Writes cx (p ++ names A) x) : Inside B B' := by
  induction A generalizing p t c A' with
  | nil => obtain ⟨s, A', x, h1, -⟩ := sent_head hs; simp at h1
  | cons s A ih =>
    cases A' with
    | nil => simp [Contains] at hc
    | cons s' A' =>
      rcases sent_cons hs with ⟨rfl, h2, hb, y, hy⟩ | ⟨hA, d, b, hd, he, hr⟩
      · have hxy : y = x := by
          obtain ⟨n, i⟩ := s
          simp only at h2 hy; subst h2
          simpa [Node.at, Node.item, hy] using hx
        subst hxy
        have hn : s.1 = s'.1 := by
          simp only [Contains] at hc
          rcases hc with rfl | hc
          · rfl
          · exact hc.1
        rcases sent_cons hs' with ⟨rfl, h2', -⟩ | ⟨-, d', b', hd', he', hr'⟩
        · exact absurd (by rw [show s' = s from Prod.ext hn.symm (h2'.trans h2.symm)]) hne
        · obtain ⟨r', rfl⟩ := sent_down ho (here_enter h hd' he') hr'
          obtain ⟨b0, h1, h3⟩ := he'
          rw [← hn, hb] at h1; cases h1
          obtain ⟨m, h4, h4'⟩ := here_item h (get_item hy)
          have hnm : p ++ names [s] = p ++ [s.1] := by simp [names]
          have hact : Active cx sm (p ++ [s.1]) := by
            refine active_of h4 h4' ?_
            rw [hnm] at hw
            cases y with
            | leaf => exact .inl (by simp)
            | aos => exact .inl (by simp)
            | struct => exact .inr (.inl hw)
          obtain ⟨u, k, rfl⟩ := step_down ho h.goes hact hb
          have fin : ∀ i, Inside (t ++ (u ++ [(k, none)])) (elemOf (t ++ (u ++ [(k, none)])) i ++ r') := by
            intro i
            rw [← List.append_assoc, elemOf_snoc, List.append_assoc (t ++ u)]
            exact ⟨t ++ u, k, i, r', rfl, rfl⟩
          rw [← hn] at h3
          rw [hnm] at hw
          obtain ⟨c', e, hd2⟩ := item_cases hd'
          cases e
          rcases h3 with ⟨h5, ⟨h6, rfl⟩ | ⟨i, h6, rfl⟩⟩ | ⟨h5, ⟨h6, rfl⟩ | ⟨h6, rfl⟩⟩
          · rcases hd2 with ⟨-, hd2⟩ | ⟨i, m, e, f, hd2, -⟩
            · rw [← hn, hy] at hd2; cases hd2
              simp only [Writes] at hw
              exact absurd h5 hw
            · rw [h6] at hd2; simp at hd2
          · exact fin i
          · exact fin 0
          · rcases hd2 with ⟨hd2, -⟩ | ⟨i, m, e, f, -, hd2, -⟩
            · rw [h6] at hd2; simp at hd2
            · rw [← hn, hy] at hd2; cases hd2
              simp only [Writes] at hw
              exact absurd h5 hw
      · have hsA : s = s' := by
          cases A with
          | nil => exact absurd rfl hA
          | cons u A => simp only [Contains] at hc; exact hc.1
        subst hsA
        rcases sent_cons hs' with ⟨rfl, -⟩ | ⟨-, d', b', hd', he', hr'⟩
        · cases A with
          | nil => exact absurd rfl hA
          | cons u A => simp [Contains] at hc
        rw [hd] at hd'; cases hd'
        cases enter_fun he he'
        refine ih (here_enter h hd he) hr hr' ?_ (contains_of_cons hc) (fun e => hne (by rw [e])) ?_
        · simpa [Node.at, hd] using hx
        · simpa [names] using hw

theorem contains_names {a b : Addr} (h : Contains a b) : names a <+: names b := by
  induction a generalizing b with
  | nil => simp [names]
  | cons s a ih =>
    cases b with
    | nil => simp [Contains] at h
    | cons t b =>
      simp only [names, List.map_cons, List.cons_prefix_cons]
      cases a with
      | nil =>
        simp only [Contains] at h
        rcases h with rfl | h
        · exact ⟨rfl, by simp⟩
        · exact ⟨h.1, by simp⟩
      | cons u a => simp only [Contains] at h; exact ⟨by rw [h.1], ih h.2⟩

/-- If the map is one-to-one, no other node writes to the target of a node. -/
theorem alone_of_oneToOne {cx : Cfg V} {sm tm : Meta} (ho : OneToOne cx sm tm) {c : Fields V}
    (ht : Typed (.struct c) sm) {A B : Addr} (hs : Sent cx tm [] [] c A B) {x : Node V}
    (hx : (Node.struct c).at A = some x) (hw : Writes cx (names A) x) : Alone cx tm c A B := by
  intro A' B' x' hs' hx' ha hne hnc
  have here : Here cx sm tm [] [] c := ⟨rfl, sm, rfl, .inl ht⟩
  by_cases hc : Contains A A'
  · exact .inr ⟨hc, sent_inside ho here hs hs' hx hc hne (by simpa using hw)⟩
  · left
    have hap : Apart A A' := by
      rcases compare_at hx hx' with h | h | h
      · exact h
      · exact absurd h hc
      · exact absurd h hnc
    have hact : Active cx sm (names A) := by
      obtain ⟨m, h1, h2⟩ := typedAt_at (.inl ht) hx
      refine active_of h1 h2 ?_
      cases x with
      | leaf => exact .inl (by simp)
      | aos => exact .inl (by simp)
      | struct => exact .inr (.inl hw)
    have hact' : Active cx sm (names A') := by
      obtain ⟨m, h1, h2⟩ := typedAt_at (.inl ht) hx'
      refine active_of h1 h2 ?_
      rcases ha with h | h
      · left
        rintro d rfl
        simp [Filled] at h
      · exact .inr h.2
    constructor
    · intro h
      have h1 := ho.apart _ _ _ _ hact hact' (sent_names hs) (sent_names hs')
        (contains_names h)
      exact sent_apart ho here hs hs' hap (.inl h1) h
    · intro h
      have h1 := ho.apart _ _ _ _ hact' hact (sent_names hs') (sent_names hs)
        (contains_names h)
      exact sent_apart ho here hs' hs (apart_symm hap) (.inl h1) h

end Verif.Convert
