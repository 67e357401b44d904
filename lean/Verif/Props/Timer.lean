import Verif.Model.Timer
import Verif.Spec.Timer
/-!
C81: the table of timings.
-/
namespace Verif.Props
open Verif.Timer Verif.TimerSpec

variable {L : Type} [DecidableEq L]

/-- The sections that were timed: those with two labels that raised nothing. -/
def done : List (Section L) → List (L × L × Int)
  | [] => []
  | ⟨[c, r], tic, toc, false⟩ :: l => (c, r, toc - tic) :: done l
  | _ :: l => done l

namespace TimerLemmas

theorem firsts_add {xs l : List L} (h : Firsts xs l) (x : L) : Firsts (xs ++ [x]) (addKey l x) := by
  have hlt : ∀ a b, a ∈ l → b ∈ l → xs.idxOf a < xs.idxOf b → (xs ++ [x]).idxOf a < (xs ++ [x]).idxOf b := by
    intro a b ha hb hab
    rw [List.idxOf_append, List.idxOf_append, if_pos ((h.mem a).1 ha), if_pos ((h.mem b).1 hb)]
    exact hab
  have hord : l.Pairwise fun a b => (xs ++ [x]).idxOf a < (xs ++ [x]).idxOf b :=
    h.order.imp_of_mem fun ha hb hab => hlt _ _ ha hb hab
  unfold addKey
  split
  case isTrue hx =>
    refine ⟨h.once, fun y => ?_, hord⟩
    rw [h.mem y, List.mem_append, List.mem_singleton]
    constructor
    · exact .inl
    · rintro (hy | rfl)
      · exact hy
      · exact (h.mem _).1 hx
  case isFalse hx =>
    refine ⟨?_, fun y => by simp [h.mem y], ?_⟩
    · rw [List.nodup_append]
      refine ⟨h.once, by simp, ?_⟩
      intro a ha b hb e
      rw [List.mem_singleton] at hb
      subst hb; subst e
      exact hx ha
    · rw [List.pairwise_append]
      refine ⟨hord, by simp, ?_⟩
      intro a ha b hb
      rw [List.mem_singleton] at hb
      subst hb
      have hxx : b ∉ xs := fun hb => hx ((h.mem b).2 hb)
      have ha' := (h.mem a).1 ha
      rw [List.idxOf_append, List.idxOf_append, if_pos ha', if_neg hxx]
      have := List.idxOf_lt_length_of_mem ha'
      omega

theorem find_put (k k' : List L) (d : Int) (l : List (List L × Int)) :
    find k' (put k d l) = if k' = k then some d else find k' l := by
  induction l with
  | nil =>
    by_cases e : k' = k
    · simp [put, find, e]
    · simp [put, find, e, Ne.symm e]
  | cons x r ih =>
    obtain ⟨a, b⟩ := x
    by_cases e : a = k
    · subst e
      by_cases e' : k' = a
      · simp [put, find, e']
      · simp [put, find, e', Ne.symm e']
    · rw [put, if_neg e, find, ih]
      by_cases e' : a = k'
      · subst e'; simp [find, e]
      · simp [find, e']

theorem keys_put (k : List L) (d : Int) (l : List (List L × Int)) : (put k d l).map (·.1) = addKey (l.map (·.1)) k := by
  induction l with
  | nil => simp [put, addKey]
  | cons x r ih =>
    obtain ⟨a, b⟩ := x
    by_cases e : a = k
    · subst e; simp [put, addKey]
    · rw [put, if_neg e, List.map_cons, ih]
      unfold addKey
      by_cases hk : k ∈ r.map (·.1)
      · rw [if_pos hk, if_pos (by simp only [List.map_cons]; exact List.mem_cons_of_mem _ hk)]; rfl
      · rw [if_neg hk, if_neg (by
          simp only [List.map_cons, List.mem_cons, not_or]
          exact ⟨fun h => e h.symm, hk⟩)]; rfl

theorem addKey_nodup {M : Type} [DecidableEq M] {l : List M} (h : l.Nodup) (x : M) : (addKey l x).Nodup := by
  unfold addKey
  split
  · exact h
  · rename_i hx
    rw [List.nodup_append]
    refine ⟨h, by simp, ?_⟩
    intro a ha b hb e
    rw [List.mem_singleton] at hb
    subst hb; subst e
    exact hx ha

/-- What the timer holds after some sections. -/
structure Holds (fin : List (L × L × Int)) (t : Timer L) (cols rows : List L) : Prop where
  axes : t.axes = 2
  values : t.values = [cols, rows]
  first : Firsts (fin.map (·.1)) cols
  second : Firsts (fin.map (·.2.1)) rows
  keys : (t.data.map (·.1)).Nodup
  pairs : ∀ k ∈ t.data.map (·.1), ∃ c ∈ cols, ∃ r ∈ rows, k = [c, r]
  last : ∀ c r, Last fin c r (find [c, r] t.data)

theorem last_snoc {fin : List (L × L × Int)} {c r : L} {x : Option Int} (h : Last fin c r x) (c' r' : L) (d : Int) :
    Last (fin ++ [(c', r', d)]) c r (if [c, r] = [c', r'] then some d else x) := by
  split
  case isTrue e =>
    obtain ⟨rfl, rfl⟩ : c = c' ∧ r = r' := by simpa using e
    exact .timed rfl (by simp)
  case isFalse e =>
    have hne : ∀ d', (c, r, d') ≠ (c', r', d) := by
      intro d' e'
      simp only [Prod.mk.injEq] at e'
      exact e (by rw [e'.1, e'.2.1])
    cases h with
    | @timed before after d0 e0 h0 =>
      subst e0
      refine .timed (before := before) (after := after ++ [(c', r', d)]) (by simp) ?_
      intro d' hd
      rcases List.mem_append.1 hd with hd | hd
      · exact h0 d' hd
      · exact hne d' (List.mem_singleton.1 hd)
    | never h0 =>
      refine .never ?_
      intro d' hd
      rcases List.mem_append.1 hd with hd | hd
      · exact h0 d' hd
      · exact hne d' (List.mem_singleton.1 hd)

theorem mem_addKey {M : Type} [DecidableEq M] {l : List M} {x y : M} : y ∈ addKey l x ↔ y ∈ l ∨ y = x := by
  unfold addKey
  split
  · rename_i hx
    constructor
    · exact .inl
    · rintro (h | rfl)
      · exact h
      · exact hx
  · simp

theorem holds_run (l : List (Section L)) : ∀ (fin : List (L × L × Int)) (t : Timer L) (cols rows : List L), Holds fin t cols rows →
    ∃ cols' rows', Holds (fin ++ done l) (run t l) cols' rows' := by
  induction l with
  | nil => intro fin t cols rows h; exact ⟨cols, rows, by simpa [done, run] using h⟩
  | cons s l ih =>
    intro fin t cols rows h
    have hrun : run t (s :: l) = run (step t s) l := rfl
    rw [hrun]
    obtain ⟨items, tic, toc, raises⟩ := s
    by_cases hl : items.length = 2
    · obtain ⟨c, r, rfl⟩ : ∃ c r, items = [c, r] := by
        rcases items with _ | ⟨c, _ | ⟨r, _ | _⟩⟩ <;> simp at hl
        exact ⟨c, r, rfl⟩
      cases raises with
      | true =>
        have e : step t ⟨[c, r], tic, toc, true⟩ = t := by simp [step]
        rw [e]
        have e' : done (⟨[c, r], tic, toc, true⟩ :: l) = done l := by simp [done]
        rw [e']
        exact ih _ _ _ _ h
      | false =>
        have e : step t ⟨[c, r], tic, toc, false⟩ =
            { t with data := put [c, r] (toc - tic) t.data, values := [addKey cols c, addKey rows r] } := by
          simp [step, h.axes, h.values]
        have e' : fin ++ done (⟨[c, r], tic, toc, false⟩ :: l) = (fin ++ [(c, r, toc - tic)]) ++ done l := by simp [done]
        rw [e, e']
        refine ih _ _ (addKey cols c) (addKey rows r) ⟨h.axes, rfl, ?_, ?_, ?_, ?_, ?_⟩
        · rw [List.map_append]; exact firsts_add h.first c
        · rw [List.map_append]; exact firsts_add h.second r
        · show ((put [c, r] (toc - tic) t.data).map (·.1)).Nodup
          rw [keys_put]; exact addKey_nodup h.keys _
        · show ∀ k ∈ (put [c, r] (toc - tic) t.data).map (·.1), _
          rw [keys_put]
          intro k hk
          rcases mem_addKey.1 hk with hk | rfl
          · obtain ⟨a, ha, b, hb, e⟩ := h.pairs k hk
            exact ⟨a, mem_addKey.2 (.inl ha), b, mem_addKey.2 (.inl hb), e⟩
          · exact ⟨c, mem_addKey.2 (.inr rfl), r, mem_addKey.2 (.inr rfl), rfl⟩
        · intro a b
          show Last _ a b (find [a, b] (put [c, r] (toc - tic) t.data))
          rw [find_put]
          exact last_snoc (h.last a b) c r _
    · have e : step t ⟨items, tic, toc, raises⟩ = t := by simp [step, h.axes, hl]
      rw [e]
      have e' : done (⟨items, tic, toc, raises⟩ :: l) = done l := by
        rcases items with _ | ⟨c, _ | ⟨r, _ | _⟩⟩ <;> simp_all [done]
      rw [e']
      exact ih _ _ _ _ h

theorem addTotal_map {c : L} {d : Int} {cols : List L} (hn : cols.Nodup) (hc : c ∈ cols) (f : L → Int) :
    addTotal c d (cols.map fun x => (x, f x)) = .ok (cols.map fun x => (x, f x + if x = c then d else 0)) := by
  induction cols with
  | nil => cases hc
  | cons a r ih =>
    rw [List.nodup_cons] at hn
    rw [List.map_cons, addTotal]
    by_cases e : a = c
    · subst e
      rw [if_pos rfl, List.map_cons, if_pos rfl]
      congr 2
      apply List.map_congr_left
      intro x hx
      have : x ≠ a := fun e => hn.1 (e ▸ hx)
      simp [this]
    · have hc' : c ∈ r := by
        rcases List.mem_cons.1 hc with h | h
        · exact absurd h.symm e
        · exact h
      rw [if_neg e, ih hn.2 hc', List.map_cons, if_neg e]
      simp [Except.map]

/-- The sum of a column. -/
def colSum (c : L) : List (List L × Int) → Int
  | [] => 0
  | (k, d) :: r => (if k.head? = some c then d else 0) + colSum c r

theorem totals_map {cols : List L} (hn : cols.Nodup) (data : List (List L × Int))
    (hp : ∀ k ∈ data.map (·.1), ∃ c ∈ cols, ∃ r, k = [c, r]) (f : L → Int) :
    totals data (cols.map fun x => (x, f x)) = .ok (cols.map fun x => (x, f x + colSum x data)) := by
  induction data generalizing f with
  | nil => simp [totals, colSum]
  | cons x rest ih =>
    obtain ⟨k, d⟩ := x
    obtain ⟨c, hc, r, rfl⟩ := hp k (by simp)
    rw [totals, addTotal_map hn hc]
    dsimp only
    rw [ih (fun k hk => hp k (by rw [List.map_cons]; exact List.mem_cons_of_mem _ hk))]
    congr 1
    apply List.map_congr_left
    intro y _
    simp only [colSum, List.head?_cons, Option.some.injEq, eq_comm (a := c), Prod.mk.injEq, true_and]
    omega

theorem sum_ite (r0 : L) (d : Int) : ∀ (rows : List L), rows.Nodup → ∀ (g : L → Int), g r0 = 0 →
    (rows.map fun r => if r = r0 then d else g r).sum = (if r0 ∈ rows then d else 0) + (rows.map g).sum
  | [], _, _, _ => by simp
  | a :: l, hn, g, hg => by
    rw [List.nodup_cons] at hn
    have ih := sum_ite r0 d l hn.2 g hg
    simp only [List.map_cons, List.sum_cons, ih]
    by_cases e : a = r0
    · subst e
      simp [hn.1, hg]
    · have e' : ¬ r0 = a := fun h => e h.symm
      simp only [e, if_false, List.mem_cons, e', false_or]
      omega

theorem find_none {k : List L} {l : List (List L × Int)} (h : k ∉ l.map (·.1)) : find k l = none := by
  induction l with
  | nil => rfl
  | cons x r ih =>
    simp only [List.map_cons, List.mem_cons, not_or] at h
    rw [find, if_neg (fun e => h.1 e.symm), ih h.2]

theorem colSum_rows (c : L) {rows : List L} (hn : rows.Nodup) : ∀ (data : List (List L × Int)), (data.map (·.1)).Nodup →
    (∀ k ∈ data.map (·.1), ∃ c, ∃ r ∈ rows, k = [c, r]) → colSum c data = (rows.map fun r => (find [c, r] data).getD 0).sum
  | [], _, _ => by
    have : ∀ l : List L, (l.map fun _ => (0 : Int)).sum = 0 := by
      intro l
      induction l with
      | nil => rfl
      | cons a l ih => simp only [List.map_cons, List.sum_cons, ih]; rfl
    simp [colSum, find, this]
  | (k, d) :: rest, hk, hp => by
    rw [List.map_cons, List.nodup_cons] at hk
    have ih := colSum_rows c hn rest hk.2 (fun k hk => hp k (by rw [List.map_cons]; exact List.mem_cons_of_mem _ hk))
    obtain ⟨c0, r0, hr0, rfl⟩ := hp k (by simp)
    rw [colSum, ih]
    by_cases e : c0 = c
    · subst e
      have h0 : (find [c0, r0] rest).getD 0 = 0 := by rw [find_none hk.1]; rfl
      have := sum_ite r0 d rows hn (fun r => (find [c0, r] rest).getD 0) h0
      rw [if_pos hr0] at this
      rw [List.head?_cons, if_pos rfl, ← this]
      congr 1
      apply List.map_congr_left
      intro r _
      rw [find]
      by_cases er : r = r0
      · subst er; simp
      · have : ¬ [c0, r0] = [c0, r] := by simp [Ne.symm er]
        rw [if_neg er, if_neg this]
    · have h1 : ¬ ([c0, r0] : List L).head? = some c := by simp [e]
      rw [if_neg h1, Int.zero_add]
      congr 1
      apply List.map_congr_left
      intro r _
      rw [find, if_neg (by simp [e])]

end TimerLemmas
open TimerLemmas

/-- **C81.** The table of a timer with two axes, after timing any sections: making it does not fail. It has one column for each first
label and one row for each second label, in the order in which they were first timed. Each cell has the duration of the last section with
its labels, or nothing if there was none. The footer of a column is the sum of the cells above it. Sections that raised an exception and
sections with another number of labels count for nothing. -/
theorem C81_table (l : List (Section L)) :
    ∃ t, getTable (run (new L 2) l) = .ok t ∧ Firsts ((done l).map (·.1)) t.headers ∧ Firsts ((done l).map (·.2.1)) (t.rows.map (·.1)) ∧
      (∀ row ∈ t.rows, row.2.length = t.headers.length ∧ ∀ (i : Nat) c x, t.headers[i]? = some c → row.2[i]? = some x → Last (done l) c row.1 x) ∧
      t.footers.length = t.headers.length ∧
      ∀ (i : Nat) total, t.footers[i]? = some total → total = (t.rows.map fun row => (row.2[i]?.join).getD 0).sum := by
  have h0 : Holds ([] : List (L × L × Int)) (new L 2) [] [] :=
    ⟨rfl, rfl, ⟨by simp, by simp, by simp⟩, ⟨by simp, by simp, by simp⟩, by simp [new], by simp [new], fun _ _ => .never (by simp)⟩
  obtain ⟨cols, rows, h⟩ := holds_run l [] _ _ _ h0
  rw [List.nil_append] at h
  have ht := totals_map h.first.once (run (new L 2) l).data (fun k hk => by
    obtain ⟨c, hc, r, _, e⟩ := h.pairs k hk
    exact ⟨c, hc, r, e⟩) (fun _ => 0)
  refine ⟨_, by unfold getTable; rw [if_pos h.axes, h.values]; dsimp only; rw [ht], h.first, ?_, ?_, ?_, ?_⟩
  · simpa [Function.comp_def] using h.second
  · intro row hrow
    obtain ⟨r, _, rfl⟩ := List.mem_map.1 hrow
    refine ⟨by simp, ?_⟩
    intro i c x hc hx
    dsimp only at hc hx ⊢
    rw [List.getElem?_map, hc] at hx
    cases hx
    exact h.last c r
  · simp
  · intro i total hi
    dsimp only at hi ⊢
    rw [List.map_map, List.getElem?_map] at hi
    cases hc : cols[i]? with
    | none => rw [hc] at hi; cases hi
    | some c =>
      rw [hc] at hi
      simp only [Option.map_some, Function.comp_apply, Option.some.injEq, Int.zero_add] at hi
      rw [← hi, colSum_rows c h.second.once _ h.keys (fun k hk => by
        obtain ⟨c, _, r, hr, e⟩ := h.pairs k hk
        exact ⟨c, r, hr, e⟩), List.map_map]
      congr 1
      apply List.map_congr_left
      intro r _
      simp [hc]

/-- **C81.** A timer with another number of axes has no table, whatever is timed. -/
theorem C81_axes (n : Nat) (hn : n ≠ 2) (l : List (Section L)) : (getTable (run (new L n) l)).isOk = false := by
  have : ∀ (l : List (Section L)) (t : Timer L), (run t l).axes = t.axes := by
    intro l
    induction l with
    | nil => intro t; rfl
    | cons s l ih =>
      intro t
      have e : run t (s :: l) = run (step t s) l := rfl
      rw [e, ih]
      unfold step
      split
      · rfl
      · split <;> rfl
  unfold getTable
  rw [if_neg (by rw [this]; exact hn)]
  rfl

/-! ### Example -/

/-- `get` and `put` for two IDSs, one of them twice; storing the second one fails. -/
def timedSections : List (Section String) :=
  [⟨["get", "a"], 0, 3, false⟩, ⟨["put", "a"], 3, 4, false⟩, ⟨["get", "b"], 4, 9, false⟩, ⟨["put", "b"], 9, 10, true⟩,
    ⟨["get", "a"], 10, 12, false⟩, ⟨["get"], 12, 13, false⟩]

example : getTable (run (new String 2) timedSections) =
    .ok ⟨["get", "put"], [7, 1], [("a", [some 2, some 1]), ("b", [some 5, none])]⟩ := by with_unfolding_all rfl

example : done timedSections = [("get", "a", 3), ("put", "a", 1), ("get", "b", 5), ("get", "a", 2)] := by with_unfolding_all rfl

example := C81_table timedSections

example := C81_axes 3 (by decide) timedSections

end Verif.Props
