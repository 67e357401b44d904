import Verif.Lemmas.DiffReport
import Verif.Lemmas.Goto
import Verif.Props.Diff
set_option linter.unusedSectionVars false
/-
C12: which differences are reported.
-/
namespace Verif.Props
open Verif.Ids Verif.Ids.DiffReport Verif.TreeSpec Verif.DiffSpec

variable {V : Type} [Value V] (eqv : V → V → Bool)

/-- **C12, reported differences.** A path is reported as different on both sides exactly if both structures have a value at an
address with that path, and the two are different values, arrays of structures of different sizes, or nodes of different
kinds. -/
theorem C12_reported_both (c d : Fields V) (hc : WFFields c) (hd : WFFields d) (p : List Name) :
    .both p ∈ idsDiff eqv c d ↔
      ∃ a u w, p = a.map (·.1) ∧ (Node.struct c).at a = some u ∧ (Node.struct d).at a = some w ∧
        u.hasValue = true ∧ w.hasValue = true ∧ Unlike eqv u w := by
  have := both_mem eqv (.struct c) c (.inl rfl) d [] p hc hd
  simpa only [List.nil_append, idsDiff] using this

/-- **C12, reported differences.** A path is reported as present in the first structure only exactly if something is filled
there that the second structure does not have. -/
theorem C12_reported_left (c d : Fields V) (hc : WFFields c) (hd : WFFields d) (p : List Name) :
    .left p ∈ idsDiff eqv c d ↔ ∃ a, p = a.map (·.1) ∧ Only (.struct c) (.struct d) a := by
  have := left_mem eqv (.struct c) c (.inl rfl) d [] p hc hd
  simpa only [List.nil_append, idsDiff] using this

/-- **C12, reported differences.** The same for what only the second structure has. -/
theorem C12_reported_right (c d : Fields V) (hc : WFFields c) (hd : WFFields d) (p : List Name) :
    .right p ∈ idsDiff eqv c d ↔ ∃ a, p = a.map (·.1) ∧ Only (.struct d) (.struct c) a := by
  have h1 := right_mem eqv (.struct c) c (.inl rfl) d [] p hc hd
  have h2 := left_mem eqv (.struct d) d (.inl rfl) c [] p hd hc
  rw [← h1] at h2
  simpa only [List.nil_append, idsDiff] using h2

theorem reported_value (a : Addr) : ∀ (c d : Fields V) (path : List Name) (v : V), WFFields c → WFFields d →
    ValueAt (.struct c) a v →
    (∃ w, ValueAt (.struct d) a w ∧ eqv v w = true) ∨
    ∃ p, p <+: path ++ a.map (·.1) ∧
      (.left p ∈ diffFields eqv path c d.nonempty ∨ .both p ∈ diffFields eqv path c d.nonempty) := by
  induction a with
  | nil => rintro c d path v - - ⟨l, h, -⟩; simp [Node.at] at h
  | cons s r ih =>
    rintro c d path v hc hd ⟨l, h, hv⟩
    obtain ⟨n, i⟩ := s
    have nv : (Node.leaf l (some v)).hasValue = true := by simp [Node.hasValue, leafHasValue, hv]
    cases i with
    | none =>
      obtain ⟨x, gx, h1⟩ := at_child.1 h
      have vx := hasValue_up h1 nv
      have fx := filled_iff.2 ⟨gx, vx⟩
      have w1 := wf_get hc gx
      cases fy : filled d n with
      | none =>
        refine .inr ⟨path ++ n :: r.map (·.1), by simp, .inl ((mem_diffFields eqv path _ hc hd).2 (.inl
          ⟨n, x, fx, fy, _, ?_, rfl⟩))⟩
        cases x with
        | leaf l' v' => rw [at_leaf] at h1; simp [onlyPaths, h1.1]
        | aos m e => rw [at_aos] at h1; simp at h1
        | struct f =>
          simp only [WF] at w1
          simp only [onlyPaths, List.mem_map]
          refine ⟨r, (mem_iterF' true false f w1 r).2 ⟨?_, _, h1, fun _ => by simp [IsLeaf], .inr (.inr nv)⟩, rfl⟩
          rintro rfl; simp [Node.at] at h1
      | some y =>
        obtain ⟨gy, vy⟩ := filled_iff.1 fy
        have w2 := wf_get hd gy
        have up : ∀ D, D ∈ diffNode eqv (path ++ [n]) x y → D ∈ diffFields eqv path c d.nonempty :=
          fun D h => (mem_diffFields eqv path _ hc hd).2 (.inr (.inl ⟨n, x, y, fx, fy, h⟩))
        have unl : Unlike eqv x y → ∃ p, p <+: path ++ ((n, none) :: r).map (·.1) ∧
            (.left p ∈ diffFields eqv path c d.nonempty ∨ .both p ∈ diffFields eqv path c d.nonempty) := fun hu =>
          ⟨path ++ [n], ⟨r.map (·.1), by simp⟩, .inr (up _ ((mem_diffNode eqv _ _ vx vy).2 (.inl ⟨rfl, hu⟩)))⟩
        cases x with
        | aos m e => rw [at_aos] at h1; simp at h1
        | leaf l' v' =>
          rw [at_leaf] at h1
          obtain ⟨rfl, h1⟩ := h1
          cases h1
          cases y with
          | aos m e => exact .inr (unl (by simp [Unlike]))
          | struct f => exact .inr (unl (by simp [Unlike]))
          | leaf l2 w =>
            cases w with
            | none => simp [Node.hasValue, leafHasValue] at vy
            | some w =>
              cases he : eqv v w with
              | false => exact .inr (unl ⟨v, w, rfl, rfl, he⟩)
              | true =>
                refine .inl ⟨w, ⟨l2, at_child.2 ⟨_, gy, rfl⟩, ?_⟩, he⟩
                simpa [Node.hasValue, leafHasValue] using vy
        | struct c1 =>
          cases y with
          | aos m e => exact .inr (unl (by simp [Unlike]))
          | leaf l w => exact .inr (unl (by simp [Unlike]))
          | struct d1 =>
            simp only [WF] at w1 w2
            rcases ih c1 d1 (path ++ [n]) v w1 w2 ⟨l, h1, hv⟩ with ⟨w, ⟨l2, hw, he⟩, hev⟩ | ⟨p, hp, h⟩
            · exact .inl ⟨w, ⟨l2, at_child.2 ⟨_, gy, hw⟩, he⟩, hev⟩
            · refine .inr ⟨p, by simpa using hp, ?_⟩
              rcases h with h | h
              · exact .inl (up _ ((mem_diffNode eqv _ _ vx vy).2 (.inr (.inl ⟨_, _, rfl, rfl, h⟩))))
              · exact .inr (up _ ((mem_diffNode eqv _ _ vx vy).2 (.inr (.inl ⟨_, _, rfl, rfl, h⟩))))
    | some i =>
      obtain ⟨m, e, c1, gx, e1, h1⟩ := at_element.1 h
      have vx : (Node.aos m e).hasValue = true := elems_length_pos e1
      have fx := filled_iff.2 ⟨gx, vx⟩
      have w1 := wf_get hc gx
      cases fy : filled d n with
      | none =>
        exact .inr ⟨path ++ [n], ⟨r.map (·.1), by simp⟩, .inl ((mem_diffFields eqv path _ hc hd).2 (.inl
          ⟨n, _, fx, fy, _, by simp [onlyPaths], rfl⟩))⟩
      | some y =>
        obtain ⟨gy, vy⟩ := filled_iff.1 fy
        have w2 := wf_get hd gy
        have up : ∀ D, D ∈ diffNode eqv (path ++ [n]) (.aos m e) y → D ∈ diffFields eqv path c d.nonempty :=
          fun D h => (mem_diffFields eqv path _ hc hd).2 (.inr (.inl ⟨n, _, y, fx, fy, h⟩))
        have unl : Unlike eqv (.aos m e) y → ∃ p, p <+: path ++ ((n, some i) :: r).map (·.1) ∧
            (.left p ∈ diffFields eqv path c d.nonempty ∨ .both p ∈ diffFields eqv path c d.nonempty) := fun hu =>
          ⟨path ++ [n], ⟨r.map (·.1), by simp⟩, .inr (up _ ((mem_diffNode eqv _ _ vx vy).2 (.inl ⟨rfl, hu⟩)))⟩
        cases y with
        | leaf l w => exact .inr (unl (by simp [Unlike]))
        | struct f => exact .inr (unl (by simp [Unlike]))
        | aos m' f =>
          by_cases hl : e.length = f.length
          · obtain ⟨d1, e2⟩ := Elems.get?_some (e := f) (i := i) (hl ▸ Elems.get?_lt e1)
            simp only [WF] at w1 w2
            rcases ih c1 d1 (path ++ [n]) v (wf_elem w1.2 e1) (wf_elem w2.2 e2) ⟨l, h1, hv⟩ with
              ⟨w, ⟨l2, hw, he⟩, hev⟩ | ⟨p, hp, h⟩
            · exact .inl ⟨w, ⟨l2, at_element.2 ⟨_, _, _, gy, e2, hw⟩, he⟩, hev⟩
            · refine .inr ⟨p, by simpa using hp, ?_⟩
              rcases h with h | h
              · exact .inl (up _ ((mem_diffNode eqv _ _ vx vy).2 (.inr (.inr ⟨_, _, _, _, i, _, _, rfl, rfl, e1, e2, h⟩))))
              · exact .inr (up _ ((mem_diffNode eqv _ _ vx vy).2 (.inr (.inr ⟨_, _, _, _, i, _, _, rfl, rfl, e1, e2, h⟩))))
          · exact .inr (unl hl)

/-- **C12, no difference is missed.** For every value in the first structure, the second has an equal value at the same
address, or a difference is reported at its path or at the path of a node above it. -/
theorem C12_no_value_missed (c d : Fields V) (hc : WFFields c) (hd : WFFields d) (a : Addr) (v : V)
    (h : ValueAt (.struct c) a v) :
    (∃ w, ValueAt (.struct d) a w ∧ eqv v w = true) ∨
      ∃ p, p <+: a.map (·.1) ∧ (.left p ∈ idsDiff eqv c d ∨ .both p ∈ idsDiff eqv c d) := by
  simpa only [List.nil_append, idsDiff] using reported_value eqv a c d [] v hc hd h

/-- **C12, no difference is missed.** The same for values in the second structure. -/
theorem C12_no_value_missed_right (hs : ∀ v w, eqv v w = eqv w v) (c d : Fields V) (hc : WFFields c) (hd : WFFields d)
    (a : Addr) (w : V) (h : ValueAt (.struct d) a w) :
    (∃ v, ValueAt (.struct c) a v ∧ eqv v w = true) ∨
      ∃ p, p <+: a.map (·.1) ∧ (.right p ∈ idsDiff eqv c d ∨ .both p ∈ idsDiff eqv c d) := by
  rcases C12_no_value_missed eqv d c hd hc a w h with ⟨v, h1, h2⟩ | ⟨p, hp, h | h⟩
  · exact .inl ⟨v, h1, by rw [hs]; exact h2⟩
  · exact .inr ⟨p, hp, .inl ((C12_reported_right eqv c d hc hd p).2 ((C12_reported_left eqv d c hd hc p).1 h))⟩
  · refine .inr ⟨p, hp, .inr ((C12_reported_both eqv c d hc hd p).2 ?_)⟩
    obtain ⟨a, u, w, h1, h2, h3, h4, h5, h6⟩ := (C12_reported_both eqv d c hd hc p).1 h
    refine ⟨a, w, u, h1, h3, h2, h5, h4, ?_⟩
    cases u with
    | struct f => cases w <;> simp_all [Unlike]
    | aos m e =>
      cases w with
      | aos m' f => simp only [Unlike] at h6 ⊢; exact fun h => h6 h.symm
      | leaf l v => simp [Unlike]
      | struct f => simp [Unlike]
    | leaf l v =>
      cases w with
      | aos m f => simp [Unlike]
      | struct f => simp [Unlike]
      | leaf l' v' =>
        obtain ⟨x, y, h1, h2, h3⟩ := h6
        exact ⟨y, x, h2, h1, by rw [hs]; exact h3⟩

/-! ### Sample cases -/

example : WFFields diffRight ∧ WFFields (hollowMeta.fresh : Fields (Val Int)) := by
  simp [diffRight, hollow, WFFields, WFMFields, WFMeta, WF, WFElems, Fields.names, mnames, hollowMeta, MFields.fresh]
example : ValueAt (.struct diffLeft) [("s".toList, none), ("a".toList, some 0), ("x".toList, none)] (.int 3) :=
  ⟨_, rfl, rfl⟩
example : idsDiff valEq diffLeft hollowMeta.fresh = [.left ["s".toList, "a".toList, "x".toList]] := by
  with_unfolding_all rfl
example : idsDiff valEq hollowMeta.fresh diffLeft = [.right ["s".toList, "a".toList, "x".toList]] := by
  with_unfolding_all rfl

end Verif.Props
