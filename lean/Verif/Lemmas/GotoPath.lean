import Verif.Lemmas.Goto
import Verif.Lemmas.PathWrite
namespace Verif.Ids
open Verif.Path Verif.PathSpec
open Verif.GotoSpec

variable {V : Type}

mutual
theorem balanced_of_text {f need : Bool} {t : List Char} {ps : List (List Char)}
    {is : List (Option Idx)} (h : PathText f need t ps is) : Balanced is := by
  cases h with
  | nil => exact .nil
  | plain _ _ rest => exact .none (balanced_of_text rest)
  | indexed _ _ hi rest => exact balanced_of_index hi (balanced_of_text rest)
theorem balanced_of_index {f : Bool} {t : List Char} {i : Idx} (h : IndexText f t i)
    {is : List (Option Idx)} (hr : Balanced is) : Balanced (some i :: is) := by
  cases h with
  | generic _ => exact .generic hr
  | num _ => exact .num hr
  | slice _ _ => exact .slice hr
  | path _ h => exact .path (PathText.lengths h) (balanced_of_text h) hr
end

theorem parsed_shape {n : Nat} {t : List Char} {p : Parsed} (h : parsePath n t = .ok p) :
    p.indices.length = p.parts.length ∧ Balanced p.indices :=
  ⟨PathText.lengths (parsePath_sound n h), balanced_of_text (parsePath_sound n h)⟩

/-- An address as items to be written. -/
def toItems : Addr → PathItems
  | [] => .done
  | (n, none) :: r => .plain n (toItems r)
  | (n, some i) :: r => .indexed n (.num i) (toItems r)

theorem pathText_go (parent : List Char) (a : Addr) :
    pathText.go parent a = parent ++ (toItems a).write false false := by
  induction a generalizing parent with
  | nil => simp [pathText.go, toItems, PathItems.write]
  | cons s a ih =>
    obtain ⟨n, i⟩ := s
    cases i with
    | none => simp [pathText.go, toItems, PathItems.write, ih, pathText.suffix]
    | some i =>
      simp [pathText.go, toItems, PathItems.write, ih, pathText.suffix, Index.write, digits, idxText]

theorem pathText_eq (a : Addr) : pathText a = (toItems a).write false true := by
  cases a with
  | nil => simp [pathText, toItems, PathItems.write]
  | cons s a =>
    obtain ⟨n, i⟩ := s
    cases i with
    | none => simp [pathText, toItems, PathItems.write, pathText_go, pathText.suffix]
    | some i =>
      simp [pathText, toItems, PathItems.write, pathText_go, pathText.suffix, Index.write, digits, idxText]

theorem toItems_wf {a : Addr} (h : ∀ s ∈ a, FieldName s.1) : (toItems a).WF := by
  induction a with
  | nil => simp [toItems, PathItems.WF]
  | cons s a ih =>
    obtain ⟨n, i⟩ := s
    have h1 := h (n, i) (by simp)
    have h2 := ih fun s hs => h s (by simp [hs])
    cases i <;> simp [toItems, PathItems.WF, Index.WF] <;> exact ⟨h1, h2⟩

theorem toItems_names (a : Addr) : (toItems a).names = a.map (·.1) := by
  induction a with
  | nil => simp [toItems, PathItems.names]
  | cons s a ih => obtain ⟨n, i⟩ := s; cases i <;> simp [toItems, PathItems.names, ih]

theorem toItems_indices (a : Addr) :
    (toItems a).indices = a.map fun s => s.2.map fun (i : Nat) => Idx.num i := by
  induction a with
  | nil => simp [toItems, PathItems.indices]
  | cons s a ih =>
    obtain ⟨n, i⟩ := s; cases i <;> simp [toItems, PathItems.indices, Index.toIdx, ih]

/-- A path whose indices are absent or numbers. -/
def intItems (items : List (Name × Option Int)) : Parsed :=
  ⟨items.map (·.1), items.map fun s => s.2.map Idx.num⟩

theorem evals_int (nested : Parsed → Except NavErr Int) (items : List (Name × Option Int))
    (items' : List (Name × Option Int)) :
    Evals nested ((items.map (·.1)).zip (items.map fun s => s.2.map Idx.num)) items' ↔
      items' = items := by
  induction items generalizing items' with
  | nil =>
    simp
    constructor
    · intro h; cases h; rfl
    · rintro rfl; exact .nil
  | cons s r ih =>
    obtain ⟨n, i⟩ := s
    cases i with
    | none =>
      simp
      constructor
      · intro h; cases h with | none h => rw [(ih _).mp h]
      · rintro rfl; exact .none ((ih _).mpr rfl)
    | some i =>
      simp
      constructor
      · intro h; cases h with | num h => rw [(ih _).mp h]
      · rintro rfl; exact .num ((ih _).mpr rfl)

theorem goto_int_iff {asInt : V → Option Int} {n : Nat} {root : Node V} {start : Addr}
    {items : List (Name × Option Int)} {b : Addr} {k : Nat}
    (hk : k = common (start.map (·.1)) (items.map (·.1))) :
    goto asInt (n + 1) root start true (intItems items) = .ok b ↔
      Walk root (start.take k) (items.drop k) b := by
  rw [goto_iff_aux (p := intItems items) (by simp [intItems]) hk]
  simp only [intItems, ← List.map_drop, ← List.map_take, evals_int]
  constructor
  · rintro ⟨-, items', rfl, h⟩; exact h
  · intro h
    refine ⟨?_, _, rfl, h⟩
    intro x y hm
    simp only [List.mem_map, Option.map_eq_some_iff] at hm
    obtain ⟨s, -, i, -, hh⟩ := hm
    simp at hh

theorem common_nil (l : List Name) : common [] l = 0 := by cases l <;> simp [common]

theorem goto_false_iff {asInt : V → Option Int} {n : Nat} {root : Node V} {start : Addr}
    {items : List (Name × Option Int)} {b : Addr} :
    goto asInt (n + 1) root start false (intItems items) = .ok b ↔ Walk root start items b := by
  simp only [goto, Bool.false_eq_true, if_false, intItems]
  constructor
  · intro h
    split at h
    · simp at h
    · next c hc =>
      obtain ⟨d, items', hr, he, hw⟩ := (loop_some _ _ _ _).mp hc
      simp at h hr; subst h; subst hr
      rw [(evals_int _ _ _).mp he] at hw; exact hw
    · next hc =>
      obtain ⟨d, items', hr, he, hw⟩ := (loop_some _ _ _ _).mp hc
      simp at hr
  · intro h
    rw [(loop_some _ _ _ _).mpr ⟨b, items, rfl, (evals_int _ _ _).mpr rfl, h⟩]

end Verif.Ids
