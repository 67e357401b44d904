import Verif.Model.NcMeta
/-
Dictionaries as lists of pairs.
-/
namespace Verif.Nc

variable {K A : Type} [DecidableEq K]

theorem dget_dset (l : List (K × A)) (x : K) (b : A) (y : K) :
    dget (dset l x b) y = if y = x then some b else dget l y := by
  induction l with
  | nil => by_cases h : y = x <;> simp [dset, dget, h]
  | cons e r ih =>
    obtain ⟨k, a⟩ := e
    unfold dset
    by_cases h : x = k
    · subst h
      simp only [if_true, dget]
      by_cases h' : y = x <;> simp [h']
    · rw [if_neg h]
      simp only [dget, ih]
      by_cases h' : y = k
      · subst h'
        rw [if_pos rfl, if_neg (fun e => h e.symm), if_pos rfl]
      · rw [if_neg h', if_neg h']

theorem keys_dset (l : List (K × A)) (x : K) (b : A) :
    (dset l x b).map (·.1) = if x ∈ l.map (·.1) then l.map (·.1) else l.map (·.1) ++ [x] := by
  induction l with
  | nil => simp [dset]
  | cons e r ih =>
    obtain ⟨k, a⟩ := e
    unfold dset
    by_cases h : x = k
    · subst h; simp
    · rw [if_neg h]
      simp only [List.map_cons, ih, List.mem_cons, h, false_or]
      split <;> simp

theorem nodup_dset {l : List (K × A)} (h : (l.map (·.1)).Nodup) (x : K) (b : A) : ((dset l x b).map (·.1)).Nodup := by
  rw [keys_dset]
  split
  · exact h
  · rename_i hx
    rw [List.nodup_append]
    refine ⟨h, by simp, ?_⟩
    intro a ha b hb e
    simp at hb
    subst hb
    subst e
    exact hx ha

theorem mem_of_dget {l : List (K × A)} {x : K} {a : A} (h : dget l x = some a) : (x, a) ∈ l := by
  induction l with
  | nil => simp [dget] at h
  | cons e r ih =>
    obtain ⟨k, b⟩ := e
    unfold dget at h
    split at h
    · rename_i hk; cases h; subst hk; simp
    · exact List.mem_cons_of_mem _ (ih h)

theorem dget_of_mem {l : List (K × A)} (hn : (l.map (·.1)).Nodup) {x : K} {a : A} (h : (x, a) ∈ l) : dget l x = some a := by
  induction l with
  | nil => simp at h
  | cons e r ih =>
    obtain ⟨k, b⟩ := e
    simp only [List.map_cons, List.nodup_cons] at hn
    unfold dget
    rcases List.mem_cons.1 h with e | h'
    · cases e; simp
    · have hk : x ≠ k := by
        intro e
        subst e
        exact hn.1 (List.mem_map.2 ⟨(x, a), h', rfl⟩)
      rw [if_neg hk, ih hn.2 h']

theorem dget_none {l : List (K × A)} {x : K} : dget l x = none ↔ x ∉ l.map (·.1) := by
  induction l with
  | nil => simp [dget]
  | cons e r ih =>
    obtain ⟨k, b⟩ := e
    unfold dget
    by_cases h : x = k
    · simp [h]
    · rw [if_neg h, ih]; simp [h]

end Verif.Nc
