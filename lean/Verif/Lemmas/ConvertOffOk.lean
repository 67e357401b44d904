import Verif.Lemmas.ConvertOff
import Verif.Lemmas.ConvertOk
/-
Conversions that do not raise, with a map that differs from another one at one path.
-/
set_option linter.unusedSectionVars false
namespace Verif.Convert.Off
open Verif.Ids Verif.TreeSpec Verif.ConvertSpec

variable {V : Type} [Value V] {cx cx0 : Cfg V} {z z' : List Name} {tm : Meta}

/-- Other paths go where they went. -/
theorem Is.goes (h : Is cx cx0 z z') (p : List Name) : ∀ t, ¬ z <+: p → (Goes cx tm p t ↔ Goes cx0 tm p t) := by
  induction p using VMap.snocRec with
  | nil => intro t _; simp [Goes, pathFrom]
  | snoc p n ih =>
    intro t hz
    have hp : ¬ z <+: p := fun e => hz (e.trans (List.prefix_append _ _))
    have hne : p ++ [n] ≠ z := fun e => hz (e ▸ List.prefix_rfl)
    have hs : ∀ u, stepPath cx tm (p ++ [n]) n u = stepPath cx0 tm (p ++ [n]) n u := by
      intro u
      unfold stepPath
      rw [h.path _ hne]
    constructor
    · intro hg
      obtain ⟨u, hu⟩ := goes_prefix hg
      rw [goes_snoc hu, hs] at hg
      exact (goes_snoc ((ih u hp).1 hu)).2 hg
    · intro hg
      obtain ⟨u, hu⟩ := goes_prefix hg
      rw [goes_snoc hu, ← hs] at hg
      exact (goes_snoc ((ih u hp).2 hu)).2 hg

/-- The path `z` goes to `z'`. -/
theorem Is.goes_there (h : Is cx cx0 z z') {t : List Name} (hg : Goes cx tm z t) : t = z' := by
  obtain ⟨u, n, rfl⟩ : ∃ u n, z = u ++ [n] := ⟨_, _, (List.dropLast_concat_getLast h.ne).symm⟩
  obtain ⟨t, ht⟩ := goes_prefix hg
  rw [goes_snoc ht] at hg
  simp only [stepPath, h.there, Option.some.injEq] at hg
  exact hg.symm

theorem Is.smooth {a n k : Name} {mA mB : MFields} {y : Meta} (h : Is cx cx0 [a, n] [a, k]) (S : Smooth cx0 mA mB)
    (hz : ∀ r, r ≠ [] → metaAt (.struct mA) ([a, n] ++ r) = none) (ha : ∀ t, Goes cx0 (.struct mB) [a] t → t = [a])
    (hy : metaAt (.struct mB) [a, k] = some y) : Smooth cx mA mB := by
  intro p m t q x hx ht hq
  by_cases e : [a, n] = p ++ [m]
  · left
    obtain ⟨e1, e2⟩ : [a] = p ∧ [n] = [m] := List.append_inj' (s₁ := [a]) (t₁ := [n]) e rfl
    subst e1
    cases e2
    have hq' := h.goes_there hq
    subst hq'
    rw [h.goes [a] _ (by simp [List.prefix_iff_eq_append])] at ht
    cases ha t ht
    obtain ⟨g, hg⟩ := h.custom
    refine ⟨[], k, y, rfl, hy, ?_, ?_⟩
    · rw [show ([a] ++ [n] : List Name) = [a, n] from rfl, hg]
      trivial
    · intro u1 u2 e hu
      exact absurd (List.append_eq_nil_iff.1 e.symm).1 hu
  · have hpm : ¬ [a, n] <+: p ++ [m] := by
      rintro ⟨r, hr⟩
      cases r with
      | nil => rw [List.append_nil] at hr; exact e hr
      | cons s r =>
        have := hz (s :: r) (by simp)
        rw [hr, hx] at this
        cases this
    have hp : ¬ [a, n] <+: p := fun e => hpm (e.trans (List.prefix_append _ _))
    have := S p m t q x hx ((h.goes p t hp).1 ht) ((h.goes _ q hpm).1 hq)
    rw [h.change _ (Ne.symm e), h.path _ (Ne.symm e), h.post]
    exact this

end Verif.Convert.Off
