import Verif.Spec.Pulse
/-
Time bases and resampling of one array.
-/
namespace Verif.Pulse
open Verif.PulseSpec

variable {Y : Type}

theorem mem_insertTime {t u : Rat} {l : List Rat} : u ∈ insertTime t l ↔ u = t ∨ u ∈ l := by
  induction l with
  | nil => simp [insertTime]
  | cons x r ih =>
    simp only [insertTime]
    split
    · simp
    · split
      · next h => subst h; simp
      · simp only [List.mem_cons, ih]
        constructor
        · rintro (h | h | h) <;> simp [h]
        · rintro (h | h | h) <;> simp [h]

theorem mem_unique {u : Rat} {l : List Rat} : u ∈ unique l ↔ u ∈ l := by
  induction l with
  | nil => simp [unique]
  | cons x r ih => simp only [unique, mem_insertTime, ih, List.mem_cons]

theorem increasing_insert {t : Rat} {l : List Rat} (h : Increasing l) : Increasing (insertTime t l) := by
  induction l with
  | nil => simp [insertTime, Increasing]
  | cons x r ih =>
    have h' := List.pairwise_cons.1 h
    simp only [insertTime]
    split
    · next h1 =>
      refine List.pairwise_cons.2 ⟨?_, h⟩
      intro u hu
      rcases List.mem_cons.1 hu with rfl | hu
      · exact h1
      · have := h'.1 u hu; grind
    · split
      · exact h
      · refine List.pairwise_cons.2 ⟨?_, ih h'.2⟩
        intro u hu
        rcases mem_insertTime.1 hu with rfl | hu
        · grind
        · exact h'.1 u hu

theorem increasing_unique (l : List Rat) : Increasing (unique l) := by
  induction l with
  | nil => simp [unique, Increasing]
  | cons x r ih => exact increasing_insert ih

theorem upTo_le (xs : List Rat) (t : Rat) : upTo xs t ≤ xs.length := by
  induction xs with
  | nil => simp [upTo]
  | cons x r ih => simp only [upTo]; split <;> simp <;> omega

theorem upTo_lt {xs : List Rat} {t u : Rat} {j : Nat} (hj : j < upTo xs t) (h : xs[j]? = some u) :
    u ≤ t := by
  induction xs generalizing j with
  | nil => simp [upTo] at hj
  | cons x r ih =>
    simp only [upTo] at hj
    split at hj
    · next hx =>
      cases j with
      | zero => simp at h; subst h; exact hx
      | succ j => exact ih (j := j) (by omega) (by simpa using h)
    · omega

theorem upTo_ge {xs : List Rat} (hs : Sorted xs) {t u : Rat} {j : Nat} (hj : upTo xs t ≤ j)
    (h : xs[j]? = some u) : t < u := by
  induction xs generalizing j with
  | nil => simp at h
  | cons x r ih =>
    have hs' := List.pairwise_cons.1 hs
    simp only [upTo] at hj
    split at hj
    · cases j with
      | zero => omega
      | succ j => exact ih hs'.2 (j := j) (by omega) (by simpa using h)
    · next hx =>
      cases j with
      | zero => simp at h; subst h; grind
      | succ j =>
        have := hs'.1 u (List.mem_of_getElem? (by simpa using h))
        grind

/-- Interpolation at one point of a sorted array. -/
theorem evaluate_sample {line : Rat → Y → Rat → Y → Rat → Y} {k : Kind} {xs : List Rat} {ys : List Y}
    (hs : Sorted xs) (hl : ys.length = xs.length) {t : Rat} {y : Y}
    (h : evaluate line k xs ys t = some y) : Sample line k xs ys t y := by
  unfold evaluate at h
  split at h
  · next first last hf hla =>
    have hne : xs ≠ [] := by rintro rfl; simp at hf
    have hlen : 0 < xs.length := List.length_pos_iff.2 hne
    have hfirst : xs[0]? = some first := by rw [← hf, List.head?_eq_getElem?]
    have hlast : xs[xs.length - 1]? = some last := by rw [← hla, List.getLast?_eq_getElem?]
    split at h
    · next hb =>
      refine .before ?_ h
      intro u hu
      obtain ⟨j, hj⟩ := List.getElem?_of_mem hu
      cases xs with
      | nil => simp at hne
      | cons x r =>
        simp at hf; subst hf
        rcases List.mem_cons.1 hu with rfl | hu
        · exact hb
        · have := (List.pairwise_cons.1 hs).1 u hu; grind
    · next hb =>
      split at h
      · next ha =>
        refine .after ?_ h
        intro u hu
        obtain ⟨j, hj⟩ := List.getElem?_of_mem hu
        have hj' : j < xs.length := (List.getElem?_eq_some_iff.1 hj).1
        rcases Nat.lt_or_ge j (xs.length - 1) with h1 | h1
        · have := List.pairwise_iff_getElem.1 hs j (xs.length - 1) hj' (by omega) h1
          have e1 := (List.getElem?_eq_some_iff.1 hj).2
          have e2 := (List.getElem?_eq_some_iff.1 hlast).2
          grind
        · have : j = xs.length - 1 := by omega
          subst this
          rw [hlast] at hj; cases hj; exact ha
      · next ha =>
        have hpos : 0 < upTo xs t := by
          rcases Nat.eq_zero_or_pos (upTo xs t) with h0 | h0
          · exact absurd (upTo_ge hs (by omega) hfirst) hb
          · exact h0
        obtain ⟨j, hj⟩ : ∃ j, upTo xs t = j + 1 := ⟨upTo xs t - 1, by omega⟩
        have hjl : j < xs.length := by have := upTo_le xs t; omega
        have hx0 : xs[j]? = some xs[j] := List.getElem?_eq_getElem hjl
        have hle := upTo_lt (xs := xs) (t := t) (j := j) (by omega) hx0
        have hkept : xs[j] = t → ∀ y', ys[j]? = some y' → Sample line k xs ys t y' := by
          intro e y' hy
          refine .kept j (by rw [hx0, e]) ?_ hy
          intro i hi hit
          have := upTo_ge hs (t := t) (j := i) (by omega) hit
          grind
        have hend : j + 1 = xs.length → xs[j] = t := by
          intro e
          have : j = xs.length - 1 := by omega
          subst this
          rw [hx0] at hlast
          simp only [Option.some.injEq] at hlast
          rw [hlast] at hle ⊢; grind
        rcases Nat.lt_or_ge (j + 1) xs.length with h1 | h1
        · have hx1 : xs[j + 1]? = some xs[j + 1] := List.getElem?_eq_getElem h1
          have hgt := upTo_ge hs (t := t) (j := j + 1) (by omega) hx1
          have hy0 : ys[j]? = some (ys[j]'(by omega)) := List.getElem?_eq_getElem (by omega)
          have hy1 : ys[j + 1]? = some (ys[j + 1]'(by omega)) := List.getElem?_eq_getElem (by omega)
          cases k with
          | linear =>
            simp only [linearAt, hj, hx0, hx1, hy0, hy1] at h
            split at h
            · next e => simp only [Option.some.injEq] at h; subst h; exact hkept e _ hy0
            · next e =>
              simp only [Option.some.injEq] at h
              exact .line rfl j _ _ _ _ hx0 hx1 hy0 hy1 (by grind) hgt h.symm
          | previous =>
            have e : max 1 (upTo xs t) - 1 = j := by omega
            simp only [previousAt, e] at h
            by_cases e : xs[j] = t
            · exact hkept e _ h
            · exact .hold rfl j _ _ hx0 hx1 (by grind) hgt h
        · have hend' := hend (by omega)
          have hx1 : xs[j + 1]? = none := List.getElem?_eq_none (by omega)
          cases k with
          | linear =>
            have hy1 : ys[j + 1]? = none := List.getElem?_eq_none (by omega)
            have hy0 : ys[j]? = some (ys[j]'(by omega)) := List.getElem?_eq_getElem (by omega)
            simp only [linearAt, hj, hx0, hx1, hy0, hy1] at h
            exact hkept hend' _ (hy0.trans h)
          | previous =>
            have e : max 1 (upTo xs t) - 1 = j := by omega
            simp only [previousAt, e] at h
            exact hkept hend' _ h
  · simp at h

theorem resample_spec {line : Rat → Y → Rat → Y → Rat → Y} {k : Kind} {xs : List Rat} {ys : List Y}
    {base : List Rat} {w : List Y} (h : resample line k xs ys base = some w) :
    w.length = base.length ∧
      ∀ (i : Nat) t, base[i]? = some t → ∃ y, w[i]? = some y ∧ evaluate line k xs ys t = some y := by
  induction base generalizing w with
  | nil => simp [resample] at h; subst h; simp
  | cons u r ih =>
    simp only [resample] at h
    split at h
    · next y ys' h1 h2 =>
      simp only [Option.some.injEq] at h; subst h
      obtain ⟨h3, h4⟩ := ih h2
      refine ⟨by simp [h3], ?_⟩
      intro i t hi
      cases i with
      | zero => simp at hi; subst hi; exact ⟨y, by simp, h1⟩
      | succ i => obtain ⟨y', h5, h6⟩ := h4 i t (by simpa using hi); exact ⟨y', by simpa using h5, h6⟩
    · simp at h

/-- A point of the array keeps its sample. -/
theorem sample_own {line : Rat → Y → Rat → Y → Rat → Y} {k : Kind} {xs : List Rat} {ys : List Y}
    (hs : Increasing xs) {t : Rat} {y : Y} (h : Sample line k xs ys t y) {j : Nat}
    (hj : xs[j]? = some t) : ys[j]? = some y := by
  have key : ∀ {i i' : Nat} {u u' : Rat}, xs[i]? = some u → xs[i']? = some u' → i < i' → u < u' := by
    intro i i' u u' h1 h2 h3
    obtain ⟨h4, h5⟩ := List.getElem?_eq_some_iff.1 h1
    obtain ⟨h6, h7⟩ := List.getElem?_eq_some_iff.1 h2
    have := List.pairwise_iff_getElem.1 hs i i' h4 h6 h3
    rw [h5, h7] at this; exact this
  have hmem := List.mem_of_getElem? hj
  cases h with
  | kept i h hlast hy =>
    rcases Nat.lt_trichotomy i j with h1 | h1 | h1
    · exact absurd hj (hlast j h1)
    · subst h1; exact hy
    · have := key hj h h1; grind
  | before h hy => have := h t hmem; grind
  | after h hy => have := h t hmem; grind
  | line _ i t0 t1 y0 y1 h0 h1 _ _ hlt hgt _ =>
    exfalso
    rcases Nat.lt_or_ge i j with h2 | h2
    · rcases Nat.lt_or_ge (i + 1) j with h3 | h3
      · have := key h1 hj h3; grind
      · have : j = i + 1 := by omega
        subst this; rw [hj] at h1; cases h1; grind
    · rcases Nat.lt_or_ge j i with h3 | h3
      · have := key hj h0 h3; grind
      · have : j = i := by omega
        subst this; rw [hj] at h0; cases h0; grind
  | hold _ i t0 t1 h0 h1 hlt hgt _ =>
    exfalso
    rcases Nat.lt_or_ge i j with h2 | h2
    · rcases Nat.lt_or_ge (i + 1) j with h3 | h3
      · have := key h1 hj h3; grind
      · have : j = i + 1 := by omega
        subst this; rw [hj] at h1; cases h1; grind
    · rcases Nat.lt_or_ge j i with h3 | h3
      · have := key hj h0 h3; grind
      · have : j = i := by omega
        subst this; rw [hj] at h0; cases h0; grind

theorem sorted_of_increasing {l : List Rat} (h : Increasing l) : Sorted l :=
  h.imp (fun h => by grind)

/-- The straight line is between its end points. -/
theorem straight_between {x0 y0 x1 y1 t : Rat} (h0 : x0 < t) (h1 : t < x1) :
    (straight x0 y0 x1 y1 t - y0) * (x1 - x0) = (y1 - y0) * (t - x0) ∧
      min y0 y1 ≤ straight x0 y0 x1 y1 t ∧ straight x0 y0 x1 y1 t ≤ max y0 y1 := by
  have hd : x1 - x0 ≠ 0 := by grind
  have e : (straight x0 y0 x1 y1 t - y0) * (x1 - x0) = (y1 - y0) * (t - x0) := by
    unfold straight; grind
  refine ⟨e, ?_⟩
  have neg : ∀ {a b : Rat}, a < 0 → 0 < b → a * b < 0 := by
    intro a b h1 h2
    have := Rat.mul_pos (a := -a) (b := b) (by grind) h2
    grind
  have hp : 0 < t - x0 := by grind
  have hq : 0 < x1 - t := by grind
  have hx : 0 < x1 - x0 := by grind
  generalize straight x0 y0 x1 y1 t = s at e
  have low : ∀ {m : Rat}, m ≤ y0 → m ≤ y1 → m ≤ s := by
    intro m h2 h3
    by_cases hs : s < m
    · have h4 := neg (a := s - m) (b := x1 - x0) (by grind) hx
      have h5 := Rat.mul_nonneg (a := y1 - m) (b := t - x0) (by grind) (by grind)
      have h6 := Rat.mul_nonneg (a := y0 - m) (b := x1 - t) (by grind) (by grind)
      grind
    · grind
  have high : ∀ {m : Rat}, y0 ≤ m → y1 ≤ m → s ≤ m := by
    intro m h2 h3
    by_cases hs : m < s
    · have h4 := Rat.mul_pos (a := s - m) (b := x1 - x0) (by grind) hx
      have h5 := Rat.mul_nonneg (a := m - y1) (b := t - x0) (by grind) (by grind)
      have h6 := Rat.mul_nonneg (a := m - y0) (b := x1 - t) (by grind) (by grind)
      grind
    · grind
  exact ⟨low (by grind) (by grind), high (by grind) (by grind)⟩

end Verif.Pulse
