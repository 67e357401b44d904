import Verif.Spec.Contour
/-! Lemmas for outlines and connection matrices. -/
namespace Verif.Convert
open Verif.ConvertSpec

variable {α β : Type}

theorem wrap32_small {x : Int} (h1 : -2 ^ 31 ≤ x) (h2 : x < 2 ^ 31) : wrap32 x = x := by
  unfold wrap32
  rw [Int.emod_eq_of_lt (by omega) (by omega)]; omega

theorem pairs_pairDiff_length : ∀ r : List Int, r.length % 2 = 0 → (pairs (pairDiff r)).length = r.length
  | [], _ => rfl
  | [_], h => by simp at h
  | _ :: _ :: r, h => by
    simp only [pairDiff, pairs, List.length_cons] at h ⊢
    rw [pairs_pairDiff_length r (by omega)]

theorem pairs_pairDiff_iff : ∀ r : List Int, (∀ x ∈ r, -2 ^ 31 ≤ x ∧ x < 2 ^ 31) →
    (pairs (pairDiff r) = r ↔ Row3 r)
  | [], _ => by simp [pairDiff, pairs]; exact .nil
  | [a], _ => by
    simp only [pairDiff, pairs, List.nil_eq, List.cons_ne_nil, false_iff]
    intro h; cases h
  | a :: b :: r, hx => by
    have ih := pairs_pairDiff_iff r (fun x h => hx x (by simp [h]))
    have ha := hx a (by simp)
    have hb := hx b (by simp)
    simp only [pairDiff, pairs, List.cons.injEq]
    rw [ih]
    constructor
    · rintro ⟨h1, h2, h3⟩
      have e1 : wrap32 (1 : Int) = 1 := by decide
      by_cases c1 : wrap32 (a - b) = 1
      · rw [if_pos c1] at h1
        rw [if_neg (by omega)] at h2
        subst h1; subst h2; exact .first h3
      · rw [if_neg c1] at h1
        by_cases c2 : wrap32 (a - b) = -1
        · rw [if_pos c2] at h2
          subst h1; subst h2; exact .second h3
        · rw [if_neg c2] at h2
          subst h1; subst h2; exact .none h3
    · intro h
      cases h with
      | none h => exact ⟨by decide, by decide, h⟩
      | first h => exact ⟨by decide, by decide, h⟩
      | second h => exact ⟨by decide, by decide, h⟩

theorem pairDiff_pairs_iff : ∀ r : List Int, pairDiff (pairs r) = r ↔ Row4 r
  | [] => by simp [pairDiff, pairs, Row4]
  | x :: r => by
    have ih := pairDiff_pairs_iff r
    simp only [pairs, pairDiff, List.cons.injEq, ih]
    unfold Row4
    simp only [List.mem_cons, forall_eq_or_imp]
    refine and_congr ?_ Iff.rfl
    by_cases c1 : x = 1
    · subst c1; decide
    · by_cases c2 : x = -1
      · subst c2; decide
      · rw [if_neg c1, if_neg c2]
        have : wrap32 (0 - 0) = 0 := by decide
        rw [this]; omega

theorem map_id_iff {γ : Type} {f : γ → γ} {l : List γ} : l.map f = l ↔ ∀ x ∈ l, f x = x := by
  induction l with
  | nil => simp
  | cons a l ih => simp [ih]

/-! ### Outlines -/

theorem filter_noFlags {o : Outline α β} (h : NoFlags o) : o.filter (fun c => !skipped c.1) = o := by
  rw [List.filter_eq_self]
  intro c hc
  obtain ⟨h1, h2⟩ := h c hc
  simp only [skipped, Bool.not_eq_true', Bool.or_eq_false_iff, beq_eq_false_iff_ne]
  refine ⟨h1, ?_⟩
  cases hs : errorIndex.isSuffixOf c.1 with
  | false => rfl
  | true =>
    rw [List.isSuffixOf_iff_suffix] at hs
    obtain ⟨l, hl⟩ := hs
    exact absurd ⟨l, hl.symm⟩ h2

theorem onNumeric_false (f : List α → List α) (c : List Char × Comp α β) : onNumeric false f c = c := by
  unfold onNumeric; cases c.2 <;> simp

theorem onNumeric_name (b : Bool) (f : List α → List α) (c : List Char × Comp α β) :
    (onNumeric b f c).1 = c.1 := by
  unfold onNumeric; split
  · split <;> rfl
  · rfl

theorem onNumeric_time (b : Bool) (f : List α → List α) {c : List Char × Comp α β}
    (h : c.1 = timeName) : onNumeric b f c = c := by
  unfold onNumeric
  split
  · simp [h]
  · rfl

theorem onNumeric_num {f : List α → List α} {c : List Char × Comp α β} {xs : List α}
    (h : c.1 ≠ timeName) (hc : c.2 = .num xs) : onNumeric true f c = (c.1, .num (f xs)) := by
  unfold onNumeric
  rw [hc]; simp [h]

theorem removeLast_repeatFirst {xs : List α} (h : xs ≠ []) : removeLast (repeatFirst xs) = xs := by
  cases xs with
  | nil => exact absurd rfl h
  | cons a xs => simp only [removeLast, repeatFirst, List.head?_cons, Option.toList_some,
      List.dropLast_concat]

/-- The outline test succeeds exactly if the ends of every coordinate meet. -/
theorem outlineClosed_iff {isclose : α → α → Bool} {o : Outline α β} (h : Arrays o) :
    ∃ b, outlineClosed isclose o = some b ∧
      (b = true ↔ ∀ xs, Coord o xs → ∀ a ∈ xs.head?, ∀ z ∈ xs.getLast?, isclose a z = true) := by
  induction o with
  | nil => exact ⟨true, rfl, by simp [Coord]⟩
  | cons c o ih =>
    obtain ⟨b, hb, hiff⟩ := ih fun x hx => h x (by simp [hx])
    obtain ⟨name, v⟩ := c
    unfold outlineClosed
    by_cases hn : name = timeName
    · subst hn
      refine ⟨b, by simp [hb], hiff.trans ?_⟩
      constructor
      · rintro h xs ⟨n, hm, hne⟩
        rcases List.mem_cons.mp hm with hm | hm
        · cases hm; exact absurd rfl hne
        · exact h xs ⟨n, hm, hne⟩
      · rintro h xs ⟨n, hm, hne⟩
        exact h xs ⟨n, by simp [hm], hne⟩
    · obtain ⟨xs, hxs, hne⟩ := h (name, v) (by simp) hn
      simp only at hxs; subst hxs
      have hn' : (name == timeName) = false := by simp [hn]
      have hhead : xs.head? = some (xs.head hne) := List.head?_eq_some_head hne
      have hlast : xs.getLast? = some (xs.getLast hne) := List.getLast?_eq_some_getLast hne
      simp only [hn', Bool.false_eq_true, if_false, endsMeet, hhead, hlast]
      cases hic : isclose (xs.head hne) (xs.getLast hne) with
      | false =>
        refine ⟨false, rfl, ?_⟩
        simp only [Bool.false_eq_true, false_iff]
        intro hall
        have := hall xs ⟨name, by simp, hn⟩ _ hhead _ hlast
        rw [hic] at this; simp at this
      | true =>
        refine ⟨b, hb, hiff.trans ?_⟩
        constructor
        · rintro h ys ⟨n, hm, hne'⟩
          rcases List.mem_cons.mp hm with hm | hm
          · cases hm
            intro a ha z hz
            rw [hhead] at ha; rw [hlast] at hz
            cases ha; cases hz; exact hic
          · exact h ys ⟨n, hm, hne'⟩
        · rintro h ys ⟨n, hm, hne'⟩
          exact h ys ⟨n, by simp [hm], hne'⟩

theorem allClosed_iff {isclose : α → α → Bool} {es : List (Outline α β)} (h : ∀ o ∈ es, Arrays o) :
    ∃ b, allClosed isclose es = some b ∧
      (b = true ↔ ∀ o ∈ es, ∀ xs, Coord o xs →
        ∀ a ∈ xs.head?, ∀ z ∈ xs.getLast?, isclose a z = true) := by
  induction es with
  | nil => exact ⟨true, rfl, by simp⟩
  | cons o es ih =>
    obtain ⟨b, hb, hiff⟩ := ih fun x hx => h x (by simp [hx])
    obtain ⟨b', hb', hiff'⟩ := outlineClosed_iff (isclose := isclose) (h o (by simp))
    unfold allClosed
    rw [hb']
    cases b' with
    | false =>
      refine ⟨false, rfl, ?_⟩
      simp only [Bool.false_eq_true, false_iff] at hiff' ⊢
      intro hall; exact hiff' (hall o (by simp))
    | true =>
      refine ⟨b, hb, hiff.trans ?_⟩
      simp only [List.mem_cons, forall_eq_or_imp]
      exact ⟨fun h => ⟨hiff'.mp rfl, h⟩, fun h => h.2⟩

theorem map_onNumeric_false (f : List α → List α) (es : List (Outline α β)) :
    (es.map fun e => e.map (onNumeric false f)) = es := by
  rw [map_id_iff]
  intro e _
  rw [map_id_iff]
  intro c _
  exact onNumeric_false f c

theorem coord_map {f : List α → List α} {o : Outline α β} {xs : List α}
    (h : Coord (o.map (onNumeric true f)) xs) : ∃ ys, Coord o ys ∧ xs = f ys := by
  obtain ⟨n, hm, hne⟩ := h
  obtain ⟨c, hc, he⟩ := List.mem_map.mp hm
  obtain ⟨m, v⟩ := c
  have hnm := onNumeric_name true f (m, v)
  rw [he] at hnm
  simp only at hnm; subst hnm
  cases v with
  | other v => simp [onNumeric] at he
  | num ys =>
    rw [onNumeric_num (c := (n, .num ys)) hne rfl] at he
    simp only [Prod.mk.injEq, Comp.num.injEq, true_and] at he
    exact ⟨ys, ⟨n, hc, hne⟩, he.symm⟩

end Verif.Convert
