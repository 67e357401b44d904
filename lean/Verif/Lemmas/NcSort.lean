import Verif.Model.NcRead
/-
The order in which variables are read.
-/
namespace Verif.Nc
open Verif.Ids

theorem textLe_total : ∀ a b : Text, textLe a b = true ∨ textLe b a = true
  | [], _ => .inl (by simp [textLe])
  | _ :: _, [] => .inr (by simp [textLe])
  | a :: r, b :: s => by
    by_cases h : a = b
    · subst h
      simpa [textLe] using textLe_total r s
    · simp only [textLe, if_neg h, if_neg (Ne.symm h), decide_eq_true_eq]
      omega

theorem toNat_inj {a b : Char} (h : a.toNat = b.toNat) : a = b := by
  apply Char.ext
  apply UInt32.toNat_inj.1
  exact h

theorem textLe_trans : ∀ {a b c : Text}, textLe a b = true → textLe b c = true → textLe a c = true
  | [], _, _, _, _ => by simp [textLe]
  | _ :: _, [], _, h, _ => by simp [textLe] at h
  | _ :: _, _ :: _, [], _, h => by simp [textLe] at h
  | a :: r, b :: s, c :: t, h, h' => by
    simp only [textLe] at h h' ⊢
    by_cases h1 : a = b
    · subst h1
      rw [if_pos rfl] at h
      by_cases h2 : a = c
      · subst h2
        rw [if_pos rfl] at h' ⊢
        exact textLe_trans h h'
      · rw [if_neg h2] at h' ⊢
        exact h'
    · rw [if_neg h1] at h
      by_cases h2 : b = c
      · subst h2
        rw [if_neg h1]
        exact h
      · rw [if_neg h2] at h'
        simp only [decide_eq_true_eq] at h h'
        by_cases h3 : a = c
        · subst h3
          exact absurd (toNat_inj (by omega)) h1
        · rw [if_neg h3, decide_eq_true_eq]
          omega

theorem textLe_longer : ∀ (s : Text) (x : Char) (r : Text), textLe (s ++ x :: r) s = false
  | [], _, _ => by simp [textLe]
  | a :: s, x, r => by simp [textLe, textLe_longer s x r]

/-- Names below a node. -/
theorem nameText_below : ∀ (p : Path) (k : Name) (r : Path), p ≠ [] →
    ∃ t, nameText (p ++ k :: r, false) = nameText (p, false) ++ '.' :: t
  | [], _, _, h => absurd rfl h
  | [n], k, r, _ => ⟨nameText (k :: r, false), by simp [nameText]⟩
  | n :: n' :: p, k, r, _ => by
    obtain ⟨t, ht⟩ := nameText_below (n' :: p) k r (by simp)
    refine ⟨t, ?_⟩
    simp only [List.cons_append, nameText] at ht ⊢
    rw [ht]
    simp

def NameLe (a b : Path × Bool) : Prop := textLe (nameText a) (nameText b) = true

theorem mem_insertName {x y : Path × Bool} : ∀ {l : List (Path × Bool)}, y ∈ insertName x l ↔ y = x ∨ y ∈ l
  | [] => by simp [insertName]
  | z :: r => by
    simp only [insertName]
    split
    · simp
    · simp only [List.mem_cons, mem_insertName (l := r)]
      constructor
      · rintro (h | h | h) <;> simp [h]
      · rintro (h | h | h) <;> simp [h]

theorem mem_sortNames {y : Path × Bool} : ∀ {l : List (Path × Bool)}, y ∈ sortNames l ↔ y ∈ l
  | [] => by simp [sortNames]
  | x :: r => by simp [sortNames, mem_insertName, mem_sortNames (l := r)]

theorem insertName_sorted (x : Path × Bool) : ∀ {l : List (Path × Bool)}, l.Pairwise NameLe → (insertName x l).Pairwise NameLe
  | [], _ => by simp [insertName]
  | y :: r, h => by
    simp only [insertName]
    rw [List.pairwise_cons] at h
    split
    · rename_i hxy
      rw [List.pairwise_cons]
      refine ⟨?_, List.pairwise_cons.2 h⟩
      intro z hz
      rcases List.mem_cons.1 hz with rfl | hz
      · exact hxy
      · exact textLe_trans hxy (h.1 z hz)
    · rename_i hxy
      rw [List.pairwise_cons]
      refine ⟨?_, insertName_sorted x h.2⟩
      intro z hz
      rcases mem_insertName.1 hz with rfl | hz
      · exact (textLe_total _ _).resolve_left hxy
      · exact h.1 z hz

theorem sortNames_sorted : ∀ l : List (Path × Bool), (sortNames l).Pairwise NameLe
  | [] => by simp [sortNames]
  | x :: r => insertName_sorted x (sortNames_sorted r)

theorem insertName_nodup {x : Path × Bool} : ∀ {l : List (Path × Bool)}, x ∉ l → l.Nodup → (insertName x l).Nodup
  | [], _, _ => by simp [insertName]
  | y :: r, hx, h => by
    simp only [insertName]
    split
    · exact List.nodup_cons.2 ⟨hx, h⟩
    · rw [List.nodup_cons] at h ⊢
      refine ⟨?_, insertName_nodup (fun hr => hx (List.mem_cons_of_mem _ hr)) h.2⟩
      intro hy
      rcases mem_insertName.1 hy with rfl | hy
      · exact hx (by simp)
      · exact h.1 hy

theorem sortNames_nodup : ∀ {l : List (Path × Bool)}, l.Nodup → (sortNames l).Nodup
  | [], _ => by simp [sortNames]
  | x :: r, h => by
    rw [List.nodup_cons] at h
    exact insertName_nodup (fun hx => h.1 (mem_sortNames.1 hx)) (sortNames_nodup h.2)

/-- A variable is read before those below it. -/
theorem sorted_before {L1 L2 : List (Path × Bool)} {p : Path} (hp : p ≠ []) {k : Name} {r : Path}
    (h : (L1 ++ (p, false) :: L2).Pairwise NameLe) : (p ++ k :: r, false) ∉ L1 := by
  intro hm
  have : NameLe (p ++ k :: r, false) (p, false) := by
    rw [List.pairwise_append] at h
    exact h.2.2 _ hm _ (by simp)
  obtain ⟨t, ht⟩ := nameText_below p k r hp
  rw [NameLe, ht, textLe_longer] at this
  cases this

end Verif.Nc
