import Verif.Lemmas.NcMerge
/-
`NCMetadata._resolve_pending`.
-/
namespace Verif.Nc
open Verif.Ids Verif.NcSpec

/-- At most `n` references lead to a dimension that is not a reference. -/
def Depth (P : Pending) : Nat → Path × Nat → Prop
  | 0, k => dget P k = none
  | n + 1, k => dget P k = none ∨ ∃ t, dget P k = some t ∧ Depth P n t

theorem depth_mono {P : Pending} : ∀ {n : Nat} {k : Path × Nat}, Depth P n k → Depth P (n + 1) k
  | 0, _, h => .inl h
  | n + 1, _, .inl h => .inl h
  | n + 1, _, .inr ⟨t, h, h'⟩ => .inr ⟨t, h, depth_mono h'⟩

structure ResolveInv (P : Pending) (ut0 : Ut) (todo : Pending) (ut : Ut) : Prop where
  len : ∀ p, (dget ut p).map List.length = (dget ut0 p).map List.length
  sub : ∀ x ∈ todo, dget P x.1 = some x.2
  nodup : (todo.map (·.1)).Nodup
  unnamed : ∀ p i, dimAt ut p i = some none ↔ (p, i) ∈ todo.map (·.1)
  keep : ∀ p i d, dimAt ut0 p i = some (some d) → dimAt ut p i = some (some d)
  same : ∀ p i c j, dget P (p, i) = some (c, j) → (p, i) ∉ todo.map (·.1) →
    dimAt ut p i = dimAt ut c j ∧ ∃ d, dimAt ut c j = some (some d)
  depth : ∀ k, k ∉ todo.map (·.1) → ∃ n, Depth P n k

theorem dimAt_setDim {ut : Ut} {p : Path} {i : Nat} (h : dimAt ut p i = some none) (d : Dim) (q : Path) (j : Nat) :
    dimAt (setDim ut p i d) q j = if (q, j) = (p, i) then some (some d) else dimAt ut q j := by
  unfold setDim
  cases hu : dget ut p with
  | none => simp [dimAt, hu] at h
  | some l =>
    simp only [dimAt, hu, Option.bind_some] at h
    have hi := (List.getElem?_eq_some_iff.1 h).1
    simp only [dimAt_dset, Prod.mk.injEq]
    by_cases hq : q = p
    · subst hq
      simp only [if_true, true_and, dimAt, hu, Option.bind_some, List.getElem?_set]
      by_cases hj : j = i
      · subst hj; simp [hi]
      · have hj' : ¬ i = j := fun e => hj e.symm
        simp [hj, hj']
    · simp [hq]

theorem len_setDim {ut : Ut} {p : Path} {i : Nat} {d : Dim} (q : Path) :
    (dget (setDim ut p i d) q).map List.length = (dget ut q).map List.length := by
  unfold setDim
  cases hu : dget ut p with
  | none => rfl
  | some l =>
    simp only [dget_dset]
    split
    · rename_i e; subst e; simp [hu]
    · rfl

theorem resolveOnce_ok {P : Pending} {ut0 : Ut} : ∀ (r kept : Pending) {ut ut' : Ut} {rest : Pending},
    ResolveInv P ut0 (kept ++ r) ut → resolveOnce r ut = .ok (rest, ut') → ResolveInv P ut0 (kept ++ rest) ut'
  | [], kept, ut, ut', rest, h, hr => by
    simp only [resolveOnce, Except.ok.injEq, Prod.mk.injEq] at hr
    obtain ⟨rfl, rfl⟩ := hr
    exact h
  | ((p, i), (c, j)) :: r, kept, ut, ut', rest, h, hr => by
    unfold resolveOnce at hr
    split at hr
    · cases hr
    · split at hr
      · cases hr
      · rename_i rest' ut'' h1
        cases hr
        have := resolveOnce_ok r (kept ++ [((p, i), (c, j))]) (by simpa using h) h1
        simpa using this
    · rename_i d hd
      refine resolveOnce_ok r kept ?_ hr
      have hmem : (p, i) ∈ (kept ++ ((p, i), (c, j)) :: r).map (·.1) := by simp
      have hnone := (h.unnamed p i).2 hmem
      have hn : (p, i) ∉ (kept ++ r).map (·.1) := by
        have hnd := h.nodup
        rw [List.map_append, List.map_cons, List.nodup_append] at hnd
        rw [List.map_append, List.mem_append]
        rintro (h1 | h1)
        · exact hnd.2.2 _ h1 (p, i) (by simp) rfl
        · exact (List.nodup_cons.1 hnd.2.1).1 h1
      have hmem' : ∀ k, k ∈ (kept ++ ((p, i), (c, j)) :: r).map (·.1) ↔ k = (p, i) ∨ k ∈ (kept ++ r).map (·.1) := by
        intro k
        simp only [List.map_append, List.map_cons, List.mem_append, List.mem_cons]
        constructor
        · rintro (h | h | h)
          · exact .inr (.inl h)
          · exact .inl h
          · exact .inr (.inr h)
        · rintro (h | h | h)
          · exact .inr (.inl h)
          · exact .inl h
          · exact .inr (.inr h)
      have hP : dget P (p, i) = some (c, j) := h.sub ((p, i), (c, j)) (by simp)
      have hcj : (c, j) ≠ (p, i) := by
        intro e
        cases e
        rw [hd] at hnone
        cases hnone
      refine ⟨?_, ?_, ?_, ?_, ?_, ?_, ?_⟩
      · intro q; rw [len_setDim, h.len]
      · intro x hx
        apply h.sub x
        simp only [List.mem_append, List.mem_cons] at hx ⊢
        rcases hx with hx | hx
        · exact .inl hx
        · exact .inr (.inr hx)
      · have hnd := h.nodup
        refine List.Nodup.sublist ?_ hnd
        apply List.Sublist.map
        exact List.Sublist.append (List.Sublist.refl _) (List.sublist_cons_self _ _)
      · intro q k
        rw [dimAt_setDim hnone]
        split
        · rename_i e
          constructor
          · intro h; cases h
          · intro h; rw [e] at h; exact absurd h hn
        · rename_i e
          rw [h.unnamed, hmem']
          simp [e]
      · intro q k d' h'
        rw [dimAt_setDim hnone]
        have := h.keep q k d' h'
        split
        · rename_i e
          cases e
          rw [hnone] at this
          cases this
        · exact this
      · intro q k c' j' h' hnot
        rw [dimAt_setDim hnone, dimAt_setDim hnone]
        by_cases e : (q, k) = (p, i)
        · cases e
          rw [hP] at h'
          cases h'
          rw [if_pos rfl, if_neg hcj]
          exact ⟨hd.symm, d, hd⟩
        · rw [if_neg e]
          have := h.same q k c' j' h' (by rw [hmem']; exact not_or.2 ⟨e, hnot⟩)
          split
          · rename_i e'
            cases e'
            obtain ⟨-, d', hd'⟩ := this
            rw [hnone] at hd'
            cases hd'
          · exact this
      · intro k hk
        by_cases e : k = (p, i)
        · subst e
          have : (c, j) ∉ (kept ++ ((p, i), (c, j)) :: r).map (·.1) := by
            intro hc
            have := (h.unnamed c j).2 hc
            rw [hd] at this
            cases this
          obtain ⟨n, hn⟩ := h.depth (c, j) this
          exact ⟨n + 1, .inr ⟨_, hP, hn⟩⟩
        · exact h.depth k (by rw [hmem']; exact not_or.2 ⟨e, hk⟩)

theorem resolve_ok {P : Pending} {ut0 : Ut} : ∀ (fuel : Nat) {todo : Pending} {ut ut' : Ut}, ResolveInv P ut0 todo ut →
    resolve fuel todo ut = .ok ut' → ResolveInv P ut0 [] ut'
  | 0, _, _, _, _, hr => by cases hr
  | fuel + 1, todo, ut, ut', h, hr => by
    unfold resolve at hr
    split at hr
    · cases hr
    · rename_i ut1 h1
      cases hr
      exact resolveOnce_ok todo [] h h1
    · rename_i rest ut1 _ h1
      exact resolve_ok fuel (resolveOnce_ok todo [] h h1) hr

theorem dget_mem_keys {K A : Type} [DecidableEq K] {l : List (K × A)} {x : K} :
    (dget l x).isSome ↔ x ∈ l.map (·.1) := by
  induction l with
  | nil => simp [dget]
  | cons e r ih =>
    obtain ⟨k, a⟩ := e
    simp only [dget, List.map_cons, List.mem_cons]
    by_cases h : x = k
    · simp [h]
    · simp [h, ih]

theorem resolveInv_start {P : Pending} {ut : Ut} (h : Matches ut P) (hn : (P.map (·.1)).Nodup) : ResolveInv P ut P ut where
  len _ := rfl
  sub x hx := dget_of_mem hn hx
  nodup := hn
  unnamed p i := by rw [h, dget_mem_keys]
  keep _ _ _ h := h
  same p i c j h hno := by
    exfalso
    exact hno (dget_mem_keys.1 (by rw [h]; rfl))
  depth k hk := ⟨0, by
    cases h : dget P k with
    | none => exact h
    | some t => exact absurd (dget_mem_keys.1 (by rw [h]; rfl)) hk⟩

/-! ### Number of rounds -/

/-- A reference whose target has a name disappears in one round. -/
theorem resolveOnce_rest : ∀ (r : Pending) {ut ut' : Ut} {rest : Pending}, resolveOnce r ut = .ok (rest, ut') →
    (∀ x ∈ r, dimAt ut x.1.1 x.1.2 = some none) → (r.map (·.1)).Nodup →
    ∀ x ∈ rest, x ∈ r ∧ dimAt ut x.2.1 x.2.2 = some none
  | [], ut, ut', rest, hr, _, _ => by
    simp only [resolveOnce, Except.ok.injEq, Prod.mk.injEq] at hr
    obtain ⟨rfl, rfl⟩ := hr
    simp
  | ((p, i), (c, j)) :: r, ut, ut', rest, hr, hn, hnd => by
    rw [List.map_cons, List.nodup_cons] at hnd
    unfold resolveOnce at hr
    split at hr
    · cases hr
    · rename_i h0
      split at hr
      · cases hr
      · rename_i rest' ut'' h1
        cases hr
        intro x hx
        rcases List.mem_cons.1 hx with hx | hx
        · subst hx
          exact ⟨by simp, h0⟩
        · have := resolveOnce_rest r h1 (fun y hy => hn y (by simp [hy])) hnd.2 x hx
          exact ⟨by simp [this.1], this.2⟩
    · rename_i d hd
      intro x hx
      have hnone := hn ((p, i), (c, j)) (by simp)
      have := resolveOnce_rest r hr (fun y hy => by
        rw [dimAt_setDim hnone, if_neg]
        · exact hn y (by simp [hy])
        · intro e
          exact hnd.1 (List.mem_map.2 ⟨y, hy, e⟩)) hnd.2 x hx
      refine ⟨by simp [this.1], ?_⟩
      have h2 := this.2
      rw [dimAt_setDim hnone] at h2
      split at h2
      · cases h2
      · exact h2

theorem resolveOnce_noCircular : ∀ (r : Pending) {ut : Ut}, resolveOnce r ut ≠ .error .circular
  | [], ut, h => by cases h
  | ((p, i), (c, j)) :: r, ut, h => by
    unfold resolveOnce at h
    split at h
    · cases h
    · split at h
      · rename_i e h1
        cases h
        exact resolveOnce_noCircular r h1
      · cases h
    · exact resolveOnce_noCircular r h

/-- After round `n` only deeper references are left. -/
theorem resolve_noCircular {P : Pending} {ut0 : Ut} : ∀ (fuel : Nat) {todo : Pending} {ut : Ut} {n : Nat},
    ResolveInv P ut0 todo ut → (∀ x ∈ todo, Depth P (n + fuel) x.1 ∧ ¬ Depth P n x.1) → 0 < fuel →
    resolve fuel todo ut ≠ .error .circular
  | 0, _, _, _, _, _, h0 => by omega
  | fuel + 1, todo, ut, n, h, hd, _ => by
    intro hr
    unfold resolve at hr
    split at hr
    · rename_i e h1
      cases hr
      exact resolveOnce_noCircular _ h1
    · cases hr
    · rename_i rest ut1 hne h1
      have hrest := resolveOnce_rest todo h1 (fun x hx => (h.unnamed _ _).2 (List.mem_map.2 ⟨x, hx, rfl⟩)) h.nodup
      have hdeep : ∀ x ∈ rest, Depth P (n + 1 + fuel) x.1 ∧ ¬ Depth P (n + 1) x.1 := by
        intro x hx
        obtain ⟨hx1, hx2⟩ := hrest x hx
        refine ⟨by have := (hd x hx1).1; rwa [Nat.add_assoc, Nat.add_comm 1] , ?_⟩
        have hP := h.sub x hx1
        have hm := (h.unnamed _ _).1 hx2
        obtain ⟨y, hy, hye⟩ := List.mem_map.1 hm
        rintro (h3 | ⟨t, h3, h4⟩)
        · rw [hP] at h3; cases h3
        · rw [hP] at h3
          cases h3
          apply (hd y hy).2
          rw [hye]
          exact h4
      cases fuel with
      | zero =>
        cases rest with
        | nil => exact hne rfl
        | cons x r =>
          have := hdeep x (by simp)
          exact this.2 this.1
      | succ f => exact resolve_noCircular (f + 1) (resolveOnce_ok todo [] h h1) hdeep (by omega) hr

end Verif.Nc
