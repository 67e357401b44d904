import Verif.Lemmas.NcParse
/-
`NCMetadata._merge_alternatives`.
-/
namespace Verif.Nc
open Verif.Ids Verif.NcSpec

theorem dimAt_dset (ut : Ut) (p : Path) (l : List (Option Dim)) (q : Path) (i : Nat) :
    dimAt (dset ut p l) q i = if q = p then l[i]? else dimAt ut q i := by
  simp only [dimAt, dget_dset]
  by_cases h : q = p
  · simp [h]
  · simp [h]

/-- The dimensions without a name are those with a pending reference. -/
def Matches (ut : Ut) (P : Pending) : Prop := ∀ p i, dimAt ut p i = some none ↔ (dget P (p, i)).isSome

theorem parse_matches {I : Info} {es : List Entry} {s : Parse} (h : ParseInv I es s) : Matches s.ut s.pending := by
  intro p i
  constructor
  · intro hd
    simp only [dimAt] at hd
    cases hu : dget s.ut p with
    | none => rw [hu] at hd; cases hd
    | some u =>
      rw [hu] at hd
      simp only [Option.bind_some] at hd
      obtain ⟨e, he, hr, rfl⟩ := h.ut' p u hu
      obtain ⟨u', hu', hl, hp⟩ := h.ut e he hr
      rw [hu] at hu'
      cases hu'
      have hi : i < e.ndim := by
        rw [← hl]
        exact (List.getElem?_eq_some_iff.1 hd).1
      obtain ⟨pl, h1, h2⟩ := hp i hi
      rw [hd] at h2
      cases pl with
      | own d t c => simp [Plan.dim] at h2
      | ref q k o => rw [h.pend e he hr.1 i hi q k o h1]; rfl
  · intro hp
    cases ht : dget s.pending (p, i) with
    | none => rw [ht] at hp; cases hp
    | some t =>
      obtain ⟨e, he, hk, rfl, hi, o, h1⟩ := h.pend' p i t ht
      obtain ⟨u, hu, hl, hp⟩ := h.ut e he ⟨hk, .inl (by omega)⟩
      obtain ⟨pl, h2, h3⟩ := hp i hi
      rw [h1] at h2
      cases h2
      simp [dimAt, hu, h3, Plan.dim]

/-- What merging changes. `done`: the alternatives handled so far. -/
structure MergeInv (s0 : Parse) (done : Path → Path → Prop) (s : Parse) : Prop where
  len : ∀ p, (dget s.ut p).map List.length = (dget s0.ut p).map List.length
  keep : ∀ k t, dget s0.pending k = some t → dget s.pending k = some t
  new : ∀ k t, dget s.pending k = some t → dget s0.pending k = some t ∨ ∃ q a, done q a ∧ k = (a, 0) ∧ t = (q, 0)
  merged : ∀ q a, done q a → dget s.pending (a, 0) = some (q, 0)
  unnamed : Matches s.ut s.pending
  dims : ∀ p i, dget s.pending (p, i) = none → dimAt s.ut p i = dimAt s0.ut p i
  times : s.times = s0.times
  one : ∀ q a, done q a → (dget s0.ut a).map List.length = some 1
  nodup : (s.pending.map (·.1)).Nodup

theorem MergeInv.congr {s0 s : Parse} {D D' : Path → Path → Prop} (h : MergeInv s0 D s) (hd : ∀ q a, D q a ↔ D' q a) :
    MergeInv s0 D' s := by
  have : D = D' := by funext q a; exact propext (hd q a)
  subst this
  exact h

theorem mergeOne_ok {s0 s s' : Parse} {D : Path → Path → Prop} (h : MergeInv s0 D s) {p a : Path}
    (hr : mergeOne p a s = .ok s') : MergeInv s0 (fun q b => D q b ∨ (q = p ∧ b = a)) s' := by
  unfold mergeOne at hr
  split at hr
  · cases hr
  · rename_i hu
    split at hr
    · rename_i hp
      cases hr
      exact { h with
        one := by
          rintro q b (h1 | ⟨rfl, rfl⟩)
          · exact h.one q b h1
          · rw [← h.len, hu]; rfl
        new := by
          intro k t hk
          rcases h.new k t hk with h1 | ⟨q, b, h1, h2⟩
          · exact .inl h1
          · exact .inr ⟨q, b, .inl h1, h2⟩
        merged := by
          rintro q b (h1 | ⟨rfl, rfl⟩)
          · exact h.merged q b h1
          · exact hp }
    · cases hr
  · rename_i d hu
    cases hr
    have hno : dget s.pending (a, 0) = none := by
      cases hp : dget s.pending (a, 0) with
      | none => rfl
      | some t =>
        have := (h.unnamed a 0).2 (by rw [hp]; rfl)
        simp [dimAt, hu] at this
    refine ⟨?_, ?_, ?_, ?_, ?_, ?_, h.times, ?_, nodup_dset h.nodup _ _⟩
    · intro q
      simp only [dget_dset]
      split
      · rename_i e; subst e
        rw [← h.len, hu]; rfl
      · exact h.len q
    · intro k t hk
      simp only [dget_dset]
      rw [if_neg]
      · exact h.keep k t hk
      · rintro rfl
        rw [h.keep _ t hk] at hno
        cases hno
    · intro k t hk
      simp only [dget_dset] at hk
      split at hk
      · rename_i e
        cases hk
        exact .inr ⟨p, a, .inr ⟨rfl, rfl⟩, e, rfl⟩
      · rcases h.new k t hk with h1 | ⟨q, b, h1, h2⟩
        · exact .inl h1
        · exact .inr ⟨q, b, .inl h1, h2⟩
    · rintro q b (h1 | ⟨rfl, rfl⟩)
      · simp only [dget_dset]
        rw [if_neg]
        · exact h.merged q b h1
        · intro e
          cases e
          rw [h.merged q a h1] at hno
          cases hno
      · simp [dget_dset]
    · intro q i
      simp only [dimAt_dset, dget_dset, Prod.mk.injEq]
      by_cases hq : q = a
      · subst hq
        cases i with
        | zero => simp
        | succ i =>
          simp only [if_true, List.getElem?_cons_succ, List.getElem?_nil, Nat.succ_ne_zero, and_false, if_false]
          have := (h.unnamed q (i + 1))
          simp only [dimAt, hu, Option.bind_some, List.getElem?_cons_succ, List.getElem?_nil] at this
          exact this
      · simp only [hq, if_false, false_and]
        exact h.unnamed q i
    · intro q i hi
      simp only [dimAt_dset, dget_dset, Prod.mk.injEq] at hi ⊢
      by_cases hq : q = a
      · subst hq
        cases i with
        | zero => simp at hi
        | succ i =>
          simp only [if_true, Nat.succ_ne_zero, and_false, if_false] at hi ⊢
          rw [← h.dims q (i + 1) hi]
          simp [dimAt, hu]
      · simp only [hq, if_false, false_and] at hi ⊢
        exact h.dims q i hi
    · rintro q b (h1 | ⟨rfl, rfl⟩)
      · exact h.one q b h1
      · rw [← h.len, hu]; rfl
  · cases hr

theorem mergeAlts_ok {s0 : Parse} {p : Path} : ∀ (l : List Path) {s s' : Parse} {D : Path → Path → Prop}, MergeInv s0 D s →
    mergeAlts p l s = .ok s' → MergeInv s0 (fun q b => D q b ∨ (q = p ∧ b ∈ l)) s'
  | [], s, s', D, h, hr => by
    simp only [mergeAlts, Except.ok.injEq] at hr
    subst hr
    exact h.congr (by simp)
  | a :: r, s, s', D, h, hr => by
    unfold mergeAlts at hr
    split at hr
    · cases hr
    · rename_i s1 h1
      refine (mergeAlts_ok r (mergeOne_ok h h1) hr).congr ?_
      intro q b
      simp only [List.mem_cons]
      constructor
      · rintro ((h | h) | h)
        · exact .inl h
        · exact .inr ⟨h.1, .inl h.2⟩
        · exact .inr ⟨h.1, .inr h.2⟩
      · rintro (h | ⟨h, h' | h'⟩)
        · exact .inl (.inl h)
        · exact .inl (.inr ⟨h, h'⟩)
        · exact .inr ⟨h, h'⟩

theorem mergeCoords_ok {s0 s s' : Parse} {D : Path → Path → Prop} (h : MergeInv s0 D s) {p : Path} {l : List Path}
    (hr : mergeCoords p l s = .ok s') : MergeInv s0 D s' := by
  unfold mergeCoords at hr
  split at hr
  · split at hr
    · cases hr
    · cases hr
      exact { h with }
  · cases hr

theorem mergeAll_ok {s0 : Parse} : ∀ (l : List (Path × List Path)) {s s' : Parse} {D : Path → Path → Prop}, MergeInv s0 D s →
    mergeAll l s = .ok s' → MergeInv s0 (fun q b => D q b ∨ ∃ k, (q, k) ∈ l ∧ b ∈ k) s'
  | [], s, s', D, h, hr => by
    simp only [mergeAll, Except.ok.injEq] at hr
    subst hr
    exact h.congr (by simp)
  | (p, k) :: r, s, s', D, h, hr => by
    unfold mergeAll at hr
    split at hr
    · cases hr
    · split at hr
      · cases hr
      · split at hr
        · cases hr
        · rename_i s1 h1
          split at hr
          · cases hr
          · rename_i s2 h2
            refine (mergeAll_ok r (mergeCoords_ok (mergeAlts_ok k h h1) h2) hr).congr ?_
            intro q b
            simp only [List.mem_cons, Prod.mk.injEq]
            constructor
            · rintro ((h | h) | ⟨k', h, h'⟩)
              · exact .inl h
              · exact .inr ⟨k, .inl ⟨h.1, rfl⟩, h.2⟩
              · exact .inr ⟨k', .inr h, h'⟩
            · rintro (h | ⟨k', ⟨h, rfl⟩ | h, h'⟩)
              · exact .inl (.inl h)
              · exact .inl (.inr ⟨h, h'⟩)
              · exact .inr ⟨k', h, h'⟩

theorem mergeInv_start {s : Parse} (h : Matches s.ut s.pending) (hn : (s.pending.map (·.1)).Nodup) :
    MergeInv s (fun _ _ => False) s where
  len _ := rfl
  keep _ _ h := h
  new _ _ h := .inl h
  merged _ _ h := h.elim
  unnamed := h
  dims _ _ _ := rfl
  times := rfl
  one _ _ h := h.elim
  nodup := hn

/-- Merging all alternatives. -/
theorem merge_ok {I : Info} {es : List Entry} {s s' : Parse} (h : ParseInv I es s) (hr : mergeAll s.alts s = .ok s') :
    MergeInv s (fun q a => AltBy I es a q) s' := by
  refine (mergeAll_ok s.alts (mergeInv_start (parse_matches h) h.nodupP) hr).congr ?_
  intro q a
  rw [← h.alts]
  simp only [false_or, inAlts]
  constructor
  · rintro ⟨k, h1, h2⟩; exact ⟨k, dget_of_mem h.nodupA h1, h2⟩
  · rintro ⟨k, h1, h2⟩; exact ⟨k, mem_of_dget h1, h2⟩

end Verif.Nc
