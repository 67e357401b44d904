import Verif.Lemmas.ConvertBack
/-
Two maps that differ at one path, which has a conversion function in one of them.
-/
set_option linter.unusedSectionVars false
namespace Verif.Convert.Off
open Verif.Ids Verif.TreeSpec Verif.ConvertSpec

variable {V : Type} [Value V]

/-- The map `cx` is `cx0`, except that nodes at `z` are given to a conversion function for the nodes at `z'`. -/
structure Is (cx cx0 : Cfg V) (z z' : List Name) : Prop where
  ne : z ≠ []
  path : ∀ q, q ≠ z → cx.path q = cx0.path q
  change : ∀ q, q ≠ z → cx.change q = cx0.change q
  post : cx.post = cx0.post
  there : cx.path z = some (some z')
  custom : ∃ g, cx.change z = some (.custom g)

variable {cx cx0 : Cfg V} {z z' : List Name} {tm : Meta}

theorem Is.step (h : Is cx cx0 z z') {q : List Name} {n : Name} {t : Addr} (hq : q ≠ z) :
    step cx tm q n t = step cx0 tm q n t := by
  unfold ConvertSpec.step
  rw [h.path q hq]

theorem not_prefix_snoc {p : List Name} {n : Name} (h1 : ¬ z <+: p) (h2 : p ++ [n] ≠ z) : ¬ z <+: p ++ [n] := by
  intro h
  rcases List.prefix_concat_iff.1 h with h | h
  · exact h2 h.symm
  · exact h1 h

theorem names_cons (s : Name × Option Nat) (A : Addr) : names (s :: A) = s.1 :: names A := rfl

theorem Is.sent (h : Is cx cx0 z z') {p : List Name} {t : Addr} {c : Fields V} {A B : Addr}
    (hs : Sent cx tm p t c A B) (hp : ¬ z <+: p) : (Sent cx0 tm p t c A B ∧ ¬ z <+: p ++ names A) ∨ p ++ names A = z := by
  obtain ⟨g, hg⟩ := h.custom
  induction hs with
  | @here p t c n x b hx hb =>
    by_cases e : p ++ [n] = z
    · exact .inr e
    · rw [h.step e] at hb
      exact .inl ⟨.here hx hb, not_prefix_snoc hp e⟩
  | @child p t c d n b A B hx hb hc r ih =>
    have e : p ++ [n] ≠ z := fun e => by rw [e, hg] at hc; cases hc
    rw [h.step e] at hb
    rw [h.change _ e] at hc
    have := ih (not_prefix_snoc hp e)
    simp only [names_cons] at this ⊢
    rw [List.append_assoc] at this
    exact this.imp (fun h => ⟨.child hx hb hc h.1, h.2⟩) id
  | @element p t c d n b A B m e i hx hi hb hc r ih =>
    have e : p ++ [n] ≠ z := fun e => by rw [e, hg] at hc; cases hc
    rw [h.step e] at hb
    rw [h.change _ e] at hc
    have := ih (not_prefix_snoc hp e)
    simp only [names_cons] at this ⊢
    rw [List.append_assoc] at this
    exact this.imp (fun h => ⟨.element hx hi hb hc h.1, h.2⟩) id
  | @toArray p t c d n b A B hx hb hc r ih =>
    have e : p ++ [n] ≠ z := fun e => by rw [e, hg] at hc; cases hc
    rw [h.step e] at hb
    rw [h.change _ e] at hc
    have := ih (not_prefix_snoc hp e)
    simp only [names_cons] at this ⊢
    rw [List.append_assoc] at this
    exact this.imp (fun h => ⟨.toArray hx hb hc h.1, h.2⟩) id
  | @ofArray p t c d n b A B m hx hb hc r ih =>
    have e : p ++ [n] ≠ z := fun e => by rw [e, hg] at hc; cases hc
    rw [h.step e] at hb
    rw [h.change _ e] at hc
    have := ih (not_prefix_snoc hp e)
    simp only [names_cons] at this ⊢
    rw [List.append_assoc] at this
    exact this.imp (fun h => ⟨.ofArray hx hb hc h.1, h.2⟩) id

theorem Is.back (h : Is cx cx0 z z') {p : List Name} {t : Addr} {c : Fields V} {A B : Addr}
    (hs : Sent cx0 tm p t c A B) (hp : ¬ z <+: p ++ names A) : Sent cx tm p t c A B := by
  have key : ∀ (p : List Name) (n : Name) (i : Option Nat) (A : Addr), ¬ z <+: p ++ names ((n, i) :: A) →
      p ++ [n] ≠ z ∧ ¬ z <+: (p ++ [n]) ++ names A := by
    intro p n i A hn
    rw [names_cons] at hn
    refine ⟨fun e => hn ⟨names A, by rw [← e]; simp⟩, by rw [List.append_assoc]; exact hn⟩
  induction hs with
  | @here p t c n x b hx hb => exact .here hx (by rw [h.step (key _ _ _ _ hp).1]; exact hb)
  | @child p t c d n b A B hx hb hc r ih =>
    obtain ⟨h1, h2⟩ := key _ _ _ _ hp
    exact .child hx (by rw [h.step h1]; exact hb) (by rw [h.change _ h1]; exact hc) (ih h2)
  | @element p t c d n b A B m e i hx hi hb hc r ih =>
    obtain ⟨h1, h2⟩ := key _ _ _ _ hp
    exact .element hx hi (by rw [h.step h1]; exact hb) (by rw [h.change _ h1]; exact hc) (ih h2)
  | @toArray p t c d n b A B hx hb hc r ih =>
    obtain ⟨h1, h2⟩ := key _ _ _ _ hp
    exact .toArray hx (by rw [h.step h1]; exact hb) (by rw [h.change _ h1]; exact hc) (ih h2)
  | @ofArray p t c d n b A B m hx hb hc r ih =>
    obtain ⟨h1, h2⟩ := key _ _ _ _ hp
    exact .ofArray hx (by rw [h.step h1]; exact hb) (by rw [h.change _ h1]; exact hc) (ih h2)

theorem Is.sent_root (h : Is cx cx0 z z') {c : Fields V} {A B : Addr} (hs : Sent cx tm [] [] c A B) :
    (Sent cx0 tm [] [] c A B ∧ ¬ z <+: names A) ∨ names A = z := by
  have := h.sent hs (fun hp => h.ne (List.prefix_nil.1 hp))
  simpa using this

/-- Nodes at `z` go to `z'`. -/
theorem Is.target (h : Is cx cx0 z z') {c : Fields V} {A B : Addr} (hs : Sent cx tm [] [] c A B) (e : names A = z) :
    names B = z' := by
  have hg : Goes cx tm (names A) (names B) := by simpa [Goes, names] using sent_names hs
  obtain ⟨u, n, rfl⟩ : ∃ u n, z = u ++ [n] := ⟨_, _, (List.dropLast_concat_getLast h.ne).symm⟩
  rw [e] at hg
  obtain ⟨t, ht⟩ := goes_prefix hg
  rw [goes_snoc ht] at hg
  simp only [stepPath, h.there, Option.some.injEq] at hg
  exact hg.symm

theorem Is.alone (h : Is cx cx0 z z') {c : Fields V} {A B : Addr} (ha : Alone cx0 tm c A B)
    (hz : (∀ A' x, names A' = z → (Node.struct c).at A' = some x → ¬ Acts cx z x) ∨
      (¬ names B <+: z' ∧ ¬ z' <+: names B)) : Alone cx tm c A B := by
  intro A' B' x hs hx hacts hne hnc
  rcases h.sent_root hs with ⟨hs', hn⟩ | e
  · refine ha A' B' x hs' hx ?_ hne hnc
    have e : names A' ≠ z := fun e => hn (e ▸ List.prefix_rfl)
    unfold Acts at hacts ⊢
    rw [h.change _ e, h.post] at hacts
    exact hacts
  · rcases hz with hz | ⟨h1, h2⟩
    · exact absurd (e ▸ hacts) (hz A' x e hx)
    · left
      have e' := h.target hs e
      exact ⟨fun hc => h1 (e' ▸ contains_names hc), fun hc => h2 (e' ▸ contains_names hc)⟩

end Verif.Convert.Off
