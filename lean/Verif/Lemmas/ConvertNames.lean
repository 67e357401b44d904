import Verif.Lemmas.ConvertVersion
/-
Maps in which some fields changed places within their structure.
-/
set_option linter.unusedSectionVars false
namespace Verif.Convert
open Verif.Ids Verif.TreeSpec Verif.ConvertSpec
open Verif.VMap hiding Path Nbc metaAt_append
open Verif.VMapSpec hiding OneToOne

namespace Swap

/-- In the structures `S`, the field `c` of `A` becomes the field `y` of `B`, and the field `x` becomes the field `c`.
Everything else is as in `C`. -/
def Pairs (A B : List Field) (C : Field → Field → Prop) (S : VMap.Path → Prop) (c x y : Name) (f o : Field) : Prop :=
  (C f o ∧ ∀ g, S g → f.path ≠ g ++ [c]) ∨
  ∃ g, S g ∧ f ∈ A ∧ o ∈ B ∧ ((f.path = g ++ [c] ∧ o.path = g ++ [y]) ∨ (f.path = g ++ [x] ∧ o.path = g ++ [c]))

structure Ok (A B : List Field) (C : Field → Field → Prop) (L' : VMap.Path → Prop)
    (m m3 : VMap.Path → Option (Option VMap.Path)) (S : VMap.Path → Prop) (c x y : Name) : Prop where
  cx : x ≠ c
  cy : y ≠ c
  common : ∀ g, S g → ∃ f o, C f o ∧ f.path = g ++ [c] ∧ o.path = g ++ [c]
  extra : ∀ g, S g → Has A (g ++ [x])
  extra' : ∀ g, S g → Has B (g ++ [y])
  alone : ∀ g, S g → ∀ f o, C f o → f.path ≠ g ++ [x]
  alone' : ∀ g, S g → ∀ f o, C f o → o.path ≠ g ++ [y]
  gone : ∀ g, S g → m (g ++ [x]) = some none
  leafc : ∀ g, S g → ∀ f ∈ A, ∀ r, f.path = g ++ [c] ++ r → r = []
  leafx : ∀ g, S g → ∀ f ∈ A, ∀ r, f.path = g ++ [x] ++ r → r = []
  leafc' : ∀ g, S g → ∀ f ∈ B, ∀ r, f.path = g ++ [c] ++ r → r = []
  leafy' : ∀ g, S g → ∀ f ∈ B, ∀ r, f.path = g ++ [y] ++ r → r = []
  left' : ∀ g, S g → ¬ L' (g ++ [y])
  mc : ∀ g, S g → m3 (g ++ [c]) = some (some (g ++ [y]))
  mx : ∀ g, S g → m3 (g ++ [x]) = some (some (g ++ [c]))
  other : ∀ p, (∀ g, S g → p ≠ g ++ [c] ∧ p ≠ g ++ [x]) → m3 p = m p

variable {A B : List Field} {C : Field → Field → Prop} {L L' : VMap.Path → Prop}
  {m m3 : VMap.Path → Option (Option VMap.Path)} {S : VMap.Path → Prop} {c x y : Name}

theorem snoc_inj {g g' : VMap.Path} {a b : Name} (h : g ++ [a] = g' ++ [b]) : g = g' ∧ a = b := by
  obtain ⟨h1, h2⟩ := List.append_inj' h rfl
  exact ⟨h1, by simpa using h2⟩

/-- Fields above a pair stay. -/
theorem above (R : Route A B C L L' m) (K : Ok A B C L' m m3 S c x y) {g a r : VMap.Path} {n : Name} (hg : S g)
    (ha : a ≠ []) (hr : r ≠ []) (e : g ++ [n] = a ++ r) :
    (∃ f o, Pairs A B C S c x y f o ∧ f.path = a ∧ o.path = a) ∧ a <+: g := by
  obtain ⟨r', k, rfl⟩ := snoc_of_ne hr
  rw [← List.append_assoc] at e
  obtain ⟨e, -⟩ := snoc_inj e
  obtain ⟨f, o, hc, h1, h2⟩ := K.common g hg
  obtain ⟨f', o', h3, h4, h5⟩ := R.level f o a (r' ++ [c]) hc (h1.trans h2.symm) ha (by rw [h1, e]; simp)
  refine ⟨⟨f', o', .inl ⟨h3, fun g' hg' e' => ?_⟩, h4, h5⟩, r', e.symm⟩
  have := K.leafc g' hg' f (R.mem _ _ hc).1 (r' ++ [c]) (by rw [h1, e, ← e', h4]; simp)
  simp at this

theorem common_one (R : Route A B C L L' m) (K : Ok A B C L' m m3 S c x y) {g : VMap.Path} (hg : S g) {f o : Field}
    (hc : C f o) : f.path = g ++ [c] ↔ o.path = g ++ [c] := by
  obtain ⟨f', o', hc', h1, h2⟩ := K.common g hg
  constructor
  · intro h
    obtain ⟨rfl, rfl⟩ := R.same hc' hc (h1.trans h.symm)
    exact h2
  · intro h
    obtain ⟨rfl, rfl⟩ := R.same' hc' hc (h2.trans h.symm)
    exact h1

theorem reach (R : Route A B C L L' m) (K : Ok A B C L' m m3 S c x y) {p t : VMap.Path}
    (h : Reach (Pairs A B C S c x y) L p t) : (∃ g, S g ∧ (p = g ++ [c] ∨ p = g ++ [x])) ∨ Reach C L p t := by
  induction h with
  | root => exact .inr .root
  | field h =>
    rcases h with ⟨h, -⟩ | ⟨g, hg, -, -, h | h⟩
    · exact .inr (.field h)
    · exact .inl ⟨g, hg, .inl h.1⟩
    · exact .inl ⟨g, hg, .inr h.1⟩
  | @left p t n h hl ih =>
    rcases ih with ⟨g, hg, e⟩ | ih
    · exfalso
      obtain ⟨-, ⟨f, hf, e1, -⟩, -⟩ := R.left _ hl
      rcases e with rfl | rfl
      · have := K.leafc g hg f hf [n] e1; simp at this
      · have := K.leafx g hg f hf [n] e1; simp at this
    · exact .inr (.left ih hl)

theorem route (R : Route A B C L L' m) (K : Ok A B C L' m m3 S c x y) :
    Route A B (Pairs A B C S c x y) L L' m3 where
  once := R.once
  once' := R.once'
  ne := R.ne
  ne' := R.ne'
  mem f o h := by
    rcases h with ⟨h, -⟩ | ⟨g, -, h1, h2, -⟩
    · exact R.mem _ _ h
    · exact ⟨h1, h2⟩
  one f o o' h h' := by
    rcases h with ⟨h, h0⟩ | ⟨g, hg, h1, h2, h3⟩
    · rcases h' with ⟨h', -⟩ | ⟨g', hg', -, -, h3' | h3'⟩
      · exact R.one _ _ _ h h'
      · exact absurd h3'.1 (h0 g' hg')
      · exact absurd h3'.1 (K.alone g' hg' _ _ h)
    · rcases h' with ⟨h', h0⟩ | ⟨g', hg', -, h2', h3'⟩
      · rcases h3 with h3 | h3
        · exact absurd h3.1 (h0 g hg)
        · exact absurd h3.1 (K.alone g hg _ _ h')
      · apply field_once R.once' h2 h2'
        rcases h3 with h3 | h3 <;> rcases h3' with h3' | h3' <;> obtain ⟨rfl, e⟩ := snoc_inj (h3.1.symm.trans h3'.1)
        · rw [h3.2, h3'.2]
        · exact absurd e.symm K.cx
        · exact absurd e K.cx
        · rw [h3.2, h3'.2]
  one' f f' o h h' := by
    rcases h with ⟨h, h0⟩ | ⟨g, hg, h1, h2, h3⟩
    · rcases h' with ⟨h', -⟩ | ⟨g', hg', -, -, h3' | h3'⟩
      · exact R.one' _ _ _ h h'
      · exact absurd h3'.2 (K.alone' g' hg' _ _ h)
      · exact absurd ((common_one R K hg' h).2 h3'.2) (h0 g' hg')
    · rcases h' with ⟨h', h0⟩ | ⟨g', hg', h1', -, h3'⟩
      · rcases h3 with h3 | h3
        · exact absurd h3.2 (K.alone' g hg _ _ h')
        · exact absurd ((common_one R K hg h').2 h3.2) (h0 g hg)
      · apply field_once R.once h1 h1'
        rcases h3 with h3 | h3 <;> rcases h3' with h3' | h3' <;> obtain ⟨rfl, e⟩ := snoc_inj (h3.2.symm.trans h3'.2)
        · rw [h3.1, h3'.1]
        · exact absurd e K.cy
        · exact absurd e.symm K.cy
        · rw [h3.1, h3'.1]
  up f o a r h ha e := by
    by_cases hr : r = []
    · subst hr
      exact .inl ⟨f, o, h, by simpa using e, List.prefix_rfl⟩
    · rcases h with ⟨h, h0⟩ | ⟨g, hg, h1, h2, h3⟩
      · rcases R.up f o a r h ha e with ⟨f', o', h3, h4, h5⟩ | hl
        · refine .inl ⟨f', o', .inl ⟨h3, fun g hg e' => hr ?_⟩, h4, h5⟩
          exact K.leafc g hg f (R.mem _ _ h).1 r (by rw [e, ← h4, e'])
        · exact .inr hl
      · left
        rcases h3 with h3 | h3 <;> obtain ⟨⟨f', o', h4, h5, h6⟩, u, h7⟩ := above R K hg ha hr (h3.1.symm.trans e)
        · exact ⟨f', o', h4, h5, u ++ [y], by rw [h6, h3.2, ← h7]; simp⟩
        · exact ⟨f', o', h4, h5, u ++ [c], by rw [h6, h3.2, ← h7]; simp⟩
  up' f o a r h ha e := by
    by_cases hr : r = []
    · subst hr
      exact .inl ⟨f, o, h, by simpa using e, List.prefix_rfl⟩
    · rcases h with ⟨h, h0⟩ | ⟨g, hg, h1, h2, h3⟩
      · rcases R.up' f o a r h ha e with ⟨f', o', h3, h4, h5⟩ | hl
        · refine .inl ⟨f', o', .inl ⟨h3, fun g hg e' => hr ?_⟩, h4, h5⟩
          exact K.leafc' g hg o (R.mem _ _ h).2 r (by rw [e, ← h4, (common_one R K hg h3).1 e'])
        · exact .inr hl
      · left
        rcases h3 with h3 | h3 <;> obtain ⟨⟨f', o', h4, h5, h6⟩, u, h7⟩ := above R K hg ha hr (h3.2.symm.trans e)
        · exact ⟨f', o', h4, h6, u ++ [c], by rw [h5, h3.1, ← h7]; simp⟩
        · exact ⟨f', o', h4, h6, u ++ [x], by rw [h5, h3.1, ← h7]; simp⟩
  level f o a r h e ha hp := by
    rcases h with ⟨h, h0⟩ | ⟨g, hg, h1, h2, h3 | h3⟩
    · obtain ⟨f', o', h1, h2, h3⟩ := R.level f o a r h e ha hp
      refine ⟨f', o', .inl ⟨h1, fun g hg e' => h0 g hg ?_⟩, h2, h3⟩
      have := K.leafc g hg f (R.mem _ _ h).1 r (by rw [hp, ← h2, e'])
      rw [hp, this, ← h2, e', List.append_nil]
    · exact absurd (snoc_inj (h3.1.symm.trans (e.trans h3.2))).2.symm K.cy
    · exact absurd (snoc_inj (h3.1.symm.trans (e.trans h3.2))).2 K.cx
  here f o h := by
    rcases h with ⟨h, h0⟩ | ⟨g, hg, h1, h2, h3 | h3⟩
    · rw [K.other f.path fun g hg => ⟨h0 g hg, K.alone g hg _ _ h⟩]
      exact R.here f o h
    · left; rw [h3.1, h3.2, K.mc g hg]
    · left; rw [h3.1, h3.2, K.mx g hg]
  entry p q h := by
    by_cases hp : ∀ g, S g → p ≠ g ++ [c] ∧ p ≠ g ++ [x]
    · rw [K.other p hp] at h
      obtain ⟨f, o, h1, h2, h3⟩ := R.entry p q h
      exact ⟨f, o, .inl ⟨h1, fun g hg => by rw [h2]; exact (hp g hg).1⟩, h2, h3⟩
    · have hp : ∃ g, S g ∧ (p = g ++ [c] ∨ p = g ++ [x]) := by
        apply Classical.byContradiction
        intro hn
        exact hp fun g hg => ⟨fun e => hn ⟨g, hg, .inl e⟩, fun e => hn ⟨g, hg, .inr e⟩⟩
      obtain ⟨g, hg, e | e⟩ := hp <;> subst e
      · rw [K.mc g hg] at h
        simp only [Option.some.injEq] at h
        subst h
        obtain ⟨f, _, h1, h2, -⟩ := K.common g hg
        obtain ⟨o, h3, h4⟩ := K.extra' g hg
        exact ⟨f, o, .inr ⟨g, hg, (R.mem _ _ h1).1, h3, .inl ⟨h2, h4⟩⟩, h2, h4⟩
      · rw [K.mx g hg] at h
        simp only [Option.some.injEq] at h
        subst h
        obtain ⟨_, o, h1, -, h2⟩ := K.common g hg
        obtain ⟨f, h3, h4⟩ := K.extra g hg
        exact ⟨f, o, .inr ⟨g, hg, h3, (R.mem _ _ h1).2, .inr ⟨h4, h2⟩⟩, h4, h2⟩
  missing f hf h := by
    have hp : ∀ g, S g → f.path ≠ g ++ [c] ∧ f.path ≠ g ++ [x] := by
      refine fun g hg => ⟨fun e => ?_, fun e => ?_⟩
      · rw [e, K.mc g hg] at h; cases h
      · rw [e, K.mx g hg] at h; cases h
    rw [K.other _ hp] at h
    rcases R.missing f hf h with ⟨o, h1, h2⟩ | h1 | ⟨a, r, ha, e, h1⟩
    · exact .inl ⟨o, .inl ⟨h1, fun g hg => (hp g hg).1⟩, h2⟩
    · exact .inr (.inl h1)
    · refine .inr (.inr ⟨a, r, ha, e, ?_⟩)
      rw [K.other a, h1]
      refine fun g hg => ⟨fun ea => ?_, fun ea => ?_⟩
      · have := K.leafc g hg f hf r (by rw [e, ea])
        exact (hp g hg).1 (by rw [e, ea, this, List.append_nil])
      · have := K.leafx g hg f hf r (by rw [e, ea])
        exact (hp g hg).2 (by rw [e, ea, this, List.append_nil])
  left a ha := by
    obtain ⟨h1, h2, h3⟩ := R.left a ha
    have hp : ∀ g, S g → a ≠ g ++ [c] ∧ a ≠ g ++ [x] := by
      refine fun g hg => ⟨fun e => ?_, fun e => ?_⟩
      · obtain ⟨f, o, h4, h5, -⟩ := K.common g hg
        exact h3 f o h4 (h5.trans e.symm)
      · rw [e, K.gone g hg] at h1; cases h1
    refine ⟨by rw [K.other a hp, h1], h2, fun f o h e => ?_⟩
    rcases h with ⟨h, -⟩ | ⟨g, hg, -, -, h | h⟩
    · exact h3 f o h e
    · exact (hp g hg).1 (e.symm.trans h.1)
    · exact (hp g hg).2 (e.symm.trans h.1)
  left' a ha := by
    obtain ⟨h1, h2⟩ := R.left' a ha
    refine ⟨h1, fun f o h e => ?_⟩
    rcases h with ⟨h, -⟩ | ⟨g, hg, -, -, h | h⟩
    · exact h2 f o h e
    · exact K.left' g hg (by rw [← h.2, e]; exact ha)
    · obtain ⟨f', o', h4, -, h5⟩ := K.common g hg
      exact h2 f' o' h4 (h5.trans (h.2.symm.trans e))
  fresh p t n h hl := by
    rcases reach R K h with ⟨g, hg, e⟩ | h
    · exfalso
      obtain ⟨-, ⟨f, hf, e1, -⟩, -⟩ := R.left _ hl
      rcases e with rfl | rfl
      · have := K.leafc g hg f hf [n] e1; simp at this
      · have := K.leafx g hg f hf [n] e1; simp at this
    · exact R.fresh p t n h hl

end Swap
end Verif.Convert
