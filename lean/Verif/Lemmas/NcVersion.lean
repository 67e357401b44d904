import Verif.Lemmas.NcOther
import Verif.Lemmas.VersionNbc
import Verif.Spec.NcVersion
/-
The map between two versions, for reading netCDF files.
-/
namespace Verif.Nc
open Verif.Ids Verif.TreeSpec Verif.NcSpec Verif.VMap Verif.VMapSpec
open Verif.ConvertSpec (mchild child metaAt)
open Verif.AlSpec (arraysOf IsDataPath Describes)

section
variable {A B : List Field} {C H : Field → Field → Prop} {m : List (Path × Option Path)} {change : List (Path × Option Handler)}
variable {mA mB : MFields} {link : Path → Option Path}

theorem targetOf_entry {p : Path} {x : Option Path} (h : m.lookup p = some x) : targetOf (some (ncMapOf m change)) p = x := by
  simp only [targetOf, ncMapOf, h]

theorem targetOf_absent {p : Path} (h : m.lookup p = none) :
    targetOf (some (ncMapOf m change)) p = if (change.lookup p).isSome then none else some p := by
  simp only [targetOf, ncMapOf, h]
  rfl

/-- If everything around a node is linked, the map says where the node is. -/
theorem side_target (wA : WellFormed A) (S : Side A B C H m change) (sA : Shows A mA)
    (hlink : ∀ p q, link p = some q ↔ ∃ f o, Same C H f o ∧ f.path = p ∧ o.path = q) {p : Path} (hp : IsDataPath mA p)
    (hout : ∀ t r, p = t ++ r → t ≠ [] → r ≠ [] → ∃ q, link t = some q) :
    targetOf (some (ncMapOf m change)) p = link p := by
  cases hl : link p with
  | some q =>
    obtain ⟨f, o, h1, rfl, rfl⟩ := (hlink p q).1 hl
    rcases S.plain f o h1.1 (h1.2 f o [] h1.1 (by simp)) with h2 | ⟨h2, h3, h4⟩
    · exact targetOf_entry h2
    · rw [targetOf_absent h3, h4, h2]
      rfl
  | none =>
    have hp0 := isDataPath_ne hp
    obtain ⟨x, hx, hxs⟩ := hp
    obtain ⟨f, hf, rfl, hfk⟩ := sA.node p x hp0 hx
    have hns : f.dtype ≠ "structure".toList := by
      cases x with
      | leaf l => exact hfk.1
      | struct c => exact absurd rfl (hxs c)
      | aos c => rw [show f.dtype = _ from hfk]; decide +kernel
    by_cases hc : ∃ o, C f o
    · obtain ⟨o, hc⟩ := hc
      have hH : H f o := by
        by_cases hH : H f o
        · exact hH
        · exfalso
          have : link f.path = some o.path := (hlink _ _).2 ⟨f, o, ⟨hc, fun f' o' r h1 h2 => by
            cases r with
            | nil =>
              rw [List.append_nil] at h2
              cases field_once wA.once hf (S.mem _ _ h1).1 h2
              cases S.one _ _ _ hc h1
              exact hH
            | cons k r =>
              obtain ⟨q, hq⟩ := hout f'.path (k :: r) h2 (wA.names f' (S.mem _ _ h1).1).1 (by simp)
              obtain ⟨f2, o2, h3, h4, -⟩ := (hlink _ _).1 hq
              cases field_once wA.once (S.mem _ _ h3.1).1 (S.mem _ _ h1).1 h4
              cases S.one _ _ _ h3.1 h1
              exact h3.2 _ _ [] h1 (by simp)⟩, rfl, rfl⟩
          rw [hl] at this
          cases this
      rcases S.changed f o hc hH with h1 | ⟨h1, h2⟩
      · exact targetOf_entry h1
      · rw [targetOf_absent h1, h2]
        rfl
    · cases hm : m.lookup f.path with
      | none =>
        exfalso
        rcases S.missing f hf hns hm with h1 | ⟨a, r, hr, h2, h3⟩
        · exact hc h1
        · obtain ⟨q, hq⟩ := hout a r h2 (S.key a h3) hr
          obtain ⟨f2, o2, h4, rfl, -⟩ := (hlink _ _).1 hq
          rcases S.plain f2 o2 h4.1 (h4.2 f2 o2 [] h4.1 (by simp)) with h5 | ⟨-, h5, -⟩
          · rw [h3] at h5; cases h5
          · rw [h3] at h5; cases h5
      | some y =>
        cases y with
        | none => exact targetOf_entry hm
        | some q =>
          obtain ⟨f', o, h1, h2⟩ := S.entry _ _ hm
          cases field_once wA.once (S.mem _ _ h1).1 hf h2
          exact absurd ⟨o, h1⟩ hc

/-- Linked nodes are nodes of the same kind. -/
theorem side_aligned (wB : WellFormed B) (S : Side A B C H m change) (sA : Shows A mA) (sB : Shows B mB)
    (hkind : ∀ f o, C f o → ¬ H f o → (f.dtype = "structure".toList ↔ o.dtype = "structure".toList) ∧
      (f.dtype = "struct_array".toList ↔ o.dtype = "struct_array".toList))
    (htype : ∀ f o, C f o → ¬ H f o → ∀ l l', metaAt (.struct mA) f.path = some (.leaf l) → metaAt (.struct mB) o.path = some (.leaf l') →
      l.type = l'.type ∧ l.ndim = l'.ndim)
    (hone : ∀ f o f' o', C f o → C f' o' → o.path = o'.path → f.path = f'.path)
    (hlink : ∀ p q, link p = some q ↔ ∃ f o, Same C H f o ∧ f.path = p ∧ o.path = q)
    (harr : ∀ p q, IsDataPath mA p → link p = some q → (arraysOf mA [] p).map link = (arraysOf mB [] q).map some) :
    Aligned mA mB link where
  kind := by
    intro p q x hp hx hs hl
    obtain ⟨f, o, h, rfl, rfl⟩ := (hlink p q).1 hl
    obtain ⟨hf, ho⟩ := S.mem f o h.1
    have hh := h.2 f o [] h.1 (by simp)
    obtain ⟨x', hx', h1⟩ := sA.field f hf
    obtain ⟨y, hy, h2⟩ := sB.field o ho
    rw [hx] at hx'
    cases hx'
    refine ⟨(wB.names o ho).1, y, hy, ?_⟩
    obtain ⟨k1, k2⟩ := hkind f o h.1 hh
    cases x with
    | struct d => exact absurd trivial hs
    | leaf l =>
      simp only [IsKind] at h1
      cases y with
      | leaf l' => exact htype f o h.1 hh l l' hx hy
      | struct d => exact absurd (k1.2 h2) h1.1
      | aos d => exact absurd (k2.2 h2) h1.2
    | aos d =>
      have h1 : f.dtype = "struct_array".toList := h1
      cases y with
      | leaf l' => exact absurd (k2.1 h1) h2.2
      | aos d => trivial
      | struct d =>
        have := k1.2 h2
        rw [h1] at this
        exact absurd this (by decide +kernel)
  inj := by
    intro p p' q _ _ h h'
    obtain ⟨f, o, h1, rfl, rfl⟩ := (hlink _ _).1 h
    obtain ⟨f', o', h1', rfl, e⟩ := (hlink _ _).1 h'
    exact hone f o f' o' h1.1 h1'.1 e.symm
  arrays := harr

end
end Verif.Nc
