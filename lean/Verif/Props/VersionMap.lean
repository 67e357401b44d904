import Verif.Lemmas.VersionMap
import Verif.Lemmas.VersionDropped
/-
C21: the map between two Data Dictionary versions is the same in both directions, links exactly the
paths that the dictionaries identify, and maps paths without equivalent to nothing.
-/
namespace Verif.Props
open Verif.Ids Verif.VMap Verif.VMapSpec

section
variable {d : Dicts}

theorem missingNew_none (d : Dicts) : ∀ p ∈ (d.new.map (·.path)).filter (fun p => (field? d.old p).isNone &&
    ((renames d).toOld.lookup p).isNone), (renames d).toOld.lookup p = none := by
  intro p hp
  simp only [List.mem_filter, Bool.and_eq_true, Option.isNone_iff_eq_none] at hp
  exact hp.2.2

theorem missingOld_none (d : Dicts) : ∀ p ∈ (d.old.map (·.path)).filter (fun p => (field? d.new p).isNone &&
    ((renames d).toNew.lookup p).isNone), (renames d).toNew.lookup p = none := by
  intro p hp
  simp only [List.mem_filter, Bool.and_eq_true, Option.isNone_iff_eq_none] at hp
  exact hp.2.2

/-- The map to old paths: an entry made for a change, or for a missing path. -/
theorem build_toOld (d : Dicts) (q : Path) :
    ((buildMap d).toOld.lookup q = some none ∧ (renames d).toOld.lookup q = none ∧ Has d.new q ∧
      ¬ Has d.old q) ∨
    (buildMap d).toOld.lookup q = (renames d).toOld.lookup q := by
  rcases lookup_mapMissing (missingNew_none d) q with ⟨-, h2, h3⟩ | ⟨-, h2⟩
  · left
    simp only [List.mem_filter, List.mem_map, Bool.and_eq_true, Option.isNone_iff_eq_none] at h3
    obtain ⟨⟨f, hf, e⟩, h4, h5⟩ := h3
    exact ⟨h2, h5, ⟨f, hf, e⟩, fun ⟨o, ho, e'⟩ => field?_none h4 o ho e'⟩
  · exact .inr h2

theorem build_toNew (d : Dicts) (q : Path) :
    ((buildMap d).toNew.lookup q = some none ∧ (renames d).toNew.lookup q = none ∧ Has d.old q ∧
      ¬ Has d.new q) ∨
    (buildMap d).toNew.lookup q = (renames d).toNew.lookup q := by
  rcases lookup_mapMissing (missingOld_none d) q with ⟨-, h2, h3⟩ | ⟨-, h2⟩
  · left
    simp only [List.mem_filter, List.mem_map, Bool.and_eq_true, Option.isNone_iff_eq_none] at h3
    obtain ⟨⟨f, hf, e⟩, h4, h5⟩ := h3
    exact ⟨h2, h5, ⟨f, hf, e⟩, fun ⟨o, ho, e'⟩ => field?_none h4 o ho e'⟩
  · exact .inr h2

/-- The two paths of a change belong together. -/
theorem inv_keys {m : Maps} {ops : List Op} {tops : List TOp} (G : Given d) (I : Inv d d.new m ops tops)
    {f o : Field} (hc : Claim d f o) : ∀ op ∈ ops, op.new = f.path ↔ op.old = o.path := by
  intro op hop
  obtain ⟨f', o', c, e1, e2, -⟩ := I.ok op hop
  rw [← e1, ← e2]
  exact G.one _ _ _ _ c hc

theorem inv_tkeys {m : Maps} {ops : List Op} {tops : List TOp} (G : Given d) (I : Inv d d.new m ops tops)
    {f o : Field} (hc : Claim d f o) : ∀ t ∈ tops, t.new = f.path ↔ t.old = o.path := by
  intro t ht
  obtain ⟨f', hf', e1, -, h1, h2⟩ := I.tok t ht
  constructor
  · intro e
    cases field_once G.new.once hf' hc.1 (e1.trans e)
    exact (h2 o hc).symm
  · intro e
    have c := h1 o hc.2.1 e.symm
    rw [← e1, G.claim_same' c hc]

/-- Both maps have the same entry for two fields that are identified. -/
theorem inv_sync {m : Maps} {ops : List Op} {tops : List TOp} (G : Given d) (I : Inv d d.new m ops tops)
    {f o : Field} (hc : Claim d f o) :
    (m.toOld.lookup f.path = none ∧ m.toNew.lookup o.path = none) ∨
    (m.toOld.lookup f.path = some (some o.path) ∧ m.toNew.lookup o.path = some (some f.path) ∧
      Was d f.path o.path ∧ Renamed d f o) ∨
    (m.toOld.lookup f.path = some none ∧ m.toNew.lookup o.path = some none ∧ ¬ Fits d o f) := by
  rw [I.is.toOld, I.is.toNew]
  rcases lookup_sync (l := ops) (val := fun o : Op => if o.link then some o.old else none)
    (val' := fun o : Op => if o.link then some o.new else none) (inv_keys G I hc) with h | ⟨op, h1, h2, h3, h4, h5⟩
  · exact .inl h
  · right
    rw [h4, h5]
    obtain ⟨f', o', c, e1, e2, e3, e4⟩ := I.ok op h1
    cases hl : op.link with
    | true =>
      refine .inl ⟨by simp [h3], by simp [h2], ?_⟩
      have := e3 hl
      cases field_once G.new.once c.1 hc.1 (e1.trans h2)
      cases field_once G.old.once c.2.1 hc.2.1 (e2.trans h3)
      rwa [h2, h3] at this
    | false =>
      refine .inr ⟨by simp, by simp, ?_⟩
      cases field_once G.new.once c.1 hc.1 (e1.trans h2)
      cases field_once G.old.once c.2.1 hc.2.1 (e2.trans h3)
      exact e4 hl

theorem inv_entry {m : Maps} {ops : List Op} {tops : List TOp} (I : Inv d d.new m ops tops) {q : Path}
    {x : Option Path} (h : m.toOld.lookup q = some x) : ∃ f o, Claim d f o ∧ f.path = q := by
  rw [I.is.toOld] at h
  obtain ⟨op, h1, h2, -⟩ := lookup_some h
  obtain ⟨f, o, c, e, -⟩ := I.ok op h1
  exact ⟨f, o, c, e.trans h2⟩

theorem inv_entry' {m : Maps} {ops : List Op} {tops : List TOp} (I : Inv d d.new m ops tops) {p : Path}
    {x : Option Path} (h : m.toNew.lookup p = some x) : ∃ f o, Claim d f o ∧ o.path = p := by
  rw [I.is.toNew] at h
  obtain ⟨op, h1, h2, -⟩ := lookup_some h
  obtain ⟨f, o, c, -, e, -⟩ := I.ok op h1
  exact ⟨f, o, c, e.trans h2⟩

/-- A new field without entry that is identified with an old one has the same path. -/
theorem inv_unmapped {m : Maps} {ops : List Op} {tops : List TOp} (I : Inv d d.new m ops tops)
    (C : Common d d.new ops tops) {f o : Field} (G : Given d) (hc : Claim d f o)
    (h : m.toOld.lookup f.path = none) :
    f.path = o.path ∧ Fits d o f ∧ (d.same f.dtype o.dtype = false → ∃ t ∈ tops, t.new = f.path) := by
  rw [I.is.toOld] at h
  have no := lookup_none.1 h
  obtain ⟨hf, ho, (h1 | ⟨f', o', r, h1, h2, h3⟩) | ⟨h1, -⟩⟩ := id hc
  · exfalso
    by_cases ht : Fits d o f
    · exact no _ (I.named f hf o h1 ht) rfl
    · exact no _ (I.dropped f hf o h1 ht) rfl
  · exact absurd rfl (no _ (I.below f' h1.1.1 o' h1 f hf o ho r h2 h3))
  · refine ⟨h1, ?_⟩
    rcases C.checked f hf o ho h1.symm with ⟨op, h2, h3 | h3⟩ | h2
    · exact absurd h3 (no op h2)
    · exact absurd ((inv_keys G I hc op h2).2 (h3.trans h1)) (no op h2)
    · exact h2

end

/-- C21: if the new path is mapped to an old path, the old path is mapped to the new path, and the
other way around. -/
theorem C21_inverse {d : Dicts} (G : Given d) (q p : Path) :
    (buildMap d).toOld.lookup q = some (some p) ↔ (buildMap d).toNew.lookup p = some (some q) := by
  obtain ⟨ops, tops, I, C⟩ := inv_renames G
  constructor
  · intro h
    rcases build_toOld d q with ⟨h1, -⟩ | h1
    · rw [h] at h1; simp at h1
    · rw [h] at h1
      obtain ⟨f, o, c, rfl⟩ := inv_entry I h1.symm
      rcases inv_sync G I c with ⟨h2, -⟩ | ⟨h2, h3, -⟩ | ⟨h2, -⟩
      · rw [h2] at h1; simp at h1
      · rw [h2] at h1
        simp only [Option.some.injEq] at h1
        rw [h1]
        rcases build_toNew d o.path with ⟨-, h4, -⟩ | h4
        · rw [h3] at h4; simp at h4
        · rw [h4, h3]
      · rw [h2] at h1; simp at h1
  · intro h
    rcases build_toNew d p with ⟨h1, -⟩ | h1
    · rw [h] at h1; simp at h1
    · rw [h] at h1
      obtain ⟨f, o, c, rfl⟩ := inv_entry' I h1.symm
      rcases inv_sync G I c with ⟨-, h2⟩ | ⟨h3, h2, -⟩ | ⟨-, h2, -⟩
      · rw [h2] at h1; simp at h1
      · rw [h2] at h1
        simp only [Option.some.injEq] at h1
        rw [h1]
        rcases build_toOld d f.path with ⟨-, h4, -⟩ | h4
        · rw [h3] at h4; simp at h4
        · rw [h4, h3]
      · rw [h2] at h1; simp at h1

/-- C21: paths are only mapped to each other if the dictionaries identify their fields, and the old
path results from replacing all renamed names. -/
theorem C21_linked {d : Dicts} (G : Given d) (q p : Path)
    (h : (buildMap d).toOld.lookup q = some (some p)) :
    Was d q p ∧ ∃ f o, Claim d f o ∧ f.path = q ∧ o.path = p ∧ Renamed d f o := by
  obtain ⟨ops, tops, I, C⟩ := inv_renames G
  rcases build_toOld d q with ⟨h1, -⟩ | h1
  · rw [h] at h1; simp at h1
  · rw [h] at h1
    obtain ⟨f, o, c, rfl⟩ := inv_entry I h1.symm
    rcases inv_sync G I c with ⟨h2, -⟩ | ⟨h2, -, h3⟩ | ⟨h2, -⟩
    · rw [h2] at h1; simp at h1
    · rw [h2] at h1
      simp only [Option.some.injEq] at h1
      rw [h1]
      exact ⟨h3.1, f, o, c, rfl, rfl, h3.2⟩
    · rw [h2] at h1; simp at h1

/-- C21: fields that the dictionaries identify, of the same type or with a supported type change, are
mapped to each other, or have the same path and no entry. -/
theorem C21_found {d : Dicts} (G : Given d) (f o : Field) (hc : Claim d f o) (ht : Fits d o f) :
    ((buildMap d).toOld.lookup f.path = some (some o.path) ∧
      (buildMap d).toNew.lookup o.path = some (some f.path)) ∨
    (f.path = o.path ∧ (buildMap d).toOld.lookup f.path = none ∧ (buildMap d).toNew.lookup o.path = none) := by
  obtain ⟨ops, tops, I, C⟩ := inv_renames G
  rcases inv_sync G I hc with ⟨h1, h2⟩ | ⟨h1, h2, -⟩ | ⟨-, -, h1⟩
  · right
    obtain ⟨e, -⟩ := inv_unmapped I C G hc h1
    refine ⟨e, ?_, ?_⟩
    · rcases build_toOld d f.path with ⟨-, -, -, h3⟩ | h3
      · exact absurd ⟨o, hc.2.1, e.symm⟩ h3
      · rw [h3, h1]
    · rcases build_toNew d o.path with ⟨-, -, -, h3⟩ | h3
      · exact absurd ⟨f, hc.1, e⟩ h3
      · rw [h3, h2]
  · left
    constructor
    · rcases build_toOld d f.path with ⟨-, h3, -⟩ | h3
      · rw [h1] at h3; simp at h3
      · rw [h3, h1]
    · rcases build_toNew d o.path with ⟨-, h3, -⟩ | h3
      · rw [h2] at h3; simp at h3
      · rw [h3, h2]
  · exact absurd ht h1

/-- C21: a new path that is mapped to nothing is identified with no old field of fitting type. -/
theorem C21_nothing {d : Dicts} (G : Given d) (q : Path) (h : (buildMap d).toOld.lookup q = some none) :
    ∃ f ∈ d.new, f.path = q ∧ ∀ o, Claim d f o → ¬ Fits d o f := by
  obtain ⟨ops, tops, I, C⟩ := inv_renames G
  rcases build_toOld d q with ⟨-, h1, ⟨f, hf, rfl⟩, h3⟩ | h1
  · refine ⟨f, hf, rfl, fun o c _ => ?_⟩
    obtain ⟨e, -⟩ := inv_unmapped I C G c h1
    exact h3 ⟨o, c.2.1, e.symm⟩
  · rw [h] at h1
    obtain ⟨f, o, c, rfl⟩ := inv_entry I h1.symm
    refine ⟨f, c.1, rfl, fun o' c' => ?_⟩
    rcases inv_sync G I c' with ⟨h2, -⟩ | ⟨h2, -⟩ | ⟨-, -, h2⟩
    · rw [h2] at h1; simp at h1
    · rw [h2] at h1; simp at h1
    · exact h2

/-- C21: the same for old paths. -/
theorem C21_nothing_old {d : Dicts} (G : Given d) (p : Path) (h : (buildMap d).toNew.lookup p = some none) :
    ∃ o ∈ d.old, o.path = p ∧ ∀ f, Claim d f o → ¬ Fits d o f := by
  obtain ⟨ops, tops, I, C⟩ := inv_renames G
  rcases build_toNew d p with ⟨-, h1, ⟨o, ho, rfl⟩, h3⟩ | h1
  · refine ⟨o, ho, rfl, fun f c _ => ?_⟩
    rcases inv_sync G I c with ⟨h2, -⟩ | ⟨-, h2, -⟩ | ⟨-, h2, -⟩
    · obtain ⟨e, -⟩ := inv_unmapped I C G c h2
      exact h3 ⟨f, c.1, e⟩
    · rw [h2] at h1; simp at h1
    · rw [h2] at h1; simp at h1
  · rw [h] at h1
    obtain ⟨f, o, c, rfl⟩ := inv_entry' I h1.symm
    refine ⟨o, c.2.1, rfl, fun f' c' => ?_⟩
    rcases inv_sync G I c' with ⟨-, h2⟩ | ⟨-, h2, -⟩ | ⟨-, -, h2⟩
    · rw [h2] at h1; simp at h1
    · rw [h2] at h1; simp at h1
    · exact h2

/-- C21: a new path without entry exists in the old dictionary, with a fitting type, and is not mapped
there either. Otherwise the dictionaries identify the field with no old field: then the path is below a path that is
mapped to nothing, or a path below it is mapped, or the old field with the same path was renamed. -/
theorem C21_unmapped {d : Dicts} (G : Given d) (f : Field) (hf : f ∈ d.new)
    (h : (buildMap d).toOld.lookup f.path = none) :
    (∃ o ∈ d.old, o.path = f.path ∧ Claim d f o ∧ Fits d o f ∧ (buildMap d).toNew.lookup f.path = none) ∨
    (∀ o, ¬ Claim d f o) ∧
      ((¬ Has d.old f.path ∧ ∃ a r, r ≠ [] ∧ f.path = a ++ r ∧ (buildMap d).toOld.lookup a = some none) ∨
      (¬ Has d.old f.path ∧ ∃ f' o r, r ≠ [] ∧ Claim d f' o ∧ f'.path = f.path ++ r ∧
        (buildMap d).toOld.lookup f'.path ≠ none) ∨
      ∃ f' o, o ∈ d.old ∧ o.path = f.path ∧ Renamed d f' o) := by
  obtain ⟨ops, tops, I, C⟩ := inv_renames G
  have h1 : (renames d).toOld.lookup f.path = none := by
    rcases build_toOld d f.path with ⟨h1, -⟩ | h1
    · rw [h] at h1; simp at h1
    · rw [← h1, h]
  cases ho : field? d.old f.path with
  | some o =>
    obtain ⟨hom, e⟩ := field?_some ho
    by_cases c : Claim d f o
    · obtain ⟨-, ht, -⟩ := inv_unmapped I C G c h1
      refine .inl ⟨o, hom, e, c, ht, ?_⟩
      rcases C21_found G f o c ht with ⟨h2, -⟩ | ⟨-, -, h2⟩
      · rw [h] at h2; simp at h2
      · rw [← e]; exact h2
    · have none_claimed : ∀ o', ¬ Claim d f o' := by
        intro o' c'
        cases field_once G.old.once c'.2.1 hom ((inv_unmapped I C G c' h1).1.symm.trans e.symm)
        exact c c'
      refine .inr ⟨none_claimed, .inr (.inr ?_)⟩
      refine Classical.byContradiction fun hn => c ⟨hf, hom, .inr ⟨e.symm, ?_, ?_⟩⟩
      · exact fun o' ho' hr => none_claimed o' ⟨hf, ho', .inl hr⟩
      · exact fun f' _ hr => hn ⟨f', o, hom, e, hr⟩
  | none =>
    right
    have none_old : ¬ Has d.old f.path := fun ⟨o, ho', e⟩ => field?_none ho o ho' e
    have none_claimed : ∀ o, ¬ Claim d f o := by
      intro o c
      obtain ⟨e, -⟩ := inv_unmapped I C G c h1
      exact field?_none ho o c.2.1 e.symm
    refine ⟨none_claimed, ?_⟩
    · have mem : f.path ∈ (d.new.map (·.path)).filter (fun p => (field? d.old p).isNone &&
          ((renames d).toOld.lookup p).isNone) := by
        simp only [List.mem_filter, List.mem_map, Bool.and_eq_true, Option.isNone_iff_eq_none]
        exact ⟨⟨f, hf, rfl⟩, ho, h1⟩
      obtain ⟨-, -, i3⟩ := skipped_mem (renames d).toOld ((d.new.map (·.path)).filter (fun p =>
        (field? d.old p).isNone && ((renames d).toOld.lookup p).isNone)) []
      rcases i3 _ mem with h2 | ⟨e, he, h2⟩ | ⟨a, ha, h2⟩
      · exfalso
        rcases lookup_mapMissing (missingNew_none d) f.path with ⟨-, h3, -⟩ | ⟨h3, -⟩
        · have : (buildMap d).toOld.lookup f.path = some none := h3
          rw [h] at this; simp at this
        · exact h3 h2
      · obtain ⟨-, r, hr, h3⟩ := mem_parents.1 h2
        rw [I.is.toOld] at he
        obtain ⟨op, h5, rfl⟩ := List.mem_map.1 he
        simp only at h3
        obtain ⟨f', o', c, e1, -⟩ := I.ok op h5
        refine .inr (.inl ⟨none_old, f', o', r, hr, c, e1.trans h3, ?_⟩)
        have h6 : (renames d).toOld.lookup f'.path ≠ none := by
          rw [I.is.toOld]
          exact fun h7 => lookup_none.1 h7 op h5 e1.symm
        rcases build_toOld d f'.path with ⟨h7, -⟩ | h7
        · rw [h7]; simp
        · rw [h7]; exact h6
      · obtain ⟨-, r, hr, h3⟩ := mem_parents.1 ha
        refine .inl ⟨none_old, a, r, hr, h3, ?_⟩
        rcases lookup_mapMissing (missingNew_none d) a with ⟨-, h4, -⟩ | ⟨h4, -⟩
        · exact h4
        · exact absurd h2 h4

/-- C21: the same for old paths. -/
theorem C21_unmapped_old {d : Dicts} (G : Given d) (o : Field) (ho : o ∈ d.old)
    (h : (buildMap d).toNew.lookup o.path = none) :
    (∃ f ∈ d.new, f.path = o.path ∧ Claim d f o ∧ Fits d o f ∧ (buildMap d).toOld.lookup o.path = none) ∨
    (∀ f, ¬ Claim d f o) ∧
      ((¬ Has d.new o.path ∧ ∃ a r, r ≠ [] ∧ o.path = a ++ r ∧ (buildMap d).toNew.lookup a = some none) ∨
      (¬ Has d.new o.path ∧ ∃ f o' r, r ≠ [] ∧ Claim d f o' ∧ o'.path = o.path ++ r ∧
        (buildMap d).toNew.lookup o'.path ≠ none) ∨
      ∃ f o', f ∈ d.new ∧ f.path = o.path ∧ o' ∈ d.old ∧ Renamed d f o') := by
  obtain ⟨ops, tops, I, C⟩ := inv_renames G
  have h1 : (renames d).toNew.lookup o.path = none := by
    rcases build_toNew d o.path with ⟨h1, -⟩ | h1
    · rw [h] at h1; simp at h1
    · rw [← h1, h]
  have un : ∀ f, Claim d f o → f.path = o.path ∧ Fits d o f := by
    intro f c
    rcases inv_sync G I c with ⟨h2, -⟩ | ⟨-, h2, -⟩ | ⟨-, h2, -⟩
    · obtain ⟨e, ht, -⟩ := inv_unmapped I C G c h2
      exact ⟨e, ht⟩
    · rw [h1] at h2; simp at h2
    · rw [h1] at h2; simp at h2
  cases hf : field? d.new o.path with
  | some f =>
    obtain ⟨hfm, e⟩ := field?_some hf
    by_cases c : Claim d f o
    · obtain ⟨-, ht⟩ := un f c
      refine .inl ⟨f, hfm, e, c, ht, ?_⟩
      rcases C21_found G f o c ht with ⟨-, h2⟩ | ⟨-, h2, -⟩
      · rw [h] at h2; simp at h2
      · rw [← e]; exact h2
    · have none_claimed : ∀ f', ¬ Claim d f' o := by
        intro f' c'
        cases field_once G.new.once c'.1 hfm ((un f' c').1.trans e.symm)
        exact c c'
      refine .inr ⟨none_claimed, .inr (.inr ?_)⟩
      refine Classical.byContradiction fun hn => c ⟨hfm, ho, .inr ⟨e, ?_, ?_⟩⟩
      · exact fun o' ho' hr => hn ⟨f, o', hfm, e, ho', hr⟩
      · exact fun f' hf' hr => none_claimed f' ⟨hf', ho, .inl hr⟩
  | none =>
    right
    have none_new : ¬ Has d.new o.path := fun ⟨f, hf', e⟩ => field?_none hf f hf' e
    have none_claimed : ∀ f, ¬ Claim d f o := fun f c => field?_none hf f c.1 (un f c).1
    refine ⟨none_claimed, ?_⟩
    have mem : o.path ∈ (d.old.map (·.path)).filter (fun p => (field? d.new p).isNone &&
        ((renames d).toNew.lookup p).isNone) := by
      simp only [List.mem_filter, List.mem_map, Bool.and_eq_true, Option.isNone_iff_eq_none]
      exact ⟨⟨o, ho, rfl⟩, hf, h1⟩
    obtain ⟨-, -, i3⟩ := skipped_mem (renames d).toNew ((d.old.map (·.path)).filter (fun p =>
      (field? d.new p).isNone && ((renames d).toNew.lookup p).isNone)) []
    rcases i3 _ mem with h2 | ⟨e, he, h2⟩ | ⟨a, ha, h2⟩
    · exfalso
      rcases lookup_mapMissing (missingOld_none d) o.path with ⟨-, h3, -⟩ | ⟨h3, -⟩
      · have : (buildMap d).toNew.lookup o.path = some none := h3
        rw [h] at this; simp at this
      · exact h3 h2
    · obtain ⟨-, r, hr, h3⟩ := mem_parents.1 h2
      rw [I.is.toNew] at he
      obtain ⟨op, h5, rfl⟩ := List.mem_map.1 he
      simp only at h3
      obtain ⟨f', o', c, -, e1, -⟩ := I.ok op h5
      refine .inr (.inl ⟨none_new, f', o', r, hr, c, e1.trans h3, ?_⟩)
      have h6 : (renames d).toNew.lookup o'.path ≠ none := by
        rw [I.is.toNew]
        exact fun h7 => lookup_none.1 h7 op h5 e1.symm
      rcases build_toNew d o'.path with ⟨h7, -⟩ | h7
      · rw [h7]; simp
      · rw [h7]; exact h6
    · obtain ⟨-, r, hr, h3⟩ := mem_parents.1 ha
      refine .inl ⟨none_new, a, r, hr, h3, ?_⟩
      rcases lookup_mapMissing (missingOld_none d) a with ⟨-, h4, -⟩ | ⟨h4, -⟩
      · exact h4
      · exact absurd h2 h4

/-- C21: if previous names have one part and paths of renamed fields are not used again, a new path without entry is
the path of its old field, of fitting type and not mapped either, or is below a path that is mapped to nothing. -/
theorem C21_unmapped_level {d : Dicts} (G : Given d) (L : Level d) (f : Field) (hf : f ∈ d.new)
    (h : (buildMap d).toOld.lookup f.path = none) :
    (∃ o ∈ d.old, o.path = f.path ∧ Fits d o f ∧ (buildMap d).toNew.lookup f.path = none) ∨
    (∀ o, ¬ Claim d f o) ∧ ∃ a r, r ≠ [] ∧ f.path = a ++ r ∧ (buildMap d).toOld.lookup a = some none := by
  rcases C21_unmapped G f hf h with ⟨o, h1, h2, -, h3⟩ | ⟨h1, ⟨-, h2⟩ | ⟨-, f', o, r, -, c, e, -⟩ | ⟨f', o, ho, e, -⟩⟩
  · exact .inl ⟨o, h1, h2, h3⟩
  · exact .inr ⟨h1, h2⟩
  · exfalso
    obtain ⟨f1, o1, c1, e3, -⟩ := (G.claim_take L c).2 f.path.length
      (List.length_pos_iff.2 (G.new.names f hf).1) (by rw [e]; simp)
    rw [e, List.take_left' rfl] at e3
    cases field_once G.new.once c1.1 hf e3
    exact h1 _ c1
  · exact absurd (L.reuse f hf o ho e.symm) (h1 o)

/-- C21: the same for old paths. -/
theorem C21_unmapped_level_old {d : Dicts} (G : Given d) (L : Level d) (o : Field) (ho : o ∈ d.old)
    (h : (buildMap d).toNew.lookup o.path = none) :
    (∃ f ∈ d.new, f.path = o.path ∧ Fits d o f ∧ (buildMap d).toOld.lookup o.path = none) ∨
    (∀ f, ¬ Claim d f o) ∧ ∃ a r, r ≠ [] ∧ o.path = a ++ r ∧ (buildMap d).toNew.lookup a = some none := by
  rcases C21_unmapped_old G o ho h with ⟨f, h1, h2, -, h3⟩ | ⟨h1, ⟨-, h2⟩ | ⟨-, f, o', r, -, c, e, -⟩ | ⟨f, o', hf, e, -⟩⟩
  · exact .inl ⟨f, h1, h2, h3⟩
  · exact .inr ⟨h1, h2⟩
  · exfalso
    obtain ⟨f1, o1, c1, -, e3⟩ := (G.claim_take L c).2 o.path.length
      (List.length_pos_iff.2 (G.old.names o ho).1) (by rw [(G.claim_take L c).1, e]; simp)
    rw [e, List.take_left' rfl] at e3
    cases field_once G.old.once c1.2.1 ho e3
    exact h1 _ c1
  · exact absurd (L.reuse f hf o ho e) (h1 f)

/-- C21: a new field whose old field does not exist, whose path did not exist, that is not below another such
field, and that has no mapped field below it, is mapped to nothing. -/
theorem C21_added {d : Dicts} (G : Given d) (f : Field) (hf : f ∈ d.new) (hn : ∀ o, ¬ Claim d f o)
    (ho : ¬ Has d.old f.path)
    (hup : ∀ a r, r ≠ [] → f.path = a ++ r → (buildMap d).toOld.lookup a ≠ some none)
    (hdown : ∀ f' ∈ d.new, ∀ r, r ≠ [] → f'.path = f.path ++ r → (buildMap d).toOld.lookup f'.path = none ∨
      ∀ o, ¬ Claim d f' o) :
    (buildMap d).toOld.lookup f.path = some none := by
  obtain ⟨ops, tops, I, C⟩ := inv_renames G
  cases h : (buildMap d).toOld.lookup f.path with
  | none =>
    rcases C21_unmapped G f hf h with ⟨o, h1, h2, -⟩ | ⟨-, ⟨-, a, r, hr, e, h1⟩ | ⟨-, f', o, r, hr, c, e, h1⟩ |
        ⟨f', o, h1, h2, -⟩⟩
    · exact absurd ⟨o, h1, h2⟩ ho
    · exact absurd h1 (hup a r hr e)
    · rcases hdown f' c.1 r hr e with h2 | h2
      · exact absurd h2 h1
      · exact absurd c (h2 o)
    · exact absurd ⟨o, h1, h2⟩ ho
  | some x =>
    cases x with
    | none => rfl
    | some p =>
      obtain ⟨-, f', o, c, e, -, -⟩ := C21_linked G _ _ h
      cases field_once G.new.once c.1 hf e
      exact absurd c (hn o)

/-- The changes that undo each other. -/
def Undo (old new : Option Handler) : Prop :=
  (old = new ∧ (old = none ∨ old = some .structAos ∨ old = some .zeroOne ∨ old = some .identifier ∨
    old = some .fltInt)) ∨
  (old = some .removeConditional ∧ new = some .repeatConditional) ∨
  (old = some .repeatCentreline ∧ new = some .removeCentreline)

theorem handler_cases (o f : Field) : handlerFor o f = none ∨ handlerFor o f = some .structAos ∨
    handlerFor o f = some .zeroOne ∨ handlerFor o f = some .identifier ∨ handlerFor o f = some .fltInt := by
  unfold handlerFor
  simp only
  split
  · simp
  · split
    · simp
    · split
      · simp
      · split <;> simp

theorem source_undo {d : Dicts} {t : TOp} {f : Field} (h : t.Source d f) : Undo t.hOld t.hNew := by
  rcases h with ⟨o, -, -, -, h1, h2⟩ | ⟨-, h1, h2⟩ | ⟨-, h1, h2⟩
  · rw [h1, h2]; exact .inl ⟨rfl, handler_cases o f⟩
  · exact .inr (.inl ⟨h1, h2⟩)
  · exact .inr (.inr ⟨h1, h2⟩)

/-- C21: a type change is recorded for a new field exactly if it is recorded for its old field, and
the two recorded changes are for opposite directions. -/
theorem C21_changes {d : Dicts} (G : Given d) (f o : Field) (hc : Claim d f o) :
    ((buildMap d).changeOld.lookup f.path = none ∧ (buildMap d).changeNew.lookup o.path = none) ∨
    ∃ h h', (buildMap d).changeOld.lookup f.path = some h ∧ (buildMap d).changeNew.lookup o.path = some h' ∧
      Undo h h' := by
  obtain ⟨ops, tops, I, C⟩ := inv_renames G
  have e1 : (buildMap d).changeOld = (renames d).changeOld := rfl
  have e2 : (buildMap d).changeNew = (renames d).changeNew := rfl
  rw [e1, e2, I.is.changeOld, I.is.changeNew]
  rcases lookup_sync (l := tops) (val := TOp.hOld) (val' := TOp.hNew) (inv_tkeys G I hc) with
    h | ⟨t, h1, h2, h3, h4, h5⟩
  · exact .inl h
  · obtain ⟨f', -, -, hs, -⟩ := I.tok t h1
    exact .inr ⟨t.hOld, t.hNew, h4, h5, source_undo hs⟩

/-- C21: if the type of a renamed field, or of a field without entry, changed, exactly the handler for
this change of type is recorded, or that the change is not supported. -/
theorem C21_change_found {d : Dicts} (G : Given d) (f o : Field)
    (hc : Names d f o ∨ Claim d f o ∧ (buildMap d).toOld.lookup f.path = none)
    (hs : d.same f.dtype o.dtype = false) (h1 : ¬ Annotated d f .repeatConditional)
    (h2 : ¬ Annotated d f .centreline) :
    (∃ h, Change o f h ∧ (buildMap d).changeOld.lookup f.path = some (some h) ∧
      (buildMap d).changeNew.lookup o.path = some (some h)) ∨
    ((∀ h, ¬ Change o f h) ∧ (buildMap d).changeOld.lookup f.path = some none ∧
      (buildMap d).changeNew.lookup o.path = some none) := by
  suffices hh : (buildMap d).changeOld.lookup f.path = some (handlerFor o f) ∧
      (buildMap d).changeNew.lookup o.path = some (handlerFor o f) by
    cases e : handlerFor o f with
    | none =>
      refine .inr ⟨fun h c => ?_, by rw [hh.1, e], by rw [hh.2, e]⟩
      rw [handlerFor_some.2 c] at e
      cases e
    | some h => exact .inl ⟨h, handlerFor_some.1 e, by rw [hh.1, e], by rw [hh.2, e]⟩
  obtain ⟨ops, tops, I, C⟩ := inv_renames G
  have e1 : (buildMap d).changeOld = (renames d).changeOld := rfl
  have e2 : (buildMap d).changeNew = (renames d).changeNew := rfl
  have hc' : Claim d f o := by
    rcases hc with h | h
    · exact names_claim h
    · exact h.1
  have ex : ∃ t ∈ tops, t.new = f.path := by
    rcases hc with h | ⟨h, h3⟩
    · exact I.changed f h.1 o h hs
    · have h4 : (renames d).toOld.lookup f.path = none := by
        rcases build_toOld d f.path with ⟨h5, -⟩ | h5
        · rw [h3] at h5; simp at h5
        · rw [← h5, h3]
      exact (inv_unmapped I C G h h4).2.2 hs
  rw [e1, e2, I.is.changeOld, I.is.changeNew]
  rcases lookup_sync (l := tops) (val := TOp.hOld) (val' := TOp.hNew) (inv_tkeys G I hc') with
    ⟨h, -⟩ | ⟨t, t1, t2, t3, t4, t5⟩
  · obtain ⟨t, ht, e⟩ := ex
    exact absurd e (lookup_none.1 h t ht)
  · rw [t4, t5]
    obtain ⟨f', hf', e3, hs', -⟩ := I.tok t t1
    cases field_once G.new.once hf' hc'.1 (e3.trans t2)
    rcases hs' with ⟨o', -, c', -, h3, h4⟩ | ⟨h, -⟩ | ⟨h, -⟩
    · cases G.claim_same c' hc'
      exact ⟨by rw [h3], by rw [h4]⟩
    · exact absurd h h1
    · exact absurd h h2

/-- C21: for an annotated change of closed outlines, the change is recorded for both directions, unless
the type changed too. -/
theorem C21_points_found {d : Dicts} (G : Given d) (f o : Field) (hc : Claim d f o)
    (hs : d.same f.dtype o.dtype = true) :
    (Annotated d f .repeatConditional →
      (buildMap d).changeOld.lookup f.path = some (some .removeConditional) ∧
      (buildMap d).changeNew.lookup o.path = some (some .repeatConditional)) ∧
    (Annotated d f .centreline →
      (buildMap d).changeOld.lookup f.path = some (some .repeatCentreline) ∧
      (buildMap d).changeNew.lookup o.path = some (some .removeCentreline)) := by
  obtain ⟨ops, tops, I, C⟩ := inv_renames G
  have e1 : (buildMap d).changeOld = (renames d).changeOld := rfl
  have e2 : (buildMap d).changeNew = (renames d).changeNew := rfl
  rw [e1, e2, I.is.changeOld, I.is.changeNew]
  have both : Annotated d f .repeatConditional ∨ Annotated d f .centreline → _ := I.points f hc.1
  have excl : ¬ (Annotated d f .repeatConditional ∧ Annotated d f .centreline) := by
    rintro ⟨⟨a, vs, h1, h2, -⟩, ⟨a', vs', h1', h2', -⟩⟩
    rw [h1] at h1'; cases h1'
    rw [h2] at h2'; cases h2'
  rcases lookup_sync (l := tops) (val := TOp.hOld) (val' := TOp.hNew) (inv_tkeys G I hc) with
    ⟨h, -⟩ | ⟨t, t1, t2, t3, t4, t5⟩
  · constructor
    · intro ha
      obtain ⟨t, ht, e⟩ := both (.inl ha)
      exact absurd e (lookup_none.1 h t ht)
    · intro ha
      obtain ⟨t, ht, e⟩ := both (.inr ha)
      exact absurd e (lookup_none.1 h t ht)
  · rw [t4, t5]
    obtain ⟨f', hf', e3, hs', -⟩ := I.tok t t1
    cases field_once G.new.once hf' hc.1 (e3.trans t2)
    rcases hs' with ⟨o', -, c', h3, -⟩ | ⟨ha, h3, h4⟩ | ⟨ha, h3, h4⟩
    · cases G.claim_same c' hc
      rw [hs] at h3; simp at h3
    · exact ⟨fun _ => ⟨by rw [h3], by rw [h4]⟩, fun hb => absurd ⟨ha, hb⟩ excl⟩
    · exact ⟨fun hb => absurd ⟨hb, ha⟩ excl, fun _ => ⟨by rw [h3], by rw [h4]⟩⟩

/-- C21: fields that the dictionaries identify but whose change of type is not supported are mapped to nothing in both
directions, if their own annotation names the old field or they were not renamed. -/
theorem C21_unsupported {d : Dicts} (G : Given d) (f o : Field) (hc : Claim d f o) (hn : ¬ Fits d o f)
    (hr : Names d f o ∨ ¬ Renamed d f o) :
    (buildMap d).toOld.lookup f.path = some none ∧ (buildMap d).toNew.lookup o.path = some none := by
  obtain ⟨ops, tops, I, C⟩ := inv_renames G
  have key : (renames d).toOld.lookup f.path = some none ∧ (renames d).toNew.lookup o.path = some none := by
    rcases inv_sync G I hc with ⟨h1, -⟩ | ⟨h1, -, -, h2⟩ | ⟨h1, h2, -⟩
    · exact absurd (inv_unmapped I C G hc h1).2.1 hn
    · rcases hr with hr | hr
      · rw [dropped_renames G f hc.1 o hr hn] at h1; cases h1
      · exact absurd h2 hr
    · exact ⟨h1, h2⟩
  constructor
  · rcases build_toOld d f.path with ⟨h, -⟩ | h
    · exact h
    · rw [h, key.1]
  · rcases build_toNew d o.path with ⟨h, -⟩ | h
    · exact h
    · rw [h, key.2]

/-! ### The rule for names and identifiers -/

theorem lookup_addRename_new (p q x : Path) (m : Maps) :
    (addRename p q m).toNew.lookup x = if x = p then some (some q) else m.toNew.lookup x := by
  simp only [addRename, List.lookup_cons]
  by_cases h : x = p
  · simp [h]
  · have : (x == p) = false := by simpa using h
    simp [h, this]

theorem lookup_addRename_old (p q x : Path) (m : Maps) :
    (addRename p q m).toOld.lookup x = if x = q then some (some p) else m.toOld.lookup x := by
  simp only [addRename, List.lookup_cons]
  by_cases h : x = q
  · simp [h]
  · have : (x == q) = false := by simpa using h
    simp [h, this]

/-- A link between two paths that are not linked keeps the maps inverse. -/
theorem addRename_inverse {m : Maps} (h : ∀ q p, m.toOld.lookup q = some (some p) ↔ m.toNew.lookup p = some (some q))
    {p q : Path} (hp : ∀ x, m.toNew.lookup p ≠ some (some x)) (hq : ∀ x, m.toOld.lookup q ≠ some (some x)) :
    ∀ q' p', (addRename p q m).toOld.lookup q' = some (some p') ↔
      (addRename p q m).toNew.lookup p' = some (some q') := by
  intro q' p'
  rw [lookup_addRename_new, lookup_addRename_old]
  by_cases e1 : q' = q <;> by_cases e2 : p' = p
  · simp [e1, e2]
  · simp only [e1, e2, if_true, if_false, Option.some.injEq]
    constructor
    · intro h'; exact absurd h'.symm e2
    · intro h'; exact absurd ((h _ _).2 h') (hq _)
  · simp only [e1, e2, if_true, if_false, Option.some.injEq]
    constructor
    · intro h'; exact absurd ((h _ _).1 h') (hp _)
    · intro h'; exact absurd h'.symm e1
  · simp only [e1, e2, if_false]
    exact h q' p'

/-- What the rule assumes of a parent: the old `name` has no entry, the old `identifier` was removed,
`description` and `name` of the new version are not linked. -/
structure NameReady (m : Maps) (g : Path) : Prop where
  name : m.toNew.lookup (g ++ [nName]) = none
  identifier : m.toNew.lookup (g ++ [nIdentifier]) = some none
  description : ∀ x, m.toOld.lookup (g ++ [nDescription]) ≠ some (some x)
  newName : ∀ x, m.toOld.lookup (g ++ [nName]) ≠ some (some x)

theorem nameRule_one {m : Maps} {g : Path} (h : NameReady m g) :
    nameRule m g = addRename (g ++ [nIdentifier]) (g ++ [nName])
      (addRename (g ++ [nName]) (g ++ [nDescription]) m) := by
  unfold nameRule
  have e : (addRename (g ++ [nName]) (g ++ [nDescription]) m).toNew.lookup (g ++ [nIdentifier]) = some none := by
    rw [lookup_addRename_new, if_neg, h.identifier]
    intro e
    have := List.append_cancel_left e
    simp [nIdentifier, nName] at this
  simp only [h.name, Option.isNone_none, if_true, e, Option.isSome_some]

theorem nameRule_other {m : Maps} {g : Path} (h : NameReady m g) {g' : Path} (hg : g ≠ g') (k : Name) :
    (nameRule m g).toNew.lookup (g' ++ [k]) = m.toNew.lookup (g' ++ [k]) ∧
    (nameRule m g).toOld.lookup (g' ++ [k]) = m.toOld.lookup (g' ++ [k]) := by
  have ne : ∀ k', g' ++ [k] ≠ g ++ [k'] := fun k' e => hg (List.append_inj' e rfl).1.symm
  rw [nameRule_one h]
  simp only [lookup_addRename_new, lookup_addRename_old, ne, if_false, and_self]

theorem nameRules_inverse (l : List Path) (hl : l.Nodup) {m : Maps}
    (h : ∀ q p, m.toOld.lookup q = some (some p) ↔ m.toNew.lookup p = some (some q))
    (hr : ∀ g ∈ l, NameReady m g) :
    (∀ q p, (l.foldl nameRule m).toOld.lookup q = some (some p) ↔
      (l.foldl nameRule m).toNew.lookup p = some (some q)) ∧
    (∀ g ∈ l, (l.foldl nameRule m).toNew.lookup (g ++ [nName]) = some (some (g ++ [nDescription])) ∧
      (l.foldl nameRule m).toNew.lookup (g ++ [nIdentifier]) = some (some (g ++ [nName]))) ∧
    ∀ g, g ∉ l → ∀ k, (l.foldl nameRule m).toNew.lookup (g ++ [k]) = m.toNew.lookup (g ++ [k]) ∧
      (l.foldl nameRule m).toOld.lookup (g ++ [k]) = m.toOld.lookup (g ++ [k]) := by
  induction l generalizing m with
  | nil => exact ⟨h, by simp, by simp⟩
  | cons g l ih =>
    rw [List.nodup_cons] at hl
    have hg := hr g (by simp)
    have nd : ∀ k k' : Name, k ≠ k' → g ++ [k] ≠ g ++ [k'] := fun k k' hk e => hk (by simpa using e)
    have e1 : nIdentifier ≠ nName := by decide
    have e2 : nName ≠ nDescription := by decide
    have h1 : ∀ q p, (nameRule m g).toOld.lookup q = some (some p) ↔
        (nameRule m g).toNew.lookup p = some (some q) := by
      rw [nameRule_one hg]
      apply addRename_inverse
      · apply addRename_inverse h
        · intro x; rw [hg.name]; simp
        · exact hg.description
      · intro x
        rw [lookup_addRename_new, if_neg (nd _ _ e1), hg.identifier]
        simp
      · intro x
        rw [lookup_addRename_old, if_neg (nd _ _ e2)]
        exact hg.newName x
    have h2 : ∀ g' ∈ l, NameReady (nameRule m g) g' := by
      intro g' hg'
      have hne : g ≠ g' := fun e => hl.1 (by rw [e]; exact hg')
      have r := hr g' (by simp [hg'])
      constructor
      · rw [(nameRule_other hg hne _).1]; exact r.name
      · rw [(nameRule_other hg hne _).1]; exact r.identifier
      · intro x; rw [(nameRule_other hg hne _).2]; exact r.description x
      · intro x; rw [(nameRule_other hg hne _).2]; exact r.newName x
    obtain ⟨i1, i2, i3⟩ := ih hl.2 h1 h2
    refine ⟨i1, ?_, ?_⟩
    · intro g' hg'
      rcases List.mem_cons.1 hg' with rfl | hg'
      · rw [List.foldl_cons, (i3 g' hl.1 _).1, (i3 g' hl.1 _).1, nameRule_one hg]
        simp only [lookup_addRename_new]
        refine ⟨?_, by simp⟩
        rw [if_neg (nd _ _ e1.symm)]
        simp
      · exact i2 g' hg'
    · intro g' hg' k
      simp only [List.mem_cons, not_or] at hg'
      rw [List.foldl_cons, (i3 g' hg'.2 k).1, (i3 g' hg'.2 k).2]
      exact nameRule_other hg (fun e => hg'.1 e.symm) k

theorem nameParent_path {d : Dicts} {f : Field} {g : Path} (h : nameParent d f = some g) :
    f.path = g ++ [nName] := by
  unfold nameParent at h
  split at h
  · simp at h
  · next n hn =>
    simp only at h
    split at h
    · next hc =>
      simp only [Bool.and_eq_true, decide_eq_true_eq] at hc
      obtain ⟨⟨⟨⟨⟨rfl, -⟩, -⟩, -⟩, -⟩, -⟩ := hc
      cases h
      obtain ⟨l, hl⟩ := List.getLast?_eq_some_iff.1 hn
      rw [hl, List.dropLast_concat]
    · simp at h

/-- The parents are different: every path occurs once. -/
theorem nameParents_nodup {d : Dicts} (l : List Field) (h : (l.map (·.path)).Nodup) :
    (l.filterMap (nameParent d)).Nodup := by
  induction l with
  | nil => simp
  | cons f l ih =>
    rw [List.map_cons, List.nodup_cons] at h
    cases hf : nameParent d f with
    | none => rw [List.filterMap_cons_none hf]; exact ih h.2
    | some g =>
      rw [List.filterMap_cons_some hf, List.nodup_cons]
      refine ⟨?_, ih h.2⟩
      intro hm
      obtain ⟨f', hf', e⟩ := List.mem_filterMap.1 hm
      exact h.1 (List.mem_map.2 ⟨f', hf', by rw [nameParent_path e, nameParent_path hf]⟩)

/-- C21: the rule for DD3 to DD4 that makes descriptions of names and names of identifiers keeps the
maps inverse, where the identifiers were removed, the names have no entry and the descriptions are
not linked. -/
theorem C21_name_rule {d : Dicts} (G : Given d)
    (hr : ∀ f ∈ d.old, ∀ g, nameParent d f = some g → NameReady (buildMap d) g) :
    (∀ q p, (nameRules d (buildMap d)).toOld.lookup q = some (some p) ↔
      (nameRules d (buildMap d)).toNew.lookup p = some (some q)) ∧
    ∀ f ∈ d.old, ∀ g, nameParent d f = some g →
      (nameRules d (buildMap d)).toNew.lookup (g ++ [nName]) = some (some (g ++ [nDescription])) ∧
      (nameRules d (buildMap d)).toNew.lookup (g ++ [nIdentifier]) = some (some (g ++ [nName])) := by
  obtain ⟨h1, h2, -⟩ := nameRules_inverse (d.old.filterMap (nameParent d))
    (nameParents_nodup d.old G.old.once) (m := buildMap d) (fun q p => C21_inverse G q p) (by
      intro g hg
      obtain ⟨f, hf, e⟩ := List.mem_filterMap.1 hg
      exact hr f hf g e)
  exact ⟨h1, fun f hf g e => h2 g (List.mem_filterMap.2 ⟨f, hf, e⟩)⟩

/-! ### A concrete case -/

def vmField (path : Path) (dtype : List Char) (nbc : Option Nbc := none) : Field where
  path := path
  dtype := dtype
  docId := false
  nbc := nbc

def vmRename (k : Name) : Option Nbc := some ⟨.renamed, some [40], [[k]]⟩

def nGlobal : Name := ['g']
def nGlobals : Name := ['g', 's']
def nIp : Name := ['i', 'p']
def nCurrent : Name := ['i']
def nOutline : Name := ['o', 'u', 't']
def nR : Name := ['r']
def nCoil : Name := ['c']
def nTurns : Name := ['t']
def nGone : Name := ['g', 'o', 'n', 'e']
def nAdded : Name := ['n', 'e', 'w']
def tStruct : List Char := ['s', 't', 'r', 'u', 'c', 't', 'u', 'r', 'e']
def tArray : List Char := ['s', 't', 'r', 'u', 'c', 't', '_', 'a', 'r', 'r', 'a', 'y']
def tFlt : List Char := ['F', 'L', 'T', '_', '0', 'D']
def tInt : List Char := ['I', 'N', 'T', '_', '0', 'D']
def tFlt1 : List Char := ['F', 'L', 'T', '_', '1', 'D']
def tStr : List Char := ['S', 'T', 'R', '_', '0', 'D']

/-- A renamed structure with a renamed child, an outline, a changed type, a removed and an added
field. -/
def sampleDicts : Dicts where
  version := 38
  same a b := a = b
  old := [vmField [nGlobal] tStruct, vmField [nGlobal, nIp] tFlt, vmField [nGlobal, nR] tFlt,
    vmField [nOutline] tStruct, vmField [nOutline, nR] tFlt1, vmField [nCoil] tArray,
    vmField [nCoil, nTurns] tInt, vmField [nGone] tFlt, vmField [nCoil, nGone] tStr]
  new := [vmField [nGlobals] tStruct (vmRename nGlobal), vmField [nGlobals, nCurrent] tFlt (vmRename nIp),
    vmField [nGlobals, nR] tFlt, vmField [nOutline] tStruct (some ⟨.repeatConditional, some [40], []⟩),
    vmField [nOutline, nR] tFlt1, vmField [nCoil] tArray, vmField [nCoil, nTurns] tFlt,
    vmField [nAdded] tStruct, vmField [nAdded, nR] tFlt, vmField [nCoil, nGone] tInt]

theorem sample_given : Given sampleDicts := given_of_check (by decide +kernel)

example : (buildMap sampleDicts).toOld.lookup [nGlobals, nCurrent] = some (some [nGlobal, nIp]) := by decide +kernel
example : (buildMap sampleDicts).toNew.lookup [nGlobal, nIp] = some (some [nGlobals, nCurrent]) :=
  (C21_inverse sample_given _ _).1 (by decide +kernel)
example : (buildMap sampleDicts).toOld.lookup [nGlobals, nR] = some (some [nGlobal, nR]) := by decide +kernel
example : (buildMap sampleDicts).toOld.lookup [nAdded] = some none := by decide +kernel
example : (buildMap sampleDicts).toOld.lookup [nAdded, nR] = none := by decide +kernel
example : (buildMap sampleDicts).toNew.lookup [nGone] = some none := by decide +kernel
example : (buildMap sampleDicts).toOld.lookup [nCoil, nGone] = some none := by decide +kernel
example : (buildMap sampleDicts).changeOld.lookup [nCoil, nTurns] = some (some .fltInt) := by decide +kernel
example : (buildMap sampleDicts).changeNew.lookup [nOutline] = some (some .repeatConditional) := by decide +kernel

theorem sample_names : Names sampleDicts (vmField [nGlobals, nCurrent] tFlt (vmRename nIp))
    (vmField [nGlobal, nIp] tFlt) := by
  refine ⟨by simp [sampleDicts], by simp [sampleDicts], [nGlobals], nCurrent, [nIp], [nGlobal], rfl, ?_, ?_, rfl⟩
  · refine Was.renamed (q := []) (p := []) (f := vmField [nGlobals] tStruct (vmRename nGlobal))
      (o := vmField [nGlobal] tStruct) .root (by simp [sampleDicts]) rfl ?_ (by simp [sampleDicts]) rfl (.inl rfl)
    exact formerly_def.2 ⟨⟨.renamed, some [40], [[nGlobal]]⟩, [40], rfl, rfl, rfl, rfl, rfl⟩
  · exact formerly_def.2 ⟨⟨.renamed, some [40], [[nIp]]⟩, [40], rfl, rfl, rfl, rfl, rfl⟩

example : (buildMap sampleDicts).toOld.lookup [nGlobals, nCurrent] = some (some [nGlobal, nIp]) ∧
    (buildMap sampleDicts).toNew.lookup [nGlobal, nIp] = some (some [nGlobals, nCurrent]) := by
  rcases C21_found sample_given _ _ (names_claim sample_names) (.inl rfl) with h | ⟨h, -⟩
  · exact h
  · exact absurd h (by decide +kernel)

/-- The added structure meets the assumptions of `C21_added`. -/
example : (buildMap sampleDicts).toOld.lookup [nAdded] = some none := by
  refine C21_added sample_given (vmField [nAdded] tStruct) (by simp [sampleDicts]) ?_ ?_ ?_ ?_
  · intro o c
    have h1 := claim_claimB sample_given.old sample_given.new c
    have h2 : ∀ o ∈ sampleDicts.old, claimB sampleDicts (vmField [nAdded] tStruct) o = false := by decide +kernel
    rw [h2 o c.2.1] at h1
    simp at h1
  · rintro ⟨o, ho, e⟩
    have h2 : ∀ o ∈ sampleDicts.old, o.path ≠ [nAdded] := by decide +kernel
    exact h2 o ho e
  · intro a r hr e
    have : a = [] := by
      cases a with
      | nil => rfl
      | cons x a =>
        have := congrArg List.length e
        have hr := List.length_pos_iff.2 hr
        simp only [vmField, List.length_append, List.length_cons, List.length_nil] at this
        omega
    subst this
    decide +kernel
  · intro f hf r hr e
    have h2 : ∀ f ∈ sampleDicts.new, [nAdded].isPrefixOf f.path = true → f.path ≠ [nAdded] →
        (buildMap sampleDicts).toOld.lookup f.path = none := by decide +kernel
    refine .inl (h2 f hf (List.isPrefixOf_iff_prefix.2 ⟨r, e.symm⟩) (fun e' => hr ?_))
    rw [e'] at e
    exact (List.append_cancel_left (e.symm.trans (List.append_nil _).symm))

theorem sample_level : Level sampleDicts :=
  level_of_check sample_given.old sample_given.new (by decide +kernel)

/-- A field without entry that keeps its path, and one below an added structure. -/
example : (∃ o ∈ sampleDicts.old, o.path = [nCoil, nTurns] ∧ Fits sampleDicts o (vmField [nCoil, nTurns] tFlt) ∧
    (buildMap sampleDicts).toNew.lookup [nCoil, nTurns] = none) := by
  rcases C21_unmapped_level sample_given sample_level (vmField [nCoil, nTurns] tFlt) (by simp [sampleDicts])
    (by decide +kernel) with h | ⟨h, -⟩
  · exact h
  · refine absurd ?_ (h (vmField [nCoil, nTurns] tInt))
    exact (claim_iff sample_given.old sample_given.new (by simp [sampleDicts]) (by simp [sampleDicts])).2
      (by decide +kernel)

/-! ### Nodes that moved to another structure -/

def nPos : Name := ['p']
def nData : Name := ['d']
def nSig : Name := ['s']

/-- `p/r/d` became `p/r`, and `s/c` became `c`, as in real dictionaries. -/
def movedDicts : Dicts where
  version := 38
  same a b := a = b
  old := [vmField [nPos] tStruct, vmField [nPos, nR] tStruct, vmField [nPos, nR, nData] tFlt,
    vmField [nSig] tStruct, vmField [nSig, nCoil] tStruct, vmField [nSig, nCoil, nTurns] tInt]
  new := [vmField [nPos] tStruct, vmField [nPos, nR] tFlt (some ⟨.renamed, some [40], [[nR, nData]]⟩),
    vmField [nCoil] tStruct (some ⟨.renamed, some [40], [[nSig, nCoil]]⟩), vmField [nCoil, nTurns] tInt]

theorem moved_given : Given movedDicts := given_of_check (by decide +kernel)

example : ¬ levelB movedDicts := by decide +kernel
example : (buildMap movedDicts).toOld.lookup [nPos, nR] = some (some [nPos, nR, nData]) :=
  (C21_inverse moved_given _ _).2 (by decide +kernel)
example : (buildMap movedDicts).toOld.lookup [nCoil, nTurns] = some (some [nSig, nCoil, nTurns]) := by decide +kernel
example : Was movedDicts [nCoil, nTurns] [nSig, nCoil, nTurns] :=
  (C21_linked moved_given _ _ (by decide +kernel)).1

/-- The old structures around moved nodes have no entry: the conversion descends into them. -/
example : (buildMap movedDicts).toNew.lookup [nSig] = none ∧ ∀ f, ¬ Claim movedDicts f (vmField [nSig] tStruct) := by
  have h : (buildMap movedDicts).toNew.lookup [nSig] = none := by decide +kernel
  refine ⟨h, ?_⟩
  rcases C21_unmapped_old moved_given (vmField [nSig] tStruct) (by simp [movedDicts]) h with ⟨f, h1, h2, -⟩ | ⟨h1, -⟩
  · have h3 : ∀ f ∈ movedDicts.new, f.path ≠ [nSig] := by decide +kernel
    exact absurd h2 (h3 f h1)
  · exact h1

/-- A renamed field in a renamed structure, with an unsupported change of type. -/
def dropDicts : Dicts where
  version := 38
  same a b := a = b
  old := [vmField [['a']] tStruct, vmField [['a'], nR] tFlt]
  new := [vmField [['b']] tStruct (vmRename ['a']), vmField [['b'], nCurrent] tStr (vmRename nR)]

theorem drop_given : Given dropDicts := given_of_check (by decide +kernel)

theorem drop_names : Names dropDicts (vmField [['b'], nCurrent] tStr (vmRename nR)) (vmField [['a'], nR] tFlt) := by
  refine ⟨by simp [dropDicts], by simp [dropDicts], [['b']], nCurrent, [nR], [['a']], rfl, ?_, ?_, rfl⟩
  · refine Was.renamed (q := []) (p := []) (f := vmField [['b']] tStruct (vmRename ['a']))
      (o := vmField [['a']] tStruct) .root (by simp [dropDicts]) rfl ?_ (by simp [dropDicts]) rfl (.inl rfl)
    exact formerly_def.2 ⟨⟨.renamed, some [40], [[['a']]]⟩, [40], rfl, rfl, rfl, rfl, rfl⟩
  · exact formerly_def.2 ⟨⟨.renamed, some [40], [[nR]]⟩, [40], rfl, rfl, rfl, rfl, rfl⟩

example : (buildMap dropDicts).toOld.lookup [['b'], nCurrent] = some none ∧
    (buildMap dropDicts).toNew.lookup [['a'], nR] = some none :=
  C21_unsupported drop_given _ _ (names_claim drop_names) (by rw [fits_iff]; decide +kernel) (.inl drop_names)

/-- Dictionaries to which the rule for names applies. -/
def nameDicts : Dicts where
  version := 38
  same a b := a = b
  old := [vmField [nCoil] tArray, vmField [nCoil, nName] tStr, vmField [nCoil, nIdentifier] tStr]
  new := [vmField [nCoil] tArray, vmField [nCoil, nName] tStr, vmField [nCoil, nDescription] tStr]

theorem name_given : Given nameDicts := given_of_check (by decide +kernel)

theorem name_ready : ∀ f ∈ nameDicts.old, ∀ g, nameParent nameDicts f = some g →
    NameReady (buildMap nameDicts) g := by
  have h : ∀ f ∈ nameDicts.old, nameParent nameDicts f = none ∨ nameParent nameDicts f = some [nCoil] := by
    decide +kernel
  intro f hf g e
  rcases h f hf with h | h
  · rw [h] at e; simp at e
  · rw [h] at e; cases e
    have hd : (buildMap nameDicts).toOld.lookup ([nCoil] ++ [nDescription]) = some none := by decide +kernel
    have hn : (buildMap nameDicts).toOld.lookup ([nCoil] ++ [nName]) = none := by decide +kernel
    exact ⟨by decide +kernel, by decide +kernel, fun x => by rw [hd]; simp, fun x => by rw [hn]; simp⟩

example : (nameRules nameDicts (buildMap nameDicts)).toNew.lookup [nCoil, nIdentifier] =
    some (some [nCoil, nName]) :=
  ((C21_name_rule name_given name_ready).2 _ (.tail _ (.head _)) [nCoil] (by decide +kernel)).2

/-! ### Limits -/

/-- The code compares texts: if siblings of a renamed structure have names that start with its name,
they are taken for its children. Here `c` was renamed to `g`, and the map links `cx` to the unrelated
new field `gx`. -/
def prefixDicts : Dicts where
  version := 38
  same a b := a = b
  old := [vmField [['c']] tStruct, vmField [['c'], nR] tFlt, vmField [['c', 'x']] tFlt]
  new := [vmField [['g']] tStruct (vmRename ['c']), vmField [['g'], nR] tFlt, vmField [['g', 'x']] tFlt]

theorem C21_prefix_limit :
    (buildMap prefixDicts).toNew.lookup [['c', 'x']] = some (some [['g', 'x']]) ∧
    ∀ f o, Claim prefixDicts f o → f.path = [['g', 'x']] → o.path ≠ [['c', 'x']] := by
  refine ⟨by decide +kernel, fun f o c e e' => ?_⟩
  have h1 := claim_claimB (wellFormed_of_check (by decide +kernel)) (wellFormed_of_check (by decide +kernel)) c
  have h2 : ∀ f ∈ prefixDicts.new, f.path = [['g', 'x']] → ∀ o ∈ prefixDicts.old, o.path = [['c', 'x']] →
      claimB prefixDicts f o = false := by decide +kernel
  rw [h2 f c.1 e o c.2.1 e'] at h1
  simp at h1

/-- If a new field takes the name of another old field, two old fields have the same new path: `a` is
mapped to `b`, and `b` is not mapped, so it keeps its path although the dictionaries do not identify it with a new
field. -/
def reuseDicts : Dicts where
  version := 38
  same a b := a = b
  old := [vmField [['a']] tFlt, vmField [['b']] tFlt]
  new := [vmField [['b']] tFlt (vmRename ['a'])]

theorem C21_reuse_limit : Given reuseDicts ∧
    (buildMap reuseDicts).toNew.lookup [['a']] = some (some [['b']]) ∧
    (buildMap reuseDicts).toNew.lookup [['b']] = none ∧ Has reuseDicts.new [['b']] ∧
    ∀ f, ¬ Claim reuseDicts f (vmField [['b']] tFlt) := by
  refine ⟨given_of_check (by decide +kernel), by decide +kernel, by decide +kernel, ⟨_, .head _, rfl⟩, fun f c => ?_⟩
  have h1 := claim_claimB (wellFormed_of_check (by decide +kernel)) (wellFormed_of_check (by decide +kernel)) c
  have h2 : ∀ f ∈ reuseDicts.new, claimB reuseDicts f (vmField [['b']] tFlt) = false := by decide +kernel
  rw [h2 f c.1] at h1
  simp at h1

/-- If the old version already has a `description`, or the new one still has an `identifier`, the
rule for names gives two old fields the same new path. -/
def nameDicts2 : Dicts where
  version := 38
  same a b := a = b
  old := [vmField [nCoil] tArray, vmField [nCoil, nName] tStr, vmField [nCoil, nIdentifier] tStr,
    vmField [nCoil, nDescription] tStr]
  new := [vmField [nCoil] tArray, vmField [nCoil, nName] tStr, vmField [nCoil, nDescription] tStr]

theorem C21_name_rule_limit : Given nameDicts2 ∧
    (nameRules nameDicts2 (buildMap nameDicts2)).toNew.lookup [nCoil, nName] = some (some [nCoil, nDescription]) ∧
    (nameRules nameDicts2 (buildMap nameDicts2)).toNew.lookup [nCoil, nDescription] = none ∧
    Has nameDicts2.new [nCoil, nDescription] :=
  ⟨given_of_check (by decide +kernel), by decide +kernel, by decide +kernel,
    ⟨_, .tail _ (.tail _ (.head _)), rfl⟩⟩

/-- If two new fields were the same old field, the two maps are not inverse. -/
def splitDicts : Dicts where
  version := 38
  same a b := a = b
  old := [vmField [['a']] tFlt]
  new := [vmField [['b']] tFlt (vmRename ['a']), vmField [['c']] tFlt (vmRename ['a'])]

theorem C21_split_limit :
    (buildMap splitDicts).toOld.lookup [['b']] = some (some [['a']]) ∧
    (buildMap splitDicts).toNew.lookup [['a']] = some (some [['c']]) := by decide +kernel

/-- The types of the children of a renamed structure are not checked: they are mapped to each other
without recording a type change, even if the change is unsupported. -/
def childDicts : Dicts where
  version := 38
  same a b := a = b
  old := [vmField [['a']] tStruct, vmField [['a'], nR] tFlt]
  new := [vmField [['b']] tStruct (vmRename ['a']), vmField [['b'], nR] tStr]

theorem C21_child_limit : Given childDicts ∧
    (buildMap childDicts).toOld.lookup [['b'], nR] = some (some [['a'], nR]) ∧
    (buildMap childDicts).changeOld.lookup [['b'], nR] = none ∧
    ¬ Fits childDicts (vmField [['a'], nR] tFlt) (vmField [['b'], nR] tStr) := by
  refine ⟨given_of_check (by decide +kernel), by decide +kernel, by decide +kernel, ?_⟩
  rw [fits_iff]
  decide +kernel

end Verif.Props
