import Verif.Lemmas.ConvertNames
import Verif.Spec.ConvertNames
import Verif.Props.VersionMap
/-
The map between major versions 3 and 4.
-/
set_option linter.unusedSectionVars false
namespace Verif.Convert.Ruled
open Verif.Ids Verif.TreeSpec Verif.ConvertSpec
open Verif.VMap hiding Path Nbc metaAt_append
open Verif.VMapSpec hiding OneToOne
open Verif.Props Verif.Convert

variable {V : Type} [Value V] {d : Dicts}

theorem has_iff {l : List Field} {p : VMap.Path} : (field? l p).isSome = true ↔ Has l p := by
  constructor
  · intro h
    obtain ⟨f, hf⟩ := Option.isSome_iff_exists.1 h
    exact ⟨f, (field?_some hf).1, (field?_some hf).2⟩
  · rintro ⟨f, hf, e⟩
    cases h : field? l p with
    | some _ => rfl
    | none => exact absurd e (field?_none h f hf)

theorem mem_parents {g : VMap.Path} : g ∈ d.old.filterMap (nameParent d) ↔ Described d g := by
  constructor
  · intro h
    obtain ⟨f, hf, e⟩ := List.mem_filterMap.1 h
    have hp := nameParent_path e
    unfold nameParent at e
    rw [hp, List.getLast?_concat, List.dropLast_concat] at e
    simp only at e
    split at e
    · next hc =>
      simp only [Bool.and_eq_true, decide_eq_true_eq] at hc
      obtain ⟨⟨⟨⟨⟨-, h1⟩, h2⟩, h3⟩, h4⟩, h5⟩ := hc
      refine ⟨h1, ⟨f, hf, hp⟩, has_iff.1 h2, fun h => ?_, has_iff.1 h5, has_iff.1 h4⟩
      rw [← has_iff] at h
      rw [Option.isNone_iff_eq_none] at h3
      exact absurd h (by simp only [wIndex]; rw [show (['i','n','d','e','x'] : Name) = nIndex from rfl, h3]; simp)
    · cases e
  · rintro ⟨h1, ⟨f, hf, hp⟩, h2, h3, h4, h5⟩
    refine List.mem_filterMap.2 ⟨f, hf, ?_⟩
    unfold nameParent
    rw [hp, List.getLast?_concat, List.dropLast_concat]
    simp only
    rw [if_pos]
    simp only [Bool.and_eq_true, decide_eq_true_eq]
    refine ⟨⟨⟨⟨⟨rfl, h1⟩, has_iff.2 h2⟩, ?_⟩, has_iff.2 h5⟩, has_iff.2 h4⟩
    cases h : field? d.old (g ++ [nIndex]) with
    | none => rfl
    | some x => exact absurd (has_iff.1 (by rw [show g ++ [wIndex] = g ++ [nIndex] from rfl, h]; rfl)) h3

theorem rules_lookup (l : List VMap.Path) (hl : l.Nodup) {m : Maps} (hr : ∀ g ∈ l, NameReady m g) :
    (∀ g ∈ l, (l.foldl nameRule m).toNew.lookup (g ++ [nName]) = some (some (g ++ [nDescription])) ∧
      (l.foldl nameRule m).toNew.lookup (g ++ [nIdentifier]) = some (some (g ++ [nName])) ∧
      (l.foldl nameRule m).toOld.lookup (g ++ [nDescription]) = some (some (g ++ [nName])) ∧
      (l.foldl nameRule m).toOld.lookup (g ++ [nName]) = some (some (g ++ [nIdentifier]))) ∧
    (∀ p, (∀ g ∈ l, p ≠ g ++ [nName] ∧ p ≠ g ++ [nIdentifier]) →
      (l.foldl nameRule m).toNew.lookup p = m.toNew.lookup p) ∧
    (∀ p, (∀ g ∈ l, p ≠ g ++ [nName] ∧ p ≠ g ++ [nDescription]) →
      (l.foldl nameRule m).toOld.lookup p = m.toOld.lookup p) := by
  induction l generalizing m with
  | nil => exact ⟨by simp, by simp, by simp⟩
  | cons g l ih =>
    rw [List.nodup_cons] at hl
    have hg := hr g (by simp)
    have e1 : nIdentifier ≠ nName := by decide
    have e2 : nName ≠ nDescription := by decide
    have nd : ∀ k k' : Name, k ≠ k' → g ++ [k] ≠ g ++ [k'] := fun k k' hk e => hk (by simpa using e)
    have h2 : ∀ g' ∈ l, NameReady (nameRule m g) g' := by
      intro g' hg'
      have hne : g ≠ g' := fun e => hl.1 (by rw [e]; exact hg')
      have r := hr g' (by simp [hg'])
      constructor
      · rw [(nameRule_other hg hne _).1]; exact r.name
      · rw [(nameRule_other hg hne _).1]; exact r.identifier
      · intro x; rw [(nameRule_other hg hne _).2]; exact r.description x
      · intro x; rw [(nameRule_other hg hne _).2]; exact r.newName x
    obtain ⟨i1, i2, i3⟩ := ih hl.2 h2
    have ne : ∀ k k' : Name, ∀ g' ∈ l, g ++ [k] ≠ g' ++ [k'] := by
      intro k k' g' hg' e
      exact hl.1 ((Swap.snoc_inj e).1 ▸ hg')
    refine ⟨?_, ?_, ?_⟩
    · intro g' hg'
      rcases List.mem_cons.1 hg' with rfl | hg'
      · rw [List.foldl_cons, i2 _ fun g'' h => ⟨ne _ _ _ h, ne _ _ _ h⟩, i2 _ fun g'' h => ⟨ne _ _ _ h, ne _ _ _ h⟩,
          i3 _ fun g'' h => ⟨ne _ _ _ h, ne _ _ _ h⟩, i3 _ fun g'' h => ⟨ne _ _ _ h, ne _ _ _ h⟩, nameRule_one hg]
        simp only [lookup_addRename_new, lookup_addRename_old]
        refine ⟨?_, by simp, ?_, by simp⟩
        · rw [if_neg (nd _ _ e1.symm)]; simp
        · rw [if_neg (nd _ _ e2.symm)]; simp
      · exact i1 g' hg'
    · intro p hp
      rw [List.foldl_cons, i2 p fun g' h => hp g' (.tail _ h), nameRule_one hg]
      simp only [lookup_addRename_new]
      rw [if_neg (hp g (.head _)).2, if_neg (hp g (.head _)).1]
    · intro p hp
      rw [List.foldl_cons, i3 p fun g' h => hp g' (.tail _ h), nameRule_one hg]
      simp only [lookup_addRename_old]
      rw [if_neg (hp g (.head _)).1, if_neg (hp g (.head _)).2]

/-! ### What the rule meets -/

theorem not_below {l : List Field} (w : WellFormed l) {g : Field} (hg : g ∈ l) (hc : ¬ Container g.dtype) {f : Field}
    (hf : f ∈ l) {r : VMap.Path} (e : f.path = g.path ++ r) : r = [] := by
  apply Classical.byContradiction
  intro hr
  match r, hr with
  | n :: r, _ =>
    obtain ⟨f', hf', e'⟩ := wf_prefix w r (p := g.path ++ [n]) (by simp) ⟨f, hf, by rw [e]; simp⟩
    exact hc (w.struct f' hf' g.path n e' g hg rfl)

theorem name_claim (N : Nested d) {g : VMap.Path} (h : Described d g) :
    ∃ f o, Claim d f o ∧ f.path = g ++ [wName] ∧ o.path = g ++ [wName] := by
  obtain ⟨o, ho, e⟩ := h.name
  obtain ⟨f, hf, e'⟩ := h.newName
  exact ⟨f, o, N.reuse f hf o ho (e'.trans e.symm), e', e⟩

/-- Structures around described structures are mapped to something. -/
theorem around_open (G : Given d) (N : Nested d) (T : Silent d) {g a r : VMap.Path} {n : Name} (h : Described d g)
    (ha : a ≠ []) (hr : r ≠ []) (e : g ++ [n] = a ++ r) :
    (buildMap d).toNew.lookup a ≠ some none ∧ (buildMap d).toOld.lookup a ≠ some none := by
  obtain ⟨f, o, hc, h1, h2⟩ := name_claim N h
  obtain ⟨r', k, rfl⟩ := snoc_of_ne hr
  rw [← List.append_assoc] at e
  obtain ⟨e, -⟩ := Swap.snoc_inj e
  obtain ⟨f', o', h3, h4, h5⟩ := G.claim_level hc (h1.trans h2.symm) ha (show f.path = a ++ (r' ++ [wName]) by rw [h1, e]; simp)
  have hfit := T.around g h f' o' h3 ⟨r', by rw [h5, ← e]⟩
  constructor
  · intro hm
    obtain ⟨o1, ho1, e1, h6⟩ := C21_nothing_old G a hm
    cases field_once G.old.once ho1 h3.2.1 (e1.trans h5.symm)
    exact h6 f' h3 hfit
  · intro hm
    obtain ⟨f1, hf1, e1, h6⟩ := C21_nothing G a hm
    cases field_once G.new.once hf1 h3.1 (e1.trans h4.symm)
    exact h6 o' h3 hfit

theorem identifier_gone (G : Given d) (N : Nested d) (T : Silent d) {g : VMap.Path} (h : Described d g) :
    (buildMap d).toNew.lookup (g ++ [wIdentifier]) = some none := by
  obtain ⟨o, ho, e⟩ := h.identifier
  cases hm : (buildMap d).toNew.lookup (g ++ [wIdentifier]) with
  | none =>
    exfalso
    rw [← e] at hm
    rcases C21_unmapped_old G o ho hm with ⟨f, -, -, hc, -⟩ | ⟨h1, ⟨-, a, r, hr, e1, h2⟩ | ⟨-, f, o', r, hr, hc, e1, -⟩ | ⟨f, o', hf, e1, -⟩⟩
    · exact (T.removed g h f o hc).1 e
    · refine (around_open G N T h ?_ hr (e.symm.trans e1)).1 h2
      obtain ⟨o1, ho1, e2, -⟩ := C21_nothing_old G a h2
      rw [← e2]
      exact (G.old.names o1 ho1).1
    · exact hr (not_below G.old ho (T.dataOld g h o ho (.inr e)) hc.2.1 e1)
    · exact h1 f (N.reuse f hf o ho e1)
  | some x =>
    cases x with
    | none => rfl
    | some q =>
      obtain ⟨-, f, o', h3, -, h5, -⟩ := C21_linked G _ _ ((C21_inverse G q _).2 hm)
      exact absurd h5 (T.removed g h f o' h3).1

theorem description_gone (G : Given d) (N : Nested d) (T : Silent d) {g : VMap.Path} (h : Described d g) :
    (buildMap d).toOld.lookup (g ++ [wDescription]) = some none := by
  obtain ⟨f, hf, e⟩ := h.description
  cases hm : (buildMap d).toOld.lookup (g ++ [wDescription]) with
  | none =>
    exfalso
    rw [← e] at hm
    rcases C21_unmapped G f hf hm with ⟨o, -, -, hc, -⟩ | ⟨h1, ⟨-, a, r, hr, e1, h2⟩ | ⟨-, f', o, r, hr, hc, e1, -⟩ | ⟨f', o, ho, e1, -⟩⟩
    · exact (T.removed g h f o hc).2 e
    · refine (around_open G N T h ?_ hr (e.symm.trans e1)).2 h2
      obtain ⟨o1, ho1, e2, -⟩ := C21_nothing G a h2
      rw [← e2]
      exact (G.new.names o1 ho1).1
    · exact hr (not_below G.new hf (T.dataNew g h f hf (.inr e)) hc.1 e1)
    · exact h1 o (N.reuse f hf o ho e1.symm)
  | some x =>
    cases x with
    | none => rfl
    | some q =>
      obtain ⟨-, f', o', h3, h4, -⟩ := C21_linked G _ _ hm
      exact absurd h4 (T.removed g h f' o' h3).2

theorem name_open (G : Given d) (N : Nested d) (T : Silent d) {g : VMap.Path} (h : Described d g) :
    (buildMap d).toNew.lookup (g ++ [wName]) = none ∧ (buildMap d).toOld.lookup (g ++ [wName]) = none := by
  obtain ⟨f, o, hc, h1, h2⟩ := name_claim N h
  obtain ⟨h3, h4⟩ := T.kept g h f o hc h1 h2
  have hfit : Fits d o f := by
    left
    cases hs : d.same f.dtype o.dtype with
    | true => rfl
    | false => exact absurd (.inl hs) h4
  constructor
  · cases hm : (buildMap d).toNew.lookup (g ++ [wName]) with
    | none => rfl
    | some x =>
      cases x with
      | none =>
        obtain ⟨o', ho', e, h5⟩ := C21_nothing_old G _ hm
        cases field_once G.old.once ho' hc.2.1 (e.trans h2.symm)
        exact absurd hfit (h5 f hc)
      | some q =>
        obtain ⟨-, f', o', h5, h6, h7, h8⟩ := C21_linked G _ _ ((C21_inverse G q _).2 hm)
        cases field_once G.old.once h5.2.1 hc.2.1 (h7.trans h2.symm)
        exact absurd h8 (h3.2.2 f' h5.1)
  · cases hm : (buildMap d).toOld.lookup (g ++ [wName]) with
    | none => rfl
    | some x =>
      cases x with
      | none =>
        obtain ⟨f', hf', e, h5⟩ := C21_nothing G _ hm
        cases field_once G.new.once hf' hc.1 (e.trans h1.symm)
        exact absurd hfit (h5 o hc)
      | some q =>
        obtain ⟨-, f', o', h5, h6, h7, h8⟩ := C21_linked G _ _ hm
        cases field_once G.new.once h5.1 hc.1 (h6.trans h1.symm)
        exact absurd h8 (h3.2.1 o' h5.2.1)

theorem ready (G : Given d) (N : Nested d) (T : Silent d) {g : VMap.Path} (h : Described d g) :
    NameReady (buildMap d) g where
  name := (name_open G N T h).1
  identifier := identifier_gone G N T h
  description x := by
    have := description_gone G N T h
    rw [show (g ++ [wDescription] : VMap.Path) = g ++ [nDescription] from rfl] at this
    rw [this]; simp
  newName x := by
    have := (name_open G N T h).2
    rw [show (g ++ [wName] : VMap.Path) = g ++ [nName] from rfl] at this
    rw [this]; simp

theorem source_lookup (m : Maps) (p : VMap.Path) :
    (sourceRule m).toNew.lookup p = if p = nSource then some (some nProvenance) else m.toNew.lookup p := by
  simp only [sourceRule, List.lookup_cons]
  by_cases h : p = nSource
  · simp [h]
  · have : (p == nSource) = false := by simpa using h
    simp [h, this]

theorem not_source (g : VMap.Path) {n : Name} (h : n = nName ∨ n = nIdentifier ∨ n = nDescription) : g ++ [n] ≠ nSource := by
  intro e
  have e' : nSource = ["ids_properties".toList] ++ ["source".toList] := rfl
  rw [e'] at e
  have := (Swap.snoc_inj e).2
  rcases h with rfl | rfl | rfl <;> exact absurd this (by decide +kernel)

theorem ready_source {m : Maps} {g : VMap.Path} (h : NameReady m g) : NameReady (sourceRule m) g where
  name := by rw [source_lookup, if_neg (not_source g (.inl rfl))]; exact h.name
  identifier := by rw [source_lookup, if_neg (not_source g (.inr (.inl rfl)))]; exact h.identifier
  description := h.description
  newName := h.newName

/-- The names only, without the rule for the source. -/
def names3 (d : Dicts) : Maps := nameRules d (buildMap d)

theorem map3_new (G : Given d) (N : Nested d) (T : Silent d) (p : VMap.Path) :
    (map3 d).toNew.lookup p = if p = nSource then some (some nProvenance) else (names3 d).toNew.lookup p := by
  have nodup := nameParents_nodup (d := d) d.old G.old.once
  have a := rules_lookup _ nodup (m := buildMap d) fun g hg => ready G N T (mem_parents.1 hg)
  have b := rules_lookup _ nodup (m := sourceRule (buildMap d)) fun g hg => ready_source (ready G N T (mem_parents.1 hg))
  show ((d.old.filterMap (nameParent d)).foldl nameRule _).toNew.lookup p = if p = nSource then _ else
    ((d.old.filterMap (nameParent d)).foldl nameRule _).toNew.lookup p
  by_cases hp : ∀ g ∈ d.old.filterMap (nameParent d), p ≠ g ++ [nName] ∧ p ≠ g ++ [nIdentifier]
  · rw [a.2.1 p hp, b.2.1 p hp, source_lookup]
  · have hp : ∃ g ∈ d.old.filterMap (nameParent d), p = g ++ [nName] ∨ p = g ++ [nIdentifier] := by
      apply Classical.byContradiction
      intro hn
      exact hp fun g hg => ⟨fun e => hn ⟨g, hg, .inl e⟩, fun e => hn ⟨g, hg, .inr e⟩⟩
    obtain ⟨g, hg, rfl | rfl⟩ := hp
    · rw [(a.1 g hg).1, (b.1 g hg).1, if_neg (not_source g (.inl rfl))]
    · rw [(a.1 g hg).2.1, (b.1 g hg).2.1, if_neg (not_source g (.inr (.inl rfl)))]

theorem map3_old (G : Given d) (N : Nested d) (T : Silent d) (p : VMap.Path) :
    (map3 d).toOld.lookup p = (names3 d).toOld.lookup p := by
  have nodup := nameParents_nodup (d := d) d.old G.old.once
  have a := rules_lookup _ nodup (m := buildMap d) fun g hg => ready G N T (mem_parents.1 hg)
  have b := rules_lookup _ nodup (m := sourceRule (buildMap d)) fun g hg => ready_source (ready G N T (mem_parents.1 hg))
  show ((d.old.filterMap (nameParent d)).foldl nameRule _).toOld.lookup p =
    ((d.old.filterMap (nameParent d)).foldl nameRule _).toOld.lookup p
  by_cases hp : ∀ g ∈ d.old.filterMap (nameParent d), p ≠ g ++ [nName] ∧ p ≠ g ++ [nDescription]
  · rw [a.2.2 p hp, b.2.2 p hp]
    rfl
  · have hp : ∃ g ∈ d.old.filterMap (nameParent d), p = g ++ [nName] ∨ p = g ++ [nDescription] := by
      apply Classical.byContradiction
      intro hn
      exact hp fun g hg => ⟨fun e => hn ⟨g, hg, .inl e⟩, fun e => hn ⟨g, hg, .inr e⟩⟩
    obtain ⟨g, hg, rfl | rfl⟩ := hp
    · rw [(a.1 g hg).2.2.2, (b.1 g hg).2.2.2]
    · rw [(a.1 g hg).2.2.1, (b.1 g hg).2.2.1]

theorem nameRule_change (m : Maps) (g : VMap.Path) :
    (nameRule m g).changeNew = m.changeNew ∧ (nameRule m g).changeOld = m.changeOld := by
  unfold nameRule
  dsimp only
  split <;> split <;> exact ⟨rfl, rfl⟩

theorem rules_change (l : List VMap.Path) (m : Maps) :
    (l.foldl nameRule m).changeNew = m.changeNew ∧ (l.foldl nameRule m).changeOld = m.changeOld := by
  induction l generalizing m with
  | nil => exact ⟨rfl, rfl⟩
  | cons g l ih =>
    rw [List.foldl_cons, (ih _).1, (ih _).2]
    exact nameRule_change m g

theorem map3_change (d : Dicts) : (map3 d).changeNew = (buildMap d).changeNew ∧ (map3 d).changeOld = (buildMap d).changeOld :=
  rules_change _ (sourceRule (buildMap d))

/-! ### The two directions -/

theorem wn : wName ≠ wIdentifier ∧ wName ≠ wDescription := by decide

theorem ok_new (G : Given d) (N : Nested d) (T : Silent d) :
    Swap.Ok d.old d.new (fun o f => Claim d f o) (fun _ => False) (fun p => (buildMap d).toNew.lookup p)
      (fun p => (names3 d).toNew.lookup p) (Described d) wName wIdentifier wDescription := by
  have nodup := nameParents_nodup (d := d) d.old G.old.once
  have a := rules_lookup _ nodup (m := buildMap d) fun g hg => ready G N T (mem_parents.1 hg)
  constructor
  · exact wn.1.symm
  · exact wn.2.symm
  · intro g h
    obtain ⟨f, o, h1, h2, h3⟩ := name_claim N h
    exact ⟨o, f, h1, h3, h2⟩
  · exact fun g h => h.identifier
  · exact fun g h => h.description
  · exact fun g h o f hc => (T.removed g h f o hc).1
  · exact fun g h o f hc => (T.removed g h f o hc).2
  · exact fun g h => identifier_gone G N T h
  · intro g h f hf r e
    obtain ⟨o, ho, e'⟩ := h.name
    exact not_below G.old ho (T.dataOld g h o ho (.inl e')) hf (by rw [e, e'])
  · intro g h f hf r e
    obtain ⟨o, ho, e'⟩ := h.identifier
    exact not_below G.old ho (T.dataOld g h o ho (.inr e')) hf (by rw [e, e'])
  · intro g h f hf r e
    obtain ⟨o, ho, e'⟩ := h.newName
    exact not_below G.new ho (T.dataNew g h o ho (.inl e')) hf (by rw [e, e'])
  · intro g h f hf r e
    obtain ⟨o, ho, e'⟩ := h.description
    exact not_below G.new ho (T.dataNew g h o ho (.inr e')) hf (by rw [e, e'])
  · exact fun _ _ h => h
  · exact fun g h => (a.1 g (mem_parents.2 h)).1
  · exact fun g h => (a.1 g (mem_parents.2 h)).2.1
  · exact fun p h => a.2.1 p fun g hg => h g (mem_parents.1 hg)

theorem ok_old (G : Given d) (N : Nested d) (T : Silent d) :
    Swap.Ok d.new d.old (Claim d) (LeftAt d) (fun p => (buildMap d).toOld.lookup p)
      (fun p => (names3 d).toOld.lookup p) (Described d) wName wDescription wIdentifier := by
  have nodup := nameParents_nodup (d := d) d.old G.old.once
  have a := rules_lookup _ nodup (m := buildMap d) fun g hg => ready G N T (mem_parents.1 hg)
  constructor
  · exact wn.2.symm
  · exact wn.1.symm
  · exact fun g h => name_claim N h
  · exact fun g h => h.description
  · exact fun g h => h.identifier
  · exact fun g h f o hc => (T.removed g h f o hc).2
  · exact fun g h f o hc => (T.removed g h f o hc).1
  · exact fun g h => description_gone G N T h
  · intro g h f hf r e
    obtain ⟨o, ho, e'⟩ := h.newName
    exact not_below G.new ho (T.dataNew g h o ho (.inl e')) hf (by rw [e, e'])
  · intro g h f hf r e
    obtain ⟨o, ho, e'⟩ := h.description
    exact not_below G.new ho (T.dataNew g h o ho (.inr e')) hf (by rw [e, e'])
  · intro g h f hf r e
    obtain ⟨o, ho, e'⟩ := h.name
    exact not_below G.old ho (T.dataOld g h o ho (.inl e')) hf (by rw [e, e'])
  · intro g h f hf r e
    obtain ⟨o, ho, e'⟩ := h.identifier
    exact not_below G.old ho (T.dataOld g h o ho (.inr e')) hf (by rw [e, e'])
  · rintro g h ⟨h', ⟨hm, -, f, o, hc, r, hr, e⟩, e'⟩
    exact hr (not_below G.old hm (T.dataOld g h h' hm (.inr e')) hc.2.1 e)
  · exact fun g h => (a.1 g (mem_parents.2 h)).2.2.2
  · exact fun g h => (a.1 g (mem_parents.2 h)).2.2.1
  · exact fun p h => a.2.2 p fun g hg => h g (mem_parents.1 hg)

theorem means_new (G : Given d) (N : Nested d) (T : Silent d) :
    (fun o f => Means d f o) = Swap.Pairs d.old d.new (fun o f => Claim d f o) (Described d) wName wIdentifier wDescription := by
  funext o f
  apply propext
  constructor
  · rintro (⟨hc, hn⟩ | ⟨g, hg, hf, ho, h⟩)
    · exact .inl ⟨hc, fun g hg e => hn ⟨g, hg, (Swap.common_one (route_new G N) (ok_new G N T) hg hc).1 e, e⟩⟩
    · exact .inr ⟨g, hg, ho, hf, h.imp And.symm And.symm⟩
  · rintro (⟨hc, hn⟩ | ⟨g, hg, ho, hf, h⟩)
    · exact .inl ⟨hc, fun ⟨g, hg, _, e⟩ => hn g hg e⟩
    · exact .inr ⟨g, hg, hf, ho, h.imp And.symm And.symm⟩

theorem means_old (G : Given d) (N : Nested d) (T : Silent d) :
    Means d = Swap.Pairs d.new d.old (Claim d) (Described d) wName wDescription wIdentifier := by
  funext f o
  apply propext
  constructor
  · rintro (⟨hc, hn⟩ | ⟨g, hg, hf, ho, h⟩)
    · exact .inl ⟨hc, fun g hg e => hn ⟨g, hg, e, (Swap.common_one (route_old G N) (ok_old G N T) hg hc).1 e⟩⟩
    · exact .inr ⟨g, hg, hf, ho, h.symm⟩
  · rintro (⟨hc, hn⟩ | ⟨g, hg, hf, ho, h⟩)
    · exact .inl ⟨hc, fun ⟨g, hg, e, _⟩ => hn g hg e⟩
    · exact .inr ⟨g, hg, hf, ho, h.symm⟩

theorem route3_new (G : Given d) (N : Nested d) (T : Silent d) :
    Route d.old d.new (fun o f => Means d f o) (LeftAt d) (fun _ => False) fun p => (names3 d).toNew.lookup p := by
  rw [means_new G N T]
  exact Swap.route (route_new G N) (ok_new G N T)

theorem route3_old (G : Given d) (N : Nested d) (T : Silent d) :
    Route d.new d.old (Means d) (fun _ => False) (LeftAt d) fun p => (names3 d).toOld.lookup p := by
  rw [means_old G N T]
  exact Swap.route (route_old G N) (ok_old G N T)

end Verif.Convert.Ruled
