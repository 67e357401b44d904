import Verif.Lemmas.ConvertRoute
/-
Conversions with the map built from the dictionaries.
-/
set_option linter.unusedSectionVars false
namespace Verif.Convert
open Verif.Ids Verif.TreeSpec Verif.ConvertSpec
open Verif.VMap hiding Path Nbc metaAt_append
open Verif.VMapSpec hiding OneToOne
open Verif.Props

variable {V : Type} [Value V] {d : Dicts}

theorem nothing_both (G : Given d) {f o : Field} (hc : Claim d f o) :
    (buildMap d).toOld.lookup f.path = some none ↔ (buildMap d).toNew.lookup o.path = some none := by
  constructor
  · intro h
    cases hm : (buildMap d).toNew.lookup o.path with
    | none =>
      rcases C21_unmapped_old G o hc.2.1 hm with ⟨f', hf', e, c, -, h3⟩ | ⟨h3, -⟩
      · cases G.claim_same' c hc
        rw [← e, h] at h3; cases h3
      · exact absurd hc (h3 f)
    | some x =>
      cases x with
      | none => rfl
      | some q =>
        have := (C21_inverse G q o.path).2 hm
        obtain ⟨-, f', o', h3, h4, h5, -⟩ := C21_linked G _ _ this
        cases field_once G.old.once h3.2.1 hc.2.1 h5
        cases G.claim_same' h3 hc
        rw [← h4, h] at this
        cases this
  · intro h
    cases hm : (buildMap d).toOld.lookup f.path with
    | none =>
      rcases C21_unmapped G f hc.1 hm with ⟨o', ho', e, c, -, h3⟩ | ⟨h3, -⟩
      · cases G.claim_same c hc
        rw [← e, h] at h3; cases h3
      · exact absurd hc (h3 o)
    | some x =>
      cases x with
      | none => rfl
      | some q =>
        have h2 := (C21_inverse G f.path q).1 hm
        obtain ⟨-, f', o', h3, h4, h5, -⟩ := C21_linked G _ _ hm
        cases field_once G.new.once h3.1 hc.1 h4
        cases G.claim_same h3 hc
        rw [← h5, h] at h2
        cases h2

/-- Paths of structures that only the old version has, and that fields were moved out of. -/
def LeftAt (d : Dicts) (p : VMap.Path) : Prop := ∃ h, Left d h ∧ h.path = p

theorem reach_base {C : Field → Field → Prop} {L : VMap.Path → Prop} {p t : VMap.Path} (h : Reach C L p t) :
    ∃ p0 r, p = p0 ++ r ∧ (∀ r1 r2, r = r1 ++ r2 → r1 ≠ [] → L (p0 ++ r1)) ∧
      (p0 = [] ∧ t = [] ∨ ∃ f o, C f o ∧ f.path = p0 ∧ o.path = t) := by
  induction h with
  | root => exact ⟨[], [], rfl, fun r1 r2 e h => absurd (by simpa using e.symm : r1 = [] ∧ r2 = []).1 h, .inl ⟨rfl, rfl⟩⟩
  | @field f o h =>
    exact ⟨f.path, [], by simp, fun r1 r2 e h => absurd (by simpa using e.symm : r1 = [] ∧ r2 = []).1 h, .inr ⟨f, o, h, rfl, rfl⟩⟩
  | @left p t n h hl ih =>
    obtain ⟨p0, r, e, h1, h2⟩ := ih
    refine ⟨p0, r ++ [n], by rw [e]; simp, fun r1 r2 e1 hr => ?_, h2⟩
    by_cases h0 : r2 = []
    · subst h0
      rw [List.append_nil] at e1
      rw [← e1, ← List.append_assoc, ← e]
      exact hl
    · obtain ⟨r2, n', rfl⟩ := snoc_of_ne h0
      rw [← List.append_assoc] at e1
      exact h1 r1 r2 (List.append_inj' e1 rfl).1 hr

theorem route_old (G : Given d) (N : Nested d) :
    Route d.new d.old (Claim d) (fun _ => False) (LeftAt d) fun p => (buildMap d).toOld.lookup p where
  once := G.new.once
  once' := G.old.once
  ne f hf := (G.new.names f hf).1
  ne' f hf := (G.old.names f hf).1
  mem f o h := ⟨h.1, h.2.1⟩
  one f o o' h h' := G.claim_same h h'
  one' f f' o h h' := G.claim_same' h h'
  up f o a r h ha e := by
    left
    by_cases hr : r = []
    · subst hr
      exact ⟨f, o, h, by simpa using e, List.prefix_rfl⟩
    · obtain ⟨f', o', u, h1, h2, h3, -⟩ := G.claim_up h ha hr e
      exact ⟨f', o', h1, h2, u, h3.symm⟩
  up' f o a r h ha e := claim_down G N h ha e
  level f o a r h e ha hp := G.claim_level h e ha hp
  here f o h := by
    cases hm : (buildMap d).toOld.lookup f.path with
    | none =>
      rcases C21_unmapped G f h.1 hm with ⟨o', ho', e, c, -⟩ | ⟨h3, -⟩
      · cases G.claim_same c h
        exact .inr (.inl ⟨e.symm, rfl⟩)
      · exact absurd h (h3 o)
    | some x =>
      cases x with
      | none => exact .inr (.inr rfl)
      | some q =>
        obtain ⟨-, f', o', h3, h4, h5, -⟩ := C21_linked G _ _ hm
        cases field_once G.new.once h3.1 h.1 h4
        cases G.claim_same h3 h
        exact .inl (by rw [h5])
  entry p q h := by
    obtain ⟨-, f, o, h1, h2, h3, -⟩ := C21_linked G p q h
    exact ⟨f, o, h1, h2, h3⟩
  missing f hf h := by
    rcases C21_unmapped G f hf h with ⟨o, h1, h2, -, h3⟩ | ⟨h1, ⟨-, a, r, -, e, h2⟩ | ⟨-, f', o, r, hr, c, e, -⟩ | ⟨f', o, ho, e, -⟩⟩
    · exact .inl ⟨o, N.reuse f hf o h1 h2.symm, h2.symm⟩
    · refine .inr (.inr ⟨a, r, ?_, e, h2⟩)
      obtain ⟨g, hg, rfl, -⟩ := C21_nothing G a h2
      exact (G.new.names g hg).1
    · exfalso
      obtain ⟨f1, o1, u, c1, e3, -⟩ := G.claim_up c (G.new.names f hf).1 hr e
      cases field_once G.new.once c1.1 hf e3
      exact h1 _ c1
    · exact absurd (N.reuse f hf o ho e.symm) (h1 o)
  left _ h := h.elim
  left' := by
    rintro a ⟨h, hl, rfl⟩
    refine ⟨⟨h, hl.1, rfl, N.left h hl⟩, fun f o hc e => ?_⟩
    cases field_once G.old.once hc.2.1 hl.1 e
    exact hl.2.1 f hc
  fresh _ _ _ _ h := h.elim
where
  claim_down {d : Dicts} (G : Given d) (N : Nested d) {f o : Field} {a r : VMap.Path} (h : Claim d f o) (ha : a ≠ [])
      (e : o.path = a ++ r) : (∃ f' o', Claim d f' o' ∧ o'.path = a ∧ f'.path <+: f.path) ∨ LeftAt d a := by
    by_cases hr : r = []
    · subst hr
      exact .inl ⟨f, o, h, by simpa using e, List.prefix_rfl⟩
    · obtain ⟨g, hg, rfl⟩ := wf_prefix G.old r ha ⟨o, h.2.1, e⟩
      by_cases hx : ∃ f', Claim d f' g
      · obtain ⟨f', hc⟩ := hx
        obtain ⟨u, -, hu⟩ := N.inside f o f' g h hc ⟨r, hr, e⟩
        exact .inl ⟨f', g, hc, rfl, u, hu.symm⟩
      · exact .inr ⟨g, ⟨hg, fun f' hc => hx ⟨f', hc⟩, f, o, h, r, hr, e⟩, rfl⟩

theorem left_open (G : Given d) {a : VMap.Path} (h : LeftAt d a) :
    (buildMap d).toNew.lookup a = none ∧ (buildMap d).changeNew.lookup a = none := by
  obtain ⟨g, ⟨hg, h1, f, o, h2, r, hr, e⟩, rfl⟩ := h
  refine G.through_old h2 (G.old.names g hg).1 hr e fun f' o' h3 h4 => ?_
  cases field_once G.old.once h3.2.1 hg h4
  exact h1 _ h3

theorem route_new (G : Given d) (N : Nested d) :
    Route d.old d.new (fun o f => Claim d f o) (LeftAt d) (fun _ => False) fun p => (buildMap d).toNew.lookup p where
  once := G.old.once
  once' := G.new.once
  ne f hf := (G.old.names f hf).1
  ne' f hf := (G.new.names f hf).1
  mem f o h := ⟨h.2.1, h.1⟩
  one f o o' h h' := G.claim_same' h h'
  one' f f' o h h' := G.claim_same h h'
  up o f a r h ha e := by
    rcases (route_old G N).up' f o a r h ha e with ⟨f', o', h1, h2, h3⟩ | hl
    · exact .inl ⟨o', f', h1, h2, h3⟩
    · exact .inr hl
  up' o f a r h ha e := by
    rcases (route_old G N).up f o a r h ha e with ⟨f', o', h1, h2, h3⟩ | hl
    · exact .inl ⟨o', f', h1, h2, h3⟩
    · exact hl.elim
  level o f a r h e ha hp := by
    obtain ⟨f', o', h1, h2, h3⟩ := G.claim_level h e.symm ha (e.symm.trans hp)
    exact ⟨o', f', h1, h3, h2⟩
  here o f h := by
    cases hm : (buildMap d).toNew.lookup o.path with
    | none =>
      rcases C21_unmapped_old G o h.2.1 hm with ⟨f', hf', e, c, -⟩ | ⟨h3, -⟩
      · cases G.claim_same' c h
        exact .inr (.inl ⟨e.symm, rfl⟩)
      · exact absurd h (h3 f)
    | some x =>
      cases x with
      | none => exact .inr (.inr rfl)
      | some q =>
        obtain ⟨-, f', o', h3, h4, h5, -⟩ := C21_linked G _ _ ((C21_inverse G q o.path).2 hm)
        cases field_once G.old.once h3.2.1 h.2.1 h5
        cases G.claim_same' h3 h
        exact .inl (by rw [h4])
  entry p q h := by
    obtain ⟨-, f, o, h1, h2, h3, -⟩ := C21_linked G q p ((C21_inverse G q p).2 h)
    exact ⟨o, f, h1, h3, h2⟩
  missing o ho h := by
    rcases C21_unmapped_old G o ho h with ⟨f, h1, h2, -, h3⟩ | ⟨h1, ⟨-, a, r, -, e, h2⟩ | ⟨-, f, o', r, hr, c, e, -⟩ | ⟨f, o', hf, e, -⟩⟩
    · exact .inl ⟨f, N.reuse f h1 o ho h2, h2.symm⟩
    · refine .inr (.inr ⟨a, r, ?_, e, h2⟩)
      obtain ⟨g, hg, rfl, -⟩ := C21_nothing_old G a h2
      exact (G.old.names g hg).1
    · exact .inr (.inl ⟨o, ⟨ho, h1, f, o', c, r, hr, e⟩, rfl⟩)
    · exact absurd (N.reuse f hf o ho e) (h1 f)
  left := by
    rintro a hl
    refine ⟨(left_open G hl).1, ?_⟩
    obtain ⟨h, hl, rfl⟩ := hl
    refine ⟨⟨h, hl.1, rfl, N.left h hl⟩, fun o f hc e => ?_⟩
    cases field_once G.old.once hc.2.1 hl.1 e
    exact hl.2.1 f hc
  left' _ h := h.elim
  fresh := by
    rintro p t n hr ⟨h, hl, e⟩
    obtain ⟨p0, r, e1, h1, h2⟩ := reach_base hr
    subst e1
    refine N.fresh h p0 r n t hl e h1 ?_
    rcases h2 with h2 | ⟨o, f, h2, h3, h4⟩
    · exact .inl h2
    · exact .inr ⟨f, o, h2, h3, h4⟩

/-- If previous names have one part, no structure was left. -/
theorem _root_.Verif.VMapSpec.Level.nested (G : Given d) (L : Level d) : Nested d := by
  have inside : ∀ f o h, Claim d f o → h ∈ d.old → Above o.path h → ∃ g, Claim d g h ∧ Above f.path g := by
    rintro f o h hc hm ⟨r, hr, e⟩
    obtain ⟨h1, h2⟩ := G.claim_take L hc
    obtain ⟨f1, o1, h3, h4, h5⟩ := h2 h.path.length (List.length_pos_iff.2 (G.old.names h hm).1) (by rw [h1, e]; simp)
    rw [e, List.take_left' rfl] at h5
    cases field_once G.old.once h3.2.1 hm h5
    refine ⟨f1, h3, f.path.drop h.path.length, ?_, by rw [h4, List.take_append_drop]⟩
    have := List.length_pos_iff.2 hr
    have hl := congrArg List.length e
    intro h0
    have := congrArg List.length h0
    simp at this hl
    omega
  have none_left : ∀ h, ¬ Left d h := by
    rintro h ⟨hm, h1, f, o, hc, ha⟩
    obtain ⟨g, h2, -⟩ := inside f o h hc hm ha
    exact h1 g h2
  refine ⟨L.reuse, fun f o g h hc hg ha => ?_, fun h hl => absurd hl (none_left h), fun h _ _ _ _ hl => absurd hl (none_left h)⟩
  obtain ⟨g', h1, h2⟩ := inside f o h hc hg.2.1 ha
  cases G.claim_same' h1 hg
  exact h2

/-- A check for `Nested`. -/
def nestedB (d : Dicts) : Bool :=
  d.new.all (fun f => d.old.all fun o => !(f.path = o.path) || claimB d f o) &&
  d.new.all (fun f => d.old.all fun o => !claimB d f o || d.new.all fun g => d.old.all fun h =>
    !(claimB d g h && (h.path.isPrefixOf o.path && h.path ≠ o.path)) || (g.path.isPrefixOf f.path && g.path ≠ f.path)) &&
  d.old.all fun h => d.new.any (claimB d · h) ||
    !(d.new.any fun f => d.old.any fun o => claimB d f o && (h.path.isPrefixOf o.path && h.path ≠ o.path)) ||
    (h.dtype = "structure".toList && match h.path.getLast? with
      | none => false
      | some n => (d.new.all fun g => g.path ≠ [n]) && d.new.all fun f => d.old.all fun o =>
          !(claimB d f o && o.path.isPrefixOf h.path) || d.new.all fun g => g.path ≠ f.path ++ [n])

theorem nested_of_check (G : Given d) (h : nestedB d = true) : Nested d := by
  unfold nestedB at h
  simp only [Bool.and_eq_true, List.all_eq_true] at h
  obtain ⟨⟨h1, h2⟩, h3⟩ := h
  have iff := fun {f o} (hf : f ∈ d.new) (ho : o ∈ d.old) => claim_iff G.old G.new hf ho
  have key : ∀ h, Left d h → h.dtype = "structure".toList ∧ ∃ n, h.path.getLast? = some n ∧
      (∀ g ∈ d.new, g.path ≠ [n]) ∧ ∀ f o, Claim d f o → o.path <+: h.path → ∀ g ∈ d.new, g.path ≠ f.path ++ [n] := by
    rintro h ⟨hm, hc, f, o, hc', ha⟩
    have := h3 h hm
    rw [Bool.or_eq_true, Bool.or_eq_true] at this
    rcases this with (this | this) | this
    · obtain ⟨g, hg, e⟩ := List.any_eq_true.1 this
      exact absurd ((iff hg hm).2 e) (hc g)
    · rw [Bool.not_eq_true', List.any_eq_false] at this
      refine absurd ?_ (this f hc'.1)
      rw [List.any_eq_true]
      exact ⟨o, hc'.2.1, by rw [(iff hc'.1 hc'.2.1).1 hc', above_iff.1 ha]; rfl⟩
    · rw [Bool.and_eq_true] at this
      refine ⟨of_decide_eq_true this.1, ?_⟩
      have h4 := this.2
      split at h4
      · cases h4
      · next n e =>
        simp only [Bool.and_eq_true, List.all_eq_true, decide_eq_true_eq] at h4
        refine ⟨n, e, h4.1, fun f o hc hp => ?_⟩
        have h5 := h4.2 f hc.1 o hc.2.1
        rw [(iff hc.1 hc.2.1).1 hc, List.isPrefixOf_iff_prefix.2 hp] at h5
        simpa using h5
  refine ⟨fun f hf o ho e => ?_, fun f o g h hc hg ha => ?_, fun h hl => (key h hl).1, fun h p r n q hl e _ hq => ?_⟩
  · have := h1 f hf o ho
    rw [Bool.or_eq_true, Bool.not_eq_true', decide_eq_false_iff_not] at this
    exact (iff hf ho).2 (this.resolve_left fun h => h e)
  · have := h2 f hc.1 o hc.2.1
    rw [(iff hc.1 hc.2.1).1 hc, Bool.not_true, Bool.false_or, List.all_eq_true] at this
    have := this g hg.1
    rw [List.all_eq_true] at this
    have := this h hg.2.1
    rw [(iff hg.1 hg.2.1).1 hg, above_iff.1 ha] at this
    exact above_iff.2 (by simpa using this)
  · obtain ⟨-, n', e1, h4, h5⟩ := key h hl
    rw [e, List.getLast?_concat] at e1
    cases e1
    rintro ⟨g, hg, e2⟩
    rcases hq with ⟨-, rfl⟩ | ⟨f, o, hc, e3, e4⟩
    · exact h4 g hg e2
    · exact h5 f o hc ⟨r ++ [n], by rw [e, e3]; simp⟩ g hg (by rw [e2, e4])

/-! ### Recorded changes -/

theorem root_old (G : Given d) : (buildMap d).changeOld.lookup [] = none := by
  obtain ⟨ops, tops, I, K⟩ := inv_renames G
  have e1 : (buildMap d).changeOld = (renames d).changeOld := rfl
  rw [e1, I.is.changeOld]
  refine lookup_none.2 fun t ht e => ?_
  obtain ⟨f, hf, h1, -⟩ := I.tok t ht
  exact (G.new.names f hf).1 (h1.trans e)

theorem processParents_ne (new : List Field) (m : Maps) {p : VMap.Path} (h : p ≠ []) : processParents new m p ≠ [] := by
  unfold processParents
  split
  · exact h
  · next g hg =>
    split
    · have := List.mem_of_find?_eq_some hg
      rw [List.mem_reverse, mem_parents] at this
      obtain ⟨-, r, hr, e⟩ := this
      subst e
      intro h'
      simp only [List.append_eq_nil_iff, List.drop_left'] at h'
      exact hr h'.2
    · exact h

theorem addChildren_change (d : Dicts) (o n : VMap.Path) (l : List Field) (m : Maps) :
    (addChildren d o n l m).changeNew = m.changeNew := by
  induction l generalizing m with
  | nil => rfl
  | cons f r ih =>
    simp only [addChildren]
    split
    · split
      · rw [ih]; rfl
      · exact ih m
    · exact ih m

def NoRoot (m : Maps) : Prop := ∀ e ∈ m.changeNew, e.1 ≠ []

theorem checkDataType_noRoot {m : Maps} (h : NoRoot m) {o f : Field} (ho : o.path ≠ []) :
    NoRoot (checkDataType d o f m).2 := by
  unfold checkDataType
  split
  · exact h
  · split
    · intro e he
      simp only [List.mem_cons] at he
      rcases he with rfl | he
      · exact ho
      · exact h e he
    · intro e he
      simp only [List.mem_cons] at he
      rcases he with rfl | he
      · exact ho
      · exact h e he

theorem nbcStep_noRoot (ho : WellFormed d.old) {m : Maps} (h : NoRoot m) {f : Field} (hf : f.path ≠ []) :
    NoRoot (nbcStep d m f) := by
  unfold nbcStep
  repeat' split
  all_goals try exact h
  · simp only
    split
    · exact h
    · next o hk =>
      have := checkDataType_noRoot (d := d) (f := f) h (ho.names o (field?_some hk).1).1
      split
      · next e => rw [e] at this; exact this
      · next e =>
        rw [e] at this
        split
        · intro e he
          rw [addChildren_change] at he
          exact this e he
        · exact this
  all_goals
    intro e he
    simp only [List.mem_cons] at he
    rcases he with rfl | he
    · exact processParents_ne _ _ hf
    · exact h e he

theorem checkCommon_noRoot (ho : WellFormed d.old) {m : Maps} (h : NoRoot m) (f : Field) :
    NoRoot (checkCommon d m f) := by
  unfold checkCommon
  split
  · exact h
  · next o hk =>
    split
    · exact h
    · exact checkDataType_noRoot h (ho.names o (field?_some hk).1).1

theorem foldl_noRoot {step : Maps → Field → Maps} (l : List Field) (hs : ∀ m f, f ∈ l → NoRoot m → NoRoot (step m f))
    (m : Maps) (h : NoRoot m) : NoRoot (l.foldl step m) := by
  induction l generalizing m with
  | nil => exact h
  | cons f r ih =>
    exact ih (fun m g hg => hs m g (List.mem_cons_of_mem _ hg)) _ (hs m f List.mem_cons_self h)

theorem root_new (G : Given d) : (buildMap d).changeNew.lookup [] = none := by
  have e1 : (buildMap d).changeNew = (renames d).changeNew := rfl
  have : NoRoot (renames d) := by
    unfold renames
    refine foldl_noRoot _ (fun m f _ h => checkCommon_noRoot G.old h f) _ ?_
    refine foldl_noRoot _ (fun m f hf h => nbcStep_noRoot G.old h (G.new.names f hf).1) _ ?_
    intro e he
    cases he
  rw [e1, List.lookup_eq_none_iff]
  intro e he
  simpa using (this e he).symm

/-- A change is recorded exactly if there is one. -/
theorem change_none (G : Given d) (ha : Announced d) {f o : Field} (hc : Claim d f o)
    (hn : (buildMap d).toOld.lookup f.path ≠ some none) :
    (buildMap d).changeOld.lookup f.path = none ↔ ¬ Changed d f o := by
  obtain ⟨ops, tops, I, K⟩ := inv_renames G
  have e1 : (buildMap d).changeOld = (renames d).changeOld := rfl
  constructor
  · intro h hch
    have ex : ∃ t ∈ tops, t.new = f.path := by
      rcases hch with hs | hp
      · cases hm : (buildMap d).toOld.lookup f.path with
        | none =>
          have h4 : (renames d).toOld.lookup f.path = none := by
            rcases build_toOld d f.path with ⟨h5, -⟩ | h5
            · rw [hm] at h5; simp at h5
            · rw [← h5, hm]
          exact (inv_unmapped I K G hc h4).2.2 hs
        | some x =>
          cases x with
          | none => exact absurd hm hn
          | some q =>
            obtain ⟨-, f', o', h1, h2, -, h4⟩ := C21_linked G _ _ hm
            cases field_once G.new.once h1.1 hc.1 h2
            cases G.claim_same h1 hc
            exact I.changed f hc.1 o (ha.renamed f o hc h4 hs) hs
      · exact I.points f hc.1 hp
    obtain ⟨t, ht, e⟩ := ex
    rw [e1, I.is.changeOld] at h
    exact lookup_none.1 h t ht e
  · intro h
    rw [e1, I.is.changeOld]
    refine lookup_none.2 fun t ht e => ?_
    obtain ⟨f', hf', e3, hs, -⟩ := I.tok t ht
    cases field_once G.new.once hf' hc.1 (e3.trans e)
    rcases hs with ⟨o', -, c', h3, -⟩ | ⟨h3, -⟩ | ⟨h3, -⟩
    · cases G.claim_same c' hc
      exact h (.inl h3)
    · exact h (.inr (.inl h3))
    · exact h (.inr (.inr h3))

theorem change_array (G : Given d) {f o : Field} (hc : Claim d f o)
    (h : (buildMap d).changeOld.lookup f.path = some (some .structAos)) :
    VMapSpec.Between o f "structure" "struct_array" := by
  obtain ⟨ops, tops, I, K⟩ := inv_renames G
  have e1 : (buildMap d).changeOld = (renames d).changeOld := rfl
  rw [e1, I.is.changeOld] at h
  obtain ⟨t, h1, h2, h3⟩ := lookup_some h
  obtain ⟨f', hf', e3, hs, -⟩ := I.tok t h1
  cases field_once G.new.once hf' hc.1 (e3.trans h2)
  rcases hs with ⟨o', -, c', -, h4, -⟩ | ⟨-, h4, -⟩ | ⟨-, h4, -⟩
  · cases G.claim_same c' hc
    rw [h4] at h3
    cases handlerFor_some.1 h3 with
    | structAos h => exact h
  · rw [h4] at h3; cases h3
  · rw [h4] at h3; cases h3

theorem array_change (G : Given d) (ha : Announced d) (hk : KeepsKind d) {f o : Field} (hc : Claim d f o)
    (h : VMapSpec.Between o f "structure" "struct_array") :
    (buildMap d).toOld.lookup f.path ≠ some none ∧
    (buildMap d).changeOld.lookup f.path = some (some .structAos) ∧
    (buildMap d).changeNew.lookup o.path = some (some .structAos) := by
  have hs : d.same f.dtype o.dtype = false := by
    cases hs : d.same f.dtype o.dtype with
    | false => rfl
    | true =>
      have := hk _ _ hs
      rcases h with ⟨h1, h2⟩ | ⟨h1, h2⟩ <;> rw [h1, h2] at this <;> simp at this
  have hfit : Fits d o f := .inr ⟨_, .structAos h⟩
  have hn : (buildMap d).toOld.lookup f.path ≠ some none := by
    intro hm
    obtain ⟨f', hf', e, h1⟩ := C21_nothing G _ hm
    cases field_once G.new.once hf' hc.1 e
    exact h1 o hc hfit
  refine ⟨hn, ?_⟩
  have hcase : Names d f o ∨ Claim d f o ∧ (buildMap d).toOld.lookup f.path = none := by
    cases hm : (buildMap d).toOld.lookup f.path with
    | none => exact .inr ⟨hc, rfl⟩
    | some x =>
      cases x with
      | none => exact absurd hm hn
      | some q =>
        obtain ⟨-, f', o', h1, h2, -, h4⟩ := C21_linked G _ _ hm
        cases field_once G.new.once h1.1 hc.1 h2
        cases G.claim_same h1 hc
        exact .inl (ha.renamed f o hc h4 hs)
  obtain ⟨p1, p2⟩ := ha.points f o hc hs
  rcases C21_change_found G f o hcase hs p1 p2 with ⟨x, h1, h2, h3⟩ | ⟨h1, -⟩
  · have : x = .structAos := by
      have e1 := handlerFor_some.2 h1
      rw [handlerFor_some.2 (.structAos h)] at e1
      exact (Option.some.inj e1).symm
    subst this
    exact ⟨h2, h3⟩
  · exact absurd (.structAos h) (h1 _)

variable {custom custom' : VMap.Path → Handler → Node V → Node V → Except ConvErr (Node V)}
  {post post' : VMap.Path → Option (Node V → Except ConvErr (Node V))}
  {store store' : LeafMeta → V → Except ConvErr (Option V)}

theorem changeOf_cases (g : Handler → Node V → Node V → Except ConvErr (Node V)) (h : Option Handler) :
    (h = some .structAos ∧ changeOf g h = .structAos) ∨
    (h ≠ some .structAos ∧ ∃ u, changeOf g h = .custom u) := by
  cases h with
  | none => exact .inr ⟨by simp, _, rfl⟩
  | some x => cases x <;> simp [changeOf]

theorem opposite_old (G : Given d) :
    Opposite (Claim d) (cfgToOld d custom post store) (cfgToNew d custom' post' store') where
  nothing f o hc h := (nothing_both G hc).1 h
  change f o hc := by
    simp only [cfgToOld, cfgToNew, cfgOf]
    rcases C21_changes G f o hc with ⟨h1, h2⟩ | ⟨x, y, h1, h2, h3⟩
    · left; rw [h1, h2]; exact ⟨rfl, rfl⟩
    · right
      rw [h1, h2]
      simp only [Option.map_some, Option.some.injEq]
      rcases changeOf_cases (custom f.path) x with ⟨e, h4⟩ | ⟨e, u, h4⟩
      · left
        subst e
        have : y = some .structAos := by
          rcases h3 with ⟨e, -⟩ | ⟨e, -⟩ | ⟨e, -⟩
          · exact e.symm
          · cases e
          · cases e
        subst this
        refine ⟨rfl, rfl, ?_⟩
        rcases change_array G hc h1 with ⟨h5, h6⟩ | ⟨h5, h6⟩
        · exact .inr ⟨h6, h5⟩
        · exact .inl ⟨h6, h5⟩
      · right
        rcases changeOf_cases (custom' o.path) y with ⟨e', -⟩ | ⟨-, u', h5⟩
        · subst e'
          rcases h3 with ⟨e'', -⟩ | ⟨-, e''⟩ | ⟨-, e''⟩
          · exact absurd e'' e
          · cases e''
          · cases e''
        · exact ⟨u, u', h4, h5⟩

theorem opposite_new (G : Given d) :
    Opposite (fun o f => Claim d f o) (cfgToNew d custom' post' store') (cfgToOld d custom post store) where
  nothing o f hc h := (nothing_both G hc).2 h
  change o f hc := by
    rcases (opposite_old (custom := custom) (post := post) (store := store) (custom' := custom') (post' := post')
      (store' := store') G).change f o hc with ⟨h1, h2⟩ | ⟨h1, h2, h3⟩ | ⟨g, g', h1, h2⟩
    · exact .inl ⟨h2, h1⟩
    · exact .inr (.inl ⟨h2, h1, h3.symm.imp And.symm And.symm⟩)
    · exact .inr (.inr ⟨g', g, h2, h1⟩)

theorem kind_same (G : Given d) (ha : Announced d) (hk : KeepsKind d) {f o : Field} (hc : Claim d f o)
    (h : (buildMap d).changeOld.lookup f.path = none) (hn : (buildMap d).toOld.lookup f.path ≠ some none) :
    f.dtype = "structure".toList ↔ o.dtype = "structure".toList := by
  have := (change_none G ha hc hn).1 h
  cases hs : d.same f.dtype o.dtype with
  | true => exact (hk _ _ hs).1
  | false => exact absurd (.inl hs) this

end Verif.Convert
