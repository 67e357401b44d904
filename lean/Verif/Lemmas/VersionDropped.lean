import Verif.Lemmas.VersionMap
/-
Fields with an unsupported change of type are mapped to nothing.
-/
namespace Verif.VMap
open Verif.Ids Verif.VMapSpec

variable {d : Dicts}

/-- Annotated fields that do not fit their old field have the entry None. -/
def Dropped (d : Dicts) (done : List Field) (m : Maps) : Prop :=
  ∀ f ∈ done, ∀ o, Names d f o → ¬ Fits d o f → m.toOld.lookup f.path = some none

open Classical in
theorem lookup_checkDataType {o g : Field} {m : Maps} (q : Path) :
    (checkDataType d o g m).2.toOld.lookup q =
      if q = g.path ∧ ¬ Fits d o g then some none else m.toOld.lookup q := by
  rw [fits_def]
  unfold checkDataType
  by_cases hs : d.same g.dtype o.dtype = true
  · simp [hs]
  · cases hh : handlerFor o g with
    | some x => simp [hs]
    | none =>
      by_cases e : q = g.path
      · simp [hs, e]
      · have : (q == g.path) = false := by simpa using e
        simp [hs, e, List.lookup_cons, this]

theorem lookup_addRename (p q x : Path) (m : Maps) :
    (addRename p q m).toOld.lookup x = if x = q then some (some p) else m.toOld.lookup x := by
  simp only [addRename, List.lookup_cons]
  by_cases h : x = q
  · simp [h]
  · have : (x == q) = false := by simpa using h
    simp [h, this]

theorem lookup_addChildren (old new : Path) (l : List Field) {m : Maps} {q : Path}
    (h : ∀ o ∈ l, ∀ f ∈ d.new, ∀ t, text o.path = text old ++ t → text f.path = text new ++ t → f.path ≠ q) :
    (addChildren d old new l m).toOld.lookup q = m.toOld.lookup q := by
  induction l generalizing m with
  | nil => rfl
  | cons a r ih =>
    have ih := fun m => ih (m := m) (fun o ho => h o (List.mem_cons_of_mem _ ho))
    unfold addChildren
    split
    · next hp =>
      rw [List.isPrefixOf_iff_prefix] at hp
      obtain ⟨t, ht⟩ := hp
      split
      · next g hg =>
        rw [ih, lookup_addRename, if_neg]
        intro e
        have h1 := List.find?_some hg
        simp only [decide_eq_true_eq] at h1
        rw [← ht, List.drop_left] at h1
        exact h a List.mem_cons_self g (List.mem_of_find?_eq_some hg) t ht.symm h1 e.symm
      · exact ih m
    · exact ih m

/-- Fields before `g` are not below `g`. -/
theorem not_below (G : Given d) {done rest : List Field} {g : Field} (hd : d.new = done ++ g :: rest) {f : Field}
    (hf : f ∈ done) (r : Path) : f.path ≠ g.path ++ r := by
  have hg : g ∈ d.new := by rw [hd]; simp
  have key : ∀ (r : Path) (f : Field), f ∈ done → f.path ≠ g.path ++ r := by
    intro r
    induction hl : r.length generalizing r with
    | zero =>
      intro f hf e
      have : r = [] := List.length_eq_zero_iff.1 hl
      subst this
      rw [List.append_nil] at e
      have h1 := G.new.once
      rw [hd, List.map_append, List.nodup_append] at h1
      exact h1.2.2 _ (List.mem_map_of_mem hf) _ (by simp) e
    | succ k ih =>
      intro f hf e
      obtain ⟨r', n, rfl⟩ := snoc_of_ne (p := r) (by intro h; simp [h] at hl)
      obtain ⟨l1, l2, rfl⟩ := List.append_of_mem hf
      rw [← List.append_assoc] at e
      have h1 := G.new.order l1 f (l2 ++ g :: rest) (by rw [hd]; simp) (g.path ++ r') n e
      rcases h1 with h1 | ⟨f', hf', e'⟩
      · exact (G.new.names g hg).1 (List.append_eq_nil_iff.1 h1).1
      · exact ih r' (by simpa using hl) f' (by simp [hf']) e'
  exact key r f hf

theorem Dropped.step {done rest : List Field} {m : Maps} {ops : List Op} {tops : List TOp} (G : Given d)
    (I : Inv d done m ops tops) {f : Field} (hd : d.new = done ++ f :: rest) (D : Dropped d done m) :
    Dropped d (done ++ [f]) (nbcStep d m f) := by
  have hf : f ∈ d.new := by rw [hd]; simp
  obtain ⟨g, n, hp⟩ := snoc_of_ne (G.new.names f hf).1
  obtain ⟨p, hw⟩ := was_total d g
  by_cases hk : ∃ k, Formerly d f k
  · obtain ⟨k, hk⟩ := hk
    have hop : getOldPath d.new m f.path k = p ++ k := by
      unfold getOldPath
      rw [hp, List.dropLast_concat]
      exact I.processParents G hd hp hw (.inr hk)
    rw [nbcStep_renamed hk m, hop]
    have hnames : ∀ o, Names d f o → o.path = p ++ k := by
      rintro o ⟨-, -, q, n', k', p', e1, hw', hk', e2⟩
      obtain ⟨rfl, -⟩ := List.append_inj' (hp.symm.trans e1) rfl
      rw [e2, was_fun G.new hw hw', formerly_fun hk hk']
    cases ho : field? d.old (p ++ k) with
    | none =>
      intro f' hf' o hN hn
      rcases List.mem_append.1 hf' with h | h
      · exact D f' h o hN hn
      · cases List.mem_singleton.1 h
        exact absurd (hnames o hN) (field?_none ho o hN.2.1)
    | some o =>
      obtain ⟨hom, hoe⟩ := field?_some ho
      have hN : Names d f o := ⟨hf, hom, g, n, k, p, hp, hw, hk, hoe⟩
      have huniq : ∀ o', Names d f o' → o' = o := fun o' h' =>
        field_once G.old.once h'.2.1 hom ((hnames o' h').trans hoe.symm)
      have c2 := (checkDataType_is (d := d) I.is o f).2
      have hl := fun q => lookup_checkDataType (d := d) (o := o) (g := f) (m := m) q
      simp only []
      rcases hcd : checkDataType d o f m with ⟨b, m'⟩
      rw [hcd] at c2 hl
      simp only at c2 hl
      rw [← hoe]
      have hne : ∀ f' ∈ done, f'.path ≠ f.path := fun f' h => by
        simpa using not_below G hd h []
      cases b with
      | false =>
        have nf : ¬ Fits d o f := fun h => by simpa using c2.2 h
        intro f' hf' o' hN' hn
        rcases List.mem_append.1 hf' with h | h
        · simp only []
          rw [hl, if_neg (fun e => hne f' h e.1)]
          exact D f' h o' hN' hn
        · cases List.mem_singleton.1 h
          simp only []
          rw [hl, if_pos ⟨rfl, nf⟩]
      | true =>
        have fit : Fits d o f := c2.1 rfl
        simp only []
        intro f' hf' o' hN' hn
        rcases List.mem_append.1 hf' with h | h
        · have h1 : (addRename o.path f.path m').toOld.lookup f'.path = some none := by
            rw [lookup_addRename, if_neg (hne f' h), hl, if_neg (fun e => hne f' h e.1)]
            exact D f' h o' hN' hn
          split
          · next hst =>
            have hM : Moved d f o := ⟨hN, fit, isStructType_iff.1 hst⟩
            rw [lookup_addChildren, h1]
            intro o'' ho'' f'' hf'' t e1 e2 e3
            obtain ⟨r, e4, -⟩ := G.child_rest hM hf'' ho'' e1 e2
            exact not_below G hd h r (e3 ▸ e4)
          · exact h1
        · cases List.mem_singleton.1 h
          cases huniq o' hN'
          exact absurd fit hn
  · have hk' : ∀ k, ¬ Formerly d f k := fun k h => hk ⟨k, h⟩
    have nn : ∀ o, ¬ Names d f o := by
      rintro o ⟨-, -, q, n, k, p, -, -, h, -⟩
      exact hk' k h
    have e : (nbcStep d m f).toOld = m.toOld := by
      rcases nbcStep_other hk' m with ⟨e, -⟩ | ⟨-, e⟩ | ⟨-, e⟩ <;> rw [e]
    intro f' hf' o hN hn
    rw [e]
    rcases List.mem_append.1 hf' with h | h
    · exact D f' h o hN hn
    · cases List.mem_singleton.1 h
      exact absurd hN (nn o)

theorem Dropped.fold (G : Given d) (rest : List Field) {done : List Field} {m : Maps} {ops : List Op}
    {tops : List TOp} (I : Inv d done m ops tops) (D : Dropped d done m) (hd : d.new = done ++ rest) :
    Dropped d d.new (rest.foldl (nbcStep d) m) := by
  induction rest generalizing done m ops tops with
  | nil => rw [List.append_nil] at hd; rw [hd]; exact D
  | cons f rest ih =>
    obtain ⟨ops', tops', I'⟩ := I.step G hd
    exact ih I' (D.step G I hd) (by rw [hd]; simp)

theorem Dropped.common {l rest : List Field} {m : Maps} (D : Dropped d l m) :
    Dropped d l (rest.foldl (checkCommon d) m) := by
  induction rest generalizing m with
  | nil => exact D
  | cons f rest ih =>
    refine ih ?_
    intro f' hf' o hN hn
    have h1 := D f' hf' o hN hn
    unfold checkCommon
    split
    · exact h1
    · next o1 ho =>
      split
      · exact h1
      · next hin =>
        rw [lookup_checkDataType]
        split
        · rfl
        · exact h1

theorem dropped_renames (G : Given d) : Dropped d d.new (renames d) := by
  unfold renames
  refine Dropped.common (Dropped.fold G d.new (done := []) (ops := []) (tops := []) ?_ ?_ rfl)
  · constructor
    · exact ⟨rfl, rfl, rfl, rfl⟩
    all_goals simp
  · intro f hf; cases hf

end Verif.VMap
