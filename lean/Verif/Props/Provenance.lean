import Verif.Spec.Provenance
/-! C28: provenance of converted IDSs. -/
namespace Verif.Props
open Verif.Provenance Verif.ProvenanceSpec

/-- The entries of one node. -/
private theorem entries_cons (n : PNode) (r : List PNode) (a b : Bool) :
    entries ⟨a, b, n :: r⟩ =
      ((n.references.map fun x => (n.path, x.name)) ++ n.sources.map (n.path, ·)) ++
        entries ⟨a, b, r⟩ := by
  simp [entries]

private theorem onWhole_inserted (ref : Bool) (text now : Text) (l : List PNode) (a b : Bool) :
    Inserted (([] : Text), text) (entries ⟨a, b, l⟩)
      (entries ⟨a, b, onWhole (populate ref text now) l⟩) := by
  induction l with
  | nil =>
    refine ⟨[], [], by simp [entries], ?_⟩
    cases ref <;> simp [onWhole, populate, PNode.fresh, entries]
  | cons n r ih =>
    simp only [onWhole]
    split
    · next hp =>
      rw [entries_cons, entries_cons]
      cases ref with
      | true =>
        refine ⟨n.references.map fun x => (n.path, x.name), n.sources.map (n.path, ·) ++ entries ⟨a, b, r⟩,
          by simp, ?_⟩
        simp [populate, hp]
      | false =>
        refine ⟨(n.references.map fun x => (n.path, x.name)) ++ n.sources.map (n.path, ·),
          entries ⟨a, b, r⟩, by simp, ?_⟩
        simp [populate, hp]
    · obtain ⟨u, v, h1, h2⟩ := ih
      rw [entries_cons, entries_cons, h1, h2]
      exact ⟨((n.references.map fun x => (n.path, x.name)) ++ n.sources.map (n.path, ·)) ++ u, v,
        by simp, by simp⟩

private theorem onWhole_prefix (f : PNode → PNode) (l : List PNode) :
    (∃ u n v, l = u ++ n :: v ∧ (∀ m ∈ u, m.path ≠ []) ∧ n.path = [] ∧ onWhole f l = u ++ f n :: v) ∨
    ((∀ m ∈ l, m.path ≠ []) ∧ onWhole f l = l ++ [f PNode.fresh]) := by
  induction l with
  | nil => exact .inr ⟨by simp, rfl⟩
  | cons n r ih =>
    simp only [onWhole]
    by_cases hp : n.path = []
    · rw [if_pos hp]
      exact .inl ⟨[], n, r, rfl, by simp, hp, rfl⟩
    · rw [if_neg hp]
      rcases ih with ⟨u, m, v, h1, h2, h3, h4⟩ | ⟨h1, h2⟩
      · refine .inl ⟨n :: u, m, v, by simp [h1], ?_, h3, by simp [h4]⟩
        intro x hx
        rcases List.mem_cons.mp hx with rfl | hx
        · exact hp
        · exact h2 x hx
      · refine .inr ⟨?_, by simp [h2]⟩
        intro x hx
        rcases List.mem_cons.mp hx with rfl | hx
        · exact hp
        · exact h1 x hx

/-- **C28.** A conversion with a provenance origin adds exactly one entry, about the whole IDS,
naming the origin and both versions, and keeps all existing entries in their order. -/
theorem C28_one_entry_added (p : Props) (source target by_ uri now : Text) (hu : uri ≠ [])
    (hp : p.hasProvenance = true) :
    ∃ text, Inserted ([], text) (entries p) (entries (finishConversion p source target by_ uri now)) ∧
      (∃ r, text = uri ++ r) ∧ Contains text source ∧ Contains text target ∧ Contains text by_ := by
  refine ⟨entryText uri source target by_, ?_, ⟨_, by simp only [entryText, List.append_assoc]; rfl⟩,
    ?_, ?_, ?_⟩
  · obtain ⟨a, b, l⟩ := p
    simp only at hp
    subst hp
    simp only [finishConversion, ne_eq, hu, not_false_eq_true, if_true, addEntry]
    exact onWhole_inserted b _ now l true b
  · exact ⟨_, _, by simp only [entryText, List.append_assoc]
                    rw [← List.append_assoc, ← List.append_assoc]⟩
  · refine ⟨uri ++ "; This IDS has been converted from DD ".toList ++ source ++ " to DD ".toList,
      " by IMAS-Python ".toList ++ by_ ++ ".".toList, by simp only [entryText, List.append_assoc]⟩
  · refine ⟨uri ++ "; This IDS has been converted from DD ".toList ++ source ++ " to DD ".toList ++
      target ++ " by IMAS-Python ".toList, ".".toList, by simp only [entryText, List.append_assoc]⟩

/-- **C28.** All other nodes stay as they are: only the first node about the whole IDS changes, and
it only gets an entry at the end; if there is none, one is added after all others. -/
theorem C28_other_nodes_kept (p : Props) (source target by_ uri now : Text) :
    ∃ f : PNode → PNode, (∀ n, (f n).path = n.path ∧ n.references <+: (f n).references ∧
        n.sources <+: (f n).sources) ∧
      ((finishConversion p source target by_ uri now).nodes = p.nodes ∨
       (∃ u n v, p.nodes = u ++ n :: v ∧ (∀ m ∈ u, m.path ≠ []) ∧ n.path = [] ∧
        (finishConversion p source target by_ uri now).nodes = u ++ f n :: v) ∨
       ((∀ m ∈ p.nodes, m.path ≠ []) ∧
        ∃ n, n.path = [] ∧ (finishConversion p source target by_ uri now).nodes = p.nodes ++ [n])) := by
  refine ⟨populate p.hasReference (entryText uri source target by_) now, ?_, ?_⟩
  · intro n
    cases h : p.hasReference <;> simp [populate]
  · unfold finishConversion addEntry
    by_cases hu : uri ≠ []
    · rw [if_pos hu]
      by_cases hp : p.hasProvenance = true
      · rw [if_pos hp]
        simp only
        rcases onWhole_prefix (populate p.hasReference (entryText uri source target by_) now) p.nodes
          with h | ⟨h1, h2⟩
        · exact .inr (.inl h)
        · refine .inr (.inr ⟨h1, _, ?_, h2⟩)
          cases p.hasReference <;> rfl
      · rw [if_neg hp]; exact .inl rfl
    · rw [if_neg hu]; exact .inl rfl

/-- **C28.** Without a provenance origin, or if the target version has no provenance node, nothing
is added. -/
theorem C28_nothing_added (p : Props) (source target by_ uri now : Text)
    (h : uri = [] ∨ p.hasProvenance = false) :
    finishConversion p source target by_ uri now = p := by
  unfold finishConversion addEntry
  rcases h with h | h
  · simp [h]
  · simp [h]

/-- **C28.** Repeated conversions: `n` conversions with provenance add `n` entries. -/
theorem C28_history (p : Props) (hp : p.hasProvenance = true)
    (steps : List (Text × Text × Text × Text × Text)) (hs : ∀ s ∈ steps, s.2.2.2.1 ≠ []) :
    (entries (steps.foldl (fun p s => finishConversion p s.1 s.2.1 s.2.2.1 s.2.2.2.1 s.2.2.2.2) p)).length =
      (entries p).length + steps.length ∧
    (entries p).Sublist
      (entries (steps.foldl (fun p s => finishConversion p s.1 s.2.1 s.2.2.1 s.2.2.2.1 s.2.2.2.2) p)) := by
  induction steps generalizing p with
  | nil => exact ⟨rfl, List.Sublist.refl _⟩
  | cons s r ih =>
    simp only [List.foldl_cons]
    have hu := hs s (by simp)
    have hp' : (finishConversion p s.1 s.2.1 s.2.2.1 s.2.2.2.1 s.2.2.2.2).hasProvenance = true := by
      simp [finishConversion, hu, addEntry, hp]
    obtain ⟨h1, h2⟩ := ih _ hp' (fun x hx => hs x (by simp [hx]))
    obtain ⟨text, ⟨u, v, e1, e2⟩, -⟩ := C28_one_entry_added p s.1 s.2.1 s.2.2.1 s.2.2.2.1 s.2.2.2.2 hu hp
    constructor
    · rw [h1, e1, e2]; simp; omega
    · refine List.Sublist.trans ?_ h2
      rw [e1, e2]
      exact List.Sublist.append (List.Sublist.refl _) (List.sublist_cons_self _ _)

/-- **C28.** The DD3 `source` text becomes a provenance entry about the whole IDS, unless there
are provenance nodes already: then these are kept and the text is not migrated. -/
theorem C28_source_migrated (source : Text) (p : Props) :
    (p.nodes = [] → entries (migrateSource source p) = [([], source)]) ∧
    (p.nodes ≠ [] → migrateSource source p = p) := by
  constructor
  · intro h; simp [migrateSource, h, entries, PNode.fresh]
  · intro h
    have : p.nodes.length > 0 := List.length_pos_iff.mpr h
    simp [migrateSource, this]

def sampleProps : Props :=
  ⟨true, true, [⟨"profiles_1d".toList, [⟨"x".toList, []⟩], []⟩, ⟨[], [⟨"y".toList, []⟩], []⟩]⟩

example : sampleProps.hasProvenance = true ∧ "imas:hdf5".toList ≠ [] ∧
    ((finishConversion sampleProps "3.39.0".toList "4.0.0".toList "2".toList "imas:hdf5".toList []).nodes.map
      (·.references.length)) = [1, 2] := by decide

end Verif.Props
