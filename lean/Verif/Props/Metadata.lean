import Verif.Lemmas.Metadata
import Verif.Props.Assign
/-! C47 (metadata lookup by path) and C50 (pattern search). -/
set_option linter.unusedSectionVars false
namespace Verif.Props
open Verif.DD Verif.DDSpec Verif.Ids Verif.TreeSpec
open Verif.PathSpec (FieldName)

variable {V : Type} [Value V]

/-- A small Data Dictionary: `profiles_1d` (array of structures, time dependent) with `grid/x`
and `time`, and the root `time`. -/
def sampleDD : Xml :=
  let f (name path type : String) (more : List (Name × Text)) (k : Xmls) : Xml :=
    .mk "field".toList ([("name".toList, name.toList), ("path".toList, path.toList),
      ("data_type".toList, type.toList)] ++ more) k
  .mk "IDS".toList [("name".toList, "core".toList)]
    (.cons (f "profiles_1d" "profiles_1d" "struct_array" [("type".toList, "dynamic".toList)]
      (.cons (f "grid" "profiles_1d/grid" "structure" []
        (.cons (f "x" "profiles_1d/grid/x" "FLT_1D" [] .nil) .nil))
      (.cons (f "time" "profiles_1d/time" "FLT_0D" [("type".toList, "dynamic".toList)] .nil) .nil)))
    (.cons (f "time" "time" "FLT_1D" [("type".toList, "dynamic".toList)] .nil) .nil))

theorem sampleDD_wf : WFXml [] sampleDD := by
  have h : ∀ s, Path.isValidField s = true → FieldName s := fun s => (Path.isValidField_iff s).mp
  exact .mk (.cons (n := "profiles_1d".toList) rfl (h _ (by decide)) (by decide) rfl
    (.mk (.cons (n := "grid".toList) rfl (h _ (by decide)) (by decide) rfl
      (.mk (.cons (n := "x".toList) rfl (h _ (by decide)) (by decide) rfl (.mk .nil) .nil))
      (.cons (n := "time".toList) rfl (h _ (by decide)) (by decide) rfl (.mk .nil) .nil)))
    (.cons (n := "time".toList) rfl (h _ (by decide)) (by decide) rfl (.mk .nil) .nil))

/-- **C47.** Looking up any text in the metadata of an IDS: the text is a list of names
separated by `/` or `.`. If descending along these names leads to a Data Dictionary element,
the result is the metadata of that element, its path is the names joined by `/` and its name is
the last one; otherwise `KeyError` is raised. -/
theorem C47_lookup (stack : Nat) (x : Xml) (m : MD) (hm : toplevelMeta stack x = .ok m)
    (hw : WFXml [] x) (text : Text) :
    ∃ names, Written names text ∧ (∀ n ∈ names, '.' ∉ n ∧ '/' ∉ n) ∧
      (∀ y, Reach x names y → ∃ m' ctx parent, m.getitem text = some m' ∧
        mkMeta stack y ctx parent = .ok m' ∧ m'.info.path = slashed names ∧
        some m'.info.name = names.getLast?) ∧
      ((¬ ∃ y, Reach x names y) → m.getitem text = none) := by
  obtain ⟨h1, h2⟩ := written_splitParts text
  refine ⟨splitParts text, h1, h2, ?_, ?_⟩
  · intro y hy
    obtain ⟨m', ctx, parent, hd, hmk, hr⟩ := (descend_spec (splitParts text) hm hw).1 y hy
    obtain ⟨hp, hn⟩ := hr (splitParts_ne_nil _)
    exact ⟨m', ctx, parent, hd, hmk, by simpa using hp, hn⟩
  · exact (descend_spec (splitParts text) hm hw).2

/-- **C47**: the list of names a text stands for is unique, so that `a/b`, `a.b` lead to the
same element. -/
theorem C47_names_unique (text : Text) (n1 n2 : List Name) (h1 : Written n1 text)
    (h2 : Written n2 text) (c1 : ∀ n ∈ n1, '.' ∉ n ∧ '/' ∉ n) (c2 : ∀ n ∈ n2, '.' ∉ n ∧ '/' ∉ n) :
    n1 = n2 := by rw [← splitParts_written h1 c1, splitParts_written h2 c2]

/-- **C47**: the metadata of a lookup result can be looked up by its own path. -/
theorem C47_own_path (stack : Nat) (x : Xml) (m : MD) (hm : toplevelMeta stack x = .ok m)
    (hw : WFXml [] x) (text : Text) (m' : MD) (h : m.getitem text = some m') :
    m.getitem m'.info.path = some m' := by
  obtain ⟨names, hwr, hsep, hr, hn⟩ := C47_lookup stack x m hm hw text
  by_cases hex : ∃ y, Reach x names y
  · obtain ⟨y, hy⟩ := hex
    obtain ⟨m2, ctx, parent, hg, hmk, hp, hl⟩ := hr y hy
    rw [h, Option.some.injEq] at hg; subst hg
    rw [hp]
    have hne : names ≠ [] := by rintro rfl; simp at hl
    unfold MD.getitem at h ⊢
    rw [splitParts_written (written_slashed hne) hsep]
    rw [splitParts_written hwr hsep] at h
    exact h
  · rw [hn hex] at h; simp at h

/-- A node of the data tree belongs to this metadata: it has its type, or is an element of the
array of structures the metadata describes. -/
def Belongs (n : Node V) (m : MD) : Prop :=
  Typed n m.toMeta ∨ ∃ k, m.toMeta = .aos k ∧ Typed n (.struct k)

theorem belongs_struct {c : Fields V} {m : MD} (h : Belongs (.struct c) m) :
    TypedF c m.kids.toMFields := by
  cases m with
  | mk i k =>
    simp only [Belongs, MD.toMeta] at h
    split at h
    · rcases h with h | ⟨_, h, _⟩
      · simpa [Typed, MD.kids] using h
      · simp at h
    · rcases h with h | ⟨_, h, _⟩
      · simpa [Typed, MD.kids] using h
      · simp at h
    · rcases h with h | ⟨_, h, h2⟩
      · simp [Typed] at h
      · simp only [Meta.aos.injEq] at h; subst h; simpa [Typed, MD.kids] using h2
    · rcases h with h | ⟨_, h, _⟩
      · simp [Typed] at h
      · simp at h

theorem belongs_item {n y : Node V} {m : MD} (h : Belongs n m) {s : Name × Option Nat}
    (hi : n.item s = some y) : ∃ m', m.kids.get? s.1 = some m' ∧ Belongs y m' := by
  cases n with
  | leaf l v => simp [Node.item] at hi
  | aos a e => simp [Node.item] at hi
  | struct c =>
    have ht := belongs_struct h
    have hg := typed_get ht s.1
    rw [mget_toMFields] at hg
    cases hk : m.kids.get? s.1 with
    | none =>
      rw [hk] at hg
      simp only [Option.map_none] at hg
      simp [Node.item, hg] at hi
    | some m' =>
      rw [hk] at hg
      simp only [Option.map_some] at hg
      obtain ⟨x, hx, htx⟩ := hg
      refine ⟨m', rfl, ?_⟩
      obtain ⟨nm, idx⟩ := s
      simp only [Node.item, hx] at hi
      cases idx with
      | none => simp only [Option.some.injEq] at hi; subst hi; exact .inl htx
      | some i =>
        cases x with
        | leaf l v => simp at hi
        | struct c => simp at hi
        | aos a e =>
          simp only [Option.map_eq_some_iff] at hi
          obtain ⟨f, hf, rfl⟩ := hi
          cases hmm : m'.toMeta with
          | leaf l => rw [hmm] at htx; simp [Typed] at htx
          | struct c => rw [hmm] at htx; simp [Typed] at htx
          | aos k =>
            rw [hmm] at htx
            simp only [Typed] at htx
            right
            exact ⟨k, hmm, by simpa only [Typed] using typed_elem htx.2 hf⟩

/-- **C47**: for every element reached in an IDS of this Data Dictionary, looking up its path
without indices in the metadata of the IDS gives the metadata the element belongs to. -/
theorem C47_data_tree (stack : Nat) (x : Xml) (m : MD) (hm : toplevelMeta stack x = .ok m)
    (hw : WFXml [] x) (root : Node V) (ht : Typed root m.toMeta) (a : Addr) (ha : a ≠ [])
    (n : Node V) (hn : root.at a = some n) :
    ∃ m', m.getitem (slashed (a.map (·.1))) = some m' ∧ Belongs n m' ∧
      m'.info.path = slashed (a.map (·.1)) := by
  have key : ∀ (a : Addr) (r : Node V) (md : MD), Belongs r md → ∀ n, r.at a = some n →
      ∃ m', descend md (a.map (·.1)) = some m' ∧ Belongs n m' := by
    intro a
    induction a with
    | nil =>
      intro r md hb n hn
      simp only [Node.at, Option.some.injEq] at hn; subst hn
      exact ⟨md, rfl, hb⟩
    | cons s a ih =>
      intro r md hb n hn
      simp only [Node.at, Option.bind_eq_some_iff] at hn
      obtain ⟨y, hy, hn⟩ := hn
      obtain ⟨m1, hm1, hb1⟩ := belongs_item hb hy
      obtain ⟨m', hd, hb'⟩ := ih y m1 hb1 n hn
      exact ⟨m', by simp only [List.map_cons, descend, hm1, hd], hb'⟩
  obtain ⟨m', hd, hb⟩ := key a root m (.inl ht) n hn
  have hne : a.map (·.1) ≠ [] := by simpa using ha
  -- the names are Data Dictionary names
  have hreach : ∃ y, Reach x (a.map (·.1)) y := by
    apply Classical.byContradiction
    intro hno
    rw [(descend_spec _ hm hw).2 hno] at hd
    simp at hd
  obtain ⟨y, hy⟩ := hreach
  have hsep : ∀ k ∈ a.map (·.1), '.' ∉ k ∧ '/' ∉ k := by
    have names : ∀ {ns : List Name} {x y : Xml} {here : List Name}, WFXml here x →
        Reach x ns y → ∀ k ∈ ns, FieldName k := by
      intro ns
      induction ns with
      | nil => simp
      | cons n ns ih =>
        intro x y here hw hr k hk
        cases hr with
        | @cons _ z _ _ _ hc hzn hr =>
          cases hw with
          | mk hwk =>
            have wfmem : ∀ {kk : Xmls} {seen : List Name}, WFXmls here seen kk → z ∈ kk.toList →
                FieldName n ∧ WFXml (here ++ [n]) z := by
              intro kk
              induction kk using Xmls.rec (motive_1 := fun _ => True) with
              | mk => trivial
              | nil => intro seen _ h; simp [Xmls.toList] at h
              | cons w r _ ih =>
                intro seen hw hz
                cases hw with
                | @cons _ _ _ _ n' hn' hf hs hp hx hr =>
                  simp only [Xmls.toList, List.mem_cons] at hz
                  rcases hz with rfl | hz
                  · rw [Named] at hzn hn'; rw [hzn, Option.some.injEq] at hn'
                    subst hn'; exact ⟨hf, hx⟩
                  · exact ih hr hz
            obtain ⟨hf, hwz⟩ := wfmem hwk hc
            rcases List.mem_cons.mp hk with rfl | hk
            · exact hf
            · exact ih hwz hr k hk
    intro k hk
    have hf := names hw hy k hk
    refine ⟨?_, fieldName_slash hf⟩
    intro hdot
    have := Path.FieldName.plain hf _ hdot
    simp [Path.PlainChar, PathSpec.Lower, PathSpec.Digit] at this
  refine ⟨m', ?_, hb, ?_⟩
  · unfold MD.getitem
    rw [splitParts_written (written_slashed hne) hsep, hd]
  · obtain ⟨m2, _, _, hd2, _, hrest⟩ := (descend_spec _ hm hw).1 y hy
    rw [hd, Option.some.injEq] at hd2; subst hd2
    simpa using (hrest hne).1

example : ∃ m, toplevelMeta 50 sampleDD = .ok m ∧
    ((m.getitem "profiles_1d.grid/x".toList).map fun k => k.info.path) =
      some "profiles_1d/grid/x".toList ∧
    (m.getitem "profiles_1d/x".toList).isNone = true ∧
    Typed (m.toMeta.fresh : Node (Val Int)) m.toMeta :=
  ⟨_, by with_unfolding_all rfl, by with_unfolding_all rfl, by with_unfolding_all rfl,
    typed_fresh _⟩

/-! ### C50 -/

/-- **C50.** The result lists, for the matching elements in document order, their paths: there
is a list of positions, in document order, which contains exactly the positions of the elements
whose path matches, and the result is the list of their paths. -/
theorem C50_find_paths (search : Text → Bool) (x : Xml) :
    ∃ ps : List (List Nat), ps.Pairwise Before ∧
      (∀ p, p ∈ ps ↔ ∃ y, Xml.at x p = some y ∧ search y.path = true) ∧
      (findPaths search x).map some = ps.map fun p => (Xml.at x p).map Xml.path := by
  refine ⟨x.positions.filter fun p => match Xml.at x p with
    | some y => search y.path | none => false, (positions_sorted x).filter _, ?_, ?_⟩
  · intro p
    rw [List.mem_filter, mem_positions]
    cases Xml.at x p <;> simp
  · have h := iter_positions x
    unfold findPaths
    generalize x.iter = l at h
    have hmem := mem_positions x
    generalize hps : x.positions = ps at h
    clear hps hmem
    induction l generalizing ps with
    | nil =>
      cases ps with
      | nil => rfl
      | cons p ps => simp at h
    | cons y l ih =>
      cases ps with
      | nil => simp at h
      | cons p ps =>
        simp only [List.map_cons, List.cons.injEq] at h
        obtain ⟨h1, h2⟩ := h
        have ih := ih ps h2
        simp only [List.map_cons, List.filter_cons, ← h1]
        cases search y.path with
        | true => simp [← h1, ih]
        | false => simpa using ih

/-- **C50.** In a well-formed Data Dictionary no path is listed twice. -/
theorem C50_no_duplicates (search : Text → Bool) (here : List Name) (x : Xml)
    (hh : ∀ n ∈ here, FieldName n) (hx : x.path = slashed here) (hw : WFXml here x) :
    (findPaths search x).Nodup := by
  unfold findPaths
  refine List.Pairwise.filter search ?_
  have h1 := wf_nodup hw hh
  have h2 := wf_paths hw hh
  cases x with
  | mk t a k =>
    simp only [Xml.iter, List.map_cons]
    refine List.nodup_cons.mpr ⟨?_, h1⟩
    intro hm
    obtain ⟨y, hy, he⟩ := List.mem_map.mp hm
    obtain ⟨n, l, hp, hf⟩ := h2 y hy
    rw [hp, hx] at he
    have := congrArg List.length (slashed_inj (by
      intro z hz
      rcases List.mem_append.mp hz with hz | hz
      · exact hh z hz
      · exact hf z hz) hh he)
    simp at this

example : sampleDD.path = slashed [] ∧ WFXml [] sampleDD ∧
    findPaths (fun p => "time".toList.isSuffixOf p) sampleDD =
      ["profiles_1d/time".toList, "time".toList] :=
  ⟨rfl, sampleDD_wf, by with_unfolding_all decide⟩

end Verif.Props
