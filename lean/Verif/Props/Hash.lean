import Verif.Lemmas.HashInj
set_option linter.unusedSectionVars false
/-
C13: the content hash.
-/
namespace Verif.Props
open Verif.Ids Verif.TreeSpec Verif.DiffSpec Verif.HashSpec

variable {F : Type} [FloatModel F] (h : Hasher F)

/-- **C13 (partial).** Two IDSs, possibly of different Data Dictionary versions and with children
in another order, with the same values and array sizes outside `ids_properties/version_put` have
the same hash.
Missing: the claim fails if everything filled in some part lies in `version_put`, see
`C13_only_version_put_counts`; `Kept` excludes such IDSs. -/
theorem C13_same_contents_same_hash_partial (name : Name) (c d : Fields (Val F)) (hc : WFFields c)
    (hd : WFFields d) (kc : Kept name (.struct c)) (kd : Kept name (.struct d))
    (g : SameContents name (.struct c) (.struct d)) : calcHash h name c = calcHash h name d :=
  same_hash h (.struct c) (.struct d) name (by simpa only [WF] using hc) (by simpa only [WF] using hd)
    ⟨⟨g, kc, kd⟩, by intro _ _ _ _ _ _ _ e; simp at e⟩ (.inr ⟨c, d, rfl, rfl⟩)

/-- **C13.** Two IDSs of the same type with the same hash have the same values and array sizes
outside `ids_properties/version_put`, unless the digest function maps two different byte strings
that were digested to the same digest, or a digest equals, shifted, the rest of a longer sibling
name followed by another digest. -/
theorem C13_same_hash_same_contents (name : Name) (c d : Fields (Val F)) (m : MFields)
    (hc : WFFields c) (hd : WFFields d) (tc : TypedF c m) (td : TypedF d m)
    (fc : AllFit (.struct c)) (fd : AllFit (.struct d))
    (hcol : NoCollision h (inputs h name (.struct c)) (inputs h name (.struct d)))
    (hsh : NoShift h (.struct m) (inputs h name (.struct c)) (inputs h name (.struct d)))
    (b : Bytes) (h1 : calcHash h name c = some b) (h2 : calcHash h name d = some b) :
    SameContents name (.struct c) (.struct d) :=
  (hash_same h (.struct c) (.struct d) (.struct m) name b (by simpa only [Typed] using tc)
    (by simpa only [Typed] using td) (by simpa only [WF] using hc) (by simpa only [WF] using hd)
    ⟨fc, by intro _ _ _ _ e; simp at e⟩ ⟨fd, by intro _ _ _ _ e; simp at e⟩ hcol hsh
    (.inr ⟨c, d, rfl, rfl⟩) h1 h2).1

/-- **C13.** Reading attributes and values does not change the hash. -/
theorem C13_reads (name : Name) (c d : Fields (Val F)) (as : List Addr)
    (g : (Node.struct c).reads as = .struct d) (hc : WFFields c) :
    calcHash h name d = calcHash h name c := by
  have e : content (.struct d) = content (.struct c) := by rw [← g, content_reads]
  have ef : contentF d = contentF c := by simpa [content] using e
  have hd : WFFields d := wf_of_contentF d (by rw [ef]; exact wf_contentF c hc)
  -- the hash is a function of the content
  have key : ∀ x : Node (Val F), ∀ name, WF x → (x.hasValue = true ∨ ∃ c, x = .struct c) →
      hashNode h name (content x) = hashNode h name x := by
    intro x
    refine node_induct (fun x => ∀ name, WF x → (x.hasValue = true ∨ ∃ c, x = .struct c) →
      hashNode h name (content x) = hashNode h name x) ?_ ?_ ?_ x
    · intro l v name _ hv
      rcases hv with hv | ⟨c, hv⟩
      · cases v with
        | none => simp [Node.hasValue, leafHasValue] at hv
        | some v =>
          have : (some v).filter (fun x => !Value.isEmpty x) = some v := by
            simpa [Node.hasValue, leafHasValue, Option.filter] using hv
          simp only [content, this]
      · simp at hv
    · intro c ih name hw _
      simp only [WF] at hw
      simp only [content, hashNode]
      congr 1
      simp only [structBytes]
      congr 2
      apply sort_eq _ _ (hashKids_nodup h _ _ (wf_contentF c hw)) (hashKids_nodup h _ c hw)
      rintro ⟨k, o⟩
      rw [mem_hashKids h _ _ (wf_contentF c hw), mem_hashKids h _ c hw]
      simp only [filled_content, Option.map_eq_some_iff]
      constructor
      · rintro ⟨_, ⟨x, h1, rfl⟩, h2, rfl⟩
        exact ⟨x, h1, h2, ih k x h1 k (wf_get hw (filled_iff.1 h1).1) (.inl (filled_iff.1 h1).2)⟩
      · rintro ⟨x, h1, h2, rfl⟩
        exact ⟨content x, ⟨x, h1, rfl⟩, h2,
          (ih k x h1 k (wf_get hw (filled_iff.1 h1).1) (.inl (filled_iff.1 h1).2)).symm⟩
    · intro m e ih name hw _
      simp only [WF] at hw
      have : hashElems h name (contentE e) = hashElems h name e := by
        apply List.ext_getElem?
        intro i
        rw [hashElems_get, hashElems_get, contentE_get?]
        cases hc : e.get? i with
        | none => rfl
        | some c =>
          have := ih i c hc name (by simpa only [WF] using wf_elem hw.2 hc) (.inr ⟨c, rfl⟩)
          simpa [content] using this
      simp only [content, hashNode, this, contentE_length]
  have k1 := key (.struct c) name (by simpa only [WF] using hc) (.inr ⟨c, rfl⟩)
  have k2 := key (.struct d) name (by simpa only [WF] using hd) (.inr ⟨d, rfl⟩)
  rw [calcHash, calcHash, ← k1, ← k2, e]

/-! ### Sample cases and what the code does not satisfy -/

/-- Bytes standing in for floating point numbers in examples. -/
instance byteFloat : FloatModel UInt8 where
  eq x y := x = y
  empty := 9
  neg x := 0 - x
  eq_empty x h := by simpa using h
  eq_neg_empty x h := by simpa using h
  empty_eq := rfl
  neg_empty_eq := rfl
  eq_comm x y := by simp [eq_comm]

/-- A simple digest for examples: length, sum, alternating sums and the first bytes. -/
def sampleHasher : Hasher UInt8 where
  H b := [UInt8.ofNat b.length, b.foldl (· + ·) 7, b.foldl (fun s x => 3 * s + x) 1,
    b.foldl (fun s x => 5 * s + x) 2, b.getD 0 0, b.getD 1 0, b.getD 2 0, b.getD 3 0]
  H_length b := rfl
  f64 x := [x, 0, 0, 0, 0, 0, 0, 0]
  f64_length x := rfl
  f64_inj x y h := by simpa using h

def intMeta : LeafMeta := ⟨.int, 0, false⟩

/-- `ids_properties` with `homogeneous_time` and `version_put/dd`. -/
def propsMeta : MFields :=
  .cons "ids_properties".toList (.struct (.cons "homogeneous_time".toList (.leaf intMeta)
    (.cons "version_put".toList (.struct (.cons "dd".toList (.leaf intMeta) .nil)) .nil))) .nil

def propsTree (ht dd : Option (Val UInt8)) : Fields (Val UInt8) :=
  .present "ids_properties".toList (.struct (.present "homogeneous_time".toList (.leaf intMeta ht)
    (.present "version_put".toList (.struct (.present "dd".toList (.leaf intMeta dd) .nil)) .nil))) .nil

theorem propsTree_empty (t : Option (Val UInt8)) (a : Addr) (ha : ¬ InVersionPut [] a)
    (Q : Node (Val UInt8) → Addr → Prop)
    (hQ : ∀ n s a, Q n (s :: a) → ∃ x, n.item s = some x ∧ Q x a)
    (h0 : ∀ c, ¬ Q (.struct c) []) (h1 : ∀ b, ¬ Q (.leaf intMeta none) b) :
    ¬ Q (.struct (propsTree none t)) a := by
  intro q
  cases a with
  | nil => exact h0 _ q
  | cons s a =>
    obtain ⟨x, hx, q⟩ := hQ _ _ _ q
    obtain ⟨c, e, hh⟩ := item_cases hx
    simp only [Node.struct.injEq] at e
    subst e
    have hs := not_inVP_cons.1 ha
    have hget : ∀ y, (propsTree none t).get? s.1 = some y → s.1 = "ids_properties".toList ∧
        y = (.struct (.present "homogeneous_time".toList (.leaf intMeta none)
          (.present "version_put".toList (.struct (.present "dd".toList (.leaf intMeta t) .nil)) .nil))) := by
      intro y hy
      simp only [propsTree, Fields.get?] at hy
      split at hy
      · simp only [Option.some.injEq] at hy; exact ⟨‹_›, hy.symm⟩
      · simp at hy
    rcases hh with ⟨-, hg⟩ | ⟨i, m, e, f, -, hg, -⟩
    · obtain ⟨hk, rfl⟩ := hget _ hg
      cases a with
      | nil => exact h0 _ q
      | cons s' a =>
        obtain ⟨x', hx', q⟩ := hQ _ _ _ q
        obtain ⟨c', e', hh'⟩ := item_cases hx'
        simp only [Node.struct.injEq] at e'
        subst e'
        have hs' := not_inVP_cons.1 hs.2
        have hget' : ∀ y, (Fields.present "homogeneous_time".toList (.leaf intMeta none)
          (.present "version_put".toList (.struct (.present "dd".toList (.leaf intMeta t) .nil)) .nil)).get? s'.1 = some y →
            y = .leaf intMeta none := by
          intro y hy
          simp only [Fields.get?] at hy
          split at hy
          · simp only [Option.some.injEq] at hy; exact hy.symm
          · split at hy
            · next hvp =>
              exact absurd ⟨by rw [hk]; rfl, hvp⟩ hs'.1
            · simp at hy
        rcases hh' with ⟨-, hg'⟩ | ⟨i, m, e, f, -, hg', -⟩
        · rw [hget' _ hg'] at q; exact h1 _ q
        · have := hget' _ hg'; simp at this
    · obtain ⟨-, hg⟩ := hget _ hg; simp at hg

/-- **C13 does not hold as stated.** Filling `version_put` changes the hash of an IDS in which
nothing else of `ids_properties` is filled, for every digest function that maps the empty string
and the string digested for the second IDS to different digests. -/
theorem C13_only_version_put_counts (h : Hasher UInt8)
    (hne : h.H (utf8 "ids_properties".toList ++ h.H []) ≠ h.H []) :
    SameContents [] (.struct (propsTree none (some (.int 3)))) (.struct (propsTree none none)) ∧
    calcHash h [] (propsTree none (some (.int 3))) ≠ calcHash h [] (propsTree none none) := by
  constructor
  · intro a ha
    have hv : ∀ t v, ¬ ValueAt (.struct (propsTree none t)) a v := fun t v =>
      propsTree_empty t a ha (fun n a => ValueAt n a v) (fun _ _ _ g => valueAt_cons.1 g)
        (by rintro c ⟨l, g, -⟩; simp [Node.at] at g)
        (by rintro b ⟨l, g, -⟩; cases b <;> simp [Node.at, Node.item] at g)
    have hs : ∀ t k, ¬ SizeAt (.struct (propsTree none t)) a k := fun t k =>
      propsTree_empty t a ha (fun n a => SizeAt n a k) (fun _ _ _ g => sizeAt_cons.1 g)
        (by rintro c ⟨l, e, g, -⟩; simp [Node.at] at g)
        (by rintro b ⟨l, e, g, -⟩; cases b <;> simp [Node.at, Node.item] at g)
    exact ⟨fun v => ⟨fun g => absurd g (hv _ v), fun g => absurd g (hv _ v)⟩,
      fun v => ⟨fun g => absurd g (hs _ v), fun g => absurd g (hs _ v)⟩⟩
  · have e1 : calcHash h [] (propsTree none (some (.int 3))) =
        some (h.H (utf8 "ids_properties".toList ++ h.H [])) := by
      have : calcHash h [] (propsTree none (some (.int 3))) =
        some (h.H (utf8 "ids_properties".toList ++ h.H [] ++ [])) := by with_unfolding_all rfl
      simpa using this
    have e2 : calcHash h [] (propsTree none none) = some (h.H []) := by with_unfolding_all rfl
    rw [e1, e2]
    simpa using hne

example : sampleHasher.H (utf8 "ids_properties".toList ++ sampleHasher.H []) ≠ sampleHasher.H [] := by
  with_unfolding_all decide

/-- A structure with two children, one name a prefix of the other. -/
def pairMeta : MFields := .cons "x".toList (.leaf intMeta) (.cons "xy".toList (.leaf intMeta) .nil)
def pairTree (x y : Option (Val UInt8)) : Fields (Val UInt8) :=
  .present "x".toList (.leaf intMeta x) (.present "xy".toList (.leaf intMeta y) .nil)

example : WFFields (pairTree (some (.int 3)) none) ∧ TypedF (pairTree (some (.int 3)) none) pairMeta := by
  simp [pairTree, WFFields, WF, Fields.names, pairMeta, TypedF, Typed]
example : NoCollision sampleHasher (inputs sampleHasher [] (.struct (pairTree (some (.int 3)) none)))
    (inputs sampleHasher [] (.struct (pairTree none (some (.int 3))))) := by
  have : ∀ b ∈ (inputs sampleHasher [] (.struct (pairTree (some (.int 3)) none))),
      ∀ c ∈ (inputs sampleHasher [] (.struct (pairTree none (some (.int 3))))),
        (sampleHasher.H b = sampleHasher.H c → b = c) := by with_unfolding_all decide
  exact this
example : NoShift sampleHasher (.struct pairMeta)
    (inputs sampleHasher [] (.struct (pairTree (some (.int 3)) none)))
    (inputs sampleHasher [] (.struct (pairTree none (some (.int 3))))) := by
  have key : ∀ b ∈ (inputs sampleHasher [] (.struct (pairTree (some (.int 3)) none))),
      ∀ c ∈ (inputs sampleHasher [] (.struct (pairTree none (some (.int 3))))),
        ((utf8 "y".toList ++ sampleHasher.H c).take 8 ≠ sampleHasher.H b ∧
         (utf8 "y".toList ++ sampleHasher.H b).take 8 ≠ sampleHasher.H c) := by with_unfolding_all decide
  intro k r hr hs
  have : r = "y".toList := by
    simp only [pairMeta, Siblings, SiblingsF, HasName, or_false] at hs
    obtain ⟨h1 | h1, h2 | h2⟩ := hs <;> rw [h1] at h2 <;> simp at h2
    · exact absurd h2 hr
    · exact h2
    · exact absurd h2 hr
  rw [this]; exact key
example : Kept [] (.struct (pairTree (some (.int 3)) none)) := by
  have hx : ValueAt (.struct (pairTree (some (.int 3)) none)) [("x".toList, none)] (.int 3) :=
    ⟨intMeta, rfl, rfl⟩
  intro a y ha hv hn
  cases a with
  | nil =>
    refine ⟨[("x".toList, none)], ?_, .inl ⟨_, hx⟩⟩
    simp only [List.nil_append, InVersionPut, or_false, not_and]
    intro g; exact absurd g (by decide)
  | cons s a =>
    refine ⟨[], by simpa using hn, ?_⟩
    simp only [Node.at, Option.bind_eq_some_iff] at ha
    obtain ⟨x, h1, h2⟩ := ha
    obtain ⟨c, e, hh⟩ := item_cases h1
    simp only [Node.struct.injEq] at e
    subst e
    have hget : ∀ y, (pairTree (some (.int 3)) none).get? s.1 = some y →
        (s.1 = "x".toList ∧ y = .leaf intMeta (some (.int 3))) ∨ y = .leaf intMeta none := by
      intro y hy
      simp only [pairTree, Fields.get?] at hy
      split at hy
      · simp only [Option.some.injEq] at hy; exact .inl ⟨‹_›, hy.symm⟩
      · split at hy
        · simp only [Option.some.injEq] at hy; exact .inr hy.symm
        · simp at hy
    have hleaf : ∀ v, (Node.leaf intMeta v : Node (Val UInt8)).at a = some y → a = [] ∧ y = .leaf intMeta v := by
      intro v g
      cases a with
      | nil => simp [Node.at] at g; exact ⟨rfl, g.symm⟩
      | cons => simp [Node.at, Node.item] at g
    rcases hh with ⟨hj, hg⟩ | ⟨i, m, e, f, -, hg, -⟩
    · rcases hget _ hg with ⟨hk, rfl⟩ | rfl
      · obtain ⟨rfl, rfl⟩ := hleaf _ h2
        obtain ⟨k, j⟩ := s
        simp only at hk hj
        subst hk; subst hj
        exact .inl ⟨_, hx⟩
      · obtain ⟨rfl, rfl⟩ := hleaf _ h2
        simp [Node.hasValue, leafHasValue] at hv
    · rcases hget _ hg with ⟨-, hg⟩ | hg <;> simp at hg
example : calcHash sampleHasher [] (pairTree (some (.int 3)) none) ≠
    calcHash sampleHasher [] (pairTree none (some (.int 3))) := by with_unfolding_all decide

end Verif.Props
