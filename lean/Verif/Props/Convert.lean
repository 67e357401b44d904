import Verif.Lemmas.ConvertIdentity
import Verif.Lemmas.ConvertSent
import Verif.Props.Tree
import Verif.Props.Diff
set_option linter.unusedSectionVars false
/-
C22: conversions move every convertible value and invent none.
-/
namespace Verif.Props
open Verif.Ids Verif.TreeSpec Verif.DiffSpec Verif.Convert Verif.ConvertSpec

section
variable {V : Type} [Value V]

/-- **C22, values.** After a successful conversion, a data node of the source with a value is found
at its target, with the value that assigning to a node of the target's type stores, and after
post-processing if there is one. -/
theorem C22_value_moved (cx : Cfg V) (hp : Proper cx) (tm : Meta) (source : Fields V)
    (hw : WFFields source) (target target' : Node V) (ht : Typed target tm)
    (h : copyIds cx source target = .ok target') (A B : Addr) (v : V)
    (hv : ValueAt (.struct source) A v) (hs : Sent cx tm [] [] source A B)
    (hc : cx.change (names A) = none) (ha : Alone cx tm source A B) (hn : NoPostAbove cx A) :
    ∃ l w, metaAt tm (names B) = some (.leaf l) ∧ cx.store l v = .ok w ∧
      ∃ y, target'.at B = some y ∧
        match cx.post (names A) with
        | none => y = .leaf l w
        | some f => f (.leaf l w) = .ok y := by
  obtain ⟨l0, hA, hne⟩ := hv
  have hval : (Node.leaf l0 (some v)).hasValue = true := by simp [Node.hasValue, leafHasValue, hne]
  obtain ⟨n1, n2, l2, h1, h2, h3, h4, h5⟩ := copy_split hp hw ht h hs hA hval
  have hfr : ∀ e ∈ l2, ¬ Contains B e.dst ∧ ¬ Contains e.dst B := by
    intro e he
    obtain ⟨h6, h7⟩ := h5 e he
    rcases later_elsewhere ha hn h6 h7 with h | ⟨h, -⟩ | ⟨h, -⟩
    · exact h
    · exact absurd trivial h.1
    · exact absurd trivial h.1
  simp only [mainOf, hc] at h2
  have e1 : ∀ (e : Entry V) (es : List (Entry V)), e :: es = [e] ++ es := fun _ _ => rfl
  rw [e1, exec_append] at h2
  obtain ⟨n3, h6, h7⟩ := andThen_ok.1 h2
  obtain ⟨x, y, h8, h9, h10⟩ := exec_one h6 (keeps_store cx (some v))
  obtain ⟨l, w0, v0, w, rfl, e2, h11, rfl⟩ := storeNode_ok (show storeNode cx (some v) x = .ok y from h9)
  cases e2
  refine ⟨l, w, typed_leaf_at h1 h8, h11, ?_⟩
  simp only at h10
  rcases hq : cx.post (names A) with _ | f
  · simp only [postOf, hq, exec] at h7
    cases h7
    exact ⟨_, exec_frame l2 h4 h3 h10 hfr, rfl⟩
  · simp only [postOf, hq] at h7
    obtain ⟨x2, y2, h12, h13, h14⟩ := exec_one h7 (hp.2 _ _ hq)
    simp only at h12
    rw [h10] at h12; cases h12
    exact ⟨y2, exec_frame l2 h4 h3 h14 hfr, h13⟩

/-- **C22, type changes.** A node whose type changed is converted by the function for that change:
its result is found at the target. -/
theorem C22_type_change_moved (cx : Cfg V) (hp : Proper cx) (tm : Meta) (source : Fields V)
    (hw : WFFields source) (target target' : Node V) (ht : Typed target tm)
    (h : copyIds cx source target = .ok target') (A B : Addr) (x : Node V)
    (f : Node V → Node V → Except ConvErr (Node V))
    (hA : (Node.struct source).at A = some x) (hv : x.hasValue = true)
    (hs : Sent cx tm [] [] source A B)
    (hc : cx.change (names A) = some (.custom f)) (ha : Alone cx tm source A B)
    (hn : NoPostAbove cx A) :
    ∃ z y, f x z = .ok y ∧ target'.at B = some y ∧
      ∃ m, metaAt tm (names B) = some m ∧ TypedAt z m := by
  obtain ⟨n1, n2, l2, h1, h2, h3, h4, h5⟩ := copy_split hp hw ht h hs hA hv
  have hfr : ∀ e ∈ l2, ¬ Contains B e.dst ∧ ¬ Contains e.dst B := by
    intro e he
    obtain ⟨h6, h7⟩ := h5 e he
    rcases later_elsewhere ha hn h6 h7 with h | ⟨h, -⟩ | ⟨h, -⟩
    · exact h
    · exact absurd hc (h.2 f)
    · exact absurd hc (h.2 f)
  have hm : mainOf cx (names A) A B x = [⟨A, B, .apply (f x)⟩] := by
    unfold mainOf
    rw [hc]
    cases x <;> rfl
  rw [hm] at h2
  obtain ⟨z, y, h8, h9, h10⟩ := exec_one h2 (hp.1 _ _ x hc)
  exact ⟨z, y, h9, exec_frame l2 h4 h3 h10 hfr, typedAt_at (.inl h1) h8⟩

/-- **C22, sizes.** An array of structures gets as many elements in the target as it has in the
source. A structure that became an array of structures gets one element. -/
theorem C22_size_moved (cx : Cfg V) (hp : Proper cx) (tm : Meta) (source : Fields V)
    (hw : WFFields source) (target target' : Node V) (ht : Typed target tm)
    (h : copyIds cx source target = .ok target') (A B : Addr) (x : Node V) (k : Nat)
    (hA : (Node.struct source).at A = some x) (hv : x.hasValue = true)
    (hs : Sent cx tm [] [] source A B)
    (hx : (cx.change (names A) = none ∧ SizeAt (.struct source) A k) ∨
      (cx.change (names A) = some .structAos ∧ (∃ c, x = .struct c) ∧ k = 1))
    (ha : Alone cx tm source A B) (hn : NoPostAbove cx A) (hpost : cx.post (names A) = none) :
    SizeAt target' B k := by
  obtain ⟨n1, n2, l2, h1, h2, h3, h4, h5⟩ := copy_split hp hw ht h hs hA hv
  have hm : mainOf cx (names A) A B x = [⟨A, B, .resize k⟩] ∧ k ≠ 0 := by
    rcases hx with ⟨hc, m, e, h6, h7, h8⟩ | ⟨hc, ⟨c, rfl⟩, rfl⟩
    · rw [h6] at hA; cases hA
      simp only [mainOf, hc, h7]; exact ⟨trivial, h8⟩
    · simp only [mainOf, hc]; exact ⟨trivial, by simp⟩
  rw [hm.1] at h2
  obtain ⟨z, y, h8, h9, h10⟩ := exec_one h2 (keeps_resize k)
  obtain ⟨m, e, rfl, rfl⟩ := resizeNode_ok h9
  have hfr : ∀ e ∈ l2, (¬ Contains B e.dst ∧ ¬ Contains e.dst B) ∨ Inside B e.dst := by
    intro e he
    obtain ⟨h6, h7⟩ := h5 e he
    rcases later_elsewhere ha hn h6 h7 with h | ⟨h, h11⟩ | ⟨h, h11, h12⟩
    · exact .inl h
    · exact .inr h11
    · obtain ⟨B', x', -, -, -, -, h13⟩ := h6
      rw [List.nil_append, h11] at h13
      cases ho : e.op with
      | post f => rw [ho] at h13; simp only [OpSpec, hpost] at h13; simp at h13
      | store => rw [ho] at h12; simp [Op.isPost] at h12
      | resize => rw [ho] at h12; simp [Op.isPost] at h12
      | apply => rw [ho] at h12; simp [Op.isPost] at h12
  obtain ⟨el, h11, h12⟩ := exec_length l2 h4 h3 h10 hfr
  refine ⟨m, el, h11, ?_, hm.2⟩
  rw [h12, ofList_length, List.length_replicate]

/-- **C22, nothing else.** Every value in the target after a conversion was in the target before, is
what assigning the value of a source node to this node stores, or comes from a type change or
post-processing. -/
theorem C22_no_other_value (cx : Cfg V) (hp : Proper cx) (tm : Meta) (source : Fields V)
    (hw : WFFields source) (target target' : Node V) (ht : Typed target tm)
    (h : copyIds cx source target = .ok target') (b : Addr) (w : V) (hb : ValueAt target' b w) :
    ValueAt target b w ∨
    (∃ A l v, Sent cx tm [] [] source A b ∧ ValueAt (.struct source) A v ∧
      cx.store l v = .ok (some w)) ∨
    (∃ A B x, Sent cx tm [] [] source A B ∧ (Node.struct source).at A = some x ∧
      x.hasValue = true ∧ Contains B b ∧
      ((∃ f, cx.change (names A) = some (.custom f)) ∨ (∃ f, cx.post (names A) = some f))) := by
  obtain ⟨h1, -⟩ := copyFields_plan hp [] [] source ht h
  rcases exec_value _ (plan_keeps hp hw) h1 hb with h2 | ⟨e, h2, h3⟩
  · exact .inl h2
  · right
    obtain ⟨B, x, h4, h5, h6, h7, h8⟩ := planFields_spec [] [] source hw e h2
    simp only [List.nil_append] at h8
    unfold FromOp at h3
    cases ho : e.op with
    | store v =>
      rw [ho] at h3 h8
      obtain ⟨rfl, l, v0, rfl, h9⟩ := h3
      obtain ⟨e1, h10, l', rfl⟩ := h8
      rw [← e1] at h4
      refine .inl ⟨e.src, l, v0, h4, ⟨l', h5, ?_⟩, h9⟩
      simpa [Node.hasValue, leafHasValue] using h6
    | resize k => rw [ho] at h3; exact h3.elim
    | apply f =>
      rw [ho] at h3 h8
      obtain ⟨e1, g, h9, -⟩ := h8
      exact .inr ⟨e.src, B, x, h4, h5, h6, contains_trans h7 h3, .inl ⟨g, h9⟩⟩
    | post f =>
      rw [ho] at h3 h8
      exact .inr ⟨e.src, B, x, h4, h5, h6, contains_trans h7 h3, .inr ⟨f, h8⟩⟩

/-- **C22, nothing else.** The same for the number of elements of arrays of structures. -/
theorem C22_no_other_size (cx : Cfg V) (hp : Proper cx) (tm : Meta) (source : Fields V)
    (hw : WFFields source) (target target' : Node V) (ht : Typed target tm)
    (h : copyIds cx source target = .ok target') (b : Addr) (k : Nat) (hb : SizeAt target' b k) :
    SizeAt target b k ∨
    (∃ A, Sent cx tm [] [] source A b ∧ cx.change (names A) = none ∧
      SizeAt (.struct source) A k) ∨
    (∃ A c, Sent cx tm [] [] source A b ∧ cx.change (names A) = some .structAos ∧
      (Node.struct source).at A = some (.struct c) ∧ c.hasValue = true ∧ k = 1) ∨
    (∃ A B x, Sent cx tm [] [] source A B ∧ (Node.struct source).at A = some x ∧
      x.hasValue = true ∧ Contains B b ∧
      ((∃ f, cx.change (names A) = some (.custom f)) ∨ (∃ f, cx.post (names A) = some f))) := by
  obtain ⟨h1, -⟩ := copyFields_plan hp [] [] source ht h
  rcases exec_size _ (plan_keeps hp hw) h1 hb with h2 | ⟨e, h2, h3⟩
  · exact .inl h2
  · right
    obtain ⟨B, x, h4, h5, h6, h7, h8⟩ := planFields_spec [] [] source hw e h2
    simp only [List.nil_append] at h8
    unfold FromSize at h3
    cases ho : e.op with
    | store v => rw [ho] at h3; exact h3.elim
    | resize j =>
      rw [ho] at h3 h8
      obtain ⟨rfl, rfl⟩ := h3
      obtain ⟨e1, ⟨h9, m, el, rfl, h10⟩ | ⟨h9, ⟨c, rfl⟩, rfl⟩⟩ := h8
      · rw [← e1] at h4
        obtain ⟨m', e', -, -, hk⟩ := hb
        exact .inl ⟨e.src, h4, h9, m, el, h5, h10, hk⟩
      · rw [← e1] at h4
        exact .inr (.inl ⟨e.src, c, h4, h9, h5, by simpa [Node.hasValue] using h6, rfl⟩)
    | apply f =>
      rw [ho] at h3 h8
      obtain ⟨e1, g, h9, -⟩ := h8
      exact .inr (.inr ⟨e.src, B, x, h4, h5, h6, contains_trans h7 h3, .inl ⟨g, h9⟩⟩)
    | post f =>
      rw [ho] at h3 h8
      exact .inr (.inr ⟨e.src, B, x, h4, h5, h6, contains_trans h7 h3, .inr ⟨f, h8⟩⟩)

/-- **C22, separation.** If the map between the dictionaries is one-to-one, no two nodes of the source
write to the same place. So for such maps the theorems above apply to every node that goes
somewhere. -/
theorem C22_one_to_one (cx : Cfg V) (sm tm : Meta) (ho : OneToOne cx sm tm) (source : Fields V)
    (hm : Typed (.struct source) sm) (A B : Addr) (x : Node V)
    (hA : (Node.struct source).at A = some x) (hs : Sent cx tm [] [] source A B)
    (hw : Writes cx (names A) x) : Alone cx tm source A B :=
  alone_of_oneToOne ho hm hs hA hw

/-- **C22, all values.** With a one-to-one map, without type changes and post-processing, the values
of the target after converting to a new IDS are exactly the values of the source, as stored by
assignment, at the places where their nodes go. -/
theorem C22_exactly (cx : Cfg V) (hchange : ∀ q, cx.change q = none) (hpost : ∀ q, cx.post q = none)
    (sm tm : Meta) (ho : OneToOne cx sm tm) (source : Fields V) (hw : WFFields source)
    (hm : Typed (.struct source) sm) (htm : ∃ f, tm = .struct f) (target' : Node V)
    (h : copyIds cx source tm.fresh = .ok target') (b : Addr) (w : V) :
    ValueAt target' b w ↔
      Value.isEmpty w = false ∧ ∃ A v l, ValueAt (.struct source) A v ∧
        Sent cx tm [] [] source A b ∧ metaAt tm (names b) = some (.leaf l) ∧
        cx.store l v = .ok (some w) := by
  have hp : Proper cx := by
    constructor
    · intro q f x hq; rw [hchange] at hq; simp at hq
    · intro q f hq; rw [hpost] at hq; simp at hq
  have ht : Typed (tm.fresh : Node V) tm := by
    obtain ⟨f, rfl⟩ := htm
    exact typed_fresh _
  have moved : ∀ A B v, ValueAt (.struct source) A v → Sent cx tm [] [] source A B →
      ∃ l w, metaAt tm (names B) = some (.leaf l) ∧ cx.store l v = .ok w ∧
        target'.at B = some (.leaf l w) := by
    intro A B v hv hs
    have hv' := hv
    obtain ⟨l0, hA, -⟩ := hv'
    obtain ⟨l, w, h1, h2, y, h3, h4⟩ := C22_value_moved cx hp tm source hw tm.fresh target' ht h A B v
      hv hs (hchange _) (alone_of_oneToOne ho hm hs hA (by simp [Writes])) (fun _ _ _ => hpost _)
    rw [hpost] at h4
    simp only at h4
    subst h4
    exact ⟨l, w, h1, h2, h3⟩
  constructor
  · intro hb
    obtain ⟨l1, hb1, hne⟩ := id hb
    refine ⟨hne, ?_⟩
    rcases C22_no_other_value cx hp tm source hw tm.fresh target' ht h b w hb with
      h1 | ⟨A, l, v, h1, h2, h3⟩ | ⟨A, B, x, -, -, -, -, ⟨f, h1⟩ | ⟨f, h1⟩⟩
    · exact absurd h1 (fresh_no_value tm b w)
    · obtain ⟨l', w', h4, h5, h6⟩ := moved A b v h2 h1
      rw [hb1] at h6
      cases h6
      exact ⟨A, v, l1, h2, h1, h4, h5⟩
    · rw [hchange] at h1; simp at h1
    · rw [hpost] at h1; simp at h1
  · rintro ⟨hne, A, v, l, h1, h2, h3, h4⟩
    obtain ⟨l', w', h5, h6, h7⟩ := moved A b v h1 h2
    rw [h3] at h5; cases h5
    rw [h4] at h6; cases h6
    exact ⟨l, h7, hne⟩

/-- **C22, identity.** Converting to the same version succeeds and gives the same values and the same
numbers of elements. -/
theorem C22_identity (store : LeafMeta → V → Except ConvErr (Option V)) (sm : Meta)
    (source : Fields V) (hw : WFFields source) (hm : Typed (.struct source) sm)
    (hstore : ∀ A l v, (Node.struct source).at A = some (.leaf l (some v)) →
      Value.isEmpty v = false → store l v = .ok (some v)) :
    ∃ target', copyIds (sameVersion store) source sm.fresh = .ok target' ∧ Typed target' sm ∧
      (∀ a v, ValueAt target' a v ↔ ValueAt (.struct source) a v) ∧
      (∀ a k, SizeAt target' a k ↔ SizeAt (.struct source) a k) := by
  cases sm with
  | leaf => simp [Typed] at hm
  | aos => simp [Typed] at hm
  | struct mf =>
    have htf : TypedF source mf := by simpa only [Typed] using hm
    have ht : Typed ((Meta.struct mf).fresh : Node V) (.struct mf) := typed_fresh _
    have hfresh : ((Meta.struct mf).fresh : Node V).at [] = some (.struct mf.fresh) := by
      simp [Node.at, Meta.fresh]
    obtain ⟨target', h1, h2, -⟩ := ok_fields store (.struct mf) [] [] source hw _ ht (.struct mf) rfl
      mf.fresh hfresh
      (by
        intro k z hz
        have := typed_get htf k
        simp only [child, mchild_eq]
        cases hk : mget k mf with
        | none => rw [hk] at this; simp only at this; rw [this] at hz; simp at hz
        | some m' =>
          rw [hk] at this
          obtain ⟨z', h1, h2⟩ := this
          rw [hz] at h1; cases h1
          exact ⟨m', rfl, h2⟩)
      (fun A l v hA hne => ⟨some v, hstore A l v hA hne⟩)
    have hroot : ∃ m, metaAt (.struct mf) (names []) = some m ∧ TypedAt (.struct source) m :=
      ⟨_, rfl, .inl hm⟩
    have hp : Proper (sameVersion store) := by
      constructor
      · intro q f x hq; simp [sameVersion] at hq
      · intro q f hq; simp [sameVersion] at hq
    refine ⟨target', h1, h2, ?_, ?_⟩
    · intro a v
      rw [C22_exactly (sameVersion store) (fun _ => rfl) (fun _ => rfl) (.struct mf) (.struct mf)
        (oneToOne_same store _) source hw hm ⟨mf, rfl⟩ target' h1 a v]
      constructor
      · rintro ⟨hne, A, v', l, ⟨l', hA, hne'⟩, h4, h5, h6⟩
        have := sent_same_eq store (.struct mf) hroot h4
        simp only [List.nil_append] at this
        subst this
        have h7 := typed_leaf_at hm hA
        rw [h5] at h7; cases h7
        have : store l v' = .ok (some v) := h6
        rw [hstore a l v' hA hne'] at this
        cases this
        exact ⟨l, hA, hne'⟩
      · rintro ⟨l, hA, hne⟩
        refine ⟨hne, a, v, l, ⟨l, hA, hne⟩, ?_, typed_leaf_at hm hA, hstore a l v hA hne⟩
        have := sent_same store (.struct mf) (t := []) hroot hA (by simp)
        exact this
    · intro a k
      constructor
      · intro hk
        rcases C22_no_other_size (sameVersion store) hp (.struct mf) source hw _ target' ht h1 a k hk with
          h3 | ⟨A, h3, -, h4⟩ | ⟨A, c, -, h3, -⟩ | ⟨A, B, x, -, -, -, -, ⟨f, h3⟩ | ⟨f, h3⟩⟩
        · exact absurd h3 (fresh_no_size _ _ _)
        · have := sent_same_eq store (.struct mf) hroot h3
          simp only [List.nil_append] at this
          subst this
          exact h4
        · simp [sameVersion] at h3
        · simp [sameVersion] at h3
        · simp [sameVersion] at h3
      · intro hk
        obtain ⟨m, e, hA, hl, hne⟩ := id hk
        have hs := sent_same store (.struct mf) (t := []) hroot hA (by simp)
        simp only [List.nil_append, names, List.map_nil] at hs
        refine C22_size_moved (sameVersion store) hp (.struct mf) source hw _ target' ht h1 a a _ k hA
          ?_ hs (.inl ⟨rfl, hk⟩)
          (alone_of_oneToOne (oneToOne_same store _) hm hs hA (by simp [Writes, sameVersion]))
          (fun _ _ _ => rfl) rfl
        simp only [Node.hasValue, decide_eq_true_eq]; omega

/-- **C22, identity.** So the result compares equal to the source. -/
theorem C22_identity_equal (eqv : V → V → Bool) (hrefl : ∀ v, eqv v v = true)
    (store : LeafMeta → V → Except ConvErr (Option V)) (mf : MFields) (hmf : WFMFields mf)
    (source : Fields V) (hw : WFFields source) (hm : TypedF source mf)
    (hstore : ∀ A l v, (Node.struct source).at A = some (.leaf l (some v)) →
      Value.isEmpty v = false → store l v = .ok (some v)) (p : Position) :
    ∃ target', copyIds (sameVersion store) source (.struct mf.fresh) = .ok (.struct target') ∧
      structEq eqv p p source target' = true := by
  obtain ⟨t, h1, h2, h3, h4⟩ := C22_identity store (.struct mf) source hw (by simpa only [Typed] using hm)
    hstore
  cases t with
  | leaf => simp [Typed] at h2
  | aos => simp [Typed] at h2
  | struct t =>
    refine ⟨t, by simpa [Meta.fresh] using h1, ?_⟩
    have hwt : WFFields t := wf_of_typedF t mf (by simpa only [Typed] using h2) hmf
    refine C12_same_content_equal eqv p source t mf hw hwt hm (by simpa only [Typed] using h2) ?_ ?_
    · exact ⟨fun a v h => ⟨v, (h3 a v).2 h, hrefl v⟩, fun a v h => ⟨v, (h3 a v).1 h, hrefl v⟩⟩
    · intro a k; exact (h4 a k).symm

end

/-! ### Concrete cases -/

/-- Old dictionary: a data node, an array of structures, a node that gets renamed, one that
disappears, and a structure that becomes an array. -/
def oldDict : MFields :=
  .cons "a".toList (.leaf ⟨.int, 1, false⟩) (.cons "g".toList (.aos (.cons "x".toList (.leaf ⟨.int, 1, false⟩) .nil))
    (.cons "old".toList (.leaf ⟨.int, 1, false⟩) (.cons "gone".toList (.leaf ⟨.int, 1, false⟩)
      (.cons "s".toList (.struct (.cons "y".toList (.leaf ⟨.int, 1, false⟩) .nil)) .nil))))

def newDict : MFields :=
  .cons "a".toList (.leaf ⟨.int, 1, false⟩) (.cons "g".toList (.aos (.cons "x".toList (.leaf ⟨.int, 1, false⟩) .nil))
    (.cons "new".toList (.struct (.cons "sub".toList (.leaf ⟨.int, 1, false⟩) .nil))
      (.cons "s".toList (.aos (.cons "y".toList (.leaf ⟨.int, 1, false⟩) .nil)) .nil)))

def oldData : Fields (List Int) :=
  .present "a".toList (.leaf ⟨.int, 1, false⟩ (some [1]))
  (.present "g".toList (.aos (.cons "x".toList (.leaf ⟨.int, 1, false⟩) .nil)
    (.cons (.present "x".toList (.leaf ⟨.int, 1, false⟩ (some [2])) .nil)
      (.cons (.present "x".toList (.leaf ⟨.int, 1, false⟩ (some [3])) .nil) .nil)))
  (.present "old".toList (.leaf ⟨.int, 1, false⟩ (some [4]))
  (.present "gone".toList (.leaf ⟨.int, 1, false⟩ (some [5]))
  (.present "s".toList (.struct (.present "y".toList (.leaf ⟨.int, 1, false⟩ (some [6])) .nil)) .nil))))

def negateSample : Node (List Int) → Except ConvErr (Node (List Int))
  | .leaf l (some v) => .ok (.leaf l (some (v.map (- ·))))
  | x => .ok x

def sampleMap : Cfg (List Int) where
  path q := if q = ["old".toList] then some (some ["new".toList, "sub".toList])
    else if q = ["gone".toList] then some none else none
  change q := if q = ["s".toList] then some .structAos else none
  post q := if q = ["a".toList] then some negateSample else none
  store _ v := .ok (some v)

def newData : Node (List Int) :=
  .struct (.present "a".toList (.leaf ⟨.int, 1, false⟩ (some [-1]))
  (.present "g".toList (.aos (.cons "x".toList (.leaf ⟨.int, 1, false⟩) .nil)
    (.cons (.present "x".toList (.leaf ⟨.int, 1, false⟩ (some [2])) .nil)
      (.cons (.present "x".toList (.leaf ⟨.int, 1, false⟩ (some [3])) .nil) .nil)))
  (.present "new".toList (.struct (.present "sub".toList (.leaf ⟨.int, 1, false⟩ (some [4])) .nil))
  (.present "s".toList (.aos (.cons "y".toList (.leaf ⟨.int, 1, false⟩) .nil)
    (.cons (.present "y".toList (.leaf ⟨.int, 1, false⟩ (some [6])) .nil) .nil)) .nil))))

example : copyIds sampleMap oldData (Meta.struct newDict).fresh = .ok newData := by
  with_unfolding_all rfl

example : WFFields oldData ∧ Typed (.struct oldData) (.struct oldDict) := by
  simp [oldData, oldDict, WFFields, WFMFields, WFMeta, WF, WFElems, Fields.names, mnames, Typed,
    TypedF, TypedE]

theorem sampleMap_proper : Proper sampleMap := by
  constructor
  · intro q f x hq
    simp only [sampleMap] at hq
    split at hq <;> simp at hq
  · intro q f hq
    simp only [sampleMap] at hq
    split at hq
    · cases hq
      constructor
      · intro x y m hx h
        cases x with
        | leaf l v => cases v <;> simp only [negateSample] at h <;> cases h <;> cases m <;> first | exact hx | simp [Typed] at hx ⊢ <;> exact hx
        | struct c => simp only [negateSample] at h; cases h; exact hx
        | aos m e => simp only [negateSample] at h; cases h; exact hx
      · intro g y h
        simp only [negateSample] at h; cases h; exact ⟨g, rfl⟩
    · simp at hq

/-- The renamed node is found at its new path. -/
example : Sent sampleMap (.struct newDict) [] [] oldData [("old".toList, none)]
    [("new".toList, none), ("sub".toList, none)] :=
  .here (x := .leaf ⟨.int, 1, false⟩ (some [4])) (by with_unfolding_all rfl) (by with_unfolding_all rfl)

example : Alone sampleMap (.struct newDict) oldData [("old".toList, none)]
    [("new".toList, none), ("sub".toList, none)] := by
  refine alone_of_list ?_
  intro y hy _ _
  have e : sentFields sampleMap (.struct newDict) [] [] oldData =
      [([("a".toList, none)], [("a".toList, none)]), ([("g".toList, none)], [("g".toList, none)]),
       ([("g".toList, some 0), ("x".toList, none)], [("g".toList, some 0), ("x".toList, none)]),
       ([("g".toList, some 1), ("x".toList, none)], [("g".toList, some 1), ("x".toList, none)]),
       ([("old".toList, none)], [("new".toList, none), ("sub".toList, none)]),
       ([("s".toList, none)], [("s".toList, none)]),
       ([("s".toList, none), ("y".toList, none)], [("s".toList, some 0), ("y".toList, none)])] := by
    with_unfolding_all rfl
  rw [e] at hy
  simp only [List.mem_cons, List.not_mem_nil, or_false] at hy
  rcases hy with rfl | rfl | rfl | rfl | rfl | rfl | rfl <;> simp_all [Contains]

/-! ### A map that is not one-to-one -/

/-- The node `g/x` of an array of structures moves out of the array. -/
def leavingDict : MFields :=
  .cons "top".toList (.leaf ⟨.int, 1, false⟩)
    (.cons "g".toList (.aos (.cons "z".toList (.leaf ⟨.int, 1, false⟩) .nil)) .nil)

def leavingMap : Cfg (List Int) where
  path q := if q = ["g".toList, "x".toList] then some (some ["top".toList]) else none
  change _ := none
  post _ := none
  store _ v := .ok (some v)

def leavingData : Fields (List Int) :=
  .present "g".toList (.aos (.cons "x".toList (.leaf ⟨.int, 1, false⟩) .nil)
    (.cons (.present "x".toList (.leaf ⟨.int, 1, false⟩ (some [2])) .nil)
      (.cons (.present "x".toList (.leaf ⟨.int, 1, false⟩ (some [3])) .nil) .nil))) .nil

/-- **C22, limit.** That nothing else goes to the same place is needed: when a node moves out of an
array of structures, all elements write to one node, and only the value of the last element
is found in the target. No error is raised. -/
theorem C22_leaving_array_limit :
    ∃ (cx : Cfg (List Int)) (tm : Meta) (source : Fields (List Int)) (target' : Node (List Int))
      (A A' B : Addr) (v v' : List Int),
      Proper cx ∧ copyIds cx source tm.fresh = .ok target' ∧
      Sent cx tm [] [] source A B ∧ Sent cx tm [] [] source A' B ∧ A ≠ A' ∧
      ValueAt (.struct source) A v ∧ ValueAt (.struct source) A' v' ∧ v ≠ v' ∧
      ValueAt target' B v' ∧ ∀ b, ¬ ValueAt target' b v := by
  have hgo : copyIds leavingMap leavingData (Meta.struct leavingDict).fresh =
      .ok (.struct (.present "top".toList (.leaf ⟨.int, 1, false⟩ (some [3]))
        (.present "g".toList (.aos (.cons "z".toList (.leaf ⟨.int, 1, false⟩) .nil)
          (.cons (.absent "z".toList (.leaf ⟨.int, 1, false⟩) .nil)
            (.cons (.absent "z".toList (.leaf ⟨.int, 1, false⟩) .nil) .nil))) .nil))) := by
    with_unfolding_all rfl
  have hp : Proper leavingMap :=
    ⟨fun q f x h => by simp [leavingMap] at h, fun q f h => by simp [leavingMap] at h⟩
  refine ⟨leavingMap, .struct leavingDict, leavingData, _, [("g".toList, some 0), ("x".toList, none)],
    [("g".toList, some 1), ("x".toList, none)], [("top".toList, none)], [2], [3], hp, hgo,
    ?_, ?_, by simp, ⟨_, by with_unfolding_all rfl, rfl⟩, ⟨_, by with_unfolding_all rfl, rfl⟩, by simp,
    ⟨_, by with_unfolding_all rfl, rfl⟩, ?_⟩
  · exact .element (m := .cons "x".toList (.leaf ⟨.int, 1, false⟩) .nil)
      (by with_unfolding_all rfl) (by with_unfolding_all rfl) (by with_unfolding_all rfl) rfl
      (.here (x := .leaf ⟨.int, 1, false⟩ (some [2])) (by with_unfolding_all rfl)
        (by with_unfolding_all rfl))
  · exact .element (m := .cons "x".toList (.leaf ⟨.int, 1, false⟩) .nil)
      (by with_unfolding_all rfl) (by with_unfolding_all rfl) (by with_unfolding_all rfl) rfl
      (.here (x := .leaf ⟨.int, 1, false⟩ (some [3])) (by with_unfolding_all rfl)
        (by with_unfolding_all rfl))
  · intro b hb
    obtain ⟨l, h1, -⟩ := hb
    match b, h1 with
    | [], h1 => simp [Node.at] at h1
    | (n, none) :: r, h1 =>
      by_cases e1 : n = ['t', 'o', 'p']
      · subst e1
        cases r <;> simp [Node.at, Node.item, Fields.get?] at h1
      · by_cases e2 : n = ['g']
        · subst e2
          cases r <;> simp [Node.at, Node.item, Fields.get?] at h1
        · simp [Node.at, Node.item, Fields.get?, e1, e2] at h1
    | (n, some i) :: r, h1 =>
      by_cases e1 : n = ['t', 'o', 'p']
      · subst e1
        simp [Node.at, Node.item, Fields.get?] at h1
      · by_cases e2 : n = ['g']
        · subst e2
          match i, r, h1 with
          | 0, [], h1 => simp [Node.at, Node.item, Fields.get?, Elems.get?] at h1
          | 1, [], h1 => simp [Node.at, Node.item, Fields.get?, Elems.get?] at h1
          | 0, (k, j) :: r, h1 =>
            by_cases e3 : k = ['z']
            · subst e3; cases j <;> cases r <;> simp [Node.at, Node.item, Fields.get?, Elems.get?, Meta.fresh] at h1
            · simp [Node.at, Node.item, Fields.get?, Elems.get?, e3] at h1
          | 1, (k, j) :: r, h1 =>
            by_cases e3 : k = ['z']
            · subst e3; cases j <;> cases r <;> simp [Node.at, Node.item, Fields.get?, Elems.get?, Meta.fresh] at h1
            · simp [Node.at, Node.item, Fields.get?, Elems.get?, e3] at h1
          | i + 2, r, h1 => simp [Node.at, Node.item, Fields.get?, Elems.get?] at h1
        · simp [Node.at, Node.item, Fields.get?, e1, e2] at h1

end Verif.Props
