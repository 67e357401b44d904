import Verif.Lemmas.Tree
set_option linter.unusedSectionVars false
namespace Verif.Ids
open Verif.TreeSpec

variable {V : Type} [Value V]

/-! ### Expanded trees -/

mutual
def Full : Node V → Prop
  | .leaf _ _ => True
  | .struct c => FullF c
  | .aos _ e => FullE e
def FullF : Fields V → Prop
  | .nil => True
  | .absent _ _ _ => False
  | .present _ x r => Full x ∧ FullF r
def FullE : Elems V → Prop
  | .nil => True
  | .cons c r => FullF c ∧ FullE r
end

mutual
theorem full_contentM (m : Meta) : Full (contentM m : Node V) := by
  cases m with
  | leaf l => simp [contentM, Full]
  | struct c => simp [contentM, Full, full_contentMF c]
  | aos c => simp [contentM, Full, FullE]
theorem full_contentMF (c : MFields) : FullF (contentMF c : Fields V) := by
  cases c with
  | nil => simp [contentMF, FullF]
  | cons n m r => simp [contentMF, FullF, full_contentM m, full_contentMF r]
end

mutual
theorem full_content (n : Node V) : Full (content n) := by
  cases n with
  | leaf l v => simp [content, Full]
  | struct c => simp [content, Full, full_contentF c]
  | aos m e => simp [content, Full, full_contentE e]
theorem full_contentF (c : Fields V) : FullF (contentF c) := by
  cases c with
  | nil => simp [contentF, FullF]
  | absent n m r => simp [contentF, FullF, full_contentM m, full_contentF r]
  | present n x r => simp [contentF, FullF, full_content x, full_contentF r]
theorem full_contentE (e : Elems V) : FullE (contentE e) := by
  cases e with
  | nil => simp [contentE, FullE]
  | cons c r => simp [contentE, FullE, full_contentF c, full_contentE r]
end

mutual
theorem iter_contentM (lo : Bool) (n : Name) (m : Meta) :
    (contentM m : Node V).iter lo true n = m.iter lo n := by
  cases m with
  | leaf l => simp [contentM, Node.iter, Meta.iter]
  | struct c => simp [contentM, Node.iter, Meta.iter, iter_contentMF lo c]
  | aos c => simp [contentM, Node.iter, Meta.iter, Elems.iter]
theorem iter_contentMF (lo : Bool) (c : MFields) :
    (contentMF c : Fields V).iter lo true = c.iter lo := by
  cases c with
  | nil => simp [contentMF, Fields.iter, MFields.iter]
  | cons n m r => simp [contentMF, Fields.iter, MFields.iter, iter_contentM lo n m, iter_contentMF lo r]
end

mutual
theorem iter_content (lo ve : Bool) (n : Name) (x : Node V) :
    (content x).iter lo ve n = x.iter lo ve n := by
  cases x with
  | leaf l v => simp [content, Node.iter]
  | struct c => simp [content, Node.iter, iter_contentF lo ve c]
  | aos m e => simp [content, Node.iter, iter_contentE lo ve n 0 e]
theorem iter_contentF (lo ve : Bool) (c : Fields V) :
    (contentF c).iter lo ve = c.iter lo ve := by
  cases c with
  | nil => simp [contentF, Fields.iter]
  | absent n m r =>
    simp only [contentF, Fields.iter, contentM_hasValue, Bool.or_false, iter_contentF lo ve r]
    cases ve
    · simp
    · simp [iter_contentM]
  | present n x r =>
    simp only [contentF, Fields.iter, content_hasValue, iter_content lo ve n x, iter_contentF lo ve r]
theorem iter_contentE (lo ve : Bool) (n : Name) (i : Nat) (e : Elems V) :
    (contentE e).iter lo ve n i = e.iter lo ve n i := by
  cases e with
  | nil => simp [contentE, Elems.iter]
  | cons c r => simp [contentE, Elems.iter, iter_contentF lo ve c, iter_contentE lo ve n (i + 1) r]
end

mutual
theorem wf_contentM (m : Meta) (h : WFMeta m) : WF (contentM m : Node V) := by
  cases m with
  | leaf l => simp [contentM, WF]
  | struct c => simp only [WFMeta] at h; simp [contentM, WF, wf_contentMF c h]
  | aos c => simp only [WFMeta] at h; simp [contentM, WF, WFElems, h]
theorem wf_contentMF (c : MFields) (h : WFMFields c) : WFFields (contentMF c : Fields V) := by
  cases c with
  | nil => simp [contentMF, WFFields]
  | cons n m r =>
    simp only [WFMFields] at h
    simp [contentMF, WFFields, wf_contentM m h.2.1, wf_contentMF r h.2.2, names_contentMF, h.1]
theorem names_contentMF (c : MFields) : (contentMF c : Fields V).names = mnames c := by
  cases c with
  | nil => simp [contentMF, mnames, Fields.names]
  | cons n m r => simp [contentMF, mnames, Fields.names, names_contentMF r]
end

mutual
theorem wf_content (n : Node V) (h : WF n) : WF (content n) := by
  cases n with
  | leaf l v => simp [content, WF]
  | struct c => simp only [WF] at h; simp [content, WF, wf_contentF c h]
  | aos m e => simp only [WF] at h; simp [content, WF, wf_contentE e h.2, h.1]
theorem wf_contentF (c : Fields V) (h : WFFields c) : WFFields (contentF c) := by
  cases c with
  | nil => simp [contentF, WFFields]
  | absent n m r =>
    simp only [WFFields] at h
    simp [contentF, WFFields, wf_contentM m h.2.1, wf_contentF r h.2.2, contentF_names, h.1]
  | present n x r =>
    simp only [WFFields] at h
    simp [contentF, WFFields, wf_content x h.2.1, wf_contentF r h.2.2, contentF_names, h.1]
theorem wf_contentE (e : Elems V) (h : WFElems e) : WFElems (contentE e) := by
  cases e with
  | nil => simp [contentE, WFElems]
  | cons c r => simp only [WFElems] at h; simp [contentE, WFElems, wf_contentF c h.1, wf_contentE r h.2]
end

/-! ### Membership -/

/-- The node at `b` is yielded. -/
def Vis (lo ve : Bool) (x : Node V) (b : Addr) : Prop :=
  ∃ y, x.at b = some y ∧ (lo = true → IsLeaf y) ∧
    (ve = true ∨ IsElement b ∨ y.hasValue = true)

theorem isElement_none {n : Name} {b : Addr} : IsElement ((n, none) :: b) ↔ IsElement b := by
  constructor
  · rintro ⟨p, m, i, h⟩
    cases p with
    | nil => simp at h
    | cons s p => simp at h; exact ⟨p, m, i, h.2⟩
  · rintro ⟨p, m, i, rfl⟩; exact ⟨(n, none) :: p, m, i, rfl⟩

theorem isElement_some {n : Name} {i : Nat} {b : Addr} :
    IsElement ((n, some i) :: b) ↔ b = [] ∨ IsElement b := by
  constructor
  · rintro ⟨p, m, j, h⟩
    cases p with
    | nil => simp at h; exact .inl h.2
    | cons s p => simp at h; exact .inr ⟨p, m, j, h.2⟩
  · rintro (rfl | ⟨p, m, j, rfl⟩)
    · exact ⟨[], n, i, rfl⟩
    · exact ⟨(n, some i) :: p, m, j, rfl⟩

theorem vis_leaf {lo ve : Bool} {l : LeafMeta} {v : Option V} {b : Addr}
    (h : ve = true ∨ (Node.leaf l v).hasValue = true) :
    Vis lo ve (.leaf l v) b ↔ b = [] := by
  constructor
  · rintro ⟨y, hy, -⟩
    cases b with
    | nil => rfl
    | cons s b => simp [Node.at, Node.item] at hy
  · rintro rfl; exact ⟨_, rfl, fun _ => trivial, h.elim .inl (.inr ∘ .inr)⟩

theorem vis_aos {lo ve : Bool} {m : MFields} {e : Elems V} {b : Addr}
    (h : ve = true ∨ (Node.aos m e).hasValue = true) :
    Vis lo ve (.aos m e) b ↔ lo = false ∧ b = [] := by
  constructor
  · rintro ⟨y, hy, hl, -⟩
    cases b with
    | nil =>
      simp [Node.at] at hy; subst hy
      refine ⟨?_, rfl⟩
      cases lo with
      | false => rfl
      | true => exact absurd (hl rfl) (by simp [IsLeaf])
    | cons s b => simp [Node.at, Node.item] at hy
  · rintro ⟨rfl, rfl⟩; exact ⟨_, rfl, by simp, h.elim .inl (.inr ∘ .inr)⟩

theorem vis_nil_struct {lo ve : Bool} {c : Fields V}
    (h : ve = true ∨ (Node.struct c).hasValue = true) :
    Vis lo ve (.struct c) [] ↔ lo = false := by
  constructor
  · rintro ⟨y, hy, hl, -⟩
    simp [Node.at] at hy; subst hy
    cases lo with
    | false => rfl
    | true => exact absurd (hl rfl) (by simp [IsLeaf])
  · rintro rfl; exact ⟨_, rfl, by simp, h.elim .inl (.inr ∘ .inr)⟩

theorem vis_hasValue {lo ve : Bool} {x : Node V} {b : Addr} (h : Vis lo ve x b) :
    ve = true ∨ x.hasValue = true := by
  obtain ⟨y, hy, -, h | h | h⟩ := h
  · exact .inl h
  · right
    obtain ⟨p, n, i, rfl⟩ := h
    clear lo ve
    induction p generalizing x with
    | nil =>
      simp only [List.nil_append, Node.at] at hy
      cases hi : x.item (n, some i) with
      | none => simp [hi] at hy
      | some z => exact hasValue_of_item hi (.inr (by simp))
    | cons s p ih =>
      simp only [List.cons_append, Node.at] at hy
      cases hi : x.item s with
      | none => simp [hi] at hy
      | some z => rw [hi] at hy; exact hasValue_of_item hi (.inl (ih hy))
  · right
    clear lo ve
    induction b generalizing x with
    | nil => simp [Node.at] at hy; subst hy; exact h
    | cons s p ih =>
      simp only [Node.at] at hy
      cases hi : x.item s with
      | none => simp [hi] at hy
      | some z => rw [hi] at hy; exact hasValue_of_item hi (.inl (ih hy))

theorem vis_cons {lo ve : Bool} {c : Fields V} {n : Name} {i : Option Nat} {b : Addr} :
    Vis lo ve (.struct c) ((n, i) :: b) ↔
      (i = none ∧ ∃ x, c.get? n = some x ∧ Vis lo ve x b) ∨
      (∃ j m e f, i = some j ∧ c.get? n = some (.aos m e) ∧ e.get? j = some f ∧
        ((b = [] ∧ lo = false) ∨ (b ≠ [] ∧ Vis lo ve (.struct f) b))) := by
  constructor
  · rintro ⟨y, hy, hl, hv⟩
    simp only [Node.at] at hy
    cases hi : (Node.struct c).item (n, i) with
    | none => simp [hi] at hy
    | some z =>
      rw [hi] at hy; simp only [Option.bind_some] at hy
      obtain ⟨c', h1, h2⟩ := item_cases hi
      simp only [Node.struct.injEq] at h1; subst h1
      rcases h2 with ⟨h2, h3⟩ | ⟨j, m, e, f, h2, h3, h4, rfl⟩
      · simp only at h2 h3; subst h2
        refine .inl ⟨rfl, z, h3, y, hy, hl, ?_⟩
        rwa [isElement_none] at hv
      · simp only at h2 h3; subst h2
        refine .inr ⟨j, m, e, f, rfl, h3, h4, ?_⟩
        cases b with
        | nil =>
          left; refine ⟨rfl, ?_⟩
          simp [Node.at] at hy; subst hy
          cases lo with
          | false => rfl
          | true => exact absurd (hl rfl) (by simp [IsLeaf])
        | cons s b =>
          right
          refine ⟨by simp, y, hy, hl, ?_⟩
          rw [isElement_some] at hv; simpa using hv
  · rintro (⟨rfl, x, h, y, hy, hl, hv⟩ | ⟨j, m, e, f, rfl, h1, h2, ⟨rfl, rfl⟩ | ⟨hb, y, hy, hl, hv⟩⟩)
    · refine ⟨y, by simp [Node.at, Node.item, h, hy], hl, ?_⟩
      rwa [isElement_none]
    · refine ⟨.struct f, by simp [Node.at, Node.item, h1, h2], by simp, .inr (.inl ?_)⟩
      simp [isElement_some]
    · refine ⟨y, by simp [Node.at, Node.item, h1, h2, hy], hl, ?_⟩
      rw [isElement_some]; simpa [hb] using hv

/-- Addresses yielded for the child `x` named `n`. -/
def VisChild (lo ve : Bool) (n : Name) (x : Node V) (a : Addr) : Prop :=
  (∃ b, a = (n, none) :: b ∧ Vis lo ve x b) ∨
  (∃ j m e f b, a = (n, some j) :: b ∧ x = .aos m e ∧ e.get? j = some f ∧
        ((b = [] ∧ lo = false) ∨ (b ≠ [] ∧ Vis lo ve (.struct f) b)))

mutual
theorem mem_iter (lo ve : Bool) (n : Name) (x : Node V) (hf : Full x) (hw : WF x)
    (h : ve = true ∨ x.hasValue = true) (a : Addr) :
    a ∈ x.iter lo ve n ↔ VisChild lo ve n x a := by
  cases x with
  | leaf l v =>
    simp only [Node.iter, VisChild, vis_leaf h]
    constructor
    · intro ha; simp at ha; exact .inl ⟨[], ha, rfl⟩
    · rintro (⟨b, rfl, rfl⟩ | ⟨j, m, e, f, b, -, h, -⟩)
      · simp
      · simp at h
  | struct c =>
    have ih := mem_iterF lo ve c (by simpa [Full] using hf) (by simpa [WF] using hw)
    simp only [Node.iter, VisChild, List.mem_append, List.mem_map, ih]
    constructor
    · rintro (h1 | ⟨b, ⟨-, hb⟩, rfl⟩)
      · cases lo with
        | true => simp at h1
        | false =>
          simp at h1; subst h1
          exact .inl ⟨[], rfl, (vis_nil_struct h).2 rfl⟩
      · exact .inl ⟨b, rfl, hb⟩
    · rintro (⟨b, rfl, hb⟩ | ⟨j, m, e, f, b, -, h, -⟩)
      · by_cases h0 : b = []
        · subst h0; left; rw [(vis_nil_struct h).1 hb]; simp
        · exact .inr ⟨b, ⟨h0, hb⟩, rfl⟩
      · simp at h
  | aos m e =>
    have ih := mem_iterE lo ve n 0 e (by simpa [Full] using hf) (by simp only [WF] at hw; exact hw.2)
    simp only [Node.iter, VisChild, List.mem_append, ih]
    constructor
    · rintro (h1 | ⟨j, f, b, rfl, h1, h2⟩)
      · cases lo with
        | true => simp at h1
        | false =>
          simp at h1; subst h1
          exact .inl ⟨[], rfl, (vis_aos h).2 ⟨rfl, rfl⟩⟩
      · exact .inr ⟨j, m, e, f, b, by simp, rfl, h1, h2⟩
    · rintro (⟨b, rfl, hb⟩ | ⟨j, m', e', f, b, rfl, h1, h2, h3⟩)
      · obtain ⟨rfl, rfl⟩ := (vis_aos h).1 hb; simp
      · simp only [Node.aos.injEq] at h1; obtain ⟨rfl, rfl⟩ := h1
        exact .inr ⟨j, f, b, by simp, h2, h3⟩
theorem mem_iterF (lo ve : Bool) (c : Fields V) (hf : FullF c) (hw : WFFields c) (a : Addr) :
    a ∈ c.iter lo ve ↔ a ≠ [] ∧ Vis lo ve (.struct c) a := by
  cases c with
  | nil =>
    simp only [Fields.iter, List.not_mem_nil, false_iff]
    rintro ⟨h, y, hy, -⟩
    cases a with
    | nil => exact h rfl
    | cons s b => simp [Node.at, Node.item, Fields.get?] at hy
  | absent n m r => simp [FullF] at hf
  | present n x r =>
    simp only [FullF] at hf; simp only [WFFields] at hw
    have ih1 := mem_iter lo ve n x hf.1 hw.2.1
    have ih2 := mem_iterF lo ve r hf.2 hw.2.2 a
    simp only [Fields.iter, List.mem_append, ih2]
    have hget : ∀ k y, (Fields.present n x r).get? k = some y ↔
        (k = n ∧ y = x) ∨ (k ≠ n ∧ r.get? k = some y) := by
      intro k y; simp only [Fields.get?]; split
      · next hk => simp [hk, eq_comm]
      · next hk => simp [hk]
    constructor
    · rintro (h1 | ⟨h1, h2⟩)
      · split at h1
        · next hv =>
          simp only [Bool.or_eq_true] at hv
          rcases (ih1 hv a).1 h1 with ⟨b, rfl, hb⟩ | ⟨j, m, e, f, b, rfl, rfl, h2, h3⟩
          · refine ⟨by simp, ?_⟩
            rw [vis_cons]; exact .inl ⟨rfl, x, by simp [Fields.get?], hb⟩
          · refine ⟨by simp, ?_⟩
            rw [vis_cons]; exact .inr ⟨j, m, e, f, rfl, by simp [Fields.get?], h2, h3⟩
        · simp at h1
      · refine ⟨h1, ?_⟩
        cases a with
        | nil => exact absurd rfl h1
        | cons s b =>
          obtain ⟨k, i⟩ := s
          rw [vis_cons] at h2 ⊢
          have hk : ∀ y, r.get? k = some y → (Fields.present n x r).get? k = some y := by
            intro y hy
            rw [hget]; refine .inr ⟨?_, hy⟩
            rintro rfl; exact hw.1 (get?_mem_names hy)
          rcases h2 with ⟨h2, y, h3, h4⟩ | ⟨j, m, e, f, h2, h3, h4⟩
          · exact .inl ⟨h2, y, hk y h3, h4⟩
          · exact .inr ⟨j, m, e, f, h2, hk _ h3, h4⟩
    · rintro ⟨h1, h2⟩
      cases a with
      | nil => exact absurd rfl h1
      | cons s b =>
        obtain ⟨k, i⟩ := s
        rw [vis_cons] at h2
        rcases h2 with ⟨rfl, y, h3, h4⟩ | ⟨j, m, e, f, rfl, h3, h4, h5⟩
        · rcases (hget k y).1 h3 with ⟨rfl, rfl⟩ | ⟨hk, h3⟩
          · left
            have hv := vis_hasValue h4
            rw [if_pos (by simpa using hv)]
            rw [ih1 hv]; exact .inl ⟨b, rfl, h4⟩
          · right; refine ⟨by simp, ?_⟩
            rw [vis_cons]; exact .inl ⟨rfl, y, h3, h4⟩
        · rcases (hget k _).1 h3 with ⟨rfl, rfl⟩ | ⟨hk, h3⟩
          · left
            have hv : (Node.aos m e).hasValue = true := by
              have := Elems.get?_lt h4
              simp [Node.hasValue]; omega
            rw [if_pos (by simp [hv])]
            rw [ih1 (.inr hv)]; exact .inr ⟨j, m, e, f, b, rfl, rfl, h4, h5⟩
          · right; refine ⟨by simp, ?_⟩
            rw [vis_cons]; exact .inr ⟨j, m, e, f, rfl, h3, h4, h5⟩
theorem mem_iterE (lo ve : Bool) (n : Name) (i : Nat) (e : Elems V) (hf : FullE e)
    (hw : WFElems e) (a : Addr) :
    a ∈ e.iter lo ve n i ↔ ∃ j f b, a = (n, some (i + j)) :: b ∧ e.get? j = some f ∧
        ((b = [] ∧ lo = false) ∨ (b ≠ [] ∧ Vis lo ve (.struct f) b)) := by
  cases e with
  | nil => simp [Elems.iter, Elems.get?]
  | cons c r =>
    simp only [FullE] at hf; simp only [WFElems] at hw
    have ih1 := mem_iterF lo ve c hf.1 hw.1
    have ih2 := mem_iterE lo ve n (i + 1) r hf.2 hw.2 a
    simp only [Elems.iter, List.mem_append, List.mem_map, ih1, ih2]
    constructor
    · rintro ((h | ⟨b, ⟨h1, h2⟩, rfl⟩) | ⟨j, f, b, rfl, h1, h2⟩)
      · cases lo with
        | true => simp at h
        | false => simp at h; subst h; exact ⟨0, c, [], rfl, rfl, .inl ⟨rfl, rfl⟩⟩
      · exact ⟨0, c, b, rfl, rfl, .inr ⟨h1, h2⟩⟩
      · exact ⟨j + 1, f, b, by rw [Nat.add_assoc, Nat.add_comm 1 j], h1, h2⟩
    · rintro ⟨j, f, b, rfl, h1, h2⟩
      cases j with
      | zero =>
        simp [Elems.get?] at h1; subst h1
        left
        rcases h2 with ⟨rfl, rfl⟩ | h2
        · left; simp
        · right; exact ⟨b, h2, rfl⟩
      | succ j =>
        right
        exact ⟨j, f, b, by rw [Nat.add_assoc, Nat.add_comm 1 j], h1, h2⟩
end

theorem vis_content {lo ve : Bool} {x : Node V} {b : Addr} :
    Vis lo ve (content x) b ↔ Vis lo ve x b := by
  have hl : ∀ y : Node V, IsLeaf (content y) ↔ IsLeaf y := by
    intro y; cases y <;> simp [content, IsLeaf]
  simp only [Vis, content_at]
  constructor
  · rintro ⟨y, hy, h1, h2⟩
    cases h : x.at b with
    | none => simp [h] at hy
    | some z =>
      simp [h] at hy; subst hy
      exact ⟨z, rfl, by simpa [hl] using h1, by simpa [content_hasValue] using h2⟩
  · rintro ⟨y, hy, h1, h2⟩
    exact ⟨content y, by simp [hy], by simpa [hl] using h1, by simpa [content_hasValue] using h2⟩

theorem mem_iterF' (lo ve : Bool) (c : Fields V) (hw : WFFields c) (a : Addr) :
    a ∈ c.iter lo ve ↔ a ≠ [] ∧ Vis lo ve (.struct c) a := by
  rw [← iter_contentF, mem_iterF lo ve _ (full_contentF c) (wf_contentF c hw)]
  have : Node.struct (contentF c) = content (.struct c) := by simp [content]
  rw [this, vis_content]

/-! ### Order -/

theorem pairwise_map_cons {R : Addr → Addr → Prop} {R' : Addr → Addr → Prop}
    {s : Name × Option Nat} {l : List Addr} (h : l.Pairwise R)
    (hr : ∀ a b, R a b → R' (s :: a) (s :: b)) : (l.map (s :: ·)).Pairwise R' := by
  induction h with
  | nil => simp
  | cons h _ ih =>
    simp only [List.map_cons, List.pairwise_cons, List.mem_map]
    refine ⟨?_, ih⟩
    rintro _ ⟨b, hb, rfl⟩; exact hr _ _ (h b hb)

theorem docBefore_cons {n x : Node V} {s : Name × Option Nat} {a b : Addr}
    (hi : n.item s = some x) (h : DocBefore x a b) : DocBefore n (s :: a) (s :: b) := by
  unfold DocBefore; exact .inl ⟨rfl, x, hi, h⟩

mutual
/-- The addresses yielded for a child `n` are in the order of the parent structure. -/
theorem iter_ordered (lo ve : Bool) (n : Name) (x : Node V) (hf : Full x) (hw : WF x)
    (h : ve = true ∨ x.hasValue = true) (c : Fields V) (hc : c.get? n = some x) :
    (x.iter lo ve n).Pairwise (DocBefore (.struct c)) := by
  cases x with
  | leaf l v => simp [Node.iter]
  | struct d =>
    simp only [Node.iter]
    have hd : FullF d := by simpa [Full] using hf
    have hdw : WFFields d := by simpa [WF] using hw
    rw [List.pairwise_append]
    refine ⟨by cases lo <;> simp, ?_, ?_⟩
    · exact pairwise_map_cons (iterF_ordered lo ve d hd hdw)
        (fun a b h => docBefore_cons (by simp [Node.item, hc]) h)
    · intro a ha b hb
      cases lo with
      | true => simp at ha
      | false =>
        simp at ha; subst ha
        obtain ⟨b, hb', rfl⟩ := List.mem_map.1 hb
        have := ((mem_iterF _ ve d hd hdw b).1 hb').1
        refine docBefore_cons (by simp [Node.item, hc]; rfl) ?_
        cases b with
        | nil => exact absurd rfl this
        | cons s b => simp [DocBefore]
  | aos m e =>
    simp only [Node.iter]
    have he : FullE e := by simpa [Full] using hf
    have hew : WFElems e := by simp only [WF] at hw; exact hw.2
    rw [List.pairwise_append]
    refine ⟨by cases lo <;> simp, ?_, ?_⟩
    · exact iterE_ordered lo ve n 0 e he hew c m e hc (fun j f h => by simpa using h)
    · intro a ha b hb
      cases lo with
      | true => simp at ha
      | false =>
        simp at ha; subst ha
        obtain ⟨j, f, b', rfl, -⟩ := (mem_iterE _ ve n 0 e he hew b).1 hb
        unfold DocBefore
        exact .inr ⟨c, rfl, .inr ⟨rfl, trivial⟩⟩
theorem iterF_ordered (lo ve : Bool) (c : Fields V) (hf : FullF c) (hw : WFFields c) :
    (c.iter lo ve).Pairwise (DocBefore (.struct c)) := by
  cases c with
  | nil => simp [Fields.iter]
  | absent n m r => simp [FullF] at hf
  | present n x r =>
    have hf' := hf; have hw' := hw
    simp only [FullF] at hf; simp only [WFFields] at hw
    simp only [Fields.iter]
    have hget : ∀ k y, r.get? k = some y → k ≠ n := by
      rintro k y hy rfl; exact hw.1 (get?_mem_names hy)
    rw [List.pairwise_append]
    refine ⟨?_, ?_, ?_⟩
    · split
      · next hv => exact iter_ordered lo ve n x hf.1 hw.2.1 (by simpa using hv) _ (by simp [Fields.get?])
      · simp
    · refine List.Pairwise.imp_of_mem ?_ (iterF_ordered lo ve r hf.2 hw.2.2)
      intro a b ha hb hab
      have ha' := (mem_iterF lo ve r hf.2 hw.2.2 a).1 ha
      have hb' := (mem_iterF lo ve r hf.2 hw.2.2 b).1 hb
      cases a with
      | nil => exact absurd rfl ha'.1
      | cons s a => cases b with
        | nil => exact absurd rfl hb'.1
        | cons t b =>
          have hs : ∀ s b, Vis lo ve (.struct r) (s :: b) → ∃ z, r.get? s.1 = some z := by
            rintro ⟨k, i⟩ b h
            rcases vis_cons.1 h with ⟨-, y, h, -⟩ | ⟨j, m, e, f, -, h, -⟩
            · exact ⟨_, h⟩
            · exact ⟨_, h⟩
          obtain ⟨z, hz⟩ := hs s a ha'.2
          obtain ⟨z', hz'⟩ := hs t b hb'.2
          have hi : ∀ k y, r.get? k = some y → (Fields.present n x r).get? k = r.get? k := by
            intro k y hy; simp [Fields.get?, hget k y hy]
          have hidx : ∀ k y, r.get? k = some y →
              (Fields.present n x r).names.idxOf k = r.names.idxOf k + 1 := by
            intro k y hy
            have := hget k y hy
            simp only [Fields.names]
            rw [List.idxOf_cons]
            have : (n == k) = false := by simpa using fun h => this h.symm
            rw [this]; simp
          unfold DocBefore at hab ⊢
          rcases hab with ⟨rfl, y, h1, h2⟩ | ⟨c', h1, h2⟩
          · left
            refine ⟨rfl, y, ?_, h2⟩
            obtain ⟨k, i⟩ := s
            simp only [Node.item] at h1 ⊢
            rw [hi _ _ hz]; exact h1
          · right
            simp only [Node.struct.injEq] at h1; subst h1
            refine ⟨_, rfl, ?_⟩
            unfold ItemBefore at h2 ⊢
            rw [hidx _ _ hz, hidx _ _ hz']
            rcases h2 with h2 | h2
            · left; omega
            · exact .inr h2
    · intro a ha b hb
      split at ha
      · next hv =>
        have ha' := (mem_iter lo ve n x hf.1 hw.2.1 (by simpa using hv) a).1 ha
        have hb' := (mem_iterF lo ve r hf.2 hw.2.2 b).1 hb
        cases b with
        | nil => exact absurd rfl hb'.1
        | cons t b =>
          obtain ⟨k, i⟩ := t
          have hk : k ≠ n := by
            rcases vis_cons.1 hb'.2 with ⟨-, y, h, -⟩ | ⟨j, m, e, f, -, h, -⟩
            · exact hget _ _ h
            · exact hget _ _ h
          have key : ∀ o a', DocBefore (Node.struct (.present n x r)) ((n, o) :: a') ((k, i) :: b) := by
            intro o a'
            unfold DocBefore
            refine .inr ⟨_, rfl, .inl ?_⟩
            simp only [Fields.names]
            rw [List.idxOf_cons, List.idxOf_cons]
            have : (n == k) = false := by simpa using fun h => hk h.symm
            simp [this]
          rcases ha' with ⟨b, rfl, -⟩ | ⟨j, m, e, f, b, rfl, -⟩
          · exact key _ _
          · exact key _ _
      · simp at ha
theorem iterE_ordered (lo ve : Bool) (n : Name) (i : Nat) (e : Elems V) (hf : FullE e)
    (hw : WFElems e) (c : Fields V) (m : MFields) (e' : Elems V)
    (hc : c.get? n = some (.aos m e'))
    (he : ∀ j f, e.get? j = some f → e'.get? (i + j) = some f) :
    (e.iter lo ve n i).Pairwise (DocBefore (.struct c)) := by
  cases e with
  | nil => simp [Elems.iter]
  | cons d r =>
    simp only [FullE] at hf; simp only [WFElems] at hw
    have hi : (Node.struct c).item (n, some i) = some (.struct d) := by
      have := he 0 d rfl
      simp at this
      simp [Node.item, hc, this]
    simp only [Elems.iter]
    rw [List.pairwise_append]
    refine ⟨?_, ?_, ?_⟩
    · rw [List.pairwise_append]
      refine ⟨by cases lo <;> simp, ?_, ?_⟩
      · exact pairwise_map_cons (iterF_ordered lo ve d hf.1 hw.1) (fun a b h => docBefore_cons hi h)
      · intro a ha b hb
        cases lo with
        | true => simp at ha
        | false =>
          simp at ha; subst ha
          obtain ⟨b, hb', rfl⟩ := List.mem_map.1 hb
          have := ((mem_iterF _ ve d hf.1 hw.1 b).1 hb').1
          refine docBefore_cons hi ?_
          cases b with
          | nil => exact absurd rfl this
          | cons s b => simp [DocBefore]
    · refine iterE_ordered lo ve n (i + 1) r hf.2 hw.2 c m e' hc ?_
      intro j f h
      have := he (j + 1) f h
      rwa [Nat.add_assoc, Nat.add_comm 1 j]
    · intro a ha b hb
      obtain ⟨j, f, b', rfl, -⟩ := (mem_iterE lo ve n (i + 1) r hf.2 hw.2 b).1 hb
      have : ∃ a', a = (n, some i) :: a' := by
        rcases List.mem_append.1 ha with ha | ha
        · cases lo with
          | true => simp at ha
          | false => simp at ha; exact ⟨_, ha⟩
        · obtain ⟨b, -, rfl⟩ := List.mem_map.1 ha; exact ⟨_, rfl⟩
      obtain ⟨a', rfl⟩ := this
      unfold DocBefore
      exact .inr ⟨c, rfl, .inr ⟨rfl, by simp only []; omega⟩⟩
end

theorem docBefore_content (x : Node V) (a b : Addr) :
    DocBefore (content x) a b ↔ DocBefore x a b := by
  induction a generalizing x b with
  | nil => cases b <;> simp [DocBefore]
  | cons s a ih =>
    cases b with
    | nil => simp [DocBefore]
    | cons t b =>
      simp only [DocBefore, content_item]
      constructor
      · rintro (⟨rfl, y, h1, h2⟩ | ⟨c, h1, h2⟩)
        · left
          cases hz : x.item s with
          | none => simp [hz] at h1
          | some z => simp [hz] at h1; subst h1; exact ⟨rfl, z, rfl, (ih z b).1 h2⟩
        · right
          cases x with
          | leaf l v => simp [content] at h1
          | aos m e => simp [content] at h1
          | struct d =>
            simp [content] at h1; subst h1
            exact ⟨d, rfl, by simpa [ItemBefore, contentF_names] using h2⟩
      · rintro (⟨rfl, y, h1, h2⟩ | ⟨c, rfl, h2⟩)
        · left; exact ⟨rfl, content y, by simp [h1], (ih y b).2 h2⟩
        · right; exact ⟨contentF c, by simp [content], by simpa [ItemBefore, contentF_names] using h2⟩

theorem iterF_ordered' (lo ve : Bool) (c : Fields V) (hw : WFFields c) :
    (c.iter lo ve).Pairwise (DocBefore (.struct c)) := by
  rw [← iter_contentF]
  refine (iterF_ordered lo ve _ (full_contentF c) (wf_contentF c hw)).imp ?_
  intro a b h
  have : Node.struct (contentF c) = content (.struct c) := by simp [content]
  rw [this, docBefore_content] at h; exact h

theorem docBefore_irrefl (x : Node V) (a : Addr) : ¬ DocBefore x a a := by
  induction a generalizing x with
  | nil => simp [DocBefore]
  | cons s a ih =>
    unfold DocBefore
    rintro (⟨-, y, -, h⟩ | ⟨c, -, h | ⟨-, h⟩⟩)
    · exact ih y h
    · exact Nat.lt_irrefl _ h
    · split at h
      · next h1 h2 => simp [h1] at h2
      · next h1 h2 => rw [h1] at h2; simp at h2; omega
      · exact h

end Verif.Ids
