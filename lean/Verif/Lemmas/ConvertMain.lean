import Verif.Lemmas.ConvertExec
/-
A conversion seen from one node: the writes for that node, and the writes after them.
-/
set_option linter.unusedSectionVars false
namespace Verif.Convert
open Verif.Ids Verif.TreeSpec Verif.ConvertSpec Verif.DiffSpec

variable {V : Type} [Value V]

theorem contains_antisymm {a b : Addr} (h1 : Contains a b) (h2 : Contains b a) : a = b := by
  induction a generalizing b with
  | nil => cases b with
    | nil => rfl
    | cons => simp [Contains] at h2
  | cons s a ih =>
    cases b with
    | nil => simp [Contains] at h1
    | cons t b =>
      cases a with
      | nil =>
        cases b with
        | nil =>
          simp only [Contains] at h1 h2
          rcases h1 with rfl | ⟨h3, h4⟩
          · rfl
          · rcases h2 with rfl | ⟨h5, h6⟩
            · rfl
            · rw [Prod.ext h3 (h4.trans h6.symm)]
        | cons u b => simp [Contains] at h2
      | cons u a =>
        cases b with
        | nil => simp [Contains] at h1
        | cons w b =>
          simp only [Contains] at h1 h2
          rw [h1.1, ih h1.2 h2.2]

theorem contains_snoc_index {p : Addr} {n : Name} {i : Nat} {r c : Addr}
    (h : Contains (p ++ (n, some i) :: r) c) : ∃ r', c = p ++ (n, some i) :: r' := by
  induction p generalizing c with
  | nil =>
    cases c with
    | nil => simp [Contains] at h
    | cons t c =>
      cases r with
      | nil =>
        simp only [List.nil_append, Contains] at h
        rcases h with rfl | h
        · exact ⟨c, rfl⟩
        · simp at h
      | cons u r => simp only [List.nil_append, Contains] at h; exact ⟨c, by rw [← h.1]; rfl⟩
  | cons s p ih =>
    cases c with
    | nil => simp [Contains] at h
    | cons t c =>
      have : ∃ u q, p ++ (n, some i) :: r = u :: q := by cases p <;> simp
      obtain ⟨u, q, e⟩ := this
      simp only [List.cons_append, e, Contains] at h
      obtain ⟨rfl, h⟩ := h
      rw [← e] at h
      obtain ⟨r', rfl⟩ := ih h
      exact ⟨r', rfl⟩

theorem inside_trans {a b c : Addr} (h1 : Inside a b) (h2 : Contains b c) : Inside a c := by
  obtain ⟨p, n, i, r, rfl, rfl⟩ := h1
  obtain ⟨r', rfl⟩ := contains_snoc_index h2
  exact ⟨p, n, i, r', rfl, rfl⟩

theorem exec_typed {cx : Cfg V} {tm : Meta} (l : List (Entry V)) (hk : ∀ e ∈ l, Keeps (e.op.run cx))
    {root root' : Node V} (ht : Typed root tm) (h : exec cx l root = .ok root') : Typed root' tm := by
  induction l generalizing root with
  | nil => simp [exec] at h; subst h; exact ht
  | cons e l ih =>
    simp only [exec] at h
    obtain ⟨n3, h5, h6⟩ := andThen_ok.1 h
    exact ih (fun e he => hk e (by simp [he])) (typed_writeAt (hk e (by simp)) ht h5) h6

/-- The conversion split at the writes for one node. -/
theorem copy_split {cx : Cfg V} (hp : Proper cx) {tm : Meta} {c : Fields V} (hw : WFFields c)
    {root root' : Node V} (ht : Typed root tm) (h : copyIds cx c root = .ok root') {A B : Addr}
    (hs : Sent cx tm [] [] c A B) {y : Node V} (hy : (Node.struct c).at A = some y)
    (hv : y.hasValue = true) :
    ∃ n1 n2 l2, Typed n1 tm ∧ exec cx (mainOf cx (names A) A B y) n1 = .ok n2 ∧
      exec cx l2 n2 = .ok root' ∧ (∀ e ∈ l2, Keeps (e.op.run cx)) ∧
      (∀ e ∈ l2, EntrySpec cx tm [] [] c e ∧ Later A (Open cx (names A) y) e) := by
  obtain ⟨h1, -⟩ := copyFields_plan hp [] [] c ht h
  obtain ⟨l1, l2, h2, h3⟩ := plan_main hs hw hy hv
  rw [h2, exec_append] at h1
  obtain ⟨n1, h4, h5⟩ := andThen_ok.1 h1
  rw [exec_append] at h5
  obtain ⟨n2, h6, h7⟩ := andThen_ok.1 h5
  have hk := plan_keeps hp (tm := tm) (p := []) (t := []) hw
  rw [h2] at hk
  refine ⟨n1, n2, l2, ?_, by simpa using h6, h7, fun e he => hk e (by simp [he]), ?_⟩
  · exact exec_typed l1 (fun e he => hk e (by simp [he])) ht h4
  · intro e he
    exact ⟨planFields_spec [] [] c hw e (by rw [h2]; simp [he]), by simpa using h3 e he⟩

/-- Later writes are elsewhere, inside the elements, or for the node itself. -/
theorem later_elsewhere {cx : Cfg V} {tm : Meta} {c : Fields V} {A B : Addr} {o : Prop} {e : Entry V}
    (ha : Alone cx tm c A B) (hn : NoPostAbove cx A) (he : EntrySpec cx tm [] [] c e)
    (hl : Later A o e) :
    (¬ Contains B e.dst ∧ ¬ Contains e.dst B) ∨ (o ∧ Inside B e.dst) ∨ (o ∧ e.src = A ∧ e.op.isPost) := by
  obtain ⟨B', x, h1, h2, h3, h4, h5⟩ := he
  simp only [List.nil_append] at h5
  have main : e.src ≠ A → ¬ Contains e.src A →
      (¬ Contains B e.dst ∧ ¬ Contains e.dst B) ∨ (Contains A e.src ∧ Inside B e.dst) := by
    intro h6 h7
    rcases ha e.src B' x h1 h2 (opSpec_acts h5 h3) h6 h7 with ⟨h8, h9⟩ | ⟨h8, h9⟩
    · left
      constructor
      · intro h
        rcases contains_common h h4 with h | h
        · exact h8 h
        · exact h9 h
      · intro h; exact h9 (contains_trans h4 h)
    · exact .inr ⟨h8, inside_trans h9 h4⟩
  rcases hl with ⟨h6, h7, h8⟩ | ⟨h6, h7, h8⟩ | ⟨h6, h7⟩
  · by_cases hA : e.src = A
    · exact .inr (.inr ⟨h6, hA, h8 hA⟩)
    · rcases main hA (fun h => hA (contains_antisymm h h7)) with h | h
      · exact .inl h
      · exact .inr (.inl ⟨h6, h.2⟩)
  · have := hn e.src h7 h8
    cases ho : e.op with
    | post f => rw [ho] at h5; simp only [OpSpec, this] at h5; simp at h5
    | store => rw [ho] at h6; simp [Op.isPost] at h6
    | resize => rw [ho] at h6; simp [Op.isPost] at h6
    | apply => rw [ho] at h6; simp [Op.isPost] at h6
  · rcases main (fun h => h6 (h ▸ contains_refl _)) h6 with h | h
    · exact .inl h
    · exact absurd h.1 h7

theorem exec_one {cx : Cfg V} {e : Entry V} {n n' : Node V} (h : exec cx [e] n = .ok n')
    (hk : Keeps (e.op.run cx)) :
    ∃ x y, n.at e.dst = some x ∧ e.op.run cx x = .ok y ∧ n'.at e.dst = some y := by
  simp only [exec] at h
  obtain ⟨n1, h1, h2⟩ := andThen_ok.1 h
  cases h2
  exact modify_at hk.2 (writeAt_ok h1)

theorem typed_leaf_at {root : Node V} {tm : Meta} (ht : Typed root tm) {b : Addr} {l : LeafMeta}
    {v : Option V} (h : root.at b = some (.leaf l v)) : metaAt tm (names b) = some (.leaf l) := by
  obtain ⟨m, h1, h2⟩ := typedAt_at (.inl ht) h
  rcases h2 with h2 | ⟨f, mf, h2, -⟩
  · cases m <;> simp [Typed] at h2
    subst h2; exact h1
  · simp at h2

end Verif.Convert
