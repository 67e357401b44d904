import Verif.Lemmas.ConvertPlan
/-
The entries of the plan are the nodes of the source with their targets, in document order.
-/
set_option linter.unusedSectionVars false
namespace Verif.Convert
open Verif.Ids Verif.TreeSpec Verif.ConvertSpec

variable {V : Type} [Value V]

/-! ### Positions -/

theorem apart_symm {a b : Addr} (h : Apart a b) : Apart b a := by
  induction a generalizing b with
  | nil => simp [Apart] at h
  | cons s a ih =>
    cases b with
    | nil => simp [Apart] at h
    | cons t b =>
      simp only [Apart] at h ⊢
      rcases h with h | ⟨i, j, h1, h2, h3⟩ | ⟨rfl, h⟩
      · exact .inl (Ne.symm h)
      · exact .inr (.inl ⟨j, i, h2, h1, Ne.symm h3⟩)
      · exact .inr (.inr ⟨rfl, ih h⟩)

theorem contains_refl (a : Addr) : Contains a a := by
  induction a with
  | nil => simp [Contains]
  | cons s a ih =>
    cases a with
    | nil => simp [Contains]
    | cons t a => simp only [Contains]; exact ⟨trivial, ih⟩

theorem contains_cons {s : Name × Option Nat} {a b : Addr} (h : Contains a b) :
    Contains (s :: a) (s :: b) := by
  cases a with
  | nil => simp [Contains]
  | cons t a => simp only [Contains]; exact ⟨trivial, h⟩

theorem contains_of_cons {s : Name × Option Nat} {a b : Addr} (h : Contains (s :: a) (s :: b)) :
    Contains a b := by
  cases a with
  | nil => simp [Contains]
  | cons t a => simp only [Contains] at h; exact h.2

theorem not_contains_name {s t : Name × Option Nat} {a b : Addr} (h : s.1 ≠ t.1) :
    ¬ Contains (s :: a) (t :: b) := by
  intro hc
  cases a with
  | nil =>
    simp only [Contains] at hc
    rcases hc with rfl | hc
    · exact h rfl
    · exact h hc.1
  | cons u a => simp only [Contains] at hc; exact h (by rw [hc.1])

theorem not_contains_index {n m : Name} {i j : Nat} {a b : Addr} (h : i ≠ j) :
    ¬ Contains ((n, some i) :: a) ((m, some j) :: b) := by
  intro hc
  cases a with
  | nil =>
    simp only [Contains] at hc
    rcases hc with hc | hc
    · simp at hc; exact h hc.2
    · simp at hc
  | cons u a => simp only [Contains] at hc; simp at hc; exact h hc.1.2

theorem apart_contains {a b c : Addr} (h : Apart a b) (hc : Contains b c) : Apart a c := by
  induction a generalizing b c with
  | nil => simp [Apart] at h
  | cons s a ih =>
    cases b with
    | nil => simp [Apart] at h
    | cons t b =>
      cases c with
      | nil => simp [Contains] at hc
      | cons u c =>
        simp only [Apart] at h ⊢
        cases b with
        | nil =>
          simp only [Contains] at hc
          rcases hc with rfl | ⟨h1, h2⟩
          · rcases h with h | h | ⟨rfl, h⟩
            · exact .inl h
            · exact .inr (.inl h)
            · cases a <;> simp [Apart] at h
          · rcases h with h | ⟨i, j, h3, h4, h5⟩ | ⟨rfl, h⟩
            · exact .inl (by rw [← h1]; exact h)
            · rw [h2] at h4; simp at h4
            · cases a <;> simp [Apart] at h
        | cons t' b =>
          simp only [Contains] at hc
          obtain ⟨rfl, hc⟩ := hc
          rcases h with h | h | ⟨rfl, h⟩
          · exact .inl h
          · exact .inr (.inl h)
          · exact .inr (.inr ⟨rfl, ih h hc⟩)

theorem contains_append (p a b : Addr) (h : Contains a b) : Contains (p ++ a) (p ++ b) := by
  induction p with
  | nil => exact h
  | cons s p ih => exact contains_cons ih

theorem elemOf_cases (a : Addr) (i : Nat) :
    elemOf a i = a ∨ ∃ p n, a = p ++ [(n, none)] ∧ elemOf a i = p ++ [(n, some i)] := by
  unfold elemOf
  split
  · next n h =>
    refine .inr ⟨a.dropLast, n, ?_, rfl⟩
    have hne : a ≠ [] := by rintro rfl; simp at h
    have h1 := List.dropLast_concat_getLast hne
    rw [List.getLast?_eq_some_getLast hne] at h
    rw [Option.some.inj h] at h1
    exact h1.symm
  · exact .inl rfl

theorem elemOf_snoc (p : Addr) (n : Name) (i : Nat) : elemOf (p ++ [(n, none)]) i = p ++ [(n, some i)] := by
  simp [elemOf]

theorem contains_elemOf (a : Addr) (i : Nat) : Contains a (elemOf a i) := by
  rcases elemOf_cases a i with h | ⟨p, n, h1, h2⟩
  · rw [h]; exact contains_refl a
  · rw [h2, h1]; exact contains_append p _ _ (by simp [Contains])

/-- Positions of one tree are apart, or one contains the other. -/
theorem compare_at {root x y : Node V} {a b : Addr} (ha : root.at a = some x)
    (hb : root.at b = some y) : Apart a b ∨ Contains a b ∨ Contains b a := by
  induction a generalizing root b with
  | nil => exact .inr (.inl (by simp [Contains]))
  | cons s a ih =>
    cases b with
    | nil => exact .inr (.inr (by simp [Contains]))
    | cons t b =>
      obtain ⟨n, i⟩ := s
      obtain ⟨m, j⟩ := t
      by_cases hn : n = m
      · subst hn
        simp only [Node.at, Option.bind_eq_some_iff] at ha hb
        obtain ⟨x', hx', ha⟩ := ha
        obtain ⟨y', hy', hb⟩ := hb
        have same : ∀ {s : Name × Option Nat}, root.item s = some x' → root.item s = some y' →
            Apart (s :: a) (s :: b) ∨ Contains (s :: a) (s :: b) ∨ Contains (s :: b) (s :: a) := by
          intro s h1 h2
          rw [h1] at h2; cases h2
          rcases ih ha hb with h | h | h
          · exact .inl (by simp only [Apart]; exact .inr (.inr ⟨trivial, h⟩))
          · exact .inr (.inl (contains_cons h))
          · exact .inr (.inr (contains_cons h))
        cases i with
        | none =>
          cases j with
          | none => exact same hx' hy'
          | some j =>
            obtain ⟨c, rfl, hc⟩ := item_cases hx'
            obtain ⟨c', hcc, hc'⟩ := item_cases hy'
            cases hcc
            simp only [reduceCtorEq, false_and, exists_false, or_false, true_and] at hc
            simp only [reduceCtorEq, false_and, false_or] at hc'
            obtain ⟨i, m, e, f, -, h1, -, -⟩ := hc'
            rw [hc] at h1; cases h1
            cases a with
            | nil => exact .inr (.inl (by simp [Contains]))
            | cons u a => simp [Node.at, Node.item] at ha
        | some i =>
          cases j with
          | none =>
            obtain ⟨c, rfl, hc⟩ := item_cases hy'
            obtain ⟨c', hcc, hc'⟩ := item_cases hx'
            cases hcc
            simp only [reduceCtorEq, false_and, exists_false, or_false, true_and] at hc
            simp only [reduceCtorEq, false_and, false_or] at hc'
            obtain ⟨i, m, e, f, -, h1, -, -⟩ := hc'
            rw [hc] at h1; cases h1
            cases b with
            | nil => exact .inr (.inr (by simp [Contains]))
            | cons u a => simp [Node.at, Node.item] at hb
          | some j =>
            by_cases hij : i = j
            · subst hij; exact same hx' hy'
            · exact .inl (by simp only [Apart]; exact .inr (.inl ⟨i, j, rfl, rfl, hij⟩))
      · exact .inl (by simp only [Apart]; exact .inl hn)

/-! ### Every entry is a node of the source with its target -/

/-- What an entry does, in terms of the source node `x` with path `q` that goes to `B`. -/
def OpSpec (cx : Cfg V) (q : List Name) (x : Node V) (B dst : Addr) : Op V → Prop
  | .store v => dst = B ∧ cx.change q = none ∧ ∃ l, x = .leaf l v
  | .resize k => dst = B ∧ ((cx.change q = none ∧ ∃ m e, x = .aos m e ∧ e.length = k) ∨
      (cx.change q = some .structAos ∧ (∃ c, x = .struct c) ∧ k = 1))
  | .apply f => dst = B ∧ ∃ g, cx.change q = some (.custom g) ∧ f = g x
  | .post f => cx.post q = some f

def EntrySpec (cx : Cfg V) (tm : Meta) (p : List Name) (t : Addr) (c : Fields V) (e : Entry V) : Prop :=
  ∃ B x, Sent cx tm p t c e.src B ∧ (Node.struct c).at e.src = some x ∧ x.hasValue = true ∧
    Contains B e.dst ∧ OpSpec cx (p ++ names e.src) x B e.dst e.op

theorem Fields.mem_names_of_get {c : Fields V} {k : Name} {x : Node V} (h : c.get? k = some x) :
    k ∈ c.names := by
  cases c with
  | nil => simp [Fields.get?] at h
  | absent n m r =>
    simp only [Fields.get?] at h
    split at h
    · next e => simp [Fields.names, e]
    · simp [Fields.names, Fields.mem_names_of_get h]
  | present n m r =>
    simp only [Fields.get?] at h
    split at h
    · next e => simp [Fields.names, e]
    · simp [Fields.names, Fields.mem_names_of_get h]

theorem sent_head {cx : Cfg V} {tm : Meta} {p : List Name} {t : Addr} {c : Fields V} {A B : Addr}
    (h : Sent cx tm p t c A B) : ∃ s A' x, A = s :: A' ∧ c.get? s.1 = some x := by
  cases h with
  | here h => exact ⟨_, _, _, rfl, h⟩
  | child h => exact ⟨_, _, _, rfl, h⟩
  | element h => exact ⟨_, _, _, rfl, h⟩
  | toArray h => exact ⟨_, _, _, rfl, h⟩
  | ofArray h => exact ⟨_, _, _, rfl, h⟩

theorem sent_congr {cx : Cfg V} {tm : Meta} {p : List Name} {t : Addr} {c c' : Fields V}
    {s : Name × Option Nat} {A B : Addr} (h : Sent cx tm p t c (s :: A) B)
    (hc : c'.get? s.1 = c.get? s.1) : Sent cx tm p t c' (s :: A) B := by
  cases h with
  | here h hb => exact .here (hc.trans h) hb
  | child h hb hq r => exact .child (hc.trans h) hb hq r
  | element h hi hb hq r => exact .element (hc.trans h) hi hb hq r
  | toArray h hb hq r => exact .toArray (hc.trans h) hb hq r
  | ofArray h hb hq r => exact .ofArray (hc.trans h) hb hq r

theorem item_congr {c c' : Fields V} {s : Name × Option Nat} (hc : c'.get? s.1 = c.get? s.1) :
    (Node.struct c').item s = (Node.struct c).item s := by
  simp only [Node.item, hc]

theorem entrySpec_congr {cx : Cfg V} {tm : Meta} {p : List Name} {t : Addr} {c c' : Fields V}
    {e : Entry V} (h : EntrySpec cx tm p t c e)
    (hc : ∀ s ∈ e.src.head?, c'.get? s.1 = c.get? s.1) : EntrySpec cx tm p t c' e := by
  obtain ⟨B, x, h1, h2, h3, h4⟩ := h
  obtain ⟨s, A', y, e1, -⟩ := sent_head h1
  refine ⟨B, x, ?_, ?_, h3, h4⟩
  · rw [e1] at h1 hc ⊢
    exact sent_congr h1 (hc s (by simp))
  · rw [e1] at h2 hc ⊢
    rw [← h2]
    simp only [Node.at, item_congr (hc s (by simp))]

theorem mem_postOf {cx : Cfg V} {q : List Name} {a b : Addr} {e : Entry V}
    (h : e ∈ postOf cx q a b) : ∃ f, cx.post q = some f ∧ e = ⟨a, b, .post f⟩ := by
  unfold postOf at h
  split at h
  · simp at h
  · next f hf => exact ⟨f, hf, by simpa using h⟩

/-- An entry of a part, as an entry of the whole. -/
theorem entrySpec_pre {cx : Cfg V} {tm : Meta} {p : List Name} {t : Addr} {c d : Fields V}
    {s : Name × Option Nat} {b : Addr} {e : Entry V} (h : EntrySpec cx tm (p ++ [s.1]) b d e)
    (hi : (Node.struct c).item s = some (.struct d))
    (hs : ∀ A B, Sent cx tm (p ++ [s.1]) b d A B → Sent cx tm p t c (s :: A) B) :
    EntrySpec cx tm p t c (e.pre s) := by
  obtain ⟨B, x, h1, h2, h3, h4, h5⟩ := h
  refine ⟨B, x, hs _ _ h1, ?_, h3, h4, ?_⟩
  · simp [Entry.pre, Node.at, hi, h2]
  · simp only [Entry.pre, names, List.map_cons]
    simpa [names] using h5

mutual
theorem planFields_spec {cx : Cfg V} {tm : Meta} (p : List Name) (t : Addr) (c : Fields V)
    (hw : WFFields c) (e : Entry V) (h : e ∈ planFields cx tm p t c) : EntrySpec cx tm p t c e := by
  cases c with
  | nil => simp [planFields] at h
  | absent n m r =>
    simp only [planFields] at h
    simp only [WFFields] at hw
    have h1 := planFields_spec p t r hw.2.2 e h
    refine entrySpec_congr h1 ?_
    obtain ⟨B, x, h2, -⟩ := h1
    obtain ⟨s, A', y, e1, h3⟩ := sent_head h2
    intro s' hs'
    rw [e1] at hs'; simp at hs'; subst hs'
    simp only [Fields.get?]
    rw [if_neg]
    rintro rfl
    exact hw.1 (Fields.mem_names_of_get h3)
  | present n x r =>
    simp only [planFields, List.mem_append] at h
    simp only [WFFields] at hw
    rcases h with h | h
    · split at h
      · next hv =>
        split at h
        · simp at h
        · next b hb => exact planItem_spec p t n b x hw.2.1 _ (by simp [Fields.get?]) hb hv e h
      · simp at h
    · have h1 := planFields_spec p t r hw.2.2 e h
      refine entrySpec_congr h1 ?_
      obtain ⟨B, x, h2, -⟩ := h1
      obtain ⟨s, A', y, e1, h3⟩ := sent_head h2
      intro s' hs'
      rw [e1] at hs'; simp at hs'; subst hs'
      simp only [Fields.get?]
      rw [if_neg]
      rintro rfl
      exact hw.1 (Fields.mem_names_of_get h3)
termination_by structural c
theorem planItem_spec {cx : Cfg V} {tm : Meta} (p : List Name) (t : Addr) (n : Name) (b : Addr)
    (x : Node V) (hw : WF x) (c : Fields V) (hc : c.get? n = some x)
    (hb : step cx tm (p ++ [n]) n t = some b) (hv : x.hasValue = true) (e : Entry V)
    (h : e ∈ planItem cx tm (p ++ [n]) n b x) : EntrySpec cx tm p t c e := by
  have hat : (Node.struct c).at [(n, none)] = some x := by simp [Node.at, Node.item, hc]
  have hhere : Sent cx tm p t c [(n, none)] b := .here hc hb
  have hpost : ∀ b', Contains b b' → e ∈ postOf cx (p ++ [n]) [(n, none)] b' →
      EntrySpec cx tm p t c e := by
    intro b' hb' h
    obtain ⟨f, hf, rfl⟩ := mem_postOf h
    exact ⟨b, x, hhere, hat, hv, hb', by simpa [OpSpec, names] using hf⟩
  have hcust : ∀ f, cx.change (p ++ [n]) = some (.custom f) → e = ⟨[(n, none)], b, .apply (f x)⟩ →
      EntrySpec cx tm p t c e := by
    rintro f hf rfl
    exact ⟨b, x, hhere, hat, hv, contains_refl b, ⟨rfl, f, hf, rfl⟩⟩
  cases x with
  | leaf l v =>
    simp only [planItem] at h
    rcases hq : cx.change (p ++ [n]) with _ | (_ | f) <;> simp only [hq] at h
    · rcases List.mem_cons.1 h with rfl | h
      · exact ⟨b, _, hhere, hat, hv, contains_refl b, ⟨rfl, hq, l, rfl⟩⟩
      · exact hpost b (contains_refl b) h
    · simp at h
    · exact hcust f hq (by simpa using h)
  | struct d =>
    simp only [planItem] at h
    simp only [WF] at hw
    rcases hq : cx.change (p ++ [n]) with _ | (_ | f) <;> simp only [hq] at h
    · rcases List.mem_append.1 h with h | h
      · obtain ⟨e', h1, rfl⟩ := List.mem_map.1 h
        refine entrySpec_pre (s := (n, none)) (planFields_spec (p ++ [n]) b d hw e' h1)
          (by simp [Node.item, hc]) fun A B hs => .child hc hb hq hs
      · exact hpost b (contains_refl b) h
    · rcases List.mem_cons.1 h with rfl | h
      · exact ⟨b, _, hhere, hat, hv, contains_refl b, ⟨rfl, .inr ⟨hq, ⟨d, rfl⟩, rfl⟩⟩⟩
      · rcases List.mem_append.1 h with h | h
        · obtain ⟨e', h1, rfl⟩ := List.mem_map.1 h
          refine entrySpec_pre (s := (n, none)) (planFields_spec (p ++ [n]) (elemOf b 0) d hw e' h1)
            (by simp [Node.item, hc]) fun A B hs => .toArray hc hb hq hs
        · exact hpost _ (contains_elemOf b 0) h
    · exact hcust f hq (by simpa using h)
  | aos m es =>
    simp only [planItem] at h
    simp only [WF] at hw
    rcases hq : cx.change (p ++ [n]) with _ | (_ | f) <;> simp only [hq] at h
    · rcases List.mem_cons.1 h with rfl | h
      · exact ⟨b, _, hhere, hat, hv, contains_refl b, ⟨rfl, .inl ⟨hq, m, es, rfl, rfl⟩⟩⟩
      · rcases List.mem_append.1 h with h | h
        · exact planElems_spec p t n b 0 es hw.2 c m es hc (by simp) hb hq e h
        · exact hpost b (contains_refl b) h
    · exact planSingle_spec p t n b es hw.2 c m hc hb hq hv e h
    · exact hcust f hq (by simpa using h)
termination_by structural x
theorem planSingle_spec {cx : Cfg V} {tm : Meta} (p : List Name) (t : Addr) (n : Name) (b : Addr)
    (es : Elems V) (hw : WFElems es) (c : Fields V) (m : MFields) (hc : c.get? n = some (.aos m es))
    (hb : step cx tm (p ++ [n]) n t = some b) (hq : cx.change (p ++ [n]) = some .structAos)
    (hv : (Node.aos m es).hasValue = true)
    (e : Entry V) (h : e ∈ planSingle cx tm (p ++ [n]) n b es) : EntrySpec cx tm p t c e := by
  cases es with
  | nil => simp [planSingle] at h
  | cons d r =>
    cases r with
    | cons _ _ => simp [planSingle] at h
    | nil =>
      simp only [planSingle] at h
      simp only [WFElems] at hw
      rcases List.mem_append.1 h with h | h
      · obtain ⟨e', h1, rfl⟩ := List.mem_map.1 h
        refine entrySpec_pre (s := (n, some 0)) (planFields_spec (p ++ [n]) b d hw.1 e' h1)
          (by simp [Node.item, hc, Elems.get?]) fun A B hs => .ofArray hc hb hq hs
      · obtain ⟨f, hf, rfl⟩ := mem_postOf h
        exact ⟨b, _, .here hc hb, by simp [Node.at, Node.item, hc], hv, contains_refl b,
          by simpa [OpSpec, names] using hf⟩
termination_by structural es
theorem planElems_spec {cx : Cfg V} {tm : Meta} (p : List Name) (t : Addr) (n : Name) (b : Addr)
    (i : Nat) (es : Elems V) (hw : WFElems es) (c : Fields V) (m : MFields) (all : Elems V)
    (hc : c.get? n = some (.aos m all)) (ha : ∀ j, es.get? j = all.get? (i + j))
    (hb : step cx tm (p ++ [n]) n t = some b) (hq : cx.change (p ++ [n]) = none)
    (e : Entry V) (h : e ∈ planElems cx tm (p ++ [n]) n b i es) : EntrySpec cx tm p t c e := by
  cases es with
  | nil => simp [planElems] at h
  | cons d r =>
    simp only [planElems] at h
    simp only [WFElems] at hw
    have h0 : all.get? i = some d := by have := ha 0; simpa [Elems.get?] using this.symm
    rcases List.mem_append.1 h with h | h
    · obtain ⟨e', h1, rfl⟩ := List.mem_map.1 h
      refine entrySpec_pre (s := (n, some i)) (planFields_spec (p ++ [n]) (elemOf b i) d hw.1 e' h1)
        (by simp [Node.item, hc, h0]) fun A B hs => .element hc h0 hb hq hs
    · refine planElems_spec p t n b (i + 1) r hw.2 c m all hc ?_ hb hq e h
      intro j
      have := ha (j + 1)
      simp only [Elems.get?] at this
      rw [this]; congr 1; omega
termination_by structural es
end

/-! ### Every node with a target has its entries, after everything above it -/

/-- The main writes for a node. -/
def mainOf (cx : Cfg V) (q : List Name) (A B : Addr) (y : Node V) : List (Entry V) :=
  match y, cx.change q with
  | .leaf _ v, none => ⟨A, B, .store v⟩ :: postOf cx q A B
  | .aos _ e, none => [⟨A, B, .resize e.length⟩]
  | .struct _, some .structAos => [⟨A, B, .resize 1⟩]
  | y, some (.custom f) => [⟨A, B, .apply (f y)⟩]
  | _, _ => []

def Op.isPost : Op V → Prop
  | .post _ => True
  | _ => False

/-- The parts of this node are converted as well. -/
def Open (cx : Cfg V) (q : List Name) (y : Node V) : Prop :=
  ¬ IsLeaf y ∧ ∀ f, cx.change q ≠ some (.custom f)

/-- What may come after the main writes of `A`. -/
def Later (A : Addr) (o : Prop) (e : Entry V) : Prop :=
  (o ∧ Contains A e.src ∧ (e.src = A → e.op.isPost)) ∨ (e.op.isPost ∧ Contains e.src A ∧ e.src ≠ A) ∨
    (¬ Contains e.src A ∧ ¬ Contains A e.src)

theorem planElems_src {cx : Cfg V} {tm : Meta} {q : List Name} {n : Name} {b : Addr} {e : Entry V}
    (es : Elems V) (i : Nat) (h : e ∈ planElems cx tm q n b i es) :
    ∃ j r, i ≤ j ∧ e.src = (n, some j) :: r := by
  cases es with
  | nil => simp [planElems] at h
  | cons c r =>
    simp only [planElems] at h
    rcases List.mem_append.1 h with h | h
    · obtain ⟨e', -, rfl⟩ := List.mem_map.1 h
      exact ⟨i, e'.src, Nat.le_refl _, rfl⟩
    · obtain ⟨j, s, h1, h2⟩ := planElems_src r (i + 1) h
      exact ⟨j, s, by omega, h2⟩

theorem hasValue_of_at {n x : Node V} {a : Addr} (h : n.at a = some x) (hv : x.hasValue = true) :
    n.hasValue = true := by
  induction a generalizing n with
  | nil => simp [Node.at] at h; subst h; exact hv
  | cons s a ih =>
    simp only [Node.at, Option.bind_eq_some_iff] at h
    obtain ⟨y, h1, h2⟩ := h
    exact hasValue_of_item h1 (.inl (ih h2))

theorem planItem_src {cx : Cfg V} {tm : Meta} {q : List Name} {n : Name} {b : Addr} {x : Node V}
    {e : Entry V} (h : e ∈ planItem cx tm q n b x) : ∃ i r, e.src = (n, i) :: r := by
  have hpost : ∀ b', e ∈ postOf cx q [(n, none)] b' → ∃ i r, e.src = (n, i) :: r := by
    intro b' h
    obtain ⟨f, hf, rfl⟩ := mem_postOf h
    exact ⟨none, [], rfl⟩
  have hmap : ∀ (l : List (Entry V)) i, e ∈ l.map (Entry.pre (n, i)) → ∃ i r, e.src = (n, i) :: r := by
    intro l i h
    obtain ⟨e', -, rfl⟩ := List.mem_map.1 h
    exact ⟨i, e'.src, rfl⟩
  cases x with
  | leaf l v =>
    simp only [planItem] at h
    rcases hq : cx.change q with _ | (_ | f) <;> simp only [hq] at h
    · rcases List.mem_cons.1 h with rfl | h
      · exact ⟨none, [], rfl⟩
      · exact hpost _ h
    · simp at h
    · simp at h; subst h; exact ⟨none, [], rfl⟩
  | struct c =>
    simp only [planItem] at h
    rcases hq : cx.change q with _ | (_ | f) <;> simp only [hq] at h
    · rcases List.mem_append.1 h with h | h
      · exact hmap _ _ h
      · exact hpost _ h
    · rcases List.mem_cons.1 h with rfl | h
      · exact ⟨none, [], rfl⟩
      · rcases List.mem_append.1 h with h | h
        · exact hmap _ _ h
        · exact hpost _ h
    · simp at h; subst h; exact ⟨none, [], rfl⟩
  | aos m es =>
    simp only [planItem] at h
    rcases hq : cx.change q with _ | (_ | f) <;> simp only [hq] at h
    · rcases List.mem_cons.1 h with rfl | h
      · exact ⟨none, [], rfl⟩
      · rcases List.mem_append.1 h with h | h
        · obtain ⟨j, r, -, h1⟩ := planElems_src _ _ h; exact ⟨_, _, h1⟩
        · exact hpost _ h
    · cases es with
      | nil => simp [planSingle] at h
      | cons d r =>
        cases r with
        | cons _ _ => simp [planSingle] at h
        | nil =>
          simp only [planSingle] at h
          rcases List.mem_append.1 h with h | h
          · exact hmap _ _ h
          · exact hpost _ h
    · simp at h; subst h; exact ⟨none, [], rfl⟩

theorem planFields_src {cx : Cfg V} {tm : Meta} {p : List Name} {t : Addr} {c : Fields V}
    (hw : WFFields c) {e : Entry V} (h : e ∈ planFields cx tm p t c) :
    ∃ n i r, e.src = (n, i) :: r ∧ n ∈ c.names := by
  obtain ⟨B, x, h1, -⟩ := planFields_spec p t c hw e h
  obtain ⟨⟨n, i⟩, A', y, e1, h2⟩ := sent_head h1
  exact ⟨n, i, A', e1, Fields.mem_names_of_get h2⟩

theorem planFields_split {cx : Cfg V} {tm : Meta} {p : List Name} {t : Addr} {c : Fields V}
    (hw : WFFields c) {n : Name} {x : Node V} {b : Addr} (hc : c.get? n = some x)
    (hv : x.hasValue = true) (hb : step cx tm (p ++ [n]) n t = some b) :
    ∃ l1 l2, planFields cx tm p t c = l1 ++ (planItem cx tm (p ++ [n]) n b x ++ l2) ∧
      ∀ e ∈ l2, ∃ m i r, e.src = (m, i) :: r ∧ m ≠ n := by
  cases c with
  | nil => simp [Fields.get?] at hc
  | absent k m r =>
    simp only [Fields.get?] at hc
    simp only [WFFields] at hw
    split at hc
    · cases hc
      have : (m.fresh : Node V).hasValue = false := by
        rw [← content_hasValue, content_fresh, contentM_hasValue]
      rw [this] at hv; simp at hv
    · simp only [planFields]
      exact planFields_split hw.2.2 hc hv hb
  | present k y r =>
    simp only [Fields.get?] at hc
    simp only [WFFields] at hw
    split at hc
    · next e =>
      subst e; cases hc
      refine ⟨[], planFields cx tm p t r, ?_, ?_⟩
      · simp only [planFields, hv, if_true, hb, List.nil_append]
      · intro e he
        obtain ⟨m, i, r', h1, h2⟩ := planFields_src hw.2.2 he
        exact ⟨m, i, r', h1, fun hm => hw.1 (hm ▸ h2)⟩
    · obtain ⟨l1, l2, h1, h2⟩ := planFields_split (p := p) (t := t) hw.2.2 hc hv hb
      refine ⟨(if y.hasValue then
          match step cx tm (p ++ [k]) k t with
          | none => []
          | some b => planItem cx tm (p ++ [k]) k b y
        else []) ++ l1, l2, ?_, h2⟩
      simp only [planFields]
      rw [h1]
      simp only [List.append_assoc]
      rfl

theorem planElems_split {cx : Cfg V} {tm : Meta} {q : List Name} {n : Name} {b : Addr} (k : Nat)
    (es : Elems V) {i : Nat} {d : Fields V} (h : es.get? i = some d) :
    ∃ l1 l2, planElems cx tm q n b k es =
        l1 ++ ((planFields cx tm q (elemOf b (k + i)) d).map (Entry.pre (n, some (k + i))) ++ l2) ∧
      ∀ e ∈ l2, ∃ j r, e.src = (n, some j) :: r ∧ j ≠ k + i := by
  induction i generalizing k es with
  | zero =>
    cases es with
    | nil => simp [Elems.get?] at h
    | cons c r =>
      simp [Elems.get?] at h; subst h
      refine ⟨[], planElems cx tm q n b (k + 1) r, by simp [planElems], ?_⟩
      intro e he
      obtain ⟨j, s, h1, h2⟩ := planElems_src r (k + 1) he
      exact ⟨j, s, h2, by omega⟩
  | succ i ih =>
    cases es with
    | nil => simp [Elems.get?] at h
    | cons c r =>
      simp only [Elems.get?] at h
      obtain ⟨l1, l2, h1, h2⟩ := ih (k + 1) r h
      have e : k + 1 + i = k + (i + 1) := by omega
      rw [e] at h1 h2
      refine ⟨(planFields cx tm q (elemOf b k) c).map (Entry.pre (n, some k)) ++ l1, l2, ?_, h2⟩
      simp only [planElems]
      rw [h1]
      simp only [List.append_assoc]

theorem later_name {n : Name} {i : Option Nat} {A : Addr} {o : Prop} {e : Entry V}
    (h : ∃ m j r, e.src = (m, j) :: r ∧ m ≠ n) : Later ((n, i) :: A) o e := by
  obtain ⟨m, j, r, h1, h2⟩ := h
  refine .inr (.inr ⟨?_, ?_⟩)
  · rw [h1]; exact not_contains_name h2
  · rw [h1]; exact not_contains_name (Ne.symm h2)

theorem later_index {n : Name} {i : Nat} {A : Addr} {o : Prop} {e : Entry V}
    (h : ∃ j r, e.src = (n, some j) :: r ∧ j ≠ i) : Later ((n, some i) :: A) o e := by
  obtain ⟨j, r, h1, h2⟩ := h
  refine .inr (.inr ⟨?_, ?_⟩)
  · rw [h1]; exact not_contains_index h2
  · rw [h1]; exact not_contains_index (Ne.symm h2)

theorem later_pre {cx : Cfg V} {p : List Name} {s : Name × Option Nat} {A : Addr} {y : Node V}
    {e : Entry V} (h : Later A (Open cx (p ++ [s.1] ++ names A) y) e) :
    Later (s :: A) (Open cx (p ++ names (s :: A)) y) (e.pre s) := by
  have e : p ++ [s.1] ++ names A = p ++ names (s :: A) := by simp [names]
  rw [e] at h
  rcases h with ⟨h1, h2, h3⟩ | ⟨h1, h2, h3⟩ | ⟨h1, h2⟩
  · exact .inl ⟨h1, contains_cons h2, fun h => h3 (by simpa [Entry.pre] using h)⟩
  · exact .inr (.inl ⟨h1, contains_cons h2, by simpa [Entry.pre] using h3⟩)
  · exact .inr (.inr ⟨fun h => h1 (contains_of_cons h), fun h => h2 (contains_of_cons h)⟩)

theorem later_post {cx : Cfg V} {q : List Name} {n : Name} {i : Option Nat} {b : Addr} {A : Addr}
    (hA : (n, i) :: A ≠ [(n, none)]) {o : Prop} {e : Entry V}
    (h : e ∈ postOf cx q [(n, none)] b) : Later ((n, i) :: A) o e := by
  obtain ⟨f, -, rfl⟩ := mem_postOf h
  exact .inr (.inl ⟨by simp [Op.isPost], by simp [Contains], fun h => hA h.symm⟩)

theorem mem_pre_src {cx : Cfg V} {tm : Meta} {q : List Name} {n : Name} {i : Option Nat} {b : Addr}
    {d : Fields V} (hw : WFFields d) {e : Entry V}
    (h : e ∈ (planFields cx tm q b d).map (Entry.pre (n, i))) : e.src ≠ [(n, none)] := by
  obtain ⟨e', h1, rfl⟩ := List.mem_map.1 h
  obtain ⟨k, j, r, h2, -⟩ := planFields_src hw h1
  simp [Entry.pre, h2]

theorem isPost_of_mem {cx : Cfg V} {q : List Name} {a b : Addr} {e : Entry V}
    (h : e ∈ postOf cx q a b) : e.op.isPost := by
  obtain ⟨f, -, rfl⟩ := mem_postOf h
  simp [Op.isPost]

theorem mainOf_pre {cx : Cfg V} {p : List Name} {s : Name × Option Nat} {A B : Addr} {y : Node V} :
    (mainOf cx (p ++ [s.1] ++ names A) A B y).map (Entry.pre s) =
      mainOf cx (p ++ names (s :: A)) (s :: A) B y := by
  have e : p ++ [s.1] ++ names A = p ++ names (s :: A) := by simp [names]
  rw [e]
  unfold mainOf
  split <;> simp [Entry.pre, postOf]
  split <;> simp [Entry.pre]

/-- Splitting the plan at the writes for one node. -/
theorem plan_main {cx : Cfg V} {tm : Meta} {p : List Name} {t : Addr} {c : Fields V} {A B : Addr}
    (hs : Sent cx tm p t c A B) (hw : WFFields c) {y : Node V}
    (hy : (Node.struct c).at A = some y) (hv : y.hasValue = true) :
    ∃ l1 l2, planFields cx tm p t c = l1 ++ (mainOf cx (p ++ names A) A B y ++ l2) ∧
      ∀ e ∈ l2, Later A (Open cx (p ++ names A) y) e := by
  induction hs with
  | @here p t c n x b h hb =>
    have : y = x := by simpa [Node.at, Node.item, h] using hy.symm
    subst this
    obtain ⟨l1, l2, h1, h2⟩ := planFields_split hw h hv hb
    have hwy : WF y := wf_get hw h
    have hq' : p ++ names [(n, none)] = p ++ [n] := rfl
    rw [hq']
    have key : ∃ l3 l4, planItem cx tm (p ++ [n]) n b y =
        l3 ++ (mainOf cx (p ++ [n]) [(n, none)] b y ++ l4) ∧ ∀ e ∈ l4, Later [(n, none)] (Open cx (p ++ [n]) y) e := by
      cases y with
      | leaf l v =>
        refine ⟨[], [], ?_, by simp⟩
        simp only [planItem, mainOf]
        rcases hq : cx.change (p ++ [n]) with _ | (_ | f) <;> simp
      | struct d =>
        have hwd : WFFields d := by simpa only [WF] using hwy
        simp only [planItem, mainOf]
        rcases hq : cx.change (p ++ [n]) with _ | (_ | f)
        · refine ⟨[], (planFields cx tm (p ++ [n]) b d).map (Entry.pre (n, none)) ++
            postOf cx (p ++ [n]) [(n, none)] b, by simp, ?_⟩
          intro e he
          refine .inl ⟨⟨by simp [IsLeaf], by simp [hq]⟩, ?_, ?_⟩
          rotate_left
          · intro hsrc
            rcases List.mem_append.1 he with he | he
            · exact absurd hsrc (mem_pre_src hwd he)
            · exact isPost_of_mem he
          obtain ⟨i, r, h3⟩ := planItem_src (cx := cx) (tm := tm) (q := p ++ [n]) (n := n) (b := b)
            (x := .struct d) (e := e) (by simp only [planItem, hq]; exact he)
          rw [h3]; simp [Contains]
        · refine ⟨[], (planFields cx tm (p ++ [n]) (elemOf b 0) d).map (Entry.pre (n, none)) ++
            postOf cx (p ++ [n]) [(n, none)] (elemOf b 0), by simp, ?_⟩
          intro e he
          refine .inl ⟨⟨by simp [IsLeaf], by simp [hq]⟩, ?_, ?_⟩
          rotate_left
          · intro hsrc
            rcases List.mem_append.1 he with he | he
            · exact absurd hsrc (mem_pre_src hwd he)
            · exact isPost_of_mem he
          obtain ⟨i, r, h3⟩ := planItem_src (cx := cx) (tm := tm) (q := p ++ [n]) (n := n) (b := b)
            (x := .struct d) (e := e) (by simp only [planItem, hq]; exact List.mem_cons_of_mem _ he)
          rw [h3]; simp [Contains]
        · exact ⟨[], [], by simp, by simp⟩
      | aos m es =>
        simp only [planItem, mainOf]
        rcases hq : cx.change (p ++ [n]) with _ | (_ | f)
        · refine ⟨[], planElems cx tm (p ++ [n]) n b 0 es ++
            postOf cx (p ++ [n]) [(n, none)] b, by simp, ?_⟩
          intro e he
          refine .inl ⟨⟨by simp [IsLeaf], by simp [hq]⟩, ?_, ?_⟩
          rotate_left
          · intro hsrc
            rcases List.mem_append.1 he with he | he
            · obtain ⟨j, r, -, h4⟩ := planElems_src _ _ he
              rw [h4] at hsrc; simp at hsrc
            · exact isPost_of_mem he
          obtain ⟨i, r, h3⟩ := planItem_src (cx := cx) (tm := tm) (q := p ++ [n]) (n := n) (b := b)
            (x := .aos m es) (e := e) (by simp only [planItem, hq]; exact List.mem_cons_of_mem _ he)
          rw [h3]; simp [Contains]
        · refine ⟨[], planSingle cx tm (p ++ [n]) n b es, by simp, ?_⟩
          intro e he
          refine .inl ⟨⟨by simp [IsLeaf], by simp [hq]⟩, ?_, ?_⟩
          rotate_left
          · intro hsrc
            cases es with
            | nil => simp [planSingle] at he
            | cons d r =>
              cases r with
              | cons _ _ => simp [planSingle] at he
              | nil =>
                simp only [planSingle] at he
                rcases List.mem_append.1 he with he | he
                · simp only [WF, WFElems] at hwy
                  exact absurd hsrc (mem_pre_src hwy.2.1 he)
                · exact isPost_of_mem he
          obtain ⟨i, r, h3⟩ := planItem_src (cx := cx) (tm := tm) (q := p ++ [n]) (n := n) (b := b)
            (x := .aos m es) (e := e) (by simp only [planItem, hq]; exact he)
          rw [h3]; simp [Contains]
        · exact ⟨[], [], by simp, by simp⟩
    obtain ⟨l3, l4, h3, h4⟩ := key
    refine ⟨l1 ++ l3, l4 ++ l2, by rw [h1, h3]; simp, ?_⟩
    intro e he
    rcases List.mem_append.1 he with he | he
    · exact h4 e he
    · exact later_name (h2 e he)
  | @child p t c d n b A B h hb hq r ih =>
    have hi : (Node.struct c).item (n, none) = some (.struct d) := by simp [Node.item, h]
    have hyd : (Node.struct d).at A = some y := by simpa [Node.at, hi] using hy
    have hvd : (Node.struct d).hasValue = true := hasValue_of_at hyd hv
    have hwd : WFFields d := by have := wf_get hw h; simpa only [WF] using this
    obtain ⟨l1, l2, h1, h2⟩ := planFields_split hw h hvd hb
    obtain ⟨l3, l4, h3, h4⟩ := ih hwd hyd
    obtain ⟨s0, A0, x0, eA, -⟩ := sent_head r
    refine ⟨l1 ++ l3.map (Entry.pre (n, none)), l4.map (Entry.pre (n, none)) ++
      (postOf cx (p ++ [n]) [(n, none)] b ++ l2), ?_, ?_⟩
    · rw [h1]
      simp only [planItem, hq, h3, List.map_append]
      rw [← mainOf_pre (s := (n, none))]
      simp
    · intro e he
      rcases List.mem_append.1 he with he | he
      · obtain ⟨e', h5, rfl⟩ := List.mem_map.1 he
        exact later_pre (h4 e' h5)
      · rcases List.mem_append.1 he with he | he
        · exact later_post (by rw [eA]; simp) he
        · exact later_name (h2 e he)
  | @element p t c d n b A B m es i h hi hb hq r ih =>
    have hit : (Node.struct c).item (n, some i) = some (.struct d) := by simp [Node.item, h, hi]
    have hyd : (Node.struct d).at A = some y := by simpa [Node.at, hit] using hy
    have hve : (Node.aos m es).hasValue = true := by
      simp only [Node.hasValue, decide_eq_true_eq]
      have := Elems.get?_lt hi
      omega
    have hwd : WFFields d := by
      have := wf_get hw h
      simp only [WF] at this
      exact wf_elem this.2 hi
    obtain ⟨l1, l2, h1, h2⟩ := planFields_split hw h hve hb
    obtain ⟨l3, l4, h3, h4⟩ := ih hwd hyd
    obtain ⟨l5, l6, h5, h6⟩ := planElems_split (cx := cx) (tm := tm) (q := p ++ [n]) (n := n) (b := b) 0 es hi
    rw [Nat.zero_add] at h5 h6
    refine ⟨l1 ++ ⟨[(n, none)], b, .resize es.length⟩ :: (l5 ++ l3.map (Entry.pre (n, some i))),
      l4.map (Entry.pre (n, some i)) ++ (l6 ++ (postOf cx (p ++ [n]) [(n, none)] b ++ l2)), ?_, ?_⟩
    · rw [h1]
      simp only [planItem, hq, h5, h3, List.map_append]
      rw [← mainOf_pre (s := (n, some i))]
      simp
    · intro e he
      rcases List.mem_append.1 he with he | he
      · obtain ⟨e', h7, rfl⟩ := List.mem_map.1 he
        exact later_pre (h4 e' h7)
      · rcases List.mem_append.1 he with he | he
        · exact later_index (h6 e he)
        · rcases List.mem_append.1 he with he | he
          · exact later_post (by simp) he
          · exact later_name (h2 e he)
  | @toArray p t c d n b A B h hb hq r ih =>
    have hi : (Node.struct c).item (n, none) = some (.struct d) := by simp [Node.item, h]
    have hyd : (Node.struct d).at A = some y := by simpa [Node.at, hi] using hy
    have hvd : (Node.struct d).hasValue = true := hasValue_of_at hyd hv
    have hwd : WFFields d := by have := wf_get hw h; simpa only [WF] using this
    obtain ⟨l1, l2, h1, h2⟩ := planFields_split hw h hvd hb
    obtain ⟨l3, l4, h3, h4⟩ := ih hwd hyd
    obtain ⟨s0, A0, x0, eA, -⟩ := sent_head r
    refine ⟨l1 ++ ⟨[(n, none)], b, .resize 1⟩ :: l3.map (Entry.pre (n, none)),
      l4.map (Entry.pre (n, none)) ++
      (postOf cx (p ++ [n]) [(n, none)] (elemOf b 0) ++ l2), ?_, ?_⟩
    · rw [h1]
      simp only [planItem, hq, h3, List.map_append]
      rw [← mainOf_pre (s := (n, none))]
      simp
    · intro e he
      rcases List.mem_append.1 he with he | he
      · obtain ⟨e', h5, rfl⟩ := List.mem_map.1 he
        exact later_pre (h4 e' h5)
      · rcases List.mem_append.1 he with he | he
        · exact later_post (by rw [eA]; simp) he
        · exact later_name (h2 e he)
  | @ofArray p t c d n b A B m h hb hq r ih =>
    have hit : (Node.struct c).item (n, some 0) = some (.struct d) := by simp [Node.item, h, Elems.get?]
    have hyd : (Node.struct d).at A = some y := by simpa [Node.at, hit] using hy
    have hve : (Node.aos m (.cons d .nil)).hasValue = true := by
      simp [Node.hasValue, Elems.length]
    have hwd : WFFields d := by
      have := wf_get hw h
      simp only [WF, WFElems] at this
      exact this.2.1
    obtain ⟨l1, l2, h1, h2⟩ := planFields_split hw h hve hb
    obtain ⟨l3, l4, h3, h4⟩ := ih hwd hyd
    refine ⟨l1 ++ l3.map (Entry.pre (n, some 0)), l4.map (Entry.pre (n, some 0)) ++
      (postOf cx (p ++ [n]) [(n, none)] b ++ l2), ?_, ?_⟩
    · rw [h1]
      simp only [planItem, planSingle, hq, h3, List.map_append]
      rw [← mainOf_pre (s := (n, some 0))]
      simp
    · intro e he
      rcases List.mem_append.1 he with he | he
      · obtain ⟨e', h5, rfl⟩ := List.mem_map.1 he
        exact later_pre (h4 e' h5)
      · rcases List.mem_append.1 he with he | he
        · exact later_post (by simp) he
        · exact later_name (h2 e he)

end Verif.Convert
