import Verif.Lemmas.Convert
/-
The effect of the writes of a plan.
-/
set_option linter.unusedSectionVars false
namespace Verif.Convert
open Verif.Ids Verif.TreeSpec Verif.ConvertSpec Verif.DiffSpec

variable {V : Type} [Value V]

theorem modify_cons {f : Node V → Except ConvErr (Node V)} (hk : KeepsStruct f) {n n' : Node V}
    {s : Name × Option Nat} {a : Addr} (h : n.modify f (s :: a) = some (.ok n')) :
    ∃ x x', n.item s = some x ∧ x.modify f a = some (.ok x') ∧ n'.item s = some x' := by
  obtain ⟨k, i⟩ := s
  cases n with
  | leaf => simp [Node.modify] at h
  | aos => simp [Node.modify] at h
  | struct c =>
    simp only [Node.modify] at h
    split at h
    · simp at h
    · next x hx =>
      cases i with
      | none =>
        simp only [Option.map_eq_some_iff] at h
        obtain ⟨r, hr, h⟩ := h
        cases r with
        | error => simp [Except.map] at h
        | ok z =>
          simp [Except.map] at h; subst h
          exact ⟨x, z, by simp [Node.item, hx], hr, by simp [Node.item, Fields.get?_put_same hx]⟩
      | some i =>
        simp only at h
        split at h
        · next m e =>
          split at h
          · simp at h
          · next g hg =>
            simp only [Option.map_eq_some_iff] at h
            obtain ⟨r, hr, h⟩ := h
            cases r with
            | error => simp [Except.map] at h
            | ok z =>
              obtain ⟨g', rfl⟩ := modify_struct hk hr
              simp only [Except.map, Except.ok.injEq] at h
              subst h
              refine ⟨.struct g, .struct g', by simp [Node.item, hx, hg], hr, ?_⟩
              simp [Node.item, Fields.get?_put_same hx, Elems.get?_set_same hg]
        · simp at h

theorem Elems.length_set (e : Elems V) (i : Nat) (c : Fields V) : (e.set i c).length = e.length := by
  induction i generalizing e with
  | zero => cases e <;> simp [Elems.set, Elems.length]
  | succ i ih => cases e <;> simp [Elems.set, Elems.length, ih]

/-- Changes inside an element keep the length of the array. -/
theorem modify_inside {f : Node V → Except ConvErr (Node V)} (hk : KeepsStruct f) {p : Addr}
    {n n' : Node V} {k : Name} {i : Nat} {r : Addr}
    (h : n.modify f (p ++ (k, some i) :: r) = some (.ok n')) :
    ∃ m e e', n.at (p ++ [(k, none)]) = some (.aos m e) ∧ n'.at (p ++ [(k, none)]) = some (.aos m e') ∧
      e'.length = e.length := by
  induction p generalizing n n' with
  | nil =>
    cases n with
    | leaf => simp [Node.modify] at h
    | aos => simp [Node.modify] at h
    | struct c =>
      simp only [List.nil_append, Node.modify] at h
      split at h
      · simp at h
      · next x hx =>
        split at h
        · next m e =>
          split at h
          · simp at h
          · next g hg =>
            simp only [Option.map_eq_some_iff] at h
            obtain ⟨q, hr, h⟩ := h
            cases q with
            | error => simp [Except.map] at h
            | ok z =>
              obtain ⟨g', rfl⟩ := modify_struct hk hr
              simp only [Except.map, Except.ok.injEq] at h
              subst h
              exact ⟨m, e, e.set i g', by simp [Node.at, Node.item, hx],
                by simp [Node.at, Node.item, Fields.get?_put_same hx], Elems.length_set _ _ _⟩
        · simp at h
  | cons s p ih =>
    obtain ⟨x, x', h1, h2, h3⟩ := modify_cons hk h
    obtain ⟨m, e, e', h4, h5, h6⟩ := ih h2
    exact ⟨m, e, e', by simp [Node.at, h1, h4], by simp [Node.at, h3, h5], h6⟩

theorem leaf_contains {n : Node V} {a b : Addr} {l : LeafMeta} {v : Option V} {y : Node V}
    (ha : n.at a = some (.leaf l v)) (hb : n.at b = some y) (hc : Contains a b) : a = b := by
  induction a generalizing n b with
  | nil =>
    simp [Node.at] at ha; subst ha
    cases b with
    | nil => rfl
    | cons s b => simp [Node.at, Node.item] at hb
  | cons s a ih =>
    cases b with
    | nil => simp [Contains] at hc
    | cons t b =>
      simp only [Node.at, Option.bind_eq_some_iff] at ha hb
      obtain ⟨x, hx, ha⟩ := ha
      obtain ⟨z, hz, hb⟩ := hb
      have key : s = t := by
        cases a with
        | nil =>
          simp only [Contains] at hc
          rcases hc with h | ⟨h1, h2⟩
          · exact h
          · simp [Node.at] at ha; subst ha
            obtain ⟨c, rfl, h⟩ := item_cases hx
            obtain ⟨c', e, h'⟩ := item_cases hz
            cases e
            rcases h with ⟨h3, h4⟩ | ⟨i, m, e, f, h3, -⟩
            · rcases h' with ⟨h5, h6⟩ | ⟨i, m, e, f, h5, h6, -⟩
              · exact Prod.ext h1 (h2.trans h5.symm)
              · rw [← h1, h4] at h6; cases h6
            · rw [h2] at h3; simp at h3
        | cons u a => simp only [Contains] at hc; exact hc.1
      subst key
      rw [hx] at hz; cases hz
      rw [ih ha hb (contains_of_cons hc)]

theorem aos_contains {n : Node V} {a b : Addr} {m : MFields} {e : Elems V} {y : Node V}
    (ha : n.at a = some (.aos m e)) (hb : n.at b = some y) (hc : Contains a b) :
    a = b ∨ Inside a b := by
  induction a generalizing n b with
  | nil =>
    simp [Node.at] at ha; subst ha
    cases b with
    | nil => exact .inl rfl
    | cons s b => simp [Node.at, Node.item] at hb
  | cons s a ih =>
    cases b with
    | nil => simp [Contains] at hc
    | cons t b =>
      simp only [Node.at, Option.bind_eq_some_iff] at ha hb
      obtain ⟨x, hx, ha⟩ := ha
      obtain ⟨z, hz, hb⟩ := hb
      by_cases key : s = t
      · subst key
        rw [hx] at hz; cases hz
        rcases ih ha hb (contains_of_cons hc) with h | ⟨p, k, i, r, h1, h2⟩
        · exact .inl (by rw [h])
        · exact .inr ⟨s :: p, k, i, r, by rw [h1]; rfl, by rw [h2]; rfl⟩
      · cases a with
        | cons u a => simp only [Contains] at hc; exact absurd hc.1 key
        | nil =>
          simp only [Contains] at hc
          rcases hc with h | ⟨h1, h2⟩
          · exact absurd h key
          · obtain ⟨n1, i1⟩ := s
            obtain ⟨n2, i2⟩ := t
            simp only at h1 h2
            subst h1 h2
            cases i2 with
            | none => exact absurd rfl key
            | some i => exact .inr ⟨[], n1, i, b, rfl, rfl⟩

theorem inside_contains {a b : Addr} (h : Inside a b) : Contains a b ∧ a ≠ b := by
  obtain ⟨p, n, i, r, rfl, rfl⟩ := h
  refine ⟨contains_append p _ _ (by simp [Contains]), ?_⟩
  intro e
  have := List.append_cancel_left e
  simp at this

/-- The node is as in the dictionary: nothing is set in it. -/
theorem fresh_no_value (m : Meta) (a : Addr) (v : V) : ¬ ValueAt (m.fresh : Node V) a v := by
  intro h
  have := valueAt_hasValue h
  rw [← content_hasValue, content_fresh, contentM_hasValue] at this
  simp at this

theorem fresh_no_size (m : Meta) (a : Addr) (k : Nat) : ¬ SizeAt (m.fresh : Node V) a k := by
  intro h
  have := sizeAt_hasValue h
  rw [← content_hasValue, content_fresh, contentM_hasValue] at this
  simp at this

theorem ofList_replicate_get {k i : Nat} {c d : Fields V}
    (h : (Elems.ofList (List.replicate k c)).get? i = some d) : d = c := by
  rw [← Elems.get?_toList, Elems.toList_ofList] at h
  rw [List.getElem?_eq_some_iff] at h
  obtain ⟨h1, h2⟩ := h
  simpa using h2.symm

/-- Nothing is set inside a resized array. -/
theorem resized_inside {n : Node V} {a b : Addr} {m : MFields} {k : Nat} {y : Node V}
    (ha : n.at a = some (.aos m (.ofList (List.replicate k m.fresh)))) (hb : n.at b = some y)
    (hi : Inside a b) : ∃ r, (Node.struct (m.fresh : Fields V)).at r = some y := by
  obtain ⟨p, nm, i, r, rfl, rfl⟩ := hi
  rw [Node.at_append] at ha hb
  cases hp : n.at p with
  | none => rw [hp] at ha; simp at ha
  | some x =>
    rw [hp] at ha hb
    simp only [Option.bind_some, Node.at, Option.bind_eq_some_iff] at ha hb
    obtain ⟨z, hz, ha⟩ := ha
    cases ha
    obtain ⟨w, hw, hb⟩ := hb
    obtain ⟨c, rfl, h⟩ := item_cases hw
    rcases h with h | ⟨j, m1, e, f, h1, h2, h3, rfl⟩
    · simp at h
    · have h4 : c.get? nm = some (.aos m (.ofList (List.replicate k m.fresh))) := by
        obtain ⟨c', e', h⟩ := item_cases hz
        cases e'
        rcases h with h | ⟨j, m1, e, f, h1, -⟩
        · exact h.2
        · simp at h1
      simp only at h2
      rw [h4] at h2; cases h2
      rw [ofList_replicate_get h3] at hb
      exact ⟨r, hb⟩

theorem storeNode_ok {cx : Cfg V} {v : Option V} {x y : Node V} (h : storeNode cx v x = .ok y) :
    ∃ l w v0 w', x = .leaf l w ∧ v = some v0 ∧ cx.store l v0 = .ok w' ∧ y = .leaf l w' := by
  unfold storeNode at h
  split at h
  · next l w =>
    split at h
    · simp at h
    · next v0 =>
      split at h
      · simp at h
      · next w' hw => simp at h; exact ⟨l, w, v0, w', rfl, rfl, hw, h.symm⟩
  · simp at h

/-- Where a value after one write comes from. -/
def FromOp (cx : Cfg V) (e : Entry V) (b : Addr) (w : V) : Prop :=
  match e.op with
  | .store v => b = e.dst ∧ ∃ l v0, v = some v0 ∧ cx.store l v0 = .ok (some w)
  | .resize _ => False
  | _ => Contains e.dst b

theorem write_value {cx : Cfg V} {e : Entry V} (hk : Keeps (e.op.run cx)) {n n' : Node V}
    (h : writeAt n e.dst (e.op.run cx) = .ok n') {b : Addr} {w : V} (hv : ValueAt n' b w) :
    ValueAt n b w ∨ FromOp cx e b w := by
  have hm := writeAt_ok h
  obtain ⟨x, y, h1, h2, h3⟩ := modify_at hk.2 hm
  obtain ⟨l, hb, hne⟩ := hv
  have cont : Apart e.dst b ∨ Contains e.dst b := by
    rcases compare_at h3 hb with hc | hc | hc
    · exact .inl hc
    · exact .inr hc
    · rw [leaf_contains hb h3 hc]; exact .inr (contains_refl _)
  rcases cont with hc | hc
  · have := modify_frame hk.2 hm hc
    exact .inl ⟨l, by rw [← this]; exact hb, hne⟩
  · refine .inr ?_
    unfold FromOp
    cases ho : e.op with
    | store v =>
      rw [ho] at h2
      obtain ⟨l', w0, v0, w', rfl, rfl, h4, rfl⟩ := storeNode_ok h2
      have := leaf_contains h3 hb hc
      subst this
      rw [hb] at h3
      cases h3
      exact ⟨rfl, l, v0, rfl, h4⟩
    | resize k =>
      rw [ho] at h2
      obtain ⟨m, e0, rfl, rfl⟩ := resizeNode_ok h2
      rcases aos_contains h3 hb hc with h4 | h4
      · rw [← h4, h3] at hb; cases hb
      · obtain ⟨r, hr⟩ := resized_inside h3 hb h4
        exact fresh_no_value (.struct m) r w ⟨l, by simpa [Meta.fresh] using hr, hne⟩
    | apply f => exact hc
    | post f => exact hc

theorem exec_value {cx : Cfg V} (es : List (Entry V)) (hk : ∀ e ∈ es, Keeps (e.op.run cx))
    {n n' : Node V} (h : exec cx es n = .ok n') {b : Addr} {w : V} (hv : ValueAt n' b w) :
    ValueAt n b w ∨ ∃ e ∈ es, FromOp cx e b w := by
  induction es generalizing n with
  | nil => simp [exec] at h; subst h; exact .inl hv
  | cons e es ih =>
    simp only [exec] at h
    obtain ⟨n1, h1, h2⟩ := andThen_ok.1 h
    rcases ih (fun e he => hk e (by simp [he])) h2 with h3 | ⟨e', h3, h4⟩
    · rcases write_value (hk e (by simp)) h1 h3 with h4 | h4
      · exact .inl h4
      · exact .inr ⟨e, by simp, h4⟩
    · exact .inr ⟨e', by simp [h3], h4⟩

/-- Where the size of an array after one write comes from. -/
def FromSize (e : Entry V) (b : Addr) (k : Nat) : Prop :=
  match e.op with
  | .store _ => False
  | .resize j => b = e.dst ∧ j = k
  | _ => Contains e.dst b

theorem ofList_length (l : List (Fields V)) : (Elems.ofList l).length = l.length := by
  rw [← Elems.length_toList, Elems.toList_ofList]

theorem write_size {cx : Cfg V} {e : Entry V} (hk : Keeps (e.op.run cx)) {n n' : Node V}
    (h : writeAt n e.dst (e.op.run cx) = .ok n') {b : Addr} {k : Nat} (hv : SizeAt n' b k) :
    SizeAt n b k ∨ FromSize e b k := by
  have hm := writeAt_ok h
  obtain ⟨x, y, h1, h2, h3⟩ := modify_at hk.2 hm
  obtain ⟨m, el, hb, hl, hne⟩ := hv
  have inside : Inside b e.dst → SizeAt n b k := by
    rintro ⟨p, nm, i, r, rfl, hd⟩
    rw [hd] at hm
    obtain ⟨m', e1, e2, h4, h5, h6⟩ := modify_inside hk.2 hm
    rw [h5] at hb; cases hb
    exact ⟨m, e1, h4, by omega, hne⟩
  have cont : Apart e.dst b ∨ Contains e.dst b ∨ Inside b e.dst := by
    rcases compare_at h3 hb with hc | hc | hc
    · exact .inl hc
    · exact .inr (.inl hc)
    · rcases aos_contains hb h3 hc with h4 | h4
      · rw [h4]; exact .inr (.inl (contains_refl _))
      · exact .inr (.inr h4)
  rcases cont with hc | hc | hc
  · have := modify_frame hk.2 hm hc
    exact .inl ⟨m, el, by rw [← this]; exact hb, hl, hne⟩
  · refine .inr ?_
    unfold FromSize
    cases ho : e.op with
    | store v =>
      rw [ho] at h2
      obtain ⟨l', w0, v0, w', rfl, rfl, h4, rfl⟩ := storeNode_ok h2
      have := leaf_contains h3 hb hc
      subst this
      rw [hb] at h3
      cases h3
    | resize j =>
      rw [ho] at h2
      obtain ⟨m', e0, rfl, rfl⟩ := resizeNode_ok h2
      rcases aos_contains h3 hb hc with h4 | h4
      · rw [← h4, h3] at hb; cases hb
        rw [ofList_length] at hl; simp at hl
        exact ⟨h4.symm, hl⟩
      · obtain ⟨r, hr⟩ := resized_inside h3 hb h4
        exact (fresh_no_size (.struct m') r k ⟨m, el, by simpa [Meta.fresh] using hr, hl, hne⟩).elim
    | apply f => exact hc
    | post f => exact hc
  · exact .inl (inside hc)

theorem exec_size {cx : Cfg V} (es : List (Entry V)) (hk : ∀ e ∈ es, Keeps (e.op.run cx))
    {n n' : Node V} (h : exec cx es n = .ok n') {b : Addr} {k : Nat} (hv : SizeAt n' b k) :
    SizeAt n b k ∨ ∃ e ∈ es, FromSize e b k := by
  induction es generalizing n with
  | nil => simp [exec] at h; subst h; exact .inl hv
  | cons e es ih =>
    simp only [exec] at h
    obtain ⟨n1, h1, h2⟩ := andThen_ok.1 h
    rcases ih (fun e he => hk e (by simp [he])) h2 with h3 | ⟨e', h3, h4⟩
    · rcases write_size (hk e (by simp)) h1 h3 with h4 | h4
      · exact .inl h4
      · exact .inr ⟨e, by simp, h4⟩
    · exact .inr ⟨e', by simp [h3], h4⟩

/-- A node keeps its value if nothing is written above, at or below it. -/
theorem exec_frame {cx : Cfg V} (es : List (Entry V)) (hk : ∀ e ∈ es, Keeps (e.op.run cx))
    {n n' : Node V} (h : exec cx es n = .ok n') {b : Addr} {y : Node V} (hb : n.at b = some y)
    (ha : ∀ e ∈ es, ¬ Contains b e.dst ∧ ¬ Contains e.dst b) : n'.at b = some y := by
  induction es generalizing n with
  | nil => simp [exec] at h; subst h; exact hb
  | cons e es ih =>
    simp only [exec] at h
    obtain ⟨n1, h1, h2⟩ := andThen_ok.1 h
    have hm := writeAt_ok h1
    have hke := hk e (by simp)
    obtain ⟨x, z, h3, -, -⟩ := modify_at hke.2 hm
    have hne := ha e (by simp)
    have hap : Apart e.dst b := by
      rcases compare_at h3 hb with hc | hc | hc
      · exact hc
      · exact absurd hc hne.2
      · exact absurd hc hne.1
    exact ih (fun e he => hk e (by simp [he])) h2 (by rw [modify_frame hke.2 hm hap]; exact hb)
      fun e he => ha e (by simp [he])

/-- An array keeps its length if all writes are elsewhere or inside its elements. -/
theorem exec_length {cx : Cfg V} (es : List (Entry V)) (hk : ∀ e ∈ es, Keeps (e.op.run cx))
    {n n' : Node V} (h : exec cx es n = .ok n') {b : Addr} {m : MFields} {el : Elems V}
    (hb : n.at b = some (.aos m el))
    (ha : ∀ e ∈ es, (¬ Contains b e.dst ∧ ¬ Contains e.dst b) ∨ Inside b e.dst) :
    ∃ el', n'.at b = some (.aos m el') ∧ el'.length = el.length := by
  induction es generalizing n el with
  | nil => simp [exec] at h; subst h; exact ⟨el, hb, rfl⟩
  | cons e es ih =>
    simp only [exec] at h
    obtain ⟨n1, h1, h2⟩ := andThen_ok.1 h
    have hm := writeAt_ok h1
    have hke := hk e (by simp)
    obtain ⟨x, z, h3, -, -⟩ := modify_at hke.2 hm
    have : ∃ el1, n1.at b = some (.aos m el1) ∧ el1.length = el.length := by
      rcases ha e (by simp) with hne | ⟨p, nm, i, r, rfl, hd⟩
      · have hap : Apart e.dst b := by
          rcases compare_at h3 hb with hc | hc | hc
          · exact hc
          · exact absurd hc hne.2
          · exact absurd hc hne.1
        exact ⟨el, by rw [modify_frame hke.2 hm hap]; exact hb, rfl⟩
      · rw [hd] at hm
        obtain ⟨m', e1, e2, h4, h5, h6⟩ := modify_inside hke.2 hm
        rw [h4] at hb; cases hb
        exact ⟨e2, h5, h6⟩
    obtain ⟨el1, h4, h5⟩ := this
    obtain ⟨el', h6, h7⟩ := ih (fun e he => hk e (by simp [he])) h2 h4 fun e he => ha e (by simp [he])
    exact ⟨el', h6, by omega⟩

theorem op_keeps {cx : Cfg V} (hp : Proper cx) {q : List Name} {x : Node V} {B dst : Addr} {o : Op V}
    (h : OpSpec cx q x B dst o) : Keeps (o.run cx) := by
  cases o with
  | store v => exact keeps_store cx v
  | resize k => exact keeps_resize k
  | apply f => obtain ⟨-, g, h1, rfl⟩ := h; exact hp.1 q g x h1
  | post f => exact hp.2 q f h

theorem plan_keeps {cx : Cfg V} (hp : Proper cx) {tm : Meta} {p : List Name} {t : Addr} {c : Fields V}
    (hw : WFFields c) : ∀ e ∈ planFields cx tm p t c, Keeps (e.op.run cx) := by
  intro e he
  obtain ⟨B, x, -, -, -, -, h⟩ := planFields_spec p t c hw e he
  exact op_keeps hp h

theorem filled_of_leaf {l : LeafMeta} {v : Option V} (h : (Node.leaf l v).hasValue = true) :
    Filled (.leaf l v) := by
  cases v with
  | none => simp [Node.hasValue, leafHasValue] at h
  | some v => simpa [Node.hasValue, leafHasValue, Filled] using h

/-- The nodes with writes act. -/
theorem opSpec_acts {cx : Cfg V} {q : List Name} {x : Node V} {B dst : Addr} {o : Op V}
    (h : OpSpec cx q x B dst o) (hv : x.hasValue = true) : Acts cx q x := by
  cases o with
  | store v => obtain ⟨-, -, l, rfl⟩ := h; exact .inl (filled_of_leaf hv)
  | resize k =>
    obtain ⟨-, ⟨-, m, e, rfl, -⟩ | ⟨h, -⟩⟩ := h
    · refine .inl ?_
      simp only [Node.hasValue, decide_eq_true_eq] at hv
      simp only [Filled]; omega
    · exact .inr ⟨hv, .inl (by simp [h])⟩
  | apply f => obtain ⟨-, g, h1, -⟩ := h; exact .inr ⟨hv, .inl (by simp [h1])⟩
  | post f => exact .inr ⟨hv, .inr (by rw [h]; simp)⟩

theorem contains_trans {a b c : Addr} (h1 : Contains a b) (h2 : Contains b c) : Contains a c := by
  induction a generalizing b c with
  | nil => simp [Contains]
  | cons s a ih =>
    cases b with
    | nil => simp [Contains] at h1
    | cons t b =>
      cases c with
      | nil => simp [Contains] at h2
      | cons u c =>
        cases a with
        | nil =>
          simp only [Contains] at h1 ⊢
          cases b with
          | nil =>
            simp only [Contains] at h2
            rcases h1 with rfl | ⟨h1, h3⟩
            · exact h2
            · rcases h2 with rfl | ⟨h4, h5⟩
              · exact .inr ⟨h1, h3⟩
              · exact .inr ⟨h1.trans h4, h3⟩
          | cons t' b => simp only [Contains] at h2; rw [← h2.1]; exact h1
        | cons s' a =>
          simp only [Contains] at h1 ⊢
          obtain ⟨rfl, h1⟩ := h1
          cases b with
          | nil => simp [Contains] at h1
          | cons t' b =>
            simp only [Contains] at h2
            exact ⟨h2.1, ih h1 h2.2⟩

/-- Two positions that contain a common one contain one another. -/
theorem contains_common {a b c : Addr} (h1 : Contains a c) (h2 : Contains b c) :
    Contains a b ∨ Contains b a := by
  induction a generalizing b c with
  | nil => exact .inl (by simp [Contains])
  | cons s a ih =>
    cases b with
    | nil => exact .inr (by simp [Contains])
    | cons t b =>
      cases c with
      | nil => simp [Contains] at h1
      | cons u c =>
        cases a with
        | nil =>
          cases b with
          | nil =>
            simp only [Contains] at h1 h2 ⊢
            rcases h1 with rfl | ⟨h1, h3⟩
            · rcases h2 with rfl | ⟨h4, h5⟩
              · exact .inl (.inl rfl)
              · exact .inr (.inr ⟨h4, h5⟩)
            · rcases h2 with rfl | ⟨h4, h5⟩
              · exact .inl (.inr ⟨h1, h3⟩)
              · exact .inl (.inr ⟨h1.trans h4.symm, h3⟩)
          | cons t' b =>
            simp only [Contains] at h1 h2 ⊢
            rw [h2.1]; exact .inl h1
        | cons s' a =>
          cases b with
          | nil =>
            simp only [Contains] at h1 h2 ⊢
            rw [h1.1]; exact .inr h2
          | cons t' b =>
            simp only [Contains] at h1 h2 ⊢
            obtain ⟨rfl, h1⟩ := h1
            obtain ⟨rfl, h2⟩ := h2
            rcases ih h1 h2 with h | h
            · exact .inl ⟨rfl, h⟩
            · exact .inr ⟨rfl, h⟩

end Verif.Convert
