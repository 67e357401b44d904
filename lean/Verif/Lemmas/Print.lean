import Verif.Spec.Print
import Verif.Lemmas.TreeIter
/-! What the printed views show. -/
set_option linter.unusedSectionVars false
namespace Verif.Print
open Verif.Ids Verif.TreeSpec Verif.PrintSpec
open Verif.ConvertSpec (mchild metaAt child)

section
variable {V : Type} [Value V]

/-- `label` with the depth of the structure. -/
def lab (d : Nat) (b : Addr) (x : Node V) (a : Addr) : Option (Nat × Line V) :=
  (label b x a).map fun l => (d + l.1, l.2)

theorem lab_down {d : Nat} {b : Addr} {c : Fields V} {n : Name} {y : Node V} (h : c.get? n = some y) (a : Addr) :
    lab d b (.struct c) ((n, none) :: a) = lab (d + 1) (b ++ [(n, none)]) y a := by
  have e : (Node.struct c).at ((n, none) :: a) = y.at a := by simp [Node.at, Node.item, h]
  simp only [lab, label, e]
  cases y.at a with
  | none => rfl
  | some z =>
    cases z with
    | leaf l v => cases v <;> simp <;> omega
    | struct f => simp; omega
    | aos m e => simp only; split <;> simp; omega

theorem lab_elem {d : Nat} {b : Addr} {c : Fields V} {n : Name} {m : MFields} {e : Elems V} {i : Nat} {f : Fields V}
    (h : c.get? n = some (.aos m e)) (hi : e.get? i = some f) (a : Addr) :
    lab d b (.struct c) ((n, some i) :: a) = lab (d + 1) (b ++ [(n, some i)]) (.struct f) a := by
  have e : (Node.struct c).at ((n, some i) :: a) = (Node.struct f).at a := by simp [Node.at, Node.item, h, hi]
  simp only [lab, label, e]
  cases (Node.struct f).at a with
  | none => rfl
  | some z =>
    cases z with
    | leaf l v => cases v <;> simp <;> omega
    | struct f => simp; omega
    | aos m e => simp only; split <;> simp; omega

theorem lab_struct (d : Nat) (b : Addr) (c : Fields V) : lab d b (.struct c) [] = some (d, .node (pathText b)) := by
  simp [lab, label, Node.at]

theorem fresh_get (k : Name) : ∀ m : MFields, (m.fresh : Fields V).get? k = (mchild m k).map Meta.fresh
  | .nil => rfl
  | .cons n m r => by
    simp only [MFields.fresh, Fields.get?, mchild]
    split
    · rfl
    · exact fresh_get k r

theorem mchild_names {m : MFields} {n : Name} {x : Meta} (h : mchild m n = some x) : n ∈ mnames m := by
  match m with
  | .nil => simp [mchild] at h
  | .cons k y r =>
    simp only [mchild] at h
    simp only [mnames, List.mem_cons]
    split at h
    · next e => exact .inl e
    · exact .inr (mchild_names h)

theorem get_names {c : Fields V} {k : Name} {y : Node V} (h : c.get? k = some y) : k ∈ c.names := by
  match c with
  | .nil => simp [Fields.get?] at h
  | .absent n m r =>
    simp only [Fields.get?] at h
    simp only [Fields.names, List.mem_cons]
    split at h
    · next e => exact .inl e
    · exact .inr (get_names h)
  | .present n m r =>
    simp only [Fields.get?] at h
    simp only [Fields.names, List.mem_cons]
    split at h
    · next e => exact .inl e
    · exact .inr (get_names h)

theorem filterMap_map_cons {d d' : Nat} {b b' : Addr} {x y : Node V} {s : Name × Option Nat}
    (h : ∀ a, lab d b x (s :: a) = lab d' b' y a) (l : List Addr) :
    (l.map (s :: ·)).filterMap (lab d b x) = l.filterMap (lab d' b' y) := by
  rw [List.filterMap_map]
  congr 1
  funext a
  exact h a

mutual
theorem treeMeta_eq (b : Addr) (d : Nat) (n : Name) (m : Meta) (c0 : Fields V) (h : c0.get? n = some m.fresh) (hw : WFMeta m) :
    treeMeta b d n m = (m.iter false n).filterMap (lab d b (.struct c0)) := by
  match m with
  | .leaf l =>
    simp only [treeMeta, Meta.iter, List.filterMap_cons, List.filterMap_nil, lab_down h]
    simp [lab, label, Node.at, Meta.fresh, lastName]
  | .struct c =>
    simp only [treeMeta, Meta.iter, Bool.false_eq_true, if_false, List.cons_append, List.nil_append, List.filterMap_cons,
      lab_down h, Meta.fresh, lab_struct]
    rw [filterMap_map_cons (fun a => lab_down h a), treeMFields_eq _ _ c hw c.fresh (fun k m hk => by simp [fresh_get, hk])]
    rfl
  | .aos c =>
    simp only [treeMeta, Meta.iter, Bool.false_eq_true, if_false, List.filterMap_cons, List.filterMap_nil, lab_down h]
    simp [lab, label, Node.at, Meta.fresh, Elems.length, brackets]
theorem treeMFields_eq (b : Addr) (d : Nat) (c : MFields) (hw : WFMFields c) (c0 : Fields V)
    (h : ∀ k m, mchild c k = some m → c0.get? k = some m.fresh) :
    treeMFields b d c = (c.iter false).filterMap (lab d b (.struct c0)) := by
  match c with
  | .nil => rfl
  | .cons n m r =>
    simp only [WFMFields] at hw
    simp only [treeMFields, MFields.iter, List.filterMap_append]
    rw [treeMeta_eq b d n m c0 (h n m (by simp [mchild])) hw.2.1, treeMFields_eq b d r hw.2.2 c0 fun k m' hk => h k m' ?_]
    simp only [mchild]
    rw [if_neg]; exact hk
    rintro rfl
    exact hw.1 (mchild_names hk)
end

mutual
theorem treeNode_eq (hide : Bool) (b : Addr) (d : Nat) (n : Name) (x : Node V) (hw : WF x) (c0 : Fields V) (h : c0.get? n = some x) :
    treeNode hide b d n x = (x.iter false (!hide) n).filterMap (lab d b (.struct c0)) := by
  match x with
  | .leaf l v =>
    simp only [treeNode, Node.iter, List.filterMap_cons, List.filterMap_nil, lab_down h]
    cases v with
    | none => simp [lab, label, Node.at, lastName, shownValue, leafHasValue]
    | some v => simp [lab, label, Node.at, lastName, shownValue, leafHasValue]; cases Value.isEmpty v <;> rfl
  | .struct c =>
    simp only [WF] at hw
    simp only [treeNode, Node.iter, Bool.false_eq_true, if_false, List.cons_append, List.nil_append, List.filterMap_cons,
      lab_down h, lab_struct]
    rw [filterMap_map_cons (fun a => lab_down h a), treeFields_eq hide _ _ c hw c (fun k y hk => hk)]
  | .aos m e =>
    simp only [WF] at hw
    simp only [treeNode, Node.iter, Bool.false_eq_true, if_false, List.filterMap_append, List.filterMap_cons, List.filterMap_nil,
      lab_down h]
    rw [treeElems_eq hide b d n 0 e hw.2 c0 m e h (fun j f hj => by simpa using hj)]
    congr 1
    by_cases he : e.length = 0
    · simp [lab, label, Node.at, he, brackets]
    · simp [lab, label, Node.at, he, show e.length > 0 by omega]
termination_by structural x
theorem treeFields_eq (hide : Bool) (b : Addr) (d : Nat) (c : Fields V) (hw : WFFields c) (c0 : Fields V)
    (h : ∀ k y, c.get? k = some y → c0.get? k = some y) :
    treeFields hide b d c = (c.iter false (!hide)).filterMap (lab d b (.struct c0)) := by
  match c with
  | .nil => rfl
  | .absent n m r =>
    simp only [WFFields] at hw
    simp only [treeFields, Fields.iter, List.filterMap_append]
    rw [treeFields_eq hide b d r hw.2.2 c0 (fun k y hk => h k y (by
      simp only [Fields.get?]; rw [if_neg]; exact hk
      rintro rfl; exact hw.1 (get_names hk)))]
    congr 1
    cases hide
    · simpa using treeMeta_eq b d n m c0 (h n _ (by simp [Fields.get?])) hw.2.1
    · simp
  | .present n x r =>
    simp only [WFFields] at hw
    simp only [treeFields, Fields.iter, List.filterMap_append]
    rw [treeFields_eq hide b d r hw.2.2 c0 (fun k y hk => h k y (by
      simp only [Fields.get?]; rw [if_neg]; exact hk
      rintro rfl; exact hw.1 (get_names hk))), treeNode_eq hide b d n x hw.2.1 c0 (h n _ (by simp [Fields.get?]))]
    congr 1
    cases hide <;> cases x.hasValue <;> simp
termination_by structural c
theorem treeElems_eq (hide : Bool) (b : Addr) (d : Nat) (n : Name) (i : Nat) (e : Elems V) (hw : WFElems e) (c0 : Fields V)
    (m : MFields) (e0 : Elems V) (h : c0.get? n = some (.aos m e0)) (he : ∀ j f, e.get? j = some f → e0.get? (i + j) = some f) :
    treeElems hide b d n i e = (e.iter false (!hide) n i).filterMap (lab d b (.struct c0)) := by
  match e with
  | .nil => rfl
  | .cons c r =>
    simp only [WFElems] at hw
    have h0 : e0.get? i = some c := he 0 c rfl
    simp only [treeElems, Elems.iter, Bool.false_eq_true, if_false, List.cons_append, List.nil_append, List.filterMap_append,
      List.filterMap_cons, lab_elem h h0, lab_struct]
    rw [filterMap_map_cons (fun a => lab_elem h h0 a), treeFields_eq hide _ _ c hw.1 c (fun k y hk => hk),
      treeElems_eq hide b d n (i + 1) r hw.2 c0 m e0 h (fun j f hj => by
        have := he (j + 1) f (by simpa [Elems.get?] using hj)
        rwa [← Nat.add_assoc, Nat.add_right_comm] at this)]
termination_by structural e
end

theorem lab_zero (b : Addr) (x : Node V) : lab 0 b x = label b x := by
  funext a
  simp only [lab]
  cases label b x a <;> simp

theorem label_content (b : Addr) (x : Node V) (a : Addr) : label b (content x) a = label b x a := by
  simp only [label, content_at]
  cases x.at a with
  | none => rfl
  | some z =>
    cases z with
    | leaf l v =>
      cases v with
      | none => simp [content]
      | some v => cases h : Value.isEmpty v <;> simp [content, Option.filter, h]
    | struct c => simp [content]
    | aos m e => simp [content, contentE_length]
end

/-! ### Metadata -/

mutual
/-- The paths of the entries that are shown. -/
def entryPaths (D : Int) (k : Nat) (n : Name) : Meta → List (List Name)
  | .leaf _ => [[n]]
  | .struct c => [n] :: if D = 0 ∨ ((k + 1 : Nat) : Int) < D then (fieldPaths D (k + 1) c).map (n :: ·) else []
  | .aos c => [n] :: if D = 0 ∨ ((k + 1 : Nat) : Int) < D then (fieldPaths D (k + 1) c).map (n :: ·) else []
def fieldPaths (D : Int) (k : Nat) : MFields → List (List Name)
  | .nil => []
  | .cons n m r => entryPaths D k n m ++ fieldPaths D k r
end

theorem entryPaths_node {D : Int} {k : Nat} {n : Name} {m : Meta} (h : ∀ l, m ≠ .leaf l) :
    entryPaths D k n m = [n] :: if D = 0 ∨ ((k + 1 : Nat) : Int) < D then (fieldPaths D (k + 1) (kids m)).map (n :: ·) else [] := by
  cases m with
  | leaf l => exact absurd rfl (h l)
  | struct c => rw [entryPaths]; rfl
  | aos c => rw [entryPaths]; rfl

theorem metaLines_node {D : Int} {k : Nat} {p : List Name} {n : Name} {m : Meta} (h : ∀ l, m ≠ .leaf l) :
    metaLines D k p n m = (k, .node (p ++ [n])) ::
      if D = 0 ∨ (k : Int) < D then metaTree D (k + 1) (p ++ [n]) (kids m) else [(k + 1, .hidden)] := by
  cases m with
  | leaf l => exact absurd rfl (h l)
  | struct c => rw [metaLines]; rfl
  | aos c => rw [metaLines]; rfl

/-- `entryLines` at depth `k` below `p`. -/
def linesAt (D : Int) (k : Nat) (p : List Name) (c : MFields) (q : List Name) : List (Nat × MLine) :=
  match metaAt (.struct c) q with
  | none => []
  | some (.leaf _) => [(k + q.length, .data (p ++ q))]
  | some _ => (k + q.length, .node (p ++ q)) :: if D ≠ 0 ∧ D ≤ (k + q.length : Nat) then [(k + q.length + 1, .hidden)] else []

theorem linesAt_zero (D : Int) (c : MFields) (q : List Name) : linesAt D 0 [] c q = entryLines D c q := by
  simp only [linesAt, entryLines, List.nil_append, Nat.zero_add]
  cases metaAt (.struct c) q with
  | none => rfl
  | some m => cases m <;> rfl

theorem metaAt_kids {m : Meta} {q : List Name} (hq : q ≠ []) : metaAt (.struct (kids m)) q = metaAt m q := by
  cases q with
  | nil => exact absurd rfl hq
  | cons n q =>
    cases m with
    | leaf l => simp [metaAt, child, kids, mchild]
    | struct c => rfl
    | aos c => rfl

theorem linesAt_down {D : Int} {k : Nat} {p : List Name} {c : MFields} {n : Name} {m : Meta} (h : mchild c n = some m)
    {q : List Name} (hq : q ≠ []) : linesAt D k p c (n :: q) = linesAt D (k + 1) (p ++ [n]) (kids m) q := by
  have e : metaAt (.struct c) (n :: q) = metaAt (.struct (kids m)) q := by
    rw [metaAt_kids hq]; simp [metaAt, child, h]
  simp only [linesAt, e, List.length_cons, List.append_assoc, List.cons_append, List.nil_append]
  rw [show k + (q.length + 1) = k + 1 + q.length by omega]

mutual
theorem entryPaths_ne {D : Int} {k : Nat} {n : Name} (m : Meta) {q : List Name} (h : q ∈ entryPaths D k n m) :
    ∃ r, q = n :: r := by
  match m with
  | .leaf l => simp [entryPaths] at h; exact ⟨[], h⟩
  | .struct c =>
    simp only [entryPaths, List.mem_cons] at h
    rcases h with h | h
    · exact ⟨[], h⟩
    · split at h
      · obtain ⟨r, -, rfl⟩ := List.mem_map.1 h; exact ⟨r, rfl⟩
      · cases h
  | .aos c =>
    simp only [entryPaths, List.mem_cons] at h
    rcases h with h | h
    · exact ⟨[], h⟩
    · split at h
      · obtain ⟨r, -, rfl⟩ := List.mem_map.1 h; exact ⟨r, rfl⟩
      · cases h
theorem fieldPaths_ne {D : Int} {k : Nat} (c : MFields) {q : List Name} (h : q ∈ fieldPaths D k c) :
    ∃ n r, q = n :: r ∧ n ∈ mnames c := by
  match c with
  | .nil => simp [fieldPaths] at h
  | .cons n m r =>
    simp only [fieldPaths, List.mem_append] at h
    rcases h with h | h
    · obtain ⟨r, rfl⟩ := entryPaths_ne m h; exact ⟨n, r, rfl, by simp [mnames]⟩
    · obtain ⟨n', r', h1, h2⟩ := fieldPaths_ne r h
      exact ⟨n', r', h1, by simp [mnames, h2]⟩
end

theorem flatMap_congr_mem {A B : Type} {f g : A → List B} {l : List A} (h : ∀ x ∈ l, f x = g x) : l.flatMap f = l.flatMap g := by
  induction l with
  | nil => rfl
  | cons x r ih => simp only [List.flatMap_cons]; rw [h x (by simp), ih fun y hy => h y (by simp [hy])]

mutual
theorem metaLines_eq (D : Int) (k : Nat) (p : List Name) (n : Name) (m : Meta) (hw : WFMeta m) (c0 : MFields) (h : mchild c0 n = some m) :
    metaLines D (k + 1) p n m = (entryPaths D k n m).flatMap (linesAt D k p c0) := by
  have step : ∀ c, (∀ l, m ≠ .leaf l) → kids m = c →
      metaTree D (k + 1 + 1) (p ++ [n]) c = (fieldPaths D (k + 1) c).flatMap (linesAt D (k + 1) (p ++ [n]) c) →
      metaLines D (k + 1) p n m = (entryPaths D k n m).flatMap (linesAt D k p c0) := by
    intro c hm hc ih
    rw [metaLines_node hm, entryPaths_node hm, List.flatMap_cons]
    have own : linesAt D k p c0 [n] = (k + 1, .node (p ++ [n])) ::
        if D ≠ 0 ∧ D ≤ (k + 1 : Nat) then [(k + 1 + 1, .hidden)] else [] := by
      cases m with
      | leaf l => exact absurd rfl (hm l)
      | struct c => simp [linesAt, metaAt, child, h]
      | aos c => simp [linesAt, metaAt, child, h]
    rw [own, hc]
    by_cases hd : D = 0 ∨ ((k + 1 : Nat) : Int) < D
    · rw [if_pos hd, if_pos hd, if_neg (by omega), ih]
      simp only [List.cons_append, List.nil_append, List.flatMap_map]
      congr 1
      refine flatMap_congr_mem fun q hq => ?_
      obtain ⟨a, r, rfl, -⟩ := fieldPaths_ne c hq
      rw [linesAt_down h (by simp), hc]
    · rw [if_neg hd, if_neg hd, if_pos (by omega)]
      rfl
  match m with
  | .leaf l => simp [metaLines, entryPaths, linesAt, metaAt, child, h]
  | .struct c => exact step c (by simp) rfl (metaTree_eq D (k + 1) (p ++ [n]) c hw c fun _ _ h => h)
  | .aos c => exact step c (by simp) rfl (metaTree_eq D (k + 1) (p ++ [n]) c hw c fun _ _ h => h)
termination_by structural m
theorem metaTree_eq (D : Int) (k : Nat) (p : List Name) (c : MFields) (hw : WFMFields c) (c0 : MFields)
    (h : ∀ n m, mchild c n = some m → mchild c0 n = some m) :
    metaTree D (k + 1) p c = (fieldPaths D k c).flatMap (linesAt D k p c0) := by
  match c with
  | .nil => rfl
  | .cons n m r =>
    simp only [WFMFields] at hw
    simp only [metaTree, fieldPaths, List.flatMap_append]
    rw [metaLines_eq D k p n m hw.2.1 c0 (h n m (by simp [mchild])), metaTree_eq D k p r hw.2.2 c0 fun j y hj => h j y ?_]
    simp only [mchild]
    rw [if_neg]; exact hj
    rintro rfl; exact hw.1 (mchild_names hj)
termination_by structural c
end

mutual
theorem mem_entryPaths (D : Int) (k : Nat) (n : Name) (m : Meta) (hw : WFMeta m) (q : List Name) :
    q ∈ entryPaths D k n m ↔ ∃ r, q = n :: r ∧ (metaAt m r).isSome = true ∧
      (D = 0 ∨ r = [] ∨ ((k + 1 + r.length : Nat) : Int) ≤ D) := by
  have step : ∀ c, (∀ l, m ≠ .leaf l) → kids m = c →
      (∀ r, r ∈ fieldPaths D (k + 1) c ↔ r ≠ [] ∧ (metaAt (.struct c) r).isSome = true ∧
        (D = 0 ∨ r.length = 1 ∨ ((k + 1 + r.length : Nat) : Int) ≤ D)) →
      (q ∈ entryPaths D k n m ↔ ∃ r, q = n :: r ∧ (metaAt m r).isSome = true ∧
        (D = 0 ∨ r = [] ∨ ((k + 1 + r.length : Nat) : Int) ≤ D)) := by
    intro c hm hc ih
    subst hc
    rw [entryPaths_node hm, List.mem_cons]
    constructor
    · rintro (rfl | h)
      · exact ⟨[], rfl, by simp [metaAt], .inr (.inl rfl)⟩
      · split at h
        · next hd =>
          obtain ⟨r, hr, rfl⟩ := List.mem_map.1 h
          obtain ⟨h1, h2, h3⟩ := (ih r).1 hr
          rw [metaAt_kids h1] at h2
          refine ⟨r, rfl, h2, ?_⟩
          rcases h3 with h3 | h3 | h3
          · exact .inl h3
          · rcases hd with hd | hd
            · exact .inl hd
            · exact .inr (.inr (by omega))
          · exact .inr (.inr h3)
        · cases h
    · rintro ⟨r, rfl, h1, h2⟩
      by_cases hr : r = []
      · subst hr; exact .inl rfl
      · right
        have hl : r.length ≥ 1 := by cases r with
          | nil => exact absurd rfl hr
          | cons a b => simp
        have hd : D = 0 ∨ ((k + 1 : Nat) : Int) < D := by
          rcases h2 with h2 | h2 | h2
          · exact .inl h2
          · exact absurd h2 hr
          · exact .inr (by omega)
        rw [if_pos hd]
        refine List.mem_map.2 ⟨r, (ih r).2 ⟨hr, by rw [metaAt_kids hr]; exact h1, ?_⟩, rfl⟩
        rcases h2 with h2 | h2 | h2
        · exact .inl h2
        · exact absurd h2 hr
        · exact .inr (.inr h2)
  match m with
  | .leaf l =>
    simp only [entryPaths, List.mem_singleton]
    constructor
    · rintro rfl; exact ⟨[], rfl, by simp [metaAt], .inr (.inl rfl)⟩
    · rintro ⟨r, rfl, h, -⟩
      cases r with
      | nil => rfl
      | cons a r => simp [metaAt, child] at h
  | .struct c => exact step c (by simp) rfl (mem_fieldPaths D (k + 1) c hw)
  | .aos c => exact step c (by simp) rfl (mem_fieldPaths D (k + 1) c hw)
termination_by structural m
theorem mem_fieldPaths (D : Int) (k : Nat) (c : MFields) (hw : WFMFields c) (q : List Name) :
    q ∈ fieldPaths D k c ↔ q ≠ [] ∧ (metaAt (.struct c) q).isSome = true ∧
      (D = 0 ∨ q.length = 1 ∨ ((k + q.length : Nat) : Int) ≤ D) := by
  match c with
  | .nil =>
    simp only [fieldPaths, List.not_mem_nil, false_iff]
    rintro ⟨h1, h2, -⟩
    cases q with
    | nil => exact h1 rfl
    | cons a q => simp [metaAt, child, mchild] at h2
  | .cons n m r =>
    simp only [WFMFields] at hw
    simp only [fieldPaths, List.mem_append]
    rw [mem_entryPaths D k n m hw.2.1 q, mem_fieldPaths D k r hw.2.2 q]
    constructor
    · rintro (⟨r', rfl, h1, h2⟩ | ⟨h1, h2, h3⟩)
      · refine ⟨by simp, by simpa [metaAt, child, mchild] using h1, ?_⟩
        rcases h2 with h2 | h2 | h2
        · exact .inl h2
        · subst h2; exact .inr (.inl rfl)
        · refine .inr (.inr ?_); simp only [List.length_cons]; omega
      · refine ⟨h1, ?_, h3⟩
        cases q with
        | nil => exact absurd rfl h1
        | cons a q =>
          have : a ≠ n := by
            rintro rfl
            simp only [metaAt, child] at h2
            cases hm : mchild r a with
            | none => simp [hm] at h2
            | some y => exact hw.1 (mchild_names hm)
          simpa [metaAt, child, mchild, this] using h2
    · rintro ⟨h1, h2, h3⟩
      cases q with
      | nil => exact absurd rfl h1
      | cons a q =>
        by_cases e : a = n
        · subst e
          left
          refine ⟨q, rfl, by simpa [metaAt, child, mchild] using h2, ?_⟩
          rcases h3 with h3 | h3 | h3
          · exact .inl h3
          · simp at h3; exact .inr (.inl h3)
          · refine .inr (.inr ?_); simp only [List.length_cons] at h3; omega
        · right
          exact ⟨h1, by simpa [metaAt, child, mchild, e] using h2, h3⟩
termination_by structural c
end

mutual
theorem entryPaths_ordered (D : Int) (k : Nat) (n : Name) (m : Meta) (hw : WFMeta m) (c0 : MFields) (h : mchild c0 n = some m) :
    (entryPaths D k n m).Pairwise (PathBefore c0) := by
  have step : ∀ c, (∀ l, m ≠ .leaf l) → kids m = c → (fieldPaths D (k + 1) c).Pairwise (PathBefore c) →
      (entryPaths D k n m).Pairwise (PathBefore c0) := by
    intro c hm hc ih
    subst hc
    rw [entryPaths_node hm, List.pairwise_cons]
    constructor
    · intro q hq
      split at hq
      · obtain ⟨r, hr, rfl⟩ := List.mem_map.1 hq
        obtain ⟨a, r', rfl, -⟩ := fieldPaths_ne _ hr
        exact .inl ⟨rfl, m, h, by simp [PathBefore]⟩
      · cases hq
    · split
      · refine List.pairwise_map.2 (ih.imp fun {a b} hab => .inl ⟨rfl, m, h, hab⟩)
      · exact .nil
  match m with
  | .leaf l => simp [entryPaths]
  | .struct c => exact step c (by simp) rfl (fieldPaths_ordered D (k + 1) c hw c (fun _ _ h => h) fun _ _ _ _ h => h)
  | .aos c => exact step c (by simp) rfl (fieldPaths_ordered D (k + 1) c hw c (fun _ _ h => h) fun _ _ _ _ h => h)
termination_by structural m
theorem fieldPaths_ordered (D : Int) (k : Nat) (c : MFields) (hw : WFMFields c) (c0 : MFields)
    (h : ∀ n m, mchild c n = some m → mchild c0 n = some m)
    (hi : ∀ a ∈ mnames c, ∀ b ∈ mnames c, (mnames c).idxOf a < (mnames c).idxOf b → (mnames c0).idxOf a < (mnames c0).idxOf b) :
    (fieldPaths D k c).Pairwise (PathBefore c0) := by
  match c with
  | .nil => simp [fieldPaths]
  | .cons n m r =>
    simp only [WFMFields] at hw
    have hne : ∀ a ∈ mnames r, a ≠ n := fun a ha e => hw.1 (e ▸ ha)
    have idx : ∀ a ∈ mnames r, (mnames (.cons n m r)).idxOf a = (mnames r).idxOf a + 1 := fun a ha => by
      simp only [mnames]
      have : (n == a) = false := by simpa using fun e : n = a => hne a ha e.symm
      rw [List.idxOf_cons, this]; rfl
    simp only [fieldPaths, List.pairwise_append]
    refine ⟨entryPaths_ordered D k n m hw.2.1 c0 (h n m (by simp [mchild])),
      fieldPaths_ordered D k r hw.2.2 c0 (fun j y hj => h j y ?_) (fun a ha b hb hab => hi a ?_ b ?_ ?_), ?_⟩
    · simp only [mchild]
      rw [if_neg]; exact hj
      rintro rfl; exact hw.1 (mchild_names hj)
    · simp [mnames, ha]
    · simp [mnames, hb]
    · rw [idx a ha, idx b hb]; omega
    · intro p hp q hq
      obtain ⟨p', rfl⟩ := entryPaths_ne m hp
      obtain ⟨b, q', rfl, hb⟩ := fieldPaths_ne r hq
      refine .inr (hi n (by simp [mnames]) b (by simp [mnames, hb]) ?_)
      rw [idx b hb]
      simp [mnames]
termination_by structural c
end

/-! ### Highlighting -/

theorem slice_drop {t : Text} {i j : Nat} (h : i ≤ j) : slice t i j ++ t.drop j = t.drop i := by
  have : t.drop j = (t.drop i).drop (j - i) := by rw [List.drop_drop]; congr 1; omega
  rw [slice, this, List.take_append_drop]

theorem gap {t : Text} {i j : Nat} (h : i ≤ j) (l : List Piece) :
    allText ((if j > i then [⟨true, slice t i j⟩] else []) ++ l) = slice t i j ++ allText l := by
  by_cases e : j > i
  · rw [if_pos e]; simp [allText]
  · rw [if_neg e]
    have : i = j := by omega
    subst this
    simp [slice]

theorem highlight_all (t1 t2 : Text) (l : List Match) : ∀ prev : Match,
    (∀ m ∈ l, prev.a + prev.size ≤ m.a ∧ prev.b + prev.size ≤ m.b) →
    (l.Pairwise fun m n => m.a + m.size ≤ n.a ∧ m.b + m.size ≤ n.b) →
    allText (highlight t1 t2 prev l).1 = t1.drop (prev.a + prev.size) ∧
      allText (highlight t1 t2 prev l).2 = t2.drop (prev.b + prev.size) := by
  induction l with
  | nil => intro prev _ _; simp [highlight, allText]
  | cons m r ih =>
    intro prev hp hf
    obtain ⟨h1, h2⟩ := List.pairwise_cons.1 hf
    obtain ⟨i1, i2⟩ := ih m h1 h2
    obtain ⟨p1, p2⟩ := hp m (by simp)
    simp only [highlight]
    constructor
    · rw [gap p1, show ∀ (x : Piece) (y : List Piece), allText (x :: y) = x.text ++ allText y from fun x y => by simp [allText],
        i1, slice_drop (by omega), slice_drop p1]
    · rw [gap p2, show ∀ (x : Piece) (y : List Piece), allText (x :: y) = x.text ++ allText y from fun x y => by simp [allText],
        i2, slice_drop (by omega), slice_drop p2]

theorem plain_gap {c : Prop} [Decidable c] {t : Text} (l : List Piece) :
    plainText ((if c then [⟨true, t⟩] else []) ++ l) = plainText l := by
  by_cases e : c
  · rw [if_pos e]; simp [plainText]
  · rw [if_neg e]; simp [plainText]

theorem highlight_plain (t1 t2 : Text) (l : List Match) : ∀ prev : Match,
    (∀ m ∈ l, (t1.drop m.a).take m.size = (t2.drop m.b).take m.size) →
    plainText (highlight t1 t2 prev l).1 = plainText (highlight t1 t2 prev l).2 := by
  induction l with
  | nil => intro prev _; simp [highlight, plainText]
  | cons m r ih =>
    intro prev h
    simp only [highlight, plain_gap]
    have e : ∀ (x : Text) (y : List Piece), plainText (⟨false, x⟩ :: y) = x ++ plainText y := fun x y => by simp [plainText]
    rw [e, e, ih m fun n hn => h n (by simp [hn])]
    simp only [slice, Nat.add_sub_cancel_left, h m (by simp)]

end Verif.Print
