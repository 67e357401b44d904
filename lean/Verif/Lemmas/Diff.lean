import Verif.Model.Diff
import Verif.Lemmas.TreeIter
set_option linter.unusedSectionVars false
namespace Verif.Ids
open Verif.TreeSpec

variable {V : Type} [Value V]

/-- The child `k` if it has a value. -/
def filled (c : Fields V) (k : Name) : Option (Node V) := (c.get? k).filter Node.hasValue

theorem filled_iff {c : Fields V} {k : Name} {x : Node V} :
    filled c k = some x ↔ c.get? k = some x ∧ x.hasValue = true := by
  simp [filled, Option.filter_eq_some_iff]

theorem filled_none {c : Fields V} {k : Name} :
    filled c k = none ↔ ∀ x, c.get? k = some x → x.hasValue = false := by
  simp [filled, Option.filter_eq_none_iff]

/-- Induction over filled children and elements. -/
theorem node_induct (P : Node V → Prop) (hl : ∀ l v, P (.leaf l v))
    (hs : ∀ c, (∀ k x, filled c k = some x → P x) → P (.struct c))
    (ha : ∀ m e, (∀ i f, Elems.get? e i = some f → P (.struct f)) → P (.aos m e)) :
    ∀ n, P n := by
  intro n
  refine Node.rec (motive_1 := P) (motive_2 := fun c => ∀ k x, filled c k = some x → P x)
    (motive_3 := fun e => ∀ i f, Elems.get? e i = some f → P (.struct f)) ?_ ?_ ?_ ?_ ?_ ?_ ?_ ?_ n
  · exact hl
  · intro c ih; exact hs c ih
  · intro m e ih; exact ha m e ih
  · intro k x h; simp [filled, Fields.get?] at h
  · intro n m r ih k x h
    rw [filled_iff] at h
    simp only [Fields.get?] at h
    split at h
    · simp at h; rw [← h.1, fresh_hasValue] at h; simp at h
    · exact ih k x (filled_iff.2 h)
  · intro n x r ihx ihr k y h
    rw [filled_iff] at h
    simp only [Fields.get?] at h
    split at h
    · simp at h; rw [← h.1]; exact ihx
    · exact ihr k y (filled_iff.2 h)
  · intro i f h; simp [Elems.get?] at h
  · intro c r ihc ihr i f h
    cases i with
    | zero => simp [Elems.get?] at h; subst h; exact hs _ ihc
    | succ i => exact ihr i f h

/-! ### The dictionaries -/

def lookup (k : Name) : List (Name × Node V) → Option (Node V)
  | [] => none
  | (n, x) :: r => if n = k then some x else lookup k r

theorem pop_fst (k : Name) (ch : List (Name × Node V)) : (pop k ch).1 = lookup k ch := by
  induction ch with
  | nil => rfl
  | cons p r ih => obtain ⟨n, x⟩ := p; simp only [pop, lookup]; split <;> simp_all

theorem mem_lookup {k : Name} {x : Node V} {ch : List (Name × Node V)} (h : lookup k ch = some x) :
    (k, x) ∈ ch := by
  induction ch with
  | nil => simp [lookup] at h
  | cons p r ih =>
    obtain ⟨n, y⟩ := p
    simp only [lookup] at h
    split at h
    · next e => simp at h; subst h; subst e; simp
    · simp [ih h]

theorem lookup_mem {k : Name} {x : Node V} {ch : List (Name × Node V)}
    (hn : (ch.map (·.1)).Nodup) (h : (k, x) ∈ ch) : lookup k ch = some x := by
  induction ch with
  | nil => simp at h
  | cons p r ih =>
    obtain ⟨n, y⟩ := p
    simp only [List.map_cons, List.nodup_cons] at hn
    simp only [lookup]
    rcases List.mem_cons.1 h with h | h
    · simp only [Prod.mk.injEq] at h; simp [h.1, h.2]
    · split
      · next e => subst e; exact absurd (List.mem_map.2 ⟨_, h, rfl⟩) hn.1
      · exact ih hn.2 h

theorem pop_nodup {k : Name} {ch : List (Name × Node V)} (hn : (ch.map (·.1)).Nodup) :
    ((pop k ch).2.map (·.1)).Nodup ∧ ∀ a ∈ (pop k ch).2.map (·.1), a ∈ ch.map (·.1) := by
  induction ch with
  | nil => simp [pop]
  | cons p r ih =>
    obtain ⟨n, y⟩ := p
    simp only [List.map_cons, List.nodup_cons] at hn
    simp only [pop]
    split
    · exact ⟨hn.2, fun a ha => List.mem_cons_of_mem _ ha⟩
    · obtain ⟨h1, h2⟩ := ih hn.2
      refine ⟨?_, ?_⟩
      · simp only [List.map_cons, List.nodup_cons]
        exact ⟨fun h => hn.1 (h2 _ h), h1⟩
      · intro a ha
        simp only [List.map_cons, List.mem_cons] at ha ⊢
        rcases ha with ha | ha
        · exact .inl ha
        · exact .inr (h2 a ha)

theorem lookup_pop {k j : Name} {ch : List (Name × Node V)} (hn : (ch.map (·.1)).Nodup) :
    lookup j (pop k ch).2 = if j = k then none else lookup j ch := by
  induction ch with
  | nil => simp [pop, lookup]
  | cons p r ih =>
    obtain ⟨n, y⟩ := p
    simp only [List.map_cons, List.nodup_cons] at hn
    simp only [pop]
    split
    · next e =>
      subst e
      split
      · next e =>
        subst e
        cases h : lookup j r with
        | none => rfl
        | some z => exact absurd (List.mem_map.2 ⟨_, mem_lookup h, rfl⟩) hn.1
      · next e => simp [lookup, Ne.symm e]
    · next e =>
      simp only [lookup, ih hn.2]
      split
      · next e' => subst e'; simp [e]
      · rfl

theorem nonempty_names {c : Fields V} {k : Name} {x : Node V} (h : (k, x) ∈ c.nonempty) :
    k ∈ c.names := by
  cases c with
  | nil => simp [Fields.nonempty] at h
  | absent n m r => simp [Fields.nonempty] at h; simp [Fields.names, nonempty_names h]
  | present n y r =>
    simp only [Fields.nonempty] at h
    split at h
    · rcases List.mem_cons.1 h with h | h
      · simp only [Prod.mk.injEq] at h; simp [Fields.names, h.1]
      · simp [Fields.names, nonempty_names h]
    · simp [Fields.names, nonempty_names h]

theorem nonempty_nodup {c : Fields V} (hw : WFFields c) : (c.nonempty.map (·.1)).Nodup := by
  cases c with
  | nil => simp [Fields.nonempty]
  | absent n m r => simp only [WFFields] at hw; simpa [Fields.nonempty] using nonempty_nodup hw.2.2
  | present n y r =>
    simp only [WFFields] at hw
    simp only [Fields.nonempty]
    split
    · simp only [List.map_cons, List.nodup_cons]
      refine ⟨?_, nonempty_nodup hw.2.2⟩
      intro h
      obtain ⟨⟨k, x⟩, h1, rfl⟩ := List.mem_map.1 h
      exact hw.1 (nonempty_names h1)
    · exact nonempty_nodup hw.2.2

theorem nonempty_wf {c : Fields V} (hw : WFFields c) : ∀ p ∈ c.nonempty, WF p.2 := by
  cases c with
  | nil => simp [Fields.nonempty]
  | absent n m r => simp only [WFFields] at hw; simpa [Fields.nonempty] using nonempty_wf hw.2.2
  | present n y r =>
    simp only [WFFields] at hw
    intro p hp
    simp only [Fields.nonempty] at hp
    split at hp
    · rcases List.mem_cons.1 hp with h | h
      · subst h; exact hw.2.1
      · exact nonempty_wf hw.2.2 p h
    · exact nonempty_wf hw.2.2 p hp

theorem filled_not_name {c : Fields V} {k : Name} (h : k ∉ c.names) : filled c k = none := by
  rw [filled_none]; intro x hx; exact absurd (get?_mem_names hx) h

theorem lookup_nonempty {c : Fields V} (hw : WFFields c) (k : Name) :
    lookup k c.nonempty = filled c k := by
  cases c with
  | nil => simp [Fields.nonempty, lookup, filled, Fields.get?]
  | absent n m r =>
    simp only [WFFields] at hw
    simp only [Fields.nonempty, lookup_nonempty hw.2.2 k]
    by_cases e : k = n
    · subst e
      rw [filled_not_name hw.1, eq_comm, filled_none]
      intro x hx; simp [Fields.get?] at hx; subst hx; exact fresh_hasValue m
    · simp [filled, Fields.get?, e]
  | present n y r =>
    simp only [WFFields] at hw
    simp only [Fields.nonempty]
    by_cases e : k = n
    · subst e
      split
      · next h => simp only [lookup, if_true]; exact (filled_iff.2 ⟨by simp [Fields.get?], h⟩).symm
      · next h =>
        rw [lookup_nonempty hw.2.2, filled_not_name hw.1, eq_comm, filled_none]
        intro x hx; simp [Fields.get?] at hx; subst hx; simpa using h
    · split
      · simp [lookup, Ne.symm e, lookup_nonempty hw.2.2, filled, Fields.get?, e]
      · simp [lookup_nonempty hw.2.2, filled, Fields.get?, e]

/-! ### No differences -/

/-- A structure without filled data nodes. -/
def Blank : Node V → Prop
  | .struct c => c.iter true false = []
  | _ => False

theorem onlyPaths_nil {path : List Name} {n : Name} {x : Node V} :
    onlyPaths path n x = [] ↔ Blank x := by
  cases x <;> simp [onlyPaths, Blank]

variable (eqv : V → V → Bool)

mutual
def NoDiff : Node V → Node V → Prop
  | .leaf _ v, .leaf _ w => ∀ x y, v = some x → w = some y → eqv x y = true
  | .struct c, .struct d => AllC c (filled d) ∧ ∀ k y, filled d k = some y → filled c k = none → Blank y
  | .aos _ e, .aos _ f => e.length = f.length ∧ NoDiffE e f
  | _, _ => False
/-- The filled children of the first structure against a dictionary. -/
def AllC : Fields V → (Name → Option (Node V)) → Prop
  | .nil, _ => True
  | .absent _ _ r, g => AllC r g
  | .present n x r, g =>
    (x.hasValue = true → match g n with
      | none => Blank x
      | some y => NoDiff x y) ∧ AllC r g
def NoDiffE : Elems V → Elems V → Prop
  | .cons c r, .cons d s =>
    (AllC c (filled d) ∧ ∀ k y, filled d k = some y → filled c k = none → Blank y) ∧ NoDiffE r s
  | _, _ => True
end

theorem allC_congr {c : Fields V} {g h : Name → Option (Node V)}
    (e : ∀ k ∈ c.names, g k = h k) : AllC eqv c g ↔ AllC eqv c h := by
  cases c with
  | nil => simp [AllC]
  | absent n m r => simp only [AllC]; exact allC_congr (fun k hk => e k (by simp [Fields.names, hk]))
  | present n x r =>
    simp only [AllC]
    rw [e n (by simp [Fields.names]), allC_congr (fun k hk => e k (by simp [Fields.names, hk]))]

mutual
theorem diffNode_nil (path : List Name) (x y : Node V) (hx : WF x) (hy : WF y) :
    diffNode eqv path x y = [] ↔ NoDiff eqv x y := by
  cases x with
  | leaf l v =>
    cases y with
    | leaf l' w =>
      simp only [diffNode, NoDiff]
      cases v <;> cases w <;> simp
    | struct d => simp [diffNode, NoDiff]
    | aos m f => simp [diffNode, NoDiff]
  | struct c =>
    cases y with
    | leaf l' w => simp [diffNode, NoDiff]
    | aos m f => simp [diffNode, NoDiff]
    | struct d =>
      simp only [WF] at hx hy
      simp only [diffNode, NoDiff]
      rw [diffFields_nil path c hx _ (nonempty_nodup hy) (nonempty_wf hy)]
      simp only [lookup_nonempty hy]
  | aos m e =>
    cases y with
    | leaf l' w => simp [diffNode, NoDiff]
    | struct d => simp [diffNode, NoDiff]
    | aos m' f =>
      simp only [WF] at hx hy
      simp only [diffNode, NoDiff, List.append_eq_nil_iff, diffElems_nil path e f hx.2 hy.2]
      constructor
      · rintro ⟨h1, h2⟩
        refine ⟨?_, h2⟩
        split at h1
        · simp at h1
        · next h => exact Classical.byContradiction h
      · rintro ⟨h1, h2⟩; exact ⟨by simp [h1], h2⟩
theorem diffFields_nil (path : List Name) (c : Fields V) (hc : WFFields c)
    (ch : List (Name × Node V)) (hch : (ch.map (·.1)).Nodup)
    (hwf : ∀ p ∈ ch, WF p.2) :
    diffFields eqv path c ch = [] ↔
      AllC eqv c (fun k => lookup k ch) ∧
        ∀ k y, lookup k ch = some y → filled c k = none → Blank y := by
  cases c with
  | nil =>
    simp only [diffFields, AllC, true_and, List.flatMap_eq_nil_iff, List.map_eq_nil_iff,
      onlyPaths_nil]
    constructor
    · intro h k y hk _; exact h (k, y) (mem_lookup hk)
    · intro h p hp
      exact h p.1 p.2 (lookup_mem hch hp) (by simp [filled, Fields.get?])
  | absent n m r =>
    simp only [WFFields] at hc
    simp only [diffFields, AllC]
    rw [diffFields_nil path r hc.2.2 ch hch hwf]
    refine and_congr_right fun _ => ?_
    have : ∀ k, filled (Fields.absent n m r) k = filled r k := by
      intro k
      by_cases e : k = n
      · subst e
        rw [filled_not_name hc.1, filled_none]
        intro x hx; simp [Fields.get?] at hx; subst hx; exact fresh_hasValue m
      · simp [filled, Fields.get?, e]
    simp only [this]
  | present n x r =>
    simp only [WFFields] at hc
    have hfil : ∀ k, filled (Fields.present n x r) k =
        if k = n then (if x.hasValue then some x else none) else filled r k := by
      intro k
      by_cases e : k = n
      · subst e; simp [filled, Fields.get?, Option.filter]
      · simp [filled, Fields.get?, e]
    have hr : filled r n = none := filled_not_name hc.1
    simp only [diffFields, AllC]
    by_cases hv : x.hasValue = true
    · simp only [hv, if_true, forall_const]
      have hnd := pop_nodup (k := n) hch
      have hwf' : ∀ p ∈ (pop n ch).2, WF p.2 := by
        intro p hp
        have h1 := lookup_mem hnd.1 hp
        rw [lookup_pop hch] at h1
        split at h1
        · simp at h1
        · exact hwf _ (mem_lookup h1)
      have ih := diffFields_nil path r hc.2.2 (pop n ch).2 hnd.1 hwf'
      have hall : AllC eqv r (fun k => lookup k (pop n ch).2) ↔ AllC eqv r (fun k => lookup k ch) := by
        apply allC_congr
        intro k hk
        rw [lookup_pop hch, if_neg]
        rintro rfl; exact hc.1 hk
      have hrest : (∀ k y, lookup k (pop n ch).2 = some y → filled r k = none → Blank y) ↔
          (∀ k y, lookup k ch = some y → filled (Fields.present n x r) k = none → Blank y) := by
        constructor
        · intro h k y h1 h2
          rw [hfil] at h2
          split at h2
          · simp at h2
          · next e => exact h k y (by rw [lookup_pop hch, if_neg e]; exact h1) h2
        · intro h k y h1 h2
          rw [lookup_pop hch] at h1
          split at h1
          · simp at h1
          · next e => exact h k y h1 (by rw [hfil, if_neg e]; exact h2)
      rw [hall, hrest] at ih
      have hp : pop n ch = (lookup n ch, (pop n ch).2) := by rw [← pop_fst]
      rw [hp]
      cases hl : lookup n ch with
      | none =>
        simp only [List.append_eq_nil_iff, List.map_eq_nil_iff, onlyPaths_nil, ih, and_assoc]
      | some y =>
        have hy : WF y := hwf _ (mem_lookup hl)
        simp only [List.append_eq_nil_iff, diffNode_nil (path ++ [n]) x y hc.2.1 hy, ih, and_assoc]
    · have hv' : x.hasValue = false := by simpa using hv
      simp only [hv', Bool.false_eq_true, if_false, false_implies, true_and]
      rw [diffFields_nil path r hc.2.2 ch hch hwf]
      refine and_congr_right fun _ => ?_
      have : ∀ k, filled (Fields.present n x r) k = filled r k := by
        intro k; rw [hfil]; split
        · next e => subst e; simp [hr]
        · rfl
      simp only [this]
theorem diffElems_nil (path : List Name) (e f : Elems V) (he : WFElems e) (hf : WFElems f) :
    diffElems eqv path e f = [] ↔ NoDiffE eqv e f := by
  cases e with
  | nil => cases f <;> simp [diffElems, NoDiffE]
  | cons c r =>
    cases f with
    | nil => simp [diffElems, NoDiffE]
    | cons d s =>
      simp only [WFElems] at he hf
      simp only [diffElems, NoDiffE, List.append_eq_nil_iff, diffElems_nil path r s he.2 hf.2]
      rw [diffFields_nil path c he.1 _ (nonempty_nodup hf.1) (nonempty_wf hf.1)]
      simp only [lookup_nonempty hf.1]
end

end Verif.Ids
