import Verif.Spec.Update
import Verif.Lemmas.Tree
import Verif.Model.Update
set_option linter.unusedSectionVars false
namespace Verif.Ids
open Verif.TreeSpec

variable {V : Type}

theorem Fields.get?_put_same {c : Fields V} {k : Name} {x y : Node V} (h : c.get? k = some x) :
    (c.put k y).get? k = some y := by
  cases c with
  | nil => simp [Fields.get?] at h
  | absent n m r =>
    simp only [Fields.put, Fields.get?] at *; split
    · next hk => simp [Fields.get?, hk]
    · next hk => rw [if_neg hk] at h; simp [Fields.get?, hk, Fields.get?_put_same h]
  | present n z r =>
    simp only [Fields.put, Fields.get?] at *; split
    · next hk => simp [Fields.get?, hk]
    · next hk => rw [if_neg hk] at h; simp [Fields.get?, hk, Fields.get?_put_same h]

theorem Fields.get?_put_other {c : Fields V} {k j : Name} {y : Node V} (h : j ≠ k) :
    (c.put k y).get? j = c.get? j := by
  cases c with
  | nil => simp [Fields.put]
  | absent n m r =>
    simp only [Fields.put]; split
    · next hk => subst hk; simp [Fields.get?, h]
    · next hk => simp [Fields.get?, Fields.get?_put_other h]
  | present n z r =>
    simp only [Fields.put]; split
    · next hk => subst hk; simp [Fields.get?, h]
    · next hk => simp [Fields.get?, Fields.get?_put_other h]

theorem Elems.get?_set_same {e : Elems V} {i : Nat} {c d : Fields V} (h : e.get? i = some c) :
    (e.set i d).get? i = some d := by
  induction i generalizing e with
  | zero => cases e <;> simp_all [Elems.get?, Elems.set]
  | succ i ih => cases e with
    | nil => simp [Elems.get?] at h
    | cons x r => simp only [Elems.get?, Elems.set] at *; exact ih h

theorem Elems.get?_set_other {e : Elems V} {i j : Nat} {d : Fields V} (h : j ≠ i) :
    (e.set i d).get? j = e.get? j := by
  induction i generalizing e j with
  | zero => cases e with
    | nil => simp [Elems.set]
    | cons x r => cases j with
      | zero => simp at h
      | succ j => simp [Elems.get?, Elems.set]
  | succ i ih => cases e with
    | nil => simp [Elems.set]
    | cons x r => cases j with
      | zero => simp [Elems.get?, Elems.set]
      | succ j => simp only [Elems.get?, Elems.set]; exact ih (by omega)

variable {E : Type}

/-- The operation keeps structures structures. -/
def KeepsStruct (f : Node V → Except E (Node V)) : Prop :=
  ∀ g y, f (.struct g) = .ok y → ∃ g', y = .struct g'

theorem modify_struct {f : Node V → Except E (Node V)} (hk : KeepsStruct f) {c : Fields V}
    {a : Addr} {y : Node V} (h : (Node.struct c).modify f a = some (.ok y)) :
    ∃ c', y = .struct c' := by
  cases a with
  | nil => simp [Node.modify] at h; exact hk _ _ h
  | cons s a =>
    obtain ⟨k, i⟩ := s
    simp only [Node.modify] at h
    split at h
    · simp at h
    · next x hx =>
      cases i with
      | none =>
        simp only [Option.map_eq_some_iff] at h
        obtain ⟨r, -, h⟩ := h
        cases r with
        | error => simp [Except.map] at h
        | ok z => simp [Except.map] at h; exact ⟨_, h.symm⟩
      | some i =>
        simp only at h
        split at h
        · split at h
          · simp at h
          · simp only [Option.map_eq_some_iff] at h
            obtain ⟨r, -, h⟩ := h
            cases r with
            | error => simp [Except.map] at h
            | ok z =>
              simp only [Except.map, Except.ok.injEq] at h
              split at h <;> exact ⟨_, h.symm⟩
        · simp at h

theorem modify_exists {f : Node V → Except E (Node V)} {n : Node V} {a : Addr} :
    (∃ r, n.modify f a = some r) ↔ ∃ x, n.at a = some x := by
  induction a generalizing n with
  | nil => simp [Node.modify, Node.at]
  | cons s a ih =>
    obtain ⟨k, i⟩ := s
    cases n with
    | leaf l v => simp [Node.modify, Node.at, Node.item]
    | aos m e => simp [Node.modify, Node.at, Node.item]
    | struct c =>
      simp only [Node.modify, Node.at, Node.item]
      cases hx : c.get? k with
      | none => simp
      | some x =>
        cases i with
        | none =>
          simp only [Option.map_eq_some_iff, Option.bind_some]
          rw [← ih]
          exact ⟨fun ⟨_, r, h, _⟩ => ⟨r, h⟩, fun ⟨r, h⟩ => ⟨_, r, h, rfl⟩⟩
        | some i =>
          cases x with
          | leaf l v => simp
          | struct d => simp
          | aos m e =>
            simp only
            cases hg : e.get? i with
            | none => simp
            | some g =>
              simp only [Option.map_eq_some_iff, Option.map_some, Option.bind_some]
              rw [← ih]
              exact ⟨fun ⟨_, r, h, _⟩ => ⟨r, h⟩, fun ⟨r, h⟩ => ⟨_, r, h, rfl⟩⟩

theorem modify_at {f : Node V → Except E (Node V)} (hk : KeepsStruct f) {n n' : Node V}
    {a : Addr} (h : n.modify f a = some (.ok n')) :
    ∃ x y, n.at a = some x ∧ f x = .ok y ∧ n'.at a = some y := by
  induction a generalizing n n' with
  | nil => simp [Node.modify] at h; exact ⟨n, n', rfl, h, rfl⟩
  | cons s a ih =>
    obtain ⟨k, i⟩ := s
    cases n with
    | leaf l v => simp [Node.modify] at h
    | aos m e => simp [Node.modify] at h
    | struct c =>
      simp only [Node.modify] at h
      split at h
      · simp at h
      · next x hx =>
        cases i with
        | none =>
          simp only [Option.map_eq_some_iff] at h
          obtain ⟨r, hr, h⟩ := h
          cases r with
          | error => simp [Except.map] at h
          | ok z =>
            simp only [Except.map, Except.ok.injEq] at h; subst h
            obtain ⟨x', y, h1, h2, h3⟩ := ih hr
            refine ⟨x', y, ?_, h2, ?_⟩
            · simp [Node.at, Node.item, hx, h1]
            · simp [Node.at, Node.item, Fields.get?_put_same hx, h3]
        | some i =>
          simp only at h
          split at h
          · next m e =>
            split at h
            · simp at h
            · next g hg =>
              simp only [Option.map_eq_some_iff] at h
              obtain ⟨r, hr, h⟩ := h
              cases r with
              | error => simp [Except.map] at h
              | ok z =>
                obtain ⟨g', rfl⟩ := modify_struct hk hr
                simp only [Except.map, Except.ok.injEq] at h; subst h
                obtain ⟨x', y, h1, h2, h3⟩ := ih hr
                refine ⟨x', y, ?_, h2, ?_⟩
                · simp [Node.at, Node.item, hx, hg, h1]
                · simp [Node.at, Node.item, Fields.get?_put_same hx, Elems.get?_set_same hg, h3]
          · simp at h

theorem modify_error {f : Node V → Except E (Node V)} {n : Node V} {a : Addr} {e : E}
    (h : n.modify f a = some (.error e)) : ∃ x, n.at a = some x ∧ f x = .error e := by
  induction a generalizing n with
  | nil => simp [Node.modify] at h; exact ⟨n, rfl, h⟩
  | cons s a ih =>
    obtain ⟨k, i⟩ := s
    cases n with
    | leaf l v => simp [Node.modify] at h
    | aos m e => simp [Node.modify] at h
    | struct c =>
      simp only [Node.modify] at h
      split at h
      · simp at h
      · next x hx =>
        cases i with
        | none =>
          simp only [Option.map_eq_some_iff] at h
          obtain ⟨r, hr, h⟩ := h
          cases r with
          | ok => simp [Except.map] at h
          | error z =>
            simp only [Except.map, Except.error.injEq] at h; subst h
            obtain ⟨x', h1, h2⟩ := ih hr
            exact ⟨x', by simp [Node.at, Node.item, hx, h1], h2⟩
        | some i =>
          simp only at h
          split at h
          · next m e =>
            split at h
            · simp at h
            · next g hg =>
              simp only [Option.map_eq_some_iff] at h
              obtain ⟨r, hr, h⟩ := h
              cases r with
              | ok => simp [Except.map] at h
              | error z =>
                simp only [Except.map, Except.error.injEq] at h; subst h
                obtain ⟨x', h1, h2⟩ := ih hr
                exact ⟨x', by simp [Node.at, Node.item, hx, hg, h1], h2⟩
          · simp at h

theorem modify_frame {f : Node V → Except E (Node V)} (hk : KeepsStruct f) {n n' : Node V}
    {a b : Addr} (h : n.modify f a = some (.ok n')) (hab : Apart a b) : n'.at b = n.at b := by
  induction a generalizing n n' b with
  | nil => simp [Apart] at hab
  | cons s a ih =>
    cases b with
    | nil => simp [Apart] at hab
    | cons t b =>
      obtain ⟨k, i⟩ := s
      cases n with
      | leaf l v => simp [Node.modify] at h
      | aos m e => simp [Node.modify] at h
      | struct c =>
        have hother : ∀ y, t.1 ≠ k → (Node.struct (c.put k y)).item t = (Node.struct c).item t := by
          intro y ht; simp [Node.item, Fields.get?_put_other ht]
        unfold Apart at hab
        simp only [Node.modify] at h
        split at h
        · simp at h
        · next x hx =>
          cases i with
          | none =>
            simp only [Option.map_eq_some_iff] at h
            obtain ⟨r, hr, h⟩ := h
            cases r with
            | error => simp [Except.map] at h
            | ok z =>
              simp only [Except.map, Except.ok.injEq] at h; subst h
              rcases hab with hab | ⟨_, _, h, _⟩ | ⟨rfl, hab⟩
              · simp only [Node.at, hother _ (Ne.symm hab)]
              · simp at h
              · simp [Node.at, Node.item, Fields.get?_put_same hx, hx, ih hr hab]
          | some i =>
            simp only at h
            split at h
            · next m e =>
              split at h
              · simp at h
              · next g hg =>
                simp only [Option.map_eq_some_iff] at h
                obtain ⟨r, hr, h⟩ := h
                cases r with
                | error => simp [Except.map] at h
                | ok z =>
                  obtain ⟨g', rfl⟩ := modify_struct hk hr
                  simp only [Except.map, Except.ok.injEq] at h; subst h
                  rcases hab with hab | ⟨i', j, h1, h2, h3⟩ | ⟨rfl, hab⟩
                  · simp only [Node.at, hother _ (Ne.symm hab)]
                  · by_cases ht : t.1 = k
                    · obtain ⟨k', jj⟩ := t
                      simp only at ht h2 h1; subst ht; subst h2
                      simp only [Option.some.injEq] at h1; subst h1
                      simp [Node.at, Node.item, Fields.get?_put_same hx, hx,
                        Elems.get?_set_other (Ne.symm h3)]
                    · simp only [Node.at, hother _ ht]
                  · simp [Node.at, Node.item, Fields.get?_put_same hx, hx,
                      Elems.get?_set_same hg, hg, ih hr hab]
            · simp at h

/-! ### Elements as lists -/

theorem Elems.toList_ofList (l : List (Fields V)) : (Elems.ofList l).toList = l := by
  induction l with
  | nil => rfl
  | cons c r ih => simp [Elems.ofList, Elems.toList, ih]

theorem Elems.get?_toList (e : Elems V) (i : Nat) : e.toList[i]? = e.get? i := by
  induction i generalizing e with
  | zero => cases e <;> simp [Elems.toList, Elems.get?]
  | succ i ih => cases e <;> simp [Elems.toList, Elems.get?, ih]

theorem Elems.length_toList (e : Elems V) : e.toList.length = e.length := by
  cases e with
  | nil => rfl
  | cons c r => simp [Elems.toList, Elems.length, Elems.length_toList r]

theorem keeps_onElems (op : MFields → List (Fields V) → Except AosErr (List (Fields V))) :
    KeepsStruct (Node.onElems op) := by
  intro g y h; simp [Node.onElems] at h; exact ⟨g, h.symm⟩

theorem keeps_assign {F : Type} [FloatModel F] (cv : Conv F) (lazy : Bool) (x : Obj F) :
    KeepsStruct (Node.assign cv lazy x) := by
  intro g y h; simp [Node.assign] at h; exact ⟨g, h.symm⟩

end Verif.Ids
