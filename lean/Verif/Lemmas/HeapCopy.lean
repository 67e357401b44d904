import Verif.Lemmas.Heap
namespace Verif.Heap
open Verif.Ids Verif.HeapSpec

variable {V B W C : Type} {up : Bool} {M : Memory V B W} {h0 h h' : Heap V B W C} {P Q : Ref → Prop}

/-! ### A copy refers to new objects and immutable objects only -/

/-- New since `h0`, or immutable. -/
def New (h0 : Heap V B W C) (e : Ref) : Prop :=
  h0.next ≤ e ∨ ∃ x, h0.get e = some x ∧ Immutable x

/-- The objects that are new since `h0` refer to such objects. The parents of those in `P` may be
others. -/
structure Fresh (up : Bool) (h0 : Heap V B W C) (P : Ref → Prop) (h : Heap V B W C) : Prop where
  next : h0.next ≤ h.next
  old : ∀ o, o < h0.next → h.get o = h0.get o
  refs : ∀ o x, h0.next ≤ o → h.get o = some x → ∀ e, Refers false x e → New h0 e
  parents : ∀ o x, h0.next ≤ o → h.get o = some x → up = true → ¬ P o → ∀ p, parentOf x = some p → New h0 p

theorem refers_split {x : Obj V B W C} {e : Ref} :
    Refers up x e ↔ Refers false x e ∨ (up = true ∧ parentOf x = some e) := by
  cases x <;> simp [Refers, parentOf, eq_comm]

theorem Fresh.weaken (f : Fresh up h0 P h) (hp : ∀ o, P o → Q o) : Fresh up h0 Q h :=
  ⟨f.next, f.old, f.refs, fun o x ho hx hu hn => f.parents o x ho hx hu fun h => hn (hp o h)⟩

theorem Fresh.set (f : Fresh up h0 P h) {r : Ref} (hr : h0.next ≤ r) {o : Obj V B W C}
    (he : ∀ e, Refers false o e → New h0 e) :
    Fresh up h0 (fun s => P s ∨ s = r) (h.set r o) := by
  refine ⟨f.next, ?_, ?_, ?_⟩
  · intro s hs
    have : s ≠ r := Nat.ne_of_lt (Nat.lt_of_lt_of_le hs hr)
    rw [set_other this]; exact f.old s hs
  · intro s x hs hx e hxe
    simp only [Heap.set] at hx
    split at hx
    · cases hx; exact he e hxe
    · exact f.refs s x hs hx e hxe
  · intro s x hs hx hu hn p hp
    simp only [Heap.set] at hx
    split at hx
    · next h => exact absurd (.inr h) hn
    · exact f.parents s x hs hx hu (fun h => hn (.inl h)) p hp

theorem Fresh.reserve (f : Fresh up h0 P h) : Fresh up h0 P h.reserve.1 :=
  ⟨Nat.le_trans f.next (Nat.le_succ _), f.old, f.refs, f.parents⟩

theorem Fresh.alloc (f : Fresh up h0 P h) {o : Obj V B W C} (he : ∀ e, Refers false o e → New h0 e) :
    Fresh up h0 (fun s => P s ∨ s = (h.alloc o).2) (h.alloc o).1 :=
  f.reserve.set f.next he

theorem Fresh.alloc' (f : Fresh up h0 P h) {o : Obj V B W C} (he : ∀ e, Refers false o e → New h0 e)
    (hp : parentOf o = none) : Fresh up h0 P (h.alloc o).1 := by
  have a := f.alloc he
  refine ⟨a.next, a.old, a.refs, ?_⟩
  intro s x hs hx hu hn p hpp
  by_cases hsr : s = (h.alloc o).2
  · subst hsr
    rw [alloc_get] at hx; cases hx
    rw [hp] at hpp; cases hpp
  · exact a.parents s x hs hx hu (fun h => h.elim hn hsr) p hpp

/-- Setting the parent to a new object. -/
theorem Fresh.setParent (f : Fresh up h0 P h) {y c : Ref} (hy : New h0 y) (hc : h0.next ≤ c)
    (h1 : setParent h y c = .ok h') : Fresh up h0 (fun s => P s ∧ s ≠ y) h' := by
  have hyn : h0.next ≤ y := by
    rcases hy with hy | ⟨x, hx, hi⟩
    · exact hy
    · refine Nat.le_of_not_lt fun hlt => ?_
      have : h.get y = some x := (f.old y hlt).trans hx
      unfold Verif.Heap.setParent at h1
      rw [this] at h1
      cases x <;> simp [Immutable] at hi h1
  have key : ∀ o x', h.get y = some o → h' = h.set y x' → (∀ e, Refers false x' e ↔ Refers false o e) →
      parentOf x' = some c → Fresh up h0 (fun s => P s ∧ s ≠ y) h' := by
    intro o x' ho hh hr hp
    subst hh
    have a := f.set hyn (o := x') (fun e he => f.refs y o hyn ho e ((hr e).1 he))
    refine ⟨a.next, a.old, a.refs, ?_⟩
    intro s x hs hx hu hn p hpp
    by_cases hsy : s = y
    · subst hsy
      rw [set_get] at hx; cases hx
      rw [hp] at hpp; cases hpp
      exact .inl hc
    · exact a.parents s x hs hx hu (fun h => h.elim (fun h => hn ⟨h, hsy⟩) hsy) p hpp
  unfold Verif.Heap.setParent at h1
  split at h1
  · next hx => cases h1; exact key _ _ hx rfl (fun e => by simp [Refers]) rfl
  · next hx => cases h1; exact key _ _ hx rfl (fun e => by simp [Refers]) rfl
  · next hx => cases h1; exact key _ _ hx rfl (fun e => by simp [Refers]) rfl
  · cases h1

def MemoNew (h0 : Heap V B W C) (s : St V B W C) : Prop := ∀ p ∈ s.memo, New h0 p.2

def CopyNew (up : Bool) (h0 : Heap V B W C)
    (copy : St V B W C → Ref → Except Err (St V B W C × Ref)) : Prop :=
  ∀ (P : Ref → Prop) s r s' y, Fresh up h0 P s.heap → MemoNew h0 s → copy s r = .ok (s', y) →
    Fresh up h0 (fun o => P o ∨ o = y) s'.heap ∧ New h0 y ∧ MemoNew h0 s'

theorem remember_new {s : St V B W C} {r y : Ref} (m : MemoNew h0 s) (hy : New h0 y) :
    MemoNew h0 (remember r (s, y)).1 := by
  intro p hp
  simp only [remember, List.mem_cons] at hp
  rcases hp with rfl | hp
  · exact hy
  · exact m p hp

theorem pend_mid {P : Ref → Prop} {y : Ref} {h : Heap V B W C}
    (f : Fresh up h0 (fun s => (P s ∨ s = y) ∧ s ≠ y) h) : Fresh up h0 P h :=
  f.weaken fun _ ho => ho.1.resolve_right ho.2

theorem copyKids_new {copy : St V B W C → Ref → Except Err (St V B W C × Ref)} (hc : CopyNew up h0 copy)
    {c : Ref} {d : Name → Option Ref} {m : MFields} {s s' : St V B W C} {k : Name → Option Ref}
    (f : Fresh up h0 P s.heap) (hcc : h0.next ≤ c) (hm : MemoNew h0 s)
    (he : copyKids copy c d m s = .ok (s', k)) :
    Fresh up h0 P s'.heap ∧ MemoNew h0 s' ∧ ∀ n e, k n = some e → New h0 e := by
  induction m using MFields.rec (motive_1 := fun _ => True) generalizing s s' k with
  | leaf => trivial
  | struct => trivial
  | aos => trivial
  | nil =>
    simp only [copyKids, Except.ok.injEq, Prod.mk.injEq] at he
    obtain ⟨rfl, rfl⟩ := he
    exact ⟨f, hm, by intro _ _ h; cases h⟩
  | cons name mm rest _ ih =>
    unfold copyKids at he
    split at he
    · exact ih f hm he
    · next r hr =>
      obtain ⟨⟨s1, y⟩, h1, he⟩ := bind_ok he
      obtain ⟨h2, h3, he⟩ := bind_ok he
      obtain ⟨⟨s3, k3⟩, h4, he⟩ := bind_ok he
      simp only [Except.ok.injEq, Prod.mk.injEq] at he
      obtain ⟨rfl, rfl⟩ := he
      obtain ⟨f1, hy, m1⟩ := hc P s r s1 y f hm h1
      obtain ⟨f3, m3, hk⟩ := ih (s := { s1 with heap := h2 }) (pend_mid (f1.setParent hy hcc h3)) m1 h4
      refine ⟨f3, m3, ?_⟩
      intro n e h
      simp only at h
      split at h
      · cases h; exact hy
      · exact hk n e h

theorem copyItems_new {copy : St V B W C → Ref → Except Err (St V B W C × Ref)} (hc : CopyNew up h0 copy)
    {c : Ref} {l : List (Option Ref)} {s s' : St V B W C} {k : List (Option Ref)}
    (f : Fresh up h0 P s.heap) (hcc : h0.next ≤ c) (hm : MemoNew h0 s)
    (he : copyItems copy c l s = .ok (s', k)) :
    Fresh up h0 P s'.heap ∧ MemoNew h0 s' ∧ ∀ e, some e ∈ k → New h0 e := by
  induction l generalizing s s' k with
  | nil =>
    simp only [copyItems, Except.ok.injEq, Prod.mk.injEq] at he
    obtain ⟨rfl, rfl⟩ := he
    exact ⟨f, hm, by intro _ h; cases h⟩
  | cons a rest ih =>
    cases a with
    | none => cases he
    | some r =>
      unfold copyItems at he
      obtain ⟨⟨s1, y⟩, h1, he⟩ := bind_ok he
      obtain ⟨h2, h3, he⟩ := bind_ok he
      obtain ⟨⟨s3, k3⟩, h4, he⟩ := bind_ok he
      simp only [Except.ok.injEq, Prod.mk.injEq] at he
      obtain ⟨rfl, rfl⟩ := he
      obtain ⟨f1, hy, m1⟩ := hc P s r s1 y f hm h1
      obtain ⟨f3, m3, hk⟩ := ih (s := { s1 with heap := h2 }) (pend_mid (f1.setParent hy hcc h3)) m1 h4
      refine ⟨f3, m3, ?_⟩
      intro e h
      rcases List.mem_cons.1 h with h | h
      · cases h; exact hy
      · exact hk e h

theorem newArray_new (f : Fresh up h0 P h) (v : V) :
    Fresh up h0 P (newArray M h v).1 ∧ h0.next ≤ (newArray M h v).2 := by
  unfold newArray
  have f1 := f.alloc' (o := .buf (M.copyOf v).1) (by simp [Refers]) rfl
  have f2 := f1.alloc' (o := .arr (h.alloc (.buf (M.copyOf v).1)).2 (M.copyOf v).2)
    (by intro e he; simp only [Refers] at he; subst he; exact .inl f.next) rfl
  exact ⟨f2, f1.next⟩

theorem copyValue_new {s s' : St V B W C} {r y : Ref} (f : Fresh up h0 P s.heap) (hm : MemoNew h0 s)
    (he : copyValue M s r = .ok (s', y)) : Fresh up h0 P s'.heap ∧ New h0 y ∧ MemoNew h0 s' := by
  unfold copyValue at he
  split at he
  · next hx =>
    simp only [Except.ok.injEq, Prod.mk.injEq] at he
    obtain ⟨rfl, rfl⟩ := he
    refine ⟨f, ?_, hm⟩
    by_cases hr : h0.next ≤ r
    · exact .inl hr
    · exact .inr ⟨_, (f.old r (Nat.lt_of_not_le hr)).symm.trans hx, trivial⟩
  · split at he
    · next z hz =>
      split at he
      · simp only [Except.ok.injEq, Prod.mk.injEq] at he
        obtain ⟨rfl, rfl⟩ := he
        exact ⟨f, hm _ (lookup_mem hz), hm⟩
      · cases he
    · split at he
      · cases he
      · next v _ =>
        simp only [Except.ok.injEq] at he
        obtain ⟨i, b⟩ := newArray_new (M := M) f v
        have := congrArg Prod.fst he; have h2 := congrArg Prod.snd he
        simp only at this h2
        subst this; subst h2
        exact ⟨i, .inl b, remember_new hm (.inl b)⟩
  · cases he

theorem deepcopy_new (M : Memory V B W) (h0 : Heap V B W C) (fuel : Nat) :
    CopyNew (C := C) up h0 (deepcopy M fuel) := by
  induction fuel with
  | zero => intro P s r s' y _ _ h; cases h
  | succ fuel ih =>
    intro P s r s' y f hm he
    unfold deepcopy at he
    split at he
    · next z hz =>
      simp only [Except.ok.injEq, Prod.mk.injEq] at he
      obtain ⟨rfl, rfl⟩ := he
      exact ⟨f.weaken fun _ h => .inl h, hm _ (lookup_mem hz), hm⟩
    · split at he
      · obtain ⟨a, b⟩ := copyValue_new f hm he
        exact ⟨a.weaken fun _ h => .inl h, b⟩
      · obtain ⟨a, b⟩ := copyValue_new f hm he
        exact ⟨a.weaken fun _ h => .inl h, b⟩
      · next l p hx =>
        simp only [Except.ok.injEq] at he
        have i := f.alloc (o := .leaf l none p) (by simp [Refers])
        have := congrArg Prod.fst he; have h2 := congrArg Prod.snd he
        simp only at this h2
        subst this; subst h2
        exact ⟨i, .inl f.next, remember_new hm (.inl f.next)⟩
      · next l a p hx =>
        obtain ⟨⟨s1, b⟩, h1, he⟩ := bind_ok he
        simp only [Except.ok.injEq] at he
        obtain ⟨f1, hb, m1⟩ := copyValue_new f hm h1
        have i := f1.alloc (o := .leaf l (some b) p) (by
          rintro e (h | ⟨hu, _⟩)
          · cases h; exact hb
          · cases hu)
        have := congrArg Prod.fst he; have h2 := congrArg Prod.snd he
        simp only at this h2
        subst this; subst h2
        exact ⟨i, .inl f1.next, remember_new m1 (.inl f1.next)⟩
      · next q m d p t z x hx =>
        split at he
        · cases he
        · obtain ⟨⟨s1, k⟩, h1, he⟩ := bind_ok he
          simp only [Except.ok.injEq] at he
          obtain ⟨f1, m1, hk⟩ := copyKids_new ih (s := { s with heap := s.heap.reserve.1 }) f.reserve
            f.next hm h1
          have := congrArg Prod.fst he; have h2 := congrArg Prod.snd he
          simp only at this h2
          subst this; subst h2
          have i := f1.set (r := s.heap.next) f.next
            (o := .struct q m k p t (if t = true then z else s.heap.isLazy p) none) (by
              rintro e (⟨n, h⟩ | ⟨hu, _⟩)
              · exact hk n e h
              · cases hu)
          exact ⟨i, .inl f.next, remember_new m1 (.inl f.next)⟩
      · cases he
      · next q m items p z x hx =>
        split at he
        · split at he
          · simp only [Except.ok.injEq] at he
            have i := f.alloc (o := .aos q m none p true none) (by
              rintro e (⟨_, h, _⟩ | ⟨hu, _⟩)
              · cases h
              · cases hu)
            have := congrArg Prod.fst he; have h2 := congrArg Prod.snd he
            simp only at this h2
            subst this; subst h2
            exact ⟨i, .inl f.next, remember_new hm (.inl f.next)⟩
          · cases he
          · obtain ⟨_, _, he⟩ := bind_ok he; cases he
        · obtain ⟨⟨s1, k⟩, h1, he⟩ := bind_ok he
          simp only [Except.ok.injEq] at he
          obtain ⟨f1, m1, hk⟩ := copyItems_new ih (s := { s with heap := s.heap.reserve.1 }) f.reserve
            f.next hm h1
          have := congrArg Prod.fst he; have h2 := congrArg Prod.snd he
          simp only at this h2
          subst this; subst h2
          have i := f1.set (r := s.heap.next) f.next
            (o := .aos q m (some k) p false none) (by
              rintro e (⟨_, hl, h⟩ | ⟨hu, _⟩)
              · cases hl; exact hk e h
              · cases hu)
          exact ⟨i, .inl f.next, remember_new m1 (.inl f.next)⟩
      · cases he
      · cases he
      · cases he

end Verif.Heap
