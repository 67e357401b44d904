import Verif.Spec.Heap
namespace Verif.Heap
open Verif.Ids Verif.HeapSpec

variable {V B W C : Type} {up : Bool} {U : Ref → Prop} {M : Memory V B W} {E : Env V B W C}
  {h h' h'' : Heap V B W C}

theorem bind_ok {α β ε : Type} {x : Except ε α} {f : α → Except ε β} {b : β} (h : (x >>= f) = .ok b) :
    ∃ a, x = .ok a ∧ f a = .ok b := by
  cases x with
  | error e => cases h
  | ok a => exact ⟨a, rfl, h⟩

/-- `U` contains all new objects and what its members refer to. -/
structure Good (up : Bool) (U : Ref → Prop) (h : Heap V B W C) : Prop where
  above : ∀ o, h.next ≤ o → h.get o = none
  new : ∀ o, h.next ≤ o → U o
  closed : ∀ o x, U o → h.get o = some x → ∀ e, Refers up x e → U e ∧ e < h.next

/-- Only members of `U` that are not immutable have changed. -/
structure Frame (U : Ref → Prop) (h h' : Heap V B W C) : Prop where
  next : h.next ≤ h'.next
  same : ∀ o, ¬ U o → h'.get o = h.get o
  fixed : ∀ o x, h.get o = some x → Immutable x → h'.get o = some x
  hole : ∀ o, o < h.next → h.get o = none → h'.get o = none

theorem Frame.refl (U : Ref → Prop) (h : Heap V B W C) : Frame U h h :=
  ⟨Nat.le_refl _, fun _ _ => rfl, fun _ _ hx _ => hx, fun _ _ hx => hx⟩

theorem Frame.trans (a : Frame U h h') (b : Frame U h' h'') : Frame U h h'' :=
  ⟨Nat.le_trans a.next b.next, fun o ho => (b.same o ho).trans (a.same o ho),
    fun o x hx hi => b.fixed o x (a.fixed o x hx hi) hi,
    fun o ho hn => b.hole o (Nat.lt_of_lt_of_le ho a.next) (a.hole o ho hn)⟩

def Has (U : Ref → Prop) (h : Heap V B W C) (r : Ref) : Prop := U r ∧ r < h.next

theorem Has.mono {r : Ref} (a : Has U h r) (b : h.next ≤ h'.next) : Has U h' r :=
  ⟨a.1, Nat.lt_of_lt_of_le a.2 b⟩

/-- A step from `h` to `h'` inside `U`. -/
structure Inside (up : Bool) (U : Ref → Prop) (h h' : Heap V B W C) : Prop where
  good : Good up U h'
  frame : Frame U h h'

theorem Inside.refl (g : Good up U h) : Inside up U h h := ⟨g, .refl U h⟩

theorem Inside.trans (a : Inside up U h h') (b : Inside up U h' h'') : Inside up U h h'' :=
  ⟨b.good, a.frame.trans b.frame⟩

theorem Inside.has {r : Ref} (a : Inside up U h h') (b : Has U h r) : Has U h' r := b.mono a.frame.next

theorem set_inside (g : Good up U h) {r : Ref} (hr : Has U h r) {o : Obj V B W C}
    {x : Obj V B W C} (hx : h.get r = some x) (hf : ¬ Immutable x) (he : ∀ e, Refers up o e → Has U h e) :
    Inside up U h (h.set r o) := by
  refine ⟨⟨?_, g.new, ?_⟩, ⟨Nat.le_refl _, ?_, ?_, ?_⟩⟩
  · intro s hs
    have : s ≠ r := fun hsr => absurd hr.2 (by subst hsr; exact Nat.not_lt.2 hs)
    simp only [Heap.set, if_neg this]
    exact g.above s hs
  · intro s x hs hx e hxe
    simp only [Heap.set] at hx
    split at hx
    · cases hx; exact he e hxe
    · exact g.closed s x hs hx e hxe
  · intro s hs
    have : s ≠ r := fun hsr => hs (hsr ▸ hr.1)
    simp only [Heap.set, if_neg this]
  · intro s y hx' hi
    have : s ≠ r := fun hsr => by subst hsr; rw [hx] at hx'; cases hx'; exact hf hi
    simp only [Heap.set, if_neg this]
    exact hx'
  · intro s _ hn
    have : s ≠ r := fun hsr => by subst hsr; rw [hx] at hn; cases hn
    simp only [Heap.set, if_neg this]
    exact hn

/-- Fill an object that was reserved. -/
theorem fill_inside (i : Inside up U h h') {c : Ref} (hc : h.next ≤ c) (hcc : Has U h' c)
    (hn : h'.get c = none) {o : Obj V B W C} (he : ∀ e, Refers up o e → Has U h' e) :
    Inside up U h (h'.set c o) := by
  obtain ⟨g, f⟩ := i
  refine ⟨⟨?_, g.new, ?_⟩, ⟨f.next, ?_, ?_, ?_⟩⟩
  · intro s hs
    have : s ≠ c := fun hsr => absurd hcc.2 (by subst hsr; exact Nat.not_lt.2 hs)
    simp only [Heap.set, if_neg this]
    exact g.above s hs
  · intro s x hs hx e hxe
    simp only [Heap.set] at hx
    split at hx
    · cases hx; exact he e hxe
    · exact g.closed s x hs hx e hxe
  · intro s hs
    have : s ≠ c := fun hsr => hs (hsr ▸ hcc.1)
    simp only [Heap.set, if_neg this]
    exact f.same s hs
  · intro s x hx hi
    have h1 := f.fixed s x hx hi
    have : s ≠ c := fun hsr => by subst hsr; rw [hn] at h1; cases h1
    simp only [Heap.set, if_neg this]
    exact h1
  · intro s hs hn
    have : s ≠ c := fun hsr => by subst hsr; exact absurd hs (Nat.not_lt.2 hc)
    simp only [Heap.set, if_neg this]
    exact f.hole s hs hn

theorem reserve_inside (g : Good up U h) :
    Inside up U h h.reserve.1 ∧ Has U h.reserve.1 h.reserve.2 ∧ h.reserve.1.get h.reserve.2 = none := by
  refine ⟨⟨⟨?_, ?_, ?_⟩, ⟨Nat.le_succ _, fun _ _ => rfl, fun _ _ hx _ => hx, fun _ _ hx => hx⟩⟩, ⟨g.new _ (Nat.le_refl _),
    Nat.lt_succ_self _⟩, g.above _ (Nat.le_refl _)⟩
  · intro o ho; exact g.above o (Nat.le_trans (Nat.le_succ _) ho)
  · intro o ho; exact g.new o (Nat.le_trans (Nat.le_succ _) ho)
  · intro o x ho hx e he
    exact ⟨(g.closed o x ho hx e he).1, Nat.lt_succ_of_lt (g.closed o x ho hx e he).2⟩

theorem alloc_eq (h : Heap V B W C) (o : Obj V B W C) :
    h.alloc o = (h.reserve.1.set h.reserve.2 o, h.reserve.2) := rfl

theorem alloc_inside (g : Good up U h) {o : Obj V B W C} (he : ∀ e, Refers up o e → Has U h e) :
    Inside up U h (h.alloc o).1 ∧ Has U (h.alloc o).1 (h.alloc o).2 := by
  obtain ⟨a, b, c⟩ := reserve_inside g
  exact ⟨fill_inside a (Nat.le_refl _) b c (fun e h' => a.has (he e h')), b⟩

theorem alloc_get (h : Heap V B W C) (o : Obj V B W C) : (h.alloc o).1.get (h.alloc o).2 = some o := by
  simp [Heap.alloc]

theorem set_get (h : Heap V B W C) (r : Ref) (o : Obj V B W C) : (h.set r o).get r = some o := by
  simp [Heap.set]

theorem set_other {r s : Ref} {o : Obj V B W C} (hs : s ≠ r) : (h.set r o).get s = h.get s := by
  simp [Heap.set, hs]

theorem newArray_inside (g : Good up U h) (v : V) :
    Inside up U h (newArray M h v).1 ∧ Has U (newArray M h v).1 (newArray M h v).2 := by
  unfold newArray
  obtain ⟨a, b⟩ := alloc_inside g (o := .buf (M.copyOf v).1) (by simp [Refers])
  obtain ⟨c, d⟩ := alloc_inside a.good
    (o := .arr (h.alloc (.buf (M.copyOf v).1)).2 (M.copyOf v).2)
    (by intro e he; simp only [Refers] at he; subst he; exact b)
  exact ⟨a.trans c, d⟩

theorem newValue_inside (g : Good up U h) (l : LeafMeta) (v : V) :
    Inside up U h (newValue M h l v).1 ∧ Has U (newValue M h l v).1 (newValue M h l v).2 := by
  unfold newValue
  split
  · exact alloc_inside g (by simp [Refers])
  · exact newArray_inside g v

theorem setParent_inside (g : Good up U h) {r p : Ref} (hr : Has U h r) (hp : Has U h p)
    (h1 : setParent h r p = .ok h') : Inside up U h h' := by
  have key : ∀ e x, h.get r = some x → Refers up x e → Has U h e := fun e x hx he =>
    g.closed r x hr.1 hx e he
  unfold setParent at h1
  split at h1
  · next l v q hx =>
    cases h1
    refine set_inside g hr hx (by simp [Immutable]) ?_
    rintro e (he | ⟨_, rfl⟩)
    · exact key e _ hx (.inl he)
    · exact hp
  · next hx =>
    cases h1
    refine set_inside g hr hx (by simp [Immutable]) ?_
    rintro e (he | ⟨_, rfl⟩)
    · exact key e _ hx (.inl he)
    · exact hp
  · next hx =>
    cases h1
    refine set_inside g hr hx (by simp [Immutable]) ?_
    rintro e (he | ⟨_, rfl⟩)
    · exact key e _ hx (.inl he)
    · exact hp
  · cases h1

/-! ### Deep copies stay inside -/

/-- State of `deepcopy`: all copies in `memo` are in `U`. -/
def MemoIn (U : Ref → Prop) (s : St V B W C) : Prop := ∀ p ∈ s.memo, Has U s.heap p.2

theorem lookup_mem {l : List (Ref × Ref)} {a b : Ref} (h : l.lookup a = some b) : (a, b) ∈ l := by
  induction l with
  | nil => cases h
  | cons p l ih =>
    obtain ⟨x, y⟩ := p
    simp only [List.lookup_cons] at h
    split at h
    · next hb => cases h; simp only [beq_iff_eq] at hb; subst hb; exact List.mem_cons_self
    · exact List.mem_cons_of_mem _ (ih h)

theorem MemoIn.mono {s : St V B W C} (m : MemoIn U s) (i : s.heap.next ≤ h'.next) :
    MemoIn U { s with heap := h' } := fun p hp => (m p hp).mono i

theorem remember_in {s : St V B W C} {r y : Ref} (m : MemoIn U s) (hy : Has U s.heap y) :
    MemoIn U (remember r (s, y)).1 := by
  intro p hp
  simp only [remember, List.mem_cons] at hp
  rcases hp with rfl | hp
  · exact hy
  · exact m p hp

/-- What `deepcopy` and its parts guarantee. -/
def CopyIn (up : Bool) (U : Ref → Prop) (copy : St V B W C → Ref → Except Err (St V B W C × Ref)) : Prop :=
  ∀ s r s' y, Good up U s.heap → Has U s.heap r → MemoIn U s → copy s r = .ok (s', y) →
    Inside up U s.heap s'.heap ∧ Has U s'.heap y ∧ MemoIn U s'

theorem copyKids_in {copy : St V B W C → Ref → Except Err (St V B W C × Ref)} (hc : CopyIn up U copy)
    {c : Ref} {d : Name → Option Ref} {m : MFields} {s s' : St V B W C} {k : Name → Option Ref}
    (g : Good up U s.heap) (hcc : Has U s.heap c) (hd : ∀ n e, d n = some e → Has U s.heap e)
    (hm : MemoIn U s) (he : copyKids copy c d m s = .ok (s', k)) :
    Inside up U s.heap s'.heap ∧ MemoIn U s' ∧ ∀ n e, k n = some e → Has U s'.heap e := by
  induction m using MFields.rec (motive_1 := fun _ => True) generalizing s s' k with
  | leaf => trivial
  | struct => trivial
  | aos => trivial
  | nil =>
    simp only [copyKids, Except.ok.injEq, Prod.mk.injEq] at he
    obtain ⟨rfl, rfl⟩ := he
    exact ⟨.refl g, hm, by intro _ _ h; cases h⟩
  | cons name mm rest _ ih =>
    unfold copyKids at he
    split at he
    · exact ih g hcc hd hm he
    · next r hr =>
      obtain ⟨⟨s1, y⟩, h1, he⟩ := bind_ok he
      obtain ⟨h2, h3, he⟩ := bind_ok he
      obtain ⟨⟨s3, k3⟩, h4, he⟩ := bind_ok he
      simp only [Except.ok.injEq, Prod.mk.injEq] at he
      obtain ⟨rfl, rfl⟩ := he
      obtain ⟨i1, hy, m1⟩ := hc s r s1 y g (hd _ _ hr) hm h1
      have i2 := setParent_inside i1.good hy (i1.has hcc) h3
      have i12 := i1.trans i2
      obtain ⟨i3, m3, hk⟩ := ih (s := { s1 with heap := h2 }) i2.good (i12.has hcc)
        (fun n e h => i12.has (hd n e h)) (m1.mono i2.frame.next) h4
      refine ⟨i12.trans i3, m3, ?_⟩
      intro n e h
      simp only at h
      split at h
      · cases h; exact (i2.trans i3).has hy
      · exact hk n e h

theorem copyItems_in {copy : St V B W C → Ref → Except Err (St V B W C × Ref)} (hc : CopyIn up U copy)
    {c : Ref} {l : List (Option Ref)} {s s' : St V B W C} {k : List (Option Ref)}
    (g : Good up U s.heap) (hcc : Has U s.heap c) (hd : ∀ e, some e ∈ l → Has U s.heap e)
    (hm : MemoIn U s) (he : copyItems copy c l s = .ok (s', k)) :
    Inside up U s.heap s'.heap ∧ MemoIn U s' ∧ ∀ e, some e ∈ k → Has U s'.heap e := by
  induction l generalizing s s' k with
  | nil =>
    simp only [copyItems, Except.ok.injEq, Prod.mk.injEq] at he
    obtain ⟨rfl, rfl⟩ := he
    exact ⟨.refl g, hm, by intro _ h; cases h⟩
  | cons a rest ih =>
    cases a with
    | none => cases he
    | some r =>
      unfold copyItems at he
      obtain ⟨⟨s1, y⟩, h1, he⟩ := bind_ok he
      obtain ⟨h2, h3, he⟩ := bind_ok he
      obtain ⟨⟨s3, k3⟩, h4, he⟩ := bind_ok he
      simp only [Except.ok.injEq, Prod.mk.injEq] at he
      obtain ⟨rfl, rfl⟩ := he
      obtain ⟨i1, hy, m1⟩ := hc s r s1 y g (hd _ List.mem_cons_self) hm h1
      have i2 := setParent_inside i1.good hy (i1.has hcc) h3
      have i12 := i1.trans i2
      obtain ⟨i3, m3, hk⟩ := ih (s := { s1 with heap := h2 }) i2.good (i12.has hcc)
        (fun e h => i12.has (hd e (List.mem_cons_of_mem _ h))) (m1.mono i2.frame.next) h4
      refine ⟨i12.trans i3, m3, ?_⟩
      intro e h
      rcases List.mem_cons.1 h with h | h
      · cases h; exact (i2.trans i3).has hy
      · exact hk e h

theorem copyValue_in (M : Memory V B W) : CopyIn (C := C) up U (copyValue M) := by
  intro s r s' y g hr hm he
  unfold copyValue at he
  split at he
  · simp only [Except.ok.injEq, Prod.mk.injEq] at he
    obtain ⟨rfl, rfl⟩ := he
    exact ⟨.refl g, hr, hm⟩
  · split at he
    · next z hz =>
      split at he
      · simp only [Except.ok.injEq, Prod.mk.injEq] at he
        obtain ⟨rfl, rfl⟩ := he
        exact ⟨.refl g, hm _ (lookup_mem hz), hm⟩
      · cases he
    · split at he
      · cases he
      · next v _ =>
        simp only [Except.ok.injEq] at he
        obtain ⟨i, b⟩ := newArray_inside (M := M) g v
        have := congrArg Prod.fst he; have h2 := congrArg Prod.snd he
        simp only at this h2
        subst this; subst h2
        exact ⟨i, b, remember_in (hm.mono i.frame.next) b⟩
  · cases he

theorem deepcopy_in (M : Memory V B W) (fuel : Nat) : CopyIn (C := C) up U (deepcopy M fuel) := by
  induction fuel with
  | zero => intro s r s' y _ _ _ h; cases h
  | succ fuel ih =>
    intro s r s' y g hr hm he
    have key : ∀ e x, s.heap.get r = some x → Refers up x e → Has U s.heap e := fun e x hx he =>
      g.closed r x hr.1 hx e he
    unfold deepcopy at he
    split at he
    · next z hz =>
      simp only [Except.ok.injEq, Prod.mk.injEq] at he
      obtain ⟨rfl, rfl⟩ := he
      exact ⟨.refl g, hm _ (lookup_mem hz), hm⟩
    · split at he
      · exact copyValue_in M s r s' y g hr hm he
      · exact copyValue_in M s r s' y g hr hm he
      · next l p hx =>
        simp only [Except.ok.injEq] at he
        obtain ⟨i, b⟩ := alloc_inside g (o := .leaf l none p) (by
          rintro e (h | ⟨hu, rfl⟩)
          · cases h
          · exact key e _ hx (.inr ⟨hu, rfl⟩))
        have := congrArg Prod.fst he; have h2 := congrArg Prod.snd he
        simp only at this h2
        subst this; subst h2
        exact ⟨i, b, remember_in (hm.mono i.frame.next) b⟩
      · next l a p hx =>
        obtain ⟨⟨s1, b⟩, h1, he⟩ := bind_ok he
        simp only [Except.ok.injEq] at he
        obtain ⟨i1, hb, m1⟩ := copyValue_in M s a s1 b g (key a _ hx (.inl rfl)) hm h1
        obtain ⟨i, hy⟩ := alloc_inside i1.good (o := .leaf l (some b) p) (by
          rintro e (h | ⟨hu, rfl⟩)
          · cases h; exact hb
          · exact i1.has (key e _ hx (.inr ⟨hu, rfl⟩)))
        have := congrArg Prod.fst he; have h2 := congrArg Prod.snd he
        simp only at this h2
        subst this; subst h2
        exact ⟨i1.trans i, hy, remember_in (m1.mono i.frame.next) hy⟩
      · next q m d p t z x hx =>
        split at he
        · cases he
        · obtain ⟨i0, hc0, hn0⟩ := reserve_inside g
          obtain ⟨⟨s1, k⟩, h1, he⟩ := bind_ok he
          simp only [Except.ok.injEq] at he
          obtain ⟨i1, m1, hk⟩ := copyKids_in ih (s := { s with heap := s.heap.reserve.1 }) i0.good hc0
            (fun n e h => i0.has (key e _ hx (.inl ⟨n, h⟩))) (hm.mono i0.frame.next) h1
          have hn1 := i1.frame.hole _ hc0.2 hn0
          have := congrArg Prod.fst he; have h2 := congrArg Prod.snd he
          simp only at this h2
          subst this; subst h2
          have i := fill_inside (i0.trans i1) (Nat.le_refl _) (i1.has hc0) hn1
            (o := .struct q m k p t (if t = true then z else s.heap.isLazy p) none) (by
              rintro e (⟨n, h⟩ | ⟨hu, rfl⟩)
              · exact hk n e h
              · exact (i0.trans i1).has (key e _ hx (.inr ⟨hu, rfl⟩)))
          exact ⟨i, i1.has hc0, remember_in m1 (i1.has hc0)⟩
      · cases he
      · next q m items p z x hx =>
        split at he
        · split at he
          · simp only [Except.ok.injEq] at he
            obtain ⟨i, b⟩ := alloc_inside g (o := .aos q m none p true none) (by
              rintro e (⟨_, h, _⟩ | ⟨hu, rfl⟩)
              · cases h
              · exact key e _ hx (.inr ⟨hu, rfl⟩))
            have := congrArg Prod.fst he; have h2 := congrArg Prod.snd he
            simp only at this h2
            subst this; subst h2
            exact ⟨i, b, remember_in (hm.mono i.frame.next) b⟩
          · cases he
          · obtain ⟨_, _, he⟩ := bind_ok he; cases he
        · obtain ⟨i0, hc0, hn0⟩ := reserve_inside g
          obtain ⟨⟨s1, k⟩, h1, he⟩ := bind_ok he
          simp only [Except.ok.injEq] at he
          obtain ⟨i1, m1, hk⟩ := copyItems_in ih (s := { s with heap := s.heap.reserve.1 }) i0.good hc0
            (fun e h => i0.has (key e _ hx (.inl ⟨_, rfl, h⟩))) (hm.mono i0.frame.next) h1
          have hn1 := i1.frame.hole _ hc0.2 hn0
          have := congrArg Prod.fst he; have h2 := congrArg Prod.snd he
          simp only at this h2
          subst this; subst h2
          have i := fill_inside (i0.trans i1) (Nat.le_refl _) (i1.has hc0) hn1
            (o := .aos q m (some k) p false none) (by
              rintro e (⟨_, hl, h⟩ | ⟨hu, rfl⟩)
              · cases hl; exact hk e h
              · exact (i0.trans i1).has (key e _ hx (.inr ⟨hu, rfl⟩)))
          exact ⟨i, i1.has hc0, remember_in m1 (i1.has hc0)⟩
      · cases he
      · cases he
      · cases he

/-! ### All operations stay inside -/

theorem alloc_old {o : Obj V B W C} {r : Ref} (hr : r < h.next) : (h.alloc o).1.get r = h.get r := by
  simp only [Heap.alloc]; rw [if_neg (Nat.ne_of_lt hr)]

theorem alloc_next {o : Obj V B W C} : (h.alloc o).1.next = h.next + 1 := rfl

theorem newArray_old {v : V} {r : Ref} (hr : r < h.next) : (newArray M h v).1.get r = h.get r := by
  unfold newArray
  exact (alloc_old (Nat.lt_succ_of_lt hr)).trans (alloc_old hr)

theorem newValue_old {l : LeafMeta} {v : V} {r : Ref} (hr : r < h.next) :
    (newValue M h l v).1.get r = h.get r := by
  unfold newValue
  split
  · exact alloc_old hr
  · exact newArray_old hr

/-- The result of an operation is inside `U`. -/
structure OutIn (up : Bool) (U : Ref → Prop) (h : Heap V B W C) (o : Out V B W C) : Prop where
  inside : Inside up U h o.1
  refs : ∀ l, o.2 = .ok l → ∀ r ∈ l, Has U o.1 r

theorem OutIn.error (i : Inside up U h h') (e : Err) : OutIn up U h (h', .error e) :=
  ⟨i, fun _ h => nomatch h⟩

theorem OutIn.none (i : Inside up U h h') : OutIn up U h (h', .ok []) :=
  ⟨i, fun _ h r hr => by cases h; cases hr⟩

theorem OutIn.one (i : Inside up U h h') {r : Ref} (hr : Has U h' r) : OutIn up U h (h', .ok [r]) :=
  ⟨i, fun _ h s hs => by
    simp only [Except.ok.injEq] at h; subst h
    rw [List.mem_singleton] at hs; subst hs; exact hr⟩

theorem OutIn.after {o : Out V B W C} (i : Inside up U h h') (a : OutIn up U h' o) : OutIn up U h o :=
  ⟨i.trans a.inside, a.refs⟩

theorem Good.out (g : Good up U h) {r e : Ref} {x : Obj V B W C} (hr : Has U h r) (hx : h.get r = some x)
    (he : Refers up x e) : Has U h e := g.closed r x hr.1 hx e he

theorem newNode_refs {q : List Name} {z : Bool} {r e : Ref} {m : Meta}
    (h : Refers up (newNode (V := V) (B := B) (W := W) (C := C) q z r m) e) : e = r := by
  cases m with
  | leaf l => rcases h with h | ⟨_, h⟩
              · cases h
              · exact h
  | struct m => rcases h with ⟨_, h⟩ | ⟨_, h⟩
                · cases h
                · exact h
  | aos m =>
    rcases h with ⟨l, h, h2⟩ | ⟨_, h⟩
    · split at h
      · cases h
      · cases h; cases h2
    · exact h

theorem newNode_mutable {q : List Name} {z : Bool} {r : Ref} {m : Meta} :
    ¬ Immutable (newNode (V := V) (B := B) (W := W) (C := C) q z r m) := by
  cases m <;> simp [newNode, Immutable]

theorem loadChild_in (g : Good up U h) {x : C} {name : Name} {c : Ref} (hc : Has U h c) :
    OutIn up U h (loadChild E h x name c) := by
  unfold loadChild
  split
  · next l v p hx =>
    split
    · exact .error (.refl g) _
    · exact .one (.refl g) hc
    · next w _ =>
      obtain ⟨i, ha⟩ := newValue_inside (M := E.mem) g l w
      refine .one (i.trans (set_inside i.good (i.has hc) ((newValue_old hc.2).trans hx)
        (by simp [Immutable]) ?_)) (i.has hc)
      rintro e (h | ⟨hu, rfl⟩)
      · cases h; exact ha
      · exact i.has (g.out hc hx (.inr ⟨hu, rfl⟩))
  · next q m d p t z y hx =>
    split
    · exact .error (.refl g) _
    · refine .one (set_inside g hc hx (by simp [Immutable]) ?_) hc
      exact fun e he => g.out hc hx he
  · next hx =>
    split
    · exact .error (.refl g) _
    · refine .one (set_inside g hc hx (by simp [Immutable]) ?_) hc
      exact fun e he => g.out hc hx he
  · exact .error (.refl g) _

theorem getAttr_in (g : Good up U h) {r : Ref} {name : Name} (hr : Has U h r) :
    OutIn up U h (getAttr E h r name) := by
  unfold getAttr
  split
  · next q m d p t z x hx =>
    split
    · next c hc => exact .one (.refl g) (g.out hr hx (.inl ⟨_, hc⟩))
    · split
      · exact .error (.refl g) _
      · next cm _ =>
        obtain ⟨i, hc⟩ := alloc_inside g (o := newNode (q ++ [name]) z r cm) (by
          intro e he; rw [newNode_refs he]; exact hr)
        have i2 := set_inside i.good (i.has hr) ((alloc_old hr.2).trans hx) (by simp [Immutable])
          (o := .struct q m (fun n => if n = name then some (h.alloc (newNode (q ++ [name]) z r cm)).2
            else d n) p t z x) (by
            rintro e (⟨n, he⟩ | ⟨hu, rfl⟩)
            · simp only at he
              split at he
              · cases he; exact hc
              · exact i.has (g.out hr hx (.inl ⟨n, he⟩))
            · exact i.has (g.out hr hx (.inr ⟨hu, rfl⟩)))
        have i3 := i.trans i2
        simp only
        split
        · exact .after i3 (loadChild_in i3.good (i2.has hc))
        · exact .one i3 (i2.has hc)
  · exact .error (.refl g) _

theorem getItem_in (g : Good up U h) {r : Ref} {k : Nat} (hr : Has U h r) :
    OutIn up U h (getItem E h r k) := by
  unfold getItem
  split
  · next q m items p x hx =>
    split
    · next c hc => exact .one (.refl g) (g.out hr hx (.inl ⟨_, rfl, List.mem_of_getElem? hc⟩))
    · exact .error (.refl g) _
    · exact .error (.refl g) _
  · next q m v p x hx =>
    simp only
    split
    · exact .error (.refl g) _
    · next items hl =>
      have hitems : ∀ e, some e ∈ items → Has U h e := by
        intro e he
        unfold loadItems at hl
        split at hl
        · next l _ => cases hl; exact g.out hr hx (.inl ⟨_, rfl, he⟩)
        · cases hl; cases he
        · next y =>
          cases hs : E.loader.size y with
          | none => rw [hs] at hl; cases hl
          | some n => rw [hs] at hl; cases hl; exact absurd (List.eq_of_mem_replicate he) (by simp)
      have i1 := set_inside g hr hx (by simp [Immutable]) (o := .aos q m (some items) p true x) (by
        rintro e (⟨_, hl, he⟩ | ⟨hu, rfl⟩)
        · cases hl; exact hitems e he
        · exact g.out hr hx (.inr ⟨hu, rfl⟩))
      split
      · next c hc => exact .one i1 (i1.has (hitems _ (List.mem_of_getElem? hc)))
      · next y hc =>
        obtain ⟨i2, h2⟩ := alloc_inside i1.good
          (o := .struct q m (fun _ => none) r false true none) (by
            rintro e (⟨_, he⟩ | ⟨hu, rfl⟩)
            · cases he
            · exact i1.has hr)
        have i12 := i1.trans i2
        have i3 := set_inside i2.good (i12.has hr) ((alloc_old (i1.has hr).2).trans (set_get ..))
          (by simp [Immutable])
          (o := .aos q m (some (items.set k (some
            ((h.set r (.aos q m (some items) p true (some y))).alloc
              (.struct q m (fun _ => none) r false true none)).2))) p true (some y)) (by
            rintro e (⟨_, hl, he⟩ | ⟨hu, rfl⟩)
            · cases hl
              rcases List.mem_or_eq_of_mem_set he with he | he
              · exact i12.has (hitems e he)
              · cases he; exact h2
            · exact i12.has (g.out hr hx (.inr ⟨hu, rfl⟩)))
        have i123 := i12.trans i3
        split
        · exact .error i123 _
        · next y' _ =>
          have hne : ((h.set r (.aos q m (some items) p true (some y))).alloc
              (.struct q m (fun _ => none) r false true none)).2 ≠ r := by
            intro hh
            have := (i1.has hr).2
            rw [← hh] at this
            exact absurd this (Nat.lt_irrefl _)
          have i4 := set_inside i3.good (i3.has h2)
            (x := .struct q m (fun _ => none) r false true none)
            ((set_other hne).trans (alloc_get _ _)) (by simp [Immutable])
            (o := .struct q m (fun _ => none) r false true (some y')) (by
              rintro e (⟨_, he⟩ | ⟨hu, rfl⟩)
              · cases he
              · exact i123.has hr)
          exact .one (i123.trans i4) (i4.has (i3.has h2))
      · exact .error i1 _
      · exact .error i1 _
  · exact .error (.refl g) _

theorem getValue_in (g : Good up U h) {r : Ref} (hr : Has U h r) : OutIn up U h (getValue E h r) := by
  unfold getValue
  split
  · next a p hx => exact .one (.refl g) (g.out hr hx (.inl rfl))
  · next l p hx =>
    obtain ⟨i, ha⟩ := newValue_inside (M := E.mem) g l (E.default l)
    simp only
    split
    · exact .one i ha
    · have i2 := set_inside i.good (i.has hr) ((newValue_old hr.2).trans hx) (by simp [Immutable])
        (o := .leaf l (some (newValue E.mem h l (E.default l)).2) p) (by
          rintro e (he | ⟨hu, rfl⟩)
          · cases he; exact ha
          · exact i.has (g.out hr hx (.inr ⟨hu, rfl⟩)))
      exact .one (i.trans i2) (i2.has ha)
  · exact .error (.refl g) _

theorem storeValue_in (g : Good up U h) {r a : Ref} {cast : Bool} (hr : Has U h r) (ha : Has U h a) :
    OutIn up U h (storeValue E h r a cast) := by
  unfold storeValue
  split
  · next l old p v hx hv =>
    simp only
    generalize (if cast = true then E.cast l v else .same) = c
    cases c with
    | fails => exact .error (.refl g) _
    | same =>
      refine .none (set_inside g hr hx (by simp [Immutable]) ?_)
      rintro e (he | ⟨hu, rfl⟩)
      · split at he
        · cases he
        · cases he; exact ha
      · exact g.out hr hx (.inr ⟨hu, rfl⟩)
    | new w =>
      obtain ⟨i, hb⟩ := newValue_inside (M := E.mem) g l w
      refine .none (i.trans (set_inside i.good (i.has hr) ((newValue_old hr.2).trans hx)
        (by simp [Immutable]) ?_))
      rintro e (he | ⟨hu, rfl⟩)
      · split at he
        · cases he
        · cases he; exact hb
      · exact i.has (g.out hr hx (.inr ⟨hu, rfl⟩))
  · exact .error (.refl g) _

theorem setValue_in (g : Good up U h) {r s : Ref} (hr : Has U h r) (hs : Has U h s) :
    OutIn up U h (setValue E h r s) := by
  unfold setValue
  split
  · split
    · exact .error (.refl g) _
    · split
      · have := getValue_in (E := E) g hs
        split
        · next a heq =>
          rw [heq] at this
          exact .after this.inside (storeValue_in this.inside.good (this.inside.has hr)
            (this.refs _ rfl a List.mem_cons_self))
        · next heq => rw [heq] at this; exact .error this.inside _
      · exact storeValue_in g hr hs
  · exact .error (.refl g) _

theorem storeChild_in (g : Good up U h) {r s : Ref} {name : Name} (hr : Has U h r) (hs : Has U h s) :
    OutIn up U h (storeChild h r name s) := by
  unfold storeChild
  split
  · next q m d p t z x hx =>
    have i := set_inside g hr hx (by simp [Immutable])
      (o := .struct q m (fun n => if n = name then some s else d n) p t z x) (by
        rintro e (⟨n, he⟩ | ⟨hu, rfl⟩)
        · simp only at he
          split at he
          · cases he; exact hs
          · exact g.out hr hx (.inl ⟨n, he⟩)
        · exact g.out hr hx (.inr ⟨hu, rfl⟩))
    split
    · next h2 => exact .none (i.trans (setParent_inside i.good (i.has hs) (i.has hr) h2))
    · exact .error (.refl g) _
  · exact .error (.refl g) _

theorem setAttr_in (g : Good up U h) {r s : Ref} {name : Name} (hr : Has U h r) (hs : Has U h s) :
    OutIn up U h (setAttr E h r name s) := by
  have := getAttr_in (E := E) (name := name) g hr
  unfold setAttr
  split
  · next c heq =>
    rw [heq] at this
    have i := this.inside
    have hc := this.refs _ rfl c List.mem_cons_self
    refine .after i ?_
    split
    · split
      · exact .error (.refl i.good) _
      · exact storeChild_in i.good (i.has hr) (i.has hs)
    · exact .error (.refl i.good) _
    · split
      · exact .error (.refl i.good) _
      · exact storeChild_in i.good (i.has hr) (i.has hs)
    · exact .error (.refl i.good) _
    · exact setValue_in i.good hc (i.has hs)
  · next heq => rw [heq] at this; exact .error this.inside _
  · next heq => rw [heq] at this; exact .error this.inside _

theorem setItem_in (g : Good up U h) {r s : Ref} {k : Nat} (hr : Has U h r) (hs : Has U h s) :
    OutIn up U h (setItem h r k s) := by
  unfold setItem
  split
  · next q m v p z x hx =>
    split
    · exact .error (.refl g) _
    · split
      · exact .error (.refl g) _
      · next items =>
        split
        · refine .none (set_inside g hr hx (by simp [Immutable]) ?_)
          rintro e (⟨_, hl, he⟩ | ⟨hu, rfl⟩)
          · cases hl
            rcases List.mem_or_eq_of_mem_set he with he | he
            · exact g.out hr hx (.inl ⟨_, rfl, he⟩)
            · cases he; exact hs
          · exact g.out hr hx (.inr ⟨hu, rfl⟩)
        · exact .error (.refl g) _
  · exact .error (.refl g) _

theorem append_in (g : Good up U h) {r s : Ref} (hr : Has U h r) (hs : Has U h s) :
    OutIn up U h (append h r s) := by
  unfold append
  split
  · split
    · exact .error (.refl g) _
    · split
      · exact .error (.refl g) _
      · next h2 =>
        have i := setParent_inside g hs hr h2
        split
        · next q m items p z x hx =>
          refine .none (i.trans (set_inside i.good (i.has hr) hx (by simp [Immutable]) ?_))
          rintro e (⟨_, hl, he⟩ | ⟨hu, rfl⟩)
          · cases hl
            rcases List.mem_append.1 he with he | he
            · exact i.good.out (i.has hr) hx (.inl ⟨_, rfl, he⟩)
            · rw [List.mem_singleton] at he; cases he; exact i.has hs
          · exact i.good.out (i.has hr) hx (.inr ⟨hu, rfl⟩)
        · exact .error i _
  · exact .error (.refl g) _

theorem newElems_in (g : Good up U h) {q : List Name} {m : MFields} {z : Bool} {r : Ref} (hr : Has U h r)
    (n : Nat) :
    Inside up U h (newElems q m z r n h).1 ∧ (∀ e, some e ∈ (newElems q m z r n h).2 →
      Has U (newElems q m z r n h).1 e) ∧ ∀ o, o < h.next → (newElems q m z r n h).1.get o = h.get o := by
  induction n generalizing h with
  | zero => exact ⟨.refl g, by simp [newElems], fun _ _ => rfl⟩
  | succ n ih =>
    obtain ⟨i, hc⟩ := alloc_inside g (o := .struct q m (fun _ => none) r false z none) (by
      rintro e (⟨_, he⟩ | ⟨hu, rfl⟩)
      · cases he
      · exact hr)
    obtain ⟨a, b, c⟩ := ih i.good (i.has hr)
    refine ⟨i.trans a, ?_, ?_⟩
    · intro e he
      rcases List.mem_cons.1 he with he | he
      · cases he; exact a.has hc
      · exact b e he
    · intro o ho
      exact (c o (Nat.lt_succ_of_lt ho)).trans (alloc_old ho)

theorem resize_in (g : Good up U h) {r : Ref} {n : Nat} {keep : Bool} (hr : Has U h r) :
    OutIn up U h (resize h r n keep) := by
  unfold resize
  split
  · next q m v p z x hx =>
    split
    · exact .error (.refl g) _
    · split
      · exact .error (.refl g) _
      · next items =>
        simp only
        generalize hi : (if keep = true then items else []) = its
        have hits : ∀ e, some e ∈ its → Has U h e := by
          intro e he
          subst hi
          split at he
          · exact g.out hr hx (.inl ⟨_, rfl, he⟩)
          · cases he
        obtain ⟨a, b, c⟩ := newElems_in (q := q) (m := m) (z := z) g hr (n - its.length)
        refine .none (a.trans (set_inside a.good (a.has hr) ((c r hr.2).trans hx) (by simp [Immutable]) ?_))
        rintro e (⟨_, hl, he⟩ | ⟨hu, rfl⟩)
        · cases hl
          rcases List.mem_append.1 he with he | he
          · exact a.has (hits e (List.mem_of_mem_take he))
          · exact b e he
        · exact a.has (g.out hr hx (.inr ⟨hu, rfl⟩))
  · exact .error (.refl g) _

theorem newElement_in (g : Good up U h) {r : Ref} (hr : Has U h r) : OutIn up U h (newElement h r) := by
  unfold newElement
  split
  · next q m _ _ z _ _ =>
    obtain ⟨i, hc⟩ := alloc_inside g (o := .struct q m (fun _ => none) r false z none) (by
      rintro e (⟨_, he⟩ | ⟨hu, rfl⟩)
      · cases he
      · exact hr)
    exact .one i hc
  · exact .error (.refl g) _

theorem newIds_in (g : Good up U h) (m : MFields) : OutIn up U h (newIds h m) := by
  obtain ⟨i, hc⟩ := alloc_inside g (o := .factory) (by simp [Refers])
  obtain ⟨j, hd⟩ := alloc_inside i.good
    (o := .struct [] m (fun _ => none) (h.alloc .factory).2 true false none) (by
      rintro e (⟨_, he⟩ | ⟨hu, rfl⟩)
      · cases he
      · exact hc)
  exact .one (i.trans j) hd

theorem walk_in (g : Good up U h) {r : Ref} {p : List (Name × Option Nat)} (hr : Has U h r) :
    OutIn up U h (walk E h r p) := by
  induction p generalizing h r with
  | nil => exact .one (.refl g) hr
  | cons a p ih =>
    obtain ⟨n, i⟩ := a
    have h1 := getAttr_in (E := E) (name := n) g hr
    unfold walk
    split
    · next c heq =>
      rw [heq] at h1
      have hc := h1.refs _ rfl c List.mem_cons_self
      refine .after h1.inside ?_
      split
      · exact ih h1.inside.good hc
      · next i =>
        have h2 := getItem_in (E := E) (k := i) h1.inside.good hc
        split
        · next heq =>
          rw [heq] at h2
          exact .after h2.inside (ih h2.inside.good (h2.refs _ rfl _ List.mem_cons_self))
        · next heq => rw [heq] at h2; exact .error h2.inside _
        · next heq => rw [heq] at h2; exact .error h2.inside _
    · next heq => rw [heq] at h1; exact .error h1.inside _
    · next heq => rw [heq] at h1; exact .error h1.inside _

theorem parentOf_refers {o : Obj V B W C} {p : Ref} (h : parentOf o = some p) : Refers true o p := by
  cases o <;> simp_all [parentOf, Refers]

/-- `structure[path] = s` follows references to parents. -/
theorem setPath_in (g : Good true U h) {r s : Ref} {p : List (Name × Option Nat)} (hr : Has U h r)
    (hs : Has U h s) : OutIn true U h (setPath E h r p s) := by
  have h1 := walk_in (E := E) (p := p) g hr
  unfold setPath
  split
  · next c heq =>
    rw [heq] at h1
    have i := h1.inside
    have hc := h1.refs _ rfl c List.mem_cons_self
    refine .after i ?_
    split
    · exact setValue_in i.good hc (i.has hs)
    · next o name _ ho _ =>
      split
      · exact .error (.refl i.good) _
      · next hp =>
        split
        · exact setAttr_in i.good (i.good.out hc ho (parentOf_refers hp)) (i.has hs)
        · exact .error (.refl i.good) _
    · exact .error (.refl i.good) _
  · next heq => rw [heq] at h1; exact .error h1.inside _
  · next heq => rw [heq] at h1; exact .error h1.inside _

theorem write_in (g : Good up U h) {r : Ref} {b : B} {w : W} (hr : Has U h r) :
    OutIn up U h (write h r b w) := by
  unfold write
  split
  · next x _ hx =>
    split
    · next y hy =>
      have hxx : Has U h x := g.out hr hx rfl
      have i := set_inside g hxx hy (by simp [Immutable]) (o := .buf b) (by simp [Refers])
      have hne : r ≠ x := by rintro rfl; rw [hx] at hy; cases hy
      refine .none (i.trans (set_inside i.good (i.has hr)
        (x := .arr x _) (by simp only [Heap.set, if_neg hne]; exact hx) (by simp [Immutable]) ?_))
      intro e he
      simp only [Refers] at he; subst he; exact i.has hxx
    · exact .error (.refl g) _
  · exact .error (.refl g) _

theorem view_in (g : Good up U h) {r : Ref} {w : W} (hr : Has U h r) : OutIn up U h (view h r w) := by
  unfold view
  split
  · next x _ hx =>
    obtain ⟨i, ha⟩ := alloc_inside g (o := .arr x w) (by
      intro e he; simp only [Refers] at he; subst he; exact g.out hr hx rfl)
    exact .one i ha
  · exact .error (.refl g) _

theorem deepcopyOp_in (g : Good up U h) {r : Ref} {stack : Nat} (hr : Has U h r) :
    OutIn up U h (deepcopyOp M h stack r) := by
  unfold deepcopyOp
  split
  · next s y he =>
    obtain ⟨a, b, _⟩ := deepcopy_in M stack ⟨h, []⟩ r s y g hr (by intro p hp; cases hp) he
    exact .one a b
  · exact .error (.refl g) _

theorem exec_in (g : Good up U h) {env : List Ref} (henv : ∀ r ∈ env, Has U h r) (op : Op V B W)
    (hu : op.climbs = true → up = true) : OutIn up U h (exec E h env op) := by
  have w1 : ∀ (r : Nat) (f : Ref → Out V B W C), (∀ r, Has U h r → OutIn up U h (f r)) →
      OutIn up U h (with1 env r h f) := by
    intro r f hf
    unfold with1
    split
    · next hr => exact hf _ (henv _ (List.mem_of_getElem? hr))
    · exact .error (.refl g) _
  have w2 : ∀ (r s : Nat) (f : Ref → Ref → Out V B W C),
      (∀ r s, Has U h r → Has U h s → OutIn up U h (f r s)) → OutIn up U h (with2 env r s h f) := by
    intro r s f hf
    unfold with2
    split
    · next hr hs => exact hf _ _ (henv _ (List.mem_of_getElem? hr)) (henv _ (List.mem_of_getElem? hs))
    · exact .error (.refl g) _
  cases op with
  | getAttr r n => exact w1 _ _ fun r hr => getAttr_in g hr
  | getItem r i => exact w1 _ _ fun r hr => getItem_in g hr
  | getValue r => exact w1 _ _ fun r hr => getValue_in g hr
  | setValue r s => exact w2 _ _ _ fun r s hr hs => setValue_in g hr hs
  | setAttr r n s => exact w2 _ _ _ fun r s hr hs => setAttr_in g hr hs
  | setPath r p s => have := hu rfl; subst this; exact w2 _ _ _ fun r s hr hs => setPath_in g hr hs
  | setItem r i s => exact w2 _ _ _ fun r s hr hs => setItem_in g hr hs
  | append r s => exact w2 _ _ _ fun r s hr hs => append_in g hr hs
  | resize r n k => exact w1 _ _ fun r hr => resize_in g hr
  | newElement r => exact w1 _ _ fun r hr => newElement_in g hr
  | newIds m => exact newIds_in g m
  | const v =>
    obtain ⟨i, ha⟩ := alloc_inside g (o := .const v) (by simp [Refers])
    exact .one i ha
  | array v =>
    obtain ⟨i, ha⟩ := newArray_inside (M := E.mem) g v
    exact .one i ha
  | write r b w => exact w1 _ _ fun r hr => write_in g hr
  | view r w => exact w1 _ _ fun r hr => view_in g hr
  | deepcopy r k => exact w1 _ _ fun r hr => deepcopyOp_in g hr

end Verif.Heap
