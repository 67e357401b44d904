import Verif.Lemmas.HeapLazyOps
namespace Verif.Heap
open Verif.Ids Verif.HeapSpec

variable {V B W C : Type} {E : Env V B W C} {M : Memory V B W} {h0 h h' h'' : Heap V B W C}

/-! ### Copies are not lazy-loaded -/

/-- What the objects made by `deepcopy` are like. -/
def Tame (h : Heap V B W C) : Obj V B W C → Prop
  | .struct _ _ _ p t z _ => z = false ∧ (t = true ∨ (p < h.next ∧ h.isLazy p = false))
  | .aos _ _ i _ z _ => z = true → i = none
  | _ => True

structure Tm (h0 h : Heap V B W C) : Prop where
  next : h0.next ≤ h.next
  old : ∀ o, o < h0.next → h.get o = h0.get o
  above : ∀ o, h.next ≤ o → h.get o = none
  tame : ∀ o y, h0.next ≤ o → h.get o = some y → Tame h y

structure Calm (h h' : Heap V B W C) : Prop where
  next : h.next ≤ h'.next
  same : ∀ o, o < h.next → h'.isLazy o = h.isLazy o

theorem Calm.refl (h : Heap V B W C) : Calm h h := ⟨Nat.le_refl _, fun _ _ => rfl⟩

theorem Calm.trans (a : Calm h h') (b : Calm h' h'') : Calm h h'' :=
  ⟨Nat.le_trans a.next b.next, fun o ho => (b.same o (Nat.lt_of_lt_of_le ho a.next)).trans (a.same o ho)⟩

theorem Tame.mono (c : Calm h h') {x : Obj V B W C} (t : Tame h x) : Tame h' x := by
  cases x with
  | struct q m d p t' z y =>
    obtain ⟨h1, h2⟩ := t
    refine ⟨h1, ?_⟩
    rcases h2 with h2 | ⟨h2, h3⟩
    · exact .inl h2
    · exact .inr ⟨Nat.lt_of_lt_of_le h2 c.next, (c.same p h2).trans h3⟩
  | aos => exact t
  | _ => trivial

theorem Tm.set (t : Tm h0 h) {c : Ref} {o : Obj V B W C} (hc : h0.next ≤ c) (hcn : c < h.next)
    (hz : h.isLazy c = lazyObj o) (ho : Tame h o) : Tm h0 (h.set c o) ∧ Calm h (h.set c o) := by
  have cm : Calm h (h.set c o) := by
    refine ⟨Nat.le_refl _, ?_⟩
    intro s _
    by_cases hs : s = c
    · subst hs; rw [hz, isLazy_eq, set_get]
    · rw [isLazy_eq, isLazy_eq, set_other hs]
  refine ⟨⟨t.next, ?_, ?_, ?_⟩, cm⟩
  · intro s hs; rw [set_other (Nat.ne_of_lt (Nat.lt_of_lt_of_le hs hc))]; exact t.old s hs
  · intro s hs; rw [set_other (Nat.ne_of_gt (Nat.lt_of_lt_of_le hcn hs))]; exact t.above s hs
  · intro s y hs hy
    by_cases hsc : s = c
    · subst hsc; rw [set_get] at hy; cases hy; exact ho.mono cm
    · rw [set_other hsc] at hy; exact (t.tame s y hs hy).mono cm

theorem Tm.reserve (t : Tm h0 h) : Tm h0 h.reserve.1 ∧ Calm h h.reserve.1 := by
  have cm : Calm h h.reserve.1 := ⟨Nat.le_succ _, fun _ _ => rfl⟩
  exact ⟨⟨Nat.le_trans t.next cm.next, t.old, fun o ho => t.above o (Nat.le_trans (Nat.le_succ _) ho),
    fun o y ho hy => (t.tame o y ho hy).mono cm⟩, cm⟩

theorem isLazy_above (ha : ∀ o, h.next ≤ o → h.get o = none) {o : Ref} (ho : h.next ≤ o) : h.isLazy o = false := by
  rw [isLazy_eq, ha o ho]

theorem Tm.alloc (t : Tm h0 h) {o : Obj V B W C} (ho : Tame h o) : Tm h0 (h.alloc o).1 ∧ Calm h (h.alloc o).1 := by
  have cm : Calm h (h.alloc o).1 := ⟨Nat.le_succ _, fun s hs => by rw [isLazy_eq, isLazy_eq, alloc_old hs]⟩
  refine ⟨⟨Nat.le_trans t.next cm.next, ?_, ?_, ?_⟩, cm⟩
  · intro s hs; rw [alloc_old (Nat.lt_of_lt_of_le hs t.next)]; exact t.old s hs
  · intro s hs
    have h1 : s ≠ h.next := Nat.ne_of_gt hs
    simp only [Heap.alloc, if_neg h1]
    exact t.above s (Nat.le_of_succ_le hs)
  · intro s y hs hy
    simp only [Heap.alloc] at hy
    split at hy
    · cases hy; exact ho.mono cm
    · exact (t.tame s y hs hy).mono cm

theorem Tm.setParent (t : Tm h0 h) {y c : Ref} (hy : New h0 y) (hc : c < h.next) (hz : h.isLazy c = false)
    (he : setParent h y c = .ok h') : Tm h0 h' ∧ Calm h h' := by
  have hyn : h0.next ≤ y := by
    rcases hy with hy | ⟨x, hx, hi⟩
    · exact hy
    · refine Nat.le_of_not_lt fun hlt => ?_
      unfold Heap.setParent at he
      rw [t.old y hlt, hx] at he
      cases x <;> first | exact hi.elim | cases he
  have hlt : ∀ x, h.get y = some x → y < h.next := by
    intro x hx
    refine Nat.lt_of_not_le fun hn => ?_
    rw [t.above y hn] at hx; cases hx
  unfold Heap.setParent at he
  split at he
  · next hx => cases he; exact t.set hyn (hlt _ hx) (by rw [isLazy_eq, hx]; rfl) trivial
  · next hx =>
    cases he
    exact t.set hyn (hlt _ hx) (by rw [isLazy_eq, hx]; rfl) ⟨(t.tame y _ hyn hx).1, .inr ⟨hc, hz⟩⟩
  · next hx => cases he; exact t.set hyn (hlt _ hx) (by rw [isLazy_eq, hx]; rfl) (fun hz' => t.tame y _ hyn hx hz')
  · cases he

def CopyTame (h0 : Heap V B W C) (copy : St V B W C → Ref → Except Err (St V B W C × Ref)) : Prop :=
  ∀ s r s' y, r < h0.next → Tm h0 s.heap → MemoNew h0 s → copy s r = .ok (s', y) →
    Tm h0 s'.heap ∧ Calm s.heap s'.heap ∧ New h0 y ∧ MemoNew h0 s'

theorem copyKids_tame {copy : St V B W C → Ref → Except Err (St V B W C × Ref)} (hc : CopyTame h0 copy)
    {c : Ref} {d : Name → Option Ref} {m : MFields} {s s' : St V B W C} {k : Name → Option Ref}
    (hd : ∀ n e, d n = some e → e < h0.next)
    (t : Tm h0 s.heap) (hcn : c < s.heap.next) (hcz : s.heap.isLazy c = false) (hm : MemoNew h0 s)
    (he : copyKids copy c d m s = .ok (s', k)) :
    Tm h0 s'.heap ∧ Calm s.heap s'.heap ∧ MemoNew h0 s' := by
  induction m using MFields.rec (motive_1 := fun _ => True) generalizing s s' k with
  | leaf => trivial
  | struct => trivial
  | aos => trivial
  | nil =>
    simp only [copyKids, Except.ok.injEq, Prod.mk.injEq] at he
    obtain ⟨rfl, rfl⟩ := he
    exact ⟨t, .refl _, hm⟩
  | cons name mm rest _ ih =>
    unfold copyKids at he
    split at he
    · exact ih t hcn hcz hm he
    · next r hr =>
      obtain ⟨⟨s1, y⟩, h1, he⟩ := bind_ok he
      obtain ⟨h2, h3, he⟩ := bind_ok he
      obtain ⟨⟨s3, k3⟩, h4, he⟩ := bind_ok he
      simp only [Except.ok.injEq, Prod.mk.injEq] at he
      obtain ⟨rfl, rfl⟩ := he
      obtain ⟨t1, c1, hy, m1⟩ := hc s r s1 y (hd name r hr) t hm h1
      have hcn1 := Nat.lt_of_lt_of_le hcn c1.next
      have hcz1 := (c1.same c hcn).trans hcz
      obtain ⟨t2, c2⟩ := t1.setParent hy hcn1 hcz1 h3
      obtain ⟨t3, c3, m3⟩ := ih (s := { s1 with heap := h2 }) t2 (Nat.lt_of_lt_of_le hcn1 c2.next)
        ((c2.same c hcn1).trans hcz1) m1 h4
      exact ⟨t3, (c1.trans c2).trans c3, m3⟩

theorem copyItems_tame {copy : St V B W C → Ref → Except Err (St V B W C × Ref)} (hc : CopyTame h0 copy)
    {c : Ref} {l : List (Option Ref)} {s s' : St V B W C} {k : List (Option Ref)}
    (hd : ∀ e, some e ∈ l → e < h0.next)
    (t : Tm h0 s.heap) (hcn : c < s.heap.next) (hcz : s.heap.isLazy c = false) (hm : MemoNew h0 s)
    (he : copyItems copy c l s = .ok (s', k)) :
    Tm h0 s'.heap ∧ Calm s.heap s'.heap ∧ MemoNew h0 s' := by
  induction l generalizing s s' k with
  | nil =>
    simp only [copyItems, Except.ok.injEq, Prod.mk.injEq] at he
    obtain ⟨rfl, rfl⟩ := he
    exact ⟨t, .refl _, hm⟩
  | cons a rest ih =>
    cases a with
    | none => cases he
    | some r =>
      unfold copyItems at he
      obtain ⟨⟨s1, y⟩, h1, he⟩ := bind_ok he
      obtain ⟨h2, h3, he⟩ := bind_ok he
      obtain ⟨⟨s3, k3⟩, h4, he⟩ := bind_ok he
      simp only [Except.ok.injEq, Prod.mk.injEq] at he
      obtain ⟨rfl, rfl⟩ := he
      obtain ⟨t1, c1, hy, m1⟩ := hc s r s1 y (hd r (List.mem_cons_self ..)) t hm h1
      have hcn1 := Nat.lt_of_lt_of_le hcn c1.next
      have hcz1 := (c1.same c hcn).trans hcz
      obtain ⟨t2, c2⟩ := t1.setParent hy hcn1 hcz1 h3
      obtain ⟨t3, c3, m3⟩ := ih (s := { s1 with heap := h2 }) (fun e he => hd e (List.mem_cons_of_mem _ he)) t2
        (Nat.lt_of_lt_of_le hcn1 c2.next) ((c2.same c hcn1).trans hcz1) m1 h4
      exact ⟨t3, (c1.trans c2).trans c3, m3⟩

theorem copyValue_tame {s s' : St V B W C} {r y : Ref} (t : Tm h0 s.heap) (hm : MemoNew h0 s)
    (he : copyValue M s r = .ok (s', y)) :
    Tm h0 s'.heap ∧ Calm s.heap s'.heap ∧ New h0 y ∧ MemoNew h0 s' := by
  unfold copyValue at he
  split at he
  · next hx =>
    simp only [Except.ok.injEq, Prod.mk.injEq] at he
    obtain ⟨rfl, rfl⟩ := he
    refine ⟨t, .refl _, ?_, hm⟩
    by_cases hr : h0.next ≤ r
    · exact .inl hr
    · exact .inr ⟨_, (t.old r (Nat.lt_of_not_le hr)).symm.trans hx, trivial⟩
  · split at he
    · next z hz =>
      split at he
      · simp only [Except.ok.injEq, Prod.mk.injEq] at he
        obtain ⟨rfl, rfl⟩ := he
        exact ⟨t, .refl _, hm _ (lookup_mem hz), hm⟩
      · cases he
    · split at he
      · cases he
      · next v _ =>
        simp only [Except.ok.injEq] at he
        have := congrArg Prod.fst he; have h2 := congrArg Prod.snd he
        simp only at this h2
        subst this; subst h2
        obtain ⟨t1, c1⟩ := t.alloc (o := .buf (M.copyOf v).1) trivial
        obtain ⟨t2, c2⟩ := t1.alloc (o := .arr (s.heap.alloc (.buf (M.copyOf v).1)).2 (M.copyOf v).2) trivial
        exact ⟨t2, c1.trans c2, .inl t1.next, remember_new (s := { s with heap := _ }) hm (.inl t1.next)⟩
  · cases he

theorem deepcopy_tame (M : Memory V B W) (inv : Inv E h0) (fuel : Nat) :
    CopyTame (C := C) h0 (deepcopy M fuel) := by
  induction fuel with
  | zero => intro s r s' y _ _ _ h; cases h
  | succ fuel ih =>
    intro s r s' y hr t hm he
    unfold deepcopy at he
    split at he
    · next z hz =>
      simp only [Except.ok.injEq, Prod.mk.injEq] at he
      obtain ⟨rfl, rfl⟩ := he
      exact ⟨t, .refl _, hm _ (lookup_mem hz), hm⟩
    · split at he
      · exact copyValue_tame t hm he
      · exact copyValue_tame t hm he
      · next l p hx =>
        simp only [Except.ok.injEq] at he
        obtain ⟨t1, c1⟩ := t.alloc (o := .leaf l none p) trivial
        have := congrArg Prod.fst he; have h2 := congrArg Prod.snd he
        simp only at this h2
        subst this; subst h2
        exact ⟨t1, c1, .inl t.next, remember_new (s := { s with heap := _ }) hm (.inl t.next)⟩
      · next l a p hx =>
        obtain ⟨⟨s1, b⟩, h1, he⟩ := bind_ok he
        simp only [Except.ok.injEq] at he
        obtain ⟨t1, c1, hb, m1⟩ := copyValue_tame t hm h1
        obtain ⟨t2, c2⟩ := t1.alloc (o := .leaf l (some b) p) trivial
        have := congrArg Prod.fst he; have h2 := congrArg Prod.snd he
        simp only at this h2
        subst this; subst h2
        exact ⟨t2, c1.trans c2, .inl t1.next, remember_new (s := { s1 with heap := _ }) m1 (.inl t1.next)⟩
      · next q m d p tt z x hx =>
        split at he
        · cases he
        · next hz =>
          have : z = false := by simpa using hz
          subst this
          have hx0 := (t.old r hr).symm.trans hx
          obtain ⟨⟨s1, k⟩, h1, he⟩ := bind_ok he
          simp only [Except.ok.injEq] at he
          obtain ⟨t0, c0⟩ := t.reserve
          have hcz : s.heap.reserve.1.isLazy s.heap.next = false := isLazy_above t.above (Nat.le_refl _)
          obtain ⟨t1, c1, m1⟩ := copyKids_tame ih (s := { s with heap := s.heap.reserve.1 })
            (fun n e he => inv.sound.refs r _ hx0 e (.inl ⟨n, he⟩)) t0 (Nat.lt_succ_self _) hcz hm h1
          have := congrArg Prod.fst he; have h2 := congrArg Prod.snd he
          simp only at this h2
          subst this; subst h2
          have hp := parent_lt inv.sound hx0 rfl
          have hps : s.heap.isLazy p = h0.isLazy p := by rw [isLazy_eq, isLazy_eq, t.old p hp]
          have hcn : s.heap.next < s1.heap.next := Nat.lt_of_lt_of_le (Nat.lt_succ_self _) c1.next
          have hl : tt = true ∨ s.heap.isLazy p = false := by
            rw [hps]; exact inv.ok r _ hx0
          have hz' : (if tt = true then false else s.heap.isLazy p) = false := by
            rcases hl with hl | hl
            · rw [if_pos hl]
            · split
              · rfl
              · exact hl
          obtain ⟨t2, c2⟩ := t1.set (c := s.heap.next)
            (o := .struct q m k p tt (if tt = true then false else s.heap.isLazy p) none) t.next hcn
            (by rw [c1.same s.heap.next (Nat.lt_succ_self _), hcz]; exact hz'.symm) ⟨hz', by
              rcases hl with hl | hl
              · exact .inl hl
              · refine .inr ⟨Nat.lt_of_lt_of_le hp (Nat.le_trans t0.next c1.next), ?_⟩
                have hpn := Nat.lt_of_lt_of_le hp t.next
                exact ((c0.trans c1).same p hpn).trans hl⟩
          exact ⟨t2, (c0.trans c1).trans c2, .inl t.next, remember_new (s := { s1 with heap := _ }) m1 (.inl t.next)⟩
      · cases he
      · next q m items p z x hx =>
        have hx0 := (t.old r hr).symm.trans hx
        split at he
        · split at he
          · simp only [Except.ok.injEq] at he
            obtain ⟨t1, c1⟩ := t.alloc (o := .aos q m none p true none) (fun _ => rfl)
            have := congrArg Prod.fst he; have h2 := congrArg Prod.snd he
            simp only at this h2
            subst this; subst h2
            exact ⟨t1, c1, .inl t.next, remember_new (s := { s with heap := _ }) hm (.inl t.next)⟩
          · cases he
          · obtain ⟨_, _, he⟩ := bind_ok he; cases he
        · obtain ⟨⟨s1, k⟩, h1, he⟩ := bind_ok he
          simp only [Except.ok.injEq] at he
          obtain ⟨t0, c0⟩ := t.reserve
          have hcz : s.heap.reserve.1.isLazy s.heap.next = false := isLazy_above t.above (Nat.le_refl _)
          obtain ⟨t1, c1, m1⟩ := copyItems_tame ih (s := { s with heap := s.heap.reserve.1 })
            (fun e he => inv.sound.refs r _ hx0 e (.inl ⟨_, rfl, he⟩)) t0 (Nat.lt_succ_self _) hcz hm h1
          have := congrArg Prod.fst he; have h2 := congrArg Prod.snd he
          simp only at this h2
          subst this; subst h2
          have hcn : s.heap.next < s1.heap.next := Nat.lt_of_lt_of_le (Nat.lt_succ_self _) c1.next
          obtain ⟨t2, c2⟩ := t1.set (c := s.heap.next)
            (o := .aos q m (some k) p false none) t.next hcn
            (by rw [c1.same s.heap.next (Nat.lt_succ_self _), hcz]; rfl) (fun h => nomatch h)
          exact ⟨t2, (c0.trans c1).trans c2, .inl t.next, remember_new (s := { s1 with heap := _ }) m1 (.inl t.next)⟩
      · cases he
      · cases he
      · cases he

theorem deepcopyOp_keep (inv : Inv E h) {r : Ref} (hr : r < h.next) (stack : Nat) :
    Keep E h (deepcopyOp E.mem h stack r) := by
  have snd := sound_of (deepcopyOp_in (M := E.mem) (stack := stack) (all_good inv.sound) (has_of r hr))
  unfold deepcopyOp at snd ⊢
  split
  · next s y he =>
    rw [he] at snd
    obtain ⟨t, c, _, _⟩ := deepcopy_tame E.mem inv stack ⟨h, []⟩ r s y hr
      ⟨Nat.le_refl _, fun _ _ => rfl, inv.sound.above, fun o y ho hy => by
        rw [inv.sound.above o ho] at hy; cases hy⟩ (fun p hp => by cases hp) he
    refine grow inv snd t.next t.old ?_
    intro st o y ho hy
    have := t.tame o y ho hy
    cases y with
    | struct q m d p tt z x =>
      obtain ⟨rfl, h2⟩ := this
      rcases h2 with h2 | ⟨_, h2⟩
      · exact .inl h2
      · exact .inr h2
    | aos q m i p z x =>
      cases z with
      | false => cases i <;> trivial
      | true => rw [this rfl]; trivial
    | _ => trivial
  · exact keep_error inv _

/-! ### Programs -/

theorem exec_keep (inv : Inv E h) {env : List Ref} (henv : ∀ r ∈ env, r < h.next) (op : Op V B W)
    (hc : Checked E h env op) : Keep E h (exec E h env op) := by
  have lt : ∀ (i : Nat) r, env[i]? = some r → r < h.next := fun i r hi => henv r (List.mem_of_getElem? hi)
  have w1 : ∀ (i : Nat) (f : Ref → Out V B W C), (∀ r, env[i]? = some r → Keep E h (f r)) → Keep E h (with1 env i h f) := by
    intro i f hf
    unfold with1
    split
    · next r hr => exact hf r hr
    · exact keep_error inv _
  have w2 : ∀ (i j : Nat) (f : Ref → Ref → Out V B W C),
      (∀ r s, env[i]? = some r → env[j]? = some s → Keep E h (f r s)) → Keep E h (with2 env i j h f) := by
    intro i j f hf
    unfold with2
    split
    · next r s hr hs => exact hf r s hr hs
    · exact keep_error inv _
  cases op with
  | getAttr r n => exact w1 _ _ fun a ha => (getAttr_keep inv (lt _ _ ha) n).1
  | getItem r i => exact w1 _ _ fun a ha => (getItem_keep inv (lt _ _ ha) i).1
  | getValue r => exact w1 _ _ fun a _ => getValue_keep inv a
  | setValue r s => exact w2 _ _ _ fun a b _ _ => setValue_keep inv a b
  | setAttr r n s =>
    exact w2 _ _ _ fun a b ha hb => setAttr_keep inv (lt _ _ ha) (lt _ _ hb) fun q m d p t x hx =>
      hc a q m d p t x ha hx
  | setPath r p s =>
    exact w2 _ _ _ fun a b ha hb => setPath_keep inv (lt _ _ ha) (lt _ _ hb) p fun h' c o hw hx => hc a h' c o ha hw hx
  | setItem r i s => exact w2 _ _ _ fun a b _ hb => setItem_keep inv (lt _ _ hb)
  | append r s => exact w2 _ _ _ fun a b _ hb => append_keep inv (lt _ _ hb) fun l v p hx => hc b l v p hb hx
  | resize r n k => exact w1 _ _ fun a _ => resize_keep inv n k
  | newElement r => exact w1 _ _ fun a _ => newElement_keep inv
  | newIds m => exact newIds_keep inv m
  | const v => exact alloc_keep inv (by simp [Refers]) (fun _ => trivial)
  | array v => exact newArray_keep inv v
  | write r b w => exact w1 _ _ fun a ha => write_keep inv b w fun x w hx => hc a x w ha hx
  | view r w => exact w1 _ _ fun a _ => view_keep inv w
  | deepcopy r n => exact w1 _ _ fun a ha => deepcopyOp_keep inv (lt _ _ ha) n

theorem step_keep (inv : Inv E h) {env : List Ref} (henv : ∀ r ∈ env, r < h.next) (op : Op V B W)
    (hc : Checked E h env op) : Stable E h (step E h env op).1 ∧ Inv E (step E h env op).1 ∧
      ∀ r ∈ (step E h env op).2, r < (step E h env op).1.next := by
  obtain ⟨st, inv1⟩ := exec_keep inv henv op hc
  have o := exec_in (E := E) (all_good inv.sound) (env := env) (fun r hr => has_of r (henv r hr)) op (fun _ => rfl)
  unfold step
  split
  · next h1 new he =>
    rw [he] at st inv1 o
    refine ⟨st, inv1, ?_⟩
    intro r hr
    rcases List.mem_append.1 hr with hr | hr
    · exact Nat.lt_of_lt_of_le (henv r hr) st.next
    · exact (o.refs _ rfl r hr).2
  · next h1 e he =>
    rw [he] at st inv1
    exact ⟨st, inv1, fun r hr => Nat.lt_of_lt_of_le (henv r hr) st.next⟩

theorem act_keep (inv : Inv E h) {env : List Ref} (henv : ∀ r ∈ env, r < h.next) (a : Act V B W C)
    (hc : ∀ op, a = .op op → Checked E h env op) : Stable E h (lazyStep E h env a).1 ∧ Inv E (lazyStep E h env a).1 ∧
      ∀ r ∈ (lazyStep E h env a).2, r < (lazyStep E h env a).1.next := by
  cases a with
  | op op => exact step_keep inv henv op (hc op rfl)
  | getLazy m x =>
    obtain ⟨st, inv1⟩ := newLazyIds_keep inv m x
    refine ⟨st, inv1, ?_⟩
    intro r hr
    rcases List.mem_append.1 hr with hr | hr
    · exact Nat.lt_of_lt_of_le (henv r hr) st.next
    · rw [List.mem_singleton] at hr; subst hr
      exact Nat.lt_succ_self _

theorem exec1_keep (inv : Inv E h) {env : List Ref} (henv : ∀ r ∈ env, r < h.next) (acts : List (Act V B W C))
    (hc : AllChecked E h env acts) : Stable E h (exec1 E h env acts).1 ∧ Inv E (exec1 E h env acts).1 ∧
      ∀ r ∈ (exec1 E h env acts).2, r < (exec1 E h env acts).1.next := by
  induction acts generalizing h env with
  | nil => exact ⟨.refl inv, inv, henv⟩
  | cons a rest ih =>
    obtain ⟨st, inv1, henv1⟩ := act_keep inv henv a hc.1
    obtain ⟨st2, inv2, henv2⟩ := ih inv1 henv1 hc.2
    exact ⟨st.trans st2, inv2, henv2⟩

theorem empty_inv : Inv E (Heap.empty : Heap V B W C) :=
  ⟨⟨fun _ _ => rfl, fun _ _ hx => nomatch hx⟩, fun _ _ hx => nomatch hx⟩

theorem possible_inv {env : List Ref} (p : Possible E h env) : Inv E h ∧ ∀ r ∈ env, r < h.next := by
  obtain ⟨acts, hc, he⟩ := p
  have := (exec1_keep (E := E) empty_inv (fun r hr => by cases hr) acts hc).2
  rw [he] at this
  exact this

end Verif.Heap
