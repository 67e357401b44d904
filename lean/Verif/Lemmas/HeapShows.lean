import Verif.Lemmas.HeapCopy
namespace Verif.Heap
open Verif.Ids Verif.HeapSpec

variable {V B W C : Type} {M : Memory V B W} {h0 h h' h'' : Heap V B W C}

/-! ### A copy shows the same tree -/

/-- An object without its parent. -/
def orphan : Obj V B W C → Obj V B W C
  | .leaf l v _ => .leaf l v 0
  | .struct q m d _ t z x => .struct q m d 0 t z x
  | .aos q m i _ z x => .aos q m i 0 z x
  | o => o

/-- Objects have not changed, except for parents. -/
def Kept (h h' : Heap V B W C) : Prop :=
  ∀ o x, h.get o = some x → ∃ y, h'.get o = some y ∧ orphan y = orphan x

/-- Also, nothing was stored in objects that are reserved. -/
structure Same (h h' : Heap V B W C) : Prop where
  next : h.next ≤ h'.next
  kept : Kept h h'
  hole : ∀ o, o < h.next → h.get o = none → h'.get o = none
  above : (∀ o, h.next ≤ o → h.get o = none) → ∀ o, h'.next ≤ o → h'.get o = none

theorem Same.refl (h : Heap V B W C) : Same h h :=
  ⟨Nat.le_refl _, fun _ x hx => ⟨x, hx, rfl⟩, fun _ _ hx => hx, id⟩

theorem Same.trans (a : Same h h') (b : Same h' h'') : Same h h'' :=
  ⟨Nat.le_trans a.next b.next, fun o x hx => by
    obtain ⟨y, hy, h1⟩ := a.kept o x hx
    obtain ⟨z, hz, h2⟩ := b.kept o y hy
    exact ⟨z, hz, h2.trans h1⟩,
    fun o ho hn => b.hole o (Nat.lt_of_lt_of_le ho a.next) (a.hole o ho hn), fun hh => b.above (a.above hh)⟩

theorem orphan_leaf {y : Obj V B W C} {l v p} (h : orphan y = orphan (.leaf l v p)) :
    ∃ p', y = .leaf l v p' := by
  cases y <;> simp_all [orphan]

theorem orphan_struct {y : Obj V B W C} {q m d p t z x} (h : orphan y = orphan (.struct q m d p t z x)) :
    ∃ p', y = .struct q m d p' t z x := by
  cases y <;> simp_all [orphan]

theorem orphan_aos {y : Obj V B W C} {q m i p z x} (h : orphan y = orphan (.aos q m i p z x)) :
    ∃ p', y = .aos q m i p' z x := by
  cases y <;> simp_all [orphan]

theorem orphan_const {y : Obj V B W C} {v} (h : orphan y = orphan (.const v)) : y = .const v := by
  cases y <;> simp_all [orphan]

theorem orphan_arr {y : Obj V B W C} {b w} (h : orphan y = orphan (.arr b w)) : y = .arr b w := by
  cases y <;> simp_all [orphan]

theorem orphan_buf {y : Obj V B W C} {b} (h : orphan y = orphan (.buf b)) : y = .buf b := by
  cases y <;> simp_all [orphan]

theorem val_cases {r : Ref} {v : V} (h1 : h.val M r = some v) :
    h.get r = some (.const v) ∨
    ∃ b w x, h.get r = some (.arr b w) ∧ h.get b = some (.buf x) ∧ M.look x w = v := by
  unfold Heap.val at h1
  split at h1
  · cases h1; next hx => exact .inl hx
  · next b w hx =>
    split at h1
    · next x hb => cases h1; exact .inr ⟨b, w, x, hx, hb, rfl⟩
    · cases h1
  · cases h1

theorem val_mono (s : Kept h h') {r : Ref} {v : V} (h1 : h.val M r = some v) : h'.val M r = some v := by
  rcases val_cases h1 with hx | ⟨b, w, x, hx, hb, rfl⟩
  · obtain ⟨y, hy, e⟩ := s r _ hx
    rw [orphan_const e] at hy
    simp [Heap.val, hy]
  · obtain ⟨y, hy, e⟩ := s r _ hx
    rw [orphan_arr e] at hy
    obtain ⟨z, hz, e⟩ := s b _ hb
    rw [orphan_buf e] at hz
    simp [Heap.val, hy, hz]

mutual
theorem shows_mono (s : Kept h h') {r : Ref} {n : Node V} : Shows M h r n → Shows M h' r n
  | .unset hx => by
    obtain ⟨y, hy, e⟩ := s r _ hx
    obtain ⟨p', rfl⟩ := orphan_leaf e
    exact .unset hy
  | .leaf hx hv => by
    obtain ⟨y, hy, e⟩ := s r _ hx
    obtain ⟨p', rfl⟩ := orphan_leaf e
    exact .leaf hy (val_mono s hv)
  | .struct hx hc => by
    obtain ⟨y, hy, e⟩ := s r _ hx
    obtain ⟨p', rfl⟩ := orphan_struct e
    exact .struct hy (showsFields_mono s hc)
  | .aos hx hc => by
    obtain ⟨y, hy, e⟩ := s r _ hx
    obtain ⟨p', rfl⟩ := orphan_aos e
    exact .aos hy (showsElems_mono s hc)
theorem showsFields_mono (s : Kept h h') {d : Name → Option Ref} {m : MFields} {c : Fields V} :
    ShowsFields M h d m c → ShowsFields M h' d m c
  | .nil => .nil
  | .absent hd hc => .absent hd (showsFields_mono s hc)
  | .present hd hx hc => .present hd (shows_mono s hx) (showsFields_mono s hc)
theorem showsElems_mono (s : Kept h h') {l : List (Option Ref)} {e : Elems V} :
    ShowsElems M h l e → ShowsElems M h' l e
  | .nil => .nil
  | .cons hx hc => .cons (shows_mono s hx) (showsElems_mono s hc)
end

theorem set_same {r : Ref} {o x : Obj V B W C} (hr : r < h.next) (hx : h.get r = some x)
    (ho : orphan o = orphan x) : Same h (h.set r o) := by
  refine ⟨Nat.le_refl _, ?_, ?_, ?_⟩
  · intro s y hy
    by_cases hs : s = r
    · subst hs; rw [hx] at hy; cases hy; exact ⟨o, set_get .., ho⟩
    · exact ⟨y, (set_other hs).trans hy, rfl⟩
  · intro s _ hn
    have : s ≠ r := by rintro rfl; rw [hx] at hn; cases hn
    rw [set_other this]; exact hn
  · intro ha s hs
    have : s ≠ r := by rintro rfl; exact absurd hr (Nat.not_lt.2 hs)
    rw [set_other this]; exact ha s hs

theorem reserve_same (h : Heap V B W C) : Same h h.reserve.1 :=
  ⟨Nat.le_succ _, fun _ x hx => ⟨x, hx, rfl⟩, fun _ _ hx => hx,
    fun ha o ho => ha o (Nat.le_trans (Nat.le_succ _) ho)⟩

theorem fill_same (s : Same h h') {c : Ref} {o : Obj V B W C} (hc : h.next ≤ c) (hcc : c < h'.next)
    (hn : h'.get c = none) : Same h (h'.set c o) := by
  refine ⟨s.next, ?_, ?_, ?_⟩
  · intro t y hy
    obtain ⟨z, hz, e⟩ := s.kept t y hy
    have : t ≠ c := by rintro rfl; rw [hn] at hz; cases hz
    exact ⟨z, (set_other this).trans hz, e⟩
  · intro t ht hn
    have : t ≠ c := Nat.ne_of_lt (Nat.lt_of_lt_of_le ht hc)
    rw [set_other this]; exact s.hole t ht hn
  · intro ha t ht
    have : t ≠ c := Nat.ne_of_gt (Nat.lt_of_lt_of_le hcc ht)
    rw [set_other this]; exact s.above ha t ht

/-- Filling an object changes nothing that exists. -/
theorem fill_kept {c : Ref} {o : Obj V B W C} (hn : h.get c = none) : Kept h (h.set c o) := by
  intro t y hy
  have : t ≠ c := by rintro rfl; rw [hn] at hy; cases hy
  exact ⟨y, (set_other this).trans hy, rfl⟩

theorem alloc_same (ha : ∀ o, h.next ≤ o → h.get o = none) (o : Obj V B W C) : Same h (h.alloc o).1 :=
  fill_same (reserve_same h) (Nat.le_refl _) (Nat.lt_succ_self _) (ha _ (Nat.le_refl _))

theorem setParent_same {r p : Ref} (hr : r < h.next) (h1 : setParent h r p = .ok h') : Same h h' := by
  unfold setParent at h1
  split at h1
  · next hx => cases h1; exact set_same hr hx rfl
  · next hx => cases h1; exact set_same hr hx rfl
  · next hx => cases h1; exact set_same hr hx rfl
  · cases h1

theorem newArray_same (ha : ∀ o, h.next ≤ o → h.get o = none) (v : V) :
    Same h (newArray M h v).1 ∧ (newArray M h v).1.val M (newArray M h v).2 = some v := by
  unfold newArray
  have a := alloc_same ha (.buf (M.copyOf v).1)
  have b := alloc_same (a.above ha) (.arr (h.alloc (.buf (M.copyOf v).1)).2 (M.copyOf v).2)
  refine ⟨a.trans b, ?_⟩
  have h1 := alloc_get (h.alloc (.buf (M.copyOf v).1)).1
    (.arr (h.alloc (.buf (M.copyOf v).1)).2 (M.copyOf v).2)
  have h2 := alloc_get h (.buf (M.copyOf v).1)
  obtain ⟨y, h3, e⟩ := b.kept _ _ h2
  rw [orphan_buf e] at h3
  simp only [Heap.val, h1, h3, M.look_copyOf]

/-- A copy `b` of `a` shows and holds what `a` did. -/
structure Copies (M : Memory V B W) (h0 h : Heap V B W C) (a b : Ref) : Prop where
  lt : b < h.next
  shows : ∀ n, Shows M h0 a n → Shows M h b n
  val : ∀ v, h0.val M a = some v → h.val M b = some v
  arr : ∀ i w, h0.get a = some (.arr i w) → ∃ i' w', h.get b = some (.arr i' w')

theorem Copies.mono {a b : Ref} (c : Copies M h0 h a b) (hn : h.next ≤ h'.next) (s : Kept h h') :
    Copies M h0 h' a b :=
  ⟨Nat.lt_of_lt_of_le c.lt hn, fun n hs => shows_mono s (c.shows n hs), fun v hv => val_mono s (c.val v hv),
    fun i w hi => by
      obtain ⟨i', w', h1⟩ := c.arr i w hi
      obtain ⟨y, hy, e⟩ := s _ _ h1
      exact ⟨i', w', by rw [hy, orphan_arr e]⟩⟩

/-- Nothing that is new since `h0` is lazy. -/
def NewPlain (h0 h : Heap V B W C) : Prop := ∀ o, h0.next ≤ o → h.isLazy o = false

/-- State of `deepcopy` since the heap `h0`. -/
structure CopyState (M : Memory V B W) (h0 : Heap V B W C) (s : St V B W C) : Prop where
  above : ∀ o, s.heap.next ≤ o → s.heap.get o = none
  fresh : Fresh true h0 (fun _ => True) s.heap
  new : MemoNew h0 s
  memo : ∀ p ∈ s.memo, Copies M h0 s.heap p.1 p.2
  plain : NewPlain h0 s.heap

theorem CopyState.step {s : St V B W C} (c : CopyState M h0 s) (a : Same s.heap h')
    (f : Fresh true h0 (fun _ => True) h') (p : NewPlain h0 h') :
    CopyState M h0 { s with heap := h' } :=
  ⟨a.above c.above, f, c.new, fun p hp => (c.memo p hp).mono a.next a.kept, p⟩

theorem CopyState.remember {s : St V B W C} {r y : Ref} (c : CopyState M h0 s) (hn : New h0 y)
    (hy : Copies M h0 s.heap r y) : CopyState M h0 (remember r (s, y)).1 := by
  refine ⟨c.above, c.fresh, remember_new c.new hn, ?_, c.plain⟩
  intro p hp
  simp only [Heap.remember, List.mem_cons] at hp
  rcases hp with rfl | hp
  · exact hy
  · exact c.memo p hp

/-- `_lazy` of a structure or array of structures. -/
def lazyObj : Obj V B W C → Bool
  | .struct _ _ _ _ _ z _ => z
  | .aos _ _ _ _ z _ => z
  | _ => false

theorem isLazy_eq (h : Heap V B W C) (r : Ref) :
    h.isLazy r = match h.get r with | some x => lazyObj x | none => false := by
  unfold Heap.isLazy
  cases h.get r with
  | none => rfl
  | some x => cases x <;> rfl

theorem isLazy_set (h : Heap V B W C) (r o : Ref) (x : Obj V B W C) :
    (h.set r x).isLazy o = if o = r then lazyObj x else h.isLazy o := by
  by_cases ho : o = r
  · subst ho; rw [isLazy_eq, set_get, if_pos rfl]
  · rw [isLazy_eq, set_other ho, if_neg ho, isLazy_eq]

theorem NewPlain.setParent {y c : Ref} (p : NewPlain h0 h) (h1 : setParent h y c = .ok h') :
    NewPlain h0 h' := by
  have key : ∀ x x', h.get y = some x → h' = h.set y x' → lazyObj x' = lazyObj x → NewPlain h0 h' := by
    rintro x x' hx rfl hz o ho
    rw [isLazy_set]
    split
    · next e =>
      subst e
      have := p o ho
      rw [isLazy_eq, hx] at this
      rw [hz]; exact this
    · exact p o ho
  unfold Verif.Heap.setParent at h1
  split at h1
  · next hx => cases h1; exact key _ _ hx rfl rfl
  · next hx => cases h1; exact key _ _ hx rfl rfl
  · next hx => cases h1; exact key _ _ hx rfl rfl
  · cases h1

theorem NewPlain.set {c : Ref} {o : Obj V B W C} (p : NewPlain h0 h)
    (hz : lazyObj o = false) : NewPlain h0 (h.set c o) := by
  intro t ht
  rw [isLazy_set]
  split
  · exact hz
  · exact p t ht

theorem NewPlain.reserve (p : NewPlain h0 h) : NewPlain h0 h.reserve.1 := p

theorem NewPlain.alloc {o : Obj V B W C} (p : NewPlain h0 h)
    (hz : lazyObj o = false) : NewPlain h0 (h.alloc o).1 :=
  NewPlain.set (h := h.reserve.1) p hz

/-- What `deepcopy` must do. -/
def CopyShows (M : Memory V B W) (h0 : Heap V B W C)
    (copy : St V B W C → Ref → Except Err (St V B W C × Ref)) : Prop :=
  ∀ s r s' y, CopyState M h0 s → Plain h0 [r] → r < h0.next → copy s r = .ok (s', y) →
    Same s.heap s'.heap ∧ CopyState M h0 s' ∧ Copies M h0 s'.heap r y

theorem reach_mono {up : Bool} {A A' : List Ref} (hs : ∀ a ∈ A, Reach up h A' a) {o : Ref}
    (r : Reach up h A o) : Reach up h A' o := by
  induction r with
  | here hm => exact hs _ hm
  | next _ hx hr ih => exact ih.next hx hr

theorem plain_refers {r e : Ref} {x : Obj V B W C} (p : Plain h [r]) (hx : h.get r = some x)
    (he : Refers true x e) : Plain h [e] := by
  intro o ho
  refine p o (reach_mono (A := [e]) ?_ ho)
  intro a ha
  cases List.mem_singleton.1 ha
  exact .next (.here (List.mem_singleton.2 rfl)) hx he

theorem plain_self {r : Ref} (p : Plain h [r]) : h.isLazy r = false :=
  p r (.here (List.mem_singleton.2 rfl))

variable {copy : St V B W C → Ref → Except Err (St V B W C × Ref)}

theorem showsFields_copy {d k : Name → Option Ref} {m : MFields} {t : Fields V}
    (h1 : ∀ n, d n = none → k n = none)
    (h2 : ∀ n r, lookupMeta m n ≠ none → d n = some r → ∃ y, k n = some y ∧ Copies M h0 h r y)
    (hs : ShowsFields M h0 d m t) : ShowsFields M h k m t := by
  induction m using MFields.rec (motive_1 := fun _ => True) generalizing t with
  | leaf => trivial
  | struct => trivial
  | aos => trivial
  | nil => cases hs; exact .nil
  | cons name mm rest _ ih =>
    have hr : ∀ n r, lookupMeta rest n ≠ none → d n = some r → ∃ y, k n = some y ∧ Copies M h0 h r y := by
      intro n r hl
      refine h2 n r ?_
      unfold lookupMeta
      split
      · exact fun h => nomatch h
      · exact hl
    cases hs with
    | absent hd hc => exact .absent (h1 _ hd) (ih hr hc)
    | present hd hx hc =>
      obtain ⟨y, hy, hcp⟩ := h2 name _ (by simp [lookupMeta]) hd
      exact .present hy (hcp.shows _ hx) (ih hr hc)

theorem copyKids_shows (hc : CopyShows M h0 copy) 
    {c : Ref} {d : Name → Option Ref} {m : MFields} {s s' : St V B W C} {k : Name → Option Ref}
    (hs : CopyState M h0 s) (hcc : h0.next ≤ c)
    (hd : ∀ n r, d n = some r → Plain h0 [r] ∧ r < h0.next)
    (hnew : ∀ s r s' y, CopyState M h0 s → copy s r = .ok (s', y) → New h0 y)
    (he : copyKids copy c d m s = .ok (s', k)) :
    Same s.heap s'.heap ∧ CopyState M h0 s' ∧ (∀ n, d n = none → k n = none) ∧
    (∀ n r, lookupMeta m n ≠ none → d n = some r → ∃ y, k n = some y ∧ Copies M h0 s'.heap r y) := by
  induction m using MFields.rec (motive_1 := fun _ => True) generalizing s s' k with
  | leaf => trivial
  | struct => trivial
  | aos => trivial
  | nil =>
    simp only [copyKids, Except.ok.injEq, Prod.mk.injEq] at he
    obtain ⟨rfl, rfl⟩ := he
    exact ⟨.refl _, hs, fun _ _ => rfl, fun n r hl => absurd rfl hl⟩
  | cons name mm rest _ ih =>
    unfold copyKids at he
    split at he
    · next hnone =>
      obtain ⟨a, b, e, g⟩ := ih hs he
      refine ⟨a, b, e, ?_⟩
      intro n r hl hdn
      refine g n r ?_ hdn
      unfold lookupMeta at hl
      split at hl
      · next h => subst h; rw [hnone] at hdn; cases hdn
      · exact hl
    · next r hr =>
      obtain ⟨⟨s1, y⟩, h1, he⟩ := bind_ok he
      obtain ⟨h2, h3, he⟩ := bind_ok he
      obtain ⟨⟨s3, k3⟩, h4, he⟩ := bind_ok he
      simp only [Except.ok.injEq, Prod.mk.injEq] at he
      obtain ⟨rfl, rfl⟩ := he
      obtain ⟨a1, b1, c1⟩ := hc s r s1 y hs (hd _ _ hr).1 (hd _ _ hr).2 h1
      have hy := hnew s r s1 y hs h1
      have a2 := setParent_same c1.lt h3
      have b2 := b1.step a2 ((b1.fresh.setParent hy hcc h3).weaken fun _ _ => trivial) (b1.plain.setParent h3)
      obtain ⟨a3, b3, hk, g⟩ := ih b2 h4
      have c3 := (c1.mono a2.next a2.kept).mono a3.next a3.kept
      refine ⟨(a1.trans a2).trans a3, b3, ?_, ?_⟩
      · intro n hn
        have : n ≠ name := by rintro rfl; rw [hn] at hr; cases hr
        simp only [this, if_false]
        exact hk n hn
      · intro n r' hl hdn
        by_cases hnn : n = name
        · subst hnn
          rw [hr] at hdn; cases hdn
          exact ⟨y, by simp, c3⟩
        · simp only [hnn, if_false]
          refine g n r' ?_ hdn
          simp only [lookupMeta, hnn, if_false] at hl
          exact hl

theorem copyItems_shows (hc : CopyShows M h0 copy) 
    {c : Ref} {l : List (Option Ref)} {s s' : St V B W C} {k : List (Option Ref)}
    (hs : CopyState M h0 s) (hcc : h0.next ≤ c)
    (hd : ∀ r, some r ∈ l → Plain h0 [r] ∧ r < h0.next)
    (hnew : ∀ s r s' y, CopyState M h0 s → copy s r = .ok (s', y) → New h0 y)
    (he : copyItems copy c l s = .ok (s', k)) :
    Same s.heap s'.heap ∧ CopyState M h0 s' ∧
    (∀ t, ShowsElems M h0 l t → ∀ h', Kept s'.heap h' → ShowsElems M h' k t) := by
  induction l generalizing s s' k with
  | nil =>
    simp only [copyItems, Except.ok.injEq, Prod.mk.injEq] at he
    obtain ⟨rfl, rfl⟩ := he
    exact ⟨.refl _, hs, fun t ht _ _ => by cases ht; exact .nil⟩
  | cons a rest ih =>
    cases a with
    | none => cases he
    | some r =>
      unfold copyItems at he
      obtain ⟨⟨s1, y⟩, h1, he⟩ := bind_ok he
      obtain ⟨h2, h3, he⟩ := bind_ok he
      obtain ⟨⟨s3, k3⟩, h4, he⟩ := bind_ok he
      simp only [Except.ok.injEq, Prod.mk.injEq] at he
      obtain ⟨rfl, rfl⟩ := he
      have hr := hd r (List.mem_cons_self ..)
      obtain ⟨a1, b1, c1⟩ := hc s r s1 y hs hr.1 hr.2 h1
      have hy := hnew s r s1 y hs h1
      have a2 := setParent_same c1.lt h3
      have b2 := b1.step a2 ((b1.fresh.setParent hy hcc h3).weaken fun _ _ => trivial) (b1.plain.setParent h3)
      obtain ⟨a3, b3, g⟩ := ih b2 (fun r hr => hd r (List.mem_cons_of_mem _ hr)) h4
      have c3 := (c1.mono a2.next a2.kept).mono a3.next a3.kept
      refine ⟨(a1.trans a2).trans a3, b3, ?_⟩
      intro t ht h' hk
      cases ht with
      | cons hx hl => exact .cons (shows_mono hk (c3.shows _ hx)) (g _ hl h' hk)

theorem old_get {s : St V B W C} (c : CopyState M h0 s) {r : Ref} {x : Obj V B W C} (hr : r < h0.next) :
    s.heap.get r = some x ↔ h0.get r = some x := by rw [c.fresh.old r hr]

theorem old_lazy {s : St V B W C} (c : CopyState M h0 s) {r : Ref} (hr : r < h0.next) :
    s.heap.isLazy r = h0.isLazy r := by rw [isLazy_eq, isLazy_eq, c.fresh.old r hr]

theorem old_val {s : St V B W C} (c : CopyState M h0 s) (snd : Sound true h0) {r : Ref} (hr : r < h0.next) :
    s.heap.val M r = h0.val M r := by
  unfold Heap.val
  rw [c.fresh.old r hr]
  split
  · rfl
  · next b w hx => rw [c.fresh.old b (snd.refs r _ hx b (by simp [Refers]))]
  · rfl

theorem copyValue_shows (snd : Sound true h0) : CopyShows M h0 (copyValue (C := C) M) := by
  intro s r s' y hs hp hr he
  have hnew := (copyValue_new hs.fresh hs.new he)
  unfold copyValue at he
  split at he
  · next v hx =>
    simp only [Except.ok.injEq, Prod.mk.injEq] at he
    obtain ⟨rfl, rfl⟩ := he
    have hx0 := (old_get hs hr).1 hx
    refine ⟨.refl _, hs, Nat.lt_of_lt_of_le hr hs.fresh.next, ?_, ?_, ?_⟩
    · intro n hn; cases hn with | _ h => rw [hx0] at h; cases h
    · intro v' hv; rw [old_val hs snd hr]; exact hv
    · intro i w hi; rw [hx0] at hi; cases hi
  · next i w hx =>
    split at he
    · next z hz =>
      split at he
      · simp only [Except.ok.injEq, Prod.mk.injEq] at he
        obtain ⟨rfl, rfl⟩ := he
        exact ⟨.refl _, hs, hs.memo _ (lookup_mem hz)⟩
      · cases he
    · split at he
      · cases he
      · next v hv =>
        simp only [Except.ok.injEq] at he
        have := congrArg Prod.fst he; have h2 := congrArg Prod.snd he
        simp only at this h2
        subst this; subst h2
        obtain ⟨a, b⟩ := newArray_same (M := M) hs.above v
        have hx0 := (old_get hs hr).1 hx
        have hv0 : h0.val M r = some v := by rw [← old_val hs snd hr]; exact hv
        have hl : (newArray M s.heap v).2 < (newArray M s.heap v).1.next := Nat.lt_succ_self _
        have hcp : Copies M h0 (newArray M s.heap v).1 r (newArray M s.heap v).2 := by
          refine ⟨hl, ?_, ?_, ?_⟩
          · intro n hn; cases hn with | _ h => rw [hx0] at h; cases h
          · intro v' hv'; rw [hv0] at hv'; cases hv'; exact b
          · intro _ _ _; exact ⟨_, _, alloc_get _ _⟩
        refine ⟨a, ?_, hcp⟩
        have hb := hs.step a hnew.1 (NewPlain.alloc (NewPlain.alloc hs.plain rfl) rfl)
        exact CopyState.remember hb hnew.2.1 hcp
  · cases he

theorem deepcopy_shows (snd : Sound true h0) (fuel : Nat) : CopyShows M h0 (deepcopy (C := C) M fuel) := by
  induction fuel with
  | zero => intro s r s' y _ _ _ h; cases h
  | succ fuel ih =>
    have hnewf : ∀ s r s' y, CopyState M h0 s → deepcopy M fuel s r = .ok (s', y) → New h0 y :=
      fun s r s' y c h => (deepcopy_new M h0 fuel _ s r s' y c.fresh c.new h).2.1
    intro s r s' y hs hp hr he
    have hnew := deepcopy_new M h0 (fuel + 1) _ s r s' y hs.fresh hs.new he
    have hfr := hnew.1.weaken (Q := fun _ => True) fun _ _ => trivial
    unfold deepcopy at he
    split at he
    · next z hz =>
      simp only [Except.ok.injEq, Prod.mk.injEq] at he
      obtain ⟨rfl, rfl⟩ := he
      exact ⟨.refl _, hs, hs.memo _ (lookup_mem hz)⟩
    · split at he
      · exact copyValue_shows snd s r s' y hs hp hr he
      · exact copyValue_shows snd s r s' y hs hp hr he
      · next l p hx =>
        simp only [Except.ok.injEq] at he
        have := congrArg Prod.fst he; have h2 := congrArg Prod.snd he
        simp only at this h2
        subst this; subst h2
        have hx0 := (old_get hs hr).1 hx
        have a := alloc_same hs.above (.leaf l none p)
        have hcp : Copies M h0 (s.heap.alloc (.leaf l none p)).1 r (s.heap.alloc (.leaf l none p)).2 := by
          refine ⟨Nat.lt_succ_self _, ?_, ?_, ?_⟩
          · intro n hn
            cases hn with
            | unset h => rw [hx0] at h; cases h; exact .unset (alloc_get _ _)
            | leaf h => rw [hx0] at h; cases h
            | struct h => rw [hx0] at h; cases h
            | aos h => rw [hx0] at h; cases h
          · intro v hv; simp [Heap.val, hx0] at hv
          · intro i w hi; rw [hx0] at hi; cases hi
        exact ⟨a, CopyState.remember (hs.step a hfr (hs.plain.alloc rfl)) hnew.2.1 hcp, hcp⟩
      · next l v p hx =>
        obtain ⟨⟨s1, b⟩, h1, he⟩ := bind_ok he
        simp only [Except.ok.injEq] at he
        have := congrArg Prod.fst he; have h2 := congrArg Prod.snd he
        simp only at this h2
        subst this; subst h2
        have hx0 := (old_get hs hr).1 hx
        have hv : Refers true (.leaf l (some v) p : Obj V B W C) v := .inl rfl
        obtain ⟨a1, b1, c1⟩ := copyValue_shows snd s v s1 b hs (plain_refers hp hx0 hv) (snd.refs r _ hx0 v hv) h1
        have a := alloc_same b1.above (.leaf l (some b) p)
        have hcp : Copies M h0 (s1.heap.alloc (.leaf l (some b) p)).1 r (s1.heap.alloc (.leaf l (some b) p)).2 := by
          refine ⟨Nat.lt_succ_self _, ?_, ?_, ?_⟩
          · intro n hn
            cases hn with
            | unset h => rw [hx0] at h; cases h
            | leaf h hv =>
              rw [hx0] at h; cases h
              exact .leaf (alloc_get _ _) (val_mono a.kept (c1.val _ hv))
            | struct h => rw [hx0] at h; cases h
            | aos h => rw [hx0] at h; cases h
          · intro v hv; simp [Heap.val, hx0] at hv
          · intro i w hi; rw [hx0] at hi; cases hi
        exact ⟨a1.trans a, CopyState.remember (b1.step a hfr (b1.plain.alloc rfl)) hnew.2.1 hcp, hcp⟩
      · next q m d p t z x hx =>
        split at he
        · cases he
        · next hz =>
          obtain ⟨⟨s1, k⟩, h1, he⟩ := bind_ok he
          simp only [Except.ok.injEq] at he
          have := congrArg Prod.fst he; have h2 := congrArg Prod.snd he
          simp only at this h2
          subst this; subst h2
          have hx0 := (old_get hs hr).1 hx
          have hb := hs.step (reserve_same _) hs.fresh.reserve hs.plain.reserve
          obtain ⟨a1, b1, g1, g2⟩ := copyKids_shows ih hb hs.fresh.next
            (fun n e he => ⟨plain_refers hp hx0 (.inl ⟨n, he⟩), snd.refs r _ hx0 e (.inl ⟨n, he⟩)⟩) hnewf h1
          have hole : s1.heap.get s.heap.next = none :=
            a1.hole _ (Nat.lt_succ_self _) (hs.above _ (Nat.le_refl _))
          have hlt : s.heap.next < s1.heap.next := Nat.lt_of_lt_of_le (Nat.lt_succ_self _) a1.next
          have hpp : h0.isLazy p = false := plain_self (plain_refers hp hx0 (.inr ⟨rfl, rfl⟩))
          have hp1 : p < h0.next := snd.refs r _ hx0 p (.inr ⟨rfl, rfl⟩)
          have hz' : (if t = true then z else s.heap.isLazy p) = false := by
            split
            · simpa using hz
            · rw [old_lazy hs hp1]; exact hpp
          rw [hz'] at hfr ⊢
          have fk : Kept s1.heap (s1.heap.set s.heap.next (.struct q m k p t false none)) := fill_kept hole
          have hcp : Copies M h0 (s1.heap.set s.heap.next (.struct q m k p t false none)) r s.heap.next := by
            refine ⟨hlt, ?_, ?_, ?_⟩
            · intro n hn
              cases hn with
              | unset h => rw [hx0] at h; cases h
              | leaf h => rw [hx0] at h; cases h
              | struct h hc =>
                rw [hx0] at h; cases h
                exact .struct (set_get ..) (showsFields_mono fk (showsFields_copy g1 g2 hc))
              | aos h => rw [hx0] at h; cases h
            · intro v hv; simp [Heap.val, hx0] at hv
            · intro i w hi; rw [hx0] at hi; cases hi
          have a := fill_same (o := .struct q m k p t false none) ((reserve_same s.heap).trans a1) (Nat.le_refl _) hlt hole
          refine ⟨a, CopyState.remember (s := ⟨_, s1.memo⟩) ?_ hnew.2.1 hcp, hcp⟩
          exact ⟨a.above hs.above, hfr, b1.new, fun p hp => (b1.memo p hp).mono (Nat.le_refl _) fk,
            b1.plain.set rfl⟩
      · cases he
      · next q m items p z x hx =>
        have hx0 := (old_get hs hr).1 hx
        have hpp : h0.isLazy p = false := plain_self (plain_refers hp hx0 (.inr ⟨rfl, rfl⟩))
        have hp1 : p < h0.next := snd.refs r _ hx0 p (.inr ⟨rfl, rfl⟩)
        split at he
        · next hl => rw [old_lazy hs hp1, hpp] at hl; cases hl
        · obtain ⟨⟨s1, k⟩, h1, he⟩ := bind_ok he
          simp only [Except.ok.injEq] at he
          have := congrArg Prod.fst he; have h2 := congrArg Prod.snd he
          simp only at this h2
          subst this; subst h2
          have hb := hs.step (reserve_same _) hs.fresh.reserve hs.plain.reserve
          obtain ⟨a1, b1, g1⟩ := copyItems_shows ih hb hs.fresh.next
            (fun e he => ⟨plain_refers hp hx0 (.inl ⟨_, rfl, he⟩), snd.refs r _ hx0 e (.inl ⟨_, rfl, he⟩)⟩) hnewf h1
          have hole : s1.heap.get s.heap.next = none :=
            a1.hole _ (Nat.lt_succ_self _) (hs.above _ (Nat.le_refl _))
          have hlt : s.heap.next < s1.heap.next := Nat.lt_of_lt_of_le (Nat.lt_succ_self _) a1.next
          have fk : Kept s1.heap (s1.heap.set s.heap.next (.aos q m (some k) p false none)) := fill_kept hole
          have hcp : Copies M h0 (s1.heap.set s.heap.next (.aos q m (some k) p false none)) r s.heap.next := by
            refine ⟨hlt, ?_, ?_, ?_⟩
            · intro n hn
              cases hn with
              | unset h => rw [hx0] at h; cases h
              | leaf h => rw [hx0] at h; cases h
              | struct h hc => rw [hx0] at h; cases h
              | aos h hc =>
                rw [hx0] at h; cases h
                exact .aos (set_get ..) (g1 _ hc _ fk)
            · intro v hv; simp [Heap.val, hx0] at hv
            · intro i w hi; rw [hx0] at hi; cases hi
          have a := fill_same (o := .aos q m (some k) p false none) ((reserve_same s.heap).trans a1) (Nat.le_refl _) hlt hole
          refine ⟨a, CopyState.remember (s := ⟨_, s1.memo⟩) ?_ hnew.2.1 hcp, hcp⟩
          exact ⟨a.above hs.above, hfr, b1.new, fun p hp => (b1.memo p hp).mono (Nat.le_refl _) fk,
            b1.plain.set rfl⟩
      · cases he
      · cases he
      · cases he

end Verif.Heap
