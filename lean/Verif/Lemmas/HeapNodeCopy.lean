import Verif.Lemmas.HeapNode
/-!
Deep copies of nodes that are at one place: the parent of each copy is the copy of the parent (C77).
-/
namespace Verif.HeapSpec
open Verif.Ids Verif.Heap Verif.TreeSpec

variable {V B W C : Type} {E : Env V B W C} {h h0 h' h'' : Heap V B W C} {r s c : Ref}

/-- An object takes the place that was reserved for it. -/
theorem Linked.fill (L : Linked h) {o : Obj V B W C} (hc : h.get c = none) (hlt : c < h.next) (ho : OK o)
    (hk : ∀ k s, SlotO o k s → ∃ os, h.get s = some os ∧ Fits c (qOf o) k (head os)) :
    Linked (h.set c o) ∧ Unheld (h.set c o) c := by
  have hne : ∀ y oy, h.get y = some oy → y ≠ c := by rintro y oy hy rfl; rw [hc] at hy; cases hy
  have hslot : ∀ x ox k y, (h.set c o).get x = some ox → SlotO ox k y → ∃ oy, h.get y = some oy ∧ Fits x (qOf ox) k (head oy) := by
    intro x ox k y hx hs
    by_cases e : x = c
    · subst e; rw [set_get] at hx; cases hx; exact hk k y hs
    · rw [set_other e] at hx; exact L.fits x ox k y hx hs
  refine ⟨⟨?_, ?_, ?_⟩, ?_⟩
  · intro x hx
    have hx' : h.next ≤ x := hx
    rw [set_other (ref_ne hx' hlt)]; exact L.above x hx'
  · intro x ox k y hx hs
    obtain ⟨oy, hy, hf⟩ := hslot x ox k y hx hs
    exact ⟨oy, by rw [set_other (hne y oy hy)]; exact hy, hf⟩
  · intro x ox hx
    by_cases e : x = c
    · subst e; rw [set_get] at hx; cases hx; exact ho
    · rw [set_other e] at hx; exact L.ok _ _ hx
  · intro x k hs
    obtain ⟨ox, hx, hs⟩ := hs.slotO
    obtain ⟨oy, hy, _⟩ := hslot x ox k c hx hs
    exact hne c oy hy rfl

theorem Linked.reserve (L : Linked h) : Linked h.reserve.1 :=
  ⟨fun o ho => L.above o (ref_le ho), L.fits, L.ok⟩

/-- `a` is no IDS node in `h0`. -/
def NotNode (h0 : Heap V B W C) (a : Ref) : Prop := ∀ o, h0.get a = some o → head o = none

theorem fits_node {r : Ref} {q : List Name} {k : Key} {x} (hf : Fits r q k x) : x ≠ none := by
  cases k
  · rcases hf with rfl | rfl | rfl <;> simp
  · cases hf; simp

/-- What is below a node is a node. -/
theorem path_node (L : Linked h) {K : List Key} (p : Path h r K s) {o : Obj V B W C} (ho : h.get r = some o) (hn : head o ≠ none) :
    ∃ os, h.get s = some os ∧ head os ≠ none := by
  induction p generalizing o with
  | nil => exact ⟨o, ho, hn⟩
  | cons hs _ ih =>
    obtain ⟨ox, hx, hs⟩ := hs.slotO
    obtain ⟨oc, hc, hf⟩ := L.fits _ _ _ _ hx hs
    exact ih hc (fits_node hf)

/-- The state while something of `h0` is copied. -/
structure During (h0 : Heap V B W C) (s : St V B W C) : Prop where
  linked : Linked s.heap
  next : h0.next ≤ s.heap.next
  old : ∀ x, x < h0.next → s.heap.get x = h0.get x

/-- Nothing below these nodes is copied yet. -/
def Todo (h0 : Heap V B W C) (s : St V B W C) (r : Ref) : Prop := ∀ p ∈ s.memo, ∀ K, ¬ Path h0 r K p.1

/-- What a step of copying does: old objects do not change, and `P` are the nodes that are copied. -/
structure Did (h0 : Heap V B W C) (P : Ref → Prop) (s s' : St V B W C) : Prop where
  during : During h0 s'
  next : s.heap.next ≤ s'.heap.next
  old : ∀ x, x < s.heap.next → s'.heap.get x = s.heap.get x
  memo : ∀ p ∈ s'.memo, p ∈ s.memo ∨ P p.1 ∨ NotNode h0 p.1

theorem Did.trans {P Q : Ref → Prop} {s s' s'' : St V B W C} (a : Did h0 P s s') (b : Did h0 Q s' s'') :
    Did h0 (fun x => P x ∨ Q x) s s'' := by
  refine ⟨b.during, Nat.le_trans a.next b.next, fun x hx => (b.old x (Nat.lt_of_lt_of_le hx a.next)).trans (a.old x hx), ?_⟩
  intro p hp
  rcases b.memo p hp with h1 | h1 | h1
  · rcases a.memo p h1 with h2 | h2 | h2
    · exact .inl h2
    · exact .inr (.inl (.inl h2))
    · exact .inr (.inr h2)
  · exact .inr (.inl (.inr h1))
  · exact .inr (.inr h1)

theorem Did.weaken {P Q : Ref → Prop} {s s' : St V B W C} (a : Did h0 P s s') (hpq : ∀ x, P x → Q x) : Did h0 Q s s' :=
  ⟨a.during, a.next, a.old, fun p hp => (a.memo p hp).imp id (.imp (hpq _) id)⟩

/-- A copy `y` of `r`: the same kind of node, which is nowhere. -/
def CopyOf (h0 h : Heap V B W C) (r y : Ref) : Prop :=
  ∃ o oy a q p p' t, h0.get r = some o ∧ h.get y = some oy ∧ head o = some (a, q, p, t) ∧ head oy = some (a, q, p', t)

def CopyGood (h0 : Heap V B W C) (copy : St V B W C → Ref → Except Err (St V B W C × Ref)) : Prop :=
  ∀ s r s' y o, During h0 s → h0.get r = some o → head o ≠ none → Unshared h0 r → Todo h0 s r → copy s r = .ok (s', y) →
    Did h0 (fun x => ∃ K, Path h0 r K x) s s' ∧ s.heap.next ≤ y ∧ CopyOf h0 s'.heap r y ∧ Unheld s'.heap y

theorem alloc_did {s : St V B W C} (d : During h0 s) {o : Obj V B W C} (hn : ∀ k s, ¬ SlotO o k s) (ht : OK o) {P : Ref → Prop} :
    Did h0 P s { s with heap := (s.heap.alloc o).1 } := by
  have hold : ∀ x, x < s.heap.next → (s.heap.alloc o).1.get x = s.heap.get x := by
    intro x hx; simp [Heap.alloc, Nat.ne_of_lt hx]
  exact ⟨⟨d.linked.alloc hn ht, Nat.le_trans d.next (Nat.le_succ _), fun x hx =>
    (hold x (Nat.lt_of_lt_of_le hx d.next)).trans (d.old x hx)⟩, Nat.le_succ _, hold, fun p hp => .inl hp⟩

theorem alloc_unheld (L : Linked h) {o : Obj V B W C} (hn : ∀ k s, ¬ SlotO o k s) : Unheld (h.alloc o).1 h.next := by
  intro x k hs
  obtain ⟨ox, hx, hs⟩ := hs.slotO
  by_cases e : x = h.next
  · subst e; rw [show (h.alloc o).1.get h.next = some o by simp [Heap.alloc]] at hx; cases hx; exact hn _ _ hs
  · rw [show (h.alloc o).1.get x = h.get x by simp [Heap.alloc, e]] at hx
    obtain ⟨oy, hy, _⟩ := L.fits _ _ _ _ hx hs
    exact absurd (L.lt hy) (Nat.lt_irrefl _)

theorem copyValue_did {M : Memory V B W} {s s' : St V B W C} {a b : Ref} (d : During h0 s) {P : Ref → Prop}
    (L0 : Linked h0) (he : copyValue M s a = .ok (s', b)) : Did h0 P s s' := by
  have rfl' : Did h0 P s s := ⟨d, Nat.le_refl _, fun _ _ => rfl, fun p hp => .inl hp⟩
  unfold copyValue at he
  split at he
  · cases he; exact rfl'
  · next hg =>
    split at he
    · split at he
      · cases he; exact rfl'
      · cases he
    · split at he
      · cases he
      · next v _ =>
        cases he
        have a1 := alloc_did (P := P) d (o := .buf (M.copyOf v).1) (noslot_value rfl) trivial
        have a2 := a1.trans (alloc_did (P := P) a1.during (o := .arr s.heap.next (M.copyOf v).2) (noslot_value rfl) trivial)
        have a3 := a2.weaken (Q := P) fun x hx => hx.elim id id
        refine ⟨⟨a3.during.linked, a3.during.next, a3.during.old⟩, a3.next, a3.old, ?_⟩
        intro p hp
        rcases List.mem_cons.1 hp with rfl | hp
        · refine .inr (.inr ?_)
          intro o ho
          rw [d.old _ (L0.lt ho), ho] at hg
          cases hg; rfl
        · exact .inl hp
  · cases he

/-- One child or element: it is copied and gets its parent. -/
theorem copy_one {copy : St V B W C → Ref → Except Err (St V B W C × Ref)} (hc : CopyGood h0 copy) {s s1 : St V B W C} {y : Ref}
    {h2 : Heap V B W C} {o : Obj V B W C} (d : During h0 s) (ho : h0.get r = some o) (hn : head o ≠ none) (hu : Unshared h0 r)
    (ht : Todo h0 s r) (he : copy s r = .ok (s1, y)) (hp : setParent s1.heap y c = .ok h2) :
    Did h0 (fun x => ∃ K, Path h0 r K x) s { s1 with heap := h2 } ∧ s.heap.next ≤ y ∧ y < h2.next ∧
      ∃ oy a q p t, h2.get y = some oy ∧ head o = some (a, q, p, t) ∧ head oy = some (a, q, c, t) := by
  obtain ⟨dd, hy, ⟨o', oy, a, q, p, p', t, ho', hoy, hh, hhy⟩, hun⟩ := hc s r s1 y o d ho hn hu ht he
  rw [ho] at ho'; cases ho'
  obtain ⟨L2, hnx, hoth, o1, o2, hg1, hg2, _, a2, q2, p2, t2, hh1, hh2⟩ := dd.during.linked.setParent hun hp
  rw [hoy] at hg1; cases hg1
  rw [hhy] at hh1; cases hh1
  have hny : h0.next ≤ y := Nat.le_trans d.next hy
  refine ⟨⟨⟨L2, by rw [hnx]; exact dd.during.next, fun x hx => ?_⟩, by rw [hnx]; exact dd.next, fun x hx => ?_, dd.memo⟩, hy, ?_,
    o2, a, q, p, t, hg2, hh, hh2⟩
  · exact (hoth x (fun e => ref_ne hny hx e.symm)).trans (dd.during.old x hx)
  · exact (hoth x (fun e => ref_ne hy hx e.symm)).trans (dd.old x hx)
  · exact L2.lt hg2

theorem copyKids_good {copy : St V B W C → Ref → Except Err (St V B W C × Ref)} (L0 : Linked h0) (hc : CopyGood h0 copy)
    {R : Ref} {q0 : List Name} {m0 : MFields} {d : Name → Option Ref} {p0 : Ref} {t0 z0 : Bool} {x0 : Option C}
    (hR : h0.get R = some (.struct q0 m0 d p0 t0 z0 x0)) (hu : Unshared h0 R) {m : MFields} (hw : WFMFields m)
    (hm : ∀ n ∈ mnames m, n ∈ mnames m0) {s s' : St V B W C} {k : Name → Option Ref}
    (dur : During h0 s) (ht : ∀ n ∈ mnames m, ∀ r, d n = some r → Todo h0 s r) (he : copyKids copy c d m s = .ok (s', k)) :
    Did h0 (fun x => ∃ n ∈ mnames m, ∃ r K, d n = some r ∧ Path h0 r K x) s s' ∧
      ∀ n y, k n = some y → n ∈ mnames m ∧ ∃ r o oy a q p t, d n = some r ∧ h0.get r = some o ∧ s'.heap.get y = some oy ∧
        head o = some (a, q, p, t) ∧ head oy = some (a, q, c, t) := by
  induction m using MFields.rec (motive_1 := fun _ => True) generalizing s s' k with
  | leaf => trivial
  | struct => trivial
  | aos => trivial
  | nil =>
    cases he
    exact ⟨⟨dur, Nat.le_refl _, fun _ _ => rfl, fun p hp => .inl hp⟩, by intro n y hy; cases hy⟩
  | cons n x rest _ ih =>
    unfold copyKids at he
    split at he
    · obtain ⟨a1, a2⟩ := ih hw.2.2 (fun n hn => hm n (by simp [mnames, hn])) dur (fun n hn => ht n (by simp [mnames, hn])) he
      refine ⟨a1.weaken ?_, fun n y hy => ?_⟩
      · rintro x ⟨n, hn, r, K, h1, h2⟩; exact ⟨n, by simp [mnames, hn], r, K, h1, h2⟩
      · obtain ⟨b1, b2⟩ := a2 n y hy; exact ⟨by simp [mnames, b1], b2⟩
    · next r hd =>
      obtain ⟨⟨s1, y⟩, e1, he⟩ := bind_ok he
      obtain ⟨h2, e2, he⟩ := bind_ok he
      obtain ⟨⟨s3, k3⟩, e3, he⟩ := bind_ok he
      cases he
      have hsl : Slot h0 R (.field n) r := .field hR (hm n (by simp [mnames])) hd
      obtain ⟨ox, hx, hs⟩ := hsl.slotO
      obtain ⟨o, ho, hf⟩ := L0.fits _ _ _ _ hx hs
      have hn := fits_node hf
      have hur := hu.below (.cons hsl .nil)
      obtain ⟨d1, hy, hyl, oy, a, q, p, t, hoy, hh, hhy⟩ := copy_one hc dur ho hn hur (ht n (by simp [mnames]) r hd) e1 e2
      have ht' : ∀ n' ∈ mnames rest, ∀ r', d n' = some r' → Todo h0 { s1 with heap := h2 } r' := by
        intro n' hn' r' hd' p hp K hK
        have hsl' : Slot h0 R (.field n') r' := .field hR (hm n' (by simp [mnames, hn'])) hd'
        rcases d1.memo p hp with h1 | ⟨K', h1⟩ | h1
        · exact ht n' (by simp [mnames, hn']) r' hd' p h1 K hK
        · have := hu _ _ _ (.cons hsl h1) (.cons hsl' hK)
          simp only [List.cons.injEq, Key.field.injEq] at this
          rw [← this.1] at hn'
          exact hw.1 hn'
        · obtain ⟨ox, hx, hs⟩ := hsl'.slotO
          obtain ⟨o', ho', hf'⟩ := L0.fits _ _ _ _ hx hs
          obtain ⟨os, hos, hns⟩ := path_node L0 hK ho' (fits_node hf')
          exact hns (h1 os hos)
      obtain ⟨a1, a2⟩ := ih hw.2.2 (fun n hn => hm n (by simp [mnames, hn])) d1.during ht' e3
      refine ⟨(d1.trans a1).weaken ?_, ?_⟩
      · rintro x (⟨K, hK⟩ | ⟨n', hn', r', K, h1, h2⟩)
        · exact ⟨n, by simp [mnames], r, K, hd, hK⟩
        · exact ⟨n', by simp [mnames, hn'], r', K, h1, h2⟩
      · intro n' y' hy'
        dsimp only at hy'
        split at hy'
        · next e =>
          cases hy'; subst e
          exact ⟨by simp [mnames], r, o, oy, a, q, p, t, hd, ho, (a1.old y hyl).trans hoy, hh, hhy⟩
        · obtain ⟨b1, b2⟩ := a2 n' y' hy'; exact ⟨by simp [mnames, b1], b2⟩

theorem copyItems_good {copy : St V B W C → Ref → Except Err (St V B W C × Ref)} (L0 : Linked h0) (hc : CopyGood h0 copy)
    {R : Ref} {q0 : List Name} {m0 : MFields} {items : List (Option Ref)} {p0 : Ref} {z0 : Bool} {x0 : Option C}
    (hR : h0.get R = some (.aos q0 m0 (some items) p0 z0 x0)) (hu : Unshared h0 R) {l : List (Option Ref)} {j : Nat}
    (hl : ∀ (i : Nat) (r : Ref), l[i]? = some (some r) → items[j + i]? = some (some r)) {s s' : St V B W C} {k : List (Option Ref)}
    (dur : During h0 s) (ht : ∀ (i : Nat) (r : Ref), l[i]? = some (some r) → Todo h0 s r) (he : copyItems copy c l s = .ok (s', k)) :
    Did h0 (fun x => ∃ (i : Nat) (r : Ref) (K : List Key), l[i]? = some (some r) ∧ Path h0 r K x) s s' ∧
      ∀ (i : Nat) (y : Ref), k[i]? = some (some y) → ∃ r o oy a q p t, l[i]? = some (some r) ∧ h0.get r = some o ∧ s'.heap.get y = some oy ∧
        head o = some (a, q, p, t) ∧ head oy = some (a, q, c, t) := by
  induction l generalizing s s' k j with
  | nil =>
    cases he
    exact ⟨⟨dur, Nat.le_refl _, fun _ _ => rfl, fun p hp => .inl hp⟩, by intro i y hy; simp at hy⟩
  | cons e0 rest ih =>
    cases e0 with
    | none => cases he
    | some r =>
      unfold copyItems at he
      obtain ⟨⟨s1, y⟩, e1, he⟩ := bind_ok he
      obtain ⟨h2, e2, he⟩ := bind_ok he
      obtain ⟨⟨s3, k3⟩, e3, he⟩ := bind_ok he
      cases he
      have hsl : Slot h0 R (.index j) r := .index hR (hl 0 r rfl)
      obtain ⟨ox, hx, hs⟩ := hsl.slotO
      obtain ⟨o, ho, hf⟩ := L0.fits _ _ _ _ hx hs
      have hn := fits_node hf
      have hur := hu.below (.cons hsl .nil)
      obtain ⟨d1, hy, hyl, oy, a, q, p, t, hoy, hh, hhy⟩ := copy_one hc dur ho hn hur (ht 0 r rfl) e1 e2
      have hl' : ∀ (i : Nat) (r : Ref), rest[i]? = some (some r) → items[j + 1 + i]? = some (some r) := by
        intro i r' hr'
        have := hl (i + 1) r' (by simpa using hr')
        rwa [show j + 1 + i = j + (i + 1) by omega]
      have ht' : ∀ (i : Nat) (r' : Ref), rest[i]? = some (some r') → Todo h0 { s1 with heap := h2 } r' := by
        intro i r' hr' p hp K hK
        have hsl' : Slot h0 R (.index (j + 1 + i)) r' := .index hR (hl' i r' hr')
        rcases d1.memo p hp with h1 | ⟨K', h1⟩ | h1
        · exact ht (i + 1) r' (by simpa using hr') p h1 K hK
        · have := hu _ _ _ (.cons hsl h1) (.cons hsl' hK)
          simp only [List.cons.injEq, Key.index.injEq] at this
          omega
        · obtain ⟨ox, hx, hs⟩ := hsl'.slotO
          obtain ⟨o', ho', hf'⟩ := L0.fits _ _ _ _ hx hs
          obtain ⟨os, hos, hns⟩ := path_node L0 hK ho' (fits_node hf')
          exact hns (h1 os hos)
      obtain ⟨a1, a2⟩ := ih hl' d1.during ht' e3
      refine ⟨(d1.trans a1).weaken ?_, ?_⟩
      · rintro x (⟨K, hK⟩ | ⟨i, r', K, h1, h2⟩)
        · exact ⟨0, r, K, rfl, hK⟩
        · exact ⟨i + 1, r', K, by simpa using h1, h2⟩
      · intro i y' hy'
        cases i with
        | zero =>
          simp at hy'; subst hy'
          exact ⟨r, o, oy, a, q, p, t, rfl, ho, (a1.old y hyl).trans hoy, hh, hhy⟩
        | succ i => exact a2 i y' (by simpa using hy')

theorem fits_copy {r c : Ref} {q : List Name} {k : Key} {a : Nat} {q' : List Name} {p : Ref} {t : Bool}
    (hf : Fits r q k (some (a, q', p, t))) : Fits c q k (some (a, q', c, t)) := by
  cases k
  · rcases hf with h | h | h <;> cases h <;> simp [Fits]
  · cases hf; simp [Fits]

theorem lookup_mem_memo {l : List (Ref × Ref)} {a b : Ref} (hl : l.lookup a = some b) : (a, b) ∈ l := by
  induction l with
  | nil => cases hl
  | cons x l ih =>
    obtain ⟨x1, x2⟩ := x
    rw [List.lookup_cons] at hl
    split at hl
    · next e => cases hl; have := eq_of_beq e; subst this; exact List.mem_cons_self ..
    · exact List.mem_cons_of_mem _ (ih hl)

theorem reserve_during {s : St V B W C} (d : During h0 s) : During h0 { s with heap := s.heap.reserve.1 } :=
  ⟨d.linked.reserve, Nat.le_trans d.next (Nat.le_succ _), d.old⟩

theorem deepcopy_good (M : Memory V B W) (L0 : Linked h0) (fuel : Nat) : CopyGood h0 (deepcopy M fuel) := by
  induction fuel with
  | zero => intro s r s' y o _ _ _ _ _ he; cases he
  | succ fuel ih =>
    intro s r s' y o dur ho hn hu ht he
    have hlk : s.memo.lookup r = none := by
      cases e : s.memo.lookup r with
      | none => rfl
      | some b => exact absurd .nil (ht _ (lookup_mem_memo e) [])
    have hg : s.heap.get r = some o := (dur.old r (L0.lt ho)).trans ho
    unfold deepcopy at he
    rw [hlk, hg] at he
    dsimp only at he
    cases o with
    | factory => exact absurd rfl hn
    | const => exact absurd rfl hn
    | buf => exact absurd rfl hn
    | arr => exact absurd rfl hn
    | leaf l v p =>
      cases v with
      | none =>
        cases he
        have a := alloc_did (P := fun x => ∃ K, Path h0 r K x) dur (o := .leaf l none p) noslot_leaf trivial
        refine ⟨⟨⟨a.during.linked, a.during.next, a.during.old⟩, a.next, a.old, ?_⟩, Nat.le_refl _,
          ⟨_, _, _, _, _, _, _, ho, alloc_get .., rfl, rfl⟩, alloc_unheld dur.linked noslot_leaf⟩
        intro p hp
        rcases List.mem_cons.1 hp with rfl | hp
        · exact .inr (.inl ⟨[], .nil⟩)
        · exact .inl hp
      | some v =>
        obtain ⟨⟨s1, b⟩, e1, he⟩ := bind_ok he
        cases he
        have a1 := copyValue_did (P := fun x => ∃ K, Path h0 r K x) dur L0 e1
        have a := (a1.trans (alloc_did (P := fun x => ∃ K, Path h0 r K x) a1.during (o := .leaf l (some b) p) noslot_leaf trivial)).weaken
          (Q := fun x => ∃ K, Path h0 r K x) fun x hx => hx.elim id id
        refine ⟨⟨⟨a.during.linked, a.during.next, a.during.old⟩, a.next, a.old, ?_⟩, a1.next,
          ⟨_, _, _, _, _, _, _, ho, alloc_get .., rfl, rfl⟩, alloc_unheld a1.during.linked noslot_leaf⟩
        intro p hp
        rcases List.mem_cons.1 hp with rfl | hp
        · exact .inr (.inl ⟨[], .nil⟩)
        · exact a.memo p hp
    | struct q m d p t z x =>
      dsimp only at he
      split at he
      · cases he
      · obtain ⟨⟨s1, k⟩, e1, he⟩ := bind_ok he
        cases he
        have hok := (L0.ok _ _ ho : OK _)
        obtain ⟨a1, a2⟩ := copyKids_good L0 ih ho hu hok.2.2 (fun n hn => hn) (reserve_during dur)
          (fun n hn r' hd p hp K hK => ht p hp _ (.cons (.field ho hn hd) hK)) e1
        have hcl : s.heap.next < s1.heap.next := Nat.lt_of_lt_of_le (Nat.lt_succ_self _) a1.next
        have hcn : s1.heap.get s.heap.next = none :=
          (a1.old _ (Nat.lt_succ_self _)).trans (dur.linked.above _ (Nat.le_refl _))
        obtain ⟨L, hun⟩ := a1.during.linked.fill (o := .struct q m k p t (if t then z else s.heap.isLazy p) none) hcn hcl
          ⟨hok.1, fun n s hs => (a2 n s hs).1, hok.2.2⟩ (by
            intro k' s' hs
            cases hs with
            | field hd =>
              obtain ⟨_, r', o', oy, a, q', p', t', hd', ho', hoy, hh, hhy⟩ := a2 _ _ hd
              refine ⟨oy, hoy, ?_⟩
              obtain ⟨o2, ho2, hf⟩ := L0.fits _ _ _ _ ho (.field hd')
              rw [ho'] at ho2; cases ho2
              rw [hh] at hf; rw [hhy]
              exact fits_copy hf)
        refine ⟨⟨⟨L, a1.during.next, ?_⟩, Nat.le_of_lt hcl, ?_, ?_⟩, Nat.le_refl _, ⟨_, _, _, _, _, _, _, ho, set_get .., rfl, rfl⟩, hun⟩
        · intro x hx
          exact (set_other (Nat.ne_of_lt (Nat.lt_of_lt_of_le hx dur.next))).trans (a1.during.old x hx)
        · intro x hx
          exact (set_other (Nat.ne_of_lt hx)).trans (a1.old x (Nat.lt_succ_of_lt hx))
        · intro p hp
          rcases List.mem_cons.1 hp with rfl | hp
          · exact .inr (.inl ⟨[], .nil⟩)
          · rcases a1.memo p hp with h1 | ⟨n, hn, r', K, hd, hK⟩ | h1
            · exact .inl h1
            · exact .inr (.inl ⟨_, .cons (.field ho hn hd) hK⟩)
            · exact .inr (.inr h1)
    | aos q m items p z x =>
      cases items with
      | none => cases he
      | some items =>
        have hok := (L0.ok _ _ ho : OK _)
        dsimp only at he
        split at he
        · split at he
          · cases he
            have hns : ∀ k s, ¬ SlotO (.aos q m none p true none : Obj V B W C) k s := by intro k s hs; cases hs
            have a := alloc_did (P := fun x => ∃ K, Path h0 r K x) dur (o := .aos q m none p true none) hns hok
            refine ⟨⟨⟨a.during.linked, a.during.next, a.during.old⟩, a.next, a.old, ?_⟩, Nat.le_refl _,
              ⟨_, _, _, _, _, _, _, ho, alloc_get .., rfl, rfl⟩, alloc_unheld dur.linked hns⟩
            intro p hp
            rcases List.mem_cons.1 hp with rfl | hp
            · exact .inr (.inl ⟨[], .nil⟩)
            · exact .inl hp
          · cases he
          · obtain ⟨_, _, he⟩ := bind_ok he
            cases he
        · obtain ⟨⟨s1, k⟩, e1, he⟩ := bind_ok he
          cases he
          obtain ⟨a1, a2⟩ := copyItems_good L0 ih ho hu (j := 0) (fun i r hr => by simpa using hr) (reserve_during dur)
            (fun i r' hr p hp K hK => ht p hp _ (.cons (.index ho hr) hK)) e1
          have hcl : s.heap.next < s1.heap.next := Nat.lt_of_lt_of_le (Nat.lt_succ_self _) a1.next
          have hcn : s1.heap.get s.heap.next = none :=
            (a1.old _ (Nat.lt_succ_self _)).trans (dur.linked.above _ (Nat.le_refl _))
          obtain ⟨L, hun⟩ := a1.during.linked.fill (o := .aos q m (some k) p false none) hcn hcl hok (by
              intro k' s' hs
              cases hs with
              | index hd =>
                obtain ⟨r', o', oy, a, q', p', t', hd', ho', hoy, hh, hhy⟩ := a2 _ _ hd
                refine ⟨oy, hoy, ?_⟩
                obtain ⟨o2, ho2, hf⟩ := L0.fits _ _ _ _ ho (.index hd')
                rw [ho'] at ho2; cases ho2
                rw [hh] at hf; rw [hhy]
                exact fits_copy hf)
          refine ⟨⟨⟨L, a1.during.next, ?_⟩, Nat.le_of_lt hcl, ?_, ?_⟩, Nat.le_refl _, ⟨_, _, _, _, _, _, _, ho, set_get .., rfl, rfl⟩, hun⟩
          · intro x hx
            exact (set_other (Nat.ne_of_lt (Nat.lt_of_lt_of_le hx dur.next))).trans (a1.during.old x hx)
          · intro x hx
            exact (set_other (Nat.ne_of_lt hx)).trans (a1.old x (Nat.lt_succ_of_lt hx))
          · intro p hp
            rcases List.mem_cons.1 hp with rfl | hp
            · exact .inr (.inl ⟨[], .nil⟩)
            · rcases a1.memo p hp with h1 | ⟨i, r', K, hd, hK⟩ | h1
              · exact .inl h1
              · exact .inr (.inl ⟨_, .cons (.index ho hd) hK⟩)
              · exact .inr (.inr h1)

theorem deepcopyOp_linked {M : Memory V B W} (L : Linked h) {n : Nat} (hu : Unshared h r) : Linked (deepcopyOp M h n r).1 := by
  unfold deepcopyOp
  split
  · next s y he =>
    have dur : During h (⟨h, []⟩ : St V B W C) := ⟨L, Nat.le_refl _, fun _ _ => rfl⟩
    cases e : h.get r with
    | none =>
      cases n with
      | zero => cases he
      | succ n => unfold deepcopy at he; simp [e] at he
    | some o =>
      by_cases hn : head o = none
      · cases n with
        | zero => cases he
        | succ n =>
          unfold deepcopy at he
          rw [e] at he
          cases o <;> simp [head] at hn
          · simp at he
          · simp only [List.lookup_nil] at he; exact (copyValue_did (P := fun _ => True) dur L he).during.linked
          · simp at he
          · simp only [List.lookup_nil] at he; exact (copyValue_did (P := fun _ => True) dur L he).during.linked
      · exact (deepcopy_good M L n _ r s y o dur e hn hu (by intro p hp; cases hp) he).1.during.linked
  · exact L

theorem exec_linked (L : Linked h) {env : List Ref} (henv : ∀ a ∈ env, a < h.next) {op : Op V B W} (hc : Careful h env op) :
    Linked (exec E h env op).1 := by
  have w1 : ∀ (r : Nat) (f : Ref → Out V B W C), (∀ a, env[r]? = some a → Linked (f a).1) → Linked (with1 env r h f).1 := by
    intro r f hf
    unfold with1
    split
    · next a ha => exact hf a ha
    · exact L
  have w2 : ∀ (r s : Nat) (f : Ref → Ref → Out V B W C), (∀ a b, env[r]? = some a → env[s]? = some b → Linked (f a b).1) →
      Linked (with2 env r s h f).1 := by
    intro r s f hf
    unfold with2
    split
    · next a b ha hb => exact hf a b ha hb
    · exact L
  cases op with
  | getAttr r n => exact w1 _ _ fun a _ => (getAttr_keeps L (Nat.le_refl _)).linked
  | getItem r i => exact w1 _ _ fun a _ => (getItem_keeps L (Nat.le_refl _)).linked
  | getValue r => exact w1 _ _ fun a _ => (getValue_keeps (n := 0) L).linked
  | setValue r s => exact w2 _ _ _ fun a b _ _ => (setValue_keeps (n := 0) L).linked
  | setAttr r n s => exact w2 _ _ _ fun a b _ hb => setAttr_linked L (henv b (List.mem_of_getElem? hb)) (hc b hb)
  | setPath r p s => exact w2 _ _ _ fun a b _ hb => setPath_linked L (henv b (List.mem_of_getElem? hb)) (hc b hb)
  | setItem r i s => exact w2 _ _ _ fun a b ha hb => setItem_linked L (hc a b ha hb).1 (hc a b ha hb).2
  | append r s => exact w2 _ _ _ fun a b ha hb => append_linked L (hc a b ha hb).1 (hc a b ha hb).2
  | resize r n k => exact w1 _ _ fun a _ => resize_linked L
  | newElement r => exact w1 _ _ fun a _ => newElement_linked L
  | newIds m => exact newIds_linked L hc
  | const v => exact (keeps_value (n := 0) L rfl).linked
  | array v => exact (newArray_keeps (n := 0) L E.mem v).linked
  | write r b w => exact w1 _ _ fun a _ => write_linked L
  | view r w => exact w1 _ _ fun a _ => view_linked L
  | deepcopy r n => exact w1 _ _ fun a ha => deepcopyOp_linked L (hc a ha)

theorem reach_nil {up : Bool} {o : Ref} (hr : Reach up h [] o) : False := by
  induction hr with
  | here hm => cases hm
  | next _ _ _ ih => exact ih

/-- Links are right after a careful program. -/
theorem prog_linked {ops : List (Op V B W)} {env : List Ref} (L : Linked h) (hs : Sound true h) (henv : ∀ a ∈ env, a < h.next)
    (hc : CarefulProg E h env ops) : Linked (prog E h env ops).1 := by
  induction ops generalizing h env with
  | nil => exact L
  | cons op rest ih =>
    have a : Apart true h env [] := ⟨hs, henv, by simp, by
      intro o x _ hb
      exact (reach_nil hb).elim⟩
    have b := (step_apart (E := E) a op (fun _ => rfl)).1
    unfold prog
    refine ih ?_ b.sound b.left hc.2
    have := exec_linked (E := E) L henv hc.1
    unfold step
    split <;> (next e => rw [e] at this; exact this)

end Verif.HeapSpec
