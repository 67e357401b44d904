import Verif.Spec.HeapNode
import Verif.Lemmas.HeapStep
import Verif.Lemmas.HeapPlace
/-!
The parent of a child or element is the node that holds it, in all states of careful programs (C77).
-/
namespace Verif.HeapSpec
open Verif.Ids Verif.Heap Verif.TreeSpec

variable {V B W C : Type} {E : Env V B W C} {h h' h'' : Heap V B W C} {r s c : Ref}

/-- Children and elements of an object. -/
inductive SlotO : Obj V B W C → Key → Ref → Prop
  | field {q m d p t z x n s} : d n = some s → SlotO (.struct q m d p t z x) (.field n) s
  | index {q m l p z x i s} : l[i]? = some (some s) → SlotO (.aos q m (some l) p z x) (.index i) s

/-- Children are in the metadata, and a toplevel has an empty path. -/
def OK : Obj V B W C → Prop
  | .struct q m d _ t _ _ => (t = true → q = []) ∧ (∀ n s, d n = some s → n ∈ mnames m) ∧ WFMFields m
  | .aos _ m _ _ _ _ => WFMFields m
  | _ => True

theorem Slot.slotO {k : Key} (x : Slot h r k s) : ∃ o, h.get r = some o ∧ SlotO o k s := by
  cases x with
  | field hg _ hd => exact ⟨_, hg, .field hd⟩
  | index hg hl => exact ⟨_, hg, .index hl⟩

theorem SlotO.slot {k : Key} {o : Obj V B W C} (hg : h.get r = some o) (ok : OK o) (x : SlotO o k s) : Slot h r k s := by
  cases x with
  | field hd => exact .field hg (ok.2.1 _ _ hd) hd
  | index hl => exact .index hg hl

theorem ref_ne {x n r : Nat} (h1 : n ≤ x) (h2 : r < n) : x ≠ r := by omega
theorem ref_le {n x : Nat} (h : n + 1 ≤ x) : n ≤ x := by omega

/-- Kind, path, parent and whether it is a toplevel. -/
def head : Obj V B W C → Option (Nat × List Name × Ref × Bool)
  | .leaf _ _ p => some (0, [], p, false)
  | .struct q _ _ p t _ _ => some (1, q, p, t)
  | .aos q _ _ p _ _ => some (2, q, p, false)
  | _ => none

def qOf : Obj V B W C → List Name
  | .struct q _ _ _ _ _ _ => q
  | .aos q _ _ _ _ _ => q
  | _ => []

/-- What a node held by `r` (with path `q`) as `k` must be. -/
def Fits (r : Ref) (q : List Name) : Key → Option (Nat × List Name × Ref × Bool) → Prop
  | .field n, x => x = some (0, [], r, false) ∨ x = some (1, q ++ [n], r, false) ∨ x = some (2, q ++ [n], r, false)
  | .index _, x => x = some (1, q, r, false)

structure Linked (h : Heap V B W C) : Prop where
  above : ∀ o, h.next ≤ o → h.get o = none
  fits : ∀ r o k s, h.get r = some o → SlotO o k s → ∃ os, h.get s = some os ∧ Fits r (qOf o) k (head os)
  ok : ∀ r o, h.get r = some o → OK o

theorem Linked.lt (L : Linked h) {o : Obj V B W C} (hg : h.get r = some o) : r < h.next := by
  refine Nat.lt_of_not_le fun hl => ?_
  rw [L.above r hl] at hg; cases hg

theorem head_q {o o' : Obj V B W C} (e : head o' = head o) : qOf o' = qOf o := by
  cases o <;> cases o' <;> simp [head, qOf] at e ⊢ <;> simp [e]

/-- A new object without children. -/
theorem Linked.alloc (L : Linked h) {o : Obj V B W C} (hn : ∀ k s, ¬ SlotO o k s)
    (ht : OK o) : Linked (h.alloc o).1 := by
  have hget : ∀ x, x ≠ h.next → (h.alloc o).1.get x = h.get x := by intro x hx; simp [Heap.alloc, hx]
  have hnew : (h.alloc o).1.get h.next = some o := by simp [Heap.alloc]
  refine ⟨?_, ?_, ?_⟩
  · intro x hx
    have : h.next + 1 ≤ x := hx
    rw [hget x (ref_ne this (Nat.lt_succ_self _))]; exact L.above x (ref_le this)
  · intro x ox k y hx hk
    by_cases e : x = h.next
    · subst e; rw [hnew] at hx; cases hx; exact absurd hk (hn k y)
    · rw [hget x e] at hx
      obtain ⟨os, hy, hf⟩ := L.fits x ox k y hx hk
      exact ⟨os, by rw [hget y (Nat.ne_of_lt (L.lt hy))]; exact hy, hf⟩
  · intro x ox hx
    by_cases e : x = h.next
    · subst e; rw [hnew] at hx; cases hx; exact ht
    · rw [hget x e] at hx; exact L.ok _ _ hx

/-- A node gets other children or elements, which fit. -/
theorem Linked.set (L : Linked h) {o o' : Obj V B W C} (hg : h.get r = some o) (he : head o' = head o) (ht : OK o')
    (hk : ∀ k s, SlotO o' k s → SlotO o k s ∨ ∃ os, h.get s = some os ∧ Fits r (qOf o) k (head os)) :
    Linked (h.set r o') := by
  have hh : ∀ x ox, h.get x = some ox → ∃ ox', (h.set r o').get x = some ox' ∧ head ox' = head ox := by
    intro x ox hx
    by_cases e : x = r
    · subst e; rw [hg] at hx; cases hx; exact ⟨_, set_get .., he⟩
    · exact ⟨ox, by rw [set_other e]; exact hx, rfl⟩
  refine ⟨?_, ?_, ?_⟩
  · intro x hx
    have hlt := L.lt hg
    have hx' : h.next ≤ x := hx
    rw [set_other (ref_ne hx' hlt)]; exact L.above x hx'
  · intro x ox k y hx hs
    by_cases e : x = r
    · subst e
      rw [set_get] at hx; cases hx
      have : ∃ os, h.get y = some os ∧ Fits x (qOf o) k (head os) := by
        rcases hk k y hs with h1 | h1
        · exact L.fits x o k y hg h1
        · exact h1
      obtain ⟨os, hy, hf⟩ := this
      obtain ⟨oy, hoy, e⟩ := hh y os hy
      refine ⟨oy, hoy, ?_⟩
      rw [e, head_q he]; exact hf
    · rw [set_other e] at hx
      obtain ⟨os, hy, hf⟩ := L.fits x ox k y hx hs
      obtain ⟨oy, hoy, e⟩ := hh y os hy
      exact ⟨oy, hoy, by rw [e]; exact hf⟩
  · intro x ox hx
    by_cases e : x = r
    · subst e
      rw [set_get] at hx; cases hx
      exact ht
    · rw [set_other e] at hx; exact L.ok _ _ hx

/-- A node that is nowhere gets another parent. -/
theorem Linked.setParent (L : Linked h) {p : Ref} (hu : Unheld h s) (he : setParent h s p = .ok h') :
    Linked h' ∧ h'.next = h.next ∧ (∀ x, x ≠ s → h'.get x = h.get x) ∧
      ∃ o o', h.get s = some o ∧ h'.get s = some o' ∧ (∀ k c, SlotO o' k c ↔ SlotO o k c) ∧
        ∃ a q p' t, head o = some (a, q, p', t) ∧ head o' = some (a, q, p, t) := by
  have key : ∀ o o', h.get s = some o → (∀ k c, SlotO o' k c ↔ SlotO o k c) → qOf o' = qOf o →
      OK o' → Linked (h.set s o') := by
    intro o o' hg hs hq ht
    refine ⟨?_, ?_, ?_⟩
    · intro x hx
      have hlt := L.lt hg
      have hx' : h.next ≤ x := hx
      rw [set_other (ref_ne hx' hlt)]; exact L.above x hx'
    · intro x ox k y hx hk
      have hex : ∃ ox', h.get x = some ox' ∧ SlotO ox' k y ∧ qOf ox = qOf ox' := by
        by_cases e : x = s
        · subst e; rw [set_get] at hx; cases hx; exact ⟨o, hg, (hs k y).1 hk, hq⟩
        · rw [set_other e] at hx; exact ⟨ox, hx, hk, rfl⟩
      obtain ⟨ox', hx', hk', hq'⟩ := hex
      obtain ⟨os, hy, hf⟩ := L.fits x ox' k y hx' hk'
      have : y ≠ s := by rintro rfl; exact hu x k (hk'.slot hx' (L.ok _ _ hx'))
      exact ⟨os, by rw [set_other this]; exact hy, by rw [hq']; exact hf⟩
    · intro x ox hx
      by_cases e : x = s
      · subst e; rw [set_get] at hx; cases hx; exact ht
      · rw [set_other e] at hx; exact L.ok _ _ hx
  unfold Verif.Heap.setParent at he
  split at he
  · next l v p0 hg =>
    cases he
    have hs : ∀ k c, SlotO (.leaf l v p : Obj V B W C) k c ↔ SlotO (.leaf l v p0 : Obj V B W C) k c :=
      fun k c => ⟨nofun, nofun⟩
    exact ⟨key _ _ hg hs rfl trivial, rfl, fun x hx => set_other hx, _, _, hg, set_get .., hs, _, _, _, _, rfl, rfl⟩
  · next q m d p0 t z x hg =>
    cases he
    have hs : ∀ k c, SlotO (.struct q m d p t z x : Obj V B W C) k c ↔ SlotO (.struct q m d p0 t z x : Obj V B W C) k c :=
      fun k c => ⟨fun a => by cases a with | field a => exact .field a, fun a => by cases a with | field a => exact .field a⟩
    exact ⟨key _ _ hg hs rfl (L.ok _ _ hg : OK _), rfl, fun x hx => set_other hx, _, _, hg, set_get .., hs, _, _, _, _, rfl, rfl⟩
  · next q m i p0 z x hg =>
    cases he
    have hs : ∀ k c, SlotO (.aos q m i p z x : Obj V B W C) k c ↔ SlotO (.aos q m i p0 z x : Obj V B W C) k c :=
      fun k c => ⟨fun a => by cases a with | index a => exact .index a, fun a => by cases a with | index a => exact .index a⟩
    exact ⟨key _ _ hg hs rfl (L.ok _ _ hg : OK _), rfl, fun x hx => set_other hx, _, _, hg, set_get .., hs, _, _, _, _, rfl, rfl⟩
  · cases he

/-- What most operations do: links stay right and old nodes that are nowhere stay so. -/
structure Keeps (n : Nat) (h h' : Heap V B W C) : Prop where
  linked : Linked h'
  next : h.next ≤ h'.next
  back : ∀ x k b, b < n → Slot h' x k b → Slot h x k b
  heads : ∀ x, x < h.next → (h'.get x).map head = (h.get x).map head

theorem Keeps.refl {n : Nat} (L : Linked h) : Keeps n h h := ⟨L, Nat.le_refl _, fun _ _ _ _ h => h, fun _ _ => rfl⟩
theorem Keeps.trans {n : Nat} (a : Keeps n h h') (b : Keeps n h' h'') : Keeps n h h'' :=
  ⟨b.linked, Nat.le_trans a.next b.next, fun x k c hc hs => a.back x k c hc (b.back x k c hc hs),
    fun x hx => (b.heads x (Nat.lt_of_lt_of_le hx a.next)).trans (a.heads x hx)⟩
theorem Keeps.unheld {n : Nat} (a : Keeps n h h') (hb : s < n) (hu : Unheld h s) : Unheld h' s :=
  fun x k hs => hu x k (a.back x k s hb hs)

theorem Linked.keeps_alloc {n : Nat} (L : Linked h) {o : Obj V B W C} (hn : ∀ k s, ¬ SlotO o k s)
    (ht : OK o) : Keeps n h (h.alloc o).1 := by
  refine ⟨L.alloc hn ht, Nat.le_succ _, fun x k b _ hs => ?_, fun x hx => by simp [Heap.alloc, Nat.ne_of_lt hx]⟩
  obtain ⟨ox, hx, hk⟩ := hs.slotO
  by_cases e : x = h.next
  · subst e; rw [show (h.alloc o).1.get h.next = some o by simp [Heap.alloc]] at hx; cases hx; exact absurd hk (hn _ _)
  · rw [show (h.alloc o).1.get x = h.get x by simp [Heap.alloc, e]] at hx
    exact hk.slot hx (L.ok _ _ hx)

theorem Linked.keeps_set {n : Nat} (L : Linked h) {o o' : Obj V B W C} (hg : h.get r = some o) (he : head o' = head o) (ht : OK o')
    (hk : ∀ k s, SlotO o' k s → SlotO o k s ∨ (n ≤ s ∧ ∃ os, h.get s = some os ∧ Fits r (qOf o) k (head os))) :
    Keeps n h (h.set r o') := by
  refine ⟨L.set hg he ht fun k s hs => (hk k s hs).imp id And.right, Nat.le_refl _, fun x k b hb hs => ?_, fun x _ => ?_⟩
  rotate_left
  · by_cases e : x = r
    · subst e; rw [set_get, hg]; simp [he]
    · rw [set_other e]
  obtain ⟨ox, hx, hs⟩ := hs.slotO
  by_cases e : x = r
  · subst e; rw [set_get] at hx; cases hx
    rcases hk k b hs with h1 | ⟨h1, -⟩
    · exact h1.slot hg (L.ok _ _ hg)
    · exact absurd hb (Nat.not_lt.2 h1)
  · rw [set_other e] at hx; exact hs.slot hx (L.ok _ _ hx)

theorem noslot_value {o : Obj V B W C} (ho : head o = none) (k : Key) (s : Ref) : ¬ SlotO o k s := by
  rintro (_ | _) <;> simp [head] at ho

theorem noslot_leaf {l : LeafMeta} {v : Option Ref} {p : Ref} (k : Key) (s : Ref) : ¬ SlotO (.leaf l v p : Obj V B W C) k s := nofun

theorem keeps_value {n : Nat} (L : Linked h) {o : Obj V B W C} (ho : head o = none) : Keeps n h (h.alloc o).1 :=
  L.keeps_alloc (noslot_value ho) (by cases o <;> first | trivial | simp [head] at ho)

theorem newArray_keeps {n : Nat} (L : Linked h) (M : Memory V B W) (v : V) : Keeps n h (newArray M h v).1 := by
  have a := keeps_value (n := n) L (o := .buf (M.copyOf v).1) rfl
  exact a.trans (keeps_value a.linked rfl)

theorem newValue_keeps {n : Nat} (L : Linked h) (M : Memory V B W) (l : LeafMeta) (v : V) : Keeps n h (newValue M h l v).1 := by
  unfold newValue
  split
  · exact keeps_value L rfl
  · exact newArray_keeps L M v

/-- Old objects stay as they are when an object is made. -/
theorem newArray_get (M : Memory V B W) (v : V) {x : Ref} (hx : x < h.next) : (newArray M h v).1.get x = h.get x := by
  have h1 : x ≠ h.next := Nat.ne_of_lt hx
  have h2 : x ≠ h.next + 1 := Nat.ne_of_lt (Nat.lt_succ_of_lt hx)
  simp [newArray, Heap.alloc, h1, h2]

theorem newValue_get (M : Memory V B W) (l : LeafMeta) (v : V) {x : Ref} (hx : x < h.next) :
    (newValue M h l v).1.get x = h.get x := by
  unfold newValue
  split
  · have h1 : x ≠ h.next := Nat.ne_of_lt hx
    simp [Heap.alloc, h1]
  · exact newArray_get M v hx

theorem leaf_keeps {n : Nat} (L : Linked h) {l l' : LeafMeta} {v v' : Option Ref} {p : Ref} (hg : h.get r = some (.leaf l v p)) :
    Keeps n h (h.set r (.leaf l' v' p)) :=
  L.keeps_set hg rfl (by first | trivial | exact (L.ok _ _ hg : OK _)) fun _ _ hs => nomatch hs

theorem loadChild_keeps {n : Nat} (L : Linked h) {x : C} {name : Name} : Keeps n h (loadChild E h x name c).1 := by
  unfold loadChild
  split
  · next l v p hg =>
    split
    · exact .refl L
    · exact .refl L
    · next v' _ =>
      have a := newValue_keeps (n := n) L E.mem l v'
      exact a.trans (leaf_keeps a.linked (by rw [newValue_get _ _ _ (L.lt hg)]; exact hg))
  · next q m d p t z y hg =>
    split
    · exact .refl L
    · exact L.keeps_set hg rfl (by first | trivial | exact (L.ok _ _ hg : OK _)) fun k s hs => .inl (by cases hs with | field a => exact .field a)
  · next q m i p z y hg =>
    split
    · exact .refl L
    · exact L.keeps_set hg rfl (by first | trivial | exact (L.ok _ _ hg : OK _)) fun k s hs => .inl (by cases hs with | index a => exact .index a)
  · exact .refl L

theorem newNode_noslot (q : List Name) (z : Bool) (r : Ref) (cm : Meta) (k : Key) (s : Ref) :
    ¬ SlotO (newNode q z r cm : Obj V B W C) k s := by
  intro x
  cases cm with
  | leaf => cases x
  | struct m => cases x with | field hd => cases hd
  | aos m =>
    cases z <;> simp only [newNode] at x <;> cases x
    rename_i hi; simp at hi

theorem newNode_fits (q : List Name) (n : Name) (z : Bool) (r : Ref) (cm : Meta) :
    Fits r q (.field n) (head (newNode (q ++ [n]) z r cm : Obj V B W C)) := by
  cases cm <;> simp [newNode, head, Fits]

theorem lookup_mem {m : MFields} {k : Name} {cm : Meta} (hl : lookupMeta m k = some cm) : k ∈ mnames m := by
  induction m using MFields.rec (motive_1 := fun _ => True) with
  | leaf => trivial
  | struct => trivial
  | aos => trivial
  | nil => cases hl
  | cons n x r _ ih =>
    unfold lookupMeta at hl
    split at hl
    · next e => simp [mnames, e]
    · simp [mnames, ih hl]

theorem lookup_wf {m : MFields} {k : Name} {cm : Meta} (hl : lookupMeta m k = some cm) (hw : WFMFields m) : WFMeta cm := by
  induction m using MFields.rec (motive_1 := fun _ => True) with
  | leaf => trivial
  | struct => trivial
  | aos => trivial
  | nil => cases hl
  | cons n x r _ ih =>
    unfold lookupMeta at hl
    split at hl
    · cases hl; exact hw.2.1
    · exact ih hl hw.2.2

theorem newNode_ok {q : List Name} {z : Bool} {cm : Meta} (hw : WFMeta cm) : OK (newNode q z r cm : Obj V B W C) := by
  cases cm with
  | leaf => trivial
  | struct m => exact ⟨nofun, nofun, hw⟩
  | aos m => exact hw

theorem getAttr_keeps {n : Nat} (L : Linked h) (hn : n ≤ h.next) {k : Name} : Keeps n h (Heap.getAttr E h r k).1 := by
  unfold Heap.getAttr
  split
  · next q m d p t z x hg =>
    split
    · exact .refl L
    · split
      · exact .refl L
      · next cm hcm =>
        have a := L.keeps_alloc (n := n) (newNode_noslot (V := V) (B := B) (W := W) (C := C) (q ++ [k]) z r cm)
          (newNode_ok (lookup_wf hcm (L.ok _ _ hg : OK _).2.2))
        have hlt := L.lt hg
        have hg' : (h.alloc (newNode (q ++ [k]) z r cm)).1.get r = some (.struct q m d p t z x) := by
          rw [show (h.alloc (newNode (q ++ [k]) z r cm)).1.get r = h.get r by simp [Heap.alloc, Nat.ne_of_lt hlt]]; exact hg
        have b := a.trans (a.linked.keeps_set (n := n) hg'
          (o' := .struct q m (fun j => if j = k then some h.next else d j) p t z x) rfl
          ⟨(L.ok _ _ hg : OK _).1, by
            intro j y hj
            dsimp only at hj
            split at hj
            · next e => subst e; exact lookup_mem hcm
            · exact (L.ok _ _ hg : OK _).2.1 _ _ hj, (L.ok _ _ hg : OK _).2.2⟩ (by
            intro k' s hs
            cases hs with
            | field hd =>
              dsimp only at hd
              split at hd
              · next e =>
                cases hd; subst e
                exact .inr ⟨hn, _, alloc_get .., newNode_fits q _ z r cm⟩
              · exact .inl (.field hd)))
        simp only
        split
        · exact b.trans (loadChild_keeps b.linked)
        · exact b
  · exact .refl L

theorem getItem_keeps {n : Nat} (L : Linked h) (hn : n ≤ h.next) {i : Nat} : Keeps n h (Heap.getItem E h r i).1 := by
  unfold Heap.getItem
  split
  · split <;> exact .refl L
  · next q m v p x hg =>
    split
    · exact .refl L
    · next items hi =>
      have hsl : ∀ (j : Nat) (s : Ref), items[j]? = some (some s) → ∃ l, v = some l ∧ l[j]? = some (some s) := by
        intro j s hs
        unfold loadItems at hi
        split at hi
        · cases hi; exact ⟨_, rfl, hs⟩
        · cases hi; simp at hs
        · next y =>
          cases e : E.loader.size y with
          | none => rw [e] at hi; cases hi
          | some w =>
            rw [e] at hi; cases hi
            simp [List.getElem?_replicate] at hs
      have a := L.keeps_set (n := n) hg (o' := .aos q m (some items) p true x) rfl (L.ok _ _ hg : OK _) (by
        intro k s hs
        cases hs with
        | index hs =>
          obtain ⟨l, rfl, hl⟩ := hsl _ _ hs
          exact .inl (.index hl))
      simp only
      split
      · exact a
      · next x hx =>
        have hlt := L.lt hg
        have b := a.trans (a.linked.keeps_alloc (n := n) (o := .struct q m (fun _ => none) r false true none)
          (by intro k s hs; cases hs with | field hd => cases hd) ⟨nofun, nofun, (L.ok _ _ hg : OK _)⟩)
        have hg' : ((h.set r (.aos q m (some items) p true (some x))).alloc (.struct q m (fun _ => none) r false true none)).1.get r =
            some (.aos q m (some items) p true (some x)) := by
          simp [Heap.alloc, Heap.set, Nat.ne_of_lt hlt]
        have c := b.trans (b.linked.keeps_set (n := n) hg' (o' := .aos q m (some (items.set i (some h.next))) p true (some x)) rfl (L.ok _ _ hg : OK _) (by
          intro k s hs
          cases hs with
          | @index _ _ _ _ _ _ j _ hs =>
            by_cases e : i = j
            · subst e
              rw [List.getElem?_set_self (by
                have := List.getElem?_eq_some_iff.1 hx; exact this.1)] at hs
              cases hs
              exact .inr ⟨hn, _, alloc_get .., rfl⟩
            · rw [List.getElem?_set_ne e] at hs
              exact .inl (.index hs)))
        split
        · exact c
        · refine c.trans (c.linked.keeps_set (o := .struct q m (fun _ => none) r false true none) ?_ rfl ⟨nofun, nofun, (L.ok _ _ hg : OK _)⟩ ?_)
          · have : h.next ≠ r := ref_ne (Nat.le_refl _) hlt
            simp [Heap.set, Heap.alloc, this]
          · intro k s hs; cases hs with | field hd => cases hd
      · exact a
      · exact a
  · exact .refl L

theorem walk_keeps {n : Nat} (L : Linked h) (hn : n ≤ h.next) {p : List (Name × Option Nat)} : Keeps n h (walk E h r p).1 := by
  induction p generalizing h r with
  | nil => exact .refl L
  | cons x rest ih =>
    obtain ⟨k, i⟩ := x
    unfold walk
    have a := getAttr_keeps (E := E) (r := r) (k := k) L hn
    rcases e : Heap.getAttr E h r k with ⟨h1, res⟩
    rw [e] at a
    have hn1 := Nat.le_trans hn a.next
    split
    · next h1 c e' =>
      cases e'
      cases i with
      | none => exact a.trans (ih a.linked hn1)
      | some i =>
        dsimp only
        have b := getItem_keeps (E := E) (r := c) (i := i) a.linked hn1
        rcases e2 : Heap.getItem E h1 c i with ⟨h2, res2⟩
        rw [e2] at b
        have hn2 := Nat.le_trans hn1 b.next
        split
        · next e3 => cases e3; exact (a.trans b).trans (ih b.linked hn2)
        · next e3 => cases e3; exact a.trans b
        · next e3 => cases e3; exact a.trans b
    · next e' => cases e'; exact a
    · next e' => cases e'; exact a

theorem getValue_keeps {n : Nat} (L : Linked h) : Keeps n h (getValue E h r).1 := by
  unfold getValue
  split
  · exact .refl L
  · next l p hg =>
    have a := newValue_keeps (n := n) L E.mem l (E.default l)
    dsimp only
    split
    · exact a
    · exact a.trans (leaf_keeps a.linked (by rw [newValue_get _ _ _ (L.lt hg)]; exact hg))
  · exact .refl L

theorem storeValue_keeps {n : Nat} (L : Linked h) {a : Ref} {cast : Bool} : Keeps n h (storeValue E h r a cast).1 := by
  unfold storeValue
  split
  · next l old p v hg _ =>
    dsimp only
    split
    · exact .refl L
    · exact leaf_keeps L hg
    · next v' _ =>
      have a := newValue_keeps (n := n) L E.mem l v'
      exact a.trans (leaf_keeps a.linked (by rw [newValue_get _ _ _ (L.lt hg)]; exact hg))
  · exact .refl L

theorem setValue_keeps {n : Nat} (L : Linked h) : Keeps n h (Heap.setValue E h r s).1 := by
  unfold Heap.setValue
  split
  · split
    · exact .refl L
    · split
      · have a := getValue_keeps (n := n) (E := E) (r := s) L
        rcases e : getValue E h s with ⟨h1, res⟩
        rw [e] at a
        split
        · next e' => cases e'; exact a.trans (storeValue_keeps a.linked)
        · next e' => cases e'; exact a
      · exact storeValue_keeps L
  · exact .refl L

theorem storeChild_linked (L : Linked h) {k : Name} (hm : ∀ q m d p t z x, h.get r = some (.struct q m d p t z x) → k ∈ mnames m) (hu : Unheld h s) {o : Obj V B W C} (hs : h.get s = some o)
    (ho : ∀ q m d p t z x, h.get r = some (.struct q m d p t z x) → ∃ p', head o = some (1, q ++ [k], p', false) ∨ head o = some (2, q ++ [k], p', false)) :
    Linked (storeChild h r k s).1 := by
  unfold storeChild
  split
  · next q m d p t z x hg =>
    obtain ⟨p', ho⟩ := ho _ _ _ _ _ _ _ hg
    have hne : s ≠ r := by
      intro e
      rw [e, hg] at hs; cases hs
      rcases ho with ho | ho <;> simp [head] at ho
    generalize ho' : (Obj.struct q m (fun n => if n = k then some s else d n) p t z x : Obj V B W C) = o'
    -- the parent first
    obtain ⟨h1, e1⟩ : ∃ h1, setParent h s r = .ok h1 := by
      unfold Verif.Heap.setParent
      rw [hs]
      cases o <;> simp [head] at ho <;> exact ⟨_, rfl⟩
    obtain ⟨L1, _, hoth, o1, o2, hg1, hg2, _, a, q1, p1, t1, hh1, hh2⟩ := L.setParent hu e1
    rw [hs] at hg1; cases hg1
    have e2 : setParent (h.set r o') s r = .ok (h1.set r o') := by
      unfold Verif.Heap.setParent at e1 ⊢
      rw [set_other hne]
      rw [hs] at e1 ⊢
      cases o <;> simp [head] at ho <;> simp only [Except.ok.injEq] at e1 ⊢ <;> subst e1 <;>
        (simp only [Heap.set, Heap.mk.injEq, true_and]; funext y
         by_cases e : y = s
         · subst e; simp [hne]
         · simp [e])
    rw [e2]
    have hgr : h1.get r = some (.struct q m d p t z x) := by rw [hoth r (Ne.symm hne)]; exact hg
    subst ho'
    refine L1.set hgr rfl ⟨(L.ok _ _ hg : OK _).1, ?_, (L.ok _ _ hg : OK _).2.2⟩ ?_
    · intro j y hj
      dsimp only at hj
      split at hj
      · next e => subst e; exact hm _ _ _ _ _ _ _ hg
      · exact (L.ok _ _ hg : OK _).2.1 _ _ hj
    intro k' s' hs'
    cases hs' with
    | field hd =>
      dsimp only at hd
      split at hd
      · next e =>
        cases hd; subst e
        refine .inr ⟨o2, hg2, ?_⟩
        rw [hh2]
        rcases ho with ho | ho
        · rw [hh1] at ho; cases ho; exact .inr (.inl rfl)
        · rw [hh1] at ho; cases ho; exact .inr (.inr rfl)
      · exact .inl (.field hd)
  · exact L

theorem loadChild_get {x : C} {name : Name} {y : Ref} (hy : y < h.next) (hc : y ≠ c) :
    (loadChild E h x name c).1.get y = h.get y := by
  unfold loadChild
  split
  · split
    · rfl
    · rfl
    · rw [set_other hc, newValue_get _ _ _ hy]
  · split
    · rfl
    · rw [set_other hc]
  · split
    · rfl
    · rw [set_other hc]
  · rfl

theorem loadChild_ok {x : C} {name : Name} {l : List Ref} (he : (loadChild E h x name c).2 = .ok l) : l = [c] := by
  unfold loadChild at he
  split at he
  · split at he <;> cases he <;> rfl
  · split at he <;> cases he <;> rfl
  · split at he <;> cases he <;> rfl
  · cases he

/-- The child that an attribute is. -/
theorem getAttr_slot (L : Linked h) {k : Name} (he : Heap.getAttr E h r k = (h', .ok [c])) :
    ∃ q m d p t z x, h'.get r = some (.struct q m d p t z x) ∧ d k = some c := by
  unfold Heap.getAttr at he
  split at he
  · next q m d p t z x hg =>
    split at he
    · next hd => cases he; exact ⟨_, _, _, _, _, _, _, hg, hd⟩
    · split at he
      · cases he
      · next cm _ =>
        have hlt := L.lt hg
        have hne : r ≠ h.next := Nat.ne_of_lt hlt
        dsimp only at he
        split at he
        · rename_i y
          have hl := loadChild_ok (congrArg Prod.snd he)
          cases hl
          have := congrArg Prod.fst he
          dsimp only at this
          refine ⟨q, m, fun n => if n = k then some h.next else d n, p, t, true, some y, ?_, by simp [Heap.alloc]⟩
          rw [← this]
          exact (loadChild_get (Nat.lt_succ_of_lt hlt) hne).trans (set_get ..)
        · cases he
          exact ⟨_, _, _, _, _, _, _, set_get .., by simp [Heap.alloc]⟩
  · cases he

theorem setAttr_linked (L : Linked h) {k : Name} (hs : s < h.next) (hu : IsBranch h s → Unheld h s) :
    Linked (Heap.setAttr E h r k s).1 := by
  unfold Heap.setAttr
  have a := getAttr_keeps (E := E) (r := r) (k := k) L (Nat.le_refl _)
  rcases e : Heap.getAttr E h r k with ⟨h1, res⟩
  rw [e] at a
  split
  · next h1 c e' =>
    cases e'
    obtain ⟨q, m, d, p, t, z, x, hg, hd⟩ := getAttr_slot L e
    have hfit := a.linked.fits r _ (.field k) c hg (.field hd)
    have hmem : ∀ q m d p t z x, h1.get r = some (.struct q m d p t z x) → k ∈ mnames m := by
      intro q' m' d' p' t' z' x' hg'
      rw [hg] at hg'; cases hg'
      exact (a.linked.ok _ _ hg : OK _).2.1 _ _ hd
    have hbr : ∀ o a' q' p' t', h1.get s = some o → head o = some (a' + 1, q', p', t') → Unheld h1 s := by
      intro o a' q' p' t' ho hh
      refine a.unheld hs (hu ?_)
      have := a.heads s hs
      rw [ho] at this
      unfold IsBranch
      cases e2 : h.get s with
      | none => rw [e2] at this; cases this
      | some o' =>
        rw [e2] at this
        simp only [Option.map_some, Option.some.injEq, hh] at this
        cases o' <;> simp [head] at this <;> trivial
    obtain ⟨oc, hoc, hfit⟩ := hfit
    split
    · next h2 h3 =>
      split
      · exact a.linked
      · next hq =>
        rw [hoc] at h2; cases h2
        have hq := Decidable.not_not.1 hq
        subst hq
        refine storeChild_linked a.linked hmem (hbr _ 0 _ _ _ h3 rfl) h3 ?_
        intro q' m' d' p' t' z' x' hg'
        rw [hg] at hg'; cases hg'
        simp [Fits, head, qOf] at hfit
        have := (a.linked.ok _ _ h3 : OK _).1
        rw [hfit.1] at this
        simp at this
        exact ⟨_, .inl (by unfold head; rw [this, hfit.1])⟩
    · exact a.linked
    · next h2 h3 =>
      split
      · exact a.linked
      · next hq =>
        rw [hoc] at h2; cases h2
        have hq := Decidable.not_not.1 hq
        subst hq
        refine storeChild_linked a.linked hmem (hbr _ 1 _ _ _ h3 rfl) h3 ?_
        intro q' m' d' p' t' z' x' hg'
        rw [hg] at hg'; cases hg'
        simp [Fits, head, qOf] at hfit
        exact ⟨_, .inr (by unfold head; rw [hfit.1])⟩
    · exact a.linked
    · exact (setValue_keeps (n := 0) a.linked).linked
  · next e' => cases e'; exact a.linked
  · next e' => cases e'; exact a.linked

theorem isBranch_iff (ht : (h'.get s).map head = (h.get s).map head) : IsBranch h' s ↔ IsBranch h s := by
  unfold IsBranch
  cases e : h.get s with
  | none => cases e' : h'.get s with
    | none => rfl
    | some o => rw [e, e'] at ht; cases ht
  | some o => cases e' : h'.get s with
    | none => rw [e, e'] at ht; cases ht
    | some o' =>
      rw [e, e'] at ht
      simp only [Option.map_some, Option.some.injEq] at ht
      cases o <;> cases o' <;> simp [head] at ht ⊢

theorem setPath_linked (L : Linked h) {p : List (Name × Option Nat)} (hs : s < h.next) (hu : IsBranch h s → Unheld h s) :
    Linked (Heap.setPath E h r p s).1 := by
  unfold Heap.setPath
  have a := walk_keeps (E := E) (r := r) (p := p) L (Nat.le_refl _)
  rcases e : walk E h r p with ⟨h1, res⟩
  rw [e] at a
  split
  · next h1 c e' =>
    cases e'
    split
    · exact (setValue_keeps (n := 0) a.linked).linked
    · split
      · exact a.linked
      · split
        · exact setAttr_linked a.linked (Nat.lt_of_lt_of_le hs a.next) fun hb =>
            a.unheld hs (hu ((isBranch_iff (a.heads s hs)).1 hb))
        · exact a.linked
    · exact a.linked
  · next e' => cases e'; exact a.linked
  · next e' => cases e'; exact a.linked

theorem setItem_linked (L : Linked h) {i : Nat} (hf : IsElementFor h r s) (hp : ∃ o, h.get s = some o ∧ parentOf o = some r) :
    Linked (setItem h r i s).1 := by
  unfold setItem
  split
  · next q m v p z x hg =>
    split
    · exact L
    · split
      · exact L
      · next items =>
        split
        · next hi =>
          refine L.set hg rfl (L.ok _ _ hg : OK _) ?_
          intro k y hs
          cases hs with
          | @index _ _ _ _ _ _ j _ hs =>
            by_cases e : i = j
            · subst e
              rw [List.getElem?_set_self hi] at hs
              cases hs
              obtain ⟨m', d', p', z', x', hy⟩ := hf _ _ _ _ _ _ hg
              obtain ⟨o, ho, hpo⟩ := hp
              rw [hy] at ho; cases ho
              cases hpo
              exact .inr ⟨_, hy, rfl⟩
            · rw [List.getElem?_set_ne e] at hs
              exact .inl (.index hs)
        · exact L
  · exact L

theorem append_linked (L : Linked h) (hf : IsElementFor h r s) (hu : Unheld h s) : Linked (append h r s).1 := by
  unfold append
  split
  · next q m v p z x hg =>
    split
    · exact L
    · split
      · exact L
      · next h1 e1 =>
        obtain ⟨L1, _, hoth, o1, o2, hg1, hg2, _, a, q1, p1, t1, hh1, hh2⟩ := L.setParent hu e1
        split
        · next q' m' items p' z' x' hg' =>
          obtain ⟨m2, d2, p2, z2, x2, hy⟩ := hf _ _ _ _ _ _ hg
          rw [hy] at hg1; cases hg1
          have hne : r ≠ s := by rintro rfl; rw [hg] at hy; cases hy
          rw [hoth r hne, hg] at hg'; cases hg'
          refine L1.set ((hoth r hne).trans hg) rfl (L.ok _ _ hg : OK _) ?_
          intro k y hs
          cases hs with
          | @index _ _ _ _ _ _ j _ hs =>
            rw [List.getElem?_append] at hs
            split at hs
            · exact .inl (.index hs)
            · have : y = s := by
                cases e : j - items.length with
                | zero => rw [e] at hs; simp at hs; exact hs.symm
                | succ n => rw [e] at hs; simp at hs
              subst this
              refine .inr ⟨o2, hg2, ?_⟩
              rw [hh2]
              cases hh1
              rfl
        · exact L1
  · exact L

theorem newElems_linked (L : Linked h) {q : List Name} {m : MFields} {z : Bool} {o : Obj V B W C} (hg : h.get r = some o) (hw : WFMFields m) (n : Nat) :
    Linked (newElems q m z r n h).1 ∧ (newElems q m z r n h).1.get r = some o ∧ h.next ≤ (newElems q m z r n h).1.next ∧
      (∀ x, x < h.next → (newElems q m z r n h).1.get x = h.get x) ∧
      ∀ y, some y ∈ (newElems q m z r n h).2 → ∃ os, (newElems q m z r n h).1.get y = some os ∧ head os = some (1, q, r, false) := by
  induction n generalizing h with
  | zero => exact ⟨L, hg, Nat.le_refl _, fun _ _ => rfl, by intro y hy; cases hy⟩
  | succ n ih =>
    have L1 := L.alloc (o := .struct q m (fun _ => none) r false z none) (by intro k s hs; cases hs with | field hd => cases hd) ⟨nofun, nofun, hw⟩
    have hold : ∀ x, x < h.next → (h.alloc (.struct q m (fun _ => none) r false z none)).1.get x = h.get x := by
      intro x hx; simp [Heap.alloc, Nat.ne_of_lt hx]
    obtain ⟨a1, a2, a3, a4, a5⟩ := ih L1 (by rw [hold r (L.lt hg)]; exact hg)
    have hs : h.next ≤ (h.alloc (.struct q m (fun _ => none) r false z none)).1.next := Nat.le_succ _
    unfold newElems
    dsimp only
    refine ⟨a1, a2, Nat.le_trans hs a3, fun x hx => (a4 x (Nat.lt_of_lt_of_le hx hs)).trans (hold x hx), ?_⟩
    intro y hy
    rcases List.mem_cons.1 hy with hy | hy
    · cases hy
      refine ⟨.struct q m (fun _ => none) r false z none, ?_, rfl⟩
      exact (a4 _ (Nat.lt_succ_self _)).trans (alloc_get ..)
    · exact a5 y hy

theorem resize_linked (L : Linked h) {n : Nat} {keep : Bool} : Linked (resize h r n keep).1 := by
  unfold resize
  split
  · next q m v p z x hg =>
    split
    · exact L
    · split
      · exact L
      · next items =>
        dsimp only
        obtain ⟨a1, a2, a3, a4, a5⟩ := newElems_linked (q := q) (m := m) (z := z) L hg (L.ok _ _ hg : OK _) (n - (if keep then items else []).length)
        refine a1.set a2 rfl (L.ok _ _ hg : OK _) ?_
        intro k y hs
        cases hs with
        | @index _ _ _ _ _ _ j _ hs =>
          generalize hit : (if keep then items else []) = it at a1 a2 a3 a4 a5 hs
          rw [List.getElem?_append] at hs
          by_cases hj : j < (it.take n).length
          · rw [if_pos hj, List.getElem?_take] at hs
            by_cases hn : j < n
            · rw [if_pos hn] at hs
              cases keep
              · simp at hit; subst hit; simp at hs
              · simp at hit; subst hit; exact .inl (.index hs)
            · rw [if_neg hn] at hs; cases hs
          · rw [if_neg hj] at hs
            obtain ⟨os, hy, hh⟩ := a5 y (List.mem_of_getElem? hs)
            exact .inr ⟨os, hy, by rw [hh]; rfl⟩
  · exact L

theorem newElement_linked (L : Linked h) : Linked (newElement h r).1 := by
  unfold newElement
  split
  · next hg => exact L.alloc (by intro k s hs; cases hs with | field hd => cases hd) ⟨nofun, nofun, (L.ok _ _ hg : OK _)⟩
  · exact L

theorem newIds_linked (L : Linked h) {m : MFields} (hw : WFMFields m) : Linked (newIds h m).1 := by
  have a := L.alloc (o := .factory) (noslot_value rfl) trivial
  exact a.alloc (by intro k s hs; cases hs with | field hd => cases hd) ⟨fun _ => rfl, nofun, hw⟩

theorem newLazyIds_linked (L : Linked h) {m : MFields} (hw : WFMFields m) (x : C) : Linked (newLazyIds h m x).1 := by
  have a := L.alloc (o := .factory) (noslot_value rfl) trivial
  exact a.alloc (by intro k s hs; cases hs with | field hd => cases hd) ⟨fun _ => rfl, nofun, hw⟩

/-- Changing arrays and their memory. -/
theorem Linked.set_value (L : Linked h) {o o' : Obj V B W C} (hg : h.get r = some o) (ho : head o = none) (ho' : head o' = none) :
    Linked (h.set r o') :=
  L.set hg (by rw [ho, ho']) (by cases o' <;> first | trivial | simp [head] at ho') fun k s hs => absurd hs (noslot_value ho' k s)

theorem write_linked (L : Linked h) {b : B} {w : W} : Linked (write h r b w).1 := by
  unfold write
  split
  · next x _ hg =>
    split
    · next b' hb =>
      have a := L.set_value (o' := .buf b) hb rfl rfl
      have hne : r ≠ x := by rintro rfl; rw [hg] at hb; cases hb
      exact a.set_value (by rw [set_other hne]; exact hg) rfl rfl
    · exact L
  · exact L

theorem view_linked (L : Linked h) {w : W} : Linked (view h r w).1 := by
  unfold view
  split
  · exact (keeps_value (n := 0) L rfl).linked
  · exact L

end Verif.HeapSpec
