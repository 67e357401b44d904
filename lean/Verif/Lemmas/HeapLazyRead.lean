import Verif.Lemmas.HeapLazyCopy
namespace Verif.Heap
open Verif.Ids Verif.HeapSpec

variable {V B W C : Type} {E : Env V B W C} {h h' h'' : Heap V B W C} {r : Ref}

/-- The file has something for a child. -/
def Has? (E : Env V B W C) (x : Option C) (n : Name) : Meta → Prop
  | .leaf l => ∃ w, fileLeaf E x n l = some w
  | _ => ∃ y, fileChild E x n = some y

theorem loadChild_ok {x : C} {n : Name} {c : Ref} {q : List Name} {z : Bool} {cm : Meta}
    (hc : h.get c = some (newNode q z r cm)) (hf : Has? E (some x) n cm) :
    (loadChild E h x n c).2 = .ok [c] := by
  unfold loadChild
  cases cm with
  | leaf l =>
    rw [hc]
    obtain ⟨w, hw⟩ := hf
    simp only [newNode]
    simp only [fileLeaf] at hw
    cases hl : E.loader.leaf x n l with
    | none => rw [hl] at hw; cases hw
    | some v => cases v <;> rfl
  | struct m =>
    rw [hc]
    obtain ⟨w, hw⟩ := hf
    simp only [fileChild] at hw
    simp only [newNode, hw]
  | aos m =>
    rw [hc]
    obtain ⟨w, hw⟩ := hf
    simp only [fileChild] at hw
    simp only [newNode, hw]

theorem getAttr_ok (ha : ∀ o, h.next ≤ o → h.get o = none) {q m d p t x} {n : Name} {cm : Meta}
    (hx : h.get r = some (.struct q m d p t true x)) (hm : lookupMeta m n = some cm) (hf : Has? E x n cm) :
    ∃ c, (getAttr E h r n).2 = .ok [c] := by
  have hr : r < h.next := by
    refine Nat.lt_of_not_le fun hn => ?_
    rw [ha r hn] at hx; cases hx
  unfold getAttr
  rw [hx]
  simp only
  split
  · exact ⟨_, rfl⟩
  · simp only [hm]
    cases x with
    | none => exact ⟨_, rfl⟩
    | some x =>
      simp only
      refine ⟨_, loadChild_ok (r := r) (q := q ++ [n]) (z := true) (cm := cm) ?_ hf⟩
      have nc := newChild_facts (name := n) (cm := cm) (q := q) (m := m) (d := d) (p := p) (t := t) (z := true)
          (x := some x) ha hr
      exact nc.child

theorem getItem_ok (inv : Inv E h) {q m v p} {y e : C} {i k : Nat}
    (hx : h.get r = some (.aos q m v p true (some y))) (hs : E.loader.size y = some k) (he : E.loader.elem y i = some e)
    (hi : i < k) : ∃ c, (getItem E h r i).2 = .ok [c] := by
  unfold getItem
  rw [hx]
  have hl : ∃ items, loadItems E v (some y) = some items ∧ items.length = k := by
    cases v with
    | some items =>
      have := (inv.ok r _ hx).1
      simp only [fileSize, hs, Option.some.injEq] at this
      exact ⟨items, rfl, this.symm⟩
    | none => exact ⟨_, by simp only [loadItems, hs]; rfl, by simp⟩
  obtain ⟨items, hl, hlen⟩ := hl
  simp only [hl]
  have hi' : i < items.length := by rw [hlen]; exact hi
  rw [List.getElem?_eq_getElem hi']
  cases items[i] with
  | some c => exact ⟨c, rfl⟩
  | none => simp only [he]; exact ⟨_, rfl⟩

/-- Reading a value of a lazy-loaded IDS gives what the file has. -/
theorem read_content (inv : Inv E h) {q m d p t x} (hx : h.get r = some (.struct q m d p t true x))
    (path : List (Name × Option Nat)) {v : V} (hv : content E m x path = some v) :
    ∃ h' a, readPath E h r path = (h', .ok [a]) ∧ h'.val E.mem a = some v := by
  induction path generalizing h r q m d p t x with
  | nil => simp [content] at hv
  | cons a rest ih =>
    obtain ⟨n, i⟩ := a
    have hr := get_lt inv.sound hx
    obtain ⟨⟨st, inv1⟩, hch⟩ := getAttr_keep (E := E) inv hr n
    cases i with
    | none =>
      unfold content at hv
      split at hv
      · next l hm =>
        split at hv
        · next hrest =>
          subst hrest
          obtain ⟨c, hc⟩ := getAttr_ok (E := E) inv.sound.above hx hm ⟨v, hv⟩
          obtain ⟨cm, hm', hok⟩ := hch q m d p t x c hx hc
          rw [hm] at hm'; cases hm'
          obtain ⟨w, p', hcx, _, hw⟩ := hok
          have hw := hw v hv
          have hg : getAttr E h r n = ((getAttr E h r n).1, .ok [c]) := Prod.ext rfl hc
          have hread : readPath E h r [(n, none)] = getValue E (getAttr E h r n).1 c := by
            unfold readPath walk
            rw [hg]
            simp only [walk]
          rw [hread]
          unfold getValue
          rw [hcx]
          cases w with
          | some b => exact ⟨_, b, rfl, hw⟩
          | none =>
            cases hw
            obtain ⟨n1, n2, n3, n4, n5⟩ := newValue_new (C := C) E.mem inv1.sound.above l (E.default l)
            simp only
            split
            · exact ⟨_, _, rfl, n3⟩
            · exact ⟨_, _, rfl, val_set_node ((n2 c (get_lt inv1.sound hcx)).trans hcx) trivial n3⟩
        · cases hv
      · next m' hm =>
        cases hf : fileChild E x n with
        | none => rw [hf] at hv; cases hv
        | some y =>
          rw [hf] at hv
          simp only [Option.bind_some] at hv
          obtain ⟨c, hc⟩ := getAttr_ok (E := E) inv.sound.above hx hm ⟨y, hf⟩
          obtain ⟨cm, hm', hok⟩ := hch q m d p t x c hx hc
          rw [hm] at hm'; cases hm'
          obtain ⟨q', d', p', t', y', hcx, hy⟩ := hok
          have := hy y hf
          subst this
          obtain ⟨h2, b, hb, hbv⟩ := ih inv1 hcx hv
          refine ⟨h2, b, ?_, hbv⟩
          have hg : getAttr E h r n = ((getAttr E h r n).1, .ok [c]) := Prod.ext rfl hc
          rw [← hb]
          unfold readPath
          conv => lhs; unfold walk
          rw [hg]
      · cases hv
    | some i =>
      unfold content at hv
      split at hv
      · next m' hm =>
        cases hf : fileChild E x n with
        | none => rw [hf] at hv; cases hv
        | some y =>
          rw [hf] at hv
          simp only [Option.bind_some] at hv
          cases y with
          | none => cases hv
          | some y =>
            simp only at hv
            cases hs : E.loader.size y with
            | none => rw [hs] at hv; cases hv
            | some k =>
              cases hel : E.loader.elem y i with
              | none => rw [hs, hel] at hv; cases hv
              | some e =>
                rw [hs, hel] at hv
                simp only at hv
                split at hv
                · next hik =>
                  obtain ⟨c, hc⟩ := getAttr_ok (E := E) inv.sound.above hx hm ⟨_, hf⟩
                  obtain ⟨cm, hm', hok⟩ := hch q m d p t x c hx hc
                  rw [hm] at hm'; cases hm'
                  obtain ⟨q', d', p', y', hcx, hy⟩ := hok
                  have := hy _ hf
                  subst this
                  have hcn := get_lt inv1.sound hcx
                  obtain ⟨⟨st2, inv2⟩, helem⟩ := getItem_keep (E := E) inv1 hcn i
                  obtain ⟨c2, hc2⟩ := getItem_ok (E := E) inv1 hcx hs hel hik
                  obtain ⟨d2, p2, t2, y2, hc2x, hy2⟩ := helem _ _ _ _ _ c2 hcx hc2
                  have := hy2 y e rfl hel
                  subst this
                  obtain ⟨h2, b, hb, hbv⟩ := ih inv2 hc2x hv
                  refine ⟨h2, b, ?_, hbv⟩
                  have hg : getAttr E h r n = ((getAttr E h r n).1, .ok [c]) := Prod.ext rfl hc
                  have hg2 : getItem E (getAttr E h r n).1 c i = ((getItem E (getAttr E h r n).1 c i).1, .ok [c2]) :=
                    Prod.ext rfl hc2
                  rw [← hb]
                  unfold readPath
                  conv => lhs; unfold walk
                  rw [hg]
                  simp only
                  rw [hg2]
                · cases hv
      · cases hv

/-- An object found in a lazy-loaded IDS. -/
def Found (h : Heap V B W C) (c : Ref) : Prop :=
  (∃ l v p, h.get c = some (.leaf l v p) ∧ h.isLazy p = true) ∨
  (∃ q m d p t x, h.get c = some (.struct q m d p t true x)) ∨
  (∃ q m i p x, h.get c = some (.aos q m i p true x))

theorem walk_found (inv : Inv E h) {q m d p t x} (hx : h.get r = some (.struct q m d p t true x))
    (path : List (Name × Option Nat)) {c : Ref} (hw : walk E h r path = (h', .ok [c])) : Found h' c := by
  induction path generalizing h r q m d p t x with
  | nil =>
    simp only [walk, Prod.mk.injEq, Except.ok.injEq, List.cons.injEq, and_true] at hw
    obtain ⟨rfl, rfl⟩ := hw
    exact .inr (.inl ⟨_, _, _, _, _, _, hx⟩)
  | cons a rest ih =>
    obtain ⟨n, i⟩ := a
    have hr := get_lt inv.sound hx
    obtain ⟨⟨st, inv1⟩, hch⟩ := getAttr_keep (E := E) inv hr n
    unfold walk at hw
    split at hw
    · next h1 c1 he =>
      rw [he] at st inv1 hch
      obtain ⟨cm, hm, hok⟩ := hch q m d p t x c1 hx rfl
      cases cm with
      | leaf l =>
        obtain ⟨v, p', hcx, hz, _⟩ := hok
        cases i with
        | none =>
          cases rest with
          | nil =>
            simp only [walk, Prod.mk.injEq, Except.ok.injEq, List.cons.injEq, and_true] at hw
            obtain ⟨rfl, rfl⟩ := hw
            exact .inl ⟨_, _, _, hcx, hz⟩
          | cons b rest =>
            obtain ⟨n', i'⟩ := b
            simp only at hw
            unfold walk getAttr at hw
            rw [hcx] at hw
            cases hw
        | some i =>
          simp only at hw
          unfold getItem at hw
          rw [hcx] at hw
          cases hw
      | struct m' =>
        obtain ⟨q', d', p', t', y', hcx, _⟩ := hok
        cases i with
        | none => exact ih inv1 hcx hw
        | some i =>
          simp only at hw
          unfold getItem at hw
          rw [hcx] at hw
          cases hw
      | aos m' =>
        obtain ⟨q', d', p', y', hcx, _⟩ := hok
        cases i with
        | none =>
          cases rest with
          | nil =>
            simp only [walk, Prod.mk.injEq, Except.ok.injEq, List.cons.injEq, and_true] at hw
            obtain ⟨rfl, rfl⟩ := hw
            exact .inr (.inr ⟨_, _, _, _, _, hcx⟩)
          | cons b rest =>
            obtain ⟨n', i'⟩ := b
            simp only at hw
            unfold walk getAttr at hw
            rw [hcx] at hw
            cases hw
        | some i =>
          simp only at hw
          obtain ⟨⟨st2, inv2⟩, helem⟩ := getItem_keep (E := E) inv1 (get_lt inv1.sound hcx) i
          split at hw
          · next h2 e he2 =>
            rw [he2] at helem inv2
            obtain ⟨d2, p2, t2, y2, hc2x, _⟩ := helem _ _ _ _ _ e hcx rfl
            exact ih inv2 hc2x hw
          · cases hw
          · cases hw
    · cases hw
    · cases hw

/-- Assigning to a child of a lazy-loaded structure that is a data node. -/
theorem setAttr_refused (inv : Inv E h) {q m d p t x} (hx : h.get r = some (.struct q m d p t true x)) {n : Name}
    {l : LeafMeta} (hm : lookupMeta m n = some (.leaf l)) (hl : ∃ w, fileLeaf E x n l = some w) (s : Ref) :
    (setAttr E h r n s).2 = .error .readOnly ∧ (setAttr E h r n s).1 = (getAttr E h r n).1 := by
  obtain ⟨⟨st, inv1⟩, hch⟩ := getAttr_keep (E := E) inv (get_lt inv.sound hx) n
  obtain ⟨c, hc⟩ := getAttr_ok (E := E) inv.sound.above hx hm hl
  obtain ⟨cm, hm', v, p', hcx, hz, _⟩ : ∃ cm, lookupMeta m n = some cm ∧ ∃ v p', (getAttr E h r n).1.get c =
      some (.leaf l v p') ∧ (getAttr E h r n).1.isLazy p' = true ∧ True := by
    obtain ⟨cm, hm', hok⟩ := hch q m d p t x c hx hc
    rw [hm] at hm'; cases hm'
    obtain ⟨v, p', a, b, _⟩ := hok
    exact ⟨_, hm, v, p', a, b, trivial⟩
  have hg : getAttr E h r n = ((getAttr E h r n).1, .ok [c]) := Prod.ext rfl hc
  have hset : setAttr E h r n s = setValue E (getAttr E h r n).1 c s := by
    unfold setAttr
    rw [hg]
    simp only [hcx]
  rw [hset]
  unfold setValue
  rw [hcx]
  simp only [hz, if_true, and_self]

/-- Reading a data node that was found gives what it showed. -/
theorem getValue_shown (snd : Sound true h) {l v p c} {w : V} (hx : h.get c = some (.leaf l v p))
    (hw : shown E h l v = some w) : ∃ h' a, getValue E h c = (h', .ok [a]) ∧ h'.val E.mem a = some w := by
  unfold getValue
  rw [hx]
  cases v with
  | some b => exact ⟨_, b, rfl, hw⟩
  | none =>
    cases hw
    obtain ⟨n1, n2, n3, n4, n5⟩ := newValue_new (C := C) E.mem snd.above l (E.default l)
    simp only
    split
    · exact ⟨_, _, rfl, n3⟩
    · exact ⟨_, _, rfl, val_set_node ((n2 c (get_lt snd hx)).trans hx) trivial n3⟩

end Verif.Heap
