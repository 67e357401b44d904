import Verif.Lemmas.HeapLazy
namespace Verif.Heap
open Verif.Ids Verif.HeapSpec

variable {V B W C : Type} {E : Env V B W C} {h h' h'' : Heap V B W C} {r : Ref}

theorem items_extend (inv : Inv E h) (snd : Sound true h') (hn : h.next ≤ h'.next) {q m v p x} {items : List (Option Ref)}
    (hx : h.get r = some (.aos q m v p true x)) (hs : ∀ o, o < h.next → o ≠ r → h'.get o = h.get o)
    (hx' : h'.get r = some (.aos q m (some items) p true x))
    (hsz : fileSize E x = some items.length)
    (hi : Stable E h h' → ∀ (i : Nat) c, items[i]? = some (some c) → ElemOk E h' q m x i c)
    (hnew : ∀ o y, h.next ≤ o → h'.get o = some y → Ok E h' y) : Stable E h h' ∧ Inv E h' :=
  extend inv snd hn hx trivial hs hx' rfl (fun _ => ⟨_, _, rfl⟩) (fun st => ⟨hsz, hi st⟩) (fun _ => hnew)

theorem loadItems_ok (inv : Inv E h) {q m v p x} {items : List (Option Ref)}
    (hx : h.get r = some (.aos q m v p true x)) (hl : loadItems E v x = some items) :
    fileSize E x = some items.length ∧ ∀ (i : Nat) c, items[i]? = some (some c) → ElemOk E h q m x i c := by
  cases v with
  | some l =>
    cases hl
    exact inv.ok r _ hx
  | none =>
    cases x with
    | none => cases hl; exact ⟨rfl, fun i c h => by simp at h⟩
    | some x =>
      simp only [loadItems] at hl
      cases hs : E.loader.size x with
      | none => rw [hs] at hl; cases hl
      | some k =>
        rw [hs] at hl
        cases hl
        refine ⟨by simp [fileSize, hs], ?_⟩
        intro i c h
        rw [List.getElem?_replicate] at h
        split at h <;> cases h

theorem getItem_keep (inv : Inv E h) (hr : r < h.next) (i : Nat) :
    Keep E h (getItem E h r i) ∧ ∀ q m v p x c, h.get r = some (.aos q m v p true x) →
      (getItem E h r i).2 = .ok [c] → ElemOk E (getItem E h r i).1 q m x i c := by
  have snd := sound_of (getItem_in (E := E) (k := i) (all_good inv.sound) (has_of r hr))
  unfold getItem at snd ⊢
  split
  · next q m items p x hx =>
    split
    · exact ⟨⟨.refl inv, inv⟩, fun _ _ _ _ _ _ h1 => by rw [hx] at h1; cases h1⟩
    · exact ⟨keep_error inv _, fun _ _ _ _ _ _ _ h => nomatch h⟩
    · exact ⟨keep_error inv _, fun _ _ _ _ _ _ _ h => nomatch h⟩
  · next q m v p x hx =>
    rw [hx] at snd
    simp only at snd ⊢
    cases hl : loadItems E v x with
    | none => exact ⟨keep_error inv _, fun _ _ _ _ _ _ _ h => nomatch h⟩
    | some items =>
      obtain ⟨hsz, hel⟩ := loadItems_ok inv hx hl
      rw [hl] at snd
      simp only at snd ⊢
      have base : ∀ (snd : Sound true (h.set r (.aos q m (some items) p true x))),
          Stable E h (h.set r (.aos q m (some items) p true x)) ∧ Inv E (h.set r (.aos q m (some items) p true x)) := by
        intro snd
        refine items_extend inv snd (Nat.le_refl _) hx (fun o _ hor => set_other hor) (set_get ..) hsz
          (fun st j c hj => (hel j c hj).mono st) ?_
        intro o y ho hy
        rw [set_other (Nat.ne_of_gt (Nat.lt_of_lt_of_le hr ho)), inv.sound.above o ho] at hy; cases hy
      cases hi : items[i]? with
      | none =>
        rw [hi] at snd
        exact ⟨base snd, fun _ _ _ _ _ _ _ h => nomatch h⟩
      | some e =>
        rw [hi] at snd
        cases e with
        | some c =>
          refine ⟨base snd, ?_⟩
          intro q' m' v' p' x' c' h1 h2
          rw [hx] at h1; cases h1; cases h2
          exact (hel i c hi).mono (base snd).1
        | none =>
          cases x with
          | none => exact ⟨base snd, fun _ _ _ _ _ _ _ h => nomatch h⟩
          | some x =>
            simp only at snd ⊢
            have hne : r ≠ h.next := Nat.ne_of_lt hr
            have hni : (h.set r (.aos q m (some items) p true (some x))).next = h.next := rfl
            have hlt : i < items.length := (List.getElem?_eq_some_iff.1 hi).1
            -- the element with context `y`
            have elem : ∀ (y : Option C) (h3 : Heap V B W C), Sound true h3 → h3.next = h.next + 1 →
                h3.get h.next = some (.struct q m (fun _ => none) r false true y) →
                h3.get r = some (.aos q m (some (items.set i (some h.next))) p true (some x)) →
                (∀ o, o < h.next → o ≠ r → h3.get o = h.get o) →
                (∀ y', E.loader.elem x i = some y' → y = some y') →
                (Stable E h h3 ∧ Inv E h3) ∧ ElemOk E h3 q m (some x) i h.next := by
              intro y h3 snd3 hn3 hc3 hr3 hold hy
              have he : ElemOk E h3 q m (some x) i h.next :=
                ⟨_, _, _, _, hc3, fun x' y' hx' => by cases hx'; exact hy y'⟩
              refine ⟨items_extend inv snd3 (by rw [hn3]; exact Nat.le_succ _) hx hold hr3 (by
                rw [List.length_set]; exact hsz) ?_ ?_, he⟩
              · intro st j c hj
                by_cases hij : i = j
                · subst hij
                  rw [List.getElem?_set_self hlt] at hj
                  cases hj; exact he
                · rw [List.getElem?_set_ne hij] at hj
                  exact (hel j c hj).mono st
              · intro o w ho hw
                rcases Nat.eq_or_lt_of_le ho with ho | ho
                · subst ho; rw [hc3] at hw; cases hw; intro n c hn; cases hn
                · rw [snd3.above o (by rw [hn3]; exact ho)] at hw; cases hw
            have g2 : ∀ o : Ref, o < h.next → o ≠ r → (((h.set r (.aos q m (some items) p true (some x))).alloc
                (.struct q m (fun _ => none) r false true none)).1.set r
                (.aos q m (some (items.set i (some h.next))) p true (some x))).get o = h.get o := by
              intro o ho hor
              rw [set_other hor]
              have : o ≠ (h.set r (Obj.aos q m (some items) p true (some x))).next := Nat.ne_of_lt ho
              simp only [Heap.alloc, if_neg this]
              exact set_other hor
            have g3 : (((h.set r (.aos q m (some items) p true (some x))).alloc
                (.struct q m (fun _ => none) r false true none)).1.set r
                (.aos q m (some (items.set i (some h.next))) p true (some x))).get h.next =
                some (.struct q m (fun _ => none) r false true none) := by
              rw [set_other (Ne.symm hne)]
              exact alloc_get (h.set r (.aos q m (some items) p true (some x))) _
            cases hel' : E.loader.elem x i with
            | none =>
              rw [hel'] at snd
              obtain ⟨k1, k2⟩ := elem none _ snd rfl g3 (set_get ..) g2 (fun y' hy' => by rw [hel'] at hy'; cases hy')
              exact ⟨k1, fun _ _ _ _ _ _ _ h => nomatch h⟩
            | some y =>
              rw [hel'] at snd
              obtain ⟨k1, k2⟩ := elem (some y) _ snd rfl (set_get ..) ((set_other hne).trans (set_get ..))
                (fun o ho hor => (set_other (Nat.ne_of_lt ho)).trans (g2 o ho hor))
                (fun y' hy' => by rw [hel'] at hy'; cases hy'; rfl)
              refine ⟨k1, ?_⟩
              intro q' m' v' p' x' c' h1 h2
              rw [hx] at h1; cases h1; cases h2
              exact k2
  · exact ⟨keep_error inv _, fun _ _ _ _ _ _ _ h => nomatch h⟩

/-! ### Values -/

theorem newValue_sound (inv : Inv E h) (l : LeafMeta) (v : V) : Sound true (newValue E.mem h l v).1 := by
  obtain ⟨i, _⟩ := newValue_inside (M := E.mem) (all_good inv.sound) l v
  exact ⟨i.good.above, fun a x hx e he => (i.good.closed a x trivial hx e he).2⟩

theorem newValue_keep (inv : Inv E h) (l : LeafMeta) (v : V) :
    Stable E h (newValue E.mem h l v).1 ∧ Inv E (newValue E.mem h l v).1 := by
  obtain ⟨n1, n2, _, _, n5⟩ := newValue_new (C := C) E.mem inv.sound.above l v
  exact grow inv (newValue_sound inv l v) n1 n2 fun _ o y ho hy => ok_of_value (n5 o y ho hy)

theorem sound_set (snd : Sound true h) (hr : r < h.next) {o : Obj V B W C} (he : ∀ e, Refers true o e → e < h.next) :
    Sound true (h.set r o) := by
  refine ⟨?_, ?_⟩
  · intro s hs
    rw [set_other (Nat.ne_of_gt (Nat.lt_of_lt_of_le hr hs))]
    exact snd.above s hs
  · intro s x hx e hre
    by_cases hsr : s = r
    · subst hsr; rw [set_get] at hx; cases hx; exact he e hre
    · rw [set_other hsr] at hx; exact snd.refs s x hx e hre

/-- Another node in the same place. -/
theorem set_keep (inv : Inv E h) {x x' : Obj V B W C} (hx : h.get r = some x) (hn : isNode x)
    (he : ∀ e, Refers true x' e → e < h.next) (hz : lazyObj x' = lazyObj x)
    (hk : (∀ o, o < h.next → (h.set r x').isLazy o = h.isLazy o) → Keeps E h (h.set r x') x x')
    (hok : Stable E h (h.set r x') → Ok E (h.set r x') x') : Stable E h (h.set r x') ∧ Inv E (h.set r x') := by
  have hr := get_lt inv.sound hx
  refine extend inv (sound_set inv.sound hr he) (Nat.le_refl _) hx hn (fun o _ ho => set_other ho) (set_get ..) hz hk hok ?_
  intro _ o y ho hy
  rw [set_other (Nat.ne_of_gt (Nat.lt_of_lt_of_le hr ho)), inv.sound.above o ho] at hy
  cases hy

theorem value_lt (snd : Sound true h) {l : LeafMeta} {a p : Ref} (hx : h.get r = some (.leaf l (some a) p)) :
    a < h.next := snd.refs r _ hx a (.inl rfl)

theorem val_lt (snd : Sound true h) {M : Memory V B W} {a : Ref} {v : V} (hv : h.val M a = some v) : a < h.next := by
  rcases val_cases hv with h1 | ⟨_, _, _, h1, _⟩
  · exact get_lt snd h1
  · exact get_lt snd h1

/-- Set the value of a data node to that of an object. -/
theorem setLeaf_keep (inv : Inv E h) {l : LeafMeta} {old v : Option Ref} {p : Ref} (hx : h.get r = some (.leaf l old p))
    (hv : ∀ a, v = some a → a < h.next) (hs : h.isLazy p = true → ∀ w, shown E h l old = some w → shown E h l v = some w) :
    Stable E h (h.set r (.leaf l v p)) ∧ Inv E (h.set r (.leaf l v p)) := by
  refine set_keep inv hx trivial ?_ rfl ?_ (fun _ => trivial)
  · rintro e (he | ⟨_, rfl⟩)
    · exact hv e he
    · exact parent_lt inv.sound hx rfl
  · intro hl
    refine ⟨v, p, rfl, fun hz => ⟨(hl p (parent_lt inv.sound hx rfl)).trans hz, ?_⟩⟩
    intro w hw
    have := hs hz w hw
    cases v with
    | none => exact this
    | some a => exact val_set_node hx trivial this

theorem getValue_keep (inv : Inv E h) (r : Ref) : Keep E h (getValue E h r) := by
  unfold getValue
  split
  · exact ⟨.refl inv, inv⟩
  · next l p hx =>
    obtain ⟨st, inv1⟩ := newValue_keep inv l (E.default l)
    obtain ⟨n1, n2, n3, n4, n5⟩ := newValue_new (C := C) E.mem inv.sound.above l (E.default l)
    simp only
    split
    · exact ⟨st, inv1⟩
    · have hx1 := (n2 r (get_lt inv.sound hx)).trans hx
      obtain ⟨st2, inv2⟩ := setLeaf_keep inv1 (v := some (newValue E.mem h l (E.default l)).2) hx1
        (fun a ha => by cases ha; exact val_lt inv1.sound n3) (fun _ w hw => by
          cases hw; exact n3)
      exact ⟨st.trans st2, inv2⟩
  · exact keep_error inv _

/-- Reading a value changes no parents. -/
theorem getValue_leaf (inv : Inv E h) (s : Ref) {l : LeafMeta} {v : Option Ref} {p : Ref}
    (hx : h.get r = some (.leaf l v p)) : ∃ v', (getValue E h s).1.get r = some (.leaf l v' p) := by
  unfold getValue
  split
  · exact ⟨v, hx⟩
  · next l' p' hx' =>
    obtain ⟨n1, n2, n3, n4, n5⟩ := newValue_new (C := C) E.mem inv.sound.above l' (E.default l')
    have hx1 := (n2 r (get_lt inv.sound hx)).trans hx
    simp only
    split
    · exact ⟨v, hx1⟩
    · by_cases hrs : r = s
      · subst hrs; rw [hx] at hx'; cases hx'; exact ⟨_, set_get ..⟩
      · exact ⟨v, (set_other hrs).trans hx1⟩
  · exact ⟨v, hx⟩

theorem storeValue_keep (inv : Inv E h) {l : LeafMeta} {old : Option Ref} {p a : Ref} {cast : Bool}
    (hx : h.get r = some (.leaf l old p)) (hp : h.isLazy p = false) : Keep E h (storeValue E h r a cast) := by
  have nl : h.isLazy p = true → False := fun hz => by rw [hp] at hz; cases hz
  unfold storeValue
  rw [hx]
  cases hv : h.val E.mem a with
  | none => exact keep_error inv _
  | some v =>
    simp only
    split
    · exact keep_error inv _
    · refine setLeaf_keep inv hx ?_ (fun hz => (nl hz).elim)
      intro b hb
      split at hb
      · cases hb
      · cases hb; exact val_lt inv.sound hv
    · next v' _ =>
      obtain ⟨st, inv1⟩ := newValue_keep inv l v'
      obtain ⟨n1, n2, n3, n4, n5⟩ := newValue_new (C := C) E.mem inv.sound.above l v'
      have hx1 := (n2 r (get_lt inv.sound hx)).trans hx
      obtain ⟨st2, inv2⟩ := setLeaf_keep inv1 (v := if (l.ndim == 0 && E.isDefault l v') then none else
        some (newValue E.mem h l v').2) hx1
        (fun b hb => by
          split at hb
          · cases hb
          · cases hb; exact val_lt inv1.sound n3)
        (fun hz => (nl ((st.isLazy (parent_lt inv.sound hx rfl)).symm.trans hz)).elim)
      exact ⟨st.trans st2, inv2⟩

theorem Keep.after {o : Out V B W C} (s : Stable E h h') (k : Keep E h' o) : Keep E h o := ⟨s.trans k.1, k.2⟩

theorem setValue_keep (inv : Inv E h) (r s : Ref) : Keep E h (setValue E h r s) := by
  unfold setValue
  split
  · next l v p hx =>
    split
    · exact keep_error inv _
    · next hz =>
      have hz' : h.isLazy p = false := by simpa using hz
      split
      · next l' _ _ hs =>
        have k := getValue_keep (E := E) inv s
        obtain ⟨v', hv'⟩ := getValue_leaf (E := E) inv s hx
        split
        · next h1 a he =>
          rw [he] at k hv'
          exact Keep.after k.1 (storeValue_keep k.2 hv' ((k.1.isLazy (parent_lt inv.sound hx rfl)).trans hz'))
        · next h1 _ _ he =>
          rw [he] at k
          exact k
      · exact storeValue_keep inv hx hz'
  · exact keep_error inv _

/-! ### Children -/

theorem setParent_keep (inv : Inv E h) {s p : Ref} (hp : h.isLazy p = false) (hpn : p < h.next)
    (hl : ∀ l v q, h.get s = some (.leaf l v q) → h.isLazy q = false) (he : setParent h s p = .ok h') :
    Stable E h h' ∧ Inv E h' ∧ (∀ o, o ≠ s → h'.get o = h.get o) := by
  unfold setParent at he
  split at he
  · next l v q hx =>
    cases he
    obtain ⟨a, b⟩ := set_keep (x' := .leaf l v p) inv hx trivial (by
      rintro e (he | ⟨_, rfl⟩)
      · exact inv.sound.refs s _ hx e (.inl he)
      · exact hpn) rfl (fun _ => ⟨_, _, rfl, fun hz => by rw [hl l v q hx] at hz; cases hz⟩) (fun _ => trivial)
    exact ⟨a, b, fun o ho => set_other ho⟩
  · next q m d q' t z x hx =>
    cases he
    obtain ⟨a, b⟩ := set_keep (x' := .struct q m d p t z x) inv hx trivial (by
      rintro e (he | ⟨_, rfl⟩)
      · exact inv.sound.refs s _ hx e (.inl he)
      · exact hpn) rfl (fun _ => ⟨_, _, rfl⟩) (fun st => by
        have old := inv.ok s _ hx
        cases z with
        | false => exact .inr ((st.isLazy hpn).trans hp)
        | true =>
          intro n c hn
          obtain ⟨cm, h1, h2⟩ := old n c hn
          exact ⟨cm, h1, h2.mono st⟩)
    exact ⟨a, b, fun o ho => set_other ho⟩
  · next q m i q' z x hx =>
    cases he
    obtain ⟨a, b⟩ := set_keep (x' := .aos q m i p z x) inv hx trivial (by
      rintro e (he | ⟨_, rfl⟩)
      · exact inv.sound.refs s _ hx e (.inl he)
      · exact hpn) rfl (fun _ => ⟨_, _, rfl⟩) (fun st => by
        have old := inv.ok s _ hx
        cases z with
        | false => cases i <;> trivial
        | true =>
          cases i with
          | none => trivial
          | some l => exact ⟨old.1, fun i c hc => (old.2 i c hc).mono st⟩)
    exact ⟨a, b, fun o ho => set_other ho⟩
  · cases he

theorem storeChild_keep (inv : Inv E h) {s : Ref} {name : Name} (hs : s < h.next)
    (hr : h.isLazy r = false) (hl : ∀ l v q, h.get s ≠ some (.leaf l v q)) :
    Keep E h (storeChild h r name s) := by
  unfold storeChild
  split
  · next q m d p t z x hx =>
    have hz : z = false := by rw [isLazy_eq, hx] at hr; exact hr
    subst hz
    obtain ⟨st, inv1⟩ := set_keep (x' := .struct q m (fun n => if n = name then some s else d n) p t false x) inv hx
      trivial (by
        rintro e (⟨n, he⟩ | ⟨_, rfl⟩)
        · simp only at he
          split at he
          · cases he; exact hs
          · exact inv.sound.refs r _ hx e (.inl ⟨n, he⟩)
        · exact parent_lt inv.sound hx rfl) rfl (fun _ => ⟨_, _, rfl⟩) (fun st => by
        rcases inv.ok r _ hx with h1 | h1
        · exact .inl h1
        · exact .inr ((st.isLazy (parent_lt inv.sound hx rfl)).trans h1))
    have hrn := get_lt inv.sound hx
    split
    · next h2 he =>
      obtain ⟨a, b, _⟩ := setParent_keep inv1 ((st.isLazy hrn).trans hr) hrn (by
        intro l v q' hx'
        by_cases hsr : s = r
        · subst hsr; rw [set_get] at hx'; cases hx'
        · rw [set_other hsr] at hx'; exact absurd hx' (hl _ _ _)) he
      exact ⟨st.trans a, b⟩
    · exact keep_error inv _
  · exact keep_error inv _

theorem setAttr_keep (inv : Inv E h) {s : Ref} {name : Name} (hr : r < h.next) (hs : s < h.next)
    (hc : ∀ q m d p t x, h.get r = some (.struct q m d p t true x) →
      ∀ cm, lookupMeta m name = some cm → ∃ l, cm = .leaf l) :
    Keep E h (setAttr E h r name s) := by
  obtain ⟨⟨st, inv1⟩, hch⟩ := getAttr_keep (E := E) inv hr name
  unfold setAttr
  split
  · next h1 c he =>
    rw [he] at st inv1 hch
    have hz : ∀ x, h1.get c = some x → (∀ l v p, x ≠ .leaf l v p) → h1.isLazy r = false := by
      intro x hx hnl
      rw [st.isLazy hr, isLazy_eq]
      cases hg : h.get r with
      | none => rfl
      | some o =>
        cases o with
        | struct q m d p t z y =>
          cases z with
          | false => rfl
          | true =>
            obtain ⟨cm, hm, hok⟩ := hch q m d p t y c hg rfl
            obtain ⟨l, rfl⟩ := hc q m d p t y hg cm hm
            obtain ⟨v, p', hx', _⟩ := hok
            rw [hx] at hx'; cases hx'
            exact absurd rfl (hnl _ _ _)
        | aos q m i p z y =>
          exfalso
          unfold getAttr at he
          rw [hg] at he
          cases he
        | _ => rfl
    have hs1 : s < h1.next := Nat.lt_of_lt_of_le hs st.next
    split
    · next hx hx' =>
      split
      · exact ⟨st, inv1⟩
      · exact Keep.after st (storeChild_keep inv1 hs1 (hz _ hx (by intro _ _ _ h; cases h)) (by
          intro _ _ _ h; rw [hx'] at h; cases h))
    · exact ⟨st, inv1⟩
    · next hx hx' =>
      split
      · exact ⟨st, inv1⟩
      · exact Keep.after st (storeChild_keep inv1 hs1 (hz _ hx (by intro _ _ _ h; cases h)) (by
          intro _ _ _ h; rw [hx'] at h; cases h))
    · exact ⟨st, inv1⟩
    · exact Keep.after st (setValue_keep inv1 c s)
  · next h1 _ _ he => rw [he] at st inv1; exact ⟨st, inv1⟩
  · next h1 _ he => rw [he] at st inv1; exact ⟨st, inv1⟩

/-! ### Arrays of structures -/

theorem setItems_keep (inv : Inv E h) {q m v p x} {items : Option (List (Option Ref))}
    (hx : h.get r = some (.aos q m v p false x)) (hi : ∀ l e, items = some l → some e ∈ l → e < h.next) :
    Stable E h (h.set r (.aos q m items p false x)) ∧ Inv E (h.set r (.aos q m items p false x)) :=
  set_keep inv hx trivial (by
    rintro e (⟨l, hl, he⟩ | ⟨_, rfl⟩)
    · exact hi l e hl he
    · exact parent_lt inv.sound hx rfl) rfl (fun _ => ⟨_, _, rfl⟩) (fun _ => by cases items <;> trivial)

theorem setItem_keep (inv : Inv E h) {s : Ref} {i : Nat} (hs : s < h.next) : Keep E h (setItem h r i s) := by
  unfold setItem
  split
  · next q m v p z x hx =>
    split
    · exact keep_error inv _
    · next hz =>
      have : z = false := by simpa using hz
      subst this
      split
      · exact keep_error inv _
      · next items =>
        split
        · refine setItems_keep inv hx ?_
          intro l e hl he
          cases hl
          rcases List.mem_or_eq_of_mem_set he with he | he
          · exact inv.sound.refs r _ hx e (.inl ⟨_, rfl, he⟩)
          · cases he; exact hs
        · exact keep_error inv _
  · exact keep_error inv _

theorem append_keep (inv : Inv E h) {s : Ref} (hs : s < h.next)
    (hl : ∀ l v p, h.get s = some (.leaf l v p) → h.isLazy p = false) : Keep E h (append h r s) := by
  unfold append
  split
  · next q m v p z x hx =>
    split
    · exact keep_error inv _
    · next hz =>
      have : z = false := by simpa using hz
      subst this
      have hrz : h.isLazy r = false := by rw [isLazy_eq, hx]; rfl
      split
      · exact keep_error inv _
      · next h1 he =>
        obtain ⟨st, inv1, ho⟩ := setParent_keep inv hrz (get_lt inv.sound hx) hl he
        split
        · next q' m' items p' z' x' hx1 =>
          have : z' = false := by
            have := (st.isLazy (get_lt inv.sound hx)).trans hrz
            rw [isLazy_eq, hx1] at this; exact this
          subst this
          refine Keep.after st (setItems_keep inv1 hx1 ?_)
          intro l e hl he
          cases hl
          rcases List.mem_append.1 he with he | he
          · exact inv1.sound.refs r _ hx1 e (.inl ⟨_, rfl, he⟩)
          · rw [List.mem_singleton] at he; cases he; exact Nat.lt_of_lt_of_le hs st.next
        · exact ⟨st, inv1⟩
  · exact keep_error inv _

theorem sound_alloc (snd : Sound true h) {o : Obj V B W C} (he : ∀ e, Refers true o e → e < h.next) :
    Sound true (h.alloc o).1 := by
  obtain ⟨i, _⟩ := alloc_inside (all_good snd) (o := o) fun e h => ⟨trivial, he e h⟩
  exact ⟨i.good.above, fun a x hx e he => (i.good.closed a x trivial hx e he).2⟩

theorem alloc_keep (inv : Inv E h) {o : Obj V B W C} (he : ∀ e, Refers true o e → e < h.next)
    (hok : Stable E h (h.alloc o).1 → Ok E (h.alloc o).1 o) : Stable E h (h.alloc o).1 ∧ Inv E (h.alloc o).1 := by
  refine grow inv (sound_alloc inv.sound he) (Nat.le_succ _) (fun o ho => alloc_old ho) ?_
  intro st s y hs hy
  simp only [Heap.alloc] at hy
  split at hy
  · cases hy; exact hok st
  · rw [inv.sound.above s hs] at hy; cases hy

/-- A new structure with a parent. -/
theorem allocStruct_keep (inv : Inv E h) {q : List Name} {m : MFields} {z : Bool} (hr : r < h.next) (hz : h.isLazy r = z) :
    Stable E h (h.alloc (.struct q m (fun _ => none) r false z none)).1 ∧
      Inv E (h.alloc (.struct q m (fun _ => none) r false z none)).1 := by
  refine alloc_keep inv ?_ ?_
  · rintro e (⟨_, he⟩ | ⟨_, rfl⟩)
    · cases he
    · exact hr
  · intro st
    exact newNode_ok (cm := .struct m) ((st.isLazy hr).trans hz)

theorem newElems_keep (inv : Inv E h) {q : List Name} {m : MFields} {z : Bool} (hr : r < h.next) (hz : h.isLazy r = z) (n : Nat) :
    Stable E h (newElems q m z r n h).1 ∧ Inv E (newElems q m z r n h).1 := by
  induction n generalizing h with
  | zero => exact ⟨.refl inv, inv⟩
  | succ n ih =>
    obtain ⟨st, inv1⟩ := allocStruct_keep (q := q) (m := m) inv hr hz
    obtain ⟨st2, inv2⟩ := ih inv1 (Nat.lt_of_lt_of_le hr st.next) ((st.isLazy hr).trans hz)
    exact ⟨st.trans st2, inv2⟩

theorem resize_keep (inv : Inv E h) (n : Nat) (keep : Bool) : Keep E h (resize h r n keep) := by
  unfold resize
  split
  · next q m v p z x hx =>
    split
    · exact keep_error inv _
    · next hz =>
      have : z = false := by simpa using hz
      subst this
      have hrz : h.isLazy r = false := by rw [isLazy_eq, hx]; rfl
      have hrn := get_lt inv.sound hx
      split
      · exact keep_error inv _
      · next items =>
        simp only
        obtain ⟨st, inv1⟩ := newElems_keep (q := q) (m := m) inv hrn hrz (n - (if keep then items else []).length)
        obtain ⟨i, hnew, hold⟩ := newElems_in (all_good inv.sound) (q := q) (m := m) (z := false) (r := r) (has_of r hrn)
          (n - (if keep then items else []).length)
        refine Keep.after st (setItems_keep inv1 ((hold r hrn).trans hx) ?_)
        intro l e hl he
        cases hl
        rcases List.mem_append.1 he with he | he
        · have he := List.mem_of_mem_take he
          split at he
          · exact Nat.lt_of_lt_of_le (inv.sound.refs r _ hx e (.inl ⟨_, rfl, he⟩)) st.next
          · cases he
        · exact (hnew e he).2
  · exact keep_error inv _

theorem newElement_keep (inv : Inv E h) : Keep E h (newElement h r) := by
  unfold newElement
  split
  · next q m _ _ z _ hx => exact allocStruct_keep inv (get_lt inv.sound hx) (by rw [isLazy_eq, hx]; rfl)
  · exact keep_error inv _

theorem newIds_keep (inv : Inv E h) (m : MFields) : Keep E h (newIds h m) := by
  unfold newIds
  obtain ⟨st, inv1⟩ := alloc_keep (o := .factory) inv (by simp [Refers]) (fun _ => trivial)
  obtain ⟨st2, inv2⟩ := alloc_keep (o := .struct [] m (fun _ => none) (h.alloc .factory).2 true false none) inv1 (by
    rintro e (⟨_, he⟩ | ⟨_, rfl⟩)
    · cases he
    · exact Nat.lt_succ_self _) (fun _ => .inl rfl)
  exact ⟨st.trans st2, inv2⟩

theorem newLazyIds_keep (inv : Inv E h) (m : MFields) (x : C) :
    Stable E h (newLazyIds h m x).1 ∧ Inv E (newLazyIds h m x).1 := by
  unfold newLazyIds
  obtain ⟨st, inv1⟩ := alloc_keep (o := .factory) inv (by simp [Refers]) (fun _ => trivial)
  obtain ⟨st2, inv2⟩ := alloc_keep (o := .struct [] m (fun _ => none) (h.alloc .factory).2 true true (some x)) inv1 (by
    rintro e (⟨_, he⟩ | ⟨_, rfl⟩)
    · cases he
    · exact Nat.lt_succ_self _) (fun _ => by intro n c hn; cases hn)
  exact ⟨st.trans st2, inv2⟩

/-! ### Paths -/

theorem walk_keep (inv : Inv E h) (hr : r < h.next) (path : List (Name × Option Nat)) : Keep E h (walk E h r path) := by
  induction path generalizing h r with
  | nil => exact ⟨.refl inv, inv⟩
  | cons a path ih =>
    obtain ⟨n, i⟩ := a
    obtain ⟨⟨st, inv1⟩, _⟩ := getAttr_keep (E := E) inv hr n
    have o1 := getAttr_in (E := E) (name := n) (all_good inv.sound) (has_of r hr)
    unfold walk
    split
    · next h1 c he =>
      rw [he] at st inv1 o1
      have hc := (o1.refs _ rfl c (by simp)).2
      split
      · exact Keep.after st (ih inv1 hc)
      · next k =>
        obtain ⟨⟨st2, inv2⟩, _⟩ := getItem_keep (E := E) inv1 hc k
        have o2 := getItem_in (E := E) (k := k) (all_good inv1.sound) (has_of c hc)
        split
        · next h2 e he2 =>
          rw [he2] at st2 inv2 o2
          exact Keep.after (st.trans st2) (ih inv2 (o2.refs _ rfl e (by simp)).2)
        · next he2 => rw [he2] at st2 inv2; exact ⟨st.trans st2, inv2⟩
        · next he2 => rw [he2] at st2 inv2; exact ⟨st.trans st2, inv2⟩
    · next he => rw [he] at st inv1; exact ⟨st, inv1⟩
    · next he => rw [he] at st inv1; exact ⟨st, inv1⟩

theorem setPath_keep (inv : Inv E h) {s : Ref} (hr : r < h.next) (hs : s < h.next) (path : List (Name × Option Nat))
    (hc : ∀ h' c o, walk E h r path = (h', .ok [c]) → h'.get c = some o →
      (∃ l v p, o = .leaf l v p) ∨ ∀ p, parentOf o = some p → h'.isLazy p = false) :
    Keep E h (setPath E h r path s) := by
  obtain ⟨st, inv1⟩ := walk_keep (E := E) inv hr path
  unfold setPath
  split
  · next h1 c he =>
    rw [he] at st inv1
    split
    · exact Keep.after st (setValue_keep inv1 c s)
    · next o name i hx hnl hlast =>
      split
      · exact ⟨st, inv1⟩
      · next p hp =>
        split
        · next hpx =>
          refine Keep.after st (setAttr_keep inv1 (parent_lt inv1.sound hnl hp) (Nat.lt_of_lt_of_le hs st.next) ?_)
          intro q m d p' t x hx'
          rcases hc h1 c o he hnl with ⟨l, v, p'', rfl⟩ | hz
          · exact absurd rfl (hx _ _ _)
          · have := hz p hp
            rw [isLazy_eq, hx'] at this; cases this
        · exact ⟨st, inv1⟩
    · exact ⟨st, inv1⟩
  · next he => rw [he] at st inv1; exact ⟨st, inv1⟩
  · next he => rw [he] at st inv1; exact ⟨st, inv1⟩

/-! ### Arrays -/

theorem newArray_keep (inv : Inv E h) (v : V) : Stable E h (newArray E.mem h v).1 ∧ Inv E (newArray E.mem h v).1 := by
  have := newValue_keep (E := E) inv ⟨.int, 1, false⟩ v
  simpa [newValue] using this

theorem view_keep (inv : Inv E h) (w : W) : Keep E h (view h r w) := by
  unfold view
  split
  · next x _ hx =>
    exact alloc_keep inv (by
      intro e he
      simp only [Refers] at he
      subst he
      exact inv.sound.refs r _ hx e rfl) (fun _ => trivial)
  · exact keep_error inv _

theorem write_keep (inv : Inv E h) (b : B) (w : W)
    (hc : ∀ x w, h.get r = some (.arr x w) → ∀ o l v p, h.get o = some (.leaf l (some v) p) → h.isLazy p = true →
      ∀ w', h.get v ≠ some (.arr x w')) : Keep E h (write h r b w) := by
  unfold write
  split
  · next x w0 hx =>
    split
    · next b0 hb =>
      have hrx : r ≠ x := by rintro rfl; rw [hx] at hb; cases hb
      have hrn := get_lt inv.sound hx
      have hxn := get_lt inv.sound hb
      have get3 : ∀ o, o ≠ r → o ≠ x → ((h.set x (.buf b)).set r (.arr x w)).get o = h.get o :=
        fun o h1 h2 => (set_other h1).trans (set_other h2)
      have getx : ((h.set x (.buf b)).set r (.arr x w)).get x = some (.buf b) :=
        (set_other (Ne.symm hrx)).trans (set_get ..)
      have hl : ∀ o, ((h.set x (.buf b)).set r (.arr x w)).isLazy o = h.isLazy o := by
        intro o
        rw [isLazy_eq, isLazy_eq]
        by_cases h1 : o = r
        · subst h1; rw [set_get, hx]; rfl
        · by_cases h2 : o = x
          · subst h2; rw [getx, hb]; rfl
          · rw [get3 o h1 h2]
      have snd : Sound true ((h.set x (.buf b)).set r (.arr x w)) := by
        refine sound_set (sound_set inv.sound hxn (by simp [Refers])) hrn ?_
        intro e he; simp only [Refers] at he; subst he; exact hxn
      have st : Stable E h ((h.set x (.buf b)).set r (.arr x w)) := by
        refine ⟨Nat.le_refl _, ?_, ?_⟩
        · intro o y hy
          by_cases h1 : o = r
          · subst h1; rw [hx] at hy; cases hy; exact ⟨_, set_get .., rfl⟩
          · by_cases h2 : o = x
            · subst h2; rw [hb] at hy; cases hy; exact ⟨_, getx, rfl⟩
            · refine ⟨y, (get3 o h1 h2).trans hy, ?_⟩
              cases y with
              | struct => exact ⟨_, _, rfl⟩
              | aos => exact ⟨_, _, rfl⟩
              | leaf l v p =>
                refine ⟨_, _, rfl, fun hz => ⟨(hl p).trans hz, ?_⟩⟩
                intro ww hw
                cases v with
                | none => exact hw
                | some a =>
                  have hna := hc x w0 hx o l a p hy hz
                  rcases val_cases hw with h3 | ⟨b', w', y', h3, h4, h5⟩
                  · have a1 : a ≠ r := by rintro rfl; rw [hx] at h3; cases h3
                    have a2 : a ≠ x := by rintro rfl; rw [hb] at h3; cases h3
                    simp only [shown, Heap.val, get3 a a1 a2, h3]
                  · have a1 : a ≠ r := by rintro rfl; exact hna _ hx
                    have a2 : a ≠ x := by rintro rfl; rw [hb] at h3; cases h3
                    have a3 : b' ≠ r := by rintro rfl; rw [hx] at h4; cases h4
                    have a4 : b' ≠ x := by rintro rfl; exact hna _ h3
                    simp only [shown, Heap.val, get3 a a1 a2, h3, get3 b' a3 a4, h4, h5]
              | _ => rfl
        · intro o ho hno
          have h1 : o ≠ r := by rintro rfl; rw [hx] at hno; cases hno
          have h2 : o ≠ x := by rintro rfl; rw [hb] at hno; cases hno
          rw [get3 o h1 h2]; exact hno
      refine ⟨st, snd, ?_⟩
      intro o y hy
      by_cases h1 : o = r
      · subst h1; rw [set_get] at hy; cases hy; trivial
      · by_cases h2 : o = x
        · subst h2; rw [getx] at hy; cases hy; trivial
        · rw [get3 o h1 h2] at hy
          exact (inv.ok o y hy).mono st fun p hp => parent_lt inv.sound hy hp
    · exact keep_error inv _
  · exact keep_error inv _

end Verif.Heap
