import Verif.Lemmas.HeapHeld
import Verif.Props.Heap
import Verif.Props.Tree
/-
C62: references to nodes of an IDS behave as the places they were taken from.
-/
set_option linter.unusedSectionVars false
namespace Verif.Props
open Verif.Ids Verif.Heap Verif.HeapSpec Verif.TreeSpec

variable {V B W C : Type} [Value V] {E : Env V B W C} {h h' : Heap V B W C} {r s : Ref} {n : Node V} {A : Addr}

/-- What accessing a child does to a structure: the child is created if it does not exist. -/
def touched (k : Name) : Node V → Except Unit (Node V)
  | .struct c => .ok (.struct (c.touch k))
  | x => .ok x

/-- **C62, attributes.** Accessing a child of the structure at `A` gives the node at this child's place. It is
created if it did not exist; nothing else changes and all references stay valid. -/
theorem C62_attribute (hd : Held E.mem h r n) (hp : Place h r A s) {c : Fields V} (hx : n.at A = some (.struct c)) {k : Name}
    (hk : k ∈ c.names) : ∃ h' n' e, Heap.getAttr E h s k = (h', .ok [e]) ∧ n.modify (touched k) A = some (.ok n') ∧
      Held E.mem h' r n' ∧ Place h' r (A ++ [(k, none)]) e ∧ ∀ B t, Place h r B t → Place h' r B t := by
  obtain ⟨x, hx', hs⟩ := hd.shows.at hp
  rw [hx] at hx'; cases hx'
  cases hs with
  | @struct _ q m d p t z x _ hg hf =>
    have hz : z = false := by
      have := (hd.eager _ _ hp).1
      simpa [Heap.isLazy, hg] using this
    subst hz
    have hkm : k ∈ mnames m := by rw [← hf.names]; exact hk
    have hwc : WFFields c := by
      have := wf_at hd.wf hx
      exact this
    cases hdk : d k with
    | some e =>
      obtain ⟨n', h1, h2⟩ := hd.local hp (.struct hg hf) (h' := h) (y := .struct (c.touch k)) ⟨Nat.le_refl _, fun _ _ _ => rfl⟩ hd.sound
        (by rw [touch_present hdk hf]; exact .struct hg hf) (fun _ => ⟨_, rfl⟩) (wf_touchF k c hwc) (news_none fun _ _ hs => hs) rfl
        (fun l v p hg => ⟨v, hg⟩) (f := touched k) rfl
      refine ⟨h, n', e, by simp [Heap.getAttr, hg, hdk], h1, h2, ?_, fun _ _ hB => hB⟩
      unfold Place
      rw [keys_append]
      exact Path.append hp (.cons (.field hg hkm hdk) .nil)
    | none =>
      obtain ⟨cm, hcm⟩ := lookupMeta_some hkm
      have hsl : s < h.next := get_lt hd.sound hg
      have hop : Heap.getAttr E h s k = (((h.alloc (newNode (q ++ [k]) false s cm)).1.set s
          (.struct q m (fun j => if j = k then some h.next else d j) p t false x)), .ok [h.next]) := by
        simp [Heap.getAttr, hg, hdk, hcm, Heap.alloc]
      have snd : Sound true (Heap.getAttr E h s k).1 := sound_of (getAttr_in (all_good hd.sound) ⟨trivial, hsl⟩)
      rw [hop] at snd
      generalize hh : ((h.alloc (newNode (q ++ [k]) false s cm)).1.set s
          (.struct q m (fun j => if j = k then some h.next else d j) p t false x)) = h' at hop snd
      have hself : h'.get s = some (.struct q m (fun j => if j = k then some h.next else d j) p t false x) := by
        rw [← hh]; exact set_get ..
      have hnew : h'.get h.next = some (newNode (q ++ [k]) false s cm) := by
        rw [← hh, set_other (Nat.ne_of_gt hsl)]; exact alloc_get ..
      have lo : Local h h' s := ⟨by rw [← hh]; exact Nat.le_succ _, fun o ho hos => by
        rw [← hh, set_other hos]; exact alloc_old ho⟩
      have hslot : ∀ k' c', Slot h s k' c' → Slot h' s k' c' := by
        intro k' c' hs
        cases hs with
        | field hx hm hd' =>
          rw [hg] at hx; cases hx
          refine .field hself hm ?_
          split
          · next e => subst e; rw [hdk] at hd'; cases hd'
          · exact hd'
        | index hx => rw [hg] at hx; cases hx
      have hlz : h'.isLazy s = h.isLazy s := by rw [isLazy_eq, isLazy_eq, hself, hg]; rfl
      have hnewE : EagerNode h' h.next := by
        refine ⟨by rw [isLazy_eq, hnew]; cases cm <;> rfl, fun l v p' hl => ?_⟩
        rw [hnew] at hl
        have : p' = s := by cases cm <;> cases hl; rfl
        rw [this, hlz]; exact (hd.eager _ _ hp).1
      have hplace : Slot h' s (.field k) h.next := .field hself hkm (by simp)
      obtain ⟨n', h1, h2⟩ := hd.local hp (.struct hg hf) (y := .struct (c.touch k)) lo snd
        (.struct hself (showsFields_touch hdk hcm (shows_newNode hnew) hwc (hd.frameF hp (lo.edit hd.sound) hg hf)))
        (fun _ => ⟨_, rfl⟩) (wf_touchF k c hwc)
        (news_fresh hd.sound hd.lt (by
          intro k' c' hs
          have hs0 := hs
          cases hs with
          | field hx hm hd' =>
            rw [hself] at hx; cases hx
            simp only at hd'
            split at hd'
            · next e =>
              subst e
              cases hd'
              exact .inr ⟨hs0, Nat.le_refl _, slots_newNode hnew, hnewE⟩
            · exact .inl (.field hg hm hd')
          | index hx => rw [hself] at hx; cases hx) (by
          intro k1 k2 c' a b
          have key : ∀ k', Fresh1 h h' s k' c' → k' = .field k := by
            intro k' a
            obtain ⟨a1, a2, -⟩ := a
            cases a1 with
            | field hx hm hd' =>
              rw [hself] at hx; cases hx
              simp only at hd'
              split at hd'
              · next e => rw [e]
              · have := hd.sound.refs _ _ hg _ (.inl ⟨_, hd'⟩)
                exact absurd this (Nat.not_lt.2 a2)
            | index hx => rw [hself] at hx; cases hx
          rw [key _ a, key _ b])) hlz (fun l v p hl => by rw [hself] at hl; cases hl) (f := touched k) rfl
      refine ⟨h', n', h.next, hop, h1, h2, ?_, fun B t hB => (lo.edit hd.sound).keeps_all hslot hB⟩
      unfold Place
      rw [keys_append]
      exact Path.append ((lo.edit hd.sound).keeps_all hslot hp) (.cons hplace .nil)

/-- **C62, items.** An item of the array of structures at `A` is the node at this element's place. Nothing changes. -/
theorem C62_item (hd : Held E.mem h r n) {P : Addr} {k : Name} (hp : Place h r (P ++ [(k, none)]) s) {m : MFields} {e : Elems V}
    (hx : n.at (P ++ [(k, none)]) = some (.aos m e)) (i : Nat) :
    (i < e.length → ∃ c, Heap.getItem E h s i = (h, .ok [c]) ∧ Place h r (P ++ [(k, some i)]) c) ∧
    (e.length ≤ i → Heap.getItem E h s i = (h, .error .index)) := by
  obtain ⟨x, hx', hs⟩ := hd.shows.at hp
  rw [hx] at hx'; cases hx'
  cases hs with
  | @aos _ q m l p z x _ hg hf =>
    have hz : z = false := by
      have := (hd.eager _ _ hp).1
      simpa [Heap.isLazy, hg] using this
    subst hz
    constructor
    · intro hi
      obtain ⟨a, ha⟩ := hf.item hi
      refine ⟨a, by simp [Heap.getItem, hg, ha], ?_⟩
      unfold Place at hp ⊢
      rw [keys_append] at hp ⊢
      obtain ⟨c, h1, h2⟩ := hp.split
      refine h1.append ?_
      cases h2 with
      | cons h3 h4 => cases h4; exact .cons h3 (.cons (.index hg ha) .nil)
    · intro hi
      have : l[i]? = none := List.getElem?_eq_none (by rw [hf.length]; exact hi)
      simp [Heap.getItem, hg, this]

/-- **C62, resize.** Resizing the array of structures at `A` does what C10 says to the elements at `A`, and changes nothing
else. References to elements that are kept stay valid. -/
theorem C62_resize (hd : Held E.mem h r n) (hp : Place h r A s) {m : MFields} {e : Elems V} (hx : n.at A = some (.aos m e))
    (k : Nat) (keep : Bool) :
    ∃ h' n', resize h s k keep = (h', .ok []) ∧ n.modify (Node.onElems fun m v => aosResize false m v k keep) A = some (.ok n') ∧
      Held E.mem h' r n' ∧ ∀ K t, Path h r K t →
        (∀ j L, K = keys A ++ j :: L → keep = true ∧ ∃ i, j = .index i ∧ i < k) → Path h' r K t := by
  obtain ⟨x, hx', hs⟩ := hd.shows.at hp
  rw [hx] at hx'; cases hx'
  cases hs with
  | @aos _ q m l p z x _ hg hf =>
    have hz : z = false := by
      have := (hd.eager _ _ hp).1
      simpa [Heap.isLazy, hg] using this
    subst hz
    have hsl : s < h.next := get_lt hd.sound hg
    obtain ⟨g, rfl⟩ : ∃ g, e = .ofList g := ⟨e.toList, (HeapSpec.Elems.ofList_toList e).symm⟩
    let l0 := if keep then l else []
    let g0 := if keep then g else []
    have hl0 : ∀ (i : Nat) a, l0[i]? = some (some a) → l[i]? = some (some a) := by
      intro i a; simp only [l0]; split
      · exact id
      · intro h; simp at h
    obtain ⟨hn1, hn2, hn3, hn4⟩ := newElems_spec q m false s (k - l0.length) h
    have hop : resize h s k keep = ((newElems q m false s (k - l0.length) h).1.set s
        (.aos q m (some (l0.take k ++ (List.range' h.next (k - l0.length)).map some)) p false x), .ok []) := by
      simp only [resize, hg, Bool.false_eq_true, if_false]
      rw [← hn2]
    have snd : Sound true (resize h s k keep).1 := sound_of (resize_in (all_good hd.sound) ⟨trivial, hsl⟩)
    rw [hop] at snd
    generalize hh : ((newElems q m false s (k - l0.length) h).1.set s
        (.aos q m (some (l0.take k ++ (List.range' h.next (k - l0.length)).map some)) p false x)) = h' at hop snd
    have hself : h'.get s = some (.aos q m (some (l0.take k ++ (List.range' h.next (k - l0.length)).map some)) p false x) := by
      rw [← hh]; exact set_get ..
    have hnew : ∀ o, h.next ≤ o → o < h.next + (k - l0.length) → h'.get o = some (.struct q m (fun _ => none) s false false none) := by
      intro o h1 h2
      rw [← hh, set_other (by omega_ref)]; exact hn4 o h1 h2
    have lo : Local h h' s := ⟨by
      rw [← hh]
      show h.next ≤ (newElems q m false s (k - l0.length) h).1.next
      rw [hn1]; exact Nat.le_add_right .., fun o ho hos => by
      rw [← hh, set_other hos]; exact hn3 o ho⟩
    have hlz : h'.isLazy s = h.isLazy s := by rw [isLazy_eq, isLazy_eq, hself, hg]; rfl
    have hframe := hd.frameE hp (lo.edit hd.sound) hg hf
    have hlen : l0.length = g0.length := by
      have := (showsElems_iff.1 hf).1
      simp only [l0, g0]; split
      · exact this
      · rfl
    have h0 : ShowsElems E.mem h' l0 (.ofList g0) := by
      simp only [l0, g0]; split
      · exact hframe
      · exact .nil
    have hwm := wf_at hd.wf hx
    have hwres : WF (.aos m (.ofList (g0.take k ++ List.replicate (k - g0.length) m.fresh)) : Node V) := by
      refine ⟨hwm.1, wfElems_iff.2 fun c hc => ?_⟩
      rcases List.mem_append.1 hc with hc | hc
      · refine wfElems_iff.1 hwm.2 c ?_
        have := List.mem_of_mem_take hc
        simp only [g0] at this
        split at this
        · exact this
        · simp at this
      · rw [(List.mem_replicate.1 hc).2]
        exact wf_fresh_meta (.struct m) hwm.1
    have hfresh : ∀ (i : Nat) c', ((List.range' h.next (k - l0.length)).map some)[i]? = some (some c') → c' = h.next + i ∧ c' < h.next + (k - l0.length) := by
      intro i c' hi
      simp only [List.getElem?_map, Option.map_eq_some_iff, Option.some.injEq, exists_eq_right] at hi
      obtain ⟨hi1, hi2⟩ := List.getElem?_eq_some_iff.1 hi
      simp only [List.length_range'] at hi1
      simp only [List.getElem_range'] at hi2
      omega_ref
    have hkey : ∀ k' c', Slot h' s k' c' → h.next ≤ c' → ∃ i : Nat, k' = .index ((l0.take k).length + i) ∧ c' = h.next + i ∧
        c' < h.next + (k - l0.length) := by
      intro k' c' hs hc'
      cases hs with
      | field hy => rw [hself] at hy; cases hy
      | @index _ _ _ _ _ _ i _ hy hi =>
        rw [hself] at hy; cases hy
        by_cases hlt : i < (l0.take k).length
        · rw [List.getElem?_append_left hlt, List.getElem?_take] at hi
          split at hi
          · have := hd.sound.refs _ _ hg _ (.inl ⟨_, rfl, List.mem_of_getElem? (hl0 _ _ hi)⟩)
            exact absurd this (Nat.not_lt.2 hc')
          · cases hi
        · rw [List.getElem?_append_right (by omega)] at hi
          obtain ⟨h1, h2⟩ := hfresh _ _ hi
          exact ⟨i - (l0.take k).length, by congr 1; omega, h1, h2⟩
    obtain ⟨n', h1, h2⟩ := hd.local hp (.aos hg hf)
      (y := .aos m (.ofList (g0.take k ++ List.replicate (k - g0.length) m.fresh))) lo snd
      (.aos hself (by
        rw [hlen] at hnew ⊢
        exact showsElems_append (showsElems_take h0 k) (showsElems_new _ _ hnew)))
      (fun h => by obtain ⟨_, h⟩ := h; cases h) hwres
      (news_fresh hd.sound hd.lt (by
        intro k' c' hs
        by_cases hc' : h.next ≤ c'
        · obtain ⟨i, -, -, h3⟩ := hkey k' c' hs hc'
          have hc := hnew c' hc' h3
          refine .inr ⟨hs, hc', ?_, ?_⟩
          · intro j d hj
            cases hj with
            | field hy _ hy' => rw [hc] at hy; cases hy; cases hy'
            | index hy => rw [hc] at hy; cases hy
          · exact ⟨by rw [isLazy_eq, hc]; rfl, fun l v p hl => by rw [hc] at hl; cases hl⟩
        · cases hs with
          | field hy => rw [hself] at hy; cases hy
          | @index _ _ _ _ _ _ i _ hy hi =>
            rw [hself] at hy; cases hy
            refine .inl (.index hg (hl0 _ _ ?_))
            by_cases hlt : i < (l0.take k).length
            · rw [List.getElem?_append_left hlt, List.getElem?_take] at hi
              split at hi
              · exact hi
              · cases hi
            · rw [List.getElem?_append_right (by omega)] at hi
              obtain ⟨h1, -⟩ := hfresh _ _ hi
              omega_ref) (by
        intro k1 k2 c' a b
        obtain ⟨i, hi1, hi2, -⟩ := hkey _ _ a.1 a.2.1
        obtain ⟨j, hj1, hj2, -⟩ := hkey _ _ b.1 b.2.1
        have : i = j := by omega_ref
        rw [hi1, hj1, this])) hlz (fun l v p hl => by rw [hself] at hl; cases hl)
      (f := Node.onElems fun m v => aosResize false m v k keep) (by
        simp only [Node.onElems, Elems.toList_ofList, resize_eq, Except.map]; rfl)
    refine ⟨h', n', hop, h1, h2, fun K t hK hne => (lo.edit hd.sound).keeps_but
      (R := fun j => ¬ (keep = true ∧ ∃ i, j = .index i ∧ i < k)) (fun j c' hj hs => ?_) hK fun B j L e hj hB => ?_⟩
    · obtain ⟨hk, i, rfl, hi⟩ := Classical.not_not.1 hj
      have hl : l0 = l := by simp only [l0, hk, if_true]
      cases hs with
      | index hy hj =>
        rw [hg] at hy; cases hy
        refine .index hself ?_
        have hlt := (List.getElem?_eq_some_iff.1 hj).1
        rw [hl, List.getElem?_append_left (by rw [List.length_take]; omega), List.getElem?_take, if_pos hi]
        exact hj
    · cases hd.unshared _ _ _ hp hB
      exact hj (hne j L e)

/-- **C62, append.** Appending a structure that is in no IDS to the array of structures at `A` adds what the structure
shows at the end, and nothing else changes. The structure is the last element now. -/
theorem C62_append (hd : Held E.mem h r n) (hp : Place h r A s) {m : MFields} {e : Elems V} (hx : n.at A = some (.aos m e))
    {a : Ref} {c : Fields V} (ha : Held E.mem h a (.struct c)) (dj : Disjoint h r a) :
    ∃ h' n', append h s a = (h', .ok []) ∧ n.modify (Node.onElems fun _ v => aosAppend false v [c]) A = some (.ok n') ∧
      Held E.mem h' r n' ∧ Path h' r (keys A ++ [.index e.length]) a ∧ ∀ K t, Path h r K t → Path h' r K t := by
  obtain ⟨x, hx', hs⟩ := hd.shows.at hp
  rw [hx] at hx'; cases hx'
  cases hs with
  | @aos _ q m l p z x _ hg hf =>
    have hz : z = false := by
      have := (hd.eager _ _ hp).1
      simpa [Heap.isLazy, hg] using this
    subst hz
    have hsl : s < h.next := get_lt hd.sound hg
    have hne : a ≠ s := by rintro rfl; exact dj _ _ _ hp .nil
    obtain ⟨g, rfl⟩ : ∃ g, e = .ofList g := ⟨e.toList, (HeapSpec.Elems.ofList_toList e).symm⟩
    cases ha.shows with
    | @struct _ qa ma da pa ta za xa _ hga hfa =>
      have hop : append h s a = ((h.set a (.struct qa ma da s ta za xa)).set s (.aos q m (some (l ++ [some a])) p false x), .ok []) := by
        simp [append, hg, setParent, hga, set_other (Ne.symm hne)]
      have snd : Sound true (append h s a).1 := sound_of (append_in (all_good hd.sound) ⟨trivial, hsl⟩ ⟨trivial, ha.lt⟩)
      rw [hop] at snd
      generalize hh : ((h.set a (.struct qa ma da s ta za xa)).set s (.aos q m (some (l ++ [some a])) p false x)) = h' at hop snd
      have hself : h'.get s = some (.aos q m (some (l ++ [some a])) p false x) := by rw [← hh]; exact set_get ..
      have hgot : h'.get a = some (.struct qa ma da s ta za xa) := by
        rw [← hh, set_other hne]; exact set_get ..
      have hlen := hf.length
      have hslot : ∀ k c, Slot h s k c → Slot h' s k c := by
        intro k c hs
        cases hs with
        | field hy => rw [hg] at hy; cases hy
        | index hy hi =>
          rw [hg] at hy; cases hy
          exact .index hself (by rw [List.getElem?_append_left (List.getElem?_eq_some_iff.1 hi).1]; exact hi)
      have hlast : Slot h' s (.index l.length) a := .index hself (by simp)
      have ad : Adopt h h' s a := ⟨by rw [← hh]; rfl, fun o h1 h2 => by rw [← hh, set_other h1, set_other h2],
        ⟨_, _, hga, hgot, rfl⟩⟩
      have hwx := wf_at hd.wf hx
      obtain ⟨n', h1, h2⟩ := hd.adopt hp (.aos hg hf) ha dj ad (fun l v p hl => by rw [hga] at hl; cases hl) snd
        (k0 := .index l.length) (by
          intro k c hs
          cases hs with
          | field hy => rw [hself] at hy; cases hy
          | @index _ _ _ _ _ _ i _ hy hi =>
            rw [hself] at hy; cases hy
            by_cases hlt : i < l.length
            · rw [List.getElem?_append_left hlt] at hi
              exact .inl (.index hg hi)
            · rw [List.getElem?_append_right (by omega)] at hi
              have h0 : i - l.length = 0 := by
                rcases Nat.eq_zero_or_pos (i - l.length) with h | h
                · exact h
                · obtain ⟨j, hj⟩ : ∃ j, i - l.length = j + 1 := ⟨i - l.length - 1, by omega⟩
                  rw [hj] at hi; simp at hi
              rw [h0] at hi
              simp at hi
              exact .inr ⟨by congr 1; omega, hi.symm⟩)
        (y := .aos m (.ofList (g ++ [c])))
        (fun hfr => .aos hself (showsElems_append (hd.frameE hp (ad.edit hd.sound) hg hf) (.cons hfr .nil)))
        (fun h => by obtain ⟨_, h⟩ := h; cases h)
        ⟨hwx.1, wfElems_iff.2 fun c' hc => by
          rcases List.mem_append.1 hc with hc | hc
          · exact wfElems_iff.1 hwx.2 c' hc
          · cases List.mem_singleton.1 hc; exact ha.wf⟩
        (by rw [isLazy_eq, isLazy_eq, hself, hg]; rfl) (fun l v p hl => by rw [hself] at hl; cases hl)
        (f := Node.onElems fun _ v => aosAppend false v [c]) (by
          simp [Node.onElems, Elems.toList_ofList, aosAppend, Except.map, pure, Except.pure])
      refine ⟨h', n', hop, h1, h2, ?_, fun K t hK => (ad.edit hd.sound).keeps_all hslot hK⟩
      rw [← hlen]
      exact Path.append ((ad.edit hd.sound).keeps_all hslot hp) (.cons hlast .nil)

/-- **C62, item assignment.** -/
theorem C62_set_item (hd : Held E.mem h r n) (hp : Place h r A s) {m : MFields} {e : Elems V} (hx : n.at A = some (.aos m e))
    {a : Ref} {c : Fields V} (ha : Held E.mem h a (.struct c)) (dj : Disjoint h r a) (i : Nat) :
    (i < e.length → ∃ h' n', setItem h s i a = (h', .ok []) ∧
      n.modify (Node.onElems fun _ v => aosSetItem false v i c) A = some (.ok n') ∧ Held E.mem h' r n' ∧
      Path h' r (keys A ++ [.index i]) a ∧
      ∀ K t, Path h r K t → (∀ L, K ≠ keys A ++ .index i :: L) → Path h' r K t) ∧
    (e.length ≤ i → setItem h s i a = (h, .error .index)) := by
  obtain ⟨x, hx', hs⟩ := hd.shows.at hp
  rw [hx] at hx'; cases hx'
  cases hs with
  | @aos _ q m l p z x _ hg hf =>
    have hz : z = false := by
      have := (hd.eager _ _ hp).1
      simpa [Heap.isLazy, hg] using this
    subst hz
    have hsl : s < h.next := get_lt hd.sound hg
    have hne : a ≠ s := by rintro rfl; exact dj _ _ _ hp .nil
    obtain ⟨g, rfl⟩ : ∃ g, e = .ofList g := ⟨e.toList, (HeapSpec.Elems.ofList_toList e).symm⟩
    have hlen := hf.length
    have hlg := (showsElems_iff.1 hf).1
    refine ⟨fun hi => ?_, fun hi => ?_⟩
    · rw [← hlen] at hi
      have hop : setItem h s i a = (h.set s (.aos q m (some (l.set i (some a))) p false x), .ok []) := by
        simp [setItem, hg, hi]
      have snd : Sound true (setItem h s i a).1 := sound_of (setItem_in (all_good hd.sound) ⟨trivial, hsl⟩ ⟨trivial, ha.lt⟩)
      rw [hop] at snd
      generalize hh : (h.set s (.aos q m (some (l.set i (some a))) p false x)) = h' at hop snd
      have hself : h'.get s = some (.aos q m (some (l.set i (some a))) p false x) := by rw [← hh]; exact set_get ..
      obtain ⟨oa, hga⟩ : ∃ o, h.get a = some o := by
        cases ha.shows with
        | struct hx => exact ⟨_, hx⟩
      have ad : Adopt h h' s a := ⟨by rw [← hh]; rfl, fun o h1 h2 => by rw [← hh, set_other h1],
        ⟨_, _, hga, by rw [← hh, set_other hne]; exact hga, rfl⟩⟩
      have hslot : Slot h' s (.index i) a := .index hself (by simp [hi])
      have hwx := wf_at hd.wf hx
      have hset : aosSetItem false g (i : Int) c = .ok (g.set i c) := by
        have h1 : (0 : Int) ≤ i ∧ (i : Int) < g.length := by omega
        have h2 : ¬ ((i : Int) < 0) := by omega
        simp [aosSetItem, listIndex, h1, h2, pure, Except.pure]
      obtain ⟨n', h1, h2⟩ := hd.adopt hp (.aos hg hf) ha dj ad (fun l v p hl => by
          cases ha.shows with
          | struct hx => rw [hx] at hl; cases hl) snd
        (k0 := .index i) (by
          intro k c hs
          cases hs with
          | field hy => rw [hself] at hy; cases hy
          | @index _ _ _ _ _ _ j _ hy hj =>
            rw [hself] at hy; cases hy
            by_cases e : j = i
            · subst e
              simp [hi] at hj
              exact .inr ⟨rfl, hj.symm⟩
            · rw [List.getElem?_set_ne (Ne.symm e)] at hj
              exact .inl (.index hg hj))
        (y := .aos m (.ofList (g.set i c)))
        (fun hfr => .aos hself (showsElems_iff.2 ⟨by simpa using hlg, fun j c' hj => by
          have hfr' := showsElems_iff.1 (hd.frameE hp (ad.edit hd.sound) hg hf)
          by_cases e : j = i
          · subst e
            rw [List.getElem?_set_self (by omega)] at hj; cases hj
            exact ⟨a, by simp [hi], hfr⟩
          · rw [List.getElem?_set_ne (Ne.symm e)] at hj ⊢
            exact hfr'.2 j c' hj⟩))
        (fun h => by obtain ⟨_, h⟩ := h; cases h)
        ⟨hwx.1, wfElems_iff.2 fun c' hc => by
          rcases List.mem_or_eq_of_mem_set hc with hc | rfl
          · exact wfElems_iff.1 hwx.2 c' hc
          · exact ha.wf⟩
        (by rw [isLazy_eq, isLazy_eq, hself, hg]; rfl) (fun l v p hl => by rw [hself] at hl; cases hl)
        (f := Node.onElems fun _ v => aosSetItem false v i c) (by
          simp only [Node.onElems, Elems.toList_ofList, hset, Except.map])
      have keep : ∀ K t, Path h r K t → (∀ L, K ≠ keys A ++ .index i :: L) → Path h' r K t := by
        intro K t hK hne
        refine (ad.edit hd.sound).keeps_but (R := fun k => k = .index i) (fun k c hk hs => ?_) hK (fun B _ L e hk hB => ?_)
        · cases hs with
          | field hy => rw [hg] at hy; cases hy
          | index hy hj =>
            rw [hg] at hy; cases hy
            exact .index hself (by rw [List.getElem?_set_ne (fun e => hk (by rw [e]))]; exact hj)
        · rw [hd.unshared _ _ _ hB hp, hk] at e
          exact hne L e
      refine ⟨h', n', hop, h1, h2, ?_, keep⟩
      refine Path.append (keep _ _ hp ?_) (.cons hslot .nil)
      intro L hL
      simp at hL
    · rw [← hlen] at hi
      simp [setItem, hg, Nat.not_lt.2 hi]

/-- **C62, values.** Assigning a value `w` to the data node at `A` puts the converted value there: nothing (the node
becomes unset) if a scalar is assigned its default, and nothing else changes. If the conversion fails, nothing at
all changes. -/
theorem C62_set_value (hd : Held E.mem h r n) (hp : Place h r A s) {l : LeafMeta} {v : Option V}
    (hx : n.at A = some (.leaf l v)) {a : Ref} {w : V} (ha : h.val E.mem a = some w) :
    (E.cast l w = .fails → setValue E h s a = (h, .error .value)) ∧
    ∀ w', (E.cast l w = .same ∧ w' = w) ∨ E.cast l w = .new w' → ∃ h' n', setValue E h s a = (h', .ok []) ∧
      n.modify (fun _ => (.ok (.leaf l (if l.ndim = 0 ∧ E.isDefault l w' = true then none else some w')) : Except Unit (Node V))) A = some (.ok n') ∧
      Held E.mem h' r n' ∧ ∀ K t, Path h r K t → Path h' r K t := by
  obtain ⟨x, hx', hs⟩ := hd.shows.at hp
  rw [hx] at hx'; cases hx'
  obtain ⟨u, p, hg⟩ : ∃ u p, h.get s = some (.leaf l u p) := by
    cases hs with
    | unset hg => exact ⟨_, _, hg⟩
    | leaf hg => exact ⟨_, _, hg⟩
  have hz : h.isLazy p = false := (hd.eager _ _ hp).2 _ _ _ hg
  have hsl : s < h.next := get_lt hd.sound hg
  obtain ⟨o, hao⟩ : ∃ o, h.get a = some o := by
    cases ho : h.get a with
    | none => simp [Heap.val, ho] at ha
    | some o => exact ⟨o, rfl⟩
  have hal : a < h.next := get_lt hd.sound hao
  have hnl : ∀ l v p, h.get a ≠ some (.leaf l v p) := by
    intro l v p hl; simp [Heap.val, hl] at ha
  have hop : setValue E h s a = storeValue E h s a true := by
    unfold Heap.setValue
    rw [hg]
    simp only [hz, Bool.false_eq_true, if_false]
  have hstore : storeValue E h s a true = (match E.cast l w with
      | .fails => (h, .error .value)
      | .same => (h.set s (.leaf l (if (l.ndim == 0 && E.isDefault l w) then none else some a) p), .ok [])
      | .new v' => ((newValue E.mem h l v').1.set s (.leaf l (if (l.ndim == 0 && E.isDefault l v') then none
          else some (newValue E.mem h l v').2) p), .ok [])) := by
    simp only [storeValue, hg, ha, if_true]
    split <;> simp_all
  have snd : Sound true (setValue E h s a).1 := sound_of (setValue_in (all_good hd.sound) ⟨trivial, hsl⟩ ⟨trivial, hal⟩)
  rw [hop, hstore] at snd
  rw [hop, hstore]
  refine ⟨fun hc => by rw [hc], fun w' hw => ?_⟩
  rcases hw with ⟨hc, rfl⟩ | hc
  · rw [hc] at snd
    have hne : a ≠ s := by rintro rfl; exact hnl _ _ _ hg
    simp only [hc] at snd ⊢
    by_cases hdef : l.ndim = 0 ∧ E.isDefault l w' = true
    · simp only [hdef.1, hdef.2, beq_self_eq_true, Bool.and_self, if_true] at snd ⊢
      have lo : Local h (h.set s (.leaf l none p)) s := ⟨Nat.le_refl _, fun o _ ho => set_other ho⟩
      obtain ⟨n', h1, h2, h3⟩ := hd.leaf hp hg hs lo snd (set_get ..) (.unset (set_get ..))
        (f := fun _ => (.ok (.leaf l none) : Except Unit (Node V))) rfl
      exact ⟨_, n', rfl, by simpa using h1, h2, h3⟩
    · have hb : (l.ndim == 0 && E.isDefault l w') = false := by
        rw [Bool.eq_false_iff]; intro h; simp at h; exact hdef h
      simp only [hb, Bool.false_eq_true, if_false, hdef] at snd ⊢
      have lo : Local h (h.set s (.leaf l (some a) p)) s := ⟨Nat.le_refl _, fun o _ ho => set_other ho⟩
      have ed := lo.edit hd.sound
      obtain ⟨n', h1, h2, h3⟩ := hd.leaf hp hg hs lo snd (set_get ..) (.leaf (set_get ..) (ed.val hs ha))
        (f := fun _ => (.ok (.leaf l (some w')) : Except Unit (Node V))) rfl
      exact ⟨_, n', rfl, h1, h2, h3⟩
  · simp only [hc] at snd ⊢
    obtain ⟨gr, -, hval⟩ := newValue_spec E.mem h l w'
    have lo : ∀ y, Local h ((newValue E.mem h l w').1.set s y) s := fun y => ⟨gr.next, fun o h1 ho => by
      rw [set_other ho]; exact gr.old o h1⟩
    by_cases hdef : l.ndim = 0 ∧ E.isDefault l w' = true
    · simp only [hdef.1, hdef.2, beq_self_eq_true, Bool.and_self, if_true] at snd ⊢
      obtain ⟨n', h1, h2, h3⟩ := hd.leaf hp hg hs (lo _) snd (set_get ..) (.unset (set_get ..))
        (f := fun _ => (.ok (.leaf l none) : Except Unit (Node V))) rfl
      exact ⟨_, n', rfl, by simpa using h1, h2, h3⟩
    · have hb : (l.ndim == 0 && E.isDefault l w') = false := by
        rw [Bool.eq_false_iff]; intro h; simp at h; exact hdef h
      simp only [hb, Bool.false_eq_true, if_false, hdef] at snd ⊢
      obtain ⟨n', h1, h2, h3⟩ := hd.leaf hp hg hs (lo _) snd (set_get ..) (.leaf (set_get ..) (hval s _ hsl))
        (f := fun _ => (.ok (.leaf l (some w')) : Except Unit (Node V))) rfl
      exact ⟨_, n', rfl, h1, h2, h3⟩

/-- **C62, reading.** The value of the data node at `A` is the value of this place, or the default. Reading an unset
array stores an empty one in the node; nothing else changes. -/
theorem C62_get_value (hd : Held E.mem h r n) (hp : Place h r A s) {l : LeafMeta} {v : Option V}
    (hx : n.at A = some (.leaf l v)) :
    ∃ h' n' a, getValue E h s = (h', .ok [a]) ∧ h'.val E.mem a = some (v.getD (E.default l)) ∧
      n.modify (fun _ => (.ok (.leaf l (if l.ndim = 0 then v else some (v.getD (E.default l)))) : Except Unit (Node V))) A =
        some (.ok n') ∧ Held E.mem h' r n' ∧ ∀ K t, Path h r K t → Path h' r K t := by
  obtain ⟨x, hx', hs⟩ := hd.shows.at hp
  rw [hx] at hx'; cases hx'
  cases hs with
  | @leaf _ _ a p v hg hv =>
    have lo : Local h h s := ⟨Nat.le_refl _, fun _ _ _ => rfl⟩
    obtain ⟨n', h1, h2, h3⟩ := hd.leaf hp hg (.leaf hg hv) lo hd.sound hg (.leaf hg hv)
      (f := fun _ => (.ok (.leaf l (some v)) : Except Unit (Node V))) rfl
    exact ⟨h, n', a, by simp [getValue, hg], by simpa using hv, by simpa using h1, h2, h3⟩
  | @unset _ _ p hg =>
    have hsl : s < h.next := get_lt hd.sound hg
    obtain ⟨gr, hv0, hval⟩ := newValue_spec E.mem h l (E.default l)
    have snd : Sound true (getValue E h s).1 := sound_of (getValue_in (all_good hd.sound) ⟨trivial, hsl⟩)
    by_cases h0 : l.ndim = 0
    · have hop : getValue E h s = ((newValue E.mem h l (E.default l)).1, .ok [(newValue E.mem h l (E.default l)).2]) := by
        simp [getValue, hg, h0]
      rw [hop] at snd
      have lo : Local h (newValue E.mem h l (E.default l)).1 s := ⟨gr.next, fun o ho _ => gr.old o ho⟩
      have hg' := hg
      rw [← gr.old s hsl] at hg'
      obtain ⟨n', h1, h2, h3⟩ := hd.leaf hp hg (.unset hg) lo snd hg' (.unset hg')
        (f := fun _ => (.ok (.leaf l none) : Except Unit (Node V))) rfl
      exact ⟨_, n', _, hop, by simpa using hv0, by simpa [h0] using h1, h2, h3⟩
    · have hop : getValue E h s = ((newValue E.mem h l (E.default l)).1.set s
          (.leaf l (some (newValue E.mem h l (E.default l)).2) p), .ok [(newValue E.mem h l (E.default l)).2]) := by
        simp [getValue, hg, h0]
      rw [hop] at snd
      have lo : ∀ y, Local h ((newValue E.mem h l (E.default l)).1.set s y) s := fun y => ⟨gr.next, fun o ho hos => by
        rw [set_other hos]; exact gr.old o ho⟩
      obtain ⟨n', h1, h2, h3⟩ := hd.leaf hp hg (.unset hg) (lo _) snd (set_get ..) (.leaf (set_get ..) (hval s _ hsl))
        (f := fun _ => (.ok (.leaf l (some (E.default l))) : Except Unit (Node V))) rfl
      exact ⟨_, n', _, hop, by simpa using hval s _ hsl, by simpa [h0] using h1, h2, h3⟩

/-- **C62, new elements.** A new element of the array of structures at `A` is an empty structure that has nothing in
common with the IDS, which does not change. -/
theorem C62_new_element (hd : Held E.mem h r n) (hp : Place h r A s) {m : MFields} {e : Elems V}
    (hx : n.at A = some (.aos m e)) :
    ∃ h' c, newElement h s = (h', .ok [c]) ∧ Held E.mem h' r n ∧ Held E.mem h' c (.struct m.fresh) ∧ Disjoint h' r c ∧
      ∀ K t, Path h' r K t ↔ Path h r K t := by
  obtain ⟨x, hx', hs⟩ := hd.shows.at hp
  rw [hx] at hx'; cases hx'
  cases hs with
  | @aos _ q m l p z x _ hg hf =>
    have hz : z = false := by
      have := (hd.eager _ _ hp).1
      simpa [Heap.isLazy, hg] using this
    subst hz
    have hsl : s < h.next := get_lt hd.sound hg
    have snd : Sound true (newElement h s).1 := sound_of (newElement_in (all_good hd.sound) ⟨trivial, hsl⟩)
    have hop : newElement h s = ((h.alloc (.struct q m (fun _ => none) s false false none)).1, .ok [h.next]) := by
      simp [newElement, hg, Heap.alloc]
    rw [hop] at snd
    have gr : Grow h (h.alloc (.struct q m (fun _ => none) s false false none)).1 := ⟨Nat.le_succ _, fun o ho => alloc_old ho⟩
    have hwx := wf_at hd.wf hx
    obtain ⟨h1, h2⟩ := held_new (M := E.mem) (c := h.next) snd (alloc_get ..) hwx.1
    refine ⟨_, _, hop, hd.grow gr snd, h1, ?_, fun K t => gr.path hd.sound hd.lt⟩
    intro t K L hK hL
    have h3 := Path.lt hd.sound hd.lt ((gr.path hd.sound hd.lt).1 hK)
    rw [h2 _ _ hL] at h3
    exact absurd h3 (Nat.lt_irrefl _)

/-- **C62, new IDSs.** A new IDS is empty, and has nothing in common with other IDSs, which do not change. -/
theorem C62_new_ids (snd : Sound true h) {m : MFields} (hm : WFMFields m) :
    ∃ h' c, newIds h m = (h', .ok [c]) ∧ Held E.mem h' c (.struct m.fresh) ∧
      ∀ r n, Held E.mem h r n → Held E.mem h' r n ∧ Disjoint h' r c ∧ ∀ K t, Path h' r K t ↔ Path h r K t := by
  have snd' : Sound true (newIds h m).1 := sound_of (newIds_in (all_good snd) m)
  have hop : newIds h m = (((h.alloc .factory).1.alloc (.struct [] m (fun _ => none) h.next true false none)).1, .ok [h.next + 1]) := by
    simp [newIds, Heap.alloc]
  rw [hop] at snd'
  have gr : Grow h ((h.alloc .factory).1.alloc (.struct [] m (fun _ => none) h.next true false none)).1 :=
    ⟨Nat.le_trans (Nat.le_succ _) (Nat.le_succ _), fun o ho => by
      rw [alloc_old (Nat.lt_succ_of_lt ho), alloc_old ho]⟩
  obtain ⟨h1, h2⟩ := held_new (M := E.mem) (c := h.next + 1) snd' (alloc_get ..) hm
  refine ⟨_, _, hop, h1, fun r n hd => ⟨hd.grow gr snd', ?_, fun K t => gr.path hd.sound hd.lt⟩⟩
  intro t K L hK hL
  have h3 := Path.lt hd.sound hd.lt ((gr.path hd.sound hd.lt).1 hK)
  rw [h2 _ _ hL] at h3
  exact absurd (Nat.lt_of_succ_lt h3) (Nat.lt_irrefl _)

/-- The metadata path of a structure or array of structures. -/
def pathIn (h : Heap V B W C) (r : Ref) : Option (Bool × List Name) :=
  match h.get r with
  | some (.struct q _ _ _ _ _ _) => some (true, q)
  | some (.aos q _ _ _ _ _) => some (false, q)
  | _ => none

/-- What assigning a structure or an array of structures does to a structure. -/
def putChild (k : Name) (w : Node V) : Node V → Except Unit (Node V)
  | .struct c => .ok (.struct (c.put k w))
  | x => .ok x

/-- **C62, assigning structures.** Assigning a structure or an array of structures that is in no IDS to a child of the
structure at `A` puts it there. Only the place of the child changes, and references to nodes elsewhere stay
valid. If the two are not of the same kind and metadata path, there is an error and nothing changes. -/
theorem C62_set_attr (hd : Held E.mem h r n) (hp : Place h r A s) {k : Name} {old : Ref} (hold : Place h r (A ++ [(k, none)]) old)
    {a : Ref} {w : Node V} (ha : Held E.mem h a w) (dj : Disjoint h r a) (hkind : (pathIn h old).isSome) :
    (pathIn h a = pathIn h old → ∃ h' n', setAttr E h s k a = (h', .ok []) ∧
      n.modify (putChild k w) A = some (.ok n') ∧ Held E.mem h' r n' ∧ Place h' r (A ++ [(k, none)]) a ∧
      ∀ K t, Path h r K t → (∀ L, K ≠ keys A ++ .field k :: L) → Path h' r K t) ∧
    (pathIn h a ≠ pathIn h old → ∃ e, setAttr E h s k a = (h, .error e)) := by
  obtain ⟨x, hx, hs⟩ := hd.shows.at hp
  have hslot : Slot h s (.field k) old := by
    unfold Place at hold
    rw [keys_append] at hold
    obtain ⟨b, h1, h2⟩ := Path.split hold
    cases hp.fun h1
    cases h2 with
    | cons h3 h4 => cases h4; exact h3
  cases hslot with
  | @field q m d p t z x _ _ hg hkm hdk =>
  have hsl : s < h.next := get_lt hd.sound hg
  have hget : Heap.getAttr E h s k = (h, .ok [old]) := by simp [Heap.getAttr, hg, hdk]
  have hne : a ≠ s := by rintro rfl; exact dj _ _ _ hp .nil
  obtain ⟨c, rfl, hf⟩ := hs.struct_inv hg
  have hz : z = false := by
    have := (hd.eager _ _ hp).1
    simpa [Heap.isLazy, hg] using this
  subst hz
  refine ⟨fun hq => ?_, fun hq => ?_⟩
  · obtain ⟨ya, za, hga, hop, hor⟩ : ∃ ya za, h.get a = some ya ∧ setAttr E h s k a = ((h.set s (.struct q m (fun n => if n = k then some a else d n) p t false x)).set a za, .ok []) ∧
        orphan za = orphan ya := by
      cases hco : h.get old with
      | none => simp [pathIn, hco] at hkind
      | some o =>
        cases hao : h.get a with
        | none => simp [pathIn, hao, hco] at hq; simp [← hq, pathIn, hco] at hkind
        | some oa =>
          refine ⟨oa, orphanTo s oa, rfl, ?_, orphanTo_orphan s oa⟩
          cases o <;> simp [pathIn, hco] at hkind <;> cases oa <;>
            simp [pathIn, hco, hao] at hq <;>
            simp [setAttr, hget, hco, hao, hq, storeChild, hg, setParent, set_other hne, orphanTo]
    have snd : Sound true (setAttr E h s k a).1 := sound_of (setAttr_in (all_good hd.sound) ⟨trivial, hsl⟩ ⟨trivial, ha.lt⟩)
    rw [hop] at snd
    generalize hh : ((h.set s (.struct q m (fun n => if n = k then some a else d n) p t false x)).set a za) = h' at hop snd
    have hself : h'.get s = some (.struct q m (fun n => if n = k then some a else d n) p t false x) := by
      rw [← hh, set_other (Ne.symm hne)]; exact set_get ..
    have hgot : h'.get a = some za := by rw [← hh]; exact set_get ..
    have ad : Adopt h h' s a := ⟨by rw [← hh]; rfl, fun o h1 h2 => by rw [← hh, set_other h2, set_other h1],
      ⟨_, _, hga, hgot, hor⟩⟩
    have hnl : ∀ l v p, h.get a ≠ some (.leaf l v p) := by
      intro l v p hl
      rw [← hq] at hkind
      simp [pathIn, hl] at hkind
    have hwc : WFFields c := wf_at hd.wf hx
    have hplace : Slot h' s (.field k) a := .field hself hkm (by simp)
    obtain ⟨n', h1, h2⟩ := hd.adopt hp (.struct hg hf) ha dj ad hnl snd (k0 := .field k) (by
        intro k' c' hs
        cases hs with
        | field hy hm hd' =>
          rw [hself] at hy; cases hy
          simp only at hd'
          split at hd'
          · next e => subst e; cases hd'; exact .inr ⟨rfl, rfl⟩
          · exact .inl (.field hg hm hd')
        | index hy => rw [hself] at hy; cases hy)
      (y := .struct (c.put k w))
      (fun hfr => .struct hself (showsFields_put hfr hwc (hd.frameF hp (ad.edit hd.sound) hg hf)))
      (fun _ => ⟨_, rfl⟩) (wf_putF ha.wf c hwc)
      (by rw [isLazy_eq, isLazy_eq, hself, hg]; rfl) (fun l v p hl => by rw [hself] at hl; cases hl)
      (f := putChild k w) rfl
    have keep : ∀ K t, Path h r K t → (∀ L, K ≠ keys A ++ .field k :: L) → Path h' r K t := by
      intro K t hK hne
      refine (ad.edit hd.sound).keeps_but (R := fun j => j = .field k) (fun k' c' hk hs => ?_) hK (fun B _ L e hk hB => ?_)
      · cases hs with
        | @field _ _ _ _ _ _ _ j _ hy hm hj =>
          rw [hg] at hy; cases hy
          have : j ≠ k := by rintro rfl; exact hk rfl
          exact .field hself hm (by simp [this, hj])
        | index hy => rw [hg] at hy; cases hy
      · rw [hd.unshared _ _ _ hB hp, hk] at e
        exact hne L e
    refine ⟨h', n', hop, h1, h2, ?_, keep⟩
    unfold Place
    rw [keys_append]
    refine Path.append (keep _ _ hp ?_) (.cons hplace .nil)
    intro L hL
    simp at hL
  · cases hco : h.get old with
    | none => simp [pathIn, hco] at hkind
    | some o =>
      cases hao : h.get a with
      | none => cases o <;> simp [pathIn, hco] at hkind <;> simp [setAttr, hget, hco, hao]
      | some oa =>
        cases o <;> simp [pathIn, hco] at hkind <;> cases oa <;>
          simp [pathIn, hco, hao] at hq <;>
          simp [setAttr, hget, hco, hao, hq]

/-- **C62, writing to arrays in place.** The nodes and their places stay the same. The data nodes that hold an array
that looks at this memory have the new contents, all others keep their values. -/
theorem C62_write (hd : Held E.mem h r n) {a x : Ref} {w0 w : W} {b0 b : B} (ha : h.get a = some (.arr x w0))
    (hb : h.get x = some (.buf b0)) :
    ∃ h' n', write h a b w = (h', .ok []) ∧ Held E.mem h' r n' ∧ (∀ K t, Path h' r K t ↔ Path h r K t) ∧
      ∀ A t l v p, Place h r A t → h.get t = some (.leaf l (some v) p) →
        (v = a → n'.at A = some (.leaf l (some (E.mem.look b w)))) ∧
        (∀ w', v ≠ a → h.get v = some (.arr x w') → n'.at A = some (.leaf l (some (E.mem.look b w')))) ∧
        ((∀ w', h.get v ≠ some (.arr x w')) → n'.at A = n.at A) := by
  have hal : a < h.next := get_lt hd.sound ha
  have hne : x ≠ a := by rintro rfl; rw [ha] at hb; cases hb
  have snd : Sound true (write h a b w).1 := sound_of (write_in (all_good hd.sound) ⟨trivial, hal⟩)
  have hop : write h a b w = ((h.set x (.buf b)).set a (.arr x w), .ok []) := by simp [write, ha, hb]
  rw [hop] at snd
  generalize hh : (h.set x (.buf b)).set a (.arr x w) = h' at hop snd
  have hga : h'.get a = some (.arr x w) := by rw [← hh]; exact set_get ..
  have hgx : h'.get x = some (.buf b) := by rw [← hh, set_other hne]; exact set_get ..
  have hgo : ∀ o, o ≠ a → o ≠ x → h'.get o = h.get o := fun o h1 h2 => by rw [← hh, set_other h1, set_other h2]
  have va : h'.val E.mem a = some (E.mem.look b w) := by simp [Heap.val, hga, hgx]
  have vx : ∀ v w', v ≠ a → h.get v = some (.arr x w') → h'.val E.mem v = some (E.mem.look b w') := by
    intro v w' h1 h2
    have : v ≠ x := by rintro rfl; rw [hb] at h2; cases h2
    simp [Heap.val, hgo v h1 this, h2, hgx]
  have vo : ∀ v y, (∀ w', h.get v ≠ some (.arr x w')) → h.val E.mem v = some y → h'.val E.mem v = some y := by
    intro v y h1 h2
    have e1 : v ≠ a := by rintro rfl; exact h1 _ ha
    have e2 : v ≠ x := by rintro rfl; simp [Heap.val, hb] at h2
    unfold Heap.val at h2 ⊢
    rw [hgo v e1 e2]
    cases hv : h.get v with
    | none => rw [hv] at h2; exact h2
    | some o =>
      rw [hv] at h2
      cases o with
      | arr x' w' =>
        simp only at h2 ⊢
        have e3 : x' ≠ x := by rintro rfl; exact h1 _ hv
        have e4 : x' ≠ a := by rintro rfl; simp [ha] at h2
        rw [hgo x' e4 e3]; exact h2
      | _ => exact h2
  have rw' : Rewrite E.mem h h' := by
    refine ⟨by rw [← hh]; rfl, fun o => ?_, fun o => ?_, fun v y hv => ?_⟩
    · by_cases e1 : o = a
      · subst e1; exact .inr ⟨_, .inl (by simp [Heap.val, ha, hb]; rfl)⟩
      · by_cases e2 : o = x
        · subst e2; exact .inr ⟨E.mem.look b w, .inr ⟨_, hb⟩⟩
        · exact .inl (hgo o e1 e2)
    · by_cases e1 : o = a
      · subst e1; exact .inr ⟨_, .inl va⟩
      · by_cases e2 : o = x
        · subst e2; exact .inr ⟨E.mem.look b w, .inr ⟨_, hgx⟩⟩
        · exact .inl (hgo o e1 e2)
    · by_cases e1 : v = a
      · subst e1; exact ⟨_, va⟩
      · by_cases e2 : ∃ w', h.get v = some (.arr x w')
        · obtain ⟨w', e2⟩ := e2; exact ⟨_, vx v w' e1 e2⟩
        · exact ⟨y, vo v y (fun w' e => e2 ⟨w', e⟩) hv⟩
  obtain ⟨n', hd'⟩ := hd.rewrite rw' snd
  refine ⟨h', n', hop, hd', fun K t => rw'.path, fun A t l v p hA ht => ?_⟩
  have ht' := rw'.node ht (.inl ⟨_, _, _, rfl⟩)
  obtain ⟨z, hz, hsz⟩ := hd'.shows.at (rw'.path.2 hA)
  obtain ⟨y, hy, hsy⟩ := hd.shows.at hA
  have key : ∀ u, h'.val E.mem v = some u → n'.at A = some (.leaf l (some u)) := by
    intro u hu
    rw [hz]
    cases shows_unique hsz (.leaf ht' hu)
    rfl
  refine ⟨fun e => key _ (e ▸ va), fun w' h1 h2 => key _ (vx v w' h1 h2), fun h1 => ?_⟩
  cases hsy with
  | unset hg => rw [ht] at hg; cases hg
  | leaf hg hv =>
    rw [ht] at hg; cases hg
    rw [key _ (vo _ _ h1 hv), hy]
  | struct hg => rw [ht] at hg; cases hg
  | aos hg => rw [ht] at hg; cases hg

/-! ### Example -/

namespace HeapExample

/-- An IDS with an array of structures that has two elements, a reference to this array of structures and a new element:
the hypotheses of C62 are met. -/
theorem held : ∃ (h : Heap (List Int) (List Int) Unit Unit) (r : Ref) (n : Node (List Int)) (s a : Ref), Held env.mem h r n ∧ Place h r [(['t'], none)] s ∧
    n.at [(['t'], none)] = some (.aos (.cons ['c'] (.leaf l1) .nil) (.ofList (List.replicate 2 (.absent ['c'] (.leaf l1) .nil)))) ∧
    Held env.mem h a (.struct (.absent ['c'] (.leaf l1) .nil)) ∧ Disjoint h r a := by
  obtain ⟨h1, r, -, hd, -⟩ := C62_new_ids (E := env) (h := HeapSpec.Heap.empty) (m := fields)
    ⟨fun _ _ => rfl, fun _ _ h => by cases h⟩ (by simp [fields, WFMFields, WFMeta, mnames])
  obtain ⟨h2, n2, s, -, e2, hd2, hp2, -⟩ := C62_attribute (A := []) (k := ['t']) hd .nil rfl (by decide)
  simp only [Node.modify, touched] at e2
  cases e2
  obtain ⟨h3, n3, -, e3, hd3, k3⟩ := C62_resize hd2 hp2 rfl 2 true
  have hp3 : Place h3 r [(['t'], none)] s := k3 _ _ hp2 (by
    intro j L h
    simp [keys] at h)
  cases e3
  obtain ⟨h4, a, -, hd4, ha, dj, k4⟩ := C62_new_element hd3 hp3 rfl
  exact ⟨h4, r, _, s, a, hd4, (k4 _ _).2 hp3, rfl, ha, dj⟩

/-- A data node that holds an array. -/
example : ∃ (h : Heap (List Int) (List Int) Unit Unit) (r : Ref) (n : Node (List Int)) (s p a x : Ref) (w : Unit) (b : List Int),
    Held env.mem h r n ∧ Place h r [(['a'], none)] s ∧ n.at [(['a'], none)] = some (.leaf l1 (some [])) ∧
    h.get s = some (.leaf l1 (some a) p) ∧ h.val env.mem a = some [] ∧ h.get a = some (.arr x w) ∧ h.get x = some (.buf b) := by
  obtain ⟨h1, r, e1, hd, -⟩ := C62_new_ids (E := env) (h := HeapSpec.Heap.empty) (m := fields)
    ⟨fun _ _ => rfl, fun _ _ h => by cases h⟩ (by simp [fields, WFMFields, WFMeta, mnames])
  cases e1
  obtain ⟨h2, n2, s, e2, f2, hd2, hp2, -⟩ := C62_attribute (A := []) (k := ['a']) hd .nil rfl (by decide)
  cases e2; cases f2
  obtain ⟨h3, n3, a, e3, hv, f3, hd3, k3⟩ := C62_get_value hd2 hp2 (l := l1) (v := none) rfl
  cases e3; cases f3
  exact ⟨_, _, _, _, _, _, _, _, _, hd3, k3 _ _ hp2, rfl, rfl, hv, rfl, rfl⟩

end HeapExample

end Verif.Props
