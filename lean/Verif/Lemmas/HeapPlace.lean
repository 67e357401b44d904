import Verif.Spec.HeapPlace
import Verif.Lemmas.HeapShows
import Verif.Lemmas.Update
import Verif.Lemmas.DiffAddr
import Verif.Lemmas.HeapStep
/-! References to nodes of an IDS in which no node is at two places. -/
namespace Verif.HeapSpec
open Verif.Ids Verif.Heap Verif.TreeSpec

variable {V B W C : Type} {M : Memory V B W} {h h' : Heap V B W C} {r s c e : Ref}

theorem Path.append {K L : List Key} (a : Path h r K c) (b : Path h c L s) : Path h r (K ++ L) s := by
  induction a with
  | nil => exact b
  | cons hs _ ih => exact .cons hs (ih b)

theorem Path.split {K L : List Key} (a : Path h r (K ++ L) s) : ∃ c, Path h r K c ∧ Path h c L s := by
  induction K generalizing r with
  | nil => exact ⟨r, .nil, a⟩
  | cons k K ih =>
    cases a with
    | cons hs hp =>
      obtain ⟨c, h1, h2⟩ := ih hp
      exact ⟨c, .cons hs h1, h2⟩

theorem Slot.fun {k : Key} {a b : Ref} (h1 : Slot h r k a) (h2 : Slot h r k b) : a = b := by
  cases h1 with
  | field hx _ hd =>
    cases h2 with
    | field hx' _ hd' => rw [hx] at hx'; cases hx'; rw [hd] at hd'; cases hd'; rfl
  | index hx hd =>
    cases h2 with
    | index hx' hd' => rw [hx] at hx'; cases hx'; rw [hd] at hd'; cases hd'; rfl

theorem Path.fun {K : List Key} {a b : Ref} (h1 : Path h r K a) (h2 : Path h r K b) : a = b := by
  induction h1 with
  | nil => cases h2; rfl
  | cons hs _ ih =>
    cases h2 with
    | cons hs' hp => cases hs.fun hs'; exact ih hp

theorem Unshared.below {K : List Key} (u : Unshared h r) (p : Path h r K c) : Unshared h c := by
  intro s L L' h1 h2
  exact List.append_cancel_left (u s _ _ (p.append h1) (p.append h2))

/-- What an operation on the node `s` may do: other nodes keep their contents, but may get another parent. -/
structure Edit (h h' : Heap V B W C) (s : Ref) : Prop where
  kept : ∀ o x, o ≠ s → h.get o = some x → ∃ y, h'.get o = some y ∧ orphan y = orphan x
  hole : ∀ o, o < h.next → o ≠ s → h.get o = none → h'.get o = none

theorem slot_orphan {x y : Obj V B W C} {k : Key} (hx : h.get r = some x) (hy : h'.get r = some y)
    (ho : orphan y = orphan x) (hs : Slot h r k c) : Slot h' r k c := by
  cases hs with
  | field hg hn hd =>
    rw [hx] at hg; cases hg
    obtain ⟨p', rfl⟩ := orphan_struct ho
    exact .field hy hn hd
  | index hg hd =>
    rw [hx] at hg; cases hg
    obtain ⟨p', rfl⟩ := orphan_aos ho
    exact .index hy hd

theorem Slot.obj {k : Key} (hs : Slot h r k c) : ∃ x, h.get r = some x := by
  cases hs with
  | field hx => exact ⟨_, hx⟩
  | index hx => exact ⟨_, hx⟩

theorem Edit.slot (ed : Edit h h' s) {o : Ref} {k : Key} (ho : o ≠ s) (hs : Slot h o k c) : Slot h' o k c := by
  obtain ⟨x, hx⟩ := hs.obj
  obtain ⟨y, hy, e⟩ := ed.kept o x ho hx
  exact slot_orphan hx hy e hs

theorem Edit.slot_back (ed : Edit h h' s) {o : Ref} {k : Key} (ho : o ≠ s) (hl : o < h.next) (hs : Slot h' o k c) :
    Slot h o k c := by
  obtain ⟨y, hy⟩ := hs.obj
  cases hx : h.get o with
  | none => rw [ed.hole o hl ho hx] at hy; cases hy
  | some x =>
    obtain ⟨y', hy', e⟩ := ed.kept o x ho hx
    rw [hy] at hy'; cases hy'
    exact slot_orphan hy hx e.symm hs

/-- Nodes that do not contain `s` show the same. -/
theorem Edit.val (ed : Edit h h' s) {x : Node V} (hn : Shows M h s x) {a : Ref} {v : V} (hv : h.val M a = some v) :
    h'.val M a = some v := by
  have ne : ∀ o y, h.get o = some y → (∀ l v p, y ≠ .leaf l v p) → (∀ q m d p t z x, y ≠ .struct q m d p t z x) →
      (∀ q m d p z x, y ≠ .aos q m d p z x) → o ≠ s := by
    rintro o y hy h1 h2 h3 rfl
    cases hn with
    | unset hx => rw [hx] at hy; cases hy; exact h1 _ _ _ rfl
    | leaf hx => rw [hx] at hy; cases hy; exact h1 _ _ _ rfl
    | struct hx => rw [hx] at hy; cases hy; exact h2 _ _ _ _ _ _ _ rfl
    | aos hx => rw [hx] at hy; cases hy; exact h3 _ _ _ _ _ _ rfl
  rcases val_cases hv with hx | ⟨b, w, y, hx, hb, rfl⟩
  · obtain ⟨y, hy, e⟩ := ed.kept a _ (ne a _ hx (by simp) (by simp) (by simp)) hx
    rw [orphan_const e] at hy
    simp [Heap.val, hy]
  · obtain ⟨y', hy, e⟩ := ed.kept a _ (ne a _ hx (by simp) (by simp) (by simp)) hx
    rw [orphan_arr e] at hy
    obtain ⟨z, hz, e⟩ := ed.kept b _ (ne b _ hb (by simp) (by simp) (by simp)) hb
    rw [orphan_buf e] at hz
    simp [Heap.val, hy, hz]

mutual
theorem Edit.frame (ed : Edit h h' s) {x : Node V} (hn : Shows M h s x) {c : Ref} {y : Node V}
    (hc : ∀ K, ¬ Path h c K s) : Shows M h c y → Shows M h' c y
  | .unset hx => by
    obtain ⟨z, hz, e⟩ := ed.kept c _ (by rintro rfl; exact hc [] .nil) hx
    obtain ⟨p', rfl⟩ := orphan_leaf e
    exact .unset hz
  | .leaf hx hv => by
    obtain ⟨z, hz, e⟩ := ed.kept c _ (by rintro rfl; exact hc [] .nil) hx
    obtain ⟨p', rfl⟩ := orphan_leaf e
    exact .leaf hz (ed.val hn hv)
  | .struct hx hf => by
    obtain ⟨z, hz, e⟩ := ed.kept c _ (by rintro rfl; exact hc [] .nil) hx
    obtain ⟨p', rfl⟩ := orphan_struct e
    exact .struct hz (ed.frameF hn (fun n hn a ha K hK => hc (.field n :: K) (.cons (.field hx hn ha) hK)) hf)
  | .aos hx he => by
    obtain ⟨z, hz, e⟩ := ed.kept c _ (by rintro rfl; exact hc [] .nil) hx
    obtain ⟨p', rfl⟩ := orphan_aos e
    exact .aos hz (ed.frameE hn (fun i a ha K hK => hc (.index i :: K) (.cons (.index hx ha) hK)) he)
theorem Edit.frameF (ed : Edit h h' s) {x : Node V} (hn : Shows M h s x) {d : Name → Option Ref} {m : MFields} {f : Fields V}
    (hc : ∀ n ∈ mnames m, ∀ a, d n = some a → ∀ K, ¬ Path h a K s) : ShowsFields M h d m f → ShowsFields M h' d m f
  | .nil => .nil
  | .absent hd hf => .absent hd (ed.frameF hn (fun n hn => hc n (by simp [mnames, hn])) hf)
  | .present hd hx hf => .present hd (ed.frame hn (hc _ (by simp [mnames]) _ hd) hx)
      (ed.frameF hn (fun n hn => hc n (by simp [mnames, hn])) hf)
theorem Edit.frameE (ed : Edit h h' s) {x : Node V} (hn : Shows M h s x) {l : List (Option Ref)} {f : Elems V}
    (hc : ∀ (i : Nat) a, l[i]? = some (some a) → ∀ K, ¬ Path h a K s) : ShowsElems M h l f → ShowsElems M h' l f
  | .nil => .nil
  | .cons hx hf => .cons (ed.frame hn (hc 0 _ rfl) hx) (ed.frameE hn (fun i a ha => hc (i + 1) a ha) hf)
end

theorem ShowsFields.names {d : Name → Option Ref} {m : MFields} {f : Fields V} : ShowsFields M h d m f → f.names = mnames m
  | .nil => rfl
  | .absent _ hf => by simp [Fields.names, mnames, hf.names]
  | .present _ _ hf => by simp [Fields.names, mnames, hf.names]

/-- A child that exists shows in the structure. -/
theorem ShowsFields.get {d : Name → Option Ref} {m : MFields} {f : Fields V} {n : Name} {a : Ref} (hd : d n = some a)
    (hn : n ∈ mnames m) : ShowsFields M h d m f → ∃ x, f.get? n = some x ∧ Shows M h a x
  | .nil => by simp [mnames] at hn
  | .absent (n := k) hd' hf => by
    by_cases e : n = k
    · subst e; rw [hd] at hd'; cases hd'
    · obtain ⟨x, h1, h2⟩ := hf.get hd (by simpa [mnames, e] using hn)
      exact ⟨x, by simp [Fields.get?, e, h1], h2⟩
  | .present (n := k) hd' hx hf => by
    by_cases e : n = k
    · subst e; rw [hd] at hd'; cases hd'; exact ⟨_, by simp [Fields.get?], hx⟩
    · obtain ⟨x, h1, h2⟩ := hf.get hd (by simpa [mnames, e] using hn)
      exact ⟨x, by simp [Fields.get?, e, h1], h2⟩

theorem ShowsElems.get {l : List (Option Ref)} {f : Elems V} {i : Nat} {a : Ref} (hd : l[i]? = some (some a)) :
    ShowsElems M h l f → ∃ x, f.get? i = some x ∧ Shows M h a (.struct x)
  | .nil => by simp at hd
  | .cons hx hf => by
    cases i with
    | zero => simp at hd; subst hd; exact ⟨_, rfl, hx⟩
    | succ i => exact hf.get (i := i) hd

theorem Shows.struct_inv {n : Node V} {q m d p t z x} (hn : Shows M h r n) (hg : h.get r = some (.struct q m d p t z x)) :
    ∃ f, n = .struct f ∧ ShowsFields M h d m f := by
  cases hn with
  | unset hx => rw [hg] at hx; cases hx
  | leaf hx => rw [hg] at hx; cases hx
  | aos hx => rw [hg] at hx; cases hx
  | struct hx hf => rw [hg] at hx; cases hx; exact ⟨_, rfl, hf⟩

theorem Shows.aos_inv {n : Node V} {q m i p z x} (hn : Shows M h r n) (hg : h.get r = some (.aos q m i p z x)) :
    ∃ l f, i = some l ∧ n = .aos m f ∧ ShowsElems M h l f := by
  cases hn with
  | unset hx => rw [hg] at hx; cases hx
  | leaf hx => rw [hg] at hx; cases hx
  | struct hx => rw [hg] at hx; cases hx
  | aos hx hf => rw [hg] at hx; cases hx; exact ⟨_, _, rfl, rfl, hf⟩

theorem Shows.leaf_inv {n : Node V} {l v p} (hn : Shows M h r n) (hg : h.get r = some (.leaf l v p)) :
    ∃ w, n = .leaf l w ∧ ∀ a, v = some a → h.val M a = w := by
  cases hn with
  | unset hx => rw [hg] at hx; cases hx; exact ⟨none, rfl, by simp⟩
  | leaf hx hv => rw [hg] at hx; cases hx; exact ⟨_, rfl, fun a ha => by cases ha; exact hv⟩
  | struct hx => rw [hg] at hx; cases hx
  | aos hx => rw [hg] at hx; cases hx

/-- The node at a place shows what is there in the IDS. -/
theorem Shows.at {A : Addr} {n : Node V} (hn : Shows M h r n) (hp : Place h r A s) :
    ∃ x, n.at A = some x ∧ Shows M h s x := by
  induction A generalizing r n with
  | nil => cases hp; exact ⟨n, rfl, hn⟩
  | cons t A ih =>
    obtain ⟨k, i⟩ := t
    cases i with
    | none =>
      cases hp with
      | cons hs hp =>
        cases hs with
        | field hg hm hd =>
          obtain ⟨f, rfl, hf⟩ := hn.struct_inv hg
          obtain ⟨x, h1, h2⟩ := hf.get hd hm
          obtain ⟨y, h3, h4⟩ := ih h2 hp
          exact ⟨y, by simp [Node.at, Node.item, h1, h3], h4⟩
    | some i =>
      cases hp with
      | cons hs hp =>
        cases hp with
        | cons hs' hp =>
          cases hs with
          | field hg hm hd =>
            cases hs' with
            | index hg2 hi =>
              obtain ⟨f, rfl, hf⟩ := hn.struct_inv hg
              obtain ⟨x, h1, h2⟩ := hf.get hd hm
              obtain ⟨l, e, hl, rfl, he⟩ := h2.aos_inv hg2
              cases hl
              obtain ⟨x, h5, h6⟩ := he.get hi
              obtain ⟨y, h3, h4⟩ := ih h6 hp
              exact ⟨y, by simp [Node.at, Node.item, h1, h5, h3], h4⟩

/-! ### Replacing what is at one place -/

theorem Edit.putF (ed : Edit h h' s) {x : Node V} (hn : Shows M h s x) {d : Name → Option Ref} {k : Name} {a : Ref} {y : Node V}
    (hk : d k = some a) (hy : Shows M h' a y) {m : MFields} {f : Fields V} (hw : WFFields f)
    (hc : ∀ n ∈ mnames m, n ≠ k → ∀ a, d n = some a → ∀ K, ¬ Path h a K s) :
    ShowsFields M h d m f → ShowsFields M h' d m (f.put k y)
  | .nil => .nil
  | .absent (n := n) hd hf => by
    have e : k ≠ n := by rintro rfl; rw [hd] at hk; cases hk
    simp only [Fields.put, e, if_false]
    exact .absent hd (ed.putF hn hk hy hw.2.2 (fun n hn => hc n (by simp [mnames, hn])) hf)
  | .present (n := n) hd hx hf => by
    by_cases e : k = n
    · subst e
      rw [hk] at hd; cases hd
      simp only [Fields.put, if_true]
      refine .present hk hy (ed.frameF hn (fun n hn' => hc n (by simp [mnames, hn']) ?_) hf)
      rintro rfl
      exact hw.1 (hf.names ▸ hn')
    · simp only [Fields.put, e, if_false]
      exact .present hd (ed.frame hn (hc n (by simp [mnames]) (Ne.symm e) _ hd) hx)
        (ed.putF hn hk hy hw.2.2 (fun n hn => hc n (by simp [mnames, hn])) hf)

theorem Edit.setE (ed : Edit h h' s) {x : Node V} (hn : Shows M h s x) {a : Ref} {g : Fields V} (hy : Shows M h' a (.struct g))
    {l : List (Option Ref)} {f : Elems V} {i : Nat} (hi : l[i]? = some (some a))
    (hc : ∀ (j : Nat) a, j ≠ i → l[j]? = some (some a) → ∀ K, ¬ Path h a K s) :
    ShowsElems M h l f → ShowsElems M h' l (f.set i g)
  | .nil => .nil
  | .cons hx hf => by
    cases i with
    | zero =>
      simp at hi; subst hi
      exact .cons hy (ed.frameE hn (fun j a ha => hc (j + 1) a (by omega) ha) hf)
    | succ i =>
      exact .cons (ed.frame hn (hc 0 _ (by omega) rfl) hx)
        (ed.setE hn hy (i := i) hi (fun j a hj ha => hc (j + 1) a (by omega) ha) hf)

theorem put_names (k : Name) (y : Node V) : ∀ f : Fields V, (f.put k y).names = f.names
  | .nil => rfl
  | .absent n m r => by
    simp only [Fields.put]
    split
    · simp [Fields.names]
    · simp [Fields.names, put_names k y r]
  | .present n x r => by
    simp only [Fields.put]
    split
    · simp [Fields.names]
    · simp [Fields.names, put_names k y r]

theorem wf_putF {k : Name} {y : Node V} (hy : WF y) : ∀ f : Fields V, WFFields f → WFFields (f.put k y)
  | .nil, _ => trivial
  | .absent n m r, hw => by
    simp only [Fields.put]
    split
    · exact ⟨hw.1, hy, hw.2.2⟩
    · exact ⟨by rw [put_names]; exact hw.1, hw.2.1, wf_putF hy r hw.2.2⟩
  | .present n x r, hw => by
    simp only [Fields.put]
    split
    · exact ⟨hw.1, hy, hw.2.2⟩
    · exact ⟨by rw [put_names]; exact hw.1, hw.2.1, wf_putF hy r hw.2.2⟩

theorem wf_setE {g : Fields V} (hg : WFFields g) : ∀ (e : Elems V) (i : Nat), WFElems e → WFElems (e.set i g)
  | .nil, _, _ => trivial
  | .cons _ _, 0, hw => ⟨hg, hw.2⟩
  | .cons _ r, i + 1, hw => ⟨hw.1, wf_setE hg r i hw.2⟩

variable [Value V]

/-- Replacing what the node at a place shows replaces what is at this place of the IDS. -/
theorem Edit.modify (ed : Edit h h' s) {n x y : Node V} {A : Addr} (hn : Shows M h r n) (hw : WF n) (u : Unshared h r)
    (hp : Place h r A s) (hx : Shows M h s x) (hy : Shows M h' s y) (hk : (∃ c, x = .struct c) → ∃ c, y = .struct c)
    (hwy : WF y) {E : Type} {f : Node V → Except E (Node V)} (hf : f x = .ok y) :
    ∃ n', n.modify f A = some (.ok n') ∧ Shows M h' r n' ∧ WF n' ∧ ((∃ c, n = .struct c) → ∃ c, n' = .struct c) := by
  induction A generalizing r n with
  | nil =>
    cases hp
    cases shows_unique hn hx
    exact ⟨y, by simp [Node.modify, hf], hy, hwy, hk⟩
  | cons t A ih =>
    obtain ⟨k, i⟩ := t
    cases i with
    | none =>
      have hp0 := hp
      cases hp with
      | cons hs hp =>
        have hs0 := hs
        cases hs with
        | field hg hm hd =>
          obtain ⟨f0, rfl, hf0⟩ := hn.struct_inv hg
          obtain ⟨xk, h1, h2⟩ := hf0.get hd hm
          obtain ⟨y', h3, h4, hwy', -⟩ := ih h2 (wf_get hw h1) (u.below (.cons hs0 .nil)) hp
          have hrs : r ≠ s := by
            rintro rfl
            cases u _ _ _ hp0 .nil
          obtain ⟨o, ho, e⟩ := ed.kept r _ hrs hg
          obtain ⟨p', rfl⟩ := orphan_struct e
          refine ⟨.struct (f0.put k y'), by simp [Node.modify, h1, h3, Except.map], .struct ho ?_, wf_putF hwy' _ hw,
            fun _ => ⟨_, rfl⟩⟩
          refine ed.putF hx hd h4 hw (fun j hj hjk a ha K hK => ?_) hf0
          have := u _ _ _ hp0 (.cons (.field hg hj ha) hK)
          simp only [keys, List.cons.injEq, Key.field.injEq] at this
          exact hjk this.1.symm
    | some i =>
      have hp0 := hp
      cases hp with
      | cons hs hp =>
        have hs0 := hs
        cases hp with
        | cons hs' hp =>
          have hs0' := hs'
          cases hs with
          | field hg hm hd =>
            cases hs' with
            | index hg2 hi =>
              obtain ⟨f0, rfl, hf0⟩ := hn.struct_inv hg
              obtain ⟨xk, h1, h2⟩ := hf0.get hd hm
              obtain ⟨l, e, hl, rfl, he⟩ := h2.aos_inv hg2
              cases hl
              obtain ⟨g, h5, h6⟩ := he.get hi
              obtain ⟨y', h3, h4, hwy', h7⟩ := ih h6 (wf_elem (wf_get hw h1).2 h5) (u.below (.cons hs0 (.cons hs0' .nil))) hp
              obtain ⟨g', rfl⟩ := h7 ⟨_, rfl⟩
              have hcs : ∀ c0, Slot h r (.field k) c0 → c0 ≠ s := by
                rintro c0 hs1 rfl
                have := u _ _ _ hp0 (.cons hs1 .nil)
                simp [keys] at this
              have hrs : r ≠ s := by
                rintro rfl
                cases u _ _ _ hp0 .nil
              obtain ⟨o, ho, eo⟩ := ed.kept r _ hrs hg
              obtain ⟨p', rfl⟩ := orphan_struct eo
              obtain ⟨o', ho', eo'⟩ := ed.kept _ _ (hcs _ hs0) hg2
              obtain ⟨p'', rfl⟩ := orphan_aos eo'
              have hel := ed.setE hx h4 hi (fun j a hj ha K hK => by
                have := u _ _ _ hp0 (.cons hs0 (.cons (.index hg2 ha) hK))
                simp only [keys, List.cons.injEq, Key.index.injEq, true_and] at this
                exact hj this.1.symm) he
              have final := ed.putF hx hd (.aos ho' hel) hw (fun j hj hjk a ha K hK => by
                have := u _ _ _ hp0 (.cons (.field hg hj ha) hK)
                simp only [keys, List.cons.injEq, Key.field.injEq] at this
                exact hjk this.1.symm) hf0
              exact ⟨_, by simp [Node.modify, h1, h5, h3, Except.map], 
                .struct ho final, wf_putF (by exact ⟨(wf_get hw h1).1, wf_setE hwy' _ _ (wf_get hw h1).2⟩) _ hw, fun _ => ⟨_, rfl⟩⟩

omit [Value V]

/-! ### Places after an operation -/

theorem Path.lt {K : List Key} (snd : Sound true h) (hr : r < h.next) (p : Path h r K s) : s < h.next := by
  induction p with
  | nil => exact hr
  | cons hs _ ih =>
    refine ih ?_
    cases hs with
    | field hx _ hd => exact snd.refs _ _ hx _ (.inl ⟨_, hd⟩)
    | index hx hi => exact snd.refs _ _ hx _ (.inl ⟨_, rfl, List.mem_of_getElem? hi⟩)

/-- Nodes that are not below `s` stay where they are. -/
theorem Edit.keeps (ed : Edit h h' s) {t : Ref} {K : List Key} (p : Path h r K t)
    (hK : ∀ A k L, K = A ++ k :: L → ¬ Path h r A s) : Path h' r K t := by
  induction p with
  | nil => exact .nil
  | @cons r k c ks t hs _ ih =>
    have : r ≠ s := by rintro rfl; exact hK [] k ks rfl .nil
    refine .cons (ed.slot this hs) (ih fun A k' L e hp => hK (k :: A) k' L (by rw [e]; rfl) (.cons hs hp))

/-- If nothing is removed from `s`, every node stays where it is. -/
theorem Edit.keeps_all (ed : Edit h h' s) (hs : ∀ k c, Slot h s k c → Slot h' s k c) {t : Ref} {K : List Key}
    (p : Path h r K t) : Path h' r K t := by
  induction p with
  | nil => exact .nil
  | @cons r k c ks t hsl _ ih =>
    by_cases e : r = s
    · subst e; exact .cons (hs _ _ hsl) ih
    · exact .cons (ed.slot e hsl) ih

/-- If only some of the slots of `s` change, every node that is not below these stays where it is. -/
theorem Edit.keeps_but (ed : Edit h h' s) {R : Key → Prop} (hs : ∀ k c, ¬ R k → Slot h s k c → Slot h' s k c) {t : Ref}
    {K : List Key} (p : Path h r K t) (hK : ∀ A k L, K = A ++ k :: L → R k → ¬ Path h r A s) : Path h' r K t := by
  induction p with
  | nil => exact .nil
  | @cons r k c ks t hsl _ ih =>
    have ih' := ih fun A k' L e hr hp => hK (k :: A) k' L (by rw [e]; rfl) hr (.cons hsl hp)
    by_cases e : r = s
    · subst e
      exact .cons (hs _ _ (fun hr => hK [] k ks rfl hr .nil) hsl) ih'
    · exact .cons (ed.slot e hsl) ih'

/-- Every way down after the operation is one from before, or goes through something new in `s`. -/
theorem Edit.path_back (ed : Edit h h' s) (snd : Sound true h) {N : Key → Ref → Prop}
    (new : ∀ k c, Slot h' s k c → Slot h s k c ∨ N k c) {t : Ref} {K : List Key} (hr : r < h.next) (p : Path h' r K t) :
    Path h r K t ∨ ∃ A k L c, K = A ++ k :: L ∧ Path h r A s ∧ Slot h' s k c ∧ N k c ∧ Path h' c L t := by
  induction p with
  | nil => exact .inl .nil
  | @cons r k c ks t hs hp ih =>
    have old : Slot h r k c → Path h r (k :: ks) t ∨ ∃ A k' L c', k :: ks = A ++ k' :: L ∧ Path h r A s ∧ Slot h' s k' c' ∧
        N k' c' ∧ Path h' c' L t := by
      intro hs'
      rcases ih (Path.lt snd hr (.cons hs' .nil)) with h1 | ⟨A, k', L, c', e, h1, h2⟩
      · exact .inl (.cons hs' h1)
      · exact .inr ⟨k :: A, k', L, c', by rw [e]; rfl, .cons hs' h1, h2⟩
    by_cases e : r = s
    · subst e
      rcases new _ _ hs with h1 | h1
      · exact old h1
      · exact .inr ⟨[], k, ks, c, rfl, .nil, hs, h1, hp⟩
    · exact old (ed.slot_back e hr hs)

/-- No node is at two places after the operation. -/
theorem Edit.unshared (ed : Edit h h' s) (snd : Sound true h) (hr : r < h.next) (u : Unshared h r) {N : Key → Ref → Prop}
    (new : ∀ k c, Slot h' s k c → Slot h s k c ∨ N k c)
    (own : ∀ k c, N k c → Unshared h' c)
    (out : ∀ k c t L K, N k c → Path h' c L t → ¬ Path h r K t)
    (one : ∀ k c k' c' t L L', N k c → N k' c' → Path h' c L t → Path h' c' L' t → k = k') : Unshared h' r := by
  intro t K K' h1 h2
  rcases ed.path_back snd new hr h1 with h1 | ⟨A, k, L, c, rfl, h1, h3, h4, h5⟩
  · rcases ed.path_back snd new hr h2 with h2 | ⟨A, k, L, c, rfl, -, -, h4, h5⟩
    · exact u _ _ _ h1 h2
    · exact absurd h1 (out _ _ _ _ _ h4 h5)
  · rcases ed.path_back snd new hr h2 with h2 | ⟨A', k', L', c', rfl, h1', h3', h4', h5'⟩
    · exact absurd h2 (out _ _ _ _ _ h4 h5)
    · cases u _ _ _ h1 h1'
      cases one _ _ _ _ _ _ _ h4 h4' h5 h5'
      cases h3.fun h3'
      rw [own _ _ h4 _ _ _ h5 h5']

end Verif.HeapSpec
