import Verif.Lemmas.HeapPlace
import Verif.Lemmas.HeapLazyOps
/-! Operations on nodes of an IDS in which no node is at two places. -/
set_option linter.unusedSectionVars false
namespace Verif.HeapSpec

/-- `omega` for numbers of objects. -/
macro "omega_ref" : tactic => `(tactic| (unfold Verif.Heap.Ref at *; omega))

open Verif.Ids Verif.Heap Verif.TreeSpec

variable {V B W C : Type} [Value V] {E : Env V B W C} {M : Memory V B W} {h h' : Heap V B W C} {r s c e : Ref}
  {n x y : Node V} {A : Addr}

theorem Held.lt (hd : Held M h r n) : r < h.next := by
  have : ∃ o, h.get r = some o := by
    cases hd.shows with
    | unset hx => exact ⟨_, hx⟩
    | leaf hx => exact ⟨_, hx⟩
    | struct hx => exact ⟨_, hx⟩
    | aos hx => exact ⟨_, hx⟩
  obtain ⟨o, ho⟩ := this
  exact get_lt hd.sound ho

/-- What comes into the node `s` (`N`), beyond what was there. -/
structure News (h h' : Heap V B W C) (r s : Ref) (N : Key → Ref → Prop) : Prop where
  new : ∀ k c, Slot h' s k c → Slot h s k c ∨ N k c
  own : ∀ k c, N k c → Unshared h' c
  out : ∀ k c t L K, N k c → Path h' c L t → ¬ Path h r K t
  one : ∀ k c k' c' t L L', N k c → N k' c' → Path h' c L t → Path h' c' L' t → k = k'
  eager : ∀ k c t L, N k c → Path h' c L t → EagerNode h' t

/-- An operation on the node at `A`: what it shows afterwards is at `A` in the IDS. -/
theorem Held.edit (hd : Held M h r n) (hp : Place h r A s) (hx : Shows M h s x) (ed : Edit h h' s)
    (snd : Sound true h') (hy : Shows M h' s y) (hk : (∃ c, x = .struct c) → ∃ c, y = .struct c) (hwy : WF y)
    {N : Key → Ref → Prop} (nw : News h h' r s N)
    (same : ∀ o K, o ≠ s → Path h r K o → h'.get o = h.get o)
    (lz : ∀ o, o < h.next → h'.isLazy o = h.isLazy o) (self : EagerNode h' s)
    {X : Type} {f : Node V → Except X (Node V)} (hf : f x = .ok y) :
    ∃ n', n.modify f A = some (.ok n') ∧ Held M h' r n' := by
  obtain ⟨n', h1, h2, h3, -⟩ := ed.modify hd.shows hd.wf hd.unshared hp hx hy hk hwy hf
  refine ⟨n', h1, snd, h2, h3, ed.unshared hd.sound hd.lt hd.unshared nw.new nw.own nw.out nw.one, ?_⟩
  intro K t hK
  rcases ed.path_back hd.sound nw.new hd.lt hK with h4 | ⟨_, _, _, _, -, -, -, h5, h6⟩
  · by_cases e : t = s
    · subst e; exact self
    · obtain ⟨h5, h6⟩ := hd.eager K t h4
      refine ⟨by rw [lz t (Path.lt hd.sound hd.lt h4)]; exact h5, fun l v p hg => ?_⟩
      rw [same t K e h4] at hg
      rw [lz p (hd.sound.refs _ _ hg _ (.inr ⟨rfl, rfl⟩))]
      exact h6 l v p hg
  · exact nw.eager _ _ _ _ h5 h6

/-- New objects without children or elements. -/
def Fresh1 (h h' : Heap V B W C) (s : Ref) (k : Key) (c : Ref) : Prop :=
  Slot h' s k c ∧ h.next ≤ c ∧ (∀ k' d, ¬ Slot h' c k' d) ∧ EagerNode h' c

theorem path_end {K : List Key} {t : Ref} (hc : ∀ k d, ¬ Slot h c k d) (p : Path h c K t) : K = [] ∧ t = c := by
  cases p with
  | nil => exact ⟨rfl, rfl⟩
  | cons hs => exact absurd hs (hc _ _)

theorem news_fresh (snd : Sound true h) (hr : r < h.next) (new : ∀ k c, Slot h' s k c → Slot h s k c ∨ Fresh1 h h' s k c)
    (inj : ∀ k k' c, Fresh1 h h' s k c → Fresh1 h h' s k' c → k = k') : News h h' r s (Fresh1 h h' s) := by
  refine ⟨new, ?_, ?_, ?_, ?_⟩
  · intro k c hc t K L h1 h2
    rw [(path_end hc.2.2.1 h1).1, (path_end hc.2.2.1 h2).1]
  · intro k c t L K hc h1 h2
    have := (path_end hc.2.2.1 h1).2
    have h3 := Path.lt snd hr h2
    rw [this] at h3
    exact absurd h3 (Nat.not_lt.2 hc.2.1)
  · intro k c k' c' t L L' hc hc' h1 h2
    have h3 := (path_end hc.2.2.1 h1).2
    have h4 := (path_end hc'.2.2.1 h2).2
    rw [h3] at h4; subst h4
    exact inj _ _ _ hc hc'
  · intro k c t L hc h1
    rw [(path_end hc.2.2.1 h1).2]
    exact hc.2.2.2

theorem news_none (new : ∀ k c, Slot h' s k c → Slot h s k c) : News h h' r s (fun _ _ => False) :=
  ⟨fun k c hs => .inl (new k c hs), fun _ _ hc => hc.elim, fun _ _ _ _ _ hc => hc.elim,
    fun _ _ _ _ _ _ _ hc => hc.elim, fun _ _ _ _ hc => hc.elim⟩

/-! ### Changing one node, and new objects -/

/-- The node `s` is changed, and there are new objects. -/
structure Local (h h' : Heap V B W C) (s : Ref) : Prop where
  next : h.next ≤ h'.next
  old : ∀ o, o < h.next → o ≠ s → h'.get o = h.get o

theorem Local.edit (lo : Local h h' s) (snd : Sound true h) : Edit h h' s :=
  ⟨fun o x ho hx => ⟨x, by rw [lo.old o (get_lt snd hx) ho]; exact hx, rfl⟩,
    fun o hl ho hx => by rw [lo.old o hl ho]; exact hx⟩

theorem Local.lazy (lo : Local h h' s) (hs : h'.isLazy s = h.isLazy s) (o : Ref) (ho : o < h.next) :
    h'.isLazy o = h.isLazy o := by
  by_cases e : o = s
  · rw [e]; exact hs
  · rw [isLazy_eq, isLazy_eq, lo.old o ho e]

/-- `Held.edit` for a change of one node and new objects. -/
theorem Held.local (hd : Held M h r n) (hp : Place h r A s) (hx : Shows M h s x) (lo : Local h h' s)
    (snd : Sound true h') (hy : Shows M h' s y) (hk : (∃ c, x = .struct c) → ∃ c, y = .struct c) (hwy : WF y)
    {N : Key → Ref → Prop} (nw : News h h' r s N) (lz : h'.isLazy s = h.isLazy s)
    (par : ∀ l v p, h'.get s = some (.leaf l v p) → ∃ w, h.get s = some (.leaf l w p))
    {X : Type} {f : Node V → Except X (Node V)} (hf : f x = .ok y) :
    ∃ n', n.modify f A = some (.ok n') ∧ Held M h' r n' := by
  have hse := hd.eager _ _ hp
  refine hd.edit hp hx (lo.edit hd.sound) snd hy hk hwy nw
    (fun o K ho hK => lo.old o (Path.lt hd.sound hd.lt hK) ho) (lo.lazy lz) ⟨by rw [lz]; exact hse.1, ?_⟩ hf
  intro l v p hg
  obtain ⟨w, hw⟩ := par l v p hg
  rw [lo.lazy lz p (hd.sound.refs _ _ hw _ (.inr ⟨rfl, rfl⟩))]
  exact hse.2 _ _ _ hw

/-! ### Attributes -/

theorem showsFields_other {d d' : Name → Option Ref} {m : MFields} {f : Fields V} (he : ∀ k ∈ mnames m, d' k = d k) :
    ShowsFields M h d m f → ShowsFields M h d' m f
  | .nil => .nil
  | .absent hd hf => .absent (by rw [he _ (by simp [mnames])]; exact hd) (showsFields_other (fun k hk => he k (by simp [mnames, hk])) hf)
  | .present hd hx hf => .present (by rw [he _ (by simp [mnames])]; exact hd) hx
      (showsFields_other (fun k hk => he k (by simp [mnames, hk])) hf)

theorem lookupMeta_mem {m : MFields} {k : Name} {cm : Meta} (hm : lookupMeta m k = some cm) : k ∈ mnames m := by
  induction m using MFields.rec (motive_1 := fun _ => True) with
  | leaf => trivial
  | struct => trivial
  | aos => trivial
  | nil => cases hm
  | cons n m r _ ih =>
    simp only [lookupMeta] at hm
    split at hm
    · next e => simp [mnames, e]
    · simp [mnames, ih hm]

theorem lookupMeta_some {m : MFields} {k : Name} (hm : k ∈ mnames m) : ∃ cm, lookupMeta m k = some cm := by
  induction m using MFields.rec (motive_1 := fun _ => True) with
  | leaf => trivial
  | struct => trivial
  | aos => trivial
  | nil => simp [mnames] at hm
  | cons n m r _ ih =>
    simp only [lookupMeta]
    split
    · exact ⟨_, rfl⟩
    · next e => exact ih (by simpa [mnames, e] using hm)

/-- A new child in `__dict__`. -/
theorem showsFields_touch {d : Name → Option Ref} {k : Name} {c : Ref} (hk : d k = none) {m : MFields} {f : Fields V} {cm : Meta}
    (hm : lookupMeta m k = some cm) (hc : Shows M h c (cm.fresh : Node V)) (hw : WFFields f) :
    ShowsFields M h d m f → ShowsFields M h (fun j => if j = k then some c else d j) m (f.touch k)
  | .nil => .nil
  | .absent (n := n) hd hf => by
    by_cases e : k = n
    · subst e
      simp only [lookupMeta, if_true, Option.some.injEq] at hm
      subst hm
      simp only [Fields.touch, if_true]
      refine .present (by simp) hc (showsFields_other (fun j hj => ?_) hf)
      have : j ≠ k := by rintro rfl; exact hw.1 (hf.names ▸ hj)
      simp [this]
    · simp only [Fields.touch, e, if_false]
      simp only [lookupMeta, e, if_false] at hm
      exact .absent (by simp [Ne.symm e, hd]) (showsFields_touch hk hm hc hw.2.2 hf)
  | .present (n := n) hd hx hf => by
    have e : k ≠ n := by rintro rfl; rw [hk] at hd; cases hd
    simp only [Fields.touch, e, if_false]
    simp only [lookupMeta, e, if_false] at hm
    exact .present (by simp [Ne.symm e, hd]) hx (showsFields_touch hk hm hc hw.2.2 hf)

/-- Another node as child. -/
theorem showsFields_put {d : Name → Option Ref} {k : Name} {c : Ref} {m : MFields} {f : Fields V} {y : Node V}
    (hc : Shows M h c y) (hw : WFFields f) :
    ShowsFields M h d m f → ShowsFields M h (fun j => if j = k then some c else d j) m (f.put k y)
  | .nil => .nil
  | .absent (n := n) hd hf => by
    by_cases e : k = n
    · subst e
      simp only [Fields.put, if_true]
      refine .present (by simp) hc (showsFields_other (fun j hj => ?_) hf)
      have : j ≠ k := by rintro rfl; exact hw.1 (hf.names ▸ hj)
      simp [this]
    · simp only [Fields.put, e, if_false]
      exact .absent (by simp [Ne.symm e, hd]) (showsFields_put hc hw.2.2 hf)
  | .present (n := n) hd hx hf => by
    by_cases e : k = n
    · subst e
      simp only [Fields.put, if_true]
      refine .present (by simp) hc (showsFields_other (fun j hj => ?_) hf)
      have : j ≠ k := by rintro rfl; exact hw.1 (hf.names ▸ hj)
      simp [this]
    · simp only [Fields.put, e, if_false]
      exact .present (by simp [Ne.symm e, hd]) hx (showsFields_put hc hw.2.2 hf)

theorem touch_present {d : Name → Option Ref} {k : Name} {c : Ref} (hk : d k = some c) {m : MFields} {f : Fields V} :
    ShowsFields M h d m f → f.touch k = f
  | .nil => rfl
  | .absent (n := n) hd hf => by
    have e : k ≠ n := by rintro rfl; rw [hk] at hd; cases hd
    simp [Fields.touch, e, touch_present hk hf]
  | .present (n := n) hd hx hf => by
    by_cases e : k = n
    · simp [Fields.touch, e]
    · simp [Fields.touch, e, touch_present hk hf]

theorem touch_names (k : Name) : ∀ f : Fields V, (f.touch k).names = f.names
  | .nil => rfl
  | .absent n m r => by
    simp only [Fields.touch]
    split
    · simp [Fields.names]
    · simp [Fields.names, touch_names k r]
  | .present n x r => by
    simp only [Fields.touch]
    split
    · simp [Fields.names]
    · simp [Fields.names, touch_names k r]

theorem wf_touchF (k : Name) : ∀ f : Fields V, WFFields f → WFFields (f.touch k)
  | .nil, _ => trivial
  | .absent n m r, hw => by
    simp only [Fields.touch]
    split
    · exact ⟨hw.1, wf_fresh_meta m hw.2.1, hw.2.2⟩
    · exact ⟨by rw [touch_names]; exact hw.1, hw.2.1, wf_touchF k r hw.2.2⟩
  | .present n x r, hw => by
    simp only [Fields.touch]
    split
    · exact hw
    · exact ⟨by rw [touch_names]; exact hw.1, hw.2.1, wf_touchF k r hw.2.2⟩

theorem showsFields_new (m : MFields) : ShowsFields M h (fun _ => none) m (m.fresh : Fields V) := by
  induction m using MFields.rec (motive_1 := fun _ => True) with
  | leaf => trivial
  | struct => trivial
  | aos => trivial
  | nil => exact .nil
  | cons n m r _ ih => exact .absent rfl ih

theorem shows_newNode {q : List Name} {cm : Meta} (hc : h.get c = some (newNode q false s cm)) :
    Shows M h c (cm.fresh : Node V) := by
  cases cm with
  | leaf l => exact .unset hc
  | struct m => exact .struct hc (showsFields_new m)
  | aos m => exact .aos hc .nil

theorem slots_newNode {q : List Name} {cm : Meta} (hc : h.get c = some (newNode q false s cm)) (k : Key) (d : Ref) :
    ¬ Slot h c k d := by
  intro hs
  cases hs with
  | field hx _ hd => rw [hc] at hx; cases cm <;> cases hx; cases hd
  | index hx hd => rw [hc] at hx; cases cm <;> cases hx; simp at hd

theorem keys_append (A B : Addr) : keys (A ++ B) = keys A ++ keys B := by
  induction A with
  | nil => rfl
  | cons t A ih =>
    obtain ⟨k, i⟩ := t
    cases i <;> simp [keys, ih]

theorem wf_at (hw : WF n) (hx : n.at A = some x) : WF x := by
  induction A generalizing n with
  | nil => cases hx; exact hw
  | cons t A ih =>
    simp only [Node.at, Option.bind_eq_some_iff] at hx
    obtain ⟨y, h1, h2⟩ := hx
    exact ih (wf_item hw h1) h2

/-- Nothing below `s` contains `s`. -/
theorem Held.acyclic (hd : Held M h r n) (hp : Place h r A s) {k : Key} {K : List Key} (hs : Slot h s k c) : ¬ Path h c K s := by
  intro hK
  have := hd.unshared _ _ _ hp (Path.append hp (.cons hs hK))
  simp at this

/-- The children of `s` show the same after a change of `s`. -/
theorem Held.frameF (hd : Held M h r n) (hp : Place h r A s) (ed : Edit h h' s) {q m d p t z x f}
    (hg : h.get s = some (.struct q m d p t z x)) (hf : ShowsFields M h d m f) : ShowsFields M h' d m f :=
  ed.frameF (.struct hg hf) (fun _ hn _ ha _ => hd.acyclic hp (.field hg hn ha)) hf

theorem Held.frameE (hd : Held M h r n) (hp : Place h r A s) (ed : Edit h h' s) {q m l p z x f}
    (hg : h.get s = some (.aos q m (some l) p z x)) (hf : ShowsElems M h l f) : ShowsElems M h' l f :=
  ed.frameE (.aos hg hf) (fun _ _ ha _ => hd.acyclic hp (.index hg ha)) hf

/-! ### Elements -/

theorem ShowsElems.length {l : List (Option Ref)} {f : Elems V} : ShowsElems M h l f → l.length = f.length
  | .nil => rfl
  | .cons _ hf => by simp [Elems.length, hf.length]

theorem ShowsElems.item {l : List (Option Ref)} {f : Elems V} {i : Nat} (hi : i < f.length) :
    ShowsElems M h l f → ∃ a, l[i]? = some (some a)
  | .nil => by simp [Elems.length] at hi
  | .cons _ hf => by
    cases i with
    | zero => exact ⟨_, rfl⟩
    | succ i => exact hf.item (i := i) (by simpa [Elems.length] using hi)

theorem showsElems_iff {l : List (Option Ref)} {g : List (Fields V)} : ShowsElems M h l (.ofList g) ↔
    l.length = g.length ∧ ∀ (i : Nat) c, g[i]? = some c → ∃ a, l[i]? = some (some a) ∧ Shows M h a (.struct c) := by
  induction g generalizing l with
  | nil =>
    constructor
    · intro hs; cases hs; simp
    · rintro ⟨h1, -⟩
      have : l = [] := by simpa using h1
      subst this; exact .nil
  | cons c g ih =>
    constructor
    · intro hs
      cases hs with
      | cons hx hf =>
        obtain ⟨h1, h2⟩ := ih.1 hf
        refine ⟨by simp [h1], fun i c hc => ?_⟩
        cases i with
        | zero => simp at hc; subst hc; exact ⟨_, rfl, hx⟩
        | succ i => exact h2 i c hc
    · rintro ⟨h1, h2⟩
      cases l with
      | nil => simp at h1
      | cons a l =>
        obtain ⟨b, h3, h4⟩ := h2 0 c rfl
        simp at h3; subst h3
        exact .cons h4 (ih.2 ⟨by simpa using h1, fun i c hc => h2 (i + 1) c hc⟩)

theorem Elems.ofList_toList : ∀ e : Elems V, Elems.ofList e.toList = e
  | .nil => rfl
  | .cons c r => by simp [Elems.toList, Elems.ofList, ofList_toList r]

theorem newElems_spec (q : List Name) (m : MFields) (z : Bool) (r : Ref) : ∀ (k : Nat) (h : Heap V B W C),
    (newElems q m z r k h).1.next = h.next + k ∧
    (newElems q m z r k h).2 = (List.range' h.next k).map some ∧
    (∀ o, o < h.next → (newElems q m z r k h).1.get o = h.get o) ∧
    ∀ o, h.next ≤ o → o < h.next + k → (newElems q m z r k h).1.get o = some (.struct q m (fun _ => none) r false z none)
  | 0, h => ⟨rfl, rfl, fun _ _ => rfl, fun o h1 h2 => absurd h2 (Nat.not_lt.2 h1)⟩
  | k + 1, h => by
    obtain ⟨h1, h2, h3, h4⟩ := newElems_spec q m z r k (h.alloc (.struct q m (fun _ => none) r false z none)).1
    have hn : (h.alloc (.struct q m (fun _ => none) r false z none : Obj V B W C)).1.next = h.next + 1 := rfl
    rw [hn] at h1 h2 h3 h4
    refine ⟨?_, ?_, ?_, ?_⟩
    · simp only [newElems]; rw [h1]; omega_ref
    · simp only [newElems]; rw [h2]; rfl
    · intro o ho
      simp only [newElems]
      rw [h3 o (by omega_ref)]; exact alloc_old ho
    · intro o ho1 ho2
      simp only [newElems]
      by_cases e : o = h.next
      · rw [h3 o (by omega_ref), e]; exact alloc_get ..
      · exact h4 o (by omega_ref) (by omega_ref)

theorem showsElems_append {l l' : List (Option Ref)} {g g' : List (Fields V)} (h1 : ShowsElems M h l (.ofList g))
    (h2 : ShowsElems M h l' (.ofList g')) : ShowsElems M h (l ++ l') (.ofList (g ++ g')) := by
  induction g generalizing l with
  | nil => cases h1; exact h2
  | cons c g ih =>
    cases h1 with
    | cons hx hf => exact .cons hx (ih hf)

theorem showsElems_take {l : List (Option Ref)} {g : List (Fields V)} (h1 : ShowsElems M h l (.ofList g)) (k : Nat) :
    ShowsElems M h (l.take k) (.ofList (g.take k)) := by
  induction g generalizing l k with
  | nil => cases h1; simpa using .nil
  | cons c g ih =>
    cases h1 with
    | cons hx hf =>
      cases k with
      | zero => exact .nil
      | succ k => exact .cons hx (ih hf k)

theorem showsElems_new {q : List Name} {m : MFields} {p : Ref} {z : Bool} : ∀ (k : Nat) (a : Ref),
    (∀ o, a ≤ o → o < a + k → h.get o = some (.struct q m (fun _ => none) p false z none)) →
    ShowsElems M h ((List.range' a k).map some) (.ofList (List.replicate k (m.fresh : Fields V)))
  | 0, _, _ => .nil
  | k + 1, a, hn => by
    refine .cons (.struct (hn a (Nat.le_refl _) (by omega_ref)) (showsFields_new m)) (showsElems_new (q := q) (p := p) (z := z) k (a + 1) fun o h1 h2 => ?_)
    exact hn o (by omega_ref) (by omega_ref)

theorem wfElems_iff {g : List (Fields V)} : WFElems (.ofList g) ↔ ∀ c ∈ g, WFFields c := by
  induction g with
  | nil => simp [Elems.ofList, WFElems]
  | cons c g ih => simp [Elems.ofList, WFElems, ih]

theorem resize_eq (m : MFields) (g : List (Fields V)) (k : Nat) (keep : Bool) :
    aosResize false m g k keep = .ok ((if keep then g else []).take k ++
      List.replicate (k - (if keep then g else []).length) m.fresh) := by
  have hn : ¬ ((k : Int) < 0) := by omega
  simp only [aosResize, Bool.false_eq_true, if_false, hn, pure, Except.pure]
  generalize (if keep = true then g else []) = g0
  by_cases h1 : k > g0.length
  · have h1' : (k : Int) > (g0.length : Int) := by omega
    have ht : ((k : Int) - (g0.length : Int)).toNat = k - g0.length := by omega
    have hk : g0.take k = g0 := List.take_of_length_le (by omega)
    by_cases h0 : g0.length = 0
    · have : g0 = [] := by simpa using h0
      subst this; simp_all
    · simp [h1', h0, ht, hk]
  · have h1' : ¬ ((k : Int) > (g0.length : Int)) := by omega
    have h0 : k - g0.length = 0 := by omega
    by_cases h2 : k < g0.length
    · have h2' : (k : Int) < (g0.length : Int) := by omega
      simp [h1', h2', h0]
    · have h2' : ¬ ((k : Int) < (g0.length : Int)) := by omega
      have hk : g0.take k = g0 := List.take_of_length_le (by omega)
      simp [h1', h2', h0, hk]

/-! ### Taking in another node -/

/-- The node `s` is changed, and the node `e` gets another parent. -/
structure Adopt (h h' : Heap V B W C) (s e : Ref) : Prop where
  next : h'.next = h.next
  old : ∀ o, o ≠ s → o ≠ e → h'.get o = h.get o
  parent : ∃ y z, h.get e = some y ∧ h'.get e = some z ∧ orphan z = orphan y

theorem lazyObj_orphan {y z : Obj V B W C} (ho : orphan z = orphan y) : lazyObj z = lazyObj y := by
  cases y <;> cases z <;> simp_all [orphan, lazyObj]

theorem Adopt.edit (ad : Adopt h h' s e) (_ : Sound true h) : Edit h h' s := by
  obtain ⟨y, z, h1, h2, h3⟩ := ad.parent
  refine ⟨fun o x ho hx => ?_, fun o _ ho hx => ?_⟩
  · by_cases e' : o = e
    · subst e'; rw [h1] at hx; cases hx; exact ⟨z, h2, h3⟩
    · exact ⟨x, by rw [ad.old o ho e']; exact hx, rfl⟩
  · have : o ≠ e := by rintro rfl; rw [h1] at hx; cases hx
    rw [ad.old o ho this]; exact hx

theorem Adopt.lazy (ad : Adopt h h' s e) (hs : h'.isLazy s = h.isLazy s) (o : Ref) : h'.isLazy o = h.isLazy o := by
  by_cases e1 : o = s
  · rw [e1]; exact hs
  · by_cases e2 : o = e
    · obtain ⟨y, z, h1, h2, h3⟩ := ad.parent
      rw [e2, isLazy_eq, isLazy_eq, h1, h2]; exact lazyObj_orphan h3
    · rw [isLazy_eq, isLazy_eq, ad.old o e1 e2]

/-- The node with another parent. -/
def orphanTo (s : Ref) : Obj V B W C → Obj V B W C
  | .leaf l v _ => .leaf l v s
  | .struct q m d _ t z x => .struct q m d s t z x
  | .aos q m i _ z x => .aos q m i s z x
  | o => o

theorem orphanTo_orphan (s : Ref) (o : Obj V B W C) : orphan (orphanTo s o) = orphan o := by
  cases o <;> rfl

/-- `Held.edit` for taking in a node that has nothing in common with the IDS. -/
theorem Held.adopt (hd : Held M h r n) (hp : Place h r A s) (hx : Shows M h s x) {w : Node V} (he : Held M h e w)
    (dj : Disjoint h r e) (ad : Adopt h h' s e) (nl : ∀ l v p, h.get e ≠ some (.leaf l v p)) (snd : Sound true h')
    {k0 : Key} (hslot : ∀ k c, Slot h' s k c → Slot h s k c ∨ (k = k0 ∧ c = e))
    (hy : Shows M h' e w → Shows M h' s y) (hk : (∃ c, x = .struct c) → ∃ c, y = .struct c) (hwy : WF y)
    (lz : h'.isLazy s = h.isLazy s) (nls : ∀ l v p, h'.get s ≠ some (.leaf l v p))
    {X : Type} {f : Node V → Except X (Node V)} (hf : f x = .ok y) :
    ∃ n', n.modify f A = some (.ok n') ∧ Held M h' r n' := by
  have ed := ad.edit hd.sound
  have hes : ∀ K, ¬ Path h e K s := fun K hK => dj _ _ _ hp hK
  have back : ∀ L t, Path h' e L t → Path h e L t := by
    intro L t hL
    rcases ed.path_back he.sound (N := fun k c => k = k0 ∧ c = e) hslot he.lt hL with h1 | ⟨B, _, _, _, -, h1, -⟩
    · exact h1
    · exact absurd h1 (hes B)
  refine hd.edit hp hx ed snd (hy (ed.frame hx hes he.shows)) hk hwy (N := fun k c => k = k0 ∧ c = e) ⟨hslot, ?_, ?_, ?_, ?_⟩ ?_
    (fun o _ => ad.lazy lz o) ⟨by rw [lz]; exact (hd.eager _ _ hp).1, fun l v p hl => absurd hl (nls l v p)⟩ hf
  · rintro k c ⟨-, rfl⟩ t K L h1 h2
    exact he.unshared _ _ _ (back _ _ h1) (back _ _ h2)
  · rintro k c t L K ⟨-, rfl⟩ h1 h2
    exact dj _ _ _ h2 (back _ _ h1)
  · rintro k c k' c' t L L' ⟨rfl, -⟩ ⟨rfl, -⟩ - -
    rfl
  · rintro k c t L ⟨-, rfl⟩ h1
    have h2 := back _ _ h1
    obtain ⟨h3, h4⟩ := he.eager _ _ h2
    refine ⟨by rw [ad.lazy lz]; exact h3, fun l v p hl => ?_⟩
    rw [ad.lazy lz]
    have hts : t ≠ s := by rintro rfl; exact hes _ h2
    by_cases e' : t = c
    · subst e'
      obtain ⟨y, z, h5, h6, h7⟩ := ad.parent
      rw [hl] at h6; cases h6
      obtain ⟨p', rfl⟩ := orphan_leaf h7.symm
      exact absurd h5 (nl _ _ _)
    · rw [ad.old t hts e'] at hl
      exact h4 l v p hl
  · intro o K ho hK
    exact ad.old o ho (by rintro rfl; exact dj _ _ _ hK .nil)

/-! ### New objects -/

/-- There are new objects. -/
structure Grow (h h' : Heap V B W C) : Prop where
  next : h.next ≤ h'.next
  old : ∀ o, o < h.next → h'.get o = h.get o

theorem Grow.path (gr : Grow h h') (snd : Sound true h) (hr : r < h.next) {K : List Key} {t : Ref} :
    Path h' r K t ↔ Path h r K t := by
  have slot : ∀ o k c, o < h.next → (Slot h' o k c ↔ Slot h o k c) := by
    intro o k c ho
    constructor
    · intro hs
      cases hs with
      | field hx hm hd => exact .field (by rw [← gr.old o ho]; exact hx) hm hd
      | index hx hi => exact .index (by rw [← gr.old o ho]; exact hx) hi
    · intro hs
      cases hs with
      | field hx hm hd => exact .field (by rw [gr.old o ho]; exact hx) hm hd
      | index hx hi => exact .index (by rw [gr.old o ho]; exact hx) hi
  induction K generalizing r with
  | nil => constructor <;> (intro hp; cases hp; exact .nil)
  | cons k K ih =>
    constructor
    · intro hp
      cases hp with
      | cons hs hp =>
        have hs := (slot _ _ _ hr).1 hs
        exact .cons hs ((ih (Path.lt snd hr (.cons hs .nil))).1 hp)
    · intro hp
      cases hp with
      | cons hs hp => exact .cons ((slot _ _ _ hr).2 hs) ((ih (Path.lt snd hr (.cons hs .nil))).2 hp)

theorem Held.grow (hd : Held M h r n) (gr : Grow h h') (snd : Sound true h') : Held M h' r n := by
  refine ⟨snd, shows_mono (fun o x hx => ⟨x, by rw [gr.old o (get_lt hd.sound hx)]; exact hx, rfl⟩) hd.shows, hd.wf, ?_, ?_⟩
  · intro t K L h1 h2
    exact hd.unshared t K L ((gr.path hd.sound hd.lt).1 h1) ((gr.path hd.sound hd.lt).1 h2)
  · intro K t hK
    have hK := (gr.path hd.sound hd.lt).1 hK
    have ht := Path.lt hd.sound hd.lt hK
    obtain ⟨h1, h2⟩ := hd.eager K t hK
    refine ⟨by rw [isLazy_eq, gr.old t ht, ← isLazy_eq]; exact h1, fun l v p hl => ?_⟩
    rw [gr.old t ht] at hl
    rw [isLazy_eq, gr.old p (hd.sound.refs _ _ hl _ (.inr ⟨rfl, rfl⟩)), ← isLazy_eq]
    exact h2 l v p hl

/-- A new structure. -/
theorem held_new {q : List Name} {m : MFields} {p : Ref} {t : Bool} {x : Option C} (snd : Sound true h)
    (hc : h.get c = some (.struct q m (fun _ => none) p t false x)) (hm : WFMFields m) :
    Held M h c (.struct m.fresh) ∧ ∀ K o, Path h c K o → o = c := by
  have slots : ∀ k d, ¬ Slot h c k d := by
    intro k d hs
    cases hs with
    | field hx _ hd => rw [hc] at hx; cases hx; cases hd
    | index hx => rw [hc] at hx; cases hx
  refine ⟨⟨snd, .struct hc (showsFields_new m), wf_fresh_meta (.struct m) hm, ?_, ?_⟩, fun K o hK => (path_end slots hK).2⟩
  · intro t K L h1 h2
    rw [(path_end slots h1).1, (path_end slots h2).1]
  · intro K t hK
    rw [(path_end slots hK).2]
    exact ⟨by rw [isLazy_eq, hc]; rfl, fun l v p hl => by rw [hc] at hl; cases hl⟩

/-! ### Data nodes -/

/-- `Held.local` for data nodes. -/
theorem Held.leaf (hd : Held M h r n) (hp : Place h r A s) {l : LeafMeta} {v v' : Option Ref} {p : Ref}
    (hg : h.get s = some (.leaf l v p)) (hx : Shows M h s x) (lo : Local h h' s) (snd : Sound true h')
    (hself : h'.get s = some (.leaf l v' p)) {w : Option V} (hy : Shows M h' s (.leaf l w))
    {X : Type} {f : Node V → Except X (Node V)} (hf : f x = .ok (.leaf l w)) :
    ∃ n', n.modify f A = some (.ok n') ∧ Held M h' r n' ∧ ∀ K t, Path h r K t → Path h' r K t := by
  obtain ⟨w0, hx0, -⟩ := hx.leaf_inv hg
  obtain ⟨n', h1, h2⟩ := hd.local hp hx lo snd hy (fun h => by obtain ⟨_, h⟩ := h; rw [hx0] at h; cases h) (by exact trivial)
    (news_none (fun k c hs => by
      cases hs with
      | field hx => rw [hself] at hx; cases hx
      | index hx => rw [hself] at hx; cases hx))
    (by rw [isLazy_eq, isLazy_eq, hself, hg]; rfl) (fun l' v1 p' hl => by rw [hself] at hl; cases hl; exact ⟨v, hg⟩) hf
  refine ⟨n', h1, h2, fun K t hK => (lo.edit hd.sound).keeps_all (fun k c hs => ?_) hK⟩
  cases hs with
  | field hx => rw [hg] at hx; cases hx
  | index hx => rw [hg] at hx; cases hx

theorem newValue_spec (M : Memory V B W) (h : Heap V B W C) (l : LeafMeta) (v : V) :
    Grow h (newValue M h l v).1 ∧ (newValue M h l v).1.val M (newValue M h l v).2 = some v ∧
      ∀ s y, s < h.next → ((newValue M h l v).1.set s y).val M (newValue M h l v).2 = some v := by
  unfold newValue
  split
  · refine ⟨⟨Nat.le_succ _, fun o ho => alloc_old ho⟩, by simp [Heap.val, Heap.alloc], fun s y hs => ?_⟩
    have : h.next ≠ s := Nat.ne_of_gt hs
    simp [Heap.val, Heap.alloc, Heap.set, this]
  · refine ⟨⟨?_, fun o ho => ?_⟩, ?_, fun s y hs => ?_⟩
    · exact Nat.le_trans (Nat.le_succ _) (Nat.le_succ _)
    · have h1 : o ≠ h.next := Nat.ne_of_lt ho
      have h2 : o ≠ h.next + 1 := Nat.ne_of_lt (Nat.lt_succ_of_lt ho)
      simp [newArray, Heap.alloc, h1, h2]
    · simp [Heap.val, newArray, Heap.alloc, M.look_copyOf]
    · have h1 : h.next ≠ s := Nat.ne_of_gt hs
      have h2 : h.next + 1 ≠ s := Nat.ne_of_gt (Nat.lt_succ_of_lt hs)
      simp [Heap.val, newArray, Heap.alloc, Heap.set, h1, h2, M.look_copyOf]

/-! ### Writing to memory -/

/-- The nodes are the same; the values may be different. -/
structure Rewrite (M : Memory V B W) (h h' : Heap V B W C) : Prop where
  next : h'.next = h.next
  nodes : ∀ o, h'.get o = h.get o ∨ ∃ v, h.val M o = some v ∨ ∃ b, h.get o = some (.buf b)
  back : ∀ o, h'.get o = h.get o ∨ ∃ v, h'.val M o = some v ∨ ∃ b, h'.get o = some (.buf b)
  vals : ∀ a v, h.val M a = some v → ∃ v', h'.val M a = some v'

theorem Rewrite.node (rw' : Rewrite M h h') {o : Ref} {y : Obj V B W C} (hy : h.get o = some y)
    (hn : (∃ l v p, y = .leaf l v p) ∨ (∃ q m d p t z x, y = .struct q m d p t z x) ∨ ∃ q m i p z x, y = .aos q m i p z x) :
    h'.get o = some y := by
  rcases rw'.nodes o with h1 | ⟨v, h1 | ⟨b, h1⟩⟩
  · rw [h1, hy]
  · rcases hn with ⟨_, _, _, rfl⟩ | ⟨_, _, _, _, _, _, _, rfl⟩ | ⟨_, _, _, _, _, _, rfl⟩ <;> simp [Heap.val, hy] at h1
  · rw [hy] at h1
    rcases hn with ⟨_, _, _, rfl⟩ | ⟨_, _, _, _, _, _, _, rfl⟩ | ⟨_, _, _, _, _, _, rfl⟩ <;> cases h1

theorem Rewrite.node_back (rw' : Rewrite M h h') {o : Ref} {y : Obj V B W C} (hy : h'.get o = some y)
    (hn : (∃ l v p, y = .leaf l v p) ∨ (∃ q m d p t z x, y = .struct q m d p t z x) ∨ ∃ q m i p z x, y = .aos q m i p z x) :
    h.get o = some y := by
  rcases rw'.back o with h1 | ⟨v, h1 | ⟨b, h1⟩⟩
  · rw [← h1, hy]
  · rcases hn with ⟨_, _, _, rfl⟩ | ⟨_, _, _, _, _, _, _, rfl⟩ | ⟨_, _, _, _, _, _, rfl⟩ <;> simp [Heap.val, hy] at h1
  · rw [hy] at h1
    rcases hn with ⟨_, _, _, rfl⟩ | ⟨_, _, _, _, _, _, _, rfl⟩ | ⟨_, _, _, _, _, _, rfl⟩ <;> cases h1

theorem Rewrite.slot (rw' : Rewrite M h h') {o c : Ref} {k : Key} : Slot h' o k c ↔ Slot h o k c := by
  constructor
  · intro hs
    cases hs with
    | field hx hm hd => exact .field (rw'.node_back hx (.inr (.inl ⟨_, _, _, _, _, _, _, rfl⟩))) hm hd
    | index hx hi => exact .index (rw'.node_back hx (.inr (.inr ⟨_, _, _, _, _, _, rfl⟩))) hi
  · intro hs
    cases hs with
    | field hx hm hd => exact .field (rw'.node hx (.inr (.inl ⟨_, _, _, _, _, _, _, rfl⟩))) hm hd
    | index hx hi => exact .index (rw'.node hx (.inr (.inr ⟨_, _, _, _, _, _, rfl⟩))) hi

theorem Rewrite.path (rw' : Rewrite M h h') {K : List Key} {t : Ref} : Path h' r K t ↔ Path h r K t := by
  induction K generalizing r with
  | nil => constructor <;> (intro hp; cases hp; exact .nil)
  | cons k K ih =>
    constructor
    · intro hp
      cases hp with
      | cons hs hp => exact .cons (rw'.slot.1 hs) (ih.1 hp)
    · intro hp
      cases hp with
      | cons hs hp => exact .cons (rw'.slot.2 hs) (ih.2 hp)

mutual
theorem Rewrite.shows (rw' : Rewrite M h h') {c : Ref} : ∀ {y : Node V}, Shows M h c y →
    ∃ y', Shows M h' c y' ∧ (WF y → WF y') ∧ ((∃ f, y = .struct f) → ∃ f, y' = .struct f)
  | _, .unset hg => ⟨_, .unset (rw'.node hg (.inl ⟨_, _, _, rfl⟩)), id, id⟩
  | _, .leaf hg hv => by
    obtain ⟨v', hv'⟩ := rw'.vals _ _ hv
    exact ⟨_, .leaf (rw'.node hg (.inl ⟨_, _, _, rfl⟩)) hv', fun _ => trivial, fun ⟨_, h⟩ => by cases h⟩
  | _, .struct hg hf => by
    obtain ⟨f', h1, h2⟩ := rw'.showsF hf
    exact ⟨_, .struct (rw'.node hg (.inr (.inl ⟨_, _, _, _, _, _, _, rfl⟩))) h1, h2, fun _ => ⟨_, rfl⟩⟩
  | _, .aos hg hf => by
    obtain ⟨f', h1, h2⟩ := rw'.showsE hf
    exact ⟨_, .aos (rw'.node hg (.inr (.inr ⟨_, _, _, _, _, _, rfl⟩))) h1, fun hw => ⟨hw.1, h2 hw.2⟩, fun ⟨_, h⟩ => by cases h⟩
theorem Rewrite.showsF (rw' : Rewrite M h h') {d : Name → Option Ref} {m : MFields} : ∀ {f : Fields V}, ShowsFields M h d m f →
    ∃ f', ShowsFields M h' d m f' ∧ (WFFields f → WFFields f')
  | _, .nil => ⟨_, .nil, id⟩
  | _, .absent hd hf => by
    obtain ⟨f', h1, h2⟩ := rw'.showsF hf
    exact ⟨_, .absent hd h1, fun hw => ⟨by rw [h1.names, ← hf.names]; exact hw.1, hw.2.1, h2 hw.2.2⟩⟩
  | _, .present hd hx hf => by
    obtain ⟨f', h1, h2⟩ := rw'.showsF hf
    obtain ⟨y', h3, h4, -⟩ := rw'.shows hx
    exact ⟨_, .present hd h3 h1, fun hw => ⟨by rw [h1.names, ← hf.names]; exact hw.1, h4 hw.2.1, h2 hw.2.2⟩⟩
theorem Rewrite.showsE (rw' : Rewrite M h h') {l : List (Option Ref)} : ∀ {f : Elems V}, ShowsElems M h l f →
    ∃ f', ShowsElems M h' l f' ∧ (WFElems f → WFElems f')
  | _, .nil => ⟨_, .nil, id⟩
  | _, .cons hx hf => by
    obtain ⟨f', h1, h2⟩ := rw'.showsE hf
    obtain ⟨y', h3, h4, h5⟩ := rw'.shows hx
    obtain ⟨g, rfl⟩ := h5 ⟨_, rfl⟩
    exact ⟨_, .cons h3 h1, fun hw => ⟨h4 hw.1, h2 hw.2⟩⟩
end

theorem Rewrite.lazy (rw' : Rewrite M h h') (o : Ref) : h'.isLazy o = h.isLazy o := by
  rcases rw'.nodes o with h1 | h1
  · rw [isLazy_eq, isLazy_eq, h1]
  · rcases rw'.back o with h2 | h2
    · rw [isLazy_eq, isLazy_eq, h2]
    · have key : ∀ h : Heap V B W C, (∃ v, h.val M o = some v ∨ ∃ b, h.get o = some (.buf b)) → h.isLazy o = false := by
        rintro h ⟨v, h1 | ⟨b, h1⟩⟩
        · unfold Heap.val at h1
          split at h1 <;> first | (next e => simp [Heap.isLazy, e]) | cases h1
        · simp [Heap.isLazy, h1]
      rw [key h h1, key h' h2]

theorem Held.rewrite (hd : Held M h r n) (rw' : Rewrite M h h') (snd : Sound true h') :
    ∃ n', Held M h' r n' := by
  obtain ⟨n', h1, h2, -⟩ := rw'.shows hd.shows
  refine ⟨n', snd, h1, h2 hd.wf, fun s K L a b => hd.unshared s K L (rw'.path.1 a) (rw'.path.1 b), fun K s a => ?_⟩
  obtain ⟨h3, h4⟩ := hd.eager K s (rw'.path.1 a)
  refine ⟨by rw [rw'.lazy]; exact h3, fun l v p hl => ?_⟩
  rw [rw'.lazy]
  exact h4 l v p (rw'.node_back hl (.inl ⟨_, _, _, rfl⟩))

end Verif.HeapSpec
