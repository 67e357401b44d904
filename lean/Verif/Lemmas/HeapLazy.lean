import Verif.Lemmas.HeapStep
import Verif.Spec.HeapLazy
namespace Verif.Heap
open Verif.Ids Verif.HeapSpec

variable {V B W C : Type} {E : Env V B W C} {h h' h'' : Heap V B W C}

/-- What a data node shows. -/
def shown (E : Env V B W C) (h : Heap V B W C) (l : LeafMeta) : Option Ref → Option V
  | none => some (E.default l)
  | some a => h.val E.mem a

/-! ### What does not change -/

/-- An object is the same kind of node as before. Data nodes below a lazy-loaded structure stay there, with the
same value. -/
def Keeps (E : Env V B W C) (h h' : Heap V B W C) (x x' : Obj V B W C) : Prop :=
  match x with
  | .struct q m _ _ t z y => ∃ d' p', x' = .struct q m d' p' t z y
  | .aos q m _ _ z y => ∃ i' p', x' = .aos q m i' p' z y
  | .leaf l v p => ∃ v' p', x' = .leaf l v' p' ∧ (h.isLazy p = true →
      h'.isLazy p' = true ∧ ∀ w, shown E h l v = some w → shown E h' l v' = some w)
  | _ => lazyObj x' = false

theorem keeps_lazy {x x' : Obj V B W C} (k : Keeps E h h' x x') : lazyObj x' = lazyObj x := by
  cases x with
  | struct => obtain ⟨_, _, rfl⟩ := k; rfl
  | aos => obtain ⟨_, _, rfl⟩ := k; rfl
  | leaf => obtain ⟨_, _, rfl, _⟩ := k; rfl
  | _ => exact k

structure Stable (E : Env V B W C) (h h' : Heap V B W C) : Prop where
  next : h.next ≤ h'.next
  keeps : ∀ o x, h.get o = some x → ∃ x', h'.get o = some x' ∧ Keeps E h h' x x'
  hole : ∀ o, o < h.next → h.get o = none → h'.get o = none

theorem Stable.isLazy (s : Stable E h h') {o : Ref} (ho : o < h.next) : h'.isLazy o = h.isLazy o := by
  rw [isLazy_eq, isLazy_eq]
  cases hx : h.get o with
  | none => rw [s.hole o ho hx]
  | some x =>
    obtain ⟨x', hx', k⟩ := s.keeps o x hx
    rw [hx']
    exact keeps_lazy k

theorem Stable.trans (a : Stable E h h') (b : Stable E h' h'') : Stable E h h'' := by
  refine ⟨Nat.le_trans a.next b.next, ?_, fun o ho hn => b.hole o (Nat.lt_of_lt_of_le ho a.next) (a.hole o ho hn)⟩
  intro o x hx
  obtain ⟨x', hx', k⟩ := a.keeps o x hx
  obtain ⟨x'', hx'', k'⟩ := b.keeps o x' hx'
  refine ⟨x'', hx'', ?_⟩
  cases x with
  | struct => obtain ⟨_, _, rfl⟩ := k; exact k'
  | aos => obtain ⟨_, _, rfl⟩ := k; exact k'
  | leaf l v p =>
    obtain ⟨v', p', rfl, hk⟩ := k
    obtain ⟨v'', p'', rfl, hk'⟩ := k'
    refine ⟨v'', p'', rfl, ?_⟩
    intro hz
    obtain ⟨hz', hs⟩ := hk hz
    obtain ⟨hz'', hs'⟩ := hk' hz'
    exact ⟨hz'', fun w hw => hs' w (hs w hw)⟩
  | _ => exact (keeps_lazy k').trans k

/-! ### The invariant -/

/-- A loaded child is what the file has for it. -/
def ChildOk (E : Env V B W C) (h : Heap V B W C) (x : Option C) (n : Name) (c : Ref) : Meta → Prop
  | .leaf l => ∃ v p, h.get c = some (.leaf l v p) ∧ h.isLazy p = true ∧
      ∀ w, fileLeaf E x n l = some w → shown E h l v = some w
  | .struct m => ∃ q d p t y, h.get c = some (.struct q m d p t true y) ∧ ∀ y', fileChild E x n = some y' → y = y'
  | .aos m => ∃ q i p y, h.get c = some (.aos q m i p true y) ∧ ∀ y', fileChild E x n = some y' → y = y'

/-- A loaded element is what the file has for it. -/
def ElemOk (E : Env V B W C) (h : Heap V B W C) (q : List Name) (m : MFields) (x : Option C) (i : Nat) (c : Ref) : Prop :=
  ∃ d p t y, h.get c = some (.struct q m d p t true y) ∧ ∀ x' y', x = some x' → E.loader.elem x' i = some y' → y = some y'

/-- The invariant: lazy-loaded nodes hold what the file has, and the parent of a structure that is not
lazy-loaded is not lazy-loaded. -/
def Ok (E : Env V B W C) (h : Heap V B W C) : Obj V B W C → Prop
  | .struct _ m d _ _ true x => ∀ n c, d n = some c → ∃ cm, lookupMeta m n = some cm ∧ ChildOk E h x n c cm
  | .struct _ _ _ p t false _ => t = true ∨ h.isLazy p = false
  | .aos q m (some l) _ true x => fileSize E x = some l.length ∧
      ∀ (i : Nat) c, l[i]? = some (some c) → ElemOk E h q m x i c
  | _ => True

structure Inv (E : Env V B W C) (h : Heap V B W C) : Prop where
  sound : Sound true h
  ok : ∀ o x, h.get o = some x → Ok E h x

theorem ChildOk.mono (s : Stable E h h') {x : Option C} {n : Name} {c : Ref} {cm : Meta}
    (k : ChildOk E h x n c cm) : ChildOk E h' x n c cm := by
  cases cm with
  | leaf l =>
    obtain ⟨v, p, hx, hz, hs⟩ := k
    obtain ⟨x', hx', v', p', rfl, hk⟩ := s.keeps c _ hx
    exact ⟨v', p', hx', (hk hz).1, fun w hw => (hk hz).2 w (hs w hw)⟩
  | struct m =>
    obtain ⟨q, d, p, t, y, hx, hs⟩ := k
    obtain ⟨x', hx', d', p', rfl⟩ := s.keeps c _ hx
    exact ⟨q, d', p', t, y, hx', hs⟩
  | aos m =>
    obtain ⟨q, i, p, y, hx, hs⟩ := k
    obtain ⟨x', hx', d', p', rfl⟩ := s.keeps c _ hx
    exact ⟨q, d', p', y, hx', hs⟩

theorem ElemOk.mono (s : Stable E h h') {q m x} {i : Nat} {c : Ref}
    (k : ElemOk E h q m x i c) : ElemOk E h' q m x i c := by
  obtain ⟨d, p, t, y, hx, hs⟩ := k
  obtain ⟨x', hx', d', p', rfl⟩ := s.keeps c _ hx
  exact ⟨d', p', t, y, hx', hs⟩

theorem Ok.mono (s : Stable E h h') {x : Obj V B W C} (hp : ∀ p, parentOf x = some p → p < h.next)
    (k : Ok E h x) : Ok E h' x := by
  cases x with
  | struct q m d p t z y =>
    cases z with
    | true =>
      intro n c hn
      obtain ⟨cm, h1, h2⟩ := k n c hn
      exact ⟨cm, h1, h2.mono s⟩
    | false =>
      rcases k with k | k
      · exact .inl k
      · exact .inr ((s.isLazy (hp p rfl)).trans k)
  | aos q m i p z y =>
    cases z with
    | false => cases i <;> trivial
    | true =>
      cases i with
      | none => trivial
      | some l => exact ⟨k.1, fun i c hc => (k.2 i c hc).mono s⟩
  | _ => trivial

theorem parent_lt (snd : Sound true h) {o p : Ref} {x : Obj V B W C} (hx : h.get o = some x)
    (hp : parentOf x = some p) : p < h.next :=
  snd.refs o x hx p (refers_split.2 (.inr ⟨rfl, hp⟩))

theorem get_lt (snd : Sound true h) {o : Ref} {x : Obj V B W C} (hx : h.get o = some x) : o < h.next := by
  refine Nat.lt_of_not_le fun hn => ?_
  rw [snd.above o hn] at hx; cases hx

/-- Nodes are no values. -/
def isNode : Obj V B W C → Prop
  | .leaf _ _ _ => True
  | .struct _ _ _ _ _ _ _ => True
  | .aos _ _ _ _ _ _ => True
  | _ => False

theorem val_node {M : Memory V B W} {r : Ref} {x : Obj V B W C} (hx : h.get r = some x) (hn : isNode x)
    (hs : ∀ o, o < h.next → o ≠ r → h'.get o = h.get o) (snd : Sound true h) {a : Ref} {w : V}
    (hv : h.val M a = some w) : h'.val M a = some w := by
  rcases val_cases hv with h1 | ⟨b, ww, y, h1, h2, h3⟩
  · have hne : a ≠ r := by rintro rfl; rw [hx] at h1; cases h1; exact hn.elim
    simp only [Heap.val, hs a (get_lt snd h1) hne, h1]
  · have hne : a ≠ r := by rintro rfl; rw [hx] at h1; cases h1; exact hn.elim
    have hne' : b ≠ r := by rintro rfl; rw [hx] at h2; cases h2; exact hn.elim
    simp only [Heap.val, hs a (get_lt snd h1) hne, h1, hs b (get_lt snd h2) hne', h2, h3]

theorem val_set_node {M : Memory V B W} {r : Ref} {x o : Obj V B W C} (hx : h.get r = some x) (hn : isNode x)
    {a : Ref} {w : V} (hv : h.val M a = some w) : (h.set r o).val M a = some w := by
  rcases val_cases hv with h1 | ⟨b, ww, y, h1, h2, h3⟩
  · have hne : a ≠ r := by rintro rfl; rw [hx] at h1; cases h1; exact hn.elim
    simp only [Heap.val, set_other hne, h1]
  · have hne : a ≠ r := by rintro rfl; rw [hx] at h1; cases h1; exact hn.elim
    have hne' : b ≠ r := by rintro rfl; rw [hx] at h2; cases h2; exact hn.elim
    simp only [Heap.val, set_other hne, h1, set_other hne', h2, h3]

/-- One node has changed, and there are new objects. -/
theorem extend (inv : Inv E h) (snd : Sound true h') (hn : h.next ≤ h'.next) {r : Ref} {x x' : Obj V B W C}
    (hx : h.get r = some x) (hnode : isNode x) (hs : ∀ o, o < h.next → o ≠ r → h'.get o = h.get o)
    (hx' : h'.get r = some x') (hz : lazyObj x' = lazyObj x)
    (hk : (∀ o, o < h.next → h'.isLazy o = h.isLazy o) → Keeps E h h' x x')
    (hok : Stable E h h' → Ok E h' x') (hnew : Stable E h h' → ∀ o y, h.next ≤ o → h'.get o = some y → Ok E h' y) :
    Stable E h h' ∧ Inv E h' := by
  have hl : ∀ o, o < h.next → h'.isLazy o = h.isLazy o := by
    intro o ho
    rw [isLazy_eq, isLazy_eq]
    by_cases hor : o = r
    · subst hor; rw [hx, hx']; exact hz
    · rw [hs o ho hor]
  have st : Stable E h h' := by
    refine ⟨hn, ?_, ?_⟩
    · intro o y hy
      by_cases hor : o = r
      · subst hor; rw [hx] at hy; cases hy; exact ⟨x', hx', hk hl⟩
      · refine ⟨y, (hs o (get_lt inv.sound hy) hor).trans hy, ?_⟩
        cases y with
        | struct => exact ⟨_, _, rfl⟩
        | aos => exact ⟨_, _, rfl⟩
        | leaf l v p =>
          refine ⟨_, _, rfl, fun hz => ⟨(hl p (parent_lt inv.sound hy rfl)).trans hz, ?_⟩⟩
          intro w hw
          cases v with
          | none => exact hw
          | some a => exact val_node hx hnode hs inv.sound hw
        | _ => rfl
    · intro o ho hno
      have : o ≠ r := by rintro rfl; rw [hx] at hno; cases hno
      rw [hs o ho this]; exact hno
  refine ⟨st, snd, ?_⟩
  intro o y hy
  by_cases ho : o < h.next
  · by_cases hor : o = r
    · subst hor; rw [hx'] at hy; cases hy; exact hok st
    · rw [hs o ho hor] at hy
      exact (inv.ok o y hy).mono st fun p hp => parent_lt inv.sound hy hp
  · exact hnew st o y (Nat.le_of_not_lt ho) hy

/-- There are new objects only. -/
theorem grow (inv : Inv E h) (snd : Sound true h') (hn : h.next ≤ h'.next)
    (hs : ∀ o, o < h.next → h'.get o = h.get o)
    (hnew : Stable E h h' → ∀ o y, h.next ≤ o → h'.get o = some y → Ok E h' y) :
    Stable E h h' ∧ Inv E h' := by
  have hl : ∀ o, o < h.next → h'.isLazy o = h.isLazy o := by
    intro o ho
    rw [isLazy_eq, isLazy_eq, hs o ho]
  have hv : ∀ a w, h.val E.mem a = some w → h'.val E.mem a = some w := by
    intro a w hv
    rcases val_cases hv with h1 | ⟨b, ww, y, h1, h2, h3⟩
    · simp only [Heap.val, hs a (get_lt inv.sound h1), h1]
    · simp only [Heap.val, hs a (get_lt inv.sound h1), h1, hs b (get_lt inv.sound h2), h2, h3]
  have st : Stable E h h' := by
    refine ⟨hn, ?_, fun o ho hno => by rw [hs o ho]; exact hno⟩
    intro o y hy
    refine ⟨y, (hs o (get_lt inv.sound hy)).trans hy, ?_⟩
    cases y with
    | struct => exact ⟨_, _, rfl⟩
    | aos => exact ⟨_, _, rfl⟩
    | leaf l v p =>
      refine ⟨_, _, rfl, fun hz => ⟨(hl p (parent_lt inv.sound hy rfl)).trans hz, ?_⟩⟩
      intro w hw
      cases v with
      | none => exact hw
      | some a => exact hv a w hw
    | _ => rfl
  refine ⟨st, snd, ?_⟩
  intro o y hy
  by_cases ho : o < h.next
  · rw [hs o ho] at hy
    exact (inv.ok o y hy).mono st fun p hp => parent_lt inv.sound hy hp
  · exact hnew st o y (Nat.le_of_not_lt ho) hy

theorem Stable.refl (inv : Inv E h) : Stable E h h :=
  (grow inv inv.sound (Nat.le_refl _) (fun _ _ => rfl) (fun _ o y ho hy => by
    rw [inv.sound.above o ho] at hy; cases hy)).1

/-- An operation keeps what was loaded. -/
def Keep (E : Env V B W C) (h : Heap V B W C) (o : Out V B W C) : Prop := Stable E h o.1 ∧ Inv E o.1

theorem sound_of {o : Out V B W C} (i : OutIn true (fun _ => True) h o) : Sound true o.1 :=
  ⟨i.inside.good.above, fun a x hx e he => (i.inside.good.closed a x trivial hx e he).2⟩

theorem has_of (r : Ref) (hr : r < h.next) : Has (fun _ => True) h r := ⟨trivial, hr⟩

theorem keep_error (inv : Inv E h) (e : Err) : Keep E h (h, .error e) := ⟨.refl inv, inv⟩

/-! ### Reading -/

theorem attr_extend (inv : Inv E h) (snd : Sound true h') (hn : h.next ≤ h'.next) {r c : Ref} {q m d p t z x}
    {name : Name} {cm : Meta}
    (hx : h.get r = some (.struct q m d p t z x)) (hs : ∀ o, o < h.next → o ≠ r → h'.get o = h.get o)
    (hx' : h'.get r = some (.struct q m (fun n => if n = name then some c else d n) p t z x))
    (hm : lookupMeta m name = some cm) (hc : z = true → ChildOk E h' x name c cm)
    (hnew : ∀ o y, h.next ≤ o → h'.get o = some y → Ok E h' y) : Stable E h h' ∧ Inv E h' := by
  refine extend inv snd hn hx trivial hs hx' rfl (fun _ => ⟨_, _, rfl⟩) ?_ (fun _ => hnew)
  intro st
  have old := inv.ok r _ hx
  cases z with
  | false =>
    rcases old with h1 | h1
    · exact .inl h1
    · exact .inr ((st.isLazy (parent_lt inv.sound hx rfl)).trans h1)
  | true =>
    intro n c' hn'
    simp only at hn'
    split at hn'
    · next hnn => subst hnn; cases hn'; exact ⟨cm, hm, hc rfl⟩
    · obtain ⟨cm', h1, h2⟩ := old n c' hn'
      exact ⟨cm', h1, h2.mono st⟩

theorem newNode_ok {q : List Name} {z : Bool} {r : Ref} (hz : h.isLazy r = z) (cm : Meta) :
    Ok E h (newNode q z r cm) := by
  cases cm with
  | leaf => trivial
  | struct m =>
    cases z with
    | true => intro n c hn; cases hn
    | false => exact .inr hz
  | aos m => cases z <;> trivial

theorem newValue_new (M : Memory V B W) (ha : ∀ o, h.next ≤ o → h.get o = none) (l : LeafMeta) (v : V) :
    h.next ≤ (newValue M h l v).1.next ∧ (∀ o, o < h.next → (newValue M h l v).1.get o = h.get o) ∧
    (newValue M h l v).1.val M (newValue M h l v).2 = some v ∧ h.next ≤ (newValue M h l v).2 ∧
    (∀ o y, h.next ≤ o → (newValue M h l v).1.get o = some y → ¬ isNode y) := by
  unfold newValue
  split
  · refine ⟨Nat.le_succ _, ?_, ?_, Nat.le_refl _, ?_⟩
    · intro o ho
      simp only [Heap.alloc, if_neg (Nat.ne_of_lt ho)]
    · simp [Heap.val, Heap.alloc]
    · intro o y ho hy
      simp only [Heap.alloc] at hy
      split at hy
      · cases hy; exact id
      · rw [ha o ho] at hy; cases hy
  · refine ⟨Nat.le_trans (Nat.le_succ _) (Nat.le_succ _), ?_, (newArray_same ha v).2, Nat.le_succ _, ?_⟩
    · intro o ho
      have h1 : o ≠ h.next := Nat.ne_of_lt ho
      have h2 : o ≠ h.next + 1 := Nat.ne_of_lt (Nat.lt_succ_of_lt ho)
      simp only [newArray, Heap.alloc, if_neg h1, if_neg h2]
    · intro o y ho hy
      simp only [newArray, Heap.alloc] at hy
      change (if o = h.next + 1 then some _ else if o = h.next then some _ else h.get o) = some y at hy
      by_cases h1 : o = h.next + 1
      · rw [if_pos h1] at hy; cases hy; exact id
      · rw [if_neg h1] at hy
        by_cases h2 : o = h.next
        · rw [if_pos h2] at hy; cases hy; exact id
        · rw [if_neg h2, ha o ho] at hy; cases hy

theorem ok_of_value {y : Obj V B W C} (hy : ¬ isNode y) : Ok E h y := by
  cases y with
  | struct => exact absurd trivial hy
  | aos => exact absurd trivial hy
  | _ => trivial

/-- The heap with a new child. -/
structure NewChild (h h2 : Heap V B W C) (r : Ref) (name : Name) (cm : Meta) (q : List Name) (m : MFields)
    (d : Name → Option Ref) (p : Ref) (t z : Bool) (x : Option C) : Prop where
  next : h2.next = h.next + 1
  child : h2.get h.next = some (newNode (q ++ [name]) z r cm)
  self : h2.get r = some (.struct q m (fun n => if n = name then some h.next else d n) p t z x)
  old : ∀ o, o < h.next → o ≠ r → h2.get o = h.get o
  above : ∀ o, h.next + 1 ≤ o → h2.get o = none

theorem newChild_facts (ha : ∀ o, h.next ≤ o → h.get o = none) {r : Ref} (hr : r < h.next) {name cm q m d p t z x} :
    NewChild h ((h.alloc (newNode (q ++ [name]) z r cm)).1.set r
      (.struct q m (fun n => if n = name then some h.next else d n) p t z x)) r name cm q m d p t z x := by
  have hne : r ≠ h.next := Nat.ne_of_lt hr
  refine ⟨rfl, ?_, set_get .., ?_, ?_⟩
  · rw [set_other (Ne.symm hne)]; exact alloc_get _ _
  · intro o ho hor
    rw [set_other hor]
    simp only [Heap.alloc, if_neg (Nat.ne_of_lt ho)]
  · intro o ho
    have h1 : o ≠ r := Nat.ne_of_gt (Nat.lt_of_lt_of_le (Nat.lt_succ_of_lt hr) ho)
    have h2 : o ≠ h.next := Nat.ne_of_gt ho
    rw [set_other h1]
    simp only [Heap.alloc, if_neg h2]
    exact ha o (Nat.le_of_succ_le ho)

variable {h2 : Heap V B W C} {r : Ref} {name : Name} {cm : Meta} {q : List Name} {m : MFields}
  {d : Name → Option Ref} {p : Ref} {t z : Bool} {x : Option C}

theorem NewChild.isLazy (n : NewChild h h2 r name cm q m d p t z x) : h2.isLazy r = z := by
  rw [isLazy_eq, n.self]; rfl

/-- Without loading. -/
theorem newChild_keep (inv : Inv E h) (hx : h.get r = some (.struct q m d p t z x))
    (hm : lookupMeta m name = some cm) (n : NewChild h h2 r name cm q m d p t z x) (snd : Sound true h2)
    (hl : z = true → ∀ x', x = some x' → (∀ l, cm = .leaf l → (E.loader.leaf x' name l).getD none = none) ∧
      ((∀ l, cm ≠ .leaf l) → E.loader.child x' name = none)) :
    Stable E h h2 ∧ Inv E h2 ∧ (z = true → ChildOk E h2 x name h.next cm) := by
  have hc : z = true → ChildOk E h2 x name h.next cm := by
    rintro rfl
    have hch := n.child
    cases cm with
    | leaf l =>
      refine ⟨none, r, hch, n.isLazy, ?_⟩
      intro w hw
      cases x with
      | none => exact hw
      | some x' =>
        have := (hl rfl x' rfl).1 l rfl
        simp only [fileLeaf] at hw
        cases hle : E.loader.leaf x' name l with
        | none => rw [hle] at hw; cases hw
        | some v =>
          rw [hle] at hw this
          cases v with
          | none => exact hw
          | some v => cases this
    | struct m' =>
      refine ⟨_, _, _, _, none, hch, ?_⟩
      intro y' hy'
      cases x with
      | none => cases hy'; rfl
      | some x' =>
        have := (hl rfl x' rfl).2 (fun _ h => nomatch h)
        simp only [fileChild] at hy'
        rw [this] at hy'; cases hy'
    | aos m' =>
      refine ⟨_, _, _, none, hch, ?_⟩
      intro y' hy'
      cases x with
      | none => cases hy'; rfl
      | some x' =>
        have := (hl rfl x' rfl).2 (fun _ h => nomatch h)
        simp only [fileChild] at hy'
        rw [this] at hy'; cases hy'
  have := attr_extend inv snd (by rw [n.next]; exact Nat.le_succ _) hx n.old n.self hm hc (by
    intro o y ho hy
    rcases Nat.eq_or_lt_of_le ho with ho | ho
    · subst ho; rw [n.child] at hy; cases hy; exact newNode_ok n.isLazy cm
    · rw [n.above o ho] at hy; cases hy)
  exact ⟨this.1, this.2, hc⟩

/-- With loading. -/
theorem loadChild_keep (inv : Inv E h) {x' : C} (hx : h.get r = some (.struct q m d p t true (some x')))
    (hm : lookupMeta m name = some cm) (n : NewChild h h2 r name cm q m d p t true (some x')) (snd : Sound true h2)
    (snd' : Sound true (loadChild E h2 x' name h.next).1) :
    Keep E h (loadChild E h2 x' name h.next) ∧ ∀ c, (loadChild E h2 x' name h.next).2 = .ok [c] →
      c = h.next ∧ ChildOk E (loadChild E h2 x' name h.next).1 (some x') name h.next cm := by
  have hr := get_lt inv.sound hx
  have hne : r ≠ h.next := Nat.ne_of_lt hr
  have hch := n.child
  have hz := n.isLazy
  -- only the contents of the new child change, and there are new values
  have key : ∀ h3 y, Sound true h3 → h2.next ≤ h3.next → h3.get h.next = some y → lazyObj y = lazyObj (newNode (V := V) (B := B) (W := W) (C := C) (q ++ [name]) true r cm) →
      (∀ o, o < h2.next → o ≠ h.next → h3.get o = h2.get o) → 
      (∀ o w, h2.next ≤ o → h3.get o = some w → ¬ isNode w) →
      (h3.isLazy r = true → ChildOk E h3 (some x') name h.next cm) → (h3.isLazy r = true → Ok E h3 y) →
      Keep E h (h3, .ok [h.next]) ∧ ChildOk E h3 (some x') name h.next cm := by
    intro h3 y snd3 hn3 hy3 hzy hold hval hcok hyok
    have hself : h3.get r = some (.struct q m (fun n => if n = name then some h.next else d n) p t true (some x')) :=
      (hold r (by rw [n.next]; exact Nat.lt_succ_of_lt hr) hne).trans n.self
    have hz3 : h3.isLazy r = true := by rw [isLazy_eq, hself]; rfl
    have := attr_extend inv snd3 (Nat.le_trans (by rw [n.next]; exact Nat.le_succ _) hn3) hx
      (fun o ho hor => (hold o (by rw [n.next]; exact Nat.lt_succ_of_lt ho) (Nat.ne_of_lt ho)).trans (n.old o ho hor))
      hself hm (fun _ => hcok hz3) (by
        intro o w ho hw
        rcases Nat.eq_or_lt_of_le ho with ho | ho
        · subst ho; rw [hy3] at hw; cases hw; exact hyok hz3
        · exact ok_of_value (hval o w (by rw [n.next]; exact ho) hw))
    exact ⟨this, hcok hz3⟩
  have noLoad := newChild_keep (E := E) inv hx hm n snd
  unfold loadChild at snd' ⊢
  cases cm with
  | leaf l =>
    simp only [newNode] at hch
    rw [hch] at snd' ⊢
    simp only at snd' ⊢
    cases hle : E.loader.leaf x' name l with
    | none =>
      obtain ⟨a, b, _⟩ := noLoad (by
        intro _ x1 hx1; cases hx1
        exact ⟨fun l' hl' => by cases hl'; rw [hle]; rfl, fun hh => absurd rfl (hh l)⟩)
      exact ⟨⟨a, b⟩, fun _ h => nomatch h⟩
    | some v =>
      cases v with
      | none =>
        obtain ⟨a, b, cc⟩ := noLoad (by
          intro _ x1 hx1; cases hx1
          exact ⟨fun l' hl' => by cases hl'; rw [hle]; rfl, fun hh => absurd rfl (hh l)⟩)
        refine ⟨⟨a, b⟩, ?_⟩
        intro c hc
        cases hc
        exact ⟨rfl, cc rfl⟩
      | some v =>
        rw [hle] at snd'
        simp only at snd' ⊢
        obtain ⟨n1, n2, n3, n4, n5⟩ := newValue_new (C := C) E.mem snd.above l v
        have hcn : h.next < h2.next := by rw [n.next]; exact Nat.lt_succ_self _
        have hne' : (newValue E.mem h2 l v).2 ≠ h.next := Nat.ne_of_gt (Nat.lt_of_lt_of_le hcn n4)
        have sv : ((newValue E.mem h2 l v).1.set h.next (.leaf l (some (newValue E.mem h2 l v).2) r)).val E.mem
            (newValue E.mem h2 l v).2 = some v := by
          exact val_set_node ((n2 _ hcn).trans hch) trivial n3
        have := key ((newValue E.mem h2 l v).1.set h.next (.leaf l (some (newValue E.mem h2 l v).2) r)) _ snd' n1
          (set_get ..) rfl (fun o ho hor => (set_other hor).trans (n2 o ho)) (by
            intro o w ho hw
            have : o ≠ h.next := Nat.ne_of_gt (Nat.lt_of_lt_of_le hcn ho)
            rw [set_other this] at hw
            exact n5 o w ho hw) (fun hz3 => by
              refine ⟨_, _, set_get .., hz3, ?_⟩
              intro w hw
              simp only [fileLeaf, hle] at hw
              cases hw
              exact sv) (fun _ => trivial)
        exact ⟨this.1, fun c hc => by cases hc; exact ⟨rfl, this.2⟩⟩
  | struct m' =>
    simp only [newNode] at hch
    rw [hch] at snd' ⊢
    simp only at snd' ⊢
    cases hle : E.loader.child x' name with
    | none =>
      obtain ⟨a, b, _⟩ := noLoad (by
        intro _ x1 hx1; cases hx1
        exact ⟨fun l' hl' => (by cases hl'), fun _ => hle⟩)
      exact ⟨⟨a, b⟩, fun _ h => nomatch h⟩
    | some y =>
      rw [hle] at snd'
      simp only at snd' ⊢
      have := key _ _ snd' (Nat.le_refl _) (set_get ..) rfl (fun o ho hor => set_other hor) (by
            intro o w ho hw
            have hcn : h.next < h2.next := by rw [n.next]; exact Nat.lt_succ_self _
            have : o ≠ h.next := Nat.ne_of_gt (Nat.lt_of_lt_of_le hcn ho)
            rw [set_other this, snd.above o ho] at hw; cases hw) (fun hz3 => by
              refine ⟨_, _, _, _, y, set_get .., ?_⟩
              intro y' hy'
              simp only [fileChild, hle] at hy'
              cases hy'; rfl) (fun _ => by intro n c hn; cases hn)
      exact ⟨this.1, fun c hc => by cases hc; exact ⟨rfl, this.2⟩⟩
  | aos m' =>
    simp only [newNode] at hch
    rw [hch] at snd' ⊢
    simp only at snd' ⊢
    cases hle : E.loader.child x' name with
    | none =>
      obtain ⟨a, b, _⟩ := noLoad (by
        intro _ x1 hx1; cases hx1
        exact ⟨fun l' hl' => (by cases hl'), fun _ => hle⟩)
      exact ⟨⟨a, b⟩, fun _ h => nomatch h⟩
    | some y =>
      rw [hle] at snd'
      simp only at snd' ⊢
      have := key _ _ snd' (Nat.le_refl _) (set_get ..) rfl (fun o ho hor => set_other hor) (by
            intro o w ho hw
            have hcn : h.next < h2.next := by rw [n.next]; exact Nat.lt_succ_self _
            have : o ≠ h.next := Nat.ne_of_gt (Nat.lt_of_lt_of_le hcn ho)
            rw [set_other this, snd.above o ho] at hw; cases hw) (fun hz3 => by
              refine ⟨_, _, _, y, set_get .., ?_⟩
              intro y' hy'
              simp only [fileChild, hle] at hy'
              cases hy'; rfl) (fun _ => trivial)
      exact ⟨this.1, fun c hc => by cases hc; exact ⟨rfl, this.2⟩⟩

theorem getAttr_keep (inv : Inv E h) (hr : r < h.next) (name : Name) :
    Keep E h (getAttr E h r name) ∧ ∀ q m d p t x c, h.get r = some (.struct q m d p t true x) →
      (getAttr E h r name).2 = .ok [c] → ∃ cm, lookupMeta m name = some cm ∧
        ChildOk E (getAttr E h r name).1 x name c cm := by
  have g := all_good inv.sound
  unfold getAttr
  split
  · next q m d p t z x hx =>
    split
    · next c hc =>
      refine ⟨⟨.refl inv, inv⟩, ?_⟩
      intro q m d p t x c' h1 h2
      rw [hx] at h1; cases h1; cases h2
      exact inv.ok r _ hx name c hc
    · next hd =>
      split
      · exact ⟨keep_error inv _, fun _ _ _ _ _ _ _ _ h => nomatch h⟩
      · next cm hm =>
        obtain ⟨i, hc⟩ := alloc_inside g (o := newNode (q ++ [name]) z r cm) (by
          intro e he; rw [newNode_refs he]; exact has_of r hr)
        have i2 := set_inside i.good (i.has (has_of r hr)) ((alloc_old hr).trans hx) (by simp [Immutable])
          (o := .struct q m (fun n => if n = name then some (h.alloc (newNode (q ++ [name]) z r cm)).2
            else d n) p t z x) (by
            rintro e (⟨n, he⟩ | ⟨hu, rfl⟩)
            · simp only at he
              split at he
              · cases he; exact hc
              · exact i.has (g.out (has_of r hr) hx (.inl ⟨n, he⟩))
            · exact i.has (g.out (has_of r hr) hx (.inr ⟨hu, rfl⟩)))
        have snd2 : Sound true ((h.alloc (newNode (q ++ [name]) z r cm)).1.set r
            (.struct q m (fun n => if n = name then some h.next else d n) p t z x)) :=
          ⟨i2.good.above, fun a x hx e he => (i2.good.closed a x trivial hx e he).2⟩
        have nc := newChild_facts (name := name) (cm := cm) (q := q) (m := m) (d := d) (p := p) (t := t) (z := z)
          (x := x) inv.sound.above hr
        simp only
        split
        · next x' =>
          have snd3 := sound_of (loadChild_in (E := E) (x := x') (name := name) i2.good (i2.has hc))
          obtain ⟨k1, k2⟩ := loadChild_keep inv hx hm nc snd2 snd3
          refine ⟨k1, ?_⟩
          intro q' m' d' p' t' x' c h1 h2
          rw [hx] at h1; cases h1
          obtain ⟨rfl, k3⟩ := k2 c h2
          exact ⟨cm, hm, k3⟩
        · next hno =>
          obtain ⟨a, b, cc⟩ := newChild_keep (E := E) inv hx hm nc snd2 (by
            intro hz x' hx'; exact absurd hx' (hno x' hz))
          refine ⟨⟨a, b⟩, ?_⟩
          intro q' m' d' p' t' x' c h1 h2
          rw [hx] at h1; cases h1
          cases h2
          exact ⟨cm, hm, cc rfl⟩
  · exact ⟨keep_error inv _, fun _ _ _ _ _ _ _ _ h => nomatch h⟩

end Verif.Heap
