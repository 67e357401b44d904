import Verif.Lemmas.Hash
set_option linter.unusedSectionVars false
namespace Verif.Ids
open Verif.TreeSpec Verif.DiffSpec Verif.HashSpec

variable {F : Type} [FloatModel F] (h : Hasher F)

/-! ### Values -/

def itemSize : BaseType → Nat
  | .int => 4
  | .cpx => 16
  | _ => 8

theorem scalarBytes_length {t : BaseType} {s : Scalar F} {b : Bytes} (ht : s.type = t)
    (g : scalarBytes h s = some b) : b.length = itemSize t := by
  cases s with
  | int i => simp only [Scalar.type] at ht; subst ht; exact i32_length g
  | flt x =>
    simp only [Scalar.type] at ht; subst ht
    simp [scalarBytes] at g; subst g; exact h.f64_length x
  | cpx x y =>
    simp only [Scalar.type] at ht; subst ht
    simp [scalarBytes] at g; subst g; simp [h.f64_length, itemSize]

theorem scalarBytes_inj {t : BaseType} {s s' : Scalar F} {b : Bytes} (ht : s.type = t)
    (ht' : s'.type = t) (g : scalarBytes h s = some b) (g' : scalarBytes h s' = some b) : s = s' := by
  subst ht
  cases s <;> cases s' <;> simp [Scalar.type] at ht'
  · simp only [scalarBytes] at g g'; rw [i32_inj g g']
  · simp only [scalarBytes, Option.some.injEq] at g g'
    rw [h.f64_inj _ _ (g.trans g'.symm)]
  · simp only [scalarBytes, Option.some.injEq] at g g'
    obtain ⟨h1, h2⟩ := List.append_inj (g.trans g'.symm) (by rw [h.f64_length, h.f64_length])
    rw [h.f64_inj _ _ h1, h.f64_inj _ _ h2]

theorem valBytes_inj {l : LeafMeta} {v w : Val F} {b : Bytes} (hv : v.fits l = true)
    (hw : w.fits l = true) (g : valBytes h v = some b) (g' : valBytes h w = some b)
    (hc : NoCollision h (valInputs h v) (valInputs h w)) : v = w := by
  cases v <;> cases w <;>
    simp only [Val.fits, Bool.and_eq_true, decide_eq_true_eq] at hv hw <;>
    first
    | (exfalso; rw [hv.1] at hw; simp at hw; done)
    | (exfalso; rw [hv.2] at hw; simp at hw; done)
    | skip
  · simp only [valBytes] at g g'; rw [i32_inj g g']
  · exfalso; obtain ⟨⟨⟨⟨⟨-, -⟩, h1⟩, h2⟩, -⟩, -⟩ := hw; omega
  · simp only [valBytes, Option.some.injEq] at g g'
    rw [h.f64_inj _ _ (g.trans g'.symm)]
  · exfalso; obtain ⟨⟨⟨⟨⟨-, -⟩, h1⟩, h2⟩, -⟩, -⟩ := hw; omega
  · simp only [valBytes, Option.some.injEq] at g g'
    obtain ⟨h1, h2⟩ := List.append_inj (g.trans g'.symm) (by rw [h.f64_length, h.f64_length])
    rw [h.f64_inj _ _ h1, h.f64_inj _ _ h2]
  · exfalso; obtain ⟨⟨⟨⟨⟨-, -⟩, h1⟩, h2⟩, -⟩, -⟩ := hw; omega
  · simp only [valBytes, Option.some.injEq] at g g'
    rw [utf8_inj (g.trans g'.symm)]
  · exfalso; obtain ⟨⟨⟨⟨⟨-, -⟩, h1⟩, h2⟩, -⟩, -⟩ := hw; omega
  · rename_i l1 l2
    have hstr : ∀ (l : List (List Char)) (b : Bytes), valBytes h (.strs l) = some b →
        catO (natBytes 8 l.length :: l.map fun s => some (h.H (utf8 s))) = some b := fun _ _ g => g
    obtain ⟨x, y, h1, h2, e⟩ := catO_cons (hstr _ _ g)
    obtain ⟨x', y', h1', h2', e'⟩ := catO_cons (hstr _ _ g')
    obtain ⟨rfl, rfl⟩ := List.append_inj (e.symm.trans e')
      ((natBytes_length h1).trans (natBytes_length h1').symm)
    have hl := natBytes_inj h1 h1'
    have := (catO_map_inj (fun s => some (h.H (utf8 s))) 8 (· ∈ l1) (· ∈ l2)
      (fun a b _ hb => by simp at hb; subst hb; exact h.H_length _)
      (fun a a' b ha ha' hb hb' => by
        simp only [Option.some.injEq] at hb hb'
        apply utf8_inj
        refine hc _ ?_ _ ?_ (hb.trans hb'.symm)
        · simp only [valInputs]; exact List.mem_append_right _ (List.mem_map.2 ⟨a, ha, rfl⟩)
        · simp only [valInputs]; exact List.mem_append_right _ (List.mem_map.2 ⟨a', ha', rfl⟩))
      l1 l2 hl (fun _ ha => ha) (fun _ ha => ha) [] [] y (by simpa using h2) (by simpa using h2')).1
    rw [this]
  · exfalso; obtain ⟨⟨⟨⟨⟨h1, h2⟩, -⟩, -⟩, -⟩, -⟩ := hw; rw [hv.1] at h1; exact h2 h1.symm
  · exfalso; obtain ⟨⟨⟨⟨⟨-, -⟩, h1⟩, h2⟩, -⟩, -⟩ := hv; omega
  · exfalso; obtain ⟨⟨⟨⟨⟨-, -⟩, h1⟩, h2⟩, -⟩, -⟩ := hv; omega
  · exfalso; obtain ⟨⟨⟨⟨⟨-, -⟩, h1⟩, h2⟩, -⟩, -⟩ := hv; omega
  · exfalso; obtain ⟨⟨⟨⟨⟨-, -⟩, h1⟩, h2⟩, -⟩, -⟩ := hv; omega
  · exfalso; obtain ⟨⟨⟨⟨⟨h1, h2⟩, -⟩, -⟩, -⟩, -⟩ := hv; rw [hw.1] at h1; exact h2 h1.symm
  · rename_i t s d t' s' d'
    obtain ⟨⟨⟨⟨⟨h1, -⟩, h2⟩, -⟩, h3⟩, h4⟩ := hv
    obtain ⟨⟨⟨⟨⟨h1', -⟩, h2'⟩, -⟩, h3'⟩, h4'⟩ := hw
    have ht : t = t' := h1.symm.trans h1'
    subst ht
    simp only [valBytes] at g g'
    obtain ⟨x, y, g1, g2, e⟩ := catO_cons g
    obtain ⟨x', y', g1', g2', e'⟩ := catO_cons g'
    obtain ⟨rfl, rfl⟩ := List.append_inj (e.symm.trans e')
      ((natBytes_length g1).trans (natBytes_length g1').symm)
    obtain ⟨rfl, z, g3, g3'⟩ := catO_map_inj q64 8 (fun _ => True) (fun _ => True)
      (fun a b _ hb => q64_length hb) (fun a a' b _ _ hb hb' => q64_inj hb hb') s s'
      (h2.symm.trans h2') (fun _ _ => trivial) (fun _ _ => trivial) _ _ y g2 g2'
    have hd : ∀ (d : List (Scalar F)), d.all (·.type = t) = true → ∀ a ∈ d, a.type = t := by
      intro d hd a ha
      have := List.all_eq_true.1 hd a ha
      simpa using this
    have := (catO_map_inj (scalarBytes h) (itemSize t) (fun a => a.type = t) (fun a => a.type = t)
      (fun a b ha hb => scalarBytes_length h (ha.elim id id) hb)
      (fun a a' b ha ha' hb hb' => scalarBytes_inj h ha ha' hb hb') d d' (h3.trans h3'.symm)
      (hd d h4) (hd d' h4') [] [] z (by simpa using g3) (by simpa using g3')).1
    rw [this]

/-! ### Children -/

/-- Unique decoding of the digested string of a structure. -/
theorem decode (L L' : List (Name × Option Bytes)) (b : Bytes)
    (hl : ∀ p ∈ L, ∀ d, p.2 = some d → d.length = 8) (hl' : ∀ p ∈ L', ∀ d, p.2 = some d → d.length = 8)
    (hs : ∀ p ∈ L, ∀ p' ∈ L', ∀ d d', p.2 = some d → p'.2 = some d' → ∀ r, r ≠ [] →
      (p'.1 = p.1 ++ r → (utf8 r ++ d').take 8 ≠ d) ∧ (p.1 = p'.1 ++ r → (utf8 r ++ d).take 8 ≠ d'))
    (g : catO (L.map fun p => p.2.map (utf8 p.1 ++ ·)) = some b)
    (g' : catO (L'.map fun p => p.2.map (utf8 p.1 ++ ·)) = some b) : L = L' := by
  have ne : ∀ (k : Name) (d u : Bytes), d.length = 8 → utf8 k ++ d ++ u ≠ [] := by
    intro k d u hd e
    simp only [List.append_eq_nil_iff] at e
    rw [e.1.2] at hd; simp at hd
  have shift : ∀ (d d' u u' s : Bytes), d.length = 8 → d'.length = 8 →
      d ++ u = s ++ (d' ++ u') → (s ++ d').take 8 = d := by
    intro d d' u u' s h1 h2 e
    have h3 : (d ++ u).take 8 = d := by rw [List.take_append_of_le_length (by omega), List.take_of_length_le (by omega)]
    rw [e, ← List.append_assoc, List.take_append_of_le_length (by simp; omega)] at h3
    exact h3
  induction L generalizing L' b with
  | nil =>
    cases L' with
    | nil => rfl
    | cons p' L' =>
      exfalso
      simp only [List.map_nil, catO, Option.some.injEq] at g
      subst g
      obtain ⟨x, y, h1, -, e⟩ := catO_cons g'
      simp only [Option.map_eq_some_iff] at h1
      obtain ⟨d, hd, rfl⟩ := h1
      exact ne _ _ _ (hl' p' (by simp) d hd) e.symm
  | cons p L ih =>
    obtain ⟨x, y, h1, h2, e⟩ := catO_cons g
    simp only [Option.map_eq_some_iff] at h1
    obtain ⟨d, hd, rfl⟩ := h1
    have ld := hl p (by simp) d hd
    cases L' with
    | nil =>
      exfalso
      simp only [List.map_nil, catO, Option.some.injEq] at g'
      subst g'
      exact ne _ _ _ ld e.symm
    | cons p' L' =>
      obtain ⟨x', y', h1', h2', e'⟩ := catO_cons g'
      simp only [Option.map_eq_some_iff] at h1'
      obtain ⟨d', hd', rfl⟩ := h1'
      have ld' := hl' p' (by simp) d' hd'
      have e2 : utf8 p.1 ++ (d ++ y) = utf8 p'.1 ++ (d' ++ y') := by
        rw [← List.append_assoc, ← List.append_assoc, ← e, ← e']
      have hs0 := hs p (by simp) p' (by simp) d d' hd hd'
      have hname : p.1 = p'.1 := by
        rcases utf8_prefix _ _ _ _ e2 with ⟨r, hr⟩ | ⟨r, hr⟩
        · by_cases hr0 : r = []
          · rw [hr, hr0]; simp
          · exfalso
            rw [hr, utf8_append, List.append_assoc] at e2
            exact (hs0 r hr0).1 hr (shift d d' y y' (utf8 r) ld ld' (List.append_cancel_left e2))
        · by_cases hr0 : r = []
          · rw [hr, hr0]; simp
          · exfalso
            rw [hr, utf8_append, List.append_assoc] at e2
            exact (hs0 r hr0).2 hr (shift d' d y' y (utf8 r) ld' ld (List.append_cancel_left e2).symm)
      rw [hname] at e2
      obtain ⟨e3, e4⟩ := List.append_inj (List.append_cancel_left e2) (ld.trans ld'.symm)
      subst e4
      have := ih L' y (fun q hq => hl q (by simp [hq])) (fun q hq => hl' q (by simp [hq]))
        (fun q hq q' hq' => hs q (by simp [hq]) q' (by simp [hq'])) h2 h2'
      rw [this]
      have : p = p' := Prod.ext hname (by rw [hd, hd', e3])
      rw [this]

/-- The contents of two structures are the same if those of their children are. -/
theorem sameContents_of_children {name : Name} {c d : Fields (Val F)}
    (g : ∀ k, ¬ Skip (skips name) k → (filled c k = none ∧ filled d k = none) ∨
      ∃ x y, filled c k = some x ∧ filled d k = some y ∧ SameContents k x y ∧
        ∀ m e m' f i c' d', x = .aos m e → y = .aos m' f → e.get? i = some c' → f.get? i = some d' →
          SameContents k (.struct c') (.struct d')) :
    SameContents name (.struct c) (.struct d) := by
  -- one direction for values and sizes alike
  have key : ∀ (c d : Fields (Val F)) (Q : Node (Val F) → Addr → Prop),
      (∀ n s a, Q n (s :: a) ↔ ∃ x, n.item s = some x ∧ Q x a) →
      (∀ n a, Q n a → n.hasValue = true) →
      (∀ k, ¬ Skip (skips name) k → (filled c k = none ∧ filled d k = none) ∨
        ∃ x y, filled c k = some x ∧ filled d k = some y ∧
        (∀ a, ¬ InVersionPut k a → Q x a → Q y a) ∧
        (∀ m e, x = .aos m e → ∃ m' f, y = .aos m' f ∧ e.length = f.length) ∧
        ∀ m e m' f i c' d', x = .aos m e → y = .aos m' f → e.get? i = some c' → f.get? i = some d' →
          ∀ a, ¬ InVersionPut k a → Q (.struct c') a → Q (.struct d') a) →
      ∀ s a, ¬ InVersionPut name (s :: a) → Q (.struct c) (s :: a) → Q (.struct d) (s :: a) := by
    intro c d Q hQ hv g s a hn hq
    obtain ⟨x, hx, hq1⟩ := (hQ _ _ _).1 hq
    obtain ⟨hs, hn⟩ := not_inVP_cons.1 hn
    obtain ⟨k, j⟩ := s
    obtain ⟨c0, e0, ⟨hj, hx⟩ | ⟨i, m, e, f, hj, hx, hf, rfl⟩⟩ := item_cases hx
    · simp at e0 hj; subst e0; subst hj
      have hfx : filled c k = some x := filled_iff.2 ⟨hx, hv _ _ hq1⟩
      rcases g k hs with ⟨h1, -⟩ | ⟨x', y, h1, h2, h3, -⟩
      · rw [h1] at hfx; simp at hfx
      · rw [h1] at hfx; simp at hfx; subst hfx
        exact (hQ _ _ _).2 ⟨y, by simp [Node.item, (filled_iff.1 h2).1], h3 a hn hq1⟩
    · simp at e0 hj; subst e0; subst hj
      have hfx : filled c k = some (.aos m e) := filled_iff.2 ⟨hx, elems_length_pos hf⟩
      rcases g k hs with ⟨h1, -⟩ | ⟨x', y, h1, h2, -, h3, h4⟩
      · rw [h1] at hfx; simp at hfx
      · rw [h1] at hfx; simp at hfx; subst hfx
        obtain ⟨m', f', rfl, hl⟩ := h3 m e rfl
        obtain ⟨d', hd'⟩ := elems_get_of_length hl hf
        refine (hQ _ _ _).2 ⟨.struct d', by simp [Node.item, (filled_iff.1 h2).1, hd'], ?_⟩
        exact h4 m e m' f' i f d' rfl rfl hf hd' a hn hq1
  have len : ∀ {k : Name} {x y : Node (Val F)}, SameContents k x y → x.hasValue = true →
      ∀ m e, x = .aos m e → ∃ m' f, y = .aos m' f ∧ e.length = f.length := by
    rintro k x y hsc hv m e rfl
    obtain ⟨m', f, h1, h2, -⟩ := ((hsc [] (by simp [InVersionPut])).2 e.length).1
      ⟨m, e, rfl, rfl, by simp [Node.hasValue] at hv; omega⟩
    simp [Node.at] at h1
    exact ⟨m', f, h1, h2.symm⟩
  have symmSC : ∀ {k : Name} {x y : Node (Val F)}, SameContents k x y → SameContents k y x :=
    fun g a ha => ⟨fun v => ((g a ha).1 v).symm, fun j => ((g a ha).2 j).symm⟩
  intro a ha
  cases a with
  | nil =>
    constructor
    · intro v; constructor <;> (rintro ⟨l, h1, -⟩; simp [Node.at] at h1)
    · intro v; constructor <;> (rintro ⟨l, e, h1, -⟩; simp [Node.at] at h1)
  | cons s a =>
    constructor
    · intro v
      constructor
      · refine key c d (fun n a => ValueAt n a v) (fun n s a => valueAt_cons) (fun n a => valueAt_hasValue) ?_ s a ha
        intro k hk
        rcases g k hk with h1 | ⟨x, y, h1, h2, h3, h4⟩
        · exact .inl h1
        · exact .inr ⟨x, y, h1, h2, fun a ha => ((h3 a ha).1 v).1, len h3 (filled_iff.1 h1).2,
            fun m e m' f i c' d' hx hy hc hd a ha => ((h4 m e m' f i c' d' hx hy hc hd a ha).1 v).1⟩
      · refine key d c (fun n a => ValueAt n a v) (fun n s a => valueAt_cons) (fun n a => valueAt_hasValue) ?_ s a ha
        intro k hk
        rcases g k hk with ⟨h1, h2⟩ | ⟨x, y, h1, h2, h3, h4⟩
        · exact .inl ⟨h2, h1⟩
        · exact .inr ⟨y, x, h2, h1, fun a ha => ((h3 a ha).1 v).2, len (symmSC h3) (filled_iff.1 h2).2,
            fun m e m' f i c' d' hx hy hc hd a ha => ((h4 m' f m e i d' c' hy hx hd hc a ha).1 v).2⟩
    · intro v
      constructor
      · refine key c d (fun n a => SizeAt n a v) (fun n s a => sizeAt_cons) (fun n a => sizeAt_hasValue) ?_ s a ha
        intro k hk
        rcases g k hk with h1 | ⟨x, y, h1, h2, h3, h4⟩
        · exact .inl h1
        · exact .inr ⟨x, y, h1, h2, fun a ha => ((h3 a ha).2 v).1, len h3 (filled_iff.1 h1).2,
            fun m e m' f i c' d' hx hy hc hd a ha => ((h4 m e m' f i c' d' hx hy hc hd a ha).2 v).1⟩
      · refine key d c (fun n a => SizeAt n a v) (fun n s a => sizeAt_cons) (fun n a => sizeAt_hasValue) ?_ s a ha
        intro k hk
        rcases g k hk with ⟨h1, h2⟩ | ⟨x, y, h1, h2, h3, h4⟩
        · exact .inl ⟨h2, h1⟩
        · exact .inr ⟨y, x, h2, h1, fun a ha => ((h3 a ha).2 v).2, len (symmSC h3) (filled_iff.1 h2).2,
            fun m e m' f i c' d' hx hy hc hd a ha => ((h4 m' f m e i d' c' hy hx hd hc a ha).2 v).2⟩


theorem siblings_child {m : Meta} {k k' : Name} {c : MFields} {n : Name} {m' : Meta}
    (hm : m = .struct c ∨ m = .aos c) (hn : mget n c = some m') (hs : Siblings k k' m') :
    Siblings k k' m := by
  have : ∀ c : MFields, mget n c = some m' → SiblingsF k k' c := by
    intro c
    induction c using MFields.rec (motive_1 := fun _ => True) with
    | leaf => trivial
    | struct => trivial
    | aos => trivial
    | nil => intro g; simp [mget] at g
    | cons n' m1 r _ ih =>
      intro g
      simp only [mget] at g
      simp only [SiblingsF]
      split at g
      · simp at g; subst g; exact .inl hs
      · exact .inr (ih g)
  rcases hm with rfl | rfl <;> simp only [Siblings] <;> exact .inr (this c hn)

theorem hasName_of_get {c : Fields (Val F)} {m : MFields} (ht : TypedF c m) {k : Name}
    {x : Node (Val F)} (hk : c.get? k = some x) : HasName k m ∧ ∃ m', mget k m = some m' ∧ Typed x m' := by
  have hmem : ∀ m : MFields, ∀ m', mget k m = some m' → HasName k m := by
    intro m m'
    induction m using MFields.rec (motive_1 := fun _ => True) with
    | leaf => trivial
    | struct => trivial
    | aos => trivial
    | nil => intro g; simp [mget] at g
    | cons n' m1 r _ ih =>
      intro g
      simp only [mget] at g
      simp only [HasName]
      split at g
      · exact .inl ‹_›
      · exact .inr (ih g)
  have := typed_get ht k
  cases hm : mget k m with
  | none => rw [hm] at this; rw [this] at hk; simp at hk
  | some m' =>
    rw [hm] at this
    obtain ⟨y, hy, ty⟩ := this
    rw [hk] at hy; simp at hy; subst hy
    exact ⟨hmem m m' hm, m', rfl, ty⟩

theorem allFit_item {n x : Node (Val F)} {s : Name × Option Nat} (g : AllFit n)
    (hi : n.item s = some x) : AllFit x := by
  intro a l v ha
  exact g (s :: a) l v (by simp [Node.at, hi, ha])

/-- The values in a node and below its elements are of the right type. -/
def FitAll (n : Node (Val F)) : Prop :=
  AllFit n ∧ ∀ m e i c, n = .aos m e → e.get? i = some c → AllFit (.struct c)

theorem fitAll_get {c : Fields (Val F)} {k : Name} {x : Node (Val F)} (g : AllFit (.struct c))
    (hx : c.get? k = some x) : FitAll x := by
  refine ⟨allFit_item (s := (k, none)) g (by simp [Node.item, hx]), ?_⟩
  rintro m e i f rfl hf
  exact allFit_item (s := (k, some i)) g (by simp [Node.item, hx, hf])

theorem hash_same (x : Node (Val F)) : ∀ y m name b, Typed x m → Typed y m → WF x → WF y →
    FitAll x → FitAll y → NoCollision h (inputs h name x) (inputs h name y) →
    NoShift h m (inputs h name x) (inputs h name y) →
    (x.hasValue = true ∧ y.hasValue = true ∨ ∃ c d, x = .struct c ∧ y = .struct d) →
    hashNode h name x = some b → hashNode h name y = some b →
    SameContents name x y ∧ ∀ m e m' f i c' d', x = .aos m e → y = .aos m' f →
      e.get? i = some c' → f.get? i = some d' → SameContents name (.struct c') (.struct d') := by
  refine node_induct (fun x => ∀ y m name b, Typed x m → Typed y m → WF x → WF y →
    FitAll x → FitAll y → NoCollision h (inputs h name x) (inputs h name y) →
    NoShift h m (inputs h name x) (inputs h name y) →
    (x.hasValue = true ∧ y.hasValue = true ∨ ∃ c d, x = .struct c ∧ y = .struct d) →
    hashNode h name x = some b → hashNode h name y = some b →
    SameContents name x y ∧ ∀ m e m' f i c' d', x = .aos m e → y = .aos m' f →
      e.get? i = some c' → f.get? i = some d' → SameContents name (.struct c') (.struct d')) ?_ ?_ ?_ x
  · intro l v y m name b tx ty _ _ fx fy hc _ hv hx hy
    cases m with
    | struct => simp [Typed] at tx
    | aos => simp [Typed] at tx
    | leaf l0 =>
      cases y with
      | struct => simp [Typed] at ty
      | aos => simp [Typed] at ty
      | leaf l' w =>
        simp only [Typed] at tx ty; subst tx; subst ty
        refine ⟨?_, by intro _ _ _ _ _ _ _ g; simp at g⟩
        rcases hv with ⟨hv, hw⟩ | ⟨c, d, hc, -⟩
        · cases v with
          | none => simp [Node.hasValue, leafHasValue] at hv
          | some v =>
            cases w with
            | none => simp [Node.hasValue, leafHasValue] at hw
            | some w =>
              simp only [hashNode, readValue, Option.map_eq_some_iff] at hx hy
              simp only [inputs, readValue] at hc
              obtain ⟨p, hp, rfl⟩ := hx
              obtain ⟨p', hp', e⟩ := hy
              have : p = p' := hc p (by simp [valInputs, hp]) p' (by simp [valInputs, hp']) e.symm
              subst this
              have := valBytes_inj h (fx.1 [] _ v rfl) (fy.1 [] _ w rfl) hp hp' hc
              subst this
              intro a _; exact ⟨fun _ => Iff.rfl, fun _ => Iff.rfl⟩
        · simp at hc
  · intro c ih y m name b tx ty wx wy fx fy hc hn hv hx hy
    cases m with
    | leaf => simp [Typed] at tx
    | aos => simp [Typed] at tx
    | struct m =>
      cases y with
      | leaf => simp [Typed] at ty
      | aos => simp [Typed] at ty
      | struct d =>
        simp only [Typed] at tx ty
        simp only [WF] at wx wy
        refine ⟨?_, by intro _ _ _ _ _ _ _ g; simp at g⟩
        simp only [hashNode, Option.map_eq_some_iff] at hx hy
        obtain ⟨p, hp, rfl⟩ := hx
        obtain ⟨p', hp', e⟩ := hy
        have : p = p' := hc p (by simp [inputs, hp]) p' (by simp [inputs, hp']) e.symm
        subst this
        -- members of the lists of children
        have mem : ∀ (c : Fields (Val F)), WFFields c → ∀ q, q ∈ (hashKids h (skips name) c).mergeSort
            (fun a b => leName a.1 b.1) ↔ ∃ x, filled c q.1 = some x ∧ ¬ Skip (skips name) q.1 ∧
              q.2 = hashNode h q.1 x := by
          intro c hw q
          rw [List.mem_mergeSort]
          exact mem_hashKids h _ c hw q.1 q.2
        have hL := decode _ _ p
          (fun q hq d hd => by
            obtain ⟨x, -, -, h3⟩ := (mem c wx q).1 hq
            exact hash_length h q.1 x (h3.symm.trans hd))
          (fun q hq d' hd => by
            obtain ⟨x, -, -, h3⟩ := (mem d wy q).1 hq
            exact hash_length h q.1 x (h3.symm.trans hd))
          (fun q hq q' hq' e1 e2 he1 he2 r hr => by
            obtain ⟨x, h1, h2, h3⟩ := (mem c wx q).1 hq
            obtain ⟨y, h1', h2', h3'⟩ := (mem d wy q').1 hq'
            obtain ⟨i1, hi1, rfl⟩ := hash_input h q.1 x (h3.symm.trans he1)
            obtain ⟨i2, hi2, rfl⟩ := hash_input h q'.1 y (h3'.symm.trans he2)
            have s1 : i1 ∈ inputs h name (.struct c) := by
              simp only [inputs]
              exact List.mem_append_right _ (inputsF_sub h _ c wx h1 h2 i1 hi1)
            have s2 : i2 ∈ inputs h name (.struct d) := by
              simp only [inputs]
              exact List.mem_append_right _ (inputsF_sub h _ d wy h1' h2' i2 hi2)
            have n1 := (hasName_of_get tx (filled_iff.1 h1).1).1
            have n2 := (hasName_of_get ty (filled_iff.1 h1').1).1
            refine ⟨fun e => ?_, fun e => ?_⟩
            · rw [e] at n2
              exact (hn q.1 r hr (by simp only [Siblings]; exact .inl ⟨n1, n2⟩) i1 s1 i2 s2).1
            · rw [e] at n1
              exact (hn q'.1 r hr (by simp only [Siblings]; exact .inl ⟨n2, n1⟩) i1 s1 i2 s2).2)
          hp hp'
        apply sameContents_of_children
        intro k hk
        have trans : ∀ x, filled c k = some x → ∃ y, filled d k = some y ∧ hashNode h k x = hashNode h k y := by
          intro x hx
          have := (mem c wx (k, hashNode h k x)).2 ⟨x, hx, hk, rfl⟩
          rw [hL] at this
          obtain ⟨y, h1, -, h3⟩ := (mem d wy _).1 this
          exact ⟨y, h1, h3⟩
        cases hfc : filled c k with
        | none =>
          left
          refine ⟨rfl, ?_⟩
          cases hfd : filled d k with
          | none => rfl
          | some y =>
            have := (mem d wy (k, hashNode h k y)).2 ⟨y, hfd, hk, rfl⟩
            rw [← hL] at this
            obtain ⟨x, h1, -, h3⟩ := (mem c wx _).1 this
            simp only at h1
            rw [hfc] at h1; simp at h1
        | some x =>
          right
          obtain ⟨y, hy, hh⟩ := trans x hfc
          obtain ⟨-, m', hm', tx'⟩ := hasName_of_get tx (filled_iff.1 hfc).1
          obtain ⟨-, m2, hm2, ty'⟩ := hasName_of_get ty (filled_iff.1 hy).1
          rw [hm'] at hm2; simp at hm2; subst hm2
          have sub1 : ∀ b ∈ inputs h k x, b ∈ inputs h name (.struct c) := fun b hb => by
            simp only [inputs]
            exact List.mem_append_right _ (inputsF_sub h _ c wx hfc hk b hb)
          have sub2 : ∀ b ∈ inputs h k y, b ∈ inputs h name (.struct d) := fun b hb => by
            simp only [inputs]
            exact List.mem_append_right _ (inputsF_sub h _ d wy hy hk b hb)
          -- the child's hash exists because the structure's does
          have hex : ∃ b, hashNode h k x = some b := by
            have hin := (mem c wx (k, hashNode h k x)).2 ⟨x, hfc, hk, rfl⟩
            have : ∀ (L : List (Name × Option Bytes)) p, catO (L.map fun p => p.2.map (utf8 p.1 ++ ·)) = some p →
                ∀ q ∈ L, ∃ b, q.2 = some b := by
              intro L
              induction L with
              | nil => intro p _ q hq; simp at hq
              | cons a L ihL =>
                intro p hp q hq
                obtain ⟨u, w, h1, h2, -⟩ := catO_cons hp
                rcases List.mem_cons.1 hq with rfl | hq
                · simp only [Option.map_eq_some_iff] at h1
                  obtain ⟨b, hb, -⟩ := h1
                  exact ⟨b, hb⟩
                · exact ihL w h2 q hq
            exact this _ p hp _ hin
          obtain ⟨b, hb⟩ := hex
          obtain ⟨r1, r2⟩ := ih k x hfc y m' k b tx' ty' (wf_get wx (filled_iff.1 hfc).1)
            (wf_get wy (filled_iff.1 hy).1) (fitAll_get fx.1 (filled_iff.1 hfc).1)
            (fitAll_get fy.1 (filled_iff.1 hy).1)
            (fun b hb b' hb' => hc b (sub1 b hb) b' (sub2 b' hb'))
            (fun j r hr hsib b hb b' hb' => hn j r hr (siblings_child (.inl rfl) hm' hsib) b (sub1 b hb) b' (sub2 b' hb'))
            (.inl ⟨(filled_iff.1 hfc).2, (filled_iff.1 hy).2⟩) hb (hh ▸ hb)
          exact ⟨x, y, rfl, hy, r1, r2⟩
  · intro mm e ih y m name b tx ty wx wy fx fy hc hn hv hx hy
    cases m with
    | leaf => simp [Typed] at tx
    | struct => simp [Typed] at tx
    | aos m =>
      cases y with
      | leaf => simp [Typed] at ty
      | struct => simp [Typed] at ty
      | aos mm' f =>
        simp only [Typed] at tx ty
        simp only [WF] at wx wy
        simp only [hashNode, Option.map_eq_some_iff] at hx hy
        obtain ⟨p, hp, rfl⟩ := hx
        obtain ⟨p', hp', e2⟩ := hy
        have : p = p' := hc p (by simp [inputs, hp]) p' (by simp [inputs, hp']) e2.symm
        subst this
        obtain ⟨u, w, h1, h2, e3⟩ := catO_cons hp
        obtain ⟨u', w', h1', h2', e3'⟩ := catO_cons hp'
        obtain ⟨rfl, rfl⟩ := List.append_inj (e3.symm.trans e3')
          ((natBytes_length h1).trans (natBytes_length h1').symm)
        have hl := natBytes_inj h1 h1'
        have hlen : ∀ (e : Elems (Val F)), ∀ a ∈ hashElems h name e, ∀ b, a = some b → b.length = 8 := by
          rintro e a ha b rfl
          obtain ⟨i, hi⟩ := List.mem_iff_getElem?.1 ha
          rw [hashElems_get, Option.map_eq_some_iff] at hi
          obtain ⟨c, -, hc⟩ := hi
          exact hash_length h name _ hc
        have hE := catO_some_inj (w := 8) _ _ (by rw [hashElems_length, hashElems_length, hl])
          (hlen e) (hlen f) h2 h2'
        have hex : ∀ (L : List (Option Bytes)) p, catO L = some p → ∀ q ∈ L, ∃ b, q = some b := by
          intro L
          induction L with
          | nil => intro p _ q hq; simp at hq
          | cons a L ihL =>
            intro p hp q hq
            obtain ⟨u, w, h1, h2, -⟩ := catO_cons hp
            rcases List.mem_cons.1 hq with rfl | hq
            · exact ⟨u, h1⟩
            · exact ihL w h2 q hq
        constructor
        · intro a ha
          cases a with
          | nil =>
            constructor
            · intro v; constructor <;> (rintro ⟨l, h1, -⟩; simp [Node.at] at h1)
            · intro v
              constructor
              · rintro ⟨m1, e1, g1, g2, g3⟩
                simp [Node.at] at g1; obtain ⟨rfl, rfl⟩ := g1
                exact ⟨mm', f, rfl, hl ▸ g2, g3⟩
              · rintro ⟨m1, e1, g1, g2, g3⟩
                simp [Node.at] at g1; obtain ⟨rfl, rfl⟩ := g1
                exact ⟨mm, e, rfl, hl ▸ g2, g3⟩
          | cons s a =>
            constructor
            · intro v; constructor <;> (rintro ⟨l, h1, -⟩; simp [Node.at, Node.item] at h1)
            · intro v; constructor <;> (rintro ⟨l, e, h1, -⟩; simp [Node.at, Node.item] at h1)
        · rintro m1 e1 m2 f1 i c d hx1 hy1 hci hdi
          simp at hx1 hy1
          obtain ⟨rfl, rfl⟩ := hx1
          obtain ⟨rfl, rfl⟩ := hy1
          have q1 : (hashElems h name e)[i]? = some (hashNode h name (.struct c)) := by
            rw [hashElems_get, hci]; rfl
          have q2 : (hashElems h name f)[i]? = some (hashNode h name (.struct d)) := by
            rw [hashElems_get, hdi]; rfl
          rw [hE, q2] at q1
          simp only [Option.some.injEq] at q1
          obtain ⟨b, hb⟩ := hex _ _ h2' _ (List.mem_iff_getElem?.2 ⟨i, q2⟩)
          have sub1 : ∀ b ∈ inputs h name (.struct c), b ∈ inputs h name (.aos mm e) := fun b hb => by
            have := inputsE_sub h name e hci b hb
            simp only [inputs] at this ⊢
            exact List.mem_append_right _ this
          have sub2 : ∀ b ∈ inputs h name (.struct d), b ∈ inputs h name (.aos mm' f) := fun b hb => by
            have := inputsE_sub h name f hdi b hb
            simp only [inputs] at this ⊢
            exact List.mem_append_right _ this
          refine (ih i c hci (.struct d) (.struct m) name b ?_ ?_ ?_ ?_ ?_ ?_
            (fun b hb b' hb' => hc b (sub1 b hb) b' (sub2 b' hb'))
            (fun j r hr hsib b hb b' hb' => hn j r hr ?_ b (sub1 b hb) b' (sub2 b' hb'))
            (.inr ⟨c, d, rfl, rfl⟩) (q1 ▸ hb) hb).1
          · simpa only [Typed] using typed_elem tx.2 hci
          · simpa only [Typed] using typed_elem ty.2 hdi
          · simpa only [WF] using wf_elem wx.2 hci
          · simpa only [WF] using wf_elem wy.2 hdi
          · exact ⟨fx.2 mm e i c rfl hci, by intro _ _ _ _ g; simp at g⟩
          · exact ⟨fy.2 mm' f i d rfl hdi, by intro _ _ _ _ g; simp at g⟩
          · simpa only [Siblings] using hsib

end Verif.Ids
