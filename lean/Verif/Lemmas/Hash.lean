import Verif.Lemmas.HashBytes
import Verif.Lemmas.DiffAddr
import Verif.Spec.Hash
set_option linter.unusedSectionVars false
namespace Verif.Ids
open Verif.TreeSpec Verif.DiffSpec Verif.HashSpec

variable {F : Type} [FloatModel F] (h : Hasher F)

/-- The child `k` is left out of the digest. -/
def Skip (skip : Bool) (k : Name) : Prop := skip = true ∧ k = "version_put".toList

theorem hashKids_names (skip : Bool) (c : Fields (Val F)) :
    ∀ p ∈ hashKids h skip c, p.1 ∈ c.names := by
  cases c with
  | nil => simp [hashKids]
  | absent n m r =>
    intro p hp
    simp only [hashKids] at hp
    simp [Fields.names, hashKids_names skip r p hp]
  | present n x r =>
    intro p hp
    simp only [hashKids] at hp
    split at hp
    · rcases List.mem_cons.1 hp with rfl | hp
      · simp [Fields.names]
      · simp [Fields.names, hashKids_names skip r p hp]
    · simp [Fields.names, hashKids_names skip r p hp]

theorem hashKids_nodup (skip : Bool) (c : Fields (Val F)) (hw : WFFields c) :
    ((hashKids h skip c).map (·.1)).Nodup := by
  cases c with
  | nil => simp [hashKids]
  | absent n m r => simp only [WFFields] at hw; simpa [hashKids] using hashKids_nodup skip r hw.2.2
  | present n x r =>
    simp only [WFFields] at hw
    simp only [hashKids]
    split
    · simp only [List.map_cons, List.nodup_cons]
      refine ⟨?_, hashKids_nodup skip r hw.2.2⟩
      intro g
      obtain ⟨p, h1, h2⟩ := List.mem_map.1 g
      exact hw.1 (h2 ▸ hashKids_names h skip r p h1)
    · exact hashKids_nodup skip r hw.2.2

theorem filled_absent {n : Name} {m : Meta} {r : Fields (Val F)} (hn : n ∉ r.names) (k : Name) :
    filled (.absent n m r) k = filled r k := by
  by_cases e : k = n
  · subst e
    rw [filled_not_name hn, filled_none]
    intro x hx; simp [Fields.get?] at hx; subst hx; exact fresh_hasValue m
  · simp [filled, Fields.get?, e]

theorem filled_present {n : Name} {x : Node (Val F)} {r : Fields (Val F)} (hn : n ∉ r.names)
    {k : Name} {y : Node (Val F)} :
    filled (.present n x r) k = some y ↔ (k = n ∧ y = x ∧ x.hasValue = true) ∨ filled r k = some y := by
  by_cases e : k = n
  · subst e
    rw [filled_not_name hn, filled_iff]
    simp only [Fields.get?, if_true]
    constructor
    · rintro ⟨h1, h2⟩; simp at h1; subst h1; exact .inl ⟨trivial, rfl, h2⟩
    · rintro (⟨-, rfl, h2⟩ | g)
      · exact ⟨rfl, h2⟩
      · simp at g
  · simp [filled, Fields.get?, e]

theorem mem_hashKids (skip : Bool) (c : Fields (Val F)) (hw : WFFields c) (k : Name)
    (o : Option Bytes) :
    (k, o) ∈ hashKids h skip c ↔
      ∃ x, filled c k = some x ∧ ¬ Skip skip k ∧ o = hashNode h k x := by
  cases c with
  | nil => simp [hashKids, filled, Fields.get?]
  | absent n m r =>
    simp only [WFFields] at hw
    simp only [hashKids, mem_hashKids skip r hw.2.2, filled_absent hw.1]
  | present n x r =>
    simp only [WFFields] at hw
    have hs : (x.hasValue && !(skip && decide (n = "version_put".toList))) = true ↔
        x.hasValue = true ∧ ¬ Skip skip n := by
      simp only [Skip, Bool.and_eq_true, Bool.not_eq_true', Bool.and_eq_false_iff, decide_eq_false_iff_not]
      constructor
      · rintro ⟨h1, h2⟩
        refine ⟨h1, ?_⟩
        rintro ⟨h3, h4⟩
        rcases h2 with h2 | h2
        · rw [h2] at h3; simp at h3
        · exact h2 h4
      · rintro ⟨h1, h2⟩
        refine ⟨h1, ?_⟩
        cases skip with
        | false => exact .inl rfl
        | true => exact .inr (fun e => h2 ⟨rfl, e⟩)
    simp only [hashKids, filled_present hw.1]
    by_cases hc : x.hasValue = true ∧ ¬ Skip skip n
    · rw [if_pos (hs.2 hc)]
      simp only [List.mem_cons, Prod.mk.injEq, mem_hashKids skip r hw.2.2]
      constructor
      · rintro (⟨rfl, rfl⟩ | ⟨y, h1, h2, h3⟩)
        · exact ⟨x, .inl ⟨rfl, rfl, hc.1⟩, hc.2, rfl⟩
        · exact ⟨y, .inr h1, h2, h3⟩
      · rintro ⟨y, (⟨rfl, rfl, -⟩ | h1), h2, h3⟩
        · exact .inl ⟨rfl, h3⟩
        · exact .inr ⟨y, h1, h2, h3⟩
    · rw [if_neg (fun g => hc (hs.1 g))]
      simp only [mem_hashKids skip r hw.2.2]
      constructor
      · rintro ⟨y, h1, h2, h3⟩; exact ⟨y, .inr h1, h2, h3⟩
      · rintro ⟨y, (⟨rfl, rfl, hv⟩ | h1), h2, h3⟩
        · exact absurd ⟨hv, h2⟩ hc
        · exact ⟨y, h1, h2, h3⟩

theorem inputsF_sub (skip : Bool) (c : Fields (Val F)) (hw : WFFields c) {k : Name}
    {x : Node (Val F)} (hx : filled c k = some x) (hk : ¬ Skip skip k) :
    ∀ b ∈ inputs h k x, b ∈ inputsF h skip c := by
  cases c with
  | nil => simp [filled, Fields.get?] at hx
  | absent n m r =>
    simp only [WFFields] at hw
    rw [filled_absent hw.1] at hx
    simp only [inputsF]; exact inputsF_sub skip r hw.2.2 hx hk
  | present n y r =>
    simp only [WFFields] at hw
    intro b hb
    simp only [inputsF]
    rcases (filled_present hw.1).1 hx with ⟨rfl, rfl, hv⟩ | g
    · have : (skip && decide (k = "version_put".toList)) = false := by
        cases skip with
        | false => rfl
        | true => simp only [Bool.true_and, decide_eq_false_iff_not]; exact fun e => hk ⟨rfl, e⟩
      rw [if_pos (by rw [hv, this]; rfl)]
      exact List.mem_append_left _ hb
    · have := inputsF_sub skip r hw.2.2 g hk b hb
      split
      · exact List.mem_append_right _ this
      · exact this

theorem inputsE_sub (name : Name) (e : Elems (Val F)) {i : Nat} {c : Fields (Val F)}
    (hc : e.get? i = some c) : ∀ b ∈ inputs h name (.struct c), b ∈ inputsE h name e := by
  cases e with
  | nil => simp [Elems.get?] at hc
  | cons d r =>
    intro b hb
    simp only [inputsE]
    cases i with
    | zero =>
      simp [Elems.get?] at hc; subst hc
      simp only [inputs] at hb
      exact List.mem_append_left _ hb
    | succ i => exact List.mem_append_right _ (inputsE_sub name r hc b hb)

theorem hash_input (name : Name) (x : Node (Val F)) {d : Bytes} (hd : hashNode h name x = some d) :
    ∃ b ∈ inputs h name x, d = h.H b := by
  cases x with
  | leaf l v =>
    simp only [hashNode, Option.map_eq_some_iff] at hd
    obtain ⟨b, h1, rfl⟩ := hd
    exact ⟨b, by simp [inputs, valInputs, h1], rfl⟩
  | struct c =>
    simp only [hashNode, Option.map_eq_some_iff] at hd
    obtain ⟨b, h1, rfl⟩ := hd
    exact ⟨b, by simp [inputs, h1], rfl⟩
  | aos m e =>
    simp only [hashNode, Option.map_eq_some_iff] at hd
    obtain ⟨b, h1, rfl⟩ := hd
    exact ⟨b, by simp [inputs, h1], rfl⟩

theorem hash_length (name : Name) (x : Node (Val F)) {d : Bytes} (hd : hashNode h name x = some d) :
    d.length = 8 := by
  obtain ⟨b, -, rfl⟩ := hash_input h name x hd
  exact h.H_length b

theorem hashElems_length (name : Name) (e : Elems (Val F)) : (hashElems h name e).length = e.length := by
  cases e with
  | nil => simp [hashElems, Elems.length]
  | cons c r => simp [hashElems, Elems.length, hashElems_length name r]

theorem hashElems_get (name : Name) (e : Elems (Val F)) (i : Nat) :
    (hashElems h name e)[i]? = (e.get? i).map fun c => hashNode h name (.struct c) := by
  cases e with
  | nil => simp [hashElems, Elems.get?]
  | cons c r =>
    cases i with
    | zero => simp [hashElems, Elems.get?, hashNode]
    | succ i => simp [hashElems, Elems.get?, hashElems_get name r i]

/-! ### Same contents, same hash -/

theorem not_inVP_cons {name : Name} {s : Name × Option Nat} {a : Addr} :
    ¬ InVersionPut name (s :: a) ↔ ¬ Skip (skips name) s.1 ∧ ¬ InVersionPut s.1 a := by
  simp only [InVersionPut, not_or, Skip, skips, decide_eq_true_eq]

theorem sameContents_item {name : Name} {x y x' y' : Node (Val F)} {s : Name × Option Nat}
    (hs : ¬ Skip (skips name) s.1) (hx : x.item s = some x') (hy : y.item s = some y')
    (g : SameContents name x y) : SameContents s.1 x' y' := by
  intro a ha
  have := g (s :: a) (not_inVP_cons.2 ⟨hs, ha⟩)
  simpa [valueAt_cons, sizeAt_cons, hx, hy] using this

theorem kept_item {name : Name} {x x' : Node (Val F)} {s : Name × Option Nat}
    (hs : ¬ Skip (skips name) s.1) (hx : x.item s = some x') (g : Kept name x) : Kept s.1 x' := by
  intro a y ha hv hn
  obtain ⟨b, h1, h2⟩ := g (s :: a) y (by simp [Node.at, hx, ha]) hv (not_inVP_cons.2 ⟨hs, hn⟩)
  rw [List.cons_append] at h1 h2
  refine ⟨b, (not_inVP_cons.1 h1).2, ?_⟩
  simpa [valueAt_cons, sizeAt_cons, hx] using h2

def Same3 (name : Name) (x y : Node (Val F)) : Prop :=
  SameContents name x y ∧ Kept name x ∧ Kept name y

def SameAll (name : Name) (x y : Node (Val F)) : Prop :=
  Same3 name x y ∧ ∀ m e m' f i c d, x = .aos m e → y = .aos m' f →
    e.get? i = some c → f.get? i = some d → Same3 name (.struct c) (.struct d)

theorem same3_item {name : Name} {x y x' y' : Node (Val F)} {s : Name × Option Nat}
    (hs : ¬ Skip (skips name) s.1) (hx : x.item s = some x') (hy : y.item s = some y')
    (g : Same3 name x y) : Same3 s.1 x' y' :=
  ⟨sameContents_item hs hx hy g.1, kept_item hs hx g.2.1, kept_item hs hy g.2.2⟩

theorem sameAll_get {name : Name} {c d : Fields (Val F)} {k : Name} {x y : Node (Val F)}
    (hs : ¬ Skip (skips name) k) (hx : c.get? k = some x) (hy : d.get? k = some y)
    (g : Same3 name (.struct c) (.struct d)) : SameAll k x y := by
  refine ⟨same3_item (s := (k, none)) hs (by simp [Node.item, hx]) (by simp [Node.item, hy]) g, ?_⟩
  rintro m e m' f i c' d' rfl rfl hc hd
  exact same3_item (s := (k, some i)) hs (by simp [Node.item, hx, hc]) (by simp [Node.item, hy, hd]) g

/-- A filled, hashed child of one side is filled on the other. -/
theorem filled_transfer {name : Name} {c d : Fields (Val F)} {k : Name} {x : Node (Val F)}
    (hs : ¬ Skip (skips name) k) (hx : filled c k = some x) (hk : Kept name (.struct c))
    (g : ∀ a, ¬ InVersionPut name a → (∀ v, ValueAt (.struct c) a v → ValueAt (.struct d) a v) ∧
      (∀ j, SizeAt (.struct c) a j → SizeAt (.struct d) a j)) :
    ∃ y, filled d k = some y := by
  obtain ⟨hx1, hx2⟩ := filled_iff.1 hx
  obtain ⟨b, h1, h2⟩ := hk [(k, none)] x (by simp [Node.at, Node.item, hx1]) hx2
    (not_inVP_cons.2 ⟨hs, by simp [InVersionPut]⟩)
  have hitem : ∀ {y}, (Node.struct d).item (k, none) = some y → d.get? k = some y := by
    intro y hy
    obtain ⟨c', e, hh | ⟨i, m, e', f, hi, -⟩⟩ := item_cases hy
    · simp at e; subst e; exact hh.2
    · simp at hi
  rcases h2 with ⟨v, hv⟩ | ⟨j, hj⟩
  · have := (g _ h1).1 v hv
    rw [List.singleton_append] at this
    obtain ⟨y, hy, hyv⟩ := valueAt_cons.1 this
    exact ⟨y, filled_iff.2 ⟨hitem hy, valueAt_hasValue hyv⟩⟩
  · have := (g _ h1).2 j hj
    rw [List.singleton_append] at this
    obtain ⟨y, hy, hyv⟩ := sizeAt_cons.1 this
    exact ⟨y, filled_iff.2 ⟨hitem hy, sizeAt_hasValue hyv⟩⟩

theorem same_hash (x : Node (Val F)) : ∀ y name, WF x → WF y → SameAll name x y →
    (x.hasValue = true ∧ y.hasValue = true ∨ ∃ c d, x = .struct c ∧ y = .struct d) →
    hashNode h name x = hashNode h name y := by
  refine node_induct (fun x => ∀ y name, WF x → WF y → SameAll name x y →
    (x.hasValue = true ∧ y.hasValue = true ∨ ∃ c d, x = .struct c ∧ y = .struct d) →
    hashNode h name x = hashNode h name y) ?_ ?_ ?_ x
  · intro l v y name _ _ g hv
    rcases hv with ⟨hv, -⟩ | ⟨c, d, hc, -⟩
    · cases v with
      | none => simp [Node.hasValue, leafHasValue] at hv
      | some v =>
        obtain ⟨l', h1, h2⟩ := ((g.1.1 [] (by simp [InVersionPut])).1 v).1
          ⟨l, rfl, by simpa [Node.hasValue, leafHasValue] using hv⟩
        simp [Node.at] at h1; subst h1
        simp [hashNode, readValue]
    · simp at hc
  · intro c ih y name wx wy g hv
    cases y with
    | leaf l v =>
      exfalso
      rcases hv with ⟨-, hv⟩ | ⟨c, d, -, hd⟩
      · cases v with
        | none => simp [Node.hasValue, leafHasValue] at hv
        | some v =>
          obtain ⟨l', h1, h2⟩ := ((g.1.1 [] (by simp [InVersionPut])).1 v).2
            ⟨l, rfl, by simpa [Node.hasValue, leafHasValue] using hv⟩
          simp [Node.at] at h1
      · simp at hd
    | aos m e =>
      exfalso
      rcases hv with ⟨-, hv⟩ | ⟨c, d, -, hd⟩
      · obtain ⟨m', e', h1, h2⟩ := ((g.1.1 [] (by simp [InVersionPut])).2 e.length).2
          ⟨m, e, rfl, rfl, by simp [Node.hasValue] at hv; omega⟩
        simp [Node.at] at h1
      · simp at hd
    | struct d =>
      simp only [WF] at wx wy
      simp only [hashNode]
      congr 1
      simp only [structBytes]
      congr 2
      have key : ∀ {c d : Fields (Val F)} {k : Name} {x : Node (Val F)},
          Same3 name (.struct c) (.struct d) → ¬ Skip (skips name) k → filled c k = some x →
          ∃ y, filled d k = some y := by
        intro c d k x g hs hx
        exact filled_transfer hs hx g.2.1 (fun a ha => ⟨fun v => ((g.1 a ha).1 v).1, fun j => ((g.1 a ha).2 j).1⟩)
      have symm : Same3 name (.struct d) (.struct c) :=
        ⟨fun a ha => ⟨fun v => ((g.1.1 a ha).1 v).symm, fun j => ((g.1.1 a ha).2 j).symm⟩, g.1.2.2, g.1.2.1⟩
      have heq : ∀ k x y, ¬ Skip (skips name) k → filled c k = some x → filled d k = some y →
          hashNode h k x = hashNode h k y := by
        intro k x y hs hx hy
        exact ih k x hx y k (wf_get wx (filled_iff.1 hx).1) (wf_get wy (filled_iff.1 hy).1)
          (sameAll_get hs (filled_iff.1 hx).1 (filled_iff.1 hy).1 g.1)
          (.inl ⟨(filled_iff.1 hx).2, (filled_iff.1 hy).2⟩)
      apply sort_eq _ _ (hashKids_nodup h _ c wx) (hashKids_nodup h _ d wy)
      rintro ⟨k, o⟩
      rw [mem_hashKids h _ c wx, mem_hashKids h _ d wy]
      constructor
      · rintro ⟨x, h1, h2, rfl⟩
        obtain ⟨y, hy⟩ := key g.1 h2 h1
        exact ⟨y, hy, h2, heq k x y h2 h1 hy⟩
      · rintro ⟨y, h1, h2, rfl⟩
        obtain ⟨x, hx⟩ := key symm h2 h1
        exact ⟨x, hx, h2, (heq k x y h2 hx h1).symm⟩
  · intro m e ih y name wx wy g hv
    rcases hv with ⟨hv, -⟩ | ⟨c, d, hc, -⟩
    · obtain ⟨m', f, h1, h2, -⟩ := ((g.1.1 [] (by simp [InVersionPut])).2 e.length).1
        ⟨m, e, rfl, rfl, by simp [Node.hasValue] at hv; omega⟩
      simp [Node.at] at h1; subst h1
      simp only [WF] at wx wy
      have : hashElems h name e = hashElems h name f := by
        apply List.ext_getElem?
        intro i
        rw [hashElems_get, hashElems_get]
        cases hc : e.get? i with
        | none =>
          cases hd : f.get? i with
          | none => rfl
          | some d => obtain ⟨c, hc'⟩ := elems_get_of_length h2 hd; rw [hc] at hc'; simp at hc'
        | some c =>
          obtain ⟨d, hd⟩ := elems_get_of_length h2.symm hc
          rw [hd]
          simp only [Option.map_some, Option.some.injEq]
          refine ih i c hc (.struct d) name ?_ ?_ ⟨g.2 m e m' f i c d rfl rfl hc hd, ?_⟩ (.inr ⟨c, d, rfl, rfl⟩)
          · simpa only [WF] using wf_elem wx.2 hc
          · simpa only [WF] using wf_elem wy.2 hd
          · intro _ _ _ _ _ _ _ g; simp at g
      simp only [hashNode, this, h2]
    · simp at hc

end Verif.Ids
