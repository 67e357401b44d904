import Verif.Lemmas.ConvertApart
/-
Conversions between equal dictionaries succeed.
-/
set_option linter.unusedSectionVars false
namespace Verif.Convert
open Verif.Ids Verif.TreeSpec Verif.ConvertSpec Verif.DiffSpec

variable {V : Type} [Value V]

theorem writeAt_success {f : Node V → Except ConvErr (Node V)} (hk : KeepsStruct f) {root x y : Node V}
    {a : Addr} (hx : root.at a = some x) (hy : f x = .ok y) : ∃ root', writeAt root a f = .ok root' := by
  obtain ⟨r, hr⟩ := (modify_exists (f := f)).2 ⟨x, hx⟩
  unfold writeAt
  rw [hr]
  cases r with
  | ok z => exact ⟨z, rfl⟩
  | error e =>
    obtain ⟨x', h1, h2⟩ := modify_error hr
    rw [hx] at h1; cases h1
    rw [hy] at h2; simp at h2

/-- Writes strictly below `t` keep the structures above and at `t`, and the lengths of the arrays on
the way. -/
structure Kept (t : Addr) (root root' : Node V) : Prop where
  struct : ∀ s r, t = s ++ r → ∀ g, root.at s = some (.struct g) → ∃ g', root'.at s = some (.struct g')
  array : ∀ p n i r, t = p ++ (n, some i) :: r → ∀ m e, root.at (p ++ [(n, none)]) = some (.aos m e) →
    ∃ e', root'.at (p ++ [(n, none)]) = some (.aos m e') ∧ e'.length = e.length

theorem Kept.refl (t : Addr) (root : Node V) : Kept t root root :=
  ⟨fun _ _ _ g h => ⟨g, h⟩, fun _ _ _ _ _ _ e h => ⟨e, h, rfl⟩⟩

theorem Kept.trans {t : Addr} {a b c : Node V} (h1 : Kept t a b) (h2 : Kept t b c) : Kept t a c := by
  constructor
  · intro s r e g hg
    obtain ⟨g', hg'⟩ := h1.struct s r e g hg
    exact h2.struct s r e g' hg'
  · intro p n i r e m el hel
    obtain ⟨e', h3, h4⟩ := h1.array p n i r e m el hel
    obtain ⟨e'', h5, h6⟩ := h2.array p n i r e m e' h3
    exact ⟨e'', h5, h6.trans h4⟩

theorem Kept.above {t u : Addr} {a b : Node V} (h : Kept (t ++ u) a b) : Kept t a b := by
  constructor
  · intro s r e g hg
    exact h.struct s (r ++ u) (by rw [e]; simp) g hg
  · intro p n i r e m el hel
    exact h.array p n i (r ++ u) (by rw [e]; simp) m el hel

theorem modify_above {f : Node V → Except ConvErr (Node V)} (hk : KeepsStruct f) {s r : Addr}
    {n n' : Node V} {g : Fields V} (hg : n.at s = some (.struct g))
    (h : n.modify f (s ++ r) = some (.ok n')) : ∃ g', n'.at s = some (.struct g') := by
  induction s generalizing n n' with
  | nil =>
    simp [Node.at] at hg; subst hg
    obtain ⟨g', rfl⟩ := modify_struct hk h
    exact ⟨g', rfl⟩
  | cons t s ih =>
    obtain ⟨x, x', h1, h2, h3⟩ := modify_cons hk h
    simp only [Node.at, h1, Option.bind_some] at hg
    obtain ⟨g', h4⟩ := ih hg h2
    exact ⟨g', by simp [Node.at, h3, h4]⟩

theorem kept_writeAt {f : Node V → Except ConvErr (Node V)} (hk : KeepsStruct f) {t : Addr}
    {root root' : Node V} (h : writeAt root t f = .ok root') : Kept t root root' := by
  have hm := writeAt_ok h
  constructor
  · intro s r e g hg
    rw [e] at hm
    exact modify_above hk hg hm
  · intro p n i r e m el hel
    rw [e] at hm
    obtain ⟨m', e1, e2, h1, h2, h3⟩ := modify_inside hk hm
    rw [h1] at hel; cases hel
    exact ⟨e2, h2, h3⟩

/-- The map between equal dictionaries: nothing was renamed, no types changed. -/
def sameVersion (store : LeafMeta → V → Except ConvErr (Option V)) : Cfg V :=
  ⟨fun _ => none, fun _ => none, fun _ => none, store⟩

/-- Values of the source can be assigned to nodes of their own type. -/
def Storable (store : LeafMeta → V → Except ConvErr (Option V)) (x : Node V) : Prop :=
  ∀ A l v, x.at A = some (.leaf l (some v)) → Value.isEmpty v = false → ∃ w, store l v = .ok w

theorem resizeNode_aos (k : Nat) (m : MFields) (e : Elems V) :
    resizeNode k (.aos m e) = .ok (.aos m (.ofList (List.replicate k m.fresh))) := by
  have : ∃ y, resizeNode k (.aos m e) = .ok y := by
    unfold resizeNode aosResize
    simp only [Bool.false_eq_true, if_false]
    cases k with
    | zero => exact ⟨_, rfl⟩
    | succ k =>
      have h1 : ¬ ((k + 1 : Nat) : Int) < 0 := by omega
      have h2 : ((k + 1 : Nat) : Int) > (([] : List (Fields V)).length : Int)   := by simp
      simp only [h1, if_false, h2, if_true]
      exact ⟨_, rfl⟩
  obtain ⟨y, hy⟩ := this
  obtain ⟨m', e', h1, h2⟩ := resizeNode_ok hy
  cases h1
  rw [hy, h2]

theorem ofList_replicate_some {k i : Nat} (c : Fields V) (h : i < k) :
    (Elems.ofList (List.replicate k c)).get? i = some c := by
  rw [← Elems.get?_toList, Elems.toList_ofList]
  simp [h]

theorem get_some_of_lt {e : Elems V} {i : Nat} (h : i < e.length) : ∃ c, e.get? i = some c := by
  rw [← Elems.get?_toList]
  rw [← Elems.length_toList] at h
  exact ⟨_, List.getElem?_eq_getElem h⟩

theorem andThen_success {r : Except ConvErr (Node V)} {f : Node V → Except ConvErr (Node V)}
    {tm : Meta} {t : Addr} {root : Node V} (h1 : ∃ x, r = .ok x ∧ Typed x tm ∧ Kept t root x)
    (h2 : ∀ x, Typed x tm → Kept t root x → ∃ y, f x = .ok y ∧ Typed y tm ∧ Kept t root y) :
    ∃ y, andThen r f = .ok y ∧ Typed y tm ∧ Kept t root y := by
  obtain ⟨x, rfl, h3, h4⟩ := h1
  exact h2 x h3 h4

theorem get_tail {c r : Fields V} {n : Name} (hn : n ∉ r.names) {k : Name} {x : Node V}
    (h : r.get? k = some x) : k ≠ n := by
  rintro rfl
  exact hn (Fields.mem_names_of_get h)

mutual
theorem ok_fields (store : LeafMeta → V → Except ConvErr (Option V)) (tm : Meta) (p : List Name)
    (t : Addr) (c : Fields V) (hw : WFFields c) (root : Node V) (ht : Typed root tm) (M : Meta)
    (hM : metaAt tm (names t) = some M) (g : Fields V) (hg : root.at t = some (.struct g))
    (hc : ∀ n x, c.get? n = some x → ∃ m, child M n = some m ∧ Typed x m)
    (hst : Storable store (.struct c)) :
    ∃ root', copyFields (sameVersion store) p t c root = .ok root' ∧ Typed root' tm ∧
      Kept t root root' := by
  cases c with
  | nil => exact ⟨root, by simp [copyFields], ht, Kept.refl _ _⟩
  | absent n m r =>
    simp only [copyFields]
    simp only [WFFields] at hw
    have hget : ∀ k x, r.get? k = some x → (Fields.absent n m r).get? k = some x := by
      intro k x h
      have hne : k ≠ n := by rintro rfl; exact hw.1 (Fields.mem_names_of_get h)
      simp [Fields.get?, hne, h]
    refine ok_fields store tm p t r hw.2.2 root ht M hM g hg (fun k x h => hc k x (hget k x h)) ?_
    intro A l v hA
    refine hst A l v ?_
    cases A with
    | nil => simp [Node.at] at hA
    | cons s A =>
      simp only [Node.at, Option.bind_eq_some_iff] at hA ⊢
      obtain ⟨x, h1, h2⟩ := hA
      obtain ⟨y, hy⟩ := item_get h1
      refine ⟨x, ?_, h2⟩
      rw [← h1]
      exact item_congr (by rw [hget _ _ hy, hy])
  | present n x r =>
    simp only [copyFields]
    simp only [WFFields] at hw
    have hget : ∀ k z, r.get? k = some z → (Fields.present n x r).get? k = some z := by
      intro k z h
      have hne : k ≠ n := by rintro rfl; exact hw.1 (Fields.mem_names_of_get h)
      simp [Fields.get?, hne, h]
    have hrest : ∀ root1, Typed root1 tm → Kept t root root1 →
        ∃ root', copyFields (sameVersion store) p t r root1 = .ok root' ∧ Typed root' tm ∧
          Kept t root root' := by
      intro root1 ht1 hk1
      obtain ⟨g1, hg1⟩ := hk1.struct t [] (by simp) g hg
      obtain ⟨root', h1, h2, h3⟩ := ok_fields store tm p t r hw.2.2 root1 ht1 M hM g1 hg1
        (fun k x h => hc k x (hget k x h)) (by
          intro A l v hA
          refine hst A l v ?_
          cases A with
          | nil => simp [Node.at] at hA
          | cons s A =>
            simp only [Node.at, Option.bind_eq_some_iff] at hA ⊢
            obtain ⟨x, h1, h2⟩ := hA
            obtain ⟨y, hy⟩ := item_get h1
            refine ⟨x, ?_, h2⟩
            rw [← h1]
            exact item_congr (by rw [hget _ _ hy, hy]))
      exact ⟨root', h1, h2, hk1.trans h3⟩
    split
    · next hv =>
      refine andThen_success ?_ hrest
      obtain ⟨m, hm, htx⟩ := hc n x (by simp [Fields.get?])
      obtain ⟨M', h1, h2⟩ := typedAt_at (.inl ht) hg
      rw [hM] at h1; cases h1
      obtain ⟨mf, h3, h4⟩ := typedAt_struct h2
      have h5 := typed_get h3 n
      rw [← h4, hm] at h5
      obtain ⟨y, hy, hty⟩ := h5
      have hgt : getTarget (sameVersion store) root (p ++ [n]) n t = .ok (some (t ++ [(n, none)])) := by
        simp only [getTarget, sameVersion, sameName, hg, hy]
      rw [hgt]
      simp only
      have hb : root.at (t ++ [(n, none)]) = some y := by
        rw [at_append, hg]; simp [Node.at, Node.item, hy]
      obtain ⟨root', h6, h7, h8⟩ := ok_item store tm (p ++ [n]) t n x hw.2.1 hv root ht m y hb hty htx
        (by rw [names_append, metaAt_append, hM]; simp [names, metaAt, hm])
        (by
          intro A l v hA
          refine hst A l v ?_
          cases A with
          | nil => simp [Node.at] at hA
          | cons s A =>
            simp only [Node.at, Option.bind_eq_some_iff] at hA ⊢
            obtain ⟨z, h1, h2⟩ := hA
            obtain ⟨y, hy⟩ := item_get h1
            refine ⟨z, ?_, h2⟩
            rw [← h1]
            refine item_congr ?_
            simp only [Fields.get?] at hy ⊢
            split at hy
            · next e => simp [e]
            · simp at hy)
      exact ⟨root', h6, h7, h8⟩
    · exact hrest root ht (Kept.refl _ _)
termination_by structural c
theorem ok_item (store : LeafMeta → V → Except ConvErr (Option V)) (tm : Meta) (q : List Name)
    (t : Addr) (n : Name) (x : Node V) (hw : WF x) (hv : x.hasValue = true) (root : Node V)
    (ht : Typed root tm) (m : Meta)
    (y : Node V) (hb : root.at (t ++ [(n, none)]) = some y) (hty : Typed y m) (htx : Typed x m)
    (hm : metaAt tm (names (t ++ [(n, none)])) = some m)
    (hst : Storable store (.struct (.present n x .nil))) :
    ∃ root', copyItem (sameVersion store) q (t ++ [(n, none)]) x root = .ok root' ∧ Typed root' tm ∧
      Kept t root root' := by
  have post : ∀ r, postProcess (sameVersion store) q (t ++ [(n, none)]) r = .ok r := fun _ => rfl
  cases x with
  | leaf l v =>
    simp only [copyItem, sameVersion]
    cases m <;> simp [Typed] at htx
    subst htx
    cases y <;> simp [Typed] at hty
    next l' w' =>
    subst hty
    cases v with
    | none => simp [Node.hasValue, leafHasValue] at hv
    | some v =>
      have hne : Value.isEmpty v = false := by simpa [Node.hasValue, leafHasValue] using hv
      obtain ⟨w, hw'⟩ := hst [(n, none)] l' v (by simp [Node.at, Node.item, Fields.get?]) hne
      have hkf := keeps_store (sameVersion store) (some v)
      obtain ⟨root', h1⟩ := writeAt_success (f := storeNode (sameVersion store) (some v)) hkf.2 hb
        (y := .leaf l' w) (by simp [storeNode, sameVersion, hw'])
      refine ⟨root', ?_, typed_writeAt hkf ht h1, (kept_writeAt hkf.2 h1).above⟩
      exact andThen_ok.2 ⟨root', h1, rfl⟩
  | struct c =>
    simp only [copyItem, sameVersion]
    cases m with
    | leaf => simp [Typed] at htx
    | aos => simp [Typed] at htx
    | struct mf =>
      simp only [Typed] at htx
      cases y with
      | leaf => simp [Typed] at hty
      | aos => simp [Typed] at hty
      | struct g =>
        obtain ⟨root', h1, h2, h3⟩ := ok_fields store tm q (t ++ [(n, none)]) c
          (by simpa only [WF] using hw) root ht (.struct mf) hm g hb
          (by
            intro k z hz
            have := typed_get htx k
            simp only [child, mchild_eq]
            cases hk : mget k mf with
            | none => rw [hk] at this; simp only at this; rw [this] at hz; simp at hz
            | some m' =>
              rw [hk] at this
              obtain ⟨z', h1, h2⟩ := this
              rw [hz] at h1; cases h1
              exact ⟨m', rfl, h2⟩)
          (fun A l v hA => hst ((n, none) :: A) l v (by simp [Node.at, Node.item, Fields.get?, hA]))
        exact ⟨root', andThen_ok.2 ⟨root', h1, rfl⟩, h2, h3.above⟩
  | aos mf es =>
    simp only [copyItem, sameVersion]
    cases m with
    | leaf => simp [Typed] at htx
    | struct => simp [Typed] at htx
    | aos mf' =>
      simp only [Typed] at htx
      obtain ⟨rfl, hte⟩ := htx
      cases y with
      | leaf => simp [Typed] at hty
      | struct => simp [Typed] at hty
      | aos mf2 e2 =>
        simp only [Typed] at hty
        obtain ⟨rfl, -⟩ := hty
        have hkf := keeps_resize (V := V) es.length
        obtain ⟨root1, h1⟩ := writeAt_success (f := resizeNode es.length) hkf.2 hb
          (resizeNode_aos es.length mf2 e2)
        obtain ⟨z, z', h2, h3, h4⟩ := modify_at hkf.2 (writeAt_ok h1)
        rw [hb] at h2; cases h2
        rw [resizeNode_aos] at h3; cases h3
        have ht1 := typed_writeAt hkf ht h1
        have hk1 := (kept_writeAt hkf.2 h1).above
        simp only [WF] at hw
        obtain ⟨root', h5, h6, h7⟩ := ok_elems store tm q t n 0 es hw.2 root1 ht1 mf2 hte hm _ h4
          (by rw [ofList_length]; simp)
          (by
            intro i c hi A l v hA
            exact hst ((n, some i) :: A) l v (by simp [Node.at, Node.item, Fields.get?, hi, hA]))
        refine ⟨root', ?_, h6, hk1.trans h7⟩
        refine andThen_ok.2 ⟨root', andThen_ok.2 ⟨root1, h1, h5⟩, rfl⟩
termination_by structural x
theorem ok_elems (store : LeafMeta → V → Except ConvErr (Option V)) (tm : Meta) (q : List Name)
    (t : Addr) (n : Name) (i : Nat) (es : Elems V) (hw : WFElems es) (root : Node V)
    (ht : Typed root tm) (mf : MFields) (hte : TypedE es mf)
    (hm : metaAt tm (names (t ++ [(n, none)])) = some (.aos mf)) (e : Elems V)
    (hb : root.at (t ++ [(n, none)]) = some (.aos mf e)) (hl : e.length = i + es.length)
    (hst : ∀ j c, es.get? j = some c → Storable store (.struct c)) :
    ∃ root', copyElems (sameVersion store) q (t ++ [(n, none)]) i es root = .ok root' ∧
      Typed root' tm ∧ Kept t root root' := by
  cases es with
  | nil => exact ⟨root, by simp [copyElems], ht, Kept.refl _ _⟩
  | cons c r =>
    simp only [copyElems, elemOf_snoc]
    simp only [WFElems] at hw
    simp only [TypedE] at hte
    simp only [Elems.length] at hl
    obtain ⟨g, hg⟩ := get_some_of_lt (e := e) (i := i) (by omega)
    have hgt : root.at (t ++ [(n, some i)]) = some (.struct g) := by
      rw [at_append] at hb ⊢
      cases hr : root.at t with
      | none => rw [hr] at hb; simp at hb
      | some z =>
        rw [hr] at hb
        simp only [Option.bind_some, Node.at] at hb ⊢
        cases z with
        | leaf => simp [Node.item] at hb
        | aos => simp [Node.item] at hb
        | struct z =>
          have : z.get? n = some (.aos mf e) := by
            simp only [Option.bind_eq_some_iff] at hb
            obtain ⟨u, h1, h2⟩ := hb
            cases h2
            obtain ⟨c', e', h⟩ := item_cases h1
            cases e'
            rcases h with h | ⟨j, m1, e, f, h1, -⟩
            · exact h.2
            · simp at h1
          simp [Node.item, this, hg]
    have hn : names (t ++ [(n, some i)]) = names (t ++ [(n, none)]) := by simp [names]
    obtain ⟨root1, h1, h2, h3⟩ := ok_fields store tm q (t ++ [(n, some i)]) c hw.1 root ht (.aos mf)
      (by rw [hn]; exact hm) g hgt
      (by
        intro k z hz
        have := typed_get hte.1 k
        simp only [child, mchild_eq]
        cases hk : mget k mf with
        | none => rw [hk] at this; simp only at this; rw [this] at hz; simp at hz
        | some m' =>
          rw [hk] at this
          obtain ⟨z', h1, h2⟩ := this
          rw [hz] at h1; cases h1
          exact ⟨m', rfl, h2⟩)
      (hst 0 c (by simp [Elems.get?]))
    obtain ⟨e', h4, h5⟩ := h3.array t n i [] rfl mf e hb
    obtain ⟨root', h6, h7, h8⟩ := ok_elems store tm q t n (i + 1) r hw.2 root1 h2 mf hte.2 hm e' h4
      (by omega) (fun j c h => hst (j + 1) c (by simpa [Elems.get?] using h))
    exact ⟨root', andThen_ok.2 ⟨root1, h1, h6⟩, h7, h3.above.trans h8⟩
termination_by structural es
end

end Verif.Convert

namespace Verif.Convert
open Verif.Ids Verif.TreeSpec Verif.ConvertSpec Verif.DiffSpec

variable {V : Type} [Value V]

theorem pathFrom_same (store : LeafMeta → V → Except ConvErr (Option V)) (sm : Meta) (r p : List Name)
    (h : (metaAt sm (p ++ r)).isSome = true) : pathFrom (sameVersion store) sm p p r = some (p ++ r) := by
  induction r generalizing p with
  | nil => simp [pathFrom]
  | cons n r ih =>
    have e : p ++ n :: r = (p ++ [n]) ++ r := by simp
    have h1 : (metaAt sm (p ++ [n])).isSome = true := by
      rw [e, metaAt_append] at h
      cases hm : metaAt sm (p ++ [n]) with
      | none => rw [hm] at h; simp at h
      | some => rfl
    simp only [pathFrom, stepPath, sameVersion, h1, if_true, Option.bind_some]
    have := ih (p ++ [n]) (by rw [← e]; exact h)
    rw [← e] at this
    exact this

theorem oneToOne_same (store : LeafMeta → V → Except ConvErr (Option V)) (sm : Meta) :
    OneToOne (sameVersion store) sm sm := by
  have goes : ∀ p q, (metaAt sm p).isSome = true → Goes (sameVersion store) sm p q → q = p := by
    intro p q h hg
    have := pathFrom_same store sm p [] (by simpa using h)
    unfold Goes at hg
    rw [hg] at this
    simpa using this
  constructor
  · intro p n q q' h h1 h2
    have hp : (metaAt sm p).isSome = true := by
      rw [metaAt_append] at h
      cases hm : metaAt sm p with
      | none => rw [hm] at h; simp at h
      | some => rfl
    rw [goes _ _ h h2, goes _ _ hp h1]
    exact ⟨[n], rfl, by simp⟩
  · rintro p p' q q' ⟨m, h, -⟩ ⟨m', h', -⟩ h1 h2 h3
    rw [goes _ _ (by rw [h]; rfl) h1, goes _ _ (by rw [h']; rfl) h2] at h3
    exact h3

theorem sent_same (store : LeafMeta → V → Except ConvErr (Option V)) (sm : Meta) {A : Addr}
    {t : Addr} {c : Fields V} {x : Node V} (hm : ∃ m, metaAt sm (names t) = some m ∧ TypedAt (.struct c) m)
    (hx : (Node.struct c).at A = some x) (hne : ∀ d, x ≠ .struct d) :
    Sent (sameVersion store) sm (names t) t c A (t ++ A) := by
  induction A generalizing t c with
  | nil => simp [Node.at] at hx; exact absurd hx.symm (hne c)
  | cons s A ih =>
    simp only [Node.at, Option.bind_eq_some_iff] at hx
    obtain ⟨y, h1, h2⟩ := hx
    obtain ⟨m, h3, h4⟩ := hm
    obtain ⟨m', h5, h6⟩ := typedAt_item h4 h1
    have hmm : metaAt sm (names t ++ [s.1]) = some m' := by
      rw [metaAt_append, h3]; simp [metaAt, h5]
    have hstep : step (sameVersion store) sm (names t ++ [s.1]) s.1 t = some (t ++ [(s.1, none)]) := by
      simp [step, sameVersion, hmm]
    have hn : ∀ i, names (t ++ [(s.1, i)]) = names t ++ [s.1] := by intro i; simp [names]
    obtain ⟨c', e, hc⟩ := item_cases h1
    cases e
    obtain ⟨n, j⟩ := s
    simp only at hc hmm hstep hn
    rcases hc with ⟨rfl, hc⟩ | ⟨i, mf, el, f, rfl, hc, hf, rfl⟩
    · cases A with
      | nil => exact Sent.here hc hstep
      | cons u A =>
        cases y with
        | leaf => simp [Node.at, Node.item] at h2
        | aos => simp [Node.at, Node.item] at h2
        | struct d =>
          have := ih (t := t ++ [(n, none)]) (c := d) ⟨m', by rw [hn]; exact hmm, h6⟩ h2
          rw [hn, List.append_assoc] at this
          exact Sent.child hc hstep rfl this
    · have := ih (t := t ++ [(n, some i)]) (c := f) ⟨m', by rw [hn]; exact hmm, h6⟩ h2
      rw [hn, List.append_assoc] at this
      refine Sent.element hc hf hstep rfl ?_
      rw [elemOf_snoc]
      exact this

theorem sent_same_eq (store : LeafMeta → V → Except ConvErr (Option V)) (sm : Meta) {A B : Addr}
    {t : Addr} {c : Fields V} (hm : ∃ m, metaAt sm (names t) = some m ∧ TypedAt (.struct c) m)
    (h : Sent (sameVersion store) sm (names t) t c A B) : B = t ++ A := by
  induction A generalizing t c with
  | nil => obtain ⟨s, A', x, h1, -⟩ := sent_head h; simp at h1
  | cons s A ih =>
    obtain ⟨m, h3, h4⟩ := hm
    have hstep : ∀ m', child m s.1 = some m' →
        step (sameVersion store) sm (names t ++ [s.1]) s.1 t = some (t ++ [(s.1, none)]) := by
      intro m' h5
      simp [step, sameVersion, metaAt_append, h3, metaAt, h5]
    rcases sent_cons h with ⟨rfl, h1, h2, x, hx⟩ | ⟨-, d, b, hi, ⟨b0, he, h2⟩, hr⟩
    · obtain ⟨m', h5, -⟩ := typedAt_item h4 (get_item hx)
      rw [hstep m' h5] at h2
      cases h2
      rw [← h1]
    · obtain ⟨m', h5, h6⟩ := typedAt_item h4 hi
      rw [hstep m' h5] at he
      cases he
      have hb : b = t ++ [s] := by
        rcases h2 with ⟨-, ⟨h7, rfl⟩ | ⟨i, h7, rfl⟩⟩ | ⟨h7, -⟩
        · rw [← h7]
        · rw [elemOf_snoc, ← h7]
        · simp [sameVersion] at h7
      subst hb
      have hn : names (t ++ [s]) = names t ++ [s.1] := by simp [names]
      rw [← hn] at hr
      have := ih ⟨m', by rw [hn, metaAt_append, h3]; simp [metaAt, h5], h6⟩ hr
      rw [this]; simp

theorem typed_names {c : Fields V} {m : MFields} (h : TypedF c m) : c.names = mnames m := by
  cases c with
  | nil => cases m <;> simp_all [TypedF, Fields.names, mnames]
  | absent n x r =>
    cases m with
    | nil => simp [TypedF] at h
    | cons k m' r' =>
      simp only [TypedF] at h
      simp only [Fields.names, mnames]
      rw [typed_names h.2.2, h.1]
  | present n x r =>
    cases m with
    | nil => simp [TypedF] at h
    | cons k m' r' =>
      simp only [TypedF] at h
      simp only [Fields.names, mnames]
      rw [typed_names h.2.2, h.1]

mutual
theorem wf_of_typed (x : Node V) (m : Meta) (h : Typed x m) (hm : WFMeta m) : WF x := by
  cases x with
  | leaf => simp [WF]
  | struct c =>
    cases m with
    | leaf => simp [Typed] at h
    | aos => simp [Typed] at h
    | struct mf =>
      simp only [Typed] at h
      simp only [WFMeta] at hm
      simpa only [WF] using wf_of_typedF c mf h hm
  | aos mf e =>
    cases m with
    | leaf => simp [Typed] at h
    | struct => simp [Typed] at h
    | aos mf' =>
      simp only [Typed] at h
      simp only [WFMeta] at hm
      obtain ⟨rfl, h⟩ := h
      simp only [WF]
      exact ⟨hm, wf_of_typedE e mf h hm⟩
termination_by structural x
theorem wf_of_typedF (c : Fields V) (m : MFields) (h : TypedF c m) (hm : WFMFields m) : WFFields c := by
  cases c with
  | nil => simp [WFFields]
  | absent n x r =>
    cases m with
    | nil => simp [TypedF] at h
    | cons k m' r' =>
      simp only [TypedF] at h
      simp only [WFMFields] at hm
      simp only [WFFields]
      obtain ⟨rfl, rfl, h⟩ := h
      exact ⟨by rw [typed_names h]; exact hm.1, hm.2.1, wf_of_typedF r r' h hm.2.2⟩
  | present n x r =>
    cases m with
    | nil => simp [TypedF] at h
    | cons k m' r' =>
      simp only [TypedF] at h
      simp only [WFMFields] at hm
      simp only [WFFields]
      obtain ⟨rfl, h1, h⟩ := h
      exact ⟨by rw [typed_names h]; exact hm.1, wf_of_typed x m' h1 hm.2.1, wf_of_typedF r r' h hm.2.2⟩
termination_by structural c
theorem wf_of_typedE (e : Elems V) (m : MFields) (h : TypedE e m) (hm : WFMFields m) : WFElems e := by
  cases e with
  | nil => simp [WFElems]
  | cons c r =>
    simp only [TypedE] at h
    simp only [WFElems]
    exact ⟨wf_of_typedF c m h.1 hm, wf_of_typedE r m h.2 hm⟩
termination_by structural e
end

end Verif.Convert
