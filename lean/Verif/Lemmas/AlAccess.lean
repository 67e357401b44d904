import Verif.Lemmas.AlAgree
/-
Accesses to lazily loaded nodes give what an eager get gives.
-/
namespace Verif.Al
open Verif.Ids Verif.AlSpec Verif.ConvertSpec

set_option linter.unusedSectionVars false
variable {V : Type} [Value V] (B : Backend V) (db : Ctx) (held : LSt (Disk V) V → Nat → Bool) (K : Src V)

/-- The data did not change. -/
def Current (s : LSt (Disk V) V) : Prop := K.live → B.view K.b (s.st.ll.stores K.b.occ) = K.S

variable {B} {K} in
theorem current_of {s s' : LSt (Disk V) V} (h : Current B K s) (e : s'.st.ll.stores = s.st.ll.stores) : Current B K s' := by
  unfold Current; rw [e]; exact h

theorem newChild_sync {R : Reg} {s : LSt (Disk V) V} (h : Inv B db R s) (hcur : Current B K s) {c : Option Lazy}
    (hc : COk db K R c) (p : Path) (m : Meta) :
    ∃ R' y s', newChild (disk B db) held K.E p c m s = (.ok (), y, s') ∧ Ext R R' ∧ Inv B db R' s' ∧
      s'.st.ll.stores = s.st.ll.stores ∧ AgreeX db K R' p (eff K p c) m y := by
  unfold newChild
  cases c with
  | none =>
    have he : eff K p none = none := by simp [eff]
    rw [he]
    cases m with
    | leaf l => exact ⟨R, _, s, rfl, ext_refl R, h, rfl, rfl, fun _ => by simp [leafVal]⟩
    | struct f => exact ⟨R, _, s, rfl, ext_refl R, h, rfl, rfl, agreeF_fresh db K _ _ f⟩
    | aos f => exact ⟨R, _, s, rfl, ext_refl R, h, rfl, rfl, by simp [AosCtx]⟩
  | some z =>
    unfold eff
    rcases ht : target K.E p with _ | ⟨q, tb⟩
    · simp only [Option.isSome_none, Bool.false_eq_true, if_false]
      cases m with
      | leaf l => exact ⟨R, _, s, rfl, ext_refl R, h, rfl, rfl, fun _ => by simp [leafVal]⟩
      | struct f => exact ⟨R, _, s, rfl, ext_refl R, h, rfl, rfl, agreeF_fresh db K _ _ f⟩
      | aos f => exact ⟨R, _, s, rfl, ext_refl R, h, rfl, rfl, by simp [AosCtx]⟩
    · simp only [Option.isSome_some, if_pos]
      obtain ⟨g1, g2, g3⟩ := hc z rfl
      cases m with
      | struct f => exact ⟨R, _, s, rfl, ext_refl R, h, rfl, rfl, agreeF_fresh db K _ _ f⟩
      | aos f =>
        refine ⟨R.add z (.aos q tb 0), _, _, rfl, ext_add R _ _, inv_add B db h _ _, rfl, rfl, ?_⟩
        unfold AosCtx
        simp only [ht]
        exact ⟨s.nextLazy, by rw [h.isOpen], by simp [Reg.add, h.next], by simp [Reg.add, h.next]⟩
      | leaf l =>
        obtain ⟨ctx, s1, e1, h1, k1, m1⟩ := getContext_sync B db held z g1 s h
        obtain ⟨t1, t2⟩ := at_reader db g1 g2 m1
        obtain ⟨f1, f2⟩ := fits_spec _ _ t2
        simp only [e1]
        obtain ⟨st, r1, r2, r3⟩ := read_spec B db (s := s1.st) (c := ctx) (a := K.b) t1 (f2.trans g3) q tb l
        unfold lift
        rw [r1]
        refine ⟨R, _, _, rfl, ext_refl R, ⟨?_, ?_, ?_, h1.objs, h1.weaks, h1.next, h1.isOpen⟩, r2.trans k1, rfl, ?_⟩
        · simp only [r3]; exact h1.step
        · simp only [r2, r3]; exact h1.sizes
        · simp only [r3]; exact h1.owned
        · intro hl
          unfold leafVal
          simp only [ht]
          rw [current_of hcur k1 hl, f1]
          rfl

theorem loadSize_sync {R : Reg} {s : LSt (Disk V) V} (h : Inv B db R s) (hcur : Current B K s) {c : Option Lazy}
    (hc : COk db K R c) {p : Path} {m : MFields} {x : LNode V} (hx : AgreeX db K R p c (.aos m) x) :
    ∃ c' e s', loadSize (disk B db) held x s = (.ok (), .aos c' m e, s') ∧ Inv B db R s' ∧
      s'.st.ll.stores = s.st.ll.stores ∧ AgreeX db K R p c (.aos m) (.aos c' m e) := by
  cases x with
  | leaf l v => exact absurd hx (by simp [AgreeX])
  | struct c' f => exact absurd hx (by simp [AgreeX])
  | aos c' m' e =>
    have := hx.1
    subst this
    exact ⟨c', e, s, rfl, h, rfl, hx⟩
  | aosNew c' m' =>
    obtain ⟨rfl, hctx⟩ := hx
    have hctx' := hctx
    unfold AosCtx at hctx
    split at hctx
    · rename_i z q tb ht
      obtain ⟨id, rfl, i1, i2⟩ := hctx
      obtain ⟨g1, g2, g3⟩ := hc z rfl
      have hg : Good db R (.action id (some db) z (.aos q tb 0)) := by
        refine ⟨rfl, i1, i2, g1, ?_⟩
        cases z with
        | root d => exact absurd g2 (by simp [Reader])
        | action id' d' p' b' => exact ⟨g2, q, tb, rfl⟩
        | child p' j => exact ⟨q, tb, rfl⟩
      obtain ⟨ctx, s1, e1, h1, k1, f, t, m1, m2, m3⟩ := getContext_sync B db held _ hg s h
      simp only [loadSize, e1]
      have hstep := h1.step
      have hsz := h1.sizes
      rw [m1] at hstep hsz
      rcases ec : s1.cache with _ | ⟨o, r⟩
      · rw [ec] at hstep; simp [InStep] at hstep
      rw [ec] at hstep
      cases f with
      | act a =>
        obtain ⟨rfl, m4, -⟩ := m2
        simp [Begin.isAos] at m4
      | aos q' n i =>
        obtain ⟨tb', m2⟩ := m2
        cases m2
        obtain ⟨⟨a, a1, a2⟩, -⟩ := hsz
        obtain ⟨f1, f2⟩ := fits_spec _ _ m3
        rw [f2, g3] at a1
        cases a1
        refine ⟨_, _, s1, rfl, h1, k1, rfl, hctx', ?_, agreeE_unreads db K _ _⟩
        intro hl
        rw [unreads_length, hstep.2.2.1, a2, current_of hcur k1 hl, f1]
        simp only [aosSize, ht]
        rfl
    · subst hctx
      rename_i hno
      refine ⟨none, .nil, s, rfl, h, rfl, rfl, hctx', fun _ => ?_, trivial⟩
      unfold aosSize
      split
      · rename_i z q tb ht
        exact absurd ht (hno z q tb rfl)
      · rfl

/-- The outcome of an access, as the result of an operation. -/
def resOf : Except AErr (Obs V) → Res V
  | .ok o => .obs o
  | .error e => .error e

theorem evX_leaf (p : Path) (c : Option Lazy) (l : LeafMeta) : evX K p c (.leaf l) = .leaf l (leafVal K p c l) := by
  unfold evX leafVal
  cases c with
  | none => simp [Meta.fresh]
  | some z =>
    rcases ht : target K.E p with _ | ⟨q, tb⟩
    · simp [evalNode, ht, Meta.fresh]
    · simp only [evalNode, ht]
      rcases hd : K.S.data (zpos z) q with _ | v
      · simp [keepValue, Meta.fresh]
      · simp only [keepValue]
        split <;> simp [Meta.fresh]

theorem evX_aos (p : Path) (c : Option Lazy) (m : MFields) :
    ∃ e, evX K p c (.aos m) = .aos m e ∧ e.length = aosSize K p c ∧
      ∀ z q tb i, c = some z → target K.E p = some (q, tb) → i < aosSize K p c →
        e.get? i = some (evalFields K.S K.E p (zpos z ++ [(q, i)]) m) := by
  unfold evX aosSize
  cases c with
  | none => exact ⟨.nil, by simp [Meta.fresh], rfl, fun z _ _ _ h => by cases h⟩
  | some z =>
    rcases ht : target K.E p with _ | ⟨q, tb⟩
    · exact ⟨.nil, by simp [evalNode, ht, Meta.fresh], rfl, fun z _ _ _ _ h => by cases h⟩
    · simp only [evalNode, ht]
      by_cases hz : K.S.size (zpos z) q = 0
      · refine ⟨.nil, by simp [hz, Meta.fresh], by simp [hz, Elems.length], ?_⟩
        intro z' q' tb' i h1 h2 h3
        omega
      · refine ⟨_, by rw [if_neg hz, Option.getD_some], ?_, ?_⟩
        · have : ∀ l : List (Fields V), (elemsOf l).length = l.length := by
            intro l
            induction l with
            | nil => rfl
            | cons c l ih => simp [elemsOf, Elems.length, ih]
          rw [this]
          simp
        · intro z' q' tb' i h1 h2 h3
          cases h1
          cases h2
          rw [elemsOf_get?]
          simp [h3]

theorem zpos_child (id : Nat) (d : Option Ctx) (z : Lazy) (q : Path) (tb : Text) (n i : Nat) :
    zpos (.child (.action id d z (.aos q tb n)) i) = zpos z ++ [(q, i)] := by
  simp [zpos, chain, slotPos]

theorem observe_sync {R : Reg} {s : LSt (Disk V) V} (h : Inv B db R s) (hcur : Current B K s) {c : Option Lazy}
    (hc : COk db K R c) {p : Path} {m : Meta} {x : LNode V} (hx : AgreeX db K R p c m x) :
    ∃ r y s', observe (disk B db) held x s = (r, y, s') ∧ Inv B db R s' ∧
      s'.st.ll.stores = s.st.ll.stores ∧ AgreeX db K R p c m y ∧ (K.live → resOf r = seen (evX K p c m) []) := by
  have hat : ∀ y : Node V, y.at [] = some y := fun _ => rfl
  cases m with
  | leaf l =>
    cases x with
    | leaf l' v =>
      refine ⟨_, _, s, rfl, h, rfl, hx, fun hl => ?_⟩
      rw [evX_leaf]
      simp only [seen, hat, resOf]
      rw [hx.2 hl]
    | struct c' f => exact absurd hx (by simp [AgreeX])
    | aosNew c' m => exact absurd hx (by simp [AgreeX])
    | aos c' m e => exact absurd hx (by simp [AgreeX])
  | struct m =>
    cases x with
    | struct c' f =>
      refine ⟨_, _, s, rfl, h, rfl, hx, fun hl => ?_⟩
      rw [evX_struct]
      simp only [seen, hat, resOf]
    | leaf l' v => exact absurd hx (by simp [AgreeX])
    | aosNew c' m => exact absurd hx (by simp [AgreeX])
    | aos c' m e => exact absurd hx (by simp [AgreeX])
  | aos m =>
    obtain ⟨c', e, s', e1, h1, k1, a1⟩ := loadSize_sync B db held K h hcur hc hx
    have hobs : observe (disk B db) held x s = (.ok (.size e.length), .aos c' m e, s') := by
      cases x with
      | leaf l' v => exact absurd hx (by simp [AgreeX])
      | struct c' f => exact absurd hx (by simp [AgreeX])
      | aosNew c' m => simp only [observe, e1]
      | aos c' m e => simp only [observe, e1]
    refine ⟨_, _, s', hobs, h1, k1, a1, fun hl => ?_⟩
    obtain ⟨e', g1, g2, -⟩ := evX_aos K p c m
    rw [g1]
    simp only [seen, hat, resOf]
    rw [g2, a1.2.2.1 hl]

theorem at_cons (x : Node V) (n : Name) (i : Option Nat) (a : Addr) : x.at ((n, i) :: a) = (x.item (n, i)).bind (·.at a) := rfl

/-- Every access succeeds as on the eagerly read node, and leaves everything in order. -/
theorem access_sync (a : Addr) : ∀ {R : Reg} {s : LSt (Disk V) V}, Inv B db R s → Current B K s →
    ∀ {c : Option Lazy}, COk db K R c → ∀ {p : Path} {m : Meta} {x : LNode V}, AgreeX db K R p c m x →
    ∃ R' r y s', access (disk B db) held K.E p x a s = (r, y, s') ∧ Ext R R' ∧ Inv B db R' s' ∧
      s'.st.ll.stores = s.st.ll.stores ∧ AgreeX db K R' p c m y ∧ (K.live → resOf r = seen (evX K p c m) a) := by
  induction a with
  | nil =>
    intro R s h hcur c hc p m x hx
    obtain ⟨r, y, s', e, h1, h2, h3, h4⟩ := observe_sync B db held K h hcur hc hx
    exact ⟨R, r, y, s', by rw [access]; exact e, ext_refl R, h1, h2, h3, h4⟩
  | cons st a ih =>
    obtain ⟨n, i⟩ := st
    intro R s h hcur c hc p m x hx
    cases m with
    | leaf l =>
      cases x with
      | leaf l' v =>
        refine ⟨R, _, _, s, rfl, ext_refl R, h, rfl, hx, fun _ => ?_⟩
        rw [evX_leaf]
        simp [seen, resOf, at_cons, Node.item]
      | struct c' f => exact absurd hx (by simp [AgreeX])
      | aosNew c' m => exact absurd hx (by simp [AgreeX])
      | aos c' m e => exact absurd hx (by simp [AgreeX])
    | aos m =>
      obtain ⟨e', g1, -, -⟩ := evX_aos K p c m
      cases x with
      | leaf l' v => exact absurd hx (by simp [AgreeX])
      | struct c' f => exact absurd hx (by simp [AgreeX])
      | aosNew c' m =>
        refine ⟨R, _, _, s, rfl, ext_refl R, h, rfl, hx, fun _ => ?_⟩
        rw [g1]
        simp [seen, resOf, at_cons, Node.item]
      | aos c' m e =>
        refine ⟨R, _, _, s, rfl, ext_refl R, h, rfl, hx, fun _ => ?_⟩
        rw [g1]
        simp [seen, resOf, at_cons, Node.item]
    | struct m =>
      cases x with
      | leaf l' v => exact absurd hx (by simp [AgreeX])
      | aosNew c' m => exact absurd hx (by simp [AgreeX])
      | aos c' m e => exact absurd hx (by simp [AgreeX])
      | struct c' f =>
        obtain ⟨rfl, hf⟩ := hx
        rw [evX_struct, access]
        have hfind := agreeF_find db K (n := n) hf
        have miss : f.find n = none → mchild m n = none → resOf (.error .lookup) = seen (.struct (evF K p c' m)) ((n, i) :: a) := by
          intro _ h2
          simp [seen, resOf, at_cons, Node.item, evF_get?, h2]
        -- the child, whether it existed or not
        have child : ∀ ch, f.find n = some ch → ∃ m' R1 y s1, mchild m n = some m' ∧
            getChild (disk B db) held K.E (p ++ [n]) c' ch s = (.ok (), y, s1) ∧ Ext R R1 ∧ Inv B db R1 s1 ∧
            s1.st.ll.stores = s.st.ll.stores ∧ AgreeX db K R1 (p ++ [n]) (eff K (p ++ [n]) c') m' y := by
          intro ch hch
          rcases hfind with ⟨h1, -⟩ | ⟨m', h1, h2⟩ | ⟨m', x, h1, h2, h3⟩
          · rw [h1] at hch; cases hch
          · rw [h1] at hch
            cases hch
            obtain ⟨R1, y, s1, e1, e2, e3, e4, e5⟩ := newChild_sync B db held K h hcur hc (p ++ [n]) m'
            exact ⟨m', R1, y, s1, h2, e1, e2, e3, e4, e5⟩
          · rw [h1] at hch
            cases hch
            exact ⟨m', R, x, s, h2, rfl, ext_refl R, h, rfl, h3⟩
        rcases hch : f.find n with _ | ch
        · rcases hfind with ⟨h1, h2⟩ | ⟨m', h1, h2⟩ | ⟨m', x, h1, h2, h3⟩
          · exact ⟨R, _, _, s, rfl, ext_refl R, h, rfl, ⟨rfl, hf⟩, fun _ => miss h1 h2⟩
          · rw [h1] at hch; cases hch
          · rw [h1] at hch; cases hch
        · obtain ⟨m', R1, y, s1, hm', e1, x1, i1, k1, a1⟩ := child ch hch
          simp only [e1]
          have hf1 := agreeF_ext db K x1 f hf
          have hc1 := cok_ext db K x1 hc
          have hget : (evF K p c' m).get? n = some (evX K (p ++ [n]) (eff K (p ++ [n]) c') m') := by
            rw [evF_get?, hm']; rfl
          cases i with
          | none =>
            obtain ⟨R2, r, y', s2, e2, x2, i2, k2, a2, v2⟩ := ih i1 (current_of hcur k1) (cok_eff db K hc1) a1
            simp only [e2]
            refine ⟨R2, r, _, s2, rfl, ext_trans x1 x2, i2, k2.trans k1,
              ⟨rfl, agreeF_put db K (agreeF_ext db K x2 f hf1) hm' a2⟩, fun hl => ?_⟩
            rw [v2 hl]
            simp [seen, at_cons, Node.item, hget]
          | some i =>
            simp only
            cases m' with
            | leaf l =>
              cases y with
              | leaf l' v =>
                refine ⟨R1, _, _, s1, rfl, x1, i1, k1, ⟨rfl, agreeF_put db K hf1 hm' a1⟩, fun _ => ?_⟩
                rw [evX_leaf] at hget
                simp [seen, resOf, at_cons, Node.item, hget]
              | struct c' f => exact absurd a1 (by simp [AgreeX])
              | aosNew c' m => exact absurd a1 (by simp [AgreeX])
              | aos c' m e => exact absurd a1 (by simp [AgreeX])
            | struct m'' =>
              cases y with
              | struct c' f =>
                refine ⟨R1, _, _, s1, rfl, x1, i1, k1, ⟨rfl, agreeF_put db K hf1 hm' a1⟩, fun _ => ?_⟩
                rw [evX_struct] at hget
                simp [seen, resOf, at_cons, Node.item, hget]
              | leaf l' v => exact absurd a1 (by simp [AgreeX])
              | aosNew c' m => exact absurd a1 (by simp [AgreeX])
              | aos c' m e => exact absurd a1 (by simp [AgreeX])
            | aos m'' =>
              obtain ⟨ac, e, s2, e2, i2, k2, a2⟩ :=
                loadSize_sync B db held K i1 (current_of hcur k1) (cok_eff db K hc1) a1
              simp only [e2]
              obtain ⟨-, b1, b2, b3⟩ := a2
              obtain ⟨e', g1, g2, g3⟩ := evX_aos K (p ++ [n]) (eff K (p ++ [n]) c') m''
              rw [g1] at hget
              have hcel := cok_elem db K (cok_eff db K hc1) b1 i
              -- an element
              have elem : ∀ ef, i < e.length → AgreeF db K R1 (p ++ [n]) (ac.map (.child · i)) m'' ef →
                  ∃ R' r ef' s', access (disk B db) held K.E (p ++ [n]) (.struct (ac.map (.child · i)) ef) a s2 =
                    (r, .struct (ac.map (.child · i)) ef', s') ∧
                  Ext R R' ∧ Inv B db R' s' ∧ s'.st.ll.stores = s.st.ll.stores ∧
                  AgreeX db K R' p c' (.struct m)
                    (.struct c' (f.put n (.aos ac m'' (e.put i (ac.map (.child · i)) ef')))) ∧
                  (K.live → resOf r = seen (.struct (evF K p c' m)) ((n, some i) :: a)) := by
                intro ef hi hef
                obtain ⟨R3, r, y', s3, e3, x3, i3, k3, a3, v3⟩ := ih (p := p ++ [n]) (m := .struct m'')
                  (x := .struct (ac.map (.child · i)) ef) i2 (current_of (current_of hcur k1) k2) hcel ⟨rfl, hef⟩
                cases y' with
                | leaf l' v => exact absurd a3 (by simp [AgreeX])
                | aosNew c' m => exact absurd a3 (by simp [AgreeX])
                | aos c' m e => exact absurd a3 (by simp [AgreeX])
                | struct ec' ef' =>
                  obtain ⟨rfl, a4⟩ := a3
                  have hput := agreeE_put db K (i := 0) (k := i) (agreeE_ext db K x3 e b3) (by simpa using a4)
                  simp only [Nat.zero_add] at hput
                  refine ⟨R3, r, ef', s3, e3, ext_trans x1 x3, i3, k3.trans (k2.trans k1),
                    ⟨rfl, agreeF_put db K (agreeF_ext db K x3 f hf1) hm' ⟨rfl, aosCtx_ext db K x3 b1, ?_, hput.1⟩⟩, ?_⟩
                  · intro hl; rw [hput.2]; exact b2 hl
                  · intro hl
                    rw [v3 hl]
                    have hlt : i < aosSize K (p ++ [n]) (eff K (p ++ [n]) c') := by rw [← b2 hl]; exact hi
                    have hctx := b1
                    unfold AosCtx at hctx
                    split at hctx
                    · rename_i z q tb hz ht
                      obtain ⟨id, rfl, -, -⟩ := hctx
                      have := g3 z q tb i hz ht hlt
                      have e5 : (Node.struct (evF K p c' m)).at ((n, some i) :: a) =
                          (Node.struct (evalFields K.S K.E (p ++ [n]) (zpos z ++ [(q, i)]) m'')).at a := by
                        rw [at_cons]; simp [Node.item, hget, this]
                      simp only [Option.map_some, evX_struct, seen, e5]
                      simp only [evF, zpos_child]
                    · rename_i hno
                      exfalso
                      unfold aosSize at hlt
                      split at hlt
                      · rename_i z q tb hz ht
                        exact hno z q tb hz ht
                      · exact absurd hlt (Nat.not_lt_zero _)
              unfold loadItem
              rcases agreeE_find db K (k := i) b3 with ⟨f1, f2⟩ | ⟨f1, f2⟩ | ⟨ec, ef, f1, f2, f3, f4⟩
              · simp only [f1]
                refine ⟨R1, _, _, s2, rfl, x1, i2, k2.trans k1,
                  ⟨rfl, agreeF_put db K hf1 hm' ⟨rfl, b1, b2, b3⟩⟩, fun hl => ?_⟩
                have hnone : e'.get? i = none := by
                  rcases hg : e'.get? i with _ | d
                  · rfl
                  · have := elems_get_lt hg
                    rw [g2, ← b2 hl] at this
                    omega
                simp [seen, resOf, at_cons, Node.item, hget, hnone]
              · simp only [f1]
                obtain ⟨R', r, ef', s', l1, l2⟩ := elem _ f2 (agreeF_fresh db K _ _ _)
                simp only [l1]
                exact ⟨R', r, _, s', rfl, l2⟩
              · simp only [f1]
                simp only [Nat.zero_add] at f3
                subst f3
                obtain ⟨R', r, ef', s', l1, l2⟩ := elem _ f2 f4
                simp only [l1]
                exact ⟨R', r, _, s', rfl, l2⟩

end Verif.Al
