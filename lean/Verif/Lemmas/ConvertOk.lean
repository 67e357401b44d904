import Verif.Lemmas.ConvertRoute
/-
Conversions that do not raise.
-/
set_option linter.unusedSectionVars false
namespace Verif.Convert
open Verif.Ids Verif.TreeSpec Verif.ConvertSpec Verif.DiffSpec
open Verif.GotoSpec (common Walk Access)

variable {V : Type} [Value V]

/-- Source and target are nodes that the type change (if any) applies to. -/
def Fit : Option (Change V) → Meta → Meta → Prop
  | none, .leaf _, .leaf _ => True
  | none, .struct _, .struct _ => True
  | none, .aos _, .aos _ => True
  | none, _, _ => False
  | some .structAos, .struct _, .aos _ => True
  | some .structAos, .aos _, .struct _ => True
  | some .structAos, _, _ => False
  | some (.custom _), _, _ => True

/-- Nodes that go somewhere go to a place below the target of their parent, which exists and fits. Structures may
also go to the target of their parent, if nothing is done to them. -/
def Smooth (cx : Cfg V) (mA mB : MFields) : Prop :=
  ∀ p n t q x, metaAt (.struct mA) (p ++ [n]) = some x → Goes cx (.struct mB) p t → Goes cx (.struct mB) (p ++ [n]) q →
    (∃ u k y, q = t ++ u ++ [k] ∧ metaAt (.struct mB) q = some y ∧ Fit (cx.change (p ++ [n])) x y ∧
      (∀ u1 u2, u = u1 ++ u2 → u1 ≠ [] → ∃ c, metaAt (.struct mB) (t ++ u1) = some (.struct c))) ∨
    (q = t ∧ (∃ c, x = .struct c) ∧ cx.path (p ++ [n]) = none ∧ cx.change (p ++ [n]) = none ∧ cx.post (p ++ [n]) = none)

/-- The operations for this node do not raise. -/
def Runs (cx : Cfg V) (mB : MFields) (q : List Name) (x : Node V) : Prop :=
  ∀ t y, Goes cx (.struct mB) q t → metaAt (.struct mB) t = some y →
    (∀ l v l', cx.change q = none → x = .leaf l (some v) → y = .leaf l' → ∃ w, cx.store l' v = .ok w) ∧
    (∀ f z, cx.change q = some (.custom f) → Typed z y → ∃ w, f x z = .ok w) ∧
    (∀ g z, cx.post q = some g → TypedAt z y → (∀ l v, x = .leaf l (some v) → cx.change q = none ∧ ∃ l' w, z = .leaf l' w ∧ cx.store l' v = .ok w) →
      ∃ w, g z = .ok w)

theorem at_tail {r c : Fields V} (h : ∀ k z, r.get? k = some z → c.get? k = some z) {A : Addr} {x : Node V}
    (hA : A ≠ []) (hx : (Node.struct r).at A = some x) : (Node.struct c).at A = some x := by
  cases A with
  | nil => exact absurd rfl hA
  | cons s A =>
    simp only [Node.at, Option.bind_eq_some_iff] at hx ⊢
    obtain ⟨z, h1, h2⟩ := hx
    obtain ⟨y, hy⟩ := item_get h1
    exact ⟨z, (item_congr (by rw [h _ _ hy, hy])).trans h1, h2⟩

/-- Children of the dictionary exist in structures of the target. -/
theorem child_there {root : Node V} {tm : Meta} (ht : Typed root tm) {t : Addr} {g : Fields V}
    (hg : root.at t = some (.struct g)) {k : Name} {y : Meta} (hy : metaAt tm (names t ++ [k]) = some y) :
    ∃ z, g.get? k = some z ∧ root.at (t ++ [(k, none)]) = some z ∧ Typed z y := by
  obtain ⟨M, h1, h2⟩ := typedAt_at (.inl ht) hg
  obtain ⟨mf, h3, h4⟩ := typedAt_struct h2
  have h5 := typed_get h3 k
  rw [metaAt_append, h1] at hy
  simp only [Option.bind_some, metaAt, h4] at hy
  cases hm : mget k mf with
  | none => rw [hm] at hy; simp at hy
  | some m' =>
    rw [hm] at hy h5
    simp only [Option.bind_some, Option.some.injEq] at hy
    subst hy
    obtain ⟨z, hz, tz⟩ := h5
    exact ⟨z, hz, by rw [at_append, hg]; simp [Node.at, Node.item, hz], tz⟩

theorem walk_plain {root : Node V} (u : List Name) : ∀ {t : Addr} {z : Node V}, root.at (t ++ plainAddr u) = some z →
    Walk root t (u.map (·, none)) (t ++ plainAddr u) := by
  induction u with
  | nil => intro t z _; simpa [plainAddr] using Walk.nil
  | cons k u ih =>
    intro t z h
    have e : t ++ plainAddr (k :: u) = t ++ [(k, none)] ++ plainAddr u := by simp [plainAddr]
    rw [e] at h ⊢
    have h1 : ∃ x, root.at (t ++ [(k, none)]) = some x := by
      rw [at_append] at h
      cases h2 : root.at (t ++ [(k, none)]) with
      | none => rw [h2] at h; simp at h
      | some x => exact ⟨x, rfl⟩
    obtain ⟨x, hx⟩ := h1
    exact .cons (.attr hx) (ih h)

theorem evals_plain {e : Path.Parsed → Except NavErr Int} (u : List Name) : Evals e (u.zip (u.map fun _ => none)) (u.map (·, none)) := by
  induction u with
  | nil => exact .nil
  | cons k u ih => exact .none ih

theorem gotoTarget_below {root : Node V} {t : Addr} {u : List Name} {z : Node V} (h : root.at (t ++ plainAddr u) = some z) :
    gotoTarget root t (names t ++ u) = .ok (some (t ++ plainAddr u)) := by
  have : goto (fun _ => none) 1 root t true ⟨names t ++ u, (names t ++ u).map fun _ => none⟩ = .ok (t ++ plainAddr u) := by
    have hc : common (t.map (·.1)) (names t ++ u) = t.length := by
      have := common_prefix (names t) u
      simpa [names] using this
    rw [goto_iff_aux (by simp) rfl]
    simp only [hc]
    refine ⟨fun x y hm => ?_, u.map (·, none), ?_, ?_⟩
    · have := List.mem_of_mem_take hm
      simp at this
    · have e1 : (names t ++ u).drop t.length = u := by
        rw [List.drop_append_of_le_length (by simp [names])]; simp [names]
      rw [← List.map_drop, e1]
      exact evals_plain u
    · rw [List.take_length]
      exact walk_plain u h
  unfold gotoTarget
  rw [this]

/-- Structures of the dictionary exist in the target. -/
theorem plain_there {root : Node V} {tm : Meta} (ht : Typed root tm) (u : List Name) : ∀ {t : Addr} {g : Fields V},
    root.at t = some (.struct g) →
    (∀ u1 u2, u = u1 ++ u2 → u1 ≠ [] → ∃ c, metaAt tm (names t ++ u1) = some (.struct c)) →
    ∃ g', root.at (t ++ plainAddr u) = some (.struct g') := by
  induction u with
  | nil => intro t g hg _; exact ⟨g, by simpa [plainAddr] using hg⟩
  | cons k u ih =>
    intro t g hg hu
    obtain ⟨c, hc⟩ := hu [k] u rfl (by simp)
    obtain ⟨z, -, hz, tz⟩ := child_there ht hg hc
    have e : t ++ plainAddr (k :: u) = t ++ [(k, none)] ++ plainAddr u := by simp [plainAddr]
    rw [e]
    cases z with
    | leaf => simp [Typed] at tz
    | aos => simp [Typed] at tz
    | struct g1 =>
      refine ih hz fun u1 u2 e1 h1 => ?_
      obtain ⟨c', hc'⟩ := hu (k :: u1) u2 (by rw [e1]; rfl) (by simp)
      exact ⟨c', by simpa [names] using hc'⟩

/-- The target of a child is found. -/
theorem getTarget_run {cx : Cfg V} {mA mB : MFields} (S : Smooth cx mA mB) {root : Node V} (ht : Typed root (.struct mB))
    {p : List Name} {t : Addr} {g : Fields V} (hg : root.at t = some (.struct g)) (hgo : Goes cx (.struct mB) p (names t))
    {n : Name} {x : Meta} (hx : metaAt (.struct mA) (p ++ [n]) = some x) :
    getTarget cx root (p ++ [n]) n t = .ok none ∨
    (∃ t' g' k y, (∃ u, t' = t ++ plainAddr u) ∧ root.at t' = some (.struct g') ∧
      getTarget cx root (p ++ [n]) n t = .ok (some (t' ++ [(k, none)])) ∧
      Goes cx (.struct mB) (p ++ [n]) (names t' ++ [k]) ∧ metaAt (.struct mB) (names t' ++ [k]) = some y ∧
      Fit (cx.change (p ++ [n])) x y) ∨
    (getTarget cx root (p ++ [n]) n t = .ok (some t) ∧ (∃ c, x = .struct c) ∧ cx.change (p ++ [n]) = none ∧
      cx.post (p ++ [n]) = none ∧ Goes cx (.struct mB) (p ++ [n]) (names t)) := by
  have hs := fun t' => goes_snoc hgo (n := n) (t' := t')
  unfold stepPath at hs
  unfold getTarget
  cases hp : cx.path (p ++ [n]) with
  | none =>
    right
    rw [hp] at hs
    simp only [Option.some.injEq] at hs
    have h1 := (hs _).2 rfl
    cases hm : metaAt (.struct mB) (names t ++ [n]) with
    | some y0 =>
      rw [hm] at h1
      simp only [Option.isSome_some, if_true] at h1
      rcases S p n _ _ x hx hgo h1 with ⟨u, k, y, e, h2, h3, -⟩ | ⟨e, -⟩
      · obtain ⟨z, hz, -⟩ := child_there ht hg h2
        exact .inl ⟨t, g, n, y, ⟨[], by simp [plainAddr]⟩, hg, by simp [sameName, hg, hz], h1, h2, h3⟩
      · have := congrArg List.length e
        simp at this
    | none =>
      rw [hm] at h1
      simp only [Option.isSome_none, Bool.false_eq_true, if_false] at h1
      rcases S p n _ _ x hx hgo h1 with ⟨u, k, y, e, -⟩ | ⟨-, h2, h3, h4, h5⟩
      · have := congrArg List.length e
        simp at this
      · refine .inr ⟨?_, h2, h4, h5, h1⟩
        have : g.get? n = none := by
          obtain ⟨M, h6, h7⟩ := typedAt_at (tm := .struct mB) (.inl ht) hg
          obtain ⟨mf, h8, h9⟩ := typedAt_struct h7
          have h10 := typed_get h8 n
          rw [metaAt_append, h6] at hm
          simp only [Option.bind_some, metaAt, h9] at hm
          cases hm' : mget n mf with
          | none => rw [hm'] at h10; exact h10
          | some m' => rw [hm'] at hm; simp at hm
        simp [sameName, hg, this]
  | some r =>
    cases r with
    | none => exact .inl rfl
    | some r =>
      right
      rw [hp] at hs
      simp only [Option.some.injEq] at hs
      have h1 := (hs _).2 rfl
      rcases S p n _ _ x hx hgo h1 with ⟨u, k, y, rfl, h2, h3, h4⟩ | ⟨-, -, h3, -⟩
      · obtain ⟨g', hg'⟩ := plain_there ht u hg h4
        have en : names (t ++ plainAddr u) ++ [k] = names t ++ u ++ [k] := by rw [names_append, names_plain]
        obtain ⟨z, -, hz, -⟩ := child_there ht hg' (by rw [en]; exact h2)
        refine .inl ⟨t ++ plainAddr u, g', k, y, ⟨u, rfl⟩, hg', ?_, by rw [en]; exact h1, by rw [en]; exact h2, h3⟩
        have e : t ++ plainAddr u ++ [(k, none)] = t ++ plainAddr (u ++ [k]) := by simp [plainAddr]
        simp only
        rw [List.append_assoc, e]
        exact gotoTarget_below (by rw [← e]; exact hz)
      · rw [hp] at h3; cases h3

/-- A write below `t`. -/
theorem write_run {f : Node V → Except ConvErr (Node V)} (hk : Keeps f) {root x y : Node V} {tm : Meta} {t u : Addr}
    (ht : Typed root tm) (hx : root.at (t ++ u) = some x) (hf : f x = .ok y) :
    ∃ root', writeAt root (t ++ u) f = .ok root' ∧ Typed root' tm ∧ Kept t root root' := by
  obtain ⟨root', h⟩ := writeAt_success hk.2 hx hf
  exact ⟨root', h, typed_writeAt hk ht h, (kept_writeAt hk.2 h).above⟩

theorem post_run {cx : Cfg V} (hp : Proper cx) {root x : Node V} {tm : Meta} {t u : Addr} {q : List Name}
    (ht : Typed root tm) (hx : root.at (t ++ u) = some x)
    (hr : ∀ g, cx.post q = some g → ∃ w, g x = .ok w) :
    ∃ root', postProcess cx q (t ++ u) root = .ok root' ∧ Typed root' tm ∧ Kept t root root' := by
  unfold postProcess
  cases hq : cx.post q with
  | none => exact ⟨root, rfl, ht, .refl _ _⟩
  | some g =>
    obtain ⟨w, hw⟩ := hr g hq
    exact write_run (hp.2 q g hq) ht hx hw

theorem elem_there {root : Node V} {t : Addr} {k : Name} {m : MFields} {e : Elems V} {i : Nat} {g : Fields V}
    (h : root.at (t ++ [(k, none)]) = some (.aos m e)) (hg : e.get? i = some g) :
    root.at (t ++ [(k, some i)]) = some (.struct g) := by
  rw [at_append] at h ⊢
  cases hr : root.at t with
  | none => rw [hr] at h; simp at h
  | some z =>
    rw [hr] at h
    simp only [Option.bind_some, Node.at, Option.bind_eq_some_iff] at h ⊢
    obtain ⟨u, h1, h2⟩ := h
    cases h2
    obtain ⟨c', e', h⟩ := item_cases h1
    cases e'
    rcases h with h | ⟨j, m1, e, f, h1, -⟩
    · exact ⟨_, by simp only [Node.item, h.2, hg, Option.map_some], rfl⟩
    · simp at h1

/-- Resizing works. -/
theorem resize_run {root : Node V} {tm : Meta} {t : Addr} {k : Name} {m : MFields} {e : Elems V}
    (ht : Typed root tm) (h : root.at (t ++ [(k, none)]) = some (.aos m e)) (s : Nat) :
    ∃ root', writeAt root (t ++ [(k, none)]) (resizeNode s) = .ok root' ∧ Typed root' tm ∧ Kept t root root' ∧
      root'.at (t ++ [(k, none)]) = some (.aos m (.ofList (List.replicate s m.fresh))) := by
  have hkf := keeps_resize (V := V) s
  obtain ⟨root1, h1⟩ := writeAt_success (f := resizeNode s) hkf.2 h (resizeNode_aos s m e)
  obtain ⟨z, z', h2, h3, h4⟩ := modify_at hkf.2 (writeAt_ok h1)
  rw [h] at h2; cases h2
  rw [resizeNode_aos] at h3; cases h3
  exact ⟨root1, h1, typed_writeAt hkf ht h1, (kept_writeAt hkf.2 h1).above, h4⟩

section
variable {cx : Cfg V} {mA mB : MFields}

mutual
theorem run_fields (hp : Proper cx) (S : Smooth cx mA mB) (p : List Name) (t : Addr) (c : Fields V) (hw : WFFields c)
    (root : Node V) (ht : Typed root (.struct mB)) (g : Fields V) (hg : root.at t = some (.struct g))
    (hgo : Goes cx (.struct mB) p (names t)) (M : Meta) (hM : metaAt (.struct mA) p = some M)
    (hc : ∀ n x, c.get? n = some x → ∃ m, child M n = some m ∧ Typed x m)
    (H : ∀ A x, A ≠ [] → (Node.struct c).at A = some x → x.hasValue = true → Runs cx mB (p ++ names A) x) :
    ∃ root', copyFields cx p t c root = .ok root' ∧ Typed root' (.struct mB) ∧ Kept t root root' := by
  cases c with
  | nil => exact ⟨root, by simp [copyFields], ht, Kept.refl _ _⟩
  | absent n m r =>
    simp only [copyFields]
    simp only [WFFields] at hw
    have hget : ∀ k x, r.get? k = some x → (Fields.absent n m r).get? k = some x := by
      intro k x h
      have hne : k ≠ n := by rintro rfl; exact hw.1 (Fields.mem_names_of_get h)
      simp [Fields.get?, hne, h]
    exact run_fields hp S p t r hw.2.2 root ht g hg hgo M hM (fun k x h => hc k x (hget k x h))
      (fun A x hA hx => H A x hA (at_tail hget hA hx))
  | present n x r =>
    simp only [copyFields]
    simp only [WFFields] at hw
    have hget : ∀ k z, r.get? k = some z → (Fields.present n x r).get? k = some z := by
      intro k z h
      have hne : k ≠ n := by rintro rfl; exact hw.1 (Fields.mem_names_of_get h)
      simp [Fields.get?, hne, h]
    have hrest : ∀ root1, Typed root1 (.struct mB) → Kept t root root1 →
        ∃ root', copyFields cx p t r root1 = .ok root' ∧ Typed root' (.struct mB) ∧ Kept t root root' := by
      intro root1 ht1 hk1
      obtain ⟨g1, hg1⟩ := hk1.struct t [] (by simp) g hg
      obtain ⟨root', h1, h2, h3⟩ := run_fields hp S p t r hw.2.2 root1 ht1 g1 hg1 hgo M hM
        (fun k x h => hc k x (hget k x h)) (fun A x hA hx => H A x hA (at_tail hget hA hx))
      exact ⟨root', h1, h2, hk1.trans h3⟩
    split
    · next hv =>
      refine andThen_success ?_ hrest
      obtain ⟨m, hm, htx⟩ := hc n x (by simp [Fields.get?])
      have hmx : metaAt (.struct mA) (p ++ [n]) = some m := by
        rw [metaAt_append, hM]; simp [metaAt, hm]
      rcases getTarget_run S ht hg hgo hmx with e | ⟨t', g', k, y, ⟨u, rfl⟩, hg', e, h1, h2, h3⟩ | ⟨e, ⟨c0, rfl⟩, h1, h2, h3⟩
      · rw [e]; exact ⟨root, rfl, ht, Kept.refl _ _⟩
      · rw [e]
        simp only
        obtain ⟨root', r1, r2, r3⟩ := run_item hp S (p ++ [n]) n (t ++ plainAddr u) k x hw.2.1 hv root ht g' hg' h1 m hmx htx y h2 h3
          ((H [(n, none)] x (by simp) (by simp [Node.at, Node.item, Fields.get?]) hv) _ _ h1 h2) (by
            intro i A z hA hz hvz
            have := H ((n, i) :: A) z (by simp) ?_ hvz
            · simpa [names] using this
            · refine at_tail ?_ (by simp) hz
              intro k z hk
              simp only [Fields.get?] at hk ⊢
              split at hk
              · next e => simpa [e] using hk
              · simp at hk)
        exact ⟨root', r1, r2, r3.above⟩
      · rw [e]
        simp only
        refine run_left hp S (p ++ [n]) t x hw.2.1 root ht g hg h3 c0 hmx htx h1 h2 ?_
        intro A z hA hz hvz
        have := H ((n, none) :: A) z (by simp) (by simpa [Node.at, Node.item, Fields.get?] using hz) hvz
        simpa [names] using this
    · exact hrest root ht (Kept.refl _ _)
termination_by structural c
theorem run_left (hp : Proper cx) (S : Smooth cx mA mB) (q : List Name) (t : Addr) (x : Node V)
    (hw : WF x) (root : Node V) (ht : Typed root (.struct mB)) (g : Fields V)
    (hg : root.at t = some (.struct g)) (hgo : Goes cx (.struct mB) q (names t)) (mf : MFields)
    (hm : metaAt (.struct mA) q = some (.struct mf)) (htx : Typed x (.struct mf)) (hch : cx.change q = none) (hpo : cx.post q = none)
    (H : ∀ A z, A ≠ [] → x.at A = some z → z.hasValue = true → Runs cx mB (q ++ names A) z) :
    ∃ root', copyItem cx q t x root = .ok root' ∧ Typed root' (.struct mB) ∧ Kept t root root' := by
  cases x with
  | leaf => simp [Typed] at htx
  | aos => simp [Typed] at htx
  | struct c =>
    simp only [Typed] at htx
    obtain ⟨root', h1, h2, h3⟩ := run_fields hp S q t c (by simpa only [WF] using hw) root ht g hg hgo (.struct mf) hm
      (fun n x hx => typed_child (c := c) (.inl (by simpa only [Typed] using htx)) hx) H
    refine ⟨root', ?_, h2, h3⟩
    simp only [copyItem, hch, h1, andThen, postProcess, hpo]
termination_by structural x
theorem run_item (hp : Proper cx) (S : Smooth cx mA mB) (q : List Name) (n : Name) (t : Addr) (k : Name) (x : Node V)
    (hw : WF x) (hv : x.hasValue = true) (root : Node V) (ht : Typed root (.struct mB)) (g : Fields V)
    (hg : root.at t = some (.struct g)) (hgo : Goes cx (.struct mB) q (names t ++ [k])) (m : Meta)
    (hm : metaAt (.struct mA) q = some m) (htx : Typed x m) (y : Meta)
    (hy : metaAt (.struct mB) (names t ++ [k]) = some y) (hfit : Fit (cx.change q) m y)
    (hrun : (∀ l v l', cx.change q = none → x = .leaf l (some v) → y = .leaf l' → ∃ w, cx.store l' v = .ok w) ∧
      (∀ f z, cx.change q = some (.custom f) → Typed z y → ∃ w, f x z = .ok w) ∧
      (∀ g z, cx.post q = some g → TypedAt z y → (∀ l v, x = .leaf l (some v) → cx.change q = none ∧ ∃ l' w, z = .leaf l' w ∧ cx.store l' v = .ok w) →
        ∃ w, g z = .ok w))
    (H : ∀ i A z, A ≠ [] → (Node.struct (.present n x .nil)).at ((n, i) :: A) = some z → z.hasValue = true →
      Runs cx mB (q ++ names A) z) :
    ∃ root', copyItem cx q (t ++ [(k, none)]) x root = .ok root' ∧ Typed root' (.struct mB) ∧ Kept t root root' := by
  obtain ⟨z, -, hz, tz⟩ := child_there ht hg hy
  have hn : ∀ i, names (t ++ [(k, i)]) = names t ++ [k] := fun i => by simp [names]
  have hpost0 : ∀ root1, Typed root1 (.struct mB) → Kept t root root1 →
      (∀ z, root1.at (t ++ [(k, none)]) = some z → ∀ l v, x = .leaf l (some v) → cx.change q = none ∧ ∃ l' w, z = .leaf l' w ∧ cx.store l' v = .ok w) →
      ∃ root', postProcess cx q (t ++ [(k, none)]) root1 = .ok root' ∧ Typed root' (.struct mB) ∧ Kept t root root' := by
    intro root1 h1 h2 hl
    obtain ⟨g1, hg1⟩ := h2.struct t [] (by simp) g hg
    obtain ⟨z1, -, hz1, tz1⟩ := child_there h1 hg1 hy
    obtain ⟨root', h3, h4, h5⟩ := post_run hp h1 hz1 (fun g hq => hrun.2.2 g z1 hq (.inl tz1) (hl z1 hz1))
    exact ⟨root', h3, h4, h2.trans h5⟩
  have hpost : (∀ l v, x ≠ .leaf l (some v)) → ∀ root1, Typed root1 (.struct mB) → Kept t root root1 →
      ∃ root', postProcess cx q (t ++ [(k, none)]) root1 = .ok root' ∧ Typed root' (.struct mB) ∧ Kept t root root' :=
    fun hn root1 h1 h2 => hpost0 root1 h1 h2 fun _ _ l v e => absurd e (hn l v)
  have hcust : ∀ f, cx.change q = some (.custom f) →
      ∃ root', writeAt root (t ++ [(k, none)]) (f x) = .ok root' ∧ Typed root' (.struct mB) ∧ Kept t root root' := by
    intro f e
    obtain ⟨w, hw⟩ := hrun.2.1 f z e tz
    exact write_run (hp.1 q f x e) ht hz hw
  have hch : ∀ (c : Fields V) mf, TypedF c mf → (m = .struct mf ∨ m = .aos mf) →
      ∀ n x, c.get? n = some x → ∃ m', child m n = some m' ∧ Typed x m' := by
    intro c mf h e n x hx
    refine typed_child (c := c) ?_ hx
    rcases e with rfl | rfl
    · exact .inl (by simpa only [Typed] using h)
    · exact .inr ⟨c, mf, rfl, rfl, h⟩
  cases x with
  | leaf l v =>
    simp only [copyItem]
    rcases hq : cx.change q with _ | (_ | f)
    · rw [hq] at hfit
      cases m with
      | struct => simp [Typed] at htx
      | aos => simp [Typed] at htx
      | leaf l0 =>
        cases y with
        | struct => simp [Fit] at hfit
        | aos => simp [Fit] at hfit
        | leaf l' =>
          cases z with
          | struct => simp [Typed] at tz
          | aos => simp [Typed] at tz
          | leaf l'' v' =>
            simp only [Typed] at tz
            subst tz
            cases v with
            | none => simp [Node.hasValue, leafHasValue] at hv
            | some v =>
              obtain ⟨w, hw'⟩ := hrun.1 l v l'' hq rfl rfl
              obtain ⟨root1, h1, h2, h3⟩ := write_run (keeps_store cx (some v)) ht hz (y := .leaf l'' w) (by simp [storeNode, hw'])
              obtain ⟨root2, h4, h5, h6⟩ := hpost0 root1 h2 h3 (by
                intro z1 hz1 l1 v1 e
                cases e
                obtain ⟨x1, y1, h7, h8, h9⟩ := modify_at (keeps_store cx (some v)).2 (writeAt_ok h1)
                rw [hz] at h7; cases h7
                rw [hz1] at h9; cases h9
                simp only [storeNode, hw', Except.ok.injEq] at h8
                exact ⟨hq, l'', w, h8.symm, hw'⟩)
              exact ⟨root2, andThen_ok.2 ⟨root1, h1, h4⟩, h5, h6⟩
    · rw [hq] at hfit
      cases m with
      | struct => simp [Typed] at htx
      | aos => simp [Typed] at htx
      | leaf l0 => simp [Fit] at hfit
    · exact hcust f hq
  | struct c =>
    simp only [copyItem]
    cases m with
    | leaf => simp [Typed] at htx
    | aos => simp [Typed] at htx
    | struct mf =>
    simp only [Typed] at htx
    have Hc : ∀ A z, A ≠ [] → (Node.struct c).at A = some z → z.hasValue = true → Runs cx mB (q ++ names A) z :=
      fun A z hA hz => H none A z hA (by simpa [Node.at, Node.item, Fields.get?] using hz)
    rcases hq : cx.change q with _ | (_ | f)
    · rw [hq] at hfit
      cases y with
      | leaf => simp [Fit] at hfit
      | aos => simp [Fit] at hfit
      | struct mf' =>
        cases z with
        | leaf => simp [Typed] at tz
        | aos => simp [Typed] at tz
        | struct g1 =>
          refine andThen_success ?_ (hpost (by simp))
          obtain ⟨root', h1, h2, h3⟩ := run_fields hp S q (t ++ [(k, none)]) c (by simpa only [WF] using hw) root ht g1 hz
            (by rw [hn]; exact hgo) (.struct mf) hm (hch c mf htx (.inl rfl)) Hc
          exact ⟨root', h1, h2, h3.above⟩
    · rw [hq] at hfit
      cases y with
      | leaf => simp [Fit] at hfit
      | struct => simp [Fit] at hfit
      | aos mf' =>
        cases z with
        | leaf => simp [Typed] at tz
        | struct => simp [Typed] at tz
        | aos m1 e1 =>
          simp only [Typed] at tz
          obtain ⟨rfl, -⟩ := tz
          have hisa : isAos root (t ++ [(k, none)]) = true := by simp [isAos, hz]
          simp only [hisa, if_true, elemOf_snoc]
          obtain ⟨root1, h1, h2, h3, h4⟩ := resize_run ht hz 1
          have h5 := elem_there h4 (ofList_replicate_some m1.fresh (i := 0) (by simp))
          obtain ⟨root2, h6, h7, h8⟩ := run_fields hp S q (t ++ [(k, some 0)]) c (by simpa only [WF] using hw) root1 h2 _ h5
            (by rw [hn]; exact hgo) (.struct mf) hm (hch c mf htx (.inl rfl)) Hc
          obtain ⟨g2, hg2⟩ := h8.struct (t ++ [(k, some 0)]) [] (by simp) _ h5
          obtain ⟨y0, h9, h10⟩ := typedAt_at (tm := .struct mB) (.inl h7) hg2
          rw [hn, hy] at h9
          cases h9
          obtain ⟨root3, h11, h12, h13⟩ := post_run hp h7 hg2 fun g hq => hrun.2.2 g _ hq h10 (fun _ _ e => by cases e)
          exact ⟨root3, andThen_ok.2 ⟨root2, andThen_ok.2 ⟨root1, h1, h6⟩, h11⟩, h12, (h3.trans h8.above).trans h13⟩
    · exact hcust f hq
  | aos m0 es =>
    simp only [copyItem]
    cases m with
    | leaf => simp [Typed] at htx
    | struct => simp [Typed] at htx
    | aos mf =>
    simp only [Typed] at htx
    obtain ⟨rfl, hte⟩ := htx
    simp only [WF] at hw
    have He : ∀ i c, es.get? i = some c → ∀ A z, A ≠ [] → (Node.struct c).at A = some z → z.hasValue = true →
        Runs cx mB (q ++ names A) z :=
      fun i c hi A z hA hz => H (some i) A z hA (by simpa [Node.at, Node.item, Fields.get?, hi] using hz)
    rcases hq : cx.change q with _ | (_ | f)
    · rw [hq] at hfit
      cases y with
      | leaf => simp [Fit] at hfit
      | struct => simp [Fit] at hfit
      | aos mf' =>
        cases z with
        | leaf => simp [Typed] at tz
        | struct => simp [Typed] at tz
        | aos m1 e1 =>
          refine andThen_success ?_ (hpost (by simp))
          obtain ⟨root1, h1, h2, h3, h4⟩ := resize_run ht hz es.length
          obtain ⟨root2, h5, h6, h7⟩ := run_elems hp S q t k 0 es hw.2 root1 h2 hgo m0 hm hte m1 _ h4
            (by rw [ofList_length]; simp) He
          exact ⟨root2, andThen_ok.2 ⟨root1, h1, h5⟩, h6, h3.trans h7⟩
    · rw [hq] at hfit
      cases y with
      | leaf => simp [Fit] at hfit
      | aos => simp [Fit] at hfit
      | struct mf' =>
        cases z with
        | leaf => simp [Typed] at tz
        | aos => simp [Typed] at tz
        | struct g1 =>
          have hiss : isStruct root (t ++ [(k, none)]) = true := by simp [isStruct, hz]
          simp only [hiss, if_true]
          exact run_single hp S q t k es hw.2 root ht g1 hz hgo m0 hm hte (hpost (by simp)) He
    · exact hcust f hq
termination_by structural x
theorem run_single (hp : Proper cx) (S : Smooth cx mA mB) (q : List Name) (t : Addr) (k : Name) (es : Elems V)
    (hw : WFElems es) (root : Node V) (ht : Typed root (.struct mB)) (g : Fields V)
    (hg : root.at (t ++ [(k, none)]) = some (.struct g)) (hgo : Goes cx (.struct mB) q (names t ++ [k])) (mf : MFields)
    (hm : metaAt (.struct mA) q = some (.aos mf)) (hte : TypedE es mf)
    (hpost : ∀ root1, Typed root1 (.struct mB) → Kept t root root1 →
      ∃ root', postProcess cx q (t ++ [(k, none)]) root1 = .ok root' ∧ Typed root' (.struct mB) ∧ Kept t root root')
    (H : ∀ i c, es.get? i = some c → ∀ A z, A ≠ [] → (Node.struct c).at A = some z → z.hasValue = true →
      Runs cx mB (q ++ names A) z) :
    ∃ root', copySingle cx q (t ++ [(k, none)]) es root = .ok root' ∧ Typed root' (.struct mB) ∧ Kept t root root' := by
  cases es with
  | nil => exact ⟨root, by simp [copySingle], ht, Kept.refl _ _⟩
  | cons c r =>
    cases r with
    | cons => exact ⟨root, by simp [copySingle], ht, Kept.refl _ _⟩
    | nil =>
      simp only [copySingle]
      simp only [WFElems] at hw
      simp only [TypedE] at hte
      refine andThen_success ?_ hpost
      obtain ⟨root', h1, h2, h3⟩ := run_fields hp S q (t ++ [(k, none)]) c hw.1 root ht g hg
        (by have : names (t ++ [(k, none)]) = names t ++ [k] := by simp [names]
            rw [this]; exact hgo) (.aos mf) hm
        (fun n x hx => typed_child (c := c) (.inr ⟨c, mf, rfl, rfl, hte.1⟩) hx) (H 0 c (by simp [Elems.get?]))
      exact ⟨root', h1, h2, h3.above⟩
termination_by structural es
theorem run_elems (hp : Proper cx) (S : Smooth cx mA mB) (q : List Name) (t : Addr) (k : Name) (i : Nat) (es : Elems V)
    (hw : WFElems es) (root : Node V) (ht : Typed root (.struct mB)) (hgo : Goes cx (.struct mB) q (names t ++ [k]))
    (mf : MFields) (hm : metaAt (.struct mA) q = some (.aos mf)) (hte : TypedE es mf) (m1 : MFields) (e : Elems V)
    (hb : root.at (t ++ [(k, none)]) = some (.aos m1 e)) (hl : e.length = i + es.length)
    (H : ∀ i c, es.get? i = some c → ∀ A z, A ≠ [] → (Node.struct c).at A = some z → z.hasValue = true →
      Runs cx mB (q ++ names A) z) :
    ∃ root', copyElems cx q (t ++ [(k, none)]) i es root = .ok root' ∧ Typed root' (.struct mB) ∧ Kept t root root' := by
  cases es with
  | nil => exact ⟨root, by simp [copyElems], ht, Kept.refl _ _⟩
  | cons c r =>
    simp only [copyElems, elemOf_snoc]
    simp only [WFElems] at hw
    simp only [TypedE] at hte
    simp only [Elems.length] at hl
    obtain ⟨g, hg⟩ := get_some_of_lt (e := e) (i := i) (by omega)
    have hgt := elem_there hb hg
    obtain ⟨root1, h1, h2, h3⟩ := run_fields hp S q (t ++ [(k, some i)]) c hw.1 root ht g hgt
      (by have : names (t ++ [(k, some i)]) = names t ++ [k] := by simp [names]
          rw [this]; exact hgo) (.aos mf) hm
      (fun n x hx => typed_child (c := c) (.inr ⟨c, mf, rfl, rfl, hte.1⟩) hx) (H 0 c (by simp [Elems.get?]))
    obtain ⟨e', h4, h5⟩ := h3.array t k i [] rfl m1 e hb
    obtain ⟨root', h6, h7, h8⟩ := run_elems hp S q t k (i + 1) r hw.2 root1 h2 hgo mf hm hte.2 m1 e' h4
      (by omega) (fun j c h => H (j + 1) c (by simpa [Elems.get?] using h))
    exact ⟨root', andThen_ok.2 ⟨root1, h1, h6⟩, h7, h3.above.trans h8⟩
termination_by structural es
end

/-- A conversion succeeds if no operation on a single node raises. -/
theorem copyIds_run (hp : Proper cx) (S : Smooth cx mA mB) {source : Fields V} (hw : WFMFields mA) (ht : TypedF source mA)
    {target : Node V} (htt : Typed target (.struct mB))
    (H : ∀ A x, A ≠ [] → (Node.struct source).at A = some x → x.hasValue = true → Runs cx mB (names A) x) :
    ∃ result, copyIds cx source target = .ok result := by
  cases target with
  | leaf => simp [Typed] at htt
  | aos => simp [Typed] at htt
  | struct g =>
    obtain ⟨r, h, -⟩ := run_fields hp S [] [] source (wf_of_typedF _ _ ht hw) (.struct g) htt g rfl (by simp [Goes, pathFrom, names])
      (.struct mA) rfl (fun n x hx => typed_child (c := source) (.inl (by simpa only [Typed] using ht)) hx)
      (fun A x hA hx hv => H A x hA hx hv)
    exact ⟨r, h⟩

end

end Verif.Convert
