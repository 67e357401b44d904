import Verif.Lemmas.HeapStep
namespace Verif.Heap
open Verif.Ids Verif.HeapSpec

variable {V B W C : Type} {M : Memory V B W} {h0 h h' : Heap V B W C}

/-! ### Copying ends -/

theorem setParent_ok {r p : Ref} {n : Node V} (hs : Shows M h r n) : ∃ h', setParent h r p = .ok h' := by
  cases hs with
  | unset hx => exact ⟨_, by simp only [setParent, hx]; rfl⟩
  | leaf hx => exact ⟨_, by simp only [setParent, hx]; rfl⟩
  | struct hx => exact ⟨_, by simp only [setParent, hx]; rfl⟩
  | aos hx => exact ⟨_, by simp only [setParent, hx]; rfl⟩

theorem copyValue_ok (snd : Sound true h0) {s : St V B W C} (hs : CopyState M h0 s) {a : Ref}
    (ha : a < h0.next) {v : V} (hv : h0.val M a = some v) : ∃ s' y, copyValue M s a = .ok (s', y) := by
  have hv' : s.heap.val M a = some v := by rw [old_val hs snd ha]; exact hv
  unfold copyValue
  rcases val_cases hv with hx | ⟨b, w, x, hx, _, _⟩
  · rw [(old_get hs ha).2 hx]
    exact ⟨_, _, rfl⟩
  · rw [(old_get hs ha).2 hx]
    cases hl : s.memo.lookup a with
    | none => simp only [hv']; exact ⟨_, _, rfl⟩
    | some y =>
      obtain ⟨i', w', hy⟩ := (hs.memo _ (lookup_mem hl)).arr b w hx
      simp only [hy]
      exact ⟨_, _, rfl⟩

/-- Copying succeeds for this object. -/
def Ends (M : Memory V B W) (h0 : Heap V B W C) (fuel : Nat) (r : Ref) : Prop :=
  ∀ s, CopyState M h0 s → ∃ s' y, deepcopy M fuel s r = .ok (s', y)

theorem new_of (fuel : Nat) : ∀ s r s' y, CopyState M h0 s → deepcopy M fuel s r = .ok (s', y) → New h0 y :=
  fun s r s' y c h => (deepcopy_new M h0 fuel _ s r s' y c.fresh c.new h).2.1

/-- One child, after which its parent is set. -/
theorem one_ok (snd : Sound true h0) {fuel : Nat} {r c : Ref} {n : Node V} (hcc : h0.next ≤ c)
    (hp : Plain h0 [r]) (hr : r < h0.next) (hn : Shows M h0 r n) {s : St V B W C} (hs : CopyState M h0 s)
    (he : Ends M h0 fuel r) :
    ∃ s1 y h2, deepcopy M fuel s r = .ok (s1, y) ∧ setParent s1.heap y c = .ok h2 ∧
      CopyState M h0 { s1 with heap := h2 } := by
  obtain ⟨s1, y, h1⟩ := he s hs
  obtain ⟨a1, b1, c1⟩ := deepcopy_shows snd fuel s r s1 y hs hp hr h1
  obtain ⟨h2, h3⟩ := setParent_ok (p := c) (c1.shows n hn)
  have hy := new_of fuel s r s1 y hs h1
  have a2 := setParent_same c1.lt h3
  exact ⟨s1, y, h2, h1, h3, b1.step a2 ((b1.fresh.setParent hy hcc h3).weaken fun _ _ => trivial)
    (b1.plain.setParent h3)⟩

mutual
theorem deepcopy_ends (snd : Sound true h0) : ∀ (n : Node V), ∃ k, ∀ fuel, k ≤ fuel → ∀ r, Plain h0 [r] →
    r < h0.next → Shows M h0 r n → Ends M h0 fuel r
  | .leaf l v => by
    refine ⟨1, ?_⟩
    intro fuel hf r hp hr hn s hs
    obtain ⟨fuel, rfl⟩ : ∃ k, fuel = k + 1 := ⟨fuel - 1, by omega⟩
    unfold deepcopy
    cases hl : s.memo.lookup r with
    | some y => exact ⟨_, _, rfl⟩
    | none =>
      cases hn with
      | unset hx => rw [(old_get hs hr).2 hx]; exact ⟨_, _, rfl⟩
      | @leaf _ _ a p _ hx hv =>
        rw [(old_get hs hr).2 hx]
        obtain ⟨s1, y, h1⟩ := copyValue_ok snd hs (snd.refs r _ hx a (.inl rfl)) hv
        simp only [h1]
        exact ⟨_, _, rfl⟩
  | .struct t => by
    obtain ⟨k, hk⟩ := kids_end snd t
    refine ⟨k + 1, ?_⟩
    intro fuel hf r hp hr hn s hs
    obtain ⟨fuel, rfl⟩ : ∃ k, fuel = k + 1 := ⟨fuel - 1, by omega⟩
    unfold deepcopy
    cases hl : s.memo.lookup r with
    | some y => exact ⟨_, _, rfl⟩
    | none =>
      cases hn with
      | @struct _ q m d p tt z x _ hx hc =>
        rw [(old_get hs hr).2 hx]
        have hz : z = false := by
          have := plain_self hp
          rw [isLazy_eq, hx] at this; exact this
        subst hz
        have hb := hs.step (reserve_same _) hs.fresh.reserve hs.plain.reserve
        obtain ⟨s1, kk, h1⟩ := hk fuel (by omega) s.heap.next hs.fresh.next d m
          (fun n e he => ⟨plain_refers hp hx (.inl ⟨n, he⟩), snd.refs r _ hx e (.inl ⟨n, he⟩)⟩) hc _ hb
        simp only [Bool.false_eq_true, if_false]
        simp only [Heap.reserve] at h1 ⊢
        rw [h1]
        exact ⟨_, _, rfl⟩
  | .aos m e => by
    obtain ⟨k, hk⟩ := items_end snd e
    refine ⟨k + 1, ?_⟩
    intro fuel hf r hp hr hn s hs
    obtain ⟨fuel, rfl⟩ : ∃ k, fuel = k + 1 := ⟨fuel - 1, by omega⟩
    unfold deepcopy
    cases hl : s.memo.lookup r with
    | some y => exact ⟨_, _, rfl⟩
    | none =>
      cases hn with
      | @aos _ q m i p z x _ hx hc =>
        rw [(old_get hs hr).2 hx]
        have hpp : h0.isLazy p = false := plain_self (plain_refers hp hx (.inr ⟨rfl, rfl⟩))
        have hp1 : p < h0.next := snd.refs r _ hx p (.inr ⟨rfl, rfl⟩)
        have hb := hs.step (reserve_same _) hs.fresh.reserve hs.plain.reserve
        obtain ⟨s1, kk, h1⟩ := hk fuel (by omega) s.heap.next hs.fresh.next i
          (fun e he => ⟨plain_refers hp hx (.inl ⟨_, rfl, he⟩), snd.refs r _ hx e (.inl ⟨_, rfl, he⟩)⟩) hc _ hb
        simp only [old_lazy hs hp1, hpp, Bool.false_eq_true, if_false]
        simp only [Heap.reserve] at h1 ⊢
        rw [h1]
        exact ⟨_, _, rfl⟩
theorem kids_end (snd : Sound true h0) : ∀ (t : Fields V), ∃ k : Nat, ∀ fuel, k ≤ fuel → ∀ c, h0.next ≤ c →
    ∀ (d : Name → Option Ref) m, (∀ n r, d n = some r → Plain h0 [r] ∧ r < h0.next) → ShowsFields M h0 d m t →
    ∀ s, CopyState M h0 s → ∃ s' kk, copyKids (deepcopy M fuel) c d m s = .ok (s', kk)
  | .nil => by
    refine ⟨0, ?_⟩
    intro fuel _ c _ d m _ hs s _
    cases hs
    exact ⟨_, _, rfl⟩
  | .absent n mm r => by
    obtain ⟨k, hk⟩ := kids_end snd r
    refine ⟨k, ?_⟩
    intro fuel hf c hc d m hd hs s hcs
    cases hs with
    | absent h1 h2 =>
      unfold copyKids
      rw [h1]
      exact hk fuel hf c hc d _ hd h2 s hcs
  | .present n x r => by
    obtain ⟨k1, hk1⟩ := deepcopy_ends snd x
    obtain ⟨k2, hk2⟩ := kids_end snd r
    refine ⟨k1 + k2, ?_⟩
    intro fuel hf c hc d m hd hs s hcs
    cases hs with
    | @present _ _ _ rest _ y _ h1 hx h2 =>
      obtain ⟨s1, z, h3, e1, e2, e3⟩ := one_ok snd hc (hd _ _ h1).1 (hd _ _ h1).2 hx hcs
        (hk1 fuel (by omega) y (hd _ _ h1).1 (hd _ _ h1).2 hx)
      obtain ⟨s2, kk, e4⟩ := hk2 fuel (by omega) c hc d _ hd h2 _ e3
      unfold copyKids
      rw [h1]
      simp only [e1, bind, Except.bind, e2, e4]
      exact ⟨_, _, rfl⟩
theorem items_end (snd : Sound true h0) : ∀ (t : Elems V), ∃ k : Nat, ∀ fuel, k ≤ fuel → ∀ c, h0.next ≤ c →
    ∀ (l : List (Option Ref)), (∀ r, some r ∈ l → Plain h0 [r] ∧ r < h0.next) → ShowsElems M h0 l t →
    ∀ s, CopyState M h0 s → ∃ s' kk, copyItems (deepcopy M fuel) c l s = .ok (s', kk)
  | .nil => by
    refine ⟨0, ?_⟩
    intro fuel _ c _ l _ hs s _
    cases hs
    exact ⟨_, _, rfl⟩
  | .cons x r => by
    obtain ⟨k1, hk1⟩ := kids_end snd x
    obtain ⟨k2, hk2⟩ := items_end snd r
    refine ⟨k1 + 1 + k2, ?_⟩
    intro fuel hf c hc l hd hs s hcs
    cases hs with
    | @cons y _ rest _ hx h2 =>
      have hy := hd y (List.mem_cons_self ..)
      have hends : Ends M h0 fuel y := by
        intro s hs
        obtain ⟨fuel, rfl⟩ : ∃ k, fuel = k + 1 := ⟨fuel - 1, by omega⟩
        unfold deepcopy
        cases hl : s.memo.lookup y with
        | some y => exact ⟨_, _, rfl⟩
        | none =>
          cases hx with
          | @struct _ q m d p tt z x _ hx hc =>
            rw [(old_get hs hy.2).2 hx]
            have hz : z = false := by
              have := plain_self hy.1
              rw [isLazy_eq, hx] at this; exact this
            subst hz
            have hb := hs.step (reserve_same _) hs.fresh.reserve hs.plain.reserve
            obtain ⟨s1, kk, h1⟩ := hk1 fuel (by omega) s.heap.next hs.fresh.next d m
              (fun n e he => ⟨plain_refers hy.1 hx (.inl ⟨n, he⟩), snd.refs y _ hx e (.inl ⟨n, he⟩)⟩) hc _ hb
            simp only [Bool.false_eq_true, if_false]
            simp only [Heap.reserve] at h1 ⊢
            rw [h1]
            exact ⟨_, _, rfl⟩
      obtain ⟨s1, z, h3, e1, e2, e3⟩ := one_ok snd hc hy.1 hy.2 hx hcs hends
      obtain ⟨s2, kk, e4⟩ := hk2 fuel (by omega) c hc rest (fun r hr => hd r (List.mem_cons_of_mem _ hr)) h2 _ e3
      unfold copyItems
      simp only [e1, bind, Except.bind, e2, e4]
      exact ⟨_, _, rfl⟩
end

end Verif.Heap
