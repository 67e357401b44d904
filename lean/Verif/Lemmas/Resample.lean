import Verif.Spec.Resample
import Verif.Lemmas.MapLeaves
import Verif.Lemmas.Update
import Verif.Lemmas.DiffAddr
set_option linter.unusedSectionVars false
namespace Verif.Resample
open Verif.Ids Verif.ResampleSpec Verif.TreeSpec Verif.DiffSpec Verif.Convert

variable {F : Type}

/-! ### Arrays -/

theorem allSome_iff {A : Type} {l : List (Option A)} {r : List A} : allSome l = some r ↔ l = r.map some := by
  induction l generalizing r with
  | nil => cases r <;> simp [allSome]
  | cons x l ih =>
    cases x with
    | none => cases r <;> simp [allSome]
    | some a =>
      cases h : allSome l with
      | none =>
        simp only [allSome, h]
        constructor
        · intro h'; cases h'
        · intro h'
          cases r with
          | nil => simp at h'
          | cons b r =>
            simp only [List.map_cons, List.cons.injEq] at h'
            rw [(ih (r := r)).2 h'.2] at h; cases h
      | some l' =>
        have := ih.1 h
        subst this
        simp only [allSome, h, Option.some.injEq]
        constructor
        · rintro rfl; rfl
        · intro h'
          cases r with
          | nil => simp at h'
          | cons b r =>
            simp only [List.map_cons, List.cons.injEq, Option.some.injEq] at h'
            obtain ⟨rfl, h'⟩ := h'
            have := (ih (r := r)).2 h'
            rw [h] at this
            simp at this; rw [this]

theorem inside_length {idx s : List Nat} (h : Inside idx s) : idx.length = s.length := by
  induction idx generalizing s with
  | nil => cases s <;> simp_all [Inside]
  | cons i is ih =>
    cases s with
    | nil => simp [Inside] at h
    | cons n s => simp [ih h.2]

theorem inside_get {idx s : List Nat} (h : Inside idx s) {k n : Nat} (hk : s[k]? = some n) :
    ∃ j, idx[k]? = some j ∧ j < n := by
  induction idx generalizing s k with
  | nil => cases s <;> simp_all [Inside]
  | cons i is ih =>
    cases s with
    | nil => simp [Inside] at h
    | cons m s =>
      cases k with
      | zero => simp at hk; subst hk; exact ⟨i, by simp, h.1⟩
      | succ k => simpa using ih h.2 (by simpa using hk)

theorem arrSize_cons (n : Nat) (s : List Nat) : arrSize (n :: s) = n * arrSize s := by simp [arrSize]

theorem offset_lt {idx s : List Nat} (h : Inside idx s) : offset s idx < arrSize s := by
  induction idx generalizing s with
  | nil => cases s <;> simp_all [Inside, offset, arrSize]
  | cons i is ih =>
    cases s with
    | nil => simp [Inside] at h
    | cons n s =>
      have h1 := ih h.2
      have h2 := h.1
      rw [arrSize_cons, offset]
      calc i + n * offset s is < n + n * offset s is := by omega
        _ = n * (offset s is + 1) := by rw [Nat.mul_add, Nat.mul_one, Nat.add_comm]
        _ ≤ n * arrSize s := Nat.mul_le_mul_left n h1

theorem inside_take {idx s : List Nat} (h : Inside idx s) (k : Nat) : Inside (idx.take k) (s.take k) := by
  induction idx generalizing s k with
  | nil => cases s <;> simp_all [Inside]
  | cons i is ih =>
    cases s with
    | nil => simp [Inside] at h
    | cons n s =>
      cases k with
      | zero => simp [Inside]
      | succ k => exact ⟨h.1, ih h.2 k⟩

theorem inside_drop {idx s : List Nat} (h : Inside idx s) (k : Nat) : Inside (idx.drop k) (s.drop k) := by
  induction idx generalizing s k with
  | nil => cases s <;> simp_all [Inside]
  | cons i is ih =>
    cases s with
    | nil => simp [Inside] at h
    | cons n s =>
      cases k with
      | zero => exact h
      | succ k => exact ih h.2 k

/-- The position of an item, seen from one dimension. -/
theorem offset_split {s idx : List Nat} {k n i : Nat} (hl : idx.length = s.length) (hs : s[k]? = some n)
    (hi : idx[k]? = some i) :
    offset s idx = offset (s.take k) (idx.take k) +
      arrSize (s.take k) * (i + n * offset (s.drop (k + 1)) (idx.drop (k + 1))) := by
  induction k generalizing s idx with
  | zero =>
    cases s with
    | nil => simp at hs
    | cons m s =>
      cases idx with
      | nil => simp at hi
      | cons j is =>
        simp at hs hi; subst hs; subst hi
        simp [offset, arrSize]
  | succ k ih =>
    cases s with
    | nil => simp at hs
    | cons m s =>
      cases idx with
      | nil => simp at hi
      | cons j is =>
        simp only [List.length_cons, Nat.add_right_cancel_iff] at hl
        have := ih hl (by simpa using hs) (by simpa using hi)
        simp only [List.take_succ_cons, List.drop_succ_cons, offset, this, arrSize_cons]
        rw [Nat.mul_add, Nat.mul_assoc, Nat.add_assoc]

/-- Interpolating an array interpolates each of its lines. -/
theorem interpArray_along {P : Scipy F} {k : Nat} {old new : List F} {t : BaseType} {s : List Nat}
    {d : List (Scalar F)} {s' : List Nat} {d' : List (Scalar F)}
    (h : interpArray P k old new t s d = some (s', d')) : Along P k old new t s d s' d' := by
  unfold interpArray at h
  split at h
  · cases h
  · next n hn =>
    by_cases h1 : n ≠ old.length
    · rw [if_pos h1] at h; cases h
    · have hno : n = old.length := by omega
      rw [if_neg h1] at h
      split at h
      · cases h
      · simp only at h
        split at h
        · cases h
        · next r hr =>
          simp only [Option.some.injEq, Prod.mk.injEq] at h
          obtain ⟨rfl, rfl⟩ := h
          have hr := allSome_iff.1 hr
          have hlen : r.length = arrSize (s.set k new.length) := by
            have := congrArg List.length hr
            simpa using this.symm
          refine ⟨by rw [hn, hno], rfl, hlen, ?_⟩
          intro idx hin
          have hk : k < s.length := by
            rcases Nat.lt_or_ge k s.length with h | h
            · exact h
            · rw [List.getElem?_eq_none h] at hn; cases hn
          have hset : (s.set k new.length)[k]? = some new.length := by simp [hk]
          obtain ⟨j, hj, hjn⟩ := inside_get hin hset
          have hil := inside_length hin
          have hsp := offset_split hil hset hj
          have htk : (s.set k new.length).take k = s.take k := by
            rw [List.take_set]; exact List.set_eq_of_length_le (by simp; omega)
          have hdk : (s.set k new.length).drop (k + 1) = s.drop (k + 1) := by
            rw [List.drop_set]; simp
          rw [htk, hdk] at hsp
          have hp : offset (s.take k) (idx.take k) < arrSize (s.take k) := by
            have := offset_lt (inside_take hin k)
            rwa [htk] at this
          generalize hpe : offset (s.take k) (idx.take k) = p at hsp hp
          generalize hqe : offset (s.drop (k + 1)) (idx.drop (k + 1)) = q at hsp
          generalize hPe : arrSize (s.take k) = N at hsp hp
          have ho := offset_lt hin
          rw [hsp] at ho
          have hmod : (p + N * (j + new.length * q)) % N = p := by
            rw [Nat.add_mul_mod_self_left, Nat.mod_eq_of_lt hp]
          have hdiv : (p + N * (j + new.length * q)) / N = j + new.length * q := by
            rw [Nat.add_mul_div_left _ _ (by omega), Nat.div_eq_of_lt hp, Nat.zero_add]
          have hj1 : (j + new.length * q) % new.length = j := by
            rw [Nat.add_mul_mod_self_left, Nat.mod_eq_of_lt hjn]
          have hj2 : (j + new.length * q) / new.length = q := by
            rw [Nat.add_mul_div_left _ _ (by omega), Nat.div_eq_of_lt hjn, Nat.zero_add]
          have hat := congrArg (fun l => l[p + N * (j + new.length * q)]?) hr
          simp only [List.getElem?_map, List.getElem?_range ho, Option.map_some, hPe, hmod, hdiv, hj1, hj2] at hat
          have hro : p + N * (j + new.length * q) < r.length := by rw [hlen]; exact ho
          rw [List.getElem?_eq_getElem hro, Option.map_some, Option.some.injEq] at hat
          split at hat
          · next ys x hys hx =>
            have hys := allSome_iff.1 hys
            have hyl : ys.length = n := by
              have := congrArg List.length hys
              simpa using this.symm
            refine ⟨j, x, ys, _, hj, hx, by rw [hyl, hno], ?_, hat, ?_⟩
            · intro i hi
              have hi' : i < n := by omega
              have hsp2 := offset_split (s := s) (idx := idx.set k i) (k := k) (n := n) (i := i)
                (by simpa using hil) hn (by
                  have : k < idx.length := by
                    have := hil; simp at this; omega
                  simp [this])
              have htk2 : (idx.set k i).take k = idx.take k := by
                rw [List.take_set]; exact List.set_eq_of_length_le (by simp; omega)
              have hdk2 : (idx.set k i).drop (k + 1) = idx.drop (k + 1) := by
                rw [List.drop_set]; simp
              rw [htk2, hdk2, hpe, hqe, hPe] at hsp2
              have hat2 := congrArg (fun l => l[i]?) hys
              simp only [List.getElem?_map, List.getElem?_range hi', Option.map_some] at hat2
              have hyi : i < ys.length := by omega
              rw [List.getElem?_eq_getElem hyi, Option.map_some, Option.some.injEq] at hat2
              unfold item
              rw [hsp2, hat2, List.getElem?_eq_getElem hyi]
            · unfold item
              rw [hsp, List.getElem?_eq_getElem hro]
          · cases hat

theorem timeIndexFrom_spec {i k : Nat} {cs : List Coord.Coordinate} (h : timeIndexFrom i cs = some k) :
    i ≤ k ∧ (∃ c, cs[k - i]? = some c ∧ c.isTime = true) ∧
      ∀ j < k - i, ∀ c, cs[j]? = some c → c.isTime = false := by
  induction cs generalizing i with
  | nil => cases h
  | cons c r ih =>
    unfold timeIndexFrom at h
    split at h
    · next hc =>
      cases h
      exact ⟨Nat.le_refl _, ⟨c, by simp, hc⟩, by intro j hj; omega⟩
    · next hc =>
      obtain ⟨h1, ⟨x, h2, h3⟩, h4⟩ := ih h
      have hk : k - i = (k - (i + 1)) + 1 := by omega
      refine ⟨by omega, ⟨x, by rw [hk]; simpa using h2, h3⟩, ?_⟩
      intro j hj y hy
      cases j with
      | zero => simp at hy; subst hy; simpa using hc
      | succ j => exact h4 j (by omega) y (by simpa using hy)

theorem timeIndex_spec {d : Dict} {q : List Name} {k : Nat} (h : timeIndex d q = some k) :
    TimeDim d q k := by
  obtain ⟨_, h2, h3⟩ := timeIndexFrom_spec h
  unfold TimeDim
  simpa using And.intro h2 h3

theorem timeIndexFrom_none {i : Nat} {cs : List Coord.Coordinate} :
    timeIndexFrom i cs = none ↔ ∀ c ∈ cs, c.isTime = false := by
  induction cs generalizing i with
  | nil => simp [timeIndexFrom]
  | cons c r ih =>
    simp only [timeIndexFrom]
    split
    · next h => simp [h]
    · next h => simp [ih, h]

theorem interpValue_spec {P : Scipy F} {d : Dict} {q : List Name} {old new : List F} {v w : Val F}
    (h : interpValue P (timeIndex d q) old new v = some w) : Resampled P d old new q v w := by
  unfold interpValue at h
  split at h
  · split at h
    · cases h
    · next k hk =>
      split at h
      · cases h
      · next s' d' hd =>
        cases h
        exact ⟨k, _, _, _, _, _, rfl, rfl, timeIndex_spec hk, interpArray_along hd⟩
  · cases h

/-! ### Trees -/

variable [FloatModel F]

/-- What the visit makes of a value. -/
def visited (P : Scipy F) (d : Dict) (old new : List F) (q : List Name) (a : Addr) (l : LeafMeta)
    (v : Val F) : Val F :=
  if Value.isEmpty v then v
  else match visitor P d old new (q ++ names a) l v with
    | .ok w => w
    | .error _ => v

variable (P : Scipy F) (d : Dict) (old new : List F) (q : List Name)

mutual
theorem visited_empty (a : Addr) (x : Node (Val F)) (h : x.hasValue = false) :
    mapNode (visited P d old new q) a x = x := by
  cases x with
  | leaf l v =>
    cases v with
    | none => rfl
    | some v =>
      simp only [Node.hasValue, leafHasValue, Bool.not_eq_false'] at h
      simp [mapNode, visited, h]
  | struct c =>
    simp only [Node.hasValue] at h
    simp only [mapNode, visited_emptyF a c h]
  | aos m e =>
    cases e with
    | nil => rfl
    | cons c r => simp [Node.hasValue, Elems.length] at h
theorem visited_emptyF (a : Addr) (c : Fields (Val F)) (h : c.hasValue = false) :
    mapFields (visited P d old new q) a c = c := by
  cases c with
  | nil => rfl
  | absent n m r =>
    simp only [Fields.hasValue] at h
    simp only [mapFields, visited_emptyF a r h]
  | present n x r =>
    simp only [Fields.hasValue, Bool.or_eq_false_iff] at h
    simp only [mapFields, visited_empty _ x h.1, visited_emptyF a r h.2]
end

theorem names_elemOf (a : Addr) (i : Nat) : names (elemOf a i) = names a := by
  rcases List.eq_nil_or_concat a with rfl | ⟨b, ⟨n, j⟩, rfl⟩
  · simp [elemOf]
  · rw [List.concat_eq_append]
    cases j with
    | none => rw [elemOf_snoc]; simp [names]
    | some j => simp [elemOf, names]

mutual
theorem visitNode_map (a : Addr) (x y : Node (Val F))
    (h : visitNode P d old new (q ++ names a) x = (y, none)) : y = mapNode (visited P d old new q) a x := by
  cases x with
  | leaf l v =>
    cases v with
    | none => simp only [visitNode, Prod.mk.injEq] at h; rw [← h.1]; rfl
    | some v =>
      simp only [visitNode] at h
      split at h
      · next he =>
        simp only [Prod.mk.injEq] at h; rw [← h.1]; simp [mapNode, visited, he]
      · next he =>
        split at h
        · simp at h
        · next w hw =>
          simp only [Prod.mk.injEq] at h; rw [← h.1]; simp [mapNode, visited, he, hw]
  | struct c =>
    simp only [visitNode, Prod.mk.injEq] at h
    rw [← h.1, mapNode, ← visitFields_map a c _ (by rw [← h.2])]
  | aos m e =>
    simp only [visitNode, Prod.mk.injEq] at h
    rw [← h.1, mapNode, ← visitElems_map a 0 e _ (by rw [← h.2])]
theorem visitFields_map (a : Addr) (c c' : Fields (Val F))
    (h : visitFields P d old new (q ++ names a) c = (c', none)) :
    c' = mapFields (visited P d old new q) a c := by
  cases c with
  | nil => simp only [visitFields, Prod.mk.injEq] at h; rw [← h.1]; rfl
  | absent n m r =>
    simp only [visitFields, Prod.mk.injEq] at h
    rw [← h.1, mapFields, ← visitFields_map a r _ (by rw [← h.2])]
  | present n x r =>
    simp only [visitFields] at h
    split at h
    · split at h
      · simp at h
      · next y hy =>
        simp only [Prod.mk.injEq] at h
        have hq : q ++ names (a ++ [(n, none)]) = q ++ names a ++ [n] := by simp [names]
        rw [← h.1, mapFields, ← visitFields_map a r _ (by rw [← h.2]),
          ← visitNode_map (a ++ [(n, none)]) x y (by rw [hq]; exact hy)]
    · next hx =>
      simp only [Prod.mk.injEq] at h
      rw [← h.1, mapFields, ← visitFields_map a r _ (by rw [← h.2]),
        visited_empty P d old new q _ x (by simpa using hx)]
theorem visitElems_map (a : Addr) (i : Nat) (e e' : Elems (Val F))
    (h : visitElems P d old new (q ++ names a) e = (e', none)) :
    e' = mapElems (visited P d old new q) a i e := by
  cases e with
  | nil => simp only [visitElems, Prod.mk.injEq] at h; rw [← h.1]; rfl
  | cons c r =>
    simp only [visitElems] at h
    split at h
    · simp at h
    · next c' hc =>
      simp only [Prod.mk.injEq] at h
      rw [← h.1, mapElems, ← visitElems_map a (i + 1) r _ (by rw [← h.2]),
        ← visitFields_map (elemOf a i) c c' (by rw [names_elemOf]; exact hc)]
end

theorem visitFields_get {q : List Name} {c : Fields (Val F)} {n : Name} {z : Node (Val F)}
    (h : (visitFields P d old new q c).2 = none) (hz : c.get? n = some z) (hv : z.hasValue = true) :
    (visitNode P d old new (q ++ [n]) z).2 = none := by
  cases c with
  | nil => simp [Fields.get?] at hz
  | absent k m r =>
    simp only [visitFields] at h
    simp only [Fields.get?] at hz
    split at hz
    · cases hz; rw [fresh_hasValue] at hv; cases hv
    · exact visitFields_get h hz hv
  | present k x r =>
    simp only [visitFields] at h
    simp only [Fields.get?] at hz
    split at hz
    · next hk =>
      cases hz; subst hk
      rw [if_pos hv] at h
      split at h
      · simp at h
      · next y hy => rw [hy]
    · split at h
      · split at h
        · simp at h
        · exact visitFields_get h hz hv
      · exact visitFields_get h hz hv

theorem visitElems_get {q : List Name} {e : Elems (Val F)} {i : Nat} {f : Fields (Val F)}
    (h : (visitElems P d old new q e).2 = none) (hf : e.get? i = some f) :
    (visitFields P d old new q f).2 = none := by
  cases e with
  | nil => simp [Elems.get?] at hf
  | cons c r =>
    simp only [visitElems] at h
    split at h
    · simp at h
    · next c' hc =>
      cases i with
      | zero => simp [Elems.get?] at hf; subst hf; rw [hc]
      | succ i => exact visitElems_get h (by simpa [Elems.get?] using hf)

/-- A successful visit was successful at each filled data node. -/
theorem visited_ok (A : Addr) {q : List Name} {x : Node (Val F)} {l : LeafMeta} {v : Val F}
    (h : (visitNode P d old new q x).2 = none) (hx : x.at A = some (.leaf l (some v)))
    (hv : Value.isEmpty v = false) : ∃ w, visitor P d old new (q ++ names A) l v = .ok w := by
  induction A generalizing q x with
  | nil =>
    simp only [Node.at, Option.some.injEq] at hx
    subst hx
    simp only [visitNode, hv, Bool.false_eq_true, if_false] at h
    split at h
    · cases h
    · next w hw => exact ⟨w, by simpa [names] using hw⟩
  | cons s A ih =>
    simp only [Node.at] at hx
    cases hi : x.item s with
    | none => rw [hi] at hx; simp at hx
    | some y =>
      rw [hi] at hx
      simp only [Option.bind_some] at hx
      have hyv : y.hasValue = true := hasValue_of_filled y A _ hx (by simpa [Filled] using hv)
      have hq : q ++ names (s :: A) = (q ++ [s.1]) ++ names A := by simp [names]
      rw [hq]
      obtain ⟨c, rfl, ⟨_, hc⟩ | ⟨i, m, e, f, hi', hc, hf, rfl⟩⟩ := item_cases hi
      · exact ih (visitFields_get P d old new (by simpa [visitNode] using h) hc hyv) hx
      · have hav : (Node.aos m e : Node (Val F)).hasValue = true := by
          simp only [Node.hasValue, decide_eq_true_eq]
          cases e with
          | nil => simp [Elems.get?] at hf
          | cons => simp [Elems.length]
        have h1 := visitFields_get P d old new (by simpa [visitNode] using h) hc hav
        simp only [visitNode] at h1
        exact ih (by simp only [visitNode]; exact visitElems_get P d old new h1 hf) hx

end Verif.Resample
