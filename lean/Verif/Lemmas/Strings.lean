import Verif.Spec.Strings
namespace Verif.StringsLemmas
open Verif.Ids Verif.Strings Verif.StringsSpec

variable {F : Type}

theorem cast_of_text {cv : Conv F} {x : Obj F} {t} (h : Text cv x t) : cast cv x = .ok (.val (.str t)) := by
  cases h with
  | own => rfl
  | made _ _ hn hs =>
    unfold Strings.cast
    have : castStr cv x = .ok t := by
      unfold castStr
      split
      · exact absurd ⟨_, rfl⟩ hn
      · rw [hs]
    rw [this]

theorem cast_cases (cv : Conv F) (x : Obj F) :
    (∃ t, Text cv x t ∧ cast cv x = .ok (.val (.str t))) ∨ (NoText cv x ∧ cast cv x = .error .conversion) := by
  by_cases h : ∃ t, Text cv x t
  · obtain ⟨t, ht⟩ := h; exact .inl ⟨t, ht, cast_of_text ht⟩
  · right
    have hn : NoText cv x := fun t ht => h ⟨t, ht⟩
    refine ⟨hn, ?_⟩
    have : castStr cv x = .error .conversion := by
      unfold castStr
      split
      · exact absurd (Text.own _) (hn _)
      · rename_i hx
        cases e : cv.string x with
        | none => rfl
        | some s => exact absurd (Text.made x s (fun ⟨s, es⟩ => hx s es) e) (hn s)
    unfold Strings.cast
    rw [this]

theorem cast_noText {cv : Conv F} {x : Obj F} (h : NoText cv x) : cast cv x = .error .conversion := by
  rcases cast_cases cv x with ⟨t, ht, _⟩ | ⟨_, e⟩
  · exact absurd ht (h t)
  · exact e

theorem text_unique {cv : Conv F} {x : Obj F} {t u} (h : Text cv x t) (k : Text cv x u) : t = u := by
  have := (cast_of_text h).symm.trans (cast_of_text k)
  injection this with this; injection this with this; injection this

theorem castAll_of_texts {cv : Conv F} {xs : List (Obj F)} {ts} (h : Texts cv xs ts) : castAll cv xs = .ok (strs ts) := by
  induction h with
  | nil => rfl
  | cons x xs t ts hx _ ih => simp [castAll, cast_of_text hx, ih, strs]

theorem castAll_cases (cv : Conv F) (xs : List (Obj F)) :
    (∃ ts, Texts cv xs ts ∧ castAll cv xs = .ok (strs ts)) ∨
      ((∃ x ∈ xs, NoText cv x) ∧ castAll cv xs = .error .conversion) := by
  induction xs with
  | nil => exact .inl ⟨[], .nil, rfl⟩
  | cons x xs ih =>
    rcases cast_cases cv x with ⟨t, ht, e⟩ | ⟨hn, e⟩
    · rcases ih with ⟨ts, hts, e'⟩ | ⟨⟨y, hy, hn⟩, e'⟩
      · exact .inl ⟨t :: ts, .cons _ _ _ _ ht hts, castAll_of_texts (.cons _ _ _ _ ht hts)⟩
      · exact .inr ⟨⟨y, List.mem_cons_of_mem _ hy, hn⟩, by simp [castAll, e, e']⟩
    · exact .inr ⟨⟨x, List.mem_cons_self, hn⟩, by simp [castAll, e]⟩

theorem castAll_noText {cv : Conv F} {xs : List (Obj F)} (h : ∃ x ∈ xs, NoText cv x) : castAll cv xs = .error .conversion := by
  rcases castAll_cases cv xs with ⟨ts, hts, hc⟩ | ⟨_, e⟩
  · exfalso
    clear hc
    obtain ⟨x, hx, hn⟩ := h
    induction hts with
    | nil => cases hx
    | cons y ys t ts hy _ ih =>
      rcases List.mem_cons.mp hx with rfl | hx
      · exact hn _ hy
      · exact ih hx
  · exact e

theorem iterate_of_items {cv : Conv F} {x : Obj F} {xs} (h : Items cv x xs) : iterate cv x = some xs := by
  cases h with
  | chars s => simp [iterate, strs]
  | texts | node | list => rfl
  | foreign _ _ hf e =>
    unfold iterate
    split <;> first | exact hf.elim | exact e

theorem iterate_none {cv : Conv F} {x : Obj F} (hf : Foreign x) (e : cv.iter x = none) : iterate cv x = none := by
  unfold iterate
  split <;> first | exact hf.elim | exact e

theorem iterObj_of_items {cv : Conv F} {x : Obj F} {xs} (h : Items cv x xs) (hs : ¬ IsStr x) (hn : ∀ m v, x ≠ .node m v) :
    iterObj cv x = some xs := by
  cases h with
  | chars s => exact absurd ⟨s, rfl⟩ hs
  | node m l => exact absurd rfl (hn _ _)
  | texts | list => rfl
  | foreign _ _ hf e =>
    unfold iterObj
    split <;> first | exact hf.elim | exact e

theorem iterObj_none {cv : Conv F} {x : Obj F} (hf : Foreign x) (e : cv.iter x = none) : iterObj cv x = none := by
  unfold iterObj
  split <;> first | exact hf.elim | exact e

theorem castStr_of_text {cv : Conv F} {x : Obj F} {t} (h : Text cv x t) : castStr cv x = .ok t := by
  cases h with
  | own => rfl
  | made _ _ hn hs =>
    unfold castStr
    split
    · exact absurd ⟨_, rfl⟩ hn
    · rw [hs]

theorem castStr_noText {cv : Conv F} {x : Obj F} (hn : NoText cv x) : castStr cv x = .error .conversion := by
  unfold castStr
  split
  · exact absurd (Text.own _) (hn _)
  · rename_i hx
    cases e : cv.string x with
    | none => rfl
    | some s => exact absurd (Text.made x s (fun ⟨s, es⟩ => hx s es) e) (hn s)

theorem castStrs_of_texts {cv : Conv F} {xs : List (Obj F)} {ts} (h : Texts cv xs ts) : castStrs cv xs = .ok ts := by
  induction h with
  | nil => rfl
  | cons x xs t ts hx _ ih => simp [castStrs, castStr_of_text hx, ih, bind, Except.bind, pure, Except.pure]

theorem castStrs_noText {cv : Conv F} {xs : List (Obj F)} (h : ∃ x ∈ xs, NoText cv x) : castStrs cv xs = .error .conversion := by
  obtain ⟨x, hx, hn⟩ := h
  induction xs with
  | nil => cases hx
  | cons y ys ih =>
    by_cases hy : ∃ t, Text cv y t
    · obtain ⟨t, ht⟩ := hy
      rcases List.mem_cons.mp hx with rfl | hx
      · exact absurd ht (hn t)
      · simp [castStrs, castStr_of_text ht, ih hx, bind, Except.bind]
    · simp [castStrs, castStr_noText (fun t ht => hy ⟨t, ht⟩), bind, Except.bind]

theorem extendWith_texts {cv : Conv F} {xs : List (Obj F)} {ts} (h : Texts cv xs ts) (items : List (Obj F)) :
    extendWith cv items xs = (some (items ++ strs ts), none) := by
  induction h generalizing items with
  | nil => simp [extendWith, strs]
  | cons x xs t ts hx _ ih => simp [extendWith, cast_of_text hx, ih, strs]

theorem extendWith_fail {cv : Conv F} {xs : List (Obj F)} {ts} (h : Texts cv xs ts) {x} (hx : NoText cv x) (rest items : List (Obj F)) :
    extendWith cv items (xs ++ x :: rest) = (some (items ++ strs ts), some .conversion) := by
  induction h generalizing items with
  | nil => simp [extendWith, strs, cast_noText hx]
  | cons y ys t ts hy _ ih => simp [extendWith, cast_of_text hy, ih, strs]

theorem allStr_strs (ts : List (List Char)) : AllStr (strs ts : List (Obj F)) := by
  intro x hx
  obtain ⟨t, _, rfl⟩ := List.mem_map.mp hx
  exact ⟨t, rfl⟩

theorem position_some {n : Nat} {i : Int} {k : Nat} : position n i = some k ↔
    k < n ∧ ((k : Int) = i ∨ (k : Int) = i + n ∧ i < 0) := by
  unfold position
  dsimp only
  split <;> split <;> simp <;> omega

theorem position_none {n : Nat} {i : Int} : position n i = none ↔ i < -(n : Int) ∨ (n : Int) ≤ i := by
  unfold position
  dsimp only
  split <;> split <;> simp <;> omega

/-! ### Slices -/

theorem bounds_eq (n : Nat) (sl : Slice) (h : stepOf sl ≠ 0) :
    bounds n sl = some (startOf n sl, stopOf n sl, stepOf sl) := by
  unfold bounds
  rw [show sl.step.getD 1 = stepOf sl from rfl]
  rw [if_neg h]
  have hb : ∀ i, adjust n (decide (stepOf sl < 0)) i = boundOf n sl i := by
    intro i
    unfold adjust boundOf
    dsimp only
    by_cases hk : stepOf sl < 0 <;> simp only [hk, decide_true, decide_false, if_true, if_false] <;>
      (repeat' split) <;> simp_all <;> omega
  refine congrArg some (Prod.ext ?_ (Prod.ext ?_ rfl))
  · dsimp only; unfold startOf; cases sl.start with
    | none => by_cases hk : stepOf sl < 0 <;> simp [hk]
    | some i => exact hb i
  · dsimp only; unfold stopOf; cases sl.stop with
    | none => by_cases hk : stepOf sl < 0 <;> simp [hk]
    | some i => exact hb i

theorem bounds_zero (n : Nat) (sl : Slice) (h : stepOf sl = 0) : bounds n sl = none := by
  unfold bounds
  rw [show sl.step.getD 1 = stepOf sl from rfl]
  rw [if_pos h]

/-- The start lies in the list, or at the end when nothing is selected. -/
theorem bound_range (n : Nat) (sl : Slice) (i : Int) :
    (0 < stepOf sl → 0 ≤ boundOf n sl i ∧ boundOf n sl i ≤ n) ∧ (stepOf sl < 0 → -1 ≤ boundOf n sl i ∧ boundOf n sl i ≤ (n : Int) - 1) := by
  unfold boundOf
  dsimp only
  constructor <;> intro h <;> split <;> split <;> omega

theorem start_range (n : Nat) (sl : Slice) :
    (0 < stepOf sl → 0 ≤ startOf n sl ∧ startOf n sl ≤ n) ∧ (stepOf sl < 0 → -1 ≤ startOf n sl ∧ startOf n sl ≤ (n : Int) - 1) := by
  unfold startOf
  cases sl.start with
  | some i => exact bound_range n sl i
  | none => dsimp only; constructor <;> intro h <;> split <;> omega

theorem stop_range (n : Nat) (sl : Slice) :
    (0 < stepOf sl → 0 ≤ stopOf n sl ∧ stopOf n sl ≤ n) ∧ (stepOf sl < 0 → -1 ≤ stopOf n sl ∧ stopOf n sl ≤ (n : Int) - 1) := by
  unfold stopOf
  cases sl.stop with
  | some i => exact bound_range n sl i
  | none => dsimp only; constructor <;> intro h <;> split <;> omega

theorem sliceLength_pos (start stop k : Int) (hk : 0 < k) (m : Nat) :
    (m : Int) < sliceLength start stop k ↔ start + m * k < stop := by
  unfold sliceLength
  rw [if_neg (by omega)]
  split
  · rename_i h
    rw [Int.lt_add_one_iff, Int.le_ediv_iff_mul_le hk]
    omega
  · have : 0 ≤ (m : Int) * k := Int.mul_nonneg (by omega) (by omega)
    omega

theorem sliceLength_neg (start stop k : Int) (hk : k < 0) (m : Nat) :
    (m : Int) < sliceLength start stop k ↔ stop < start + m * k := by
  unfold sliceLength
  rw [if_pos hk]
  have e : (m : Int) * -k = -(m * k) := Int.mul_neg ..
  split
  · rename_i h
    rw [Int.lt_add_one_iff, Int.le_ediv_iff_mul_le (by omega), e]
    omega
  · have : 0 ≤ (m : Int) * -k := Int.mul_nonneg (by omega) (by omega)
    omega

theorem sliceLength_nonneg (start stop k : Int) (hk : k ≠ 0) : 0 ≤ sliceLength start stop k := by
  unfold sliceLength
  split
  · split
    · have := Int.ediv_nonneg (a := start - stop - 1) (b := -k) (by omega) (by omega); omega
    · omega
  · split
    · have := Int.ediv_nonneg (a := stop - start - 1) (b := k) (by omega) (by omega); omega
    · omega

/-- The place of an item of the slice lies in the list. -/
theorem selects_lt {n : Nat} {sl : Slice} (h : stepOf sl ≠ 0) {m p : Nat} (hs : Selects n sl m p) : p < n := by
  obtain ⟨hp, h1, h2⟩ := hs
  rcases Int.lt_or_gt_of_ne h with hk | hk
  · have a := (start_range n sl).2 hk
    have : 0 ≤ (m : Int) * -stepOf sl := Int.mul_nonneg (by omega) (by omega)
    have e : (m : Int) * -stepOf sl = -(m * stepOf sl) := Int.mul_neg ..
    omega
  · have a := (stop_range n sl).1 hk
    have := h1 hk
    omega

theorem selects_iff {n : Nat} {sl : Slice} (h : stepOf sl ≠ 0) (m : Nat) :
    (m : Int) < sliceLength (startOf n sl) (stopOf n sl) (stepOf sl) ↔ ∃ p, Selects n sl m p := by
  rcases Int.lt_or_gt_of_ne h with hk | hk
  · rw [sliceLength_neg _ _ _ hk]
    constructor
    · intro hm
      have := (stop_range n sl).2 hk
      exact ⟨(startOf n sl + m * stepOf sl).toNat, by omega, by omega, by omega⟩
    · rintro ⟨p, hp, _, h2⟩; have := h2 hk; omega
  · rw [sliceLength_pos _ _ _ hk]
    constructor
    · intro hm
      have := (start_range n sl).1 hk
      have : 0 ≤ (m : Int) * stepOf sl := Int.mul_nonneg (by omega) (by omega)
      exact ⟨(startOf n sl + m * stepOf sl).toNat, by omega, by omega, by omega⟩
    · rintro ⟨p, hp, h1, _⟩; have := h1 hk; omega

theorem setEvery_length (cur k : Int) (items ys : List (Obj F)) : (setEvery cur k items ys).length = items.length := by
  induction ys generalizing cur items with
  | nil => rfl
  | cons y ys ih => simp [setEvery, ih]

/-- The loop leaves other places alone. -/
theorem setEvery_other (cur k : Int) (items ys : List (Obj F)) (p : Nat)
    (h0 : ∀ m : Nat, m < ys.length → 0 ≤ cur + m * k) (h : ∀ m : Nat, m < ys.length → (p : Int) ≠ cur + m * k) :
    (setEvery cur k items ys)[p]? = items[p]? := by
  induction ys generalizing cur items with
  | nil => rfl
  | cons y ys ih =>
    unfold setEvery
    rw [ih]
    · have := h 0 (by simp); have := h0 0 (by simp)
      exact List.getElem?_set_ne (by omega)
    · intro m hm
      have := h0 (m + 1) (by simpa using hm)
      rw [Int.natCast_add, Int.add_mul] at this; omega
    · intro m hm
      have := h (m + 1) (by simpa using hm)
      rw [Int.natCast_add, Int.add_mul] at this; omega

/-- The loop stores item number `m` at its place. -/
theorem setEvery_at (cur k : Int) (hk : k ≠ 0) (items ys : List (Obj F)) (m p : Nat) (hm : m < ys.length)
    (hp : (p : Int) = cur + m * k) (hl : p < items.length) (h0 : ∀ m : Nat, m < ys.length → 0 ≤ cur + m * k) :
    (setEvery cur k items ys)[p]? = ys[m]? := by
  induction ys generalizing cur items m with
  | nil => simp at hm
  | cons y ys ih =>
    have step : ∀ m : Nat, cur + k + m * k = cur + (m + 1 : Nat) * k := fun m => by
      rw [Int.natCast_add, Int.add_mul]; omega
    unfold setEvery
    cases m with
    | zero =>
      rw [setEvery_other]
      · have e : cur.toNat = p := by omega
        rw [e, List.getElem?_set_self hl]; rfl
      · intro m hm; rw [step]; exact h0 _ (by simpa using hm)
      · intro m hm
        rw [step]
        have : ((m + 1 : Nat) : Int) * k ≠ 0 := Int.mul_ne_zero (by omega) hk
        omega
    | succ m =>
      rw [List.getElem?_cons_succ]
      apply ih
      · simpa using hm
      · rw [step]; exact hp
      · simpa using hl
      · intro m hm; rw [step]; exact h0 _ (by simpa using hm)

end Verif.StringsLemmas
