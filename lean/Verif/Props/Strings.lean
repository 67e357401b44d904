import Verif.Lemmas.Strings
import Verif.Props.Assign
/-!
C69: editing lists of strings in place.
-/
namespace Verif.Props
open Verif.Ids Verif.Strings Verif.StringsSpec Verif.StringsLemmas

namespace StringsExample

/-- Conversions of the examples: `other 0` has the text "zero", `other 1` (bytes that are no UTF-8) has none, `other 2` is a
generator of `other 0`, and `other 3` one of `other 0`, `other 1`, `other 0`. -/
def conv : Conv Int where
  scalar _ _ := none
  string
    | .other 0 => some "zero".toList
    | .val (.int 5) => some "5".toList
    | _ => none
  iter
    | .other 2 => some [.other 0]
    | .other 3 => some [.other 0, .other 1, .other 0]
    | _ => none
  array _ _ := none

def text (s : String) : Obj Int := .val (.str s.toList)

/-- Texts of the list, "?" for an item that is no string. -/
def texts (s : Stored Int) : List String := (value s).map fun
  | .val (.str t) => String.ofList t
  | _ => "?"

def abc : Stored Int := some [text "a", text "b", text "c"]

theorem zero : Text conv (.other 0) "zero".toList := .made _ _ (fun ⟨_, h⟩ => by cases h) rfl
theorem none1 : NoText conv (.other 1) := fun t h => by
  cases h with
  | made _ _ _ h => exact absurd h (by simp [conv])

end StringsExample
open StringsExample

variable {F : Type}

/-- **C69.** Assigning to a list of strings: a string becomes the only item; anything else that can be iterated over gives the
texts of its items, in order; other objects give their own text as the only item. When there is no text for some item, the
assignment fails and the node keeps what it had. -/
theorem C69_assign [FloatModel F] (cv : Conv F) (s : Stored F) (x : Obj F) (hn : ∀ m v, x ≠ .node m v) :
    (∀ t, x = .val (.str t) → assign cv s x = (some (strs [t]), none)) ∧
    (∀ xs ts, ¬ IsStr x → Items cv x xs → Texts cv xs ts → assign cv s x = (some (strs ts), none)) ∧
    (∀ xs, ¬ IsStr x → Items cv x xs → (∃ y ∈ xs, NoText cv y) → assign cv s x = (s, some .conversion)) ∧
    (∀ t, Foreign x → cv.iter x = none → Text cv x t → assign cv s x = (some (strs [t]), none)) ∧
    (Foreign x → cv.iter x = none → NoText cv x → assign cv s x = (s, some .conversion)) := by
  have ha : assigned cv ⟨.str, 1, false⟩ x = castValue cv ⟨.str, 1, false⟩ x := by
    unfold assigned
    split
    · exact absurd rfl (hn _ _)
    · rfl
  refine ⟨?_, ?_, ?_, ?_, ?_⟩
  · rintro t rfl; rfl
  · intro xs ts hs hi ht
    simp [assign, setValue, ha, castValue, iterObj_of_items hi hs hn, castStrs_of_texts ht, Except.map, strs]
  · intro xs hs hi ht
    simp [assign, setValue, ha, castValue, iterObj_of_items hi hs hn, castStrs_noText ht, Except.map]
  · intro t hf hi ht
    simp [assign, setValue, ha, castValue, iterObj_none hf hi, castStr_of_text ht, Except.map, strs]
  · intro hf hi ht
    simp [assign, setValue, ha, castValue, iterObj_none hf hi, castStr_noText ht, Except.map]

example : ¬ IsStr (.other 2 : Obj Int) ∧ Items conv (.other 2) [.other 0] ∧ Texts conv [.other 0] ["zero".toList] ∧
    texts (assign conv abc (.other 2)).1 = ["zero"] :=
  ⟨(fun ⟨_, h⟩ => by cases h), .foreign _ _ trivial rfl, .cons _ _ _ _ zero .nil, by decide +kernel⟩
example : Items conv (.other 3) [.other 0, .other 1, .other 0] ∧ (∃ y ∈ [.other 0, .other 1, .other 0], NoText conv y) ∧
    texts (assign conv abc (.other 3)).1 = ["a", "b", "c"] :=
  ⟨.foreign _ _ trivial rfl, ⟨.other 1, by simp, none1⟩, by decide +kernel⟩
example : Foreign (.other 0 : Obj Int) ∧ conv.iter (.other 0) = none ∧ texts (assign conv none (.other 0)).1 = ["zero"] :=
  ⟨trivial, rfl, by decide +kernel⟩

/-- **C69.** `append` adds the text of the object at the end, on an unset node as well; without a text it fails and the list is
as before. -/
theorem C69_append (cv : Conv F) (s : Stored F) (x : Obj F) :
    (∀ t, Text cv x t → append cv s x = (some (value s ++ strs [t]), none)) ∧
    (NoText cv x → (append cv s x).2 = some .conversion ∧ value (append cv s x).1 = value s) := by
  refine ⟨fun t ht => ?_, fun hx => ?_⟩
  · simp [append, cast_of_text ht, strs]
  · simp [append, cast_noText hx, value]

example : Text conv (.other 0) "zero".toList ∧ texts (append conv none (.other 0)).1 = ["zero"] ∧
    texts (append conv abc (.other 0)).1 = ["a", "b", "c", "zero"] := ⟨zero, by decide +kernel, by decide +kernel⟩
example : NoText conv (.other 1) ∧ texts (append conv abc (.other 1)).1 = ["a", "b", "c"] := ⟨none1, by decide +kernel⟩

/-- **C69.** `extend` adds the texts of the items at the end, in order. Objects that cannot be iterated over are refused and the
list is as before. When an item has no text, it fails, and **the items before that one have been added**. -/
theorem C69_extend (cv : Conv F) (s : Stored F) (x : Obj F) :
    (∀ xs ts, Items cv x xs → Texts cv xs ts → extend cv s x = (some (value s ++ strs ts), none)) ∧
    (∀ before y rest ts, Items cv x (before ++ y :: rest) → Texts cv before ts → NoText cv y →
      extend cv s x = (some (value s ++ strs ts), some .conversion)) ∧
    (Foreign x → cv.iter x = none → (extend cv s x).2 = some .notIterable ∧ value (extend cv s x).1 = value s) := by
  refine ⟨fun xs ts hi ht => ?_, fun before y rest ts hi ht hy => ?_, fun hf hi => ?_⟩
  · simp [extend, iterate_of_items hi, extendWith_texts ht]
  · simp [extend, iterate_of_items hi, extendWith_fail ht hy]
  · simp [extend, iterate_none hf hi, value]

example : Items conv (text "xy") [text "x", text "y"] ∧ Texts conv [text "x", text "y"] ["x".toList, "y".toList] ∧
    texts (extend conv abc (text "xy")).1 = ["a", "b", "c", "x", "y"] :=
  ⟨.chars _, .cons _ _ _ _ (.own _) (.cons _ _ _ _ (.own _) .nil), by decide +kernel⟩
example : Items conv (.other 3) ([.other 0] ++ .other 1 :: [.other 0]) ∧ Texts conv [.other 0] ["zero".toList] ∧ NoText conv (.other 1) ∧
    texts (extend conv abc (.other 3)).1 = ["a", "b", "c", "zero"] :=
  ⟨.foreign _ _ trivial rfl, .cons _ _ _ _ zero .nil, none1, by decide +kernel⟩

/-- **C69.** Assigning an item replaces that item by the text of the object and keeps all others; negative indices count from the
end. An index outside of the list is an IndexError, and the list is as before; so it is when the object has no text. -/
theorem C69_item (cv : Conv F) (s : Stored F) (i : Int) (x : Obj F) :
    (∀ t before y after, Text cv x t → value s = before ++ y :: after →
      (i = before.length ∨ i = -((y :: after).length : Int)) →
      setItem cv s i x = (some (before ++ strs [t] ++ after), none)) ∧
    (∀ t, Text cv x t → (i < -((value s).length : Int) ∨ ((value s).length : Int) ≤ i) →
      (setItem cv s i x).2 = some .index ∧ value (setItem cv s i x).1 = value s) ∧
    (NoText cv x → (setItem cv s i x).2 = some .conversion ∧ value (setItem cv s i x).1 = value s) := by
  refine ⟨fun t before y after ht hv hi => ?_, fun t ht hi => ?_, fun hx => ?_⟩
  · have hp : position (value s).length i = some before.length := by
      rw [position_some, hv]
      simp only [List.length_append, List.length_cons] at hi ⊢
      omega
    unfold setItem
    rw [cast_of_text ht]
    dsimp only
    rw [hp, hv]
    simp [strs]
  · unfold setItem
    rw [cast_of_text ht]
    dsimp only
    rw [position_none.mpr hi]
    exact ⟨rfl, rfl⟩
  · simp [setItem, cast_noText hx, value]

example : Text conv (.other 0) "zero".toList ∧ value abc = [text "a", text "b"] ++ text "c" :: [] ∧
    texts (setItem conv abc (-1) (.other 0)).1 = ["a", "b", "zero"] := ⟨zero, rfl, by decide +kernel⟩
example : (setItem conv abc 3 (.other 0)).2 = some .index := by decide +kernel

/-- **C69.** Assigning to a slice without step (or with step 1) replaces the items between its bounds by the texts of the given
items, however many these are; the items before and after stay. -/
theorem C69_slice (cv : Conv F) (s : Stored F) (sl : Slice) (x : Obj F) (hk : stepOf sl = 1)
    (xs ts) (hi : Items cv x xs) (ht : Texts cv xs ts) (before middle after : List (Obj F)) (hv : value s = before ++ middle ++ after)
    (h0 : startOf (value s).length sl = before.length)
    (h1 : stopOf (value s).length sl = (before ++ middle).length ∨
      stopOf (value s).length sl < before.length ∧ middle = []) :
    setSlice cv s sl x = (some (before ++ strs ts ++ after), none) := by
  unfold setSlice
  rw [iterate_of_items hi]
  dsimp only
  rw [bounds_eq _ _ (by rw [hk]; decide)]
  dsimp only
  rw [castAll_of_texts ht]
  dsimp only
  rw [if_pos hk, h0, hv]
  have e1 : (before ++ middle ++ after).take ((before.length : Int)).toNat = before := by simp
  have e2 : (max (before.length : Int) (stopOf (value s).length sl)).toNat = (before ++ middle).length := by
    rw [List.length_append] at *
    rcases h1 with h1 | ⟨h1, rfl⟩
    · omega
    · simp only [List.length_nil]; omega
  rw [hv] at e2
  rw [e1, e2, List.drop_left]

example : stepOf ⟨some 1, some (-1), none⟩ = 1 ∧ Items conv (.list [text "x", .other 0, text "y"]) [text "x", .other 0, text "y"] ∧
    startOf (value abc).length ⟨some 1, some (-1), none⟩ = [text "a"].length ∧
    stopOf (value abc).length ⟨some 1, some (-1), none⟩ = ([text "a"] ++ [text "b"]).length ∧
    texts (setSlice conv abc ⟨some 1, some (-1), none⟩ (.list [text "x", .other 0, text "y"])).1 = ["a", "x", "zero", "y", "c"] :=
  ⟨rfl, .list _, rfl, rfl, by decide +kernel⟩
example : startOf 3 ⟨some 2, some 1, none⟩ = [text "a", text "b"].length ∧ stopOf 3 ⟨some 2, some 1, none⟩ < 2 ∧
    texts (setSlice conv abc ⟨some 2, some 1, none⟩ (.list [text "x"])).1 = ["a", "b", "x", "c"] := by decide +kernel

/-- **C69.** Assigning to a slice with another step: when there are as many items as places, item number `m` goes to place number
`m` of the slice and all other places keep their items; when not, it is a ValueError and the list is as before. -/
theorem C69_extended (cv : Conv F) (s : Stored F) (sl : Slice) (x : Obj F) (hk : stepOf sl ≠ 0) (hk1 : stepOf sl ≠ 1)
    (xs ts) (hi : Items cv x xs) (ht : Texts cv xs ts) :
    ((∀ m, (∃ p, Selects (value s).length sl m p) ↔ m < ts.length) →
      ∃ l, setSlice cv s sl x = (some l, none) ∧ l.length = (value s).length ∧
        (∀ m p : Nat, Selects (value s).length sl m p → l[p]? = (strs ts)[m]?) ∧
        (∀ p : Nat, (∀ m, ¬ Selects (value s).length sl m p) → l[p]? = (value s)[p]?)) ∧
    (¬ (∀ m, (∃ p, Selects (value s).length sl m p) ↔ m < ts.length) →
      setSlice cv s sl x = (some (value s), some .size)) := by
  have hlen : (strs ts : List (Obj F)).length = ts.length := by simp [strs]
  have hrun : setSlice cv s sl x = if ((strs ts : List (Obj F)).length : Int) = sliceLength (startOf (value s).length sl)
      (stopOf (value s).length sl) (stepOf sl) then
        (some (setEvery (startOf (value s).length sl) (stepOf sl) (value s) (strs ts)), none)
      else (some (value s), some .size) := by
    unfold setSlice
    rw [iterate_of_items hi]
    dsimp only
    rw [bounds_eq _ _ hk]
    dsimp only
    rw [castAll_of_texts ht]
    dsimp only
    rw [if_neg hk1]
  have hsel : (∀ m, (∃ p, Selects (value s).length sl m p) ↔ m < ts.length) ↔
      ((strs ts : List (Obj F)).length : Int) = sliceLength (startOf (value s).length sl) (stopOf (value s).length sl) (stepOf sl) := by
    rw [hlen]
    constructor
    · intro h
      have h' : ∀ m : Nat, (m : Int) < sliceLength (startOf (value s).length sl) (stopOf (value s).length sl) (stepOf sl) ↔
          m < ts.length := fun m => (selects_iff hk m).trans (h m)
      have nn := sliceLength_nonneg (startOf (value s).length sl) (stopOf (value s).length sl) (stepOf sl) hk
      have a := h' ts.length
      have b := h' (ts.length - 1)
      by_cases e : ts.length = 0
      · omega
      · omega
    · intro h m
      rw [← selects_iff hk]
      omega
  constructor
  · intro h
    rw [hrun, if_pos (hsel.mp h)]
    refine ⟨_, rfl, setEvery_length .., ?_, ?_⟩
    · intro m p hs
      have hm := (h m).mp ⟨p, hs⟩
      refine setEvery_at _ _ hk _ _ m p (by rw [hlen]; exact hm) hs.1 (selects_lt hk hs) ?_
      intro m' hm'
      obtain ⟨p', hp'⟩ := (h m').mpr (by rw [hlen] at hm'; exact hm')
      have := hp'.1; omega
    · intro p hp
      refine setEvery_other _ _ _ _ p ?_ ?_
      · intro m' hm'
        obtain ⟨p', hp'⟩ := (h m').mpr (by rw [hlen] at hm'; exact hm')
        have := hp'.1; omega
      · intro m' hm' e
        obtain ⟨p', hp'⟩ := (h m').mpr (by rw [hlen] at hm'; exact hm')
        have := hp'.1
        have : p = p' := by omega
        exact hp m' (this ▸ hp')
  · intro h
    rw [hrun, if_neg (fun e => h (hsel.mpr e))]

example : Selects 3 ⟨none, none, some (-2)⟩ 0 2 ∧ Selects 3 ⟨none, none, some (-2)⟩ 1 0 ∧
    texts (setSlice conv abc ⟨none, none, some (-2)⟩ (.list [text "x", .other 0])).1 = ["zero", "b", "x"] ∧
    (setSlice conv abc ⟨none, none, some (-2)⟩ (.list [text "x"])).2 = some .size :=
  ⟨⟨by decide, by decide, by decide⟩, ⟨by decide, by decide, by decide⟩, by decide +kernel, by decide +kernel⟩

/-- **C69.** `insert` puts the object before the item with that index, at the end for indices past the last item and at the start
for those before the first; `pop` removes exactly the item with that index. -/
theorem C69_list (s : Stored F) (i : Int) (x : Obj F) :
    (∀ before after, value s = before ++ after →
      (i = before.length ∨ i = -(after.length : Int) ∧ after ≠ [] ∨ (after = [] ∧ (before.length : Int) ≤ i) ∨
        (before = [] ∧ i ≤ -(after.length : Int) ∧ i < 0)) →
      insert s i x = (some (before ++ x :: after), none)) ∧
    (∀ before y after, value s = before ++ y :: after → (i = before.length ∨ i = -((y :: after).length : Int)) →
      pop s i = (some (before ++ after), none)) ∧
    ((i < -((value s).length : Int) ∨ ((value s).length : Int) ≤ i) → pop s i = (some (value s), some .index)) := by
  refine ⟨fun before after hv hi => ?_, fun before y after hv hi => ?_, fun hi => ?_⟩
  · have hj : (if i < 0 then max 0 (i + (value s).length) else min i (value s).length).toNat = before.length := by
      have hne : after ≠ [] → 0 < after.length := List.length_pos_iff.mpr
      rw [hv, List.length_append]
      rcases hi with hi | ⟨hi, ha⟩ | ⟨rfl, hi⟩ | ⟨rfl, hi⟩
      · split <;> omega
      · have := hne ha; split <;> omega
      · simp only [List.length_nil]; split <;> omega
      · simp only [List.length_nil]; split <;> omega
    unfold Strings.insert
    dsimp only
    rw [hj, hv]
    simp
  · have hp : position (value s).length i = some before.length := by
      rw [position_some, hv]
      simp only [List.length_append, List.length_cons] at hi ⊢
      omega
    unfold pop
    rw [hp, hv]
    simp [List.eraseIdx_append_of_length_le]
  · unfold pop
    rw [position_none.mpr hi]

example : texts (insert abc (-1) (text "x")).1 = ["a", "b", "x", "c"] ∧ texts (insert abc 9 (text "x")).1 = ["a", "b", "c", "x"] ∧
    texts (insert abc (-9) (text "x")).1 = ["x", "a", "b", "c"] ∧ texts (pop abc (-2)).1 = ["a", "c"] ∧
    value abc = [text "a", text "b"] ++ [text "c"] := ⟨by decide +kernel, by decide +kernel, by decide +kernel, by decide +kernel, rfl⟩

/-- **C69.** Whatever fails leaves the list as it was, except `extend`. -/
theorem C69_unchanged [FloatModel F] (cv : Conv F) (s : Stored F) (e : Edit F) (he : ∀ x, e ≠ .extend x) (exc : Exc)
    (h : (run cv s e).2 = some exc) : value (run cv s e).1 = value s := by
  cases e with
  | extend x => exact absurd rfl (he x)
  | assign x =>
    simp only [run, assign] at h ⊢
    split at h <;> simp_all
  | append x =>
    simp only [run, append] at h ⊢
    split at h <;> simp_all [value]
  | item i x =>
    simp only [run, setItem] at h ⊢
    split at h
    · simp_all [value]
    · split at h <;> simp_all [value]
  | slice sl x =>
    simp only [run, setSlice] at h ⊢
    split at h
    · simp_all
    · split at h
      · simp_all [value]
      · split at h
        · simp_all [value]
        · split at h
          · cases h
          · split at h
            · cases h
            · simp_all [value]
  | insert i x => cases h
  | pop i =>
    simp only [run, pop] at h ⊢
    split at h <;> simp_all [value]

example : (run conv abc (.slice ⟨none, none, some 0⟩ (.list []))).2 = some .zeroStep ∧
    (run conv abc (.slice ⟨none, none, none⟩ (.other 3))).2 = some .conversion ∧
    texts (run conv abc (.slice ⟨none, none, none⟩ (.other 3))).1 = ["a", "b", "c"] := by decide +kernel

/-- **C69.** Assigning to a slice fails, and leaves the list as it was, when the step is zero, when an item has no text and when
the object cannot be iterated over. -/
theorem C69_slice_fails (cv : Conv F) (s : Stored F) (sl : Slice) (x : Obj F) :
    (∀ xs, Items cv x xs → stepOf sl = 0 → setSlice cv s sl x = (some (value s), some .zeroStep)) ∧
    (∀ xs, Items cv x xs → stepOf sl ≠ 0 → (∃ y ∈ xs, NoText cv y) → setSlice cv s sl x = (some (value s), some .conversion)) ∧
    (Foreign x → cv.iter x = none → setSlice cv s sl x = (s, some .notIterable)) := by
  refine ⟨fun xs hi hk => ?_, fun xs hi hk hn => ?_, fun hf hi => ?_⟩
  · simp only [setSlice, iterate_of_items hi, bounds_zero _ _ hk]
  · simp only [setSlice, iterate_of_items hi, bounds_eq _ _ hk, castAll_noText hn]
  · simp only [setSlice, iterate_none hf hi]

example : Items conv (.other 3) [.other 0, .other 1, .other 0] ∧ stepOf ⟨some 0, some 2, none⟩ ≠ 0 ∧ NoText conv (.other 1) :=
  ⟨.foreign _ _ trivial rfl, by decide, none1⟩

/-- A list of strings, and nothing else. -/
theorem castAll_allStr {cv : Conv F} {xs ys : List (Obj F)} (h : castAll cv xs = .ok ys) : AllStr ys := by
  rcases castAll_cases cv xs with ⟨ts, _, e⟩ | ⟨_, e⟩
  · rw [e] at h; cases h; exact allStr_strs ts
  · rw [e] at h; cases h

theorem cast_isStr {cv : Conv F} {x y : Obj F} (h : Strings.cast cv x = .ok y) : IsStr y := by
  rcases cast_cases cv x with ⟨t, _, e⟩ | ⟨_, e⟩
  · rw [e] at h; cases h; exact ⟨t, rfl⟩
  · rw [e] at h; cases h

theorem extendWith_allStr (cv : Conv F) (xs items : List (Obj F)) (h : AllStr items) : AllStr (value (extendWith cv items xs).1) := by
  induction xs generalizing items with
  | nil => exact h
  | cons x xs ih =>
    unfold extendWith
    split
    · exact h
    · rename_i y e
      refine ih _ fun z hz => ?_
      rcases List.mem_append.mp hz with hz | hz
      · exact h z hz
      · rw [List.mem_singleton.mp hz]; exact cast_isStr e

theorem setEvery_allStr (cur k : Int) (items ys : List (Obj F)) (h : AllStr items) (hy : AllStr ys) : AllStr (setEvery cur k items ys) := by
  induction ys generalizing cur items with
  | nil => exact h
  | cons y ys ih =>
    refine ih _ _ (fun z hz => ?_) (fun z hz => hy z (List.mem_cons_of_mem _ hz))
    rcases List.mem_or_eq_of_mem_set hz with hz | rfl
    · exact h z hz
    · exact hy _ List.mem_cons_self

theorem run_allStr [FloatModel F] (cv : Conv F) (s : Stored F) (h : AllStr (value s)) (e : Edit F) (he : Guarded e) :
    AllStr (value (run cv s e).1) := by
  cases e with
  | assign x =>
    simp only [run, assign]
    split
    · exact allStr_strs _
    · intro y hy; cases hy
    · exact h
  | append x =>
    simp only [run, append]
    split
    · exact h
    · rename_i y e
      intro z hz
      rcases List.mem_append.mp hz with hz | hz
      · exact h z hz
      · rw [List.mem_singleton.mp hz]; exact cast_isStr e
  | extend x =>
    simp only [run, extend]
    split
    · exact h
    · exact extendWith_allStr _ _ _ h
  | item i x =>
    simp only [run, setItem]
    split
    · exact h
    · rename_i y e
      split
      · exact h
      · intro z hz
        rcases List.mem_or_eq_of_mem_set hz with hz | rfl
        · exact h z hz
        · exact cast_isStr e
  | slice sl x =>
    simp only [run, setSlice]
    split
    · exact h
    · split
      · exact h
      · split
        · exact h
        · rename_i ys e
          have hy := castAll_allStr e
          split
          · intro z hz
            rcases List.mem_append.mp hz with hz | hz
            · rcases List.mem_append.mp hz with hz | hz
              · exact h z (List.mem_of_mem_take hz)
              · exact hy z hz
            · exact h z (List.mem_of_mem_drop hz)
          · split
            · exact setEvery_allStr _ _ _ _ h hy
            · exact h
  | insert i x =>
    intro z hz
    simp only [run, Strings.insert] at hz
    rcases List.mem_append.mp hz with hz | hz
    · rcases List.mem_append.mp hz with hz | hz
      · exact h z (List.mem_of_mem_take hz)
      · rw [List.mem_singleton.mp hz]; exact he
    · exact h z (List.mem_of_mem_drop hz)
  | pop i =>
    simp only [run, pop]
    split
    · exact h
    · exact fun z hz => h z (List.mem_of_mem_eraseIdx hz)

/-- **C69.** After any sequence of assignments, `append`, `extend`, assignments to items and slices, and `pop`, successful or not,
the list holds strings and nothing else; `insert` keeps it so when strings are inserted. -/
theorem C69_strings [FloatModel F] (cv : Conv F) (es : List (Edit F)) (s : Stored F) (h : AllStr (value s))
    (he : ∀ e ∈ es, Guarded e) : ∃ ts, value (runAll cv s es) = strs ts := by
  have all : AllStr (value (runAll cv s es)) := by
    induction es generalizing s with
    | nil => exact h
    | cons e es ih => exact ih _ (run_allStr cv s h e (he e List.mem_cons_self)) (fun f hf => he f (List.mem_cons_of_mem _ hf))
  generalize value (runAll cv s es) = l at all
  induction l with
  | nil => exact ⟨[], rfl⟩
  | cons x l ih =>
    obtain ⟨t, rfl⟩ := all x List.mem_cons_self
    obtain ⟨ts, rfl⟩ := ih (fun y hy => all y (List.mem_cons_of_mem _ hy))
    exact ⟨t :: ts, rfl⟩

example : AllStr (value abc) ∧ (∀ e ∈ [Edit.extend (.other 3), .insert 1 (text "x"), .pop (-1), .append (.val (.int 5))], Guarded e) ∧
    texts (runAll conv abc [.extend (.other 3), .insert 1 (text "x"), .pop (-1), .append (.val (.int 5))]) =
      ["a", "x", "b", "c", "5"] := by
  refine ⟨fun x hx => ?_, fun e he => ?_, by decide +kernel⟩
  · simp [abc, value] at hx; rcases hx with rfl | rfl | rfl <;> exact ⟨_, rfl⟩
  · simp at he; rcases he with rfl | rfl | rfl | rfl
    · trivial
    · exact ⟨_, rfl⟩
    · trivial
    · trivial

/-- **C69, limit.** `insert` is the method of the Python list and converts nothing: an object that is no string is stored as it
is, while `append` of the same object stores its text. -/
theorem C69_insert_limit : ∃ (cv : Conv Int) (x : Obj Int) (t : List Char), Text cv x t ∧
    value (insert none 0 x).1 = [x] ∧ ¬ AllStr (value (insert none 0 x).1) ∧ value (append cv none x).1 = strs [t] := by
  refine ⟨conv, .val (.int 5), "5".toList, .made _ _ (fun ⟨_, h⟩ => by cases h) rfl, rfl, fun h => ?_, rfl⟩
  obtain ⟨s, hs⟩ := h _ List.mem_cons_self
  cases hs

end Verif.Props
