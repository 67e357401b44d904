import Verif.Lemmas.Contour
/-! C25 (closed outlines) and C26 (circuit connections). -/
namespace Verif.Props
open Verif.Convert Verif.ConvertSpec

variable {α β : Type}

/-! ### C25 -/

/-- **C25**, DD3 to DD4: a closed outline gets its first point repeated at the end of every
coordinate, an open one is copied unchanged. -/
theorem C25_old_to_new (o : Old α β) (hf : ∀ e ∈ o.elems, NoFlags e) :
    (o.closed = 0 → toNew o = o.elems) ∧
    (o.closed ≠ 0 → (toNew o).length = o.elems.length ∧
      ∀ (i : Nat) (e e' : Outline α β), o.elems[i]? = some e → (toNew o)[i]? = some e' →
        e'.map (·.1) = e.map (·.1) ∧
        ∀ xs, Coord e' xs → ∃ ys, Coord e ys ∧ xs = ys ++ ys.head?.toList) := by
  constructor
  · intro h
    have hfun : ∀ e ∈ o.elems, (e.filter fun c => !skipped c.1).map
        (onNumeric (o.closed != 0) repeatFirst) = e := by
      intro e he
      rw [filter_noFlags (hf e he), h, map_id_iff]
      intro c _
      exact onNumeric_false _ c
    unfold toNew
    rw [map_id_iff]; exact hfun
  · intro h
    refine ⟨by simp [toNew], ?_⟩
    intro i e e' he he'
    have hm : e ∈ o.elems := List.mem_of_getElem? he
    have hb : (o.closed != 0) = true := by simp [h]
    simp only [toNew, List.getElem?_map, he, Option.map_some, Option.some.injEq,
      filter_noFlags (hf e hm), hb] at he'
    subst he'
    refine ⟨?_, fun xs hx => coord_map hx⟩
    rw [List.map_map]
    exact List.map_congr_left fun c _ => onNumeric_name _ _ c

/-- **C25**: DD3 to DD4 and back. A closed outline is restored if its points are close to
themselves (no NaN); an open outline is restored if some coordinate does not end where it
starts. -/
theorem C25_old_new_old (isclose : α → α → Bool) (o : Old α β)
    (hf : ∀ e ∈ o.elems, NoFlags e) (ha : ∀ e ∈ o.elems, Arrays e)
    (h : (o.closed = 1 ∧ ∀ e ∈ o.elems, ∀ xs, Coord e xs → ∀ a ∈ xs.head?, isclose a a = true) ∨
      (o.closed = 0 ∧ ∃ e ∈ o.elems, ∃ xs, Coord e xs ∧
        ∃ a ∈ xs.head?, ∃ z ∈ xs.getLast?, isclose a z = false)) :
    toOld isclose (toNew o) = some o := by
  rcases h with ⟨hc, hr⟩ | ⟨hc, e, he, xs, hx, a, hxa, z, hz, hn⟩
  · have hnew : toNew o = o.elems.map fun e => e.map (onNumeric true repeatFirst) := by
      unfold toNew
      refine List.map_congr_left fun e he => ?_
      rw [filter_noFlags (hf e he), hc]; rfl
    have harr : ∀ e ∈ toNew o, Arrays e := by
      rw [hnew]
      intro e he
      obtain ⟨e0, he0, rfl⟩ := List.mem_map.mp he
      intro c hcm hcn
      obtain ⟨c0, hc0, rfl⟩ := List.mem_map.mp hcm
      rw [onNumeric_name] at hcn
      obtain ⟨xs, hxs, hne⟩ := ha e0 he0 c0 hc0 hcn
      rw [onNumeric_num hcn hxs]
      exact ⟨_, rfl, by simp [repeatFirst, hne]⟩
    obtain ⟨b, hb, hiff⟩ := allClosed_iff (isclose := isclose) harr
    have hbt : b = true := by
      rw [hiff, hnew]
      intro e he xs hx a hxa z hz
      obtain ⟨e0, he0, rfl⟩ := List.mem_map.mp he
      obtain ⟨ys, hy, rfl⟩ := coord_map hx
      have := hr e0 he0 ys hy
      cases ys with
      | nil => simp [repeatFirst] at hxa
      | cons y ys =>
        simp only [repeatFirst, List.head?_cons, Option.toList_some, List.cons_append,
          Option.mem_some_iff] at hxa hz
        subst hxa
        have hz' : (y :: (ys ++ [y])).getLast? = some y := by
          rw [← List.cons_append, List.getLast?_concat]
        rw [hz'] at hz; cases hz
        exact this _ (by simp)
    subst hbt
    unfold toOld
    rw [hb]
    simp only [if_true, Option.some.injEq]
    cases o with
    | mk cl es =>
      simp only at hc; subst hc
      simp only [Old.mk.injEq, true_and]
      rw [hnew, List.map_map, map_id_iff]
      intro e he
      simp only [Function.comp_apply, List.map_map]
      rw [map_id_iff]
      intro c hcm
      simp only [Function.comp_apply]
      by_cases hn : c.1 = timeName
      · rw [onNumeric_time _ _ (c := c) hn, onNumeric_time _ _ hn]
      · obtain ⟨xs, hxs, hne⟩ := ha e he c hcm hn
        rw [onNumeric_num hn hxs, onNumeric_num (c := (c.1, .num (repeatFirst xs))) hn rfl,
          removeLast_repeatFirst hne, ← hxs]
  · have hnew := (C25_old_to_new o hf).1 hc
    obtain ⟨b, hb, hiff⟩ := allClosed_iff (isclose := isclose) ha
    have hbf : b = false := by
      cases b with
      | false => rfl
      | true =>
        have := hiff.mp rfl e he xs hx a hxa z hz
        rw [hn] at this; simp at this
    subst hbf
    unfold toOld
    rw [hnew, hb]
    simp only [Bool.false_eq_true, if_false, map_onNumeric_false]
    cases o; simp only at hc; subst hc; rfl

def isEq (a b : Int) : Bool := a == b

/-- A closed triangle and an open line. -/
def sampleClosed : Old Int Unit :=
  ⟨1, [[("r".toList, .num [1, 2, 3]), ("z".toList, .num [0, 5, 0]), ("time".toList, .num [7])]]⟩
def sampleOpen : Old Int Unit :=
  ⟨0, [[("r".toList, .num [1, 2, 1]), ("z".toList, .num [0, 5, 4])], [("r".toList, .num [1])]]⟩

example : toNew sampleClosed =
    [[("r".toList, .num [1, 2, 3, 1]), ("z".toList, .num [0, 5, 0, 0]),
      ("time".toList, .num [7])]] := by decide
example : toOld isEq (toNew sampleClosed) = some sampleClosed ∧
    toOld isEq (toNew sampleOpen) = some sampleOpen := by decide
example : (∀ e ∈ sampleOpen.elems, Arrays e) ∧
    ∃ e ∈ sampleOpen.elems, ∃ xs, Coord e xs ∧
      ∃ a ∈ xs.head?, ∃ z ∈ xs.getLast?, isEq a z = false := by
  refine ⟨?_, _, List.mem_cons_self, [0, 5, 4], ⟨"z".toList, by decide, by decide⟩, 0, by decide,
    4, by decide, by decide⟩
  intro e he c hc _
  simp only [sampleOpen, List.mem_cons, List.not_mem_nil, or_false] at he
  rcases he with rfl | rfl
  · simp only [List.mem_cons, List.not_mem_nil, or_false] at hc
    rcases hc with rfl | rfl
    · exact ⟨_, rfl, by simp⟩
    · exact ⟨_, rfl, by simp⟩
  · simp only [List.mem_cons, List.not_mem_nil, or_false] at hc
    subst hc; exact ⟨_, rfl, by simp⟩

/-- **C25**: DD4 to DD3 and back. An open outline is restored. A closed outline of at least
two points is restored if its last point is exactly the first. -/
theorem C25_new_old_new (isclose : α → α → Bool) (es : List (Outline α β))
    (hf : ∀ e ∈ es, NoFlags e) (ha : ∀ e ∈ es, Arrays e) :
    ∃ o, toOld isclose es = some o ∧ (o.closed = 0 ∨ o.closed = 1) ∧
      (o.closed = 1 ↔ ∀ e ∈ es, ∀ xs, Coord e xs →
        ∀ a ∈ xs.head?, ∀ z ∈ xs.getLast?, isclose a z = true) ∧
      (o.closed = 0 → toNew o = es) ∧
      (o.closed = 1 → (∀ e ∈ es, ∀ xs, Coord e xs → xs.head? = xs.getLast? ∧ 2 ≤ xs.length) →
        toNew o = es) := by
  obtain ⟨b, hb, hiff⟩ := allClosed_iff (isclose := isclose) ha
  refine ⟨_, by rw [toOld, hb], ?_⟩
  cases b with
  | false =>
    simp only [Bool.false_eq_true, if_false, map_onNumeric_false, false_iff] at hiff ⊢
    refine ⟨.inl trivial, ⟨fun h => absurd h (by decide), fun h => absurd h hiff⟩, fun _ => ?_, fun h => absurd h (by decide)⟩
    exact (C25_old_to_new ⟨0, es⟩ hf).1 rfl
  | true =>
    simp only [if_true]
    refine ⟨.inr trivial, ⟨fun _ => hiff.mp rfl, fun _ => trivial⟩, fun h => absurd h (by decide),
      fun _ hx => ?_⟩
    simp only [toNew, List.map_map]
    rw [map_id_iff]
    intro e he
    have hfl : NoFlags (e.map (onNumeric true removeLast)) := by
      intro c hc
      obtain ⟨c0, hc0, rfl⟩ := List.mem_map.mp hc
      rw [onNumeric_name]; exact hf e he c0 hc0
    simp only [Function.comp_apply]
    rw [filter_noFlags hfl, List.map_map, map_id_iff]
    intro c hcm
    have h1 : ((1 : Int) != 0) = true := rfl
    simp only [Function.comp_apply, h1]
    by_cases hn : c.1 = timeName
    · rw [onNumeric_time _ _ (c := c) hn, onNumeric_time _ _ hn]
    · obtain ⟨xs, hxs, hne⟩ := ha e he c hcm hn
      rw [onNumeric_num hn hxs, onNumeric_num (c := (c.1, .num (removeLast xs))) hn rfl]
      obtain ⟨hhl, hlen⟩ := hx e he xs ⟨c.1, by rw [← hxs]; exact hcm, hn⟩
      have : repeatFirst (removeLast xs) = xs := by
        match xs, hlen with
        | a :: b :: l, _ =>
          simp only [removeLast, repeatFirst, List.dropLast_cons_cons, List.head?_cons, Option.toList_some]
          rw [List.head?_cons] at hhl
          have e1 := List.dropLast_concat_getLast (l := a :: b :: l) (by simp)
          rw [List.getLast?_eq_some_getLast (by simp)] at hhl
          simp only [Option.some.injEq] at hhl
          rw [← hhl] at e1
          simpa using e1
      rw [this, ← hxs]

example : ∃ o, toOld isEq [[("r".toList, .num [1, 2, 3, 1])]] = some o ∧ o.closed = 1 ∧
    toNew o = ([[("r".toList, .num [1, 2, 3, 1])]] : List (Outline Int Unit)) :=
  ⟨⟨1, [[("r".toList, .num [1, 2, 3])]]⟩, by decide⟩

/-- **C25**: centreline thickness. DD4 to DD3 and back is the identity; DD3 to DD4 and back
is the identity for closed centrelines and, for open ones, repeats the last but one value. -/
theorem C25_thickness (closed : Int) (xs : List α) :
    thicknessToNew closed (thicknessToOld closed xs) = xs ∧
    (closed ≠ 0 → thicknessToOld closed (thicknessToNew closed xs) = xs) ∧
    (closed = 0 → ∀ ys a b, xs = ys ++ [a, b] →
      thicknessToOld closed (thicknessToNew closed xs) = ys ++ [a, a]) := by
  refine ⟨?_, ?_, ?_⟩
  · unfold thicknessToNew thicknessToOld
    by_cases h : closed = 0
    · subst h
      simp only [bne_self_eq_false, Bool.false_eq_true, if_false]
      cases hx : xs with
      | nil => rfl
      | cons a l =>
        rw [List.getLast?_eq_some_getLast (by simp)]
        simp only [Option.toList_some, List.dropLast_concat]
    · have : (closed != 0) = true := by simp [h]
      simp [this]
  · intro h
    have : (closed != 0) = true := by simp [h]
    simp [thicknessToNew, thicknessToOld, this]
  · rintro rfl ys a b rfl
    have e : ys ++ [a, b] = (ys ++ [a]) ++ [b] := by simp
    simp only [thicknessToNew, thicknessToOld, bne_self_eq_false, Bool.false_eq_true, if_false]
    rw [e, List.dropLast_concat, List.getLast?_concat]
    simp

/-- **C25**, where it falls short: an outline of a single point in DD4 counts as closed and
loses its only point; and a DD3 outline whose `closed` flag is not set counts as closed. -/
theorem C25_limits (isclose : α → α → Bool) (x y : α) (hx : isclose x x = true) :
    toOld isclose ([[("r".toList, .num [x])]] : List (Outline α β)) =
      some ⟨1, [[("r".toList, .num [])]]⟩ ∧
    toNew (⟨-999999999, [[("r".toList, .num [x, y])]]⟩ : Old α β) =
      [[("r".toList, .num [x, y, x])]] := by
  constructor
  · simp [toOld, allClosed, outlineClosed, endsMeet, hx, onNumeric, removeLast]
    decide
  · have h : ("r".toList == timeName) = false := by decide
    have hs : skipped "r".toList = false := by decide
    have hb : ((-999999999 : Int) == 0) = false := by decide
    simp only [toNew, List.map_cons, List.map_nil, List.filter_cons, List.filter_nil, hs,
      Bool.not_false, if_true, onNumeric, hb, bne, h, Bool.not_false, Bool.and_true, repeatFirst, List.head?_cons,
      Option.toList_some, List.cons_append, List.nil_append]

/-! ### C26 -/

/-- **C26**, DD3 to DD4 and back: the identity on exactly the well-formed matrices among
those with an even number of columns. -/
theorem C26_connections_3_4_3 (cols : Nat) (m : List (List Int)) (hm : Matrix cols m)
    (he : cols % 2 = 0) : connTo3 (connTo4 cols m) = m ↔ ∀ r ∈ m, Row3 r := by
  unfold connTo3 connTo4
  rw [if_neg (by omega), List.map_map, map_id_iff]
  constructor
  · intro h r hr; exact (pairs_pairDiff_iff r (hm r hr).2).mp (h r hr)
  · intro h r hr; exact (pairs_pairDiff_iff r (hm r hr).2).mpr (h r hr)

/-- **C26**, DD4 to DD3 and back: the identity on exactly the matrices of -1, 0, 1. -/
theorem C26_connections_4_3_4 (cols : Nat) (m : List (List Int)) :
    connTo4 (2 * cols) (connTo3 m) = m ↔ ∀ r ∈ m, Row4 r := by
  unfold connTo3 connTo4
  rw [if_neg (by omega), List.map_map, map_id_iff]
  constructor
  · intro h r hr; exact (pairDiff_pairs_iff r).mp (h r hr)
  · intro h r hr; exact (pairDiff_pairs_iff r).mpr (h r hr)

/-- **C26**: the shape is halved or doubled, and an odd number of columns is left alone. -/
theorem C26_connections_shape (cols : Nat) (m : List (List Int)) (hm : Matrix cols m) :
    (cols % 2 = 1 → connTo4 cols m = m) ∧
    (cols % 2 = 0 → ∀ r ∈ connTo4 cols m, 2 * r.length = cols) ∧
    (∀ r ∈ connTo3 m, r.length = 2 * cols) ∧
    (∀ r ∈ connTo3 m, Row3 r) ∧
    ((∀ r ∈ m, Row3 r) → cols % 2 = 0 → ∀ r ∈ connTo4 cols m, Row4 r) := by
  refine ⟨fun h => by simp [connTo4, h], ?_, ?_, ?_, ?_⟩
  · intro h r hr
    rw [connTo4, if_neg (by omega)] at hr
    obtain ⟨s, hs, rfl⟩ := List.mem_map.mp hr
    have key : ∀ s : List Int, s.length % 2 = 0 → 2 * (pairDiff s).length = s.length := by
      intro s
      fun_induction pairDiff s with
      | case1 a b rest ih => intro h; simp at h ⊢; have := ih (by omega); omega
      | case2 s hs =>
        intro h
        match s, hs with
        | [], _ => rfl
        | [_], _ => simp at h
        | a :: b :: r, hs => exact absurd rfl (hs a b r)
    rw [key s (by rw [(hm s hs).1]; exact h), (hm s hs).1]
  · intro r hr
    obtain ⟨s, hs, rfl⟩ := List.mem_map.mp hr
    have key : ∀ s : List Int, (pairs s).length = 2 * s.length := by
      intro s; induction s with
      | nil => rfl
      | cons a s ih => simp [pairs, ih]; omega
    rw [key s, (hm s hs).1]
  · intro r hr
    obtain ⟨s, hs, rfl⟩ := List.mem_map.mp hr
    clear hr hs
    induction s with
    | nil => exact .nil
    | cons a s ih =>
      unfold pairs
      by_cases h1 : a = 1
      · subst h1; exact .first ih
      · rw [if_neg h1]
        by_cases h2 : a = -1
        · rw [if_pos h2]; exact .second ih
        · rw [if_neg h2]; exact .none ih
  · intro h3 he r hr
    rw [connTo4, if_neg (by omega)] at hr
    obtain ⟨s, hs, rfl⟩ := List.mem_map.mp hr
    have key : ∀ s, Row3 s → Row4 (pairDiff s) := by
      intro s h
      induction h with
      | nil => simp [pairDiff, Row4]
      | none h ih => intro x hx; rcases List.mem_cons.mp hx with rfl | hx
                     · right; left; decide
                     · exact ih x hx
      | first h ih => intro x hx; rcases List.mem_cons.mp hx with rfl | hx
                      · right; right; decide
                      · exact ih x hx
      | second h ih => intro x hx; rcases List.mem_cons.mp hx with rfl | hx
                       · left; decide
                       · exact ih x hx
    exact key s (h3 s hs)

example : Matrix 4 [[1, 0, 0, 1], [0, 0, 1, 0]] ∧ (∀ r ∈ [[1, 0, 0, 1], [0, 0, 1, 0]], Row3 r) ∧
    connTo4 4 [[1, 0, 0, 1], [0, 0, 1, 0]] = [[1, -1], [0, 1]] := by
  refine ⟨?_, ?_, by decide⟩
  · unfold Matrix; decide
  · intro r hr
    simp only [List.mem_cons, List.not_mem_nil, or_false] at hr
    rcases hr with rfl | rfl
    · exact .first (.second .nil)
    · exact .none (.first .nil)

/-- **C26**, where it falls short: an ill-formed matrix with an even number of columns is
converted all the same, and connected on both sides becomes indistinguishable from not
connected. -/
theorem C26_ill_formed_converted : connTo4 2 [[1, 1]] = connTo4 2 [[0, 0]] := by decide

end Verif.Props
