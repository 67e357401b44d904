import Verif.Lemmas.Coordinate
import Verif.Lemmas.PyInt
/-! C17: coordinate specifications are parsed correctly. -/
namespace Verif.Props
open Verif.Path Verif.PathSpec Verif.Coord Verif.CoordSpec Verif.PyIntSpec

/-- **C17.** Every specification of the Data Dictionary grammar, of any number of
alternatives: the coordinate has the described size and references, it is validated exactly
if there is a rule, and it has alternatives exactly if there are several rules. -/
theorem C17_grammar (as : List Alt) (hne : as ≠ []) (hw : ∀ a ∈ as, a.WF) (stack : Nat)
    (hs : (write as).length < stack) :
    ∃ c, parseCoordinate stack (write as) = .ok c ∧
      c.size = (sizes as).getLast?.map Int.ofNat ∧
      c.references.map (fun p => (p.parts, p.indices)) = paths as ∧
      (c.hasValidation = true ↔ 0 < rules as) ∧
      ((sizes as).length ≤ 1 → (c.hasAlternatives = true ↔ 1 < rules as)) ∧
      (c.isTime = true ↔ ∃ p ∈ paths as, p.1.getLast? = some "time".toList) := by
  have hlen : ∀ a ∈ as, a.text.length < stack :=
    fun a ha => Nat.lt_of_le_of_lt (write_length ha) hs
  refine ⟨_, by rw [parseCoordinate, splitOr_write hne hw, specLoop_alts hw hlen], ?_⟩
  have hsz : ((sizes as).getLast?.map Int.ofNat).isSome = !(sizes as).isEmpty := by
    cases sizes as with
    | nil => rfl
    | cons a l => simp
  refine ⟨by simp [finish], ?_, ?_, ?_, ?_⟩
  · simp [finish, List.map_map, Function.comp_def]
  · simp only [finish, Option.or_none, hsz, List.nil_append, List.length_map, rules,
      decide_eq_true_eq]
    cases sizes as <;> simp <;> omega
  · intro h1
    simp only [finish, Option.or_none, hsz, List.nil_append, List.length_map, rules,
      decide_eq_true_eq]
    cases hsz' : sizes as with
    | nil => simp
    | cons a l => rw [hsz'] at h1; simp at h1; simp [h1]
  · simp only [finish, List.nil_append, List.any_map, List.any_eq_true, Function.comp_apply,
      isTimePath, beq_iff_eq]
    rfl

/-- The specification used as example: `grid/r OR coord(i1)/time OR IDS:wall/x OR 1...1`. -/
def sampleCoord : List Alt :=
  [.path (.plain "grid".toList (.plain "r".toList .done)) true,
   .path (.indexed "coord".toList (.generic "i1".toList) (.plain "time".toList .done)) true,
   .otherIds "wall/x".toList, .size 1]

example : write sampleCoord = "grid/r OR coord(i1)/time OR IDS:wall/x OR 1...1".toList := by decide
example : sampleCoord ≠ [] ∧ (∀ a ∈ sampleCoord, a.WF) ∧ (sizes sampleCoord).length ≤ 1 := by
  have h : ∀ s, isValidField s = true → FieldName s := fun s => (isValidField_iff s).mp
  refine ⟨by decide, ?_, by decide⟩
  intro a ha
  simp only [sampleCoord, List.mem_cons, List.not_mem_nil, or_false] at ha
  rcases ha with rfl | rfl | rfl | rfl
  · simp only [Alt.WF, PathItems.WF]
    exact ⟨⟨h _ (by decide), h _ (by decide), trivial⟩, by simp⟩
  · simp only [Alt.WF, PathItems.WF, Index.WF]
    exact ⟨⟨h _ (by decide), (isGeneric_iff _).mp (by decide), h _ (by decide), trivial⟩, by simp⟩
  · simp only [Alt.WF]; decide
  · simp only [Alt.WF]; decide
example : rules sampleCoord = 3 := by decide

/-- The fixed size in one piece of a text. -/
def pieceSize (stack : Nat) (p : List Char) : Option Int := (specItem stack p).toOption.bind sizeOf?

theorem pieceSize_iff {stack : Nat} {p : List Char} {n : Int} :
    pieceSize stack p = some n ↔ ∃ t, p = "1...".toList ++ t ∧ WritesInt t n := by
  unfold pieceSize specItem
  constructor
  · intro h
    split at h
    · next rest hd =>
      refine ⟨rest, dropPrefix?_eq hd, ?_⟩
      split at h
      · cases h
      · split at h
        · next k hk =>
          have : k = n := by simpa [Except.toOption, sizeOf?] using h
          subst this
          exact (pyInt_iff _ _).1 hk
        · cases h
    · split at h
      · cases h
      · split at h
        · cases h
        · split at h <;> cases h
  · rintro ⟨t, rfl, ht⟩
    have hd : dropPrefix? ['1', '.', '.', '.'] ("1...".toList ++ t) = some t := rfl
    have hp := (pyInt_iff _ _).2 ht
    rw [hd]
    simp only
    rw [if_neg (by rintro rfl; rw [show pyInt ['N'] = none from rfl] at hp; cases hp), hp]
    rfl

theorem sizes_of_pieces {stack : Nat} : ∀ {ps : List (List Char)} {cs : List Contrib},
    ps.map (specItem stack) = cs.map Except.ok → cs.filterMap sizeOf? = ps.filterMap (pieceSize stack)
  | [], [], _ => rfl
  | [], _ :: _, h => by simp at h
  | _ :: _, [], h => by simp at h
  | p :: ps, c :: cs, h => by
    simp only [List.map_cons, List.cons.injEq] at h
    rw [List.filterMap_cons, List.filterMap_cons, sizes_of_pieces h.2]
    simp only [pieceSize, h.1, Except.toOption, Option.bind_some]

theorem getLast?_filterMap {α β : Type} {g : α → Option β} {n : β} : ∀ {l : List α},
    (l.filterMap g).getLast? = some n ↔ ∃ l1 x l2, l = l1 ++ x :: l2 ∧ g x = some n ∧ ∀ y ∈ l2, g y = none
  | [] => by simp
  | a :: l => by
    have ih := getLast?_filterMap (g := g) (n := n) (l := l)
    rw [List.filterMap_cons]
    constructor
    · intro h
      by_cases hl : l.filterMap g = []
      · have hnone : ∀ y ∈ l, g y = none := by simpa using hl
        cases ha : g a with
        | none => simp [ha, hl] at h
        | some b =>
          simp only [ha, hl, List.getLast?_singleton, Option.some.injEq] at h
          subst h
          exact ⟨[], a, l, rfl, ha, hnone⟩
      · have h' : (l.filterMap g).getLast? = some n := by
          cases ha : g a with
          | none => simpa [ha] using h
          | some b =>
            simp only [ha] at h
            rw [List.getLast?_cons] at h
            cases hx : (l.filterMap g).getLast? with
            | none => exact absurd (List.getLast?_eq_none_iff.1 hx) hl
            | some x => rw [hx] at h; simpa using h
        obtain ⟨l1, x, l2, rfl, h1, h2⟩ := ih.1 h'
        exact ⟨a :: l1, x, l2, rfl, h1, h2⟩
    · rintro ⟨l1, x, l2, e, h1, h2⟩
      cases l1 with
      | nil =>
        simp only [List.nil_append, List.cons.injEq] at e
        obtain ⟨rfl, rfl⟩ := e
        have hnil : l.filterMap g = [] := by simpa using h2
        simp [h1, hnil]
      | cons b l1 =>
        simp only [List.cons_append, List.cons.injEq] at e
        obtain ⟨rfl, rfl⟩ := e
        have h' := ih.2 ⟨l1, x, l2, rfl, h1, h2⟩
        cases ha : g a with
        | none => simpa [ha] using h'
        | some b =>
          simp only
          rw [List.getLast?_cons, h']
          rfl

/-- **C17.** Any text whatsoever: it never raises `ValueError`, and with enough call stack
it does not raise at all. The text is cut at ` OR `; the references are exactly the
well-formed paths among the pieces, the size is that of the last piece that gives one, and everything else is ignored. -/
theorem C17_any_text (text : List Char) (stack : Nat) (hs : text.length < stack) :
    ∃ c pieces, parseCoordinate stack text = .ok c ∧ joined pieces = text ∧
      (∀ p ∈ pieces, ¬ Occurs " OR ".toList p) ∧
      (∀ names indices, (∃ r ∈ c.references, r.parts = names ∧ r.indices = indices) ↔
        ∃ p ∈ pieces, p ≠ [] ∧ Denotes p names indices) ∧
      (∀ n, c.size = some n ↔ ∃ l t r, pieces = l ++ ("1...".toList ++ t) :: r ∧ WritesInt t n ∧
        ∀ u k, "1...".toList ++ u ∈ r → ¬ WritesInt u k) ∧
      (c.hasValidation = true ↔ c.size ≠ none ∨ c.references ≠ []) ∧
      (c.hasAlternatives = true ↔
        1 < c.references.length ∨ c.size ≠ none ∧ c.references ≠ []) := by
  have hle : ∀ p ∈ splitOr text, p.length < stack := by
    intro p hp
    have key : ∀ (l : List (List Char)) (p : List Char), p ∈ l → p.length ≤ (joined l).length := by
      intro l
      induction l with
      | nil => simp
      | cons a l ih =>
        intro p hp
        cases l with
        | nil => simp at hp; subst hp; simp [joined]
        | cons b l =>
          simp only [joined, List.length_append]
          rcases List.mem_cons.mp hp with rfl | hp
          · omega
          · have := ih p hp; omega
    have := key _ _ hp
    rw [joined_splitOr] at this
    omega
  cases hloop : specLoop stack ⟨none, []⟩ (splitOr text) with
  | error e =>
    obtain ⟨p, hp, h⟩ := specLoop_error hloop
    have := (specItem_error h).2
    have := hle p hp
    omega
  | ok s =>
    obtain ⟨cs, h1, h2, h3⟩ := specLoop_eq hloop
    refine ⟨finish s, splitOr text, by rw [parseCoordinate, hloop], joined_splitOr text,
      (splitOr_clean text).1, ?_, ?_, ?_, ?_⟩
    · intro names indices
      simp only [List.nil_append] at h2
      constructor
      · rintro ⟨r, hr, rfl, rfl⟩
        have hr' : r ∈ s.refs := hr
        rw [h2, List.mem_filterMap] at hr'
        obtain ⟨c, hc, hcr⟩ := hr'
        cases c with
        | nothing => simp [refOf?] at hcr
        | size n => simp [refOf?] at hcr
        | ref q =>
          simp only [refOf?, Option.some.injEq] at hcr; subst hcr
          have : (Except.ok (.ref q) : Except PathErr Contrib) ∈ cs.map Except.ok :=
            List.mem_map.mpr ⟨_, hc, rfl⟩
          rw [← h1, List.mem_map] at this
          obtain ⟨p, hp, he⟩ := this
          exact ⟨p, hp, (specItem_ref (hle p hp) q).mp he⟩
      · rintro ⟨p, hp, hne, hd⟩
        have he := (specItem_ref (hle p hp) ⟨names, indices⟩).mpr ⟨hne, hd⟩
        have : (Except.ok (.ref ⟨names, indices⟩) : Except PathErr Contrib) ∈ cs.map Except.ok := by
          rw [← h1, List.mem_map]; exact ⟨p, hp, he⟩
        obtain ⟨c, hc, hce⟩ := List.mem_map.mp this
        simp only [Except.ok.injEq] at hce; subst hce
        refine ⟨⟨names, indices⟩, ?_, rfl, rfl⟩
        show _ ∈ s.refs
        rw [h2, List.mem_filterMap]
        exact ⟨_, hc, rfl⟩
    · intro n
      show s.size = some n ↔ _
      rw [h3, Option.or_none, sizes_of_pieces h1, getLast?_filterMap]
      constructor
      · rintro ⟨l, p, r, e, hp, hr⟩
        obtain ⟨t, rfl, ht⟩ := pieceSize_iff.1 hp
        refine ⟨l, t, r, e, ht, fun u k hu hk => ?_⟩
        have := hr _ hu
        rw [pieceSize_iff.2 ⟨u, rfl, hk⟩] at this
        cases this
      · rintro ⟨l, t, r, e, ht, hr⟩
        refine ⟨l, _, r, e, pieceSize_iff.2 ⟨t, rfl, ht⟩, fun p hp => ?_⟩
        cases hs : pieceSize stack p with
        | none => rfl
        | some k =>
          obtain ⟨u, rfl, hu⟩ := pieceSize_iff.1 hs
          exact absurd hu (hr u k hp)
    · simp only [finish, decide_eq_true_eq]
      cases s.size <;> cases s.refs <;> simp
    · simp only [finish, decide_eq_true_eq]
      cases s.size <;> cases s.refs <;> simp

/-- Texts outside the grammar: malformed alternatives are ignored. -/
example : ∃ c, parseCoordinate 100 "a//b OR 1...x OR z".toList = .ok c ∧ c.size = none ∧
    c.references.length = 1 :=
  ⟨finish ⟨none, [⟨[['z']], [none]⟩]⟩, by with_unfolding_all rfl, rfl, rfl⟩

/-- **C17.** Sizes and names of occurrences are converted by Python's `int`: it accepts exactly the texts of numbers, and gives the
number. -/
theorem C17_int (s : List Char) (n : Int) : pyInt s = some n ↔ WritesInt s n := pyInt_iff s n

example : WritesInt " -1_20\n".toList (-120) := (C17_int _ _).1 (by decide +kernel)
example : ¬ ∃ n, WritesInt "1__2".toList n := fun ⟨n, h⟩ => by
  rw [← C17_int, show pyInt "1__2".toList = none by decide +kernel] at h
  cases h

end Verif.Props
