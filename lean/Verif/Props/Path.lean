import Verif.Lemmas.PathWrite
import Verif.Lemmas.PathCache
/-!
Properties of IDS paths: C01 (round trip), C02 (only well-formed paths), C03 (construction
history), C04 (ancestor order).
-/
namespace Verif.Props
open Verif.Path Verif.PathSpec

/-- **C01.** Writing any well-formed list of names with indices, in either style, and
constructing an `IDSPath` from the text gives exactly those names and indices. -/
theorem C01_path_round_trip (p : PathItems) (hp : p.WF) (fortran : Bool) (stack : Nat)
    (hs : (p.write fortran true).length < stack) :
    parsePath stack (p.write fortran true) = .ok ⟨p.names, p.indices⟩ :=
  parsePath_complete stack hs (PathItems.text p hp (by simp))

/-- The path used for the examples: `coord[process[0]/idx]/b[1:]/time`. -/
def samplePath : PathItems :=
  .indexed "coord".toList (.path (.indexed "process".toList (.num 0) (.plain "idx".toList .done)))
    (.indexed "b_1".toList (.slice (some 1) none) (.plain "time".toList .done))

theorem samplePath_wf : samplePath.WF := by
  have h : ∀ s, isValidField s = true → FieldName s := fun s => (isValidField_iff s).mp
  simp only [samplePath, PathItems.WF, Index.WF, PathItems.looksGeneric]
  exact ⟨h _ (by decide), ⟨⟨h _ (by decide), trivial, h _ (by decide), trivial⟩, id⟩,
    h _ (by decide), trivial, h _ (by decide), trivial⟩

example : samplePath.WF ∧ samplePath.write true true = "coord(process(1)/idx)/b_1(2:)/time".toList :=
  ⟨samplePath_wf, by decide⟩
example : parsePath 100 "coord(process(1)/idx)/b_1(2:)/time".toList =
    .ok ⟨samplePath.names, samplePath.indices⟩ := by
  have e : "coord(process(1)/idx)/b_1(2:)/time".toList = samplePath.write true true := by decide
  rw [e]; exact C01_path_round_trip _ samplePath_wf _ _ (by decide)

/-- **C02.** Constructing an `IDSPath` from any text either succeeds, and then the text is a
well-formed path denoting the resulting names and indices; or it raises `ValueError`, and
then the text is not a well-formed path. The only other outcome is `RecursionError`, when
the text is at least as long as the remaining call stack is deep. -/
theorem C02_parse_outcomes (stack : Nat) (text : List Char) :
    (∃ r, parsePath stack text = .ok r ∧ Denotes text r.parts r.indices) ∨
    (parsePath stack text = .error .value ∧ (text.length < stack → ∀ ps is, ¬ Denotes text ps is)) ∨
    (parsePath stack text = .error .recursion ∧ stack ≤ text.length) := by
  cases h : parsePath stack text with
  | ok r => exact .inl ⟨r, rfl, _, parsePath_sound stack h⟩
  | error e =>
    right
    cases e with
    | value =>
      refine .inl ⟨rfl, fun hl ps is hd => ?_⟩
      obtain ⟨f, hd⟩ := hd
      rw [parsePath_complete stack hl hd] at h
      simp at h
    | recursion =>
      refine .inr ⟨rfl, ?_⟩
      by_cases hl : text.length < stack
      · have := parsePath_error stack hl h; simp at this
      · omega

/-- **C02**, as an equivalence: with enough stack, the accepted texts are exactly the
well-formed ones, with exactly the denoted names and indices. -/
theorem C02_parse_iff (stack : Nat) (text : List Char) (hs : text.length < stack)
    (ps : List (List Char)) (is : List (Option Idx)) :
    parsePath stack text = .ok ⟨ps, is⟩ ↔ Denotes text ps is := by
  constructor
  · intro h; exact ⟨_, parsePath_sound stack h⟩
  · rintro ⟨f, h⟩; exact parsePath_complete stack hs h

/-- **C02**: what acceptance implies about the text and the result. -/
theorem C02_accepted_well_formed (stack : Nat) (text : List Char) (r : Parsed)
    (h : parsePath stack text = .ok r) :
    (∀ p ∈ r.parts, FieldName p) ∧ r.indices.length = r.parts.length ∧
    ¬ ('(' ∈ text ∧ '[' ∈ text) ∧
    text.count '(' = text.count ')' ∧ text.count '[' = text.count ']' := by
  have hs := parsePath_sound stack h
  have hst := (PathText.style hs).2
  refine ⟨?_, ?_, ?_, ?_⟩
  · intro p hp
    exact (isValidField_iff p).mp (List.all_eq_true.mp (PathText.valid hs) p hp)
  · exact PathText.lengths hs
  · rintro ⟨h1, h2⟩
    rw [contains_iff.mpr h1, contains_iff.mpr h2] at hst
    simp at hst
  · exact PathText.counts hs

example : parsePath 100 "a(1)/b[2]".toList = .error .value := by with_unfolding_all rfl
example : parsePath 100 "a//b".toList = .error .value := by with_unfolding_all rfl
example : Denotes "a[3]".toList ["a".toList] [some (.num 3)] :=
  (C02_parse_iff 100 "a[3]".toList (by decide) _ _).mp (by with_unfolding_all rfl)

/-- **C03.** After any history of constructions (valid or not, with any stack depths),
constructing `text` gives the contents or the `ValueError` that the text alone determines;
only exhaustion of the call stack can interfere. -/
theorem C03_history_independent (hist : List (Nat × List Char)) (stack : Nat)
    (text : List Char) (hs : text.length < stack) :
    (∃ obj r, (construct stack (constructAll World.empty hist) text).2 = .ok (obj, r) ∧
      parsePath stack text = .ok r) ∨
    ((construct stack (constructAll World.empty hist) text).2 = .error .value ∧
      parsePath stack text = .error .value) := by
  have hinv := (constructAll_spec hist inv_empty).1
  have h := construct_spec stack text hinv
  rw [parsePath_stable hs (Nat.lt_succ_self _)]
  cases ho : (construct stack (constructAll World.empty hist) text).2 with
  | ok r => exact .inl ⟨r.1, r.2, rfl, (h.ok _ _ ho).2.2⟩
  | error e =>
    cases e with
    | value => exact .inr ⟨rfl, h.err ho⟩
    | recursion => have := h.stack ho; omega

/-- **C03.** The object a construction returned keeps its contents, and every later
construction of the same text returns the same object, whatever happens in between. -/
theorem C03_same_object (hist later : List (Nat × List Char)) (stack stack' : Nat)
    (text : List Char) (obj : Nat) (r : Parsed) (w : World)
    (h : construct stack (constructAll World.empty hist) text = (w, .ok (obj, r))) :
    construct (stack' + 1) (constructAll w later) text =
      (constructAll w later, .ok (obj, r)) := by
  have hinv := (constructAll_spec hist inv_empty).1
  have h1 := construct_spec stack text hinv
  rw [h] at h1
  obtain ⟨hc, hh, _⟩ := h1.ok obj r rfl
  obtain ⟨_, hle⟩ := constructAll_spec later h1.inv
  have hc' := hle.cache _ _ hc
  have hh' := hle.heap _ _ hh
  simp [construct, World.new, hc', hh']

/-- **C03.** Different texts give different objects. -/
theorem C03_distinct_objects (hist : List (Nat × List Char)) (n m : Nat) (t u : List Char)
    (i : Nat) (r s : Parsed)
    (h1 : (construct n (constructAll World.empty hist) t).2 = .ok (i, r))
    (h2 : (construct m (construct n (constructAll World.empty hist) t).1 u).2 = .ok (i, s)) :
    t = u := by
  have hinv := (constructAll_spec hist inv_empty).1
  have k1 := construct_spec n t hinv
  have k2 := construct_spec m u k1.inv
  exact k2.inv.inj t u i (k2.le.cache _ _ (k1.ok i r h1).1) (k2.ok i s h2).1

example : (construct 50 (constructAll World.empty
      [(50, "a(b/c)".toList), (3, "a(".toList), (50, "b/c".toList)]) "b/c".toList).2 =
    .ok (1, ⟨["b".toList, "c".toList], [none, none]⟩) := by with_unfolding_all rfl

/-- **C04.** `a.is_ancestor_of(b)` holds exactly when the names of `b` extend the names of
`a` by at least one name. -/
theorem C04_is_ancestor_iff (a b : Parsed) :
    isAncestorOf a b = true ↔ ∃ n ns, b.parts = a.parts ++ n :: ns := by
  simp only [isAncestorOf, Bool.and_eq_true, decide_eq_true_eq, beq_iff_eq]
  constructor
  · rintro ⟨h1, h2⟩
    have e := List.take_append_drop a.parts.length b.parts
    rw [h2] at e
    cases hd : b.parts.drop a.parts.length with
    | nil => simp at hd; omega
    | cons n ns => rw [hd] at e; exact ⟨n, ns, e.symm⟩
  · rintro ⟨n, ns, e⟩
    rw [e]; simp

/-- **C04.** The ancestor relation is a strict order. -/
theorem C04_strict_order :
    (∀ a, isAncestorOf a a = false) ∧
    (∀ a b, isAncestorOf a b = true → isAncestorOf b a = false) ∧
    (∀ a b c, isAncestorOf a b = true → isAncestorOf b c = true → isAncestorOf a c = true) := by
  have len : ∀ a b, isAncestorOf a b = true → a.parts.length < b.parts.length := by
    intro a b h
    simp only [isAncestorOf, Bool.and_eq_true, decide_eq_true_eq] at h
    exact h.1
  refine ⟨fun a => ?_, fun a b h => ?_, fun a b c h1 h2 => ?_⟩
  · cases h : isAncestorOf a a with
    | false => rfl
    | true => exact absurd (len _ _ h) (by omega)
  · cases h' : isAncestorOf b a with
    | false => rfl
    | true => have := len _ _ h; have := len _ _ h'; omega
  · obtain ⟨n, ns, e1⟩ := (C04_is_ancestor_iff a b).mp h1
    obtain ⟨m, ms, e2⟩ := (C04_is_ancestor_iff b c).mp h2
    refine (C04_is_ancestor_iff a c).mpr ⟨n, ns ++ m :: ms, ?_⟩
    rw [e2, e1]; simp

example : isAncestorOf ⟨["a".toList], [none]⟩ ⟨["a".toList, "b".toList], [some (.num 1), none]⟩ = true ∧
    isAncestorOf ⟨["a".toList], [none]⟩ ⟨["ab".toList, "b".toList], [none, none]⟩ = false := by decide

end Verif.Props
