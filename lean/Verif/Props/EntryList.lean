import Verif.Props.Entry
/-
C53: listing occurrences with the values of a node.
-/
namespace Verif.Props
open Verif.Entry Verif.EntrySpec

/-- In the given state of the entry, `get(name, occ, lazy=True)[path]` gives this value. -/
def Gives (w : World) (name path : Text) (e : Entry) (occ : Int) (v : Nat) (e' : Entry) : Prop :=
  ∃ version data, get w e name occ ⟨true, true, false, none⟩ = (e', .ok (.ids version data)) ∧
    w.node data path = .ok v

/-- In the given state of the entry, `get(name, occ, lazy=True)[path]` raises this exception. -/
def Raises (w : World) (name path : Text) (e : Entry) (occ : Int) (x : Exc) (e' : Entry) : Prop :=
  get w e name occ ⟨true, true, false, none⟩ = (e', .error x) ∨
  ∃ version data, get w e name occ ⟨true, true, false, none⟩ = (e', .ok (.ids version data)) ∧
    w.node data path = .error x

/-- The values that the occurrences give, one after the other. -/
inductive Given1 (w : World) (name path : Text) : Entry → List Int → List Nat → Entry → Prop
  | nil {e : Entry} : Given1 w name path e [] [] e
  | cons {e e1 e' : Entry} {occ : Int} {v : Nat} {occs : List Int} {vs : List Nat}
      (h : Gives w name path e occ v e1) (t : Given1 w name path e1 occs vs e') :
      Given1 w name path e (occ :: occs) (v :: vs) e'

theorem get_ids {w : World} {e e' : Entry} {name : Text} {occ : Int} {o : GetOpts} {v : Val}
    (h : get w e name occ o = (e', .ok v)) : ∃ version data, v = .ids version data := by
  unfold Entry.get at h
  split at h
  · cases h
  · split at h
    · cases h
    · split at h
      · cases h
      · split at h
        · cases h
        · split at h
          · cases h
          · split at h
            · cases h
            · cases h; exact ⟨_, _, rfl⟩

theorem getNodes_cases (w : World) (name path : Text) : ∀ (occs : List Int) (e : Entry) (acc : List Nat),
    (∃ vs, (getNodes w name path e occs acc).2 = .ok (acc ++ vs) ∧
      Given1 w name path e occs vs (getNodes w name path e occs acc).1) ∨
    ∃ x pre occ post vs e1, (getNodes w name path e occs acc).2 = .error x ∧ occs = pre ++ occ :: post ∧
      Given1 w name path e pre vs e1 ∧ Raises w name path e1 occ x (getNodes w name path e occs acc).1
  | [], e, acc => .inl ⟨[], by simp [getNodes], .nil⟩
  | occ :: r, e, acc => by
    unfold getNodes
    split
    · next e' x hg => exact .inr ⟨x, [], occ, r, [], e, rfl, rfl, .nil, .inl hg⟩
    · next e' version data hg =>
      split
      · next x hn => exact .inr ⟨x, [], occ, r, [], e, rfl, rfl, .nil, .inr ⟨version, data, hg, hn⟩⟩
      · next v hn =>
        have hv : Gives w name path e occ v e' := ⟨version, data, hg, hn⟩
        rcases getNodes_cases w name path r e' (acc ++ [v]) with ⟨vs, h1, h2⟩ | ⟨x, pre, o, post, vs, e1, h1, h2, h3, h4⟩
        · exact .inl ⟨v :: vs, by rw [h1]; simp, .cons hv h2⟩
        · exact .inr ⟨x, occ :: pre, o, post, v :: vs, e1, h1, by rw [h2]; rfl, .cons hv h3, h4⟩
    · next e' u hu hg =>
      obtain ⟨a, b, rfl⟩ := get_ids hg
      exact absurd rfl (hu a b)

/-- **C53.** Without a path, listing the occurrences gives what the backend lists. With a path it also gives
one value for each of these occurrences, in the same order: the one that a lazy get of this occurrence has there. If a
get or the lookup of the node raises, so does listing, with the same exception. The state of the entry is
that after these calls. -/
theorem C53_list (w : World) (e : Entry) (h : Nat) (hi : e.impl = some h) (name : Text)
    (hl : w.fails e.log (.list name) = none) :
    let e0 : Entry := { e with log := e.log ++ [⟨h, .list name, true⟩] }
    listAll w e name none = (e0, .ok (.occs (w.occurrences e.log))) ∧
    ∀ path,
      (∃ vs, (listAll w e name (some path)).2 = .ok (.occsNodes (w.occurrences e.log) vs) ∧
        Given1 w name path e0 (w.occurrences e.log) vs (listAll w e name (some path)).1) ∨
      ∃ x pre occ post vs e1, (listAll w e name (some path)).2 = .error x ∧
        w.occurrences e.log = pre ++ occ :: post ∧ Given1 w name path e0 pre vs e1 ∧
        Raises w name path e1 occ x (listAll w e name (some path)).1 := by
  have hinv : invoke w e.log h (.list name) = (e.log ++ [⟨h, .list name, true⟩], .ok ()) := by
    unfold invoke; rw [hl]
  refine ⟨?_, fun path => ?_⟩
  · unfold listAll
    simp only [hi, hinv]
  · have := getNodes_cases w name path (w.occurrences e.log)
      { e with log := e.log ++ [⟨h, .list name, true⟩] } []
    unfold listAll
    simp only [hi, hinv]
    rcases hg : getNodes w name path { e with log := e.log ++ [⟨h, .list name, true⟩] } (w.occurrences e.log) []
      with ⟨e', r⟩
    rw [hi] at hg
    rw [hi] at this
    rw [hg] at this ⊢
    rcases this with ⟨vs, h1, h2⟩ | ⟨x, pre, occ, post, vs, e1, h1, h2, h3, h4⟩
    · simp only [List.nil_append] at h1
      subst h1
      exact .inl ⟨vs, rfl, h2⟩
    · simp only at h1
      subst h1
      exact .inr ⟨x, pre, occ, post, vs, e1, rfl, h2, h3, h4⟩

/-- There are as many values as occurrences, and each belongs to its occurrence. -/
theorem C53_each (w : World) {e e' : Entry} {name path : Text} {occs : List Int} {vs : List Nat}
    (h : Given1 w name path e occs vs e') :
    vs.length = occs.length ∧
    ∀ (k : Nat) (occ : Int) (v : Nat), occs[k]? = some occ → vs[k]? = some v →
      ∃ e1 e2, Given1 w name path e (occs.take k) (vs.take k) e1 ∧ Gives w name path e1 occ v e2 := by
  induction h with
  | nil => exact ⟨rfl, fun k occ v h => by simp at h⟩
  | cons h t ih =>
    refine ⟨by simp [ih.1], fun k occ v h1 h2 => ?_⟩
    cases k with
    | zero => cases h1; cases h2; exact ⟨_, _, .nil, h⟩
    | succ k =>
      obtain ⟨e1, e2, h3, h4⟩ := ih.2 k occ v (by simpa using h1) (by simpa using h2)
      exact ⟨e1, e2, .cons h h3, h4⟩

/-- **C53.** Listing raises if the entry is not open, and if the backend cannot list. -/
theorem C53_refused (w : World) (e : Entry) (name : Text) (path : Option Text) :
    (e.impl = none → listAll w e name path = (e, .error .runtime)) ∧
    ∀ h x, e.impl = some h → w.fails e.log (.list name) = some x →
      listAll w e name path = ({ e with log := e.log ++ [⟨h, .list name, false⟩] }, .error x) := by
  constructor
  · intro hi; unfold listAll; simp only [hi]
  · intro h x hi hx
    unfold listAll invoke
    simp only [hi, hx]

/-- Two occurrences with different values. -/
example : (listAll calmWorld ⟨some 0, false, "3.2".toList, []⟩ "x".toList (some [])).2 =
    .ok (.occsNodes [0, 1] [2, 4]) := by rfl
example : calmWorld.fails [] (.list "x".toList) = none := rfl

end Verif.Props
