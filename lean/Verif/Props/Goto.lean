import Verif.Lemmas.GotoPath
/-!
Properties of navigation: C05 (navigation reaches the named element) and C06 (the reported
path leads back).
-/
namespace Verif.Props
open Verif.Ids Verif.GotoSpec
open Verif.Path (parsePath Parsed Idx)

variable {V : Type}

/-- **C05.** Navigation from any element along any parsed path (nested index paths
included): whatever element is returned is the one the specification names. -/
theorem C05_goto_sound (asInt : V → Option Int) (root : Node V) (start : Addr)
    (stack₀ : Nat) (text : List Char) (p : Parsed) (hp : parsePath stack₀ text = .ok p)
    (stack : Nat) (b : Addr) (h : goto asInt stack root start true p = .ok b) :
    Goes asInt root start p.parts p.indices b :=
  goto_sound stack (parsed_shape hp).1 (parsed_shape hp).2 h

/-- **C05.** Conversely, whenever the specification names an element, navigation returns it,
given a deep enough call stack. -/
theorem C05_goto_complete (asInt : V → Option Int) (root : Node V) (start : Addr)
    (stack₀ : Nat) (text : List Char) (p : Parsed) (hp : parsePath stack₀ text = .ok p)
    (b : Addr) (h : Goes asInt root start p.parts p.indices b) :
    ∃ N, ∀ stack, N ≤ stack → goto asInt stack root start true p = .ok b :=
  Goes.complete h (parsed_shape hp).1 (parsed_shape hp).2

/-- **C05.** From the root, a path of names and integer indices leads exactly to the element
reached by accessing the attributes and items one by one; in particular it fails exactly if
one of these accesses fails. -/
theorem C05_goto_from_root (asInt : V → Option Int) (root : Node V) (stack : Nat)
    (items : List (Name × Option Int)) (b : Addr) :
    goto asInt (stack + 1) root [] true (intItems items) = .ok b ↔ Walk root [] items b := by
  have := goto_int_iff (asInt := asInt) (n := stack) (root := root) (start := [])
    (items := items) (b := b) (k := 0) (by simp [common_nil])
  simpa using this

/-- **C05.** Relative navigation (`from_root=False`, also used by `structure[path]`). -/
theorem C05_goto_relative (asInt : V → Option Int) (root : Node V) (stack : Nat) (start : Addr)
    (items : List (Name × Option Int)) (b : Addr) :
    goto asInt (stack + 1) root start false (intItems items) = .ok b ↔ Walk root start items b :=
  goto_false_iff

/-- **C05.** From any existing element, if the items written for the shared leading names
agree with the position of that element, the result is the same as from the root. -/
theorem C05_goto_from_element (asInt : V → Option Int) (root : Node V) (stack : Nat)
    (start : Addr) (x : Node V) (hx : root.at start = some x)
    (items : List (Name × Option Int))
    (hagree : items.take (common (start.map (·.1)) (items.map (·.1))) =
      (start.take (common (start.map (·.1)) (items.map (·.1)))).map
        fun s => (s.1, s.2.map Int.ofNat))
    (b : Addr) :
    goto asInt (stack + 1) root start true (intItems items) = .ok b ↔
      goto asInt (stack + 1) root [] true (intItems items) = .ok b := by
  rw [C05_goto_from_root, goto_int_iff rfl]
  generalize common (start.map (·.1)) (items.map (·.1)) = k at *
  have hw : Walk root [] (items.take k) (start.take k) := by
    rw [hagree]
    have h' : ∃ y, root.at (start.take k) = some y := by
      have := hx
      rw [← List.take_append_drop k start, Node.at_append] at this
      cases hy : root.at (start.take k) with
      | none => rw [hy] at this; simp at this
      | some y => exact ⟨y, rfl⟩
    obtain ⟨y, hy⟩ := h'
    have := walk_addr (root := root) (start.take k) (b := []) (by simpa using hy)
    simpa [addrItems] using this
  constructor
  · intro h
    have := Walk.append hw h
    rwa [List.take_append_drop] at this
  · intro h
    rw [← List.take_append_drop k items] at h
    obtain ⟨c, h1, h2⟩ := Walk.split h
    rw [Walk.det hw h1]; exact h2

/-- A small IDS used in examples: `w` is an array of two structures holding an INT_0D `x`,
and `n` is an INT_0D with value 2. -/
def sampleIds : Node Int :=
  .struct (.present "w".toList (.aos (.cons "x".toList (.leaf ⟨.int, 0, false⟩) .nil)
      (.cons (.present "x".toList (.leaf ⟨.int, 0, false⟩ (some 5)) .nil)
        (.cons (.absent "x".toList (.leaf ⟨.int, 0, false⟩) .nil) .nil)))
    (.present "n".toList (.leaf ⟨.int, 0, false⟩ (some 2)) .nil))

example : goto some 9 sampleIds [] true (intItems [("w".toList, some (-1)), ("x".toList, none)]) =
    .ok [("w".toList, some 1), ("x".toList, none)] := by with_unfolding_all rfl
-- a nested index: `w(n)/x` with `n = 2` is the second element
example : goto some 9 sampleIds [] true
      ⟨["w".toList, "x".toList], [some (.path ["n".toList] [none]), none]⟩ =
    .ok [("w".toList, some 1), ("x".toList, none)] := by with_unfolding_all rfl
-- the agreement hypothesis of `C05_goto_from_element` is met by a non-trivial pair
example : ∃ x, sampleIds.at [("w".toList, some 1), ("x".toList, none)] = some x := ⟨_, rfl⟩

/-- **C05**, limit: an explicit index on a shared leading name is ignored (the code logs a
warning), so without the agreement hypothesis the result can differ from the root's. -/
theorem C05_prefix_index_ignored : ∃ (root : Node Int) (start : Addr)
    (items : List (Name × Option Int)) (b c : Addr),
    (∃ x, root.at start = some x) ∧
    goto some 9 root start true (intItems items) = .ok b ∧
    goto some 9 root [] true (intItems items) = .ok c ∧ b ≠ c :=
  ⟨sampleIds, [("w".toList, some 0), ("x".toList, none)],
    [("w".toList, some 1), ("x".toList, none)], [("w".toList, some 0), ("x".toList, none)],
    [("w".toList, some 1), ("x".toList, none)], ⟨_, rfl⟩,
    by with_unfolding_all rfl, by with_unfolding_all rfl, by decide⟩

/-- **C06.** The path text an element reports is a valid path, and resolving it from the
root (or by indexing the IDS with it) returns that very element. -/
theorem C06_reported_path_leads_back (asInt : V → Option Int) (root : Node V) (a : Addr)
    (x : Node V) (hx : root.at a = some x) (hn : ∀ s ∈ a, PathSpec.FieldName s.1)
    (stack₀ stack : Nat) (hs : (pathText a).length < stack₀) :
    ∃ p, parsePath stack₀ (pathText a) = .ok p ∧
      goto asInt (stack + 1) root [] true p = .ok a ∧
      goto asInt (stack + 1) root [] false p = .ok a := by
  refine ⟨⟨(toItems a).names, (toItems a).indices⟩, ?_, ?_⟩
  · rw [pathText_eq] at hs ⊢
    exact Verif.Path.parsePath_complete stack₀ hs
      (Verif.Path.PathItems.text (toItems a) (toItems_wf hn) (by simp))
  · have e : (⟨(toItems a).names, (toItems a).indices⟩ : Parsed) = intItems (addrItems a) := by
      simp [intItems, addrItems, toItems_names, toItems_indices, Function.comp_def]
    rw [e, C05_goto_from_root, C05_goto_relative]
    have := walk_addr (root := root) a (b := []) (by simpa using hx)
    simp at this
    exact ⟨this, this⟩

example : sampleIds.at [("w".toList, some 1), ("x".toList, none)] = some (.leaf ⟨.int, 0, false⟩ none) ∧
    pathText [("w".toList, some 1), ("x".toList, none)] = "w[1]/x".toList := by
  constructor <;> with_unfolding_all rfl

/-- **C06.** Different elements report different paths. -/
theorem C06_reported_paths_distinct (a b : Addr) (ha : ∀ s ∈ a, PathSpec.FieldName s.1)
    (hb : ∀ s ∈ b, PathSpec.FieldName s.1) (h : pathText a = pathText b) : a = b := by
  have h1 := Verif.Path.parsePath_complete ((pathText a).length + 1) (t := pathText a) (by omega)
    (by rw [pathText_eq]; exact Verif.Path.PathItems.text (f := false) (toItems a) (toItems_wf ha) (by simp))
  have h2 := Verif.Path.parsePath_complete ((pathText a).length + 1) (t := pathText a) (by omega)
    (by rw [h, pathText_eq]; exact Verif.Path.PathItems.text (f := false) (toItems b) (toItems_wf hb) (by simp))
  rw [h1] at h2
  simp only [Except.ok.injEq, Parsed.mk.injEq, toItems_names, toItems_indices] at h2
  obtain ⟨hn, hi⟩ := h2
  clear h1 h ha hb
  induction a generalizing b with
  | nil => cases b <;> simp_all
  | cons s a ih =>
    cases b with
    | nil => simp at hn
    | cons t b =>
      simp only [List.map_cons, List.cons.injEq] at hn hi
      rw [ih b hn.2 hi.2]
      obtain ⟨n, i⟩ := s
      obtain ⟨m, j⟩ := t
      have : i = j := by
        have := hi.1
        cases i <;> cases j <;> simp at this ⊢
        omega
      simp at hn
      simp [this, hn.1]

end Verif.Props
