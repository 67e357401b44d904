import Verif.Lemmas.ConvertBack
import Verif.Props.TypeChange
/-
C22, C23, C24: with maps that are inverse to each other, everything comes back to its own place.
-/
set_option linter.unusedSectionVars false
namespace Verif.Props
open Verif.Ids Verif.TreeSpec Verif.DiffSpec Verif.Convert Verif.ConvertSpec

section
variable {V : Type} [Value V]

/-- Two maps between two dictionaries, inverse to each other; a source and what it became in a new IDS
of the other version. -/
structure Reversible (cx cx' : Cfg V) (sf tf : MFields) (source data : Fields V) : Prop where
  proper : Proper cx
  proper' : Proper cx'
  names : WFMFields sf
  names' : WFMFields tf
  one : OneToOne cx (.struct sf) (.struct tf)
  one' : OneToOne cx' (.struct tf) (.struct sf)
  inv : Inverse cx cx' (.struct sf) (.struct tf)
  inv' : Inverse cx' cx (.struct tf) (.struct sf)
  typed : TypedF source sf
  there : copyIds cx source (Meta.struct tf).fresh = .ok (.struct data)

variable {cx cx' : Cfg V} {sf tf : MFields} {source data : Fields V}

theorem Reversible.typedS (R : Reversible cx cx' sf tf source data) :
    Typed (.struct source) (.struct sf) := by simpa only [Typed] using R.typed

theorem Reversible.typedD (R : Reversible cx cx' sf tf source data) :
    Typed (.struct data) (.struct tf) :=
  (copyFields_plan R.proper [] [] source (typed_fresh _) R.there).2

theorem Reversible.wf (R : Reversible cx cx' sf tf source data) : WFFields source :=
  wf_of_typedF _ _ R.typed R.names

theorem Reversible.wf' (R : Reversible cx cx' sf tf source data) : WFFields data :=
  wf_of_typedF _ _ (by simpa only [Typed] using R.typedD) R.names'

theorem contains_snoc_none (A1 A2 : Addr) (n : Name) (i : Option Nat) :
    Contains (A1 ++ [(n, none)]) (A1 ++ (n, i) :: A2) := by
  induction A1 with
  | nil => simp [Contains]
  | cons s A1 ih =>
    cases A1 with
    | nil => simp [Contains]
    | cons s' A1 => simp only [List.cons_append, Contains] at ih ⊢; exact ⟨trivial, ih⟩

/-- If a node with a value is found at its target after the first conversion, it is sent back. -/
theorem Reversible.sent_back (R : Reversible cx cx' sf tf source data) {A B : Addr} {x : Node V}
    (hx : (Node.struct source).at A = some x) (hv : x.hasValue = true)
    (hs : Sent cx (.struct tf) [] [] source A B) (ha : Active cx (.struct sf) (Convert.names A))
    (hn : NoPostAbove cx A) {y : Node V} (hy : (Node.struct data).at B = some y) :
    Sent cx' (.struct sf) [] [] data B A := by
  have P : Pair cx cx' (.struct sf) (.struct tf) source data A B :=
    ⟨R.one, R.one', R.inv, R.inv', R.typedS, R.typedD, ⟨x, hx⟩, ⟨y, hy⟩, hs, ha⟩
  have hne : B ≠ [] := by
    rintro rfl
    obtain ⟨s, A', z, h1, -⟩ := sent_head hs
    have hA : A = A.dropLast ++ [A.getLast (by rw [h1]; simp)] := (List.dropLast_concat_getLast _).symm
    have e : Convert.names A = Convert.names A.dropLast ++ [(A.getLast (by rw [h1]; simp)).1] := by
      conv => lhs; rw [hA]
      simp [Convert.names]
    have := goes_strict R.one (Convert.names A) (p := []) (t := []) (by rw [h1]; simp [Convert.names])
      (by simpa using ha) rfl (by simpa using P.goes)
    simp [Convert.names] at this
  have := P.sent_back ?_ B (B1 := []) (g := data) rfl hne (by simp [Node.at]) (σ := []) (rest := A) rfl rfl
  · exact this
  intro B1 n' B3 m e hB hch hat
  obtain ⟨A1, n, i, A2, rfl, h2, h3, h4, h5⟩ := sent_carried R.one P.here hs hB (by simp)
  simp only [List.nil_append] at h3 h4 h5
  have hmeta : (metaAt (.struct tf) (Convert.names B1 ++ [n'])).isSome = true :=
    P.meta_prefix (by rw [hB]; simp [Convert.names])
  rcases h5 with ⟨h5, -⟩ | ⟨h5, ⟨rfl, -⟩ | ⟨-, h6⟩⟩
  · have := R.inv.plain _ _ h3 h4 hmeta h5
    rw [hch] at this; simp at this
  · obtain ⟨C1, k, j, C2, h6, h7, -⟩ := sent_init R.one P.here hs h2 (by simpa using h3)
    have hnm : Convert.names (A1 ++ [(n, none)]) = Convert.names A1 ++ [n] := by simp [Convert.names]
    have hgo : Goes cx (.struct tf) (Convert.names A1 ++ [n]) (Convert.names C1 ++ [k]) := by
      have := sent_names h7
      rw [hnm] at this
      simpa [Goes, Convert.names] using this
    have e1 := goes_fun h4 hgo
    have hl : B1.length = C1.length := by
      have := congrArg List.length e1; simpa [Convert.names] using this
    obtain ⟨rfl, e2⟩ := List.append_inj (hB.symm.trans h6) hl
    simp only [List.cons.injEq, Prod.mk.injEq] at e2
    obtain ⟨⟨rfl, -⟩, -⟩ := e2
    obtain ⟨g, w, z, m0, k1, k2, k3, k4, -, -⟩ := at_get_typed (.inl R.typedS) hx
    have hw : w = z := by
      simp only [Node.item, k4] at k2; simpa using k2.symm
    subst hw
    have hz : (Node.struct source).at (A1 ++ [(n, none)]) = some w := by
      rw [at_append, k1]; simp [Node.at, k2]
    have hstruct : ∃ c, w = .struct c := by
      cases A2 with
      | nil => exact absurd rfl h2
      | cons s A2 =>
        simp only [Node.at, Option.bind_eq_some_iff] at k3
        obtain ⟨v, hv, -⟩ := k3
        obtain ⟨c, rfl, -⟩ := item_cases hv
        exact ⟨c, rfl⟩
    have hcont : Contains (A1 ++ [(n, none)]) (A1 ++ (n, none) :: A2) := contains_snoc_none _ _ _ _
    have hneA : A1 ++ [(n, none)] ≠ A1 ++ (n, none) :: A2 := by
      intro h
      have := List.append_cancel_left h
      simp only [List.cons.injEq, true_and] at this
      exact h2 this.symm
    have hchange : cx.change (Convert.names (A1 ++ [(n, none)])) = some .structAos := by rw [hnm]; exact h5
    obtain ⟨m', e', h8, h9, -⟩ := C22_size_moved cx R.proper (.struct tf) source R.wf _ _ (typed_fresh _) R.there
      (A1 ++ [(n, none)]) (B1 ++ [(n', none)]) w 1 hz (hasValue_of_at k3 hv) h7
      (.inr ⟨hchange, hstruct, rfl⟩)
      (alone_of_oneToOne R.one R.typedS h7 hz (by
        obtain ⟨c, rfl⟩ := hstruct
        simp only [Writes, hchange]; simp))
      (by
        intro A' h10 h11
        refine hn A' (contains_trans h10 hcont) ?_
        rintro rfl
        exact hneA (contains_antisymm hcont h10))
      (hn _ hcont hneA)
    rw [hat] at h8; cases h8
    cases e with
    | nil => simp [Elems.length] at h9
    | cons d e =>
      cases e with
      | nil => exact ⟨d, rfl⟩
      | cons => simp [Elems.length] at h9
  · simp at h6

/-- **C22–C24, both ways.** Convert a source with a one-to-one map, and convert the result back with
the inverse map. Every data node with a value (whether its type changed or not, in structures and in
any elements of arrays, below renamed structures and below structures that became arrays) goes back
to its own place, and nothing else writes there: the hypotheses of the round trip theorems below
hold for all nodes. -/
theorem C22_there_and_back (R : Reversible cx cx' sf tf source data) {result : Node V}
    (back : copyIds cx' data (Meta.struct sf).fresh = .ok result) (A B : Addr) (x : Node V)
    (hx : (Node.struct source).at A = some x) (hv : x.hasValue = true)
    (hs : Sent cx (.struct tf) [] [] source A B)
    (hw : (cx.change (Convert.names A) = none ∧ ∃ l v, x = .leaf l v) ∨
      ∃ f, cx.change (Convert.names A) = some (.custom f))
    (hn : NoPostAbove cx A) (hn' : NoPostAbove cx' B) :
    ThereAndBack cx cx' (.struct sf) (.struct tf) source data (Meta.struct tf).fresh
      (Meta.struct sf).fresh result A B := by
  have hwr : Writes cx (Convert.names A) x := by
    rcases hw with ⟨-, l, v, rfl⟩ | ⟨f, hf⟩
    · simp [Writes]
    · cases x <;> simp [Writes, hf]
  have ha : Active cx (.struct sf) (Convert.names A) := by
    obtain ⟨m, h1, h2⟩ := typedAt_at (.inl R.typedS) hx
    refine active_of h1 h2 ?_
    cases x with
    | leaf => exact .inl (by simp)
    | aos => exact .inl (by simp)
    | struct => exact .inr (.inl hwr)
  have hal := alone_of_oneToOne R.one R.typedS hs hx hwr
  have hgo : Goes cx (.struct tf) (Convert.names A) (Convert.names B) := by
    simpa [Goes, Convert.names] using sent_names hs
  obtain ⟨y, hy, hyw⟩ : ∃ y, (Node.struct data).at B = some y ∧ Writes cx' (Convert.names B) y := by
    rcases hw with ⟨hc, l, v, rfl⟩ | ⟨f, hf⟩
    · cases v with
      | none => simp [Node.hasValue, leafHasValue] at hv
      | some v =>
        obtain ⟨l', w, h1, -, y, h3, h4⟩ := C22_value_moved cx R.proper (.struct tf) source R.wf _ _
          (typed_fresh _) R.there A B v ⟨l, hx, by simpa [Node.hasValue, leafHasValue] using hv⟩ hs hc hal hn
        refine ⟨y, h3, ?_⟩
        obtain ⟨m, h5, h6⟩ := typedAt_at (.inl R.typedD) h3
        rw [h1] at h5; cases h5
        obtain ⟨s, rfl⟩ := typedAt_leaf h6
        simp [Writes]
    · obtain ⟨z, y, h1, h2, m, h3, -⟩ := C22_type_change_moved cx R.proper (.struct tf) source R.wf _ _
        (typed_fresh _) R.there A B x f hx hv hs hf hal hn
      refine ⟨y, h2, ?_⟩
      obtain ⟨f', hf'⟩ := R.inv.custom _ _ f ha hgo (by rw [h3]; rfl) hf
      cases y <;> simp [Writes, hf']
  have hs' := R.sent_back hx hv hs ha hn hy
  exact ⟨R.proper, R.proper', R.wf, R.wf', typed_fresh _, typed_fresh _, R.there, back, hs, hs', hal,
    alone_of_oneToOne R.one' R.typedD hs' hy hyw, hn, hn'⟩

/-- **C22, sizes.** Arrays of structures have the same number of elements again. -/
theorem C22_round_trip_size (R : Reversible cx cx' sf tf source data) {result : Node V}
    (back : copyIds cx' data (Meta.struct sf).fresh = .ok result) (A B : Addr) (k : Nat)
    (hk : SizeAt (.struct source) A k) (hs : Sent cx (.struct tf) [] [] source A B)
    (hc : cx.change (Convert.names A) = none)
    (hp : cx.post (Convert.names A) = none) (hp' : cx'.post (Convert.names B) = none)
    (hn : NoPostAbove cx A) (hn' : NoPostAbove cx' B) :
    SizeAt (.struct data) B k ∧ SizeAt result A k := by
  obtain ⟨m, e, hx, hlen, hk0⟩ := id hk
  have hv : (Node.aos m e).hasValue = true := by
    cases e with
    | nil => simp [Elems.length] at hlen; exact absurd hlen.symm hk0
    | cons => simp [Node.hasValue, Elems.length]
  have hwr : Writes cx (Convert.names A) (.aos m e) := by simp [Writes, hc]
  have ha : Active cx (.struct sf) (Convert.names A) := by
    obtain ⟨m, h1, h2⟩ := typedAt_at (.inl R.typedS) hx
    exact active_of h1 h2 (.inl (by simp))
  have h1 := C22_size_moved cx R.proper (.struct tf) source R.wf _ _ (typed_fresh _) R.there A B _ k hx hv hs
    (.inl ⟨hc, hk⟩) (alone_of_oneToOne R.one R.typedS hs hx hwr) hn hp
  refine ⟨h1, ?_⟩
  obtain ⟨m', e', hy, hlen', -⟩ := id h1
  have hs' := R.sent_back hx hv hs ha hn hy
  have hgo : Goes cx (.struct tf) (Convert.names A) (Convert.names B) := by
    simpa [Goes, Convert.names] using sent_names hs
  have hmeta : (metaAt (.struct tf) (Convert.names B)).isSome = true := by
    obtain ⟨m, h1, -⟩ := typedAt_at (.inl R.typedD) hy
    rw [h1]; rfl
  have hc' := R.inv.plain _ _ ha hgo hmeta hc
  have hv' : (Node.aos m' e').hasValue = true := by
    cases e' with
    | nil => simp [Elems.length] at hlen'; exact absurd hlen'.symm hk0
    | cons => simp [Node.hasValue, Elems.length]
  exact C22_size_moved cx' R.proper' (.struct sf) data R.wf' _ _ (typed_fresh _) back B A _ k hy hv' hs'
    (.inl ⟨hc', h1⟩) (alone_of_oneToOne R.one' R.typedD hs' hy (by simp [Writes, hc'])) hn' hp'

/-- An array of structures that became a structure is only entered if it has one element. -/
theorem sent_one {cx : Cfg V} {tm : Meta} {A1 A2 : Addr} {p : List Name} {t : Addr} {c : Fields V} {B : Addr}
    {n : Name} {i : Nat} (hs : Sent cx tm p t c (A1 ++ (n, some i) :: A2) B)
    (hc : cx.change (p ++ Convert.names A1 ++ [n]) = some .structAos) :
    ∃ m d, (Node.struct c).at (A1 ++ [(n, none)]) = some (.aos m (.cons d .nil)) := by
  induction A1 generalizing p t c with
  | nil =>
    simp only [Convert.names, List.map_nil, List.append_nil] at hc
    simp only [List.nil_append] at hs ⊢
    cases hs with
    | element h1 hi hb hc' r => rw [hc] at hc'; simp at hc'
    | @ofArray _ _ _ d _ _ _ _ m h1 hb hc' r => exact ⟨m, d, by simp [Node.at, Node.item, h1]⟩
  | cons s A1 ih =>
    have e : p ++ Convert.names (s :: A1) ++ [n] = p ++ [s.1] ++ Convert.names A1 ++ [n] := by
      simp [Convert.names]
    rw [e] at hc
    simp only [List.cons_append] at hs ⊢
    rcases sent_cons hs with ⟨h1, -⟩ | ⟨-, d, b, hi, -, hr⟩
    · simp at h1
    · obtain ⟨m, d', h⟩ := ih hr hc
      exact ⟨m, d', by simp only [Node.at, hi, Option.bind_some]; exact h⟩

/-- **C23, structures and arrays of structures.** Everything in a structure that became an array of
structures is found in the first and only element of the array; everything in the only element of
an array that became a structure is found in the structure. Of an array with more elements nothing
is copied. -/
theorem C23_structure_array (cx : Cfg V) (sm tm : Meta) (ho : OneToOne cx sm tm) (source : Fields V)
    (hm : Typed (.struct source) sm) (A1 A2 : Addr) (n : Name) (i : Option Nat) (B : Addr) (hA : A2 ≠ [])
    (hs : Sent cx tm [] [] source (A1 ++ (n, i) :: A2) B)
    (hc : cx.change (Convert.names A1 ++ [n]) = some .structAos) :
    ∃ B1 n' j B2, B = B1 ++ (n', j) :: B2 ∧
      Sent cx tm [] [] source (A1 ++ [(n, none)]) (B1 ++ [(n', none)]) ∧
      ((i = none ∧ j = some 0) ∨ (i = some 0 ∧ j = none ∧
        ∃ m d, (Node.struct source).at (A1 ++ [(n, none)]) = some (.aos m (.cons d .nil)))) := by
  have here : Here cx sm tm [] [] source := ⟨rfl, sm, rfl, .inl hm⟩
  obtain ⟨x, hx⟩ := sent_at hs
  obtain ⟨g, y, z, m, -, -, -, -, h5, h6⟩ := at_get_typed (.inl hm) hx
  have hact : Active cx sm (Convert.names A1 ++ [n]) :=
    active_of h5 (.inl h6) (.inr (.inl (by rw [hc]; simp)))
  obtain ⟨B1, n', j, B2, h1, h2, h3⟩ := sent_init ho here hs hA (by simpa using hact)
  refine ⟨B1, n', j, B2, h1, h2, ?_⟩
  simp only [List.nil_append] at h3
  rcases h3 with ⟨h3, -⟩ | ⟨-, h3 | ⟨rfl, h4⟩⟩
  · rw [hc] at h3; simp at h3
  · exact .inl h3
  · exact .inr ⟨rfl, h4, sent_one hs (by simpa using hc)⟩

end

section
variable {F : Type} [FloatModel F]

/-- **C22, C23, all values.** Every value whose own node keeps its type is in the result of converting
there and back, at the same place: below renamed structures, in array elements, and in structures
that became arrays of structures (or the reverse). -/
theorem C22_round_trip_everywhere (cv : Conv F) {cx cx' : Cfg (Val F)} {sf tf : MFields}
    {source data : Fields (Val F)} (R : Reversible cx cx' sf tf source data) {result : Node (Val F)}
    (back : copyIds cx' data (Meta.struct sf).fresh = .ok result)
    (hst : cx.store = storeVal cv) (hst' : cx'.store = storeVal cv) (A B : Addr) (v : Val F) (l l' : LeafMeta)
    (hx : (Node.struct source).at A = some (.leaf l (some v)))
    (hs : Sent cx (.struct tf) [] [] source A B) (hl' : metaAt (.struct tf) (Convert.names B) = some (.leaf l'))
    (hv : Held l v) (hv' : Held l' v) (hne : Value.isEmpty v = false)
    (hc : cx.change (Convert.names A) = none)
    (hp : ∀ A', Contains A' A → cx.post (Convert.names A') = none)
    (hp' : ∀ B', Contains B' B → cx'.post (Convert.names B') = none) :
    ValueAt (.struct data) B v ∧ ValueAt result A v := by
  have T := C22_there_and_back R back A B _ hx (by simp [Node.hasValue, leafHasValue, hne]) hs
    (.inl ⟨hc, _, _, rfl⟩) (fun A' h _ => hp A' h) (fun B' h _ => hp' B' h)
  obtain ⟨m, h1, h2⟩ := typedAt_at (.inl R.typedS) hx
  have hl : metaAt (.struct sf) (Convert.names A) = some (.leaf l) := typed_leaf_at R.typedS hx
  have hgo : Goes cx (.struct tf) (Convert.names A) (Convert.names B) := by
    simpa [Goes, Convert.names] using sent_names hs
  have ha : Active cx (.struct sf) (Convert.names A) := active_of h1 h2 (.inl (by simp))
  have hc' := R.inv.plain _ _ ha hgo (by rw [hl']; rfl) hc
  exact C22_round_trip_value cv T hst hst' hc hc' (hp A (contains_refl A)) (hp' B (contains_refl B)) l l' hl hl'
    v ⟨l, hx, hne⟩ hv hv'

end

/-! ### Example -/

def fltLeaf : LeafMeta := ⟨.flt, 1, false⟩

/-- `a` moves to `n/b`, `g/x` is renamed to `g/xx`, `s` becomes an array and `gone` is removed. -/
def backDict3 : MFields :=
  .cons "a".toList (.leaf fltLeaf)
  (.cons "g".toList (.aos (.cons "x".toList (.leaf fltLeaf) .nil))
  (.cons "s".toList (.struct (.cons "y".toList (.leaf fltLeaf) .nil))
  (.cons "gone".toList (.leaf fltLeaf) .nil)))

def backDict4 : MFields :=
  .cons "n".toList (.struct (.cons "b".toList (.leaf fltLeaf) .nil))
  (.cons "g".toList (.aos (.cons "xx".toList (.leaf fltLeaf) .nil))
  (.cons "s".toList (.aos (.cons "y".toList (.leaf fltLeaf) .nil)) .nil))

def backMap : Cfg (Val Int) where
  path q := if q = ["a".toList] then some (some ["n".toList, "b".toList])
    else if q = ["g".toList, "x".toList] then some (some ["g".toList, "xx".toList])
    else if q = ["gone".toList] then some none else none
  change q := if q = ["s".toList] then some .structAos else none
  post _ := none
  store := storeVal changeConv

def backMap' : Cfg (Val Int) where
  path q := if q = ["n".toList, "b".toList] then some (some ["a".toList])
    else if q = ["g".toList, "xx".toList] then some (some ["g".toList, "x".toList]) else none
  change q := if q = ["s".toList] then some .structAos else none
  post _ := none
  store := storeVal changeConv

def fltNode (x : Int) : Node (Val Int) := .leaf fltLeaf (some (.arr .flt [1] [.flt x]))

def backData3 : Fields (Val Int) :=
  .present "a".toList (fltNode 1)
  (.present "g".toList (.aos (.cons "x".toList (.leaf fltLeaf) .nil)
    (.cons (.present "x".toList (fltNode 2) .nil) (.cons (.present "x".toList (fltNode 3) .nil) .nil)))
  (.present "s".toList (.struct (.present "y".toList (fltNode 4) .nil))
  (.present "gone".toList (fltNode 5) .nil)))

def backData4 : Fields (Val Int) :=
  .present "n".toList (.struct (.present "b".toList (fltNode 1) .nil))
  (.present "g".toList (.aos (.cons "xx".toList (.leaf fltLeaf) .nil)
    (.cons (.present "xx".toList (fltNode 2) .nil) (.cons (.present "xx".toList (fltNode 3) .nil) .nil)))
  (.present "s".toList (.aos (.cons "y".toList (.leaf fltLeaf) .nil)
    (.cons (.present "y".toList (fltNode 4) .nil) .nil)) .nil))

/-- The result of converting back: all but the removed node. -/
def backResult : Fields (Val Int) :=
  .present "a".toList (fltNode 1)
  (.present "g".toList (.aos (.cons "x".toList (.leaf fltLeaf) .nil)
    (.cons (.present "x".toList (fltNode 2) .nil) (.cons (.present "x".toList (fltNode 3) .nil) .nil)))
  (.present "s".toList (.struct (.present "y".toList (fltNode 4) .nil))
  (.absent "gone".toList (.leaf fltLeaf) .nil)))

example : copyIds backMap' backData4 (Meta.struct backDict3).fresh = .ok (.struct backResult) := by
  with_unfolding_all rfl

/-- All hypotheses hold for the example. -/
theorem back_reversible : Reversible backMap backMap' backDict3 backDict4 backData3 backData4 where
  proper := ⟨by intro q f x h; simp only [backMap] at h; split at h <;> simp at h,
    by intro q f h; simp [backMap] at h⟩
  proper' := ⟨by intro q f x h; simp only [backMap'] at h; split at h <;> simp at h,
    by intro q f h; simp [backMap'] at h⟩
  names := by simp [backDict3, WFMFields, WFMeta, mnames]
  names' := by simp [backDict4, WFMFields, WFMeta, mnames]
  one := oneToOne_of_check (by with_unfolding_all rfl)
  one' := oneToOne_of_check (by with_unfolding_all rfl)
  inv := inverse_of_check (by with_unfolding_all rfl)
  inv' := inverse_of_check (by with_unfolding_all rfl)
  typed := by simp [backData3, backDict3, fltNode, TypedF, Typed, TypedE]
  there := by with_unfolding_all rfl

/-- The structure that became an array: its value is found in the first element. -/
example : Sent backMap (.struct backDict4) [] [] backData3 [("s".toList, none), ("y".toList, none)]
    [("s".toList, some 0), ("y".toList, none)] :=
  .toArray (d := .present "y".toList (fltNode 4) .nil) (b := [("s".toList, none)])
    (by with_unfolding_all rfl) (by with_unfolding_all rfl) (by with_unfolding_all rfl)
    (.here (x := fltNode 4) (by with_unfolding_all rfl) (by with_unfolding_all rfl))

end Verif.Props
