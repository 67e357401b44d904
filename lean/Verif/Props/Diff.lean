import Verif.Lemmas.DiffAddr
import Verif.Props.Assign
set_option linter.unusedSectionVars false
/-
C12: equality of IDS structures.
-/
namespace Verif.Props
open Verif.Ids Verif.TreeSpec Verif.DiffSpec

section
variable {F : Type} [FloatModel F]

/-- The comparison of two values in `idsdiffgen` (`util.py` lines 215-224). -/
def valEq (v w : Val F) : Bool := arrayEqual v w || arrayEqualNan v w

theorem scalar_eqv_refl (s : Scalar F) : (s.eqv s || (s.nan && s.nan)) = true := by
  cases s with
  | int i => simp [Scalar.eqv]
  | flt x => simp only [Scalar.eqv, Scalar.nan, isNaN]; cases FloatModel.eq x x <;> rfl
  | cpx x y =>
    simp only [Scalar.eqv, Scalar.nan, isNaN]
    cases FloatModel.eq x x <;> cases FloatModel.eq y y <;> rfl

theorem zip_self_all {α : Type} (p : α × α → Bool) (h : ∀ a, p (a, a) = true) (l : List α) :
    (l.zip l).all p = true := by
  induction l with
  | nil => rfl
  | cons a l ih => simp [h, ih]

theorem zip_swap_all {α : Type} (p : α × α → Bool) (h : ∀ a b, p (a, b) = p (b, a)) :
    ∀ l m : List α, (l.zip m).all p = (m.zip l).all p
  | [], [] => rfl
  | [], _ :: _ => rfl
  | _ :: _, [] => rfl
  | a :: l, b :: m => by simp [h a b, zip_swap_all p h l m]

theorem valEq_refl (v : Val F) : valEq v v = true := by
  simp only [valEq]
  cases v with
  | int i => simp [arrayEqual]
  | flt x =>
    simp only [arrayEqual, arrayEqualNan, isNaN]; cases FloatModel.eq x x <;> rfl
  | cpx x y =>
    simp only [arrayEqual, arrayEqualNan, isNaN]
    cases FloatModel.eq x x <;> cases FloatModel.eq y y <;> rfl
  | str s => simp [arrayEqual]
  | strs s => simp [arrayEqual]
  | arr t s d =>
    have : arrayEqualNan (Val.arr t s d : Val F) (.arr t s d) = true := by
      simp only [arrayEqualNan, decide_true, Bool.true_and]
      exact zip_self_all _ scalar_eqv_refl d
    rw [this, Bool.or_true]

theorem scalar_eqv_comm (a b : Scalar F) : a.eqv b = b.eqv a := by
  cases a <;> cases b <;> simp only [Scalar.eqv] <;>
    simp only [FloatModel.eq_comm, eq_comm]

theorem valEq_comm (v w : Val F) : valEq v w = valEq w v := by
  have h1 : arrayEqual v w = arrayEqual w v := by
    cases v <;> cases w <;> simp only [arrayEqual]
    · simp only [eq_comm]
    · rw [FloatModel.eq_comm]
    · rename_i x y x' y'; rw [FloatModel.eq_comm x, FloatModel.eq_comm y]
    · simp only [eq_comm]
    · simp only [eq_comm]
    · rename_i s d _ s' d'
      rw [zip_swap_all _ (fun a b => scalar_eqv_comm a b) d d']
      simp only [eq_comm (a := s)]
  have h2 : arrayEqualNan v w = arrayEqualNan w v := by
    cases v <;> cases w <;> simp only [arrayEqualNan]
    · simp only [eq_comm]
    · rw [FloatModel.eq_comm, Bool.and_comm]
    · rename_i x y x' y'
      rw [FloatModel.eq_comm x, FloatModel.eq_comm y, Bool.and_comm (isNaN x || isNaN y)]
    · rename_i s d _ s' d'
      rw [zip_swap_all _ (fun a b => by
        simp only []
        rw [scalar_eqv_comm a b, Bool.and_comm a.nan]) d d']
      simp only [eq_comm (a := s)]
  simp only [valEq, h1, h2]

theorem stripNul_nul (s : List Char) (k : Nat) : stripNul (s ++ List.replicate k (Char.ofNat 0)) = stripNul s := by
  rw [stripNul, stripNul, List.reverse_append, List.reverse_replicate]
  congr 1
  induction k with
  | zero => rfl
  | succ k ih => rw [List.replicate_succ, List.cons_append, List.dropWhile_cons_of_pos (by simp)]; exact ih

theorem stripNul_split (s : List Char) : ∃ k, s = stripNul s ++ List.replicate k (Char.ofNat 0) := by
  have h := List.takeWhile_append_dropWhile (p := fun c => decide (c = Char.ofNat 0)) (l := s.reverse)
  refine ⟨(s.reverse.takeWhile fun c => decide (c = Char.ofNat 0)).length, ?_⟩
  have h2 : s.reverse.takeWhile (fun c => decide (c = Char.ofNat 0)) =
      List.replicate (s.reverse.takeWhile fun c => decide (c = Char.ofNat 0)).length (Char.ofNat 0) := by
    refine List.eq_replicate_iff.2 ⟨rfl, fun c hc => ?_⟩
    have := List.all_takeWhile (p := fun c => decide (c = Char.ofNat 0)) (l := s.reverse)
    simpa using List.all_eq_true.1 this c hc
  have h3 := congrArg List.reverse h
  rw [List.reverse_append, List.reverse_reverse, h2, List.reverse_replicate] at h3
  exact h3.symm

theorem stripNul_iff (s t : List Char) : stripNul s = stripNul t ↔ SameText s t := by
  constructor
  · intro h
    obtain ⟨j, hj⟩ := stripNul_split s
    obtain ⟨k, hk⟩ := stripNul_split t
    exact ⟨stripNul s, j, k, hj, by rw [h]; exact hk⟩
  · rintro ⟨u, j, k, rfl, rfl⟩
    rw [stripNul_nul, stripNul_nul]

theorem scalar_nan (a : Scalar F) : a.nan = true ↔ NotANumber a := by
  constructor
  · intro h
    cases a <;> simp [Scalar.nan, isNaN] at h
    · exact .flt h
    · rcases h with h | h
      · exact .re h
      · exact .im h
  · intro h
    cases h with
    | flt h => simp [Scalar.nan, isNaN, h]
    | re h => simp [Scalar.nan, isNaN, h]
    | im h => simp [Scalar.nan, isNaN, h]

theorem scalar_same (a b : Scalar F) : (a.eqv b || (a.nan && b.nan)) = true ↔ SameNumber a b := by
  rw [Bool.or_eq_true, Bool.and_eq_true, scalar_nan, scalar_nan]
  constructor
  · rintro (h | h)
    · cases a <;> cases b <;> simp [Scalar.eqv] at h
      · subst h; exact .int _
      · exact .flt h
      · exact .cpx h.1 h.2
    · exact .nan h.1 h.2
  · intro h
    cases h with
    | int => simp [Scalar.eqv]
    | flt h => simp [Scalar.eqv, h]
    | nan h1 h2 => exact .inr ⟨h1, h2⟩
    | cpx h1 h2 => simp [Scalar.eqv, h1, h2]

theorem zip_all_iff {α β : Type} (p : α × β → Bool) (l : List α) (m : List β) :
    (l.zip m).all p = true ↔ ∀ (i : Nat) a b, l[i]? = some a → m[i]? = some b → p (a, b) = true := by
  rw [List.all_eq_true]
  constructor
  · intro h i a b ha hb
    exact h (a, b) (List.mem_of_getElem? (i := i) (by rw [List.getElem?_zip_eq_some]; exact ⟨ha, hb⟩))
  · intro h x hx
    obtain ⟨i, hi⟩ := List.getElem?_of_mem hx
    rw [List.getElem?_zip_eq_some] at hi
    exact h i _ _ hi.1 hi.2

/-- **C12, values.** Two values are equal if they are of the same kind and equal (with NaN equal to NaN), of the same
shape and equal item by item, or texts that are the same apart from NUL characters at their ends. -/
theorem C12_values (v w : Val F) : valEq v w = true ↔ SameValue v w := by
  constructor
  · intro h
    cases v <;> cases w <;> simp only [valEq, arrayEqual, arrayEqualNan, Bool.or_self, Bool.or_false, Bool.false_or,
      Bool.false_eq_true, decide_eq_true_eq] at h
    · subst h; exact .int _
    · refine .flt ((scalar_same _ _).1 ?_)
      simp only [Scalar.eqv, Scalar.nan]
      rename_i x y
      revert h; cases FloatModel.eq x y <;> simp
    · refine .cpx ((scalar_same _ _).1 ?_)
      simp only [Scalar.eqv, Scalar.nan]
      rename_i x y x' y'
      revert h; cases (FloatModel.eq x x' && FloatModel.eq y y') <;> simp
    · exact .str ((stripNul_iff _ _).1 h)
    · refine .strs (by simpa using congrArg List.length h) fun i s t hs ht => (stripNul_iff _ _).1 ?_
      have := congrArg (·[i]?) h
      simpa [hs, ht] using this
    · rename_i k s d k' s' e
      have h' : decide (s = s') = true ∧ ∀ (i : Nat) a b, d[i]? = some a → e[i]? = some b → SameNumber a b := by
        rcases Bool.or_eq_true_iff.1 h with h | h
        · obtain ⟨h1, h2⟩ := Bool.and_eq_true_iff.1 h
          exact ⟨h1, fun i a b ha hb => (scalar_same a b).1 (by rw [(zip_all_iff _ _ _).1 h2 i a b ha hb]; rfl)⟩
        · obtain ⟨h1, h2⟩ := Bool.and_eq_true_iff.1 h
          exact ⟨h1, fun i a b ha hb => (scalar_same a b).1 ((zip_all_iff _ _ _).1 h2 i a b ha hb)⟩
      obtain ⟨h1, h2⟩ := h'
      have h1 := of_decide_eq_true h1
      subst h1
      exact .arr h2
  · intro h
    cases h with
    | int => simp [valEq, arrayEqual]
    | @flt x y h =>
      have := (scalar_same _ _).2 h
      simp only [Scalar.eqv, Scalar.nan] at this
      simp only [valEq, arrayEqual, arrayEqualNan]
      revert this; cases FloatModel.eq x y <;> simp
    | @cpx x y x' y' h =>
      have := (scalar_same _ _).2 h
      simp only [Scalar.eqv, Scalar.nan] at this
      simp only [valEq, arrayEqual, arrayEqualNan]
      revert this; cases (FloatModel.eq x x' && FloatModel.eq y y') <;> simp
    | str h => simp [valEq, arrayEqual, (stripNul_iff _ _).2 h]
    | @strs l m hl h =>
      have : l.map stripNul = m.map stripNul := by
        apply List.ext_getElem?
        intro i
        simp only [List.getElem?_map]
        by_cases hi : i < l.length
        · rw [List.getElem?_eq_getElem hi, List.getElem?_eq_getElem (by omega : i < m.length)]
          simp only [Option.map_some, Option.some.injEq]
          exact (stripNul_iff _ _).2 (h i _ _ (List.getElem?_eq_getElem hi) (List.getElem?_eq_getElem (by omega)))
        · rw [List.getElem?_eq_none (by omega : l.length ≤ i), List.getElem?_eq_none (by omega : m.length ≤ i)]
      simp [valEq, arrayEqual, this]
    | @arr k k' s d e h =>
      have : arrayEqualNan (.arr k s d : Val F) (.arr k' s e) = true := by
        simp only [arrayEqualNan, decide_true, Bool.true_and]
        exact (zip_all_iff _ _ _).2 fun i a b ha hb => (scalar_same a b).2 (h i a b ha hb)
      simp [valEq, this]

end

section
variable {V : Type} [Value V] (eqv : V → V → Bool)

theorem idsDiff_nil {c d : Fields V} (hc : WFFields c) (hd : WFFields d) :
    idsDiff eqv c d = [] ↔ NoDiff eqv (.struct c) (.struct d) := by
  rw [← diffNode_nil eqv [] (.struct c) (.struct d) (by simpa only [WF] using hc)
    (by simpa only [WF] using hd)]
  simp only [diffNode, idsDiff]

theorem structEq_iff {p q : Position} {c d : Fields V} (hc : WFFields c) (hd : WFFields d) :
    structEq eqv p q c d = true ↔ p = q ∧ NoDiff eqv (.struct c) (.struct d) := by
  obtain ⟨v, i, a⟩ := p
  obtain ⟨v', i', a'⟩ := q
  simp only [structEq, Bool.and_eq_true, List.isEmpty_iff, idsDiff_nil eqv hc hd, Position.mk.injEq,
    decide_eq_true_eq, and_assoc]
end

section
variable {V : Type} [Value V] (eqv : V → V → Bool)

/-- **C12.** Equal structures are at the same position of the same IDS type and version, and
have the same data nodes filled, with equal values (`==` both ways of the definition). -/
theorem C12_equal_same_values (hs : ∀ v w, eqv v w = eqv w v) (p q : Position) (c d : Fields V)
    (hc : WFFields c) (hd : WFFields d) (h : structEq eqv p q c d = true) :
    p = q ∧ SameValues eqv (.struct c) (.struct d) := by
  obtain ⟨hp, h⟩ := (structEq_iff eqv hc hd).1 h
  have wc : WF (Node.struct c) := by simpa only [WF] using hc
  have wd : WF (Node.struct d) := by simpa only [WF] using hd
  refine ⟨hp, ?_, ?_⟩
  · intro a v hv
    exact noDiff_values eqv wc h (.inr (by rintro rfl; obtain ⟨l, h, -⟩ := hv; simp [Node.at] at h)) hv
  · intro a v hv
    obtain ⟨w, hw, he⟩ := noDiff_values eqv wd (noDiff_symm eqv hs _ _ wc wd h)
      (.inr (by rintro rfl; obtain ⟨l, h, -⟩ := hv; simp [Node.at] at h)) hv
    exact ⟨w, hw, by rw [hs]; exact he⟩

/-- **C12.** Structures of one type and version that have the same data nodes filled with equal
values, and arrays of structures of the same sizes, are equal. -/
theorem C12_same_content_equal (p : Position) (c d : Fields V) (m : MFields)
    (hc : WFFields c) (hd : WFFields d) (tc : TypedF c m) (td : TypedF d m)
    (hv : SameValues eqv (.struct c) (.struct d)) (hs : SameSizes (.struct c) (.struct d)) :
    structEq eqv p p c d = true := by
  rw [structEq_iff eqv hc hd]
  refine ⟨rfl, noDiff_of_agree eqv _ _ (.struct m) ?_ ?_ ?_ ?_ (.inr ⟨c, rfl⟩) ⟨⟨hv, hs⟩, ?_⟩⟩
  · simpa only [Typed] using tc
  · simpa only [Typed] using td
  · simpa only [WF] using hc
  · simpa only [WF] using hd
  · intro _ _ _ _ _ _ _ h; simp at h

/-- **C12 (partial).** Equality holds exactly for structures with the same filled data nodes,
equal values and arrays of structures of equal sizes.
Missing: the code only satisfies this for structures without parts that consist of arrays of
empty elements only, see `C12_empty_elements_ignored`. -/
theorem C12_equal_iff_partial (hs : ∀ v w, eqv v w = eqv w v) (p q : Position) (c d : Fields V)
    (m : MFields) (hc : WFFields c) (hd : WFFields d) (tc : TypedF c m) (td : TypedF d m)
    (nc : NoHollow (.struct c)) (nd : NoHollow (.struct d)) :
    structEq eqv p q c d = true ↔
      p = q ∧ SameValues eqv (.struct c) (.struct d) ∧ SameSizes (.struct c) (.struct d) := by
  constructor
  · intro h
    obtain ⟨hp, hv⟩ := C12_equal_same_values eqv hs p q c d hc hd h
    obtain ⟨-, h⟩ := (structEq_iff eqv hc hd).1 h
    have wc : WF (Node.struct c) := by simpa only [WF] using hc
    have wd : WF (Node.struct d) := by simpa only [WF] using hd
    exact ⟨hp, hv, fun a k => ⟨noDiff_sizes eqv wc nc h,
      noDiff_sizes eqv wd nd (noDiff_symm eqv hs _ _ wc wd h)⟩⟩
  · rintro ⟨rfl, hv, hs⟩
    exact C12_same_content_equal eqv p c d m hc hd tc td hv hs

end

section
variable {F : Type} [FloatModel F]

/-- **C12.** A structure equals itself, also with NaN values in it. -/
theorem C12_reflexive (p : Position) (c : Fields (Val F)) (hc : WFFields c) :
    structEq valEq p p c c = true := by
  rw [structEq_iff valEq hc hc]
  exact ⟨rfl, noDiff_refl valEq valEq_refl _ (by simpa only [WF] using hc)⟩

/-- **C12.** Equality is symmetric. -/
theorem C12_symmetric (p q : Position) (c d : Fields (Val F)) (hc : WFFields c) (hd : WFFields d) :
    structEq valEq p q c d = structEq valEq q p d c := by
  have wc : WF (Node.struct c) := by simpa only [WF] using hc
  have wd : WF (Node.struct d) := by simpa only [WF] using hd
  rw [Bool.eq_iff_iff, structEq_iff valEq hc hd, structEq_iff valEq hd hc]
  exact ⟨fun ⟨h1, h2⟩ => ⟨h1.symm, noDiff_symm valEq valEq_comm _ _ wc wd h2⟩,
    fun ⟨h1, h2⟩ => ⟨h1.symm, noDiff_symm valEq valEq_comm _ _ wd wc h2⟩⟩

/-- **C12.** Reading attributes and values does not change what a structure is equal to. -/
theorem C12_reads (p q : Position) (c c' d : Fields (Val F)) (as : List Addr)
    (h : (Node.struct c).reads as = .struct c') (hc : WFFields c) (hd : WFFields d) :
    structEq valEq p q c' d = structEq valEq p q c d := by
  have e : content (.struct c') = content (.struct c) := by rw [← h, content_reads]
  have wc : WF (Node.struct c) := by simpa only [WF] using hc
  have wc' : WF (Node.struct c') := wf_of_content _ (by rw [e]; exact wf_content _ wc)
  have hc' : WFFields c' := by simpa only [WF] using wc'
  rw [Bool.eq_iff_iff, structEq_iff valEq hc' hd, structEq_iff valEq hc hd,
    ← noDiff_content valEq _ (.inr ⟨c', rfl⟩) wc', e, noDiff_content valEq _ (.inr ⟨c, rfl⟩) wc]

end

/-! ### What the code does not satisfy, and sample cases -/

/-- A structure `s` holding an array `a` of elements with one data node `x`. -/
def hollowMeta : MFields :=
  .cons "s".toList (.struct (.cons "a".toList (.aos (.cons "x".toList (.leaf ⟨.int, 0, false⟩) .nil)) .nil)) .nil

def hollowElem : Fields (Val Int) := .absent "x".toList (.leaf ⟨.int, 0, false⟩) .nil

/-- `s.a` resized to the given elements. -/
def hollow (e : Elems (Val Int)) : Fields (Val Int) :=
  .present "s".toList
    (.struct (.present "a".toList (.aos (.cons "x".toList (.leaf ⟨.int, 0, false⟩) .nil) e) .nil)) .nil

/-- **C12 does not hold as stated.** A structure whose child `s` holds an array of two empty
elements equals one without them, so that `==` ignores a difference in array sizes. -/
theorem C12_empty_elements_ignored (p : Position) :
    structEq valEq p p (hollow (.cons hollowElem (.cons hollowElem .nil))) hollowMeta.fresh = true ∧
    ¬ SameSizes (.struct (hollow (.cons hollowElem (.cons hollowElem .nil)))) (.struct hollowMeta.fresh) := by
  constructor
  · have : (idsDiff valEq (hollow (.cons hollowElem (.cons hollowElem .nil))) hollowMeta.fresh) = [] := by
      with_unfolding_all rfl
    simp [structEq, this]
  · intro h
    obtain ⟨m, e, h1, h2, h3⟩ :=
      (h [("s".toList, none), ("a".toList, none)] 2).1 ⟨_, _, rfl, rfl, by decide⟩
    simp [Node.at, Node.item, hollowMeta, MFields.fresh, Fields.get?, Meta.fresh] at h1
    obtain ⟨rfl, rfl⟩ := h1
    simp [Elems.length] at h2

/-- **C12 does not hold as stated.** Because of that `==` is not transitive: an array of one
empty element and an array of two empty elements both equal the structure without them, and are
not equal. -/
theorem C12_not_transitive (p : Position) :
    structEq valEq p p (hollow (.cons hollowElem .nil)) hollowMeta.fresh = true ∧
    structEq valEq p p hollowMeta.fresh (hollow (.cons hollowElem (.cons hollowElem .nil))) = true ∧
    structEq valEq p p (hollow (.cons hollowElem .nil))
      (hollow (.cons hollowElem (.cons hollowElem .nil))) = false := by
  have h1 : (idsDiff valEq (hollow (.cons hollowElem .nil)) hollowMeta.fresh) = [] := by
    with_unfolding_all rfl
  have h2 : (idsDiff valEq hollowMeta.fresh (hollow (.cons hollowElem (.cons hollowElem .nil)))) = [] := by
    with_unfolding_all rfl
  have h3 : (idsDiff valEq (hollow (.cons hollowElem .nil))
      (hollow (.cons hollowElem (.cons hollowElem .nil)))) = [.both ["s".toList, "a".toList]] := by
    with_unfolding_all rfl
  simp [structEq, h1, h2, h3]

/-- Two structures that differ in one value below an array of structures. -/
def diffLeft : Fields (Val Int) :=
  hollow (.cons (.present "x".toList (.leaf ⟨.int, 0, false⟩ (some (.int 3))) .nil) .nil)
def diffRight : Fields (Val Int) :=
  hollow (.cons (.present "x".toList (.leaf ⟨.int, 0, false⟩ (some (.int 4))) .nil) .nil)

example : WFFields diffLeft ∧ TypedF diffLeft hollowMeta ∧ TypedF diffRight hollowMeta := by
  simp [diffLeft, diffRight, hollow, WFFields, WFMFields, WFMeta, WF, WFElems, Fields.names, mnames,
    hollowMeta, TypedF, Typed, TypedE]
example : NoHollow (.struct diffLeft) := by
  have hx : ∀ b c, (Node.leaf ⟨.int, 0, false⟩ (some (.int 3)) : Node (Val Int)).at b ≠ some (.struct c) := by
    intro b c; cases b <;> simp [Node.at, Node.item]
  have he : NoHollow (.struct (.present "x".toList (.leaf ⟨.int, 0, false⟩ (some (.int 3))) .nil) : Node (Val Int)) := by
    intro a c ha hc
    match a with
    | [] =>
      simp [Node.at] at ha; subst ha
      exact ⟨[("x".toList, none)], .int 3, _, rfl, rfl⟩
    | (k, j) :: b =>
      simp only [Node.at, Node.item, Fields.get?] at ha
      by_cases e : k = "x".toList
      · cases j with
        | none => simp only [e, if_true, Option.bind_some] at ha; exact absurd ha (hx b c)
        | some j => simp [e] at ha
      · simp only [if_neg e, Option.bind_none] at ha; simp at ha
  intro a c ha hc
  match a with
  | [] =>
    simp [Node.at] at ha; subst ha
    exact ⟨[("s".toList, none), ("a".toList, some 0), ("x".toList, none)], .int 3, _, rfl, rfl⟩
  | [(k, j)] =>
    simp only [diffLeft, hollow, Node.at, Node.item, Fields.get?] at ha
    by_cases e : k = "s".toList
    · cases j with
      | none =>
        simp [e] at ha; subst ha
        exact ⟨[("a".toList, some 0), ("x".toList, none)], .int 3, _, rfl, rfl⟩
      | some j => simp [e] at ha
    · simp only [if_neg e] at ha; simp at ha
  | (k, j) :: (k', j') :: b =>
    simp only [diffLeft, hollow, Node.at, Node.item, Fields.get?] at ha
    by_cases e : k = "s".toList
    · cases j with
      | some j => simp [e] at ha
      | none =>
        by_cases e' : k' = "a".toList
        · cases j' with
          | none => cases b <;> simp [e, e', Node.at, Node.item, Fields.get?] at ha
          | some j' =>
            match j' with
            | 0 =>
              simp only [e, e', if_true, Option.bind_some, Fields.get?, Elems.get?, Option.map_some] at ha
              exact he b c ha hc
            | j + 1 => simp [e, e', Fields.get?, Elems.get?] at ha
        · simp only [if_pos e, if_neg e', Option.bind_some, Fields.get?, Option.bind_none] at ha; simp at ha
    · simp only [if_neg e, Option.bind_none] at ha; simp at ha
example : idsDiff valEq diffLeft diffRight = [.both ["s".toList, "a".toList, "x".toList]] := by
  with_unfolding_all rfl

end Verif.Props
