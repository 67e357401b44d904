import Verif.Spec.ContourTree
import Verif.Props.Assign
/-
C55: the contour tree of a converted equilibrium.
-/
namespace Verif.Props
open Verif.Ids Verif.ContourTree Verif.ContourTreeSpec

variable {F : Type} [FloatModel F]

theorem flipped_isMinus {x : Option F} (h : x.isSome) : IsMinus x (flipped x) := by
  cases x with
  | none => cases h
  | some x =>
    refine ⟨x, rfl, ?_⟩
    unfold flipped store number
    simp only [Option.getD_some]
    cases he : FloatModel.eq (FloatModel.neg x) FloatModel.empty with
    | false => left; exact ⟨rfl, rfl⟩
    | true => right; exact ⟨rfl, rfl⟩

/-- The element for an additional x-point. -/
def pointNode (psi : Option F) (x : Point F) : TreeNode F := ⟨some 1, x.r, x.z, flipped psi, [], []⟩

theorem addPoints_eq (psi : Option F) : ∀ (xs : List (Point F)) (l : List (TreeNode F)),
    addPoints psi xs l = l ++ xs.map (pointNode psi)
  | [], l => by simp [addPoints]
  | x :: r, l => by
    unfold addPoints
    simp only
    rw [addPoints_eq psi r]
    have : (l ++ [TreeNode.empty]).modify ((l ++ [TreeNode.empty]).length - 1)
        (fun n => { n with critical := some 1, r := x.r, z := x.z, psi := flipped psi }) =
        l ++ [pointNode psi x] := by
      simp only [List.length_append, List.length_cons, List.length_nil, Nat.add_sub_cancel]
      apply List.ext_getElem?
      intro i
      rw [List.getElem?_modify]
      by_cases hi : i < l.length
      · simp [List.getElem?_append_left hi, show l.length ≠ i by omega]
      · rw [List.getElem?_append_right (by omega), List.getElem?_append_right (by omega)]
        by_cases h2 : i = l.length
        · subst h2; simp [pointNode, TreeNode.empty]
        · simp [show i - l.length ≠ 0 by omega, show l.length ≠ i by omega]
    rw [this]
    simp

theorem areNodes_rest {psi : Option F} (h : psi.isSome) : ∀ (x : Point F) (r : List (Point F)),
    AreNodes 1 psi [] [] (x :: r) (pointNode psi x :: r.map (pointNode psi))
  | x, [] => .one ⟨rfl, rfl, rfl, flipped_isMinus h, rfl, rfl⟩
  | x, y :: r => .more ⟨rfl, rfl, rfl, flipped_isMinus h, rfl, rfl⟩ (areNodes_rest h y r)

/-- The main node of a separatrix with saddle points. -/
def mainNode (t : Separatrix F) : TreeNode F :=
  { firstPoint t.xPoints { (TreeNode.empty : TreeNode F) with critical := some 1 } with
    psi := flipped t.psi, levelR := t.outlineR, levelZ := t.outlineZ }

theorem areNodes_saddle (t : Separatrix F) (h : t.psi.isSome) :
    AreNodes 1 t.psi t.outlineR t.outlineZ (points t)
      (mainNode t :: (t.xPoints.drop 1).map (pointNode t.psi)) := by
  unfold points mainNode
  cases hx : t.xPoints with
  | nil => exact .one ⟨rfl, rfl, rfl, flipped_isMinus h, rfl, rfl⟩
  | cons x r =>
    cases r with
    | nil => exact .one ⟨rfl, rfl, rfl, flipped_isMinus h, rfl, rfl⟩
    | cons y r => exact .more ⟨rfl, rfl, rfl, flipped_isMinus h, rfl, rfl⟩ (areNodes_rest h y r)

/-- The main node of a limiter. -/
def limiterNode (type : Int) (t : Separatrix F) : TreeNode F :=
  ⟨some type, t.limiter.r, t.limiter.z, flipped t.psi, t.outlineR, t.outlineZ⟩

theorem fillFirst_eq (lt : F → F → Bool) (s : Slice F) (ty : Int)
    (hty : ty = if lt (FloatModel.neg (number s.psiAxis)) (FloatModel.neg (number s.psiBoundary)) then 0 else 2)
    (a : TreeNode F) (l : List (TreeNode F)) (h : s.first.psi.isSome) :
    ∃ f fs, First ty s.first (f :: fs) ∧ fillFirst lt s (a :: .empty :: l) = a :: f :: (l ++ fs) := by
  unfold fillFirst
  by_cases ht : s.first.type = some 0
  · rw [if_pos ht]
    refine ⟨limiterNode (2 - ty) s.first, [],
      .limiter ht (.one ⟨rfl, rfl, rfl, flipped_isMinus h, rfl, rfl⟩), ?_⟩
    subst hty
    simp only [List.modify_succ_cons, List.modify_zero_cons, limiterNode, TreeNode.empty, List.append_nil]
    split <;> rfl
  · rw [if_neg ht]
    refine ⟨mainNode s.first, (s.first.xPoints.drop 1).map (pointNode s.first.psi),
      .saddle ht (areNodes_saddle _ h), ?_⟩
    simp only [addPoints_eq, List.modify_succ_cons, List.modify_zero_cons, List.cons_append, mainNode]

theorem fillSecondary_eq (t : Separatrix F) (a f : TreeNode F) (l : List (TreeNode F)) (h : t.psi.isSome) :
    ∃ g gs, Secondary t (g :: gs) ∧ fillSecondary t (a :: f :: .empty :: l) = a :: f :: g :: (l ++ gs) := by
  refine ⟨mainNode t, (t.xPoints.drop 1).map (pointNode t.psi), areNodes_saddle t h, ?_⟩
  unfold fillSecondary
  simp only [addPoints_eq, List.modify_succ_cons, List.modify_zero_cons, List.cons_append, mainNode]

/-- **C55.** A time slice with a psi on the magnetic axis gets exactly the nodes that describe its boundaries: the
magnetic axis, the limiter point or the x-points of the first separatrix, and the x-points of the secondary separatrix;
all with the opposite sign of psi, whatever the target had before. The node of the axis is a minimum exactly if
-psi is less there than on the boundary, else a maximum. -/
theorem C55_tree (lt : F → F → Bool) (s : Slice F) (old : List (TreeNode F)) (h : s.psiAxis.isSome) :
    Describes s (if lt (FloatModel.neg (s.psiAxis.getD FloatModel.empty))
      (FloatModel.neg (s.psiBoundary.getD FloatModel.empty)) then 0 else 2) (convertSlice lt s old) := by
  obtain ⟨pa, hpa⟩ := Option.isSome_iff_exists.mp h
  generalize hty : (if lt (FloatModel.neg (s.psiAxis.getD FloatModel.empty))
      (FloatModel.neg (s.psiBoundary.getD FloatModel.empty)) then (0 : Int) else 2) = ty
  have hax : ∀ l : List (TreeNode F), fillAxis lt s (.empty :: l) =
      ⟨some ty, s.axis.r, s.axis.z, flipped s.psiAxis, [], []⟩ :: l := by
    intro l
    subst hty
    unfold fillAxis number
    simp only [List.modify_zero_cons, TreeNode.empty]
  have hn : IsNode ty s.axis s.psiAxis [] []
      (⟨some ty, s.axis.r, s.axis.z, flipped s.psiAxis, [], []⟩ : TreeNode F) :=
    ⟨rfl, rfl, rfl, flipped_isMinus h, rfl, rfl⟩
  unfold convertSlice
  simp only [hpa]
  rw [← hpa] at *
  by_cases h1 : s.first.psi.isSome
  · have first := fillFirst_eq lt s ty hty.symm
      (⟨some ty, s.axis.r, s.axis.z, flipped s.psiAxis, [], []⟩ : TreeNode F)
    cases h2 : s.secondary with
    | none =>
      have hc : countNodes s = 2 := by unfold countNodes; rw [if_pos h1, h2]
      rw [hc]
      obtain ⟨f, fs, h3, h4⟩ := first [] h1
      simp only [List.replicate_succ, List.replicate_zero, hax, h4, Nat.le_refl, ge_iff_le, if_true,
        show ¬ (3 ≤ 2) by omega, if_false, List.nil_append]
      exact .one h1 (by intro t ht; rw [h2] at ht; cases ht) hn h3
    | some t =>
      by_cases h5 : t.psi.isSome
      · have hc : countNodes s = 3 := by unfold countNodes; rw [if_pos h1, h2]; simp only [h5, if_true]
        rw [hc]
        obtain ⟨f, fs, h3, h4⟩ := first [.empty] h1
        obtain ⟨g, gs, h6, h7⟩ := fillSecondary_eq t
          (⟨some ty, s.axis.r, s.axis.z, flipped s.psiAxis, [], []⟩ : TreeNode F) f fs h5
        simp only [List.replicate_succ, List.replicate_zero, hax, h4, Nat.le_refl, ge_iff_le, if_true,
          show 2 ≤ 3 by omega, List.cons_append, List.nil_append, h7]
        exact .both h1 h2 h5 hn h3 h6
      · have hc : countNodes s = 2 := by unfold countNodes; rw [if_pos h1, h2]; simp only [h5]; rfl
        rw [hc]
        obtain ⟨f, fs, h3, h4⟩ := first [] h1
        simp only [List.replicate_succ, List.replicate_zero, hax, h4, Nat.le_refl, ge_iff_le, if_true,
          show ¬ (3 ≤ 2) by omega, if_false, List.nil_append]
        refine .one h1 (fun t' ht => ?_) hn h3
        rw [h2] at ht
        cases ht
        simpa using h5
  · have hc : countNodes s = 1 := by unfold countNodes; rw [if_neg h1]
    rw [hc]
    simp only [List.replicate_succ, List.replicate_zero, hax, ge_iff_le,
      show ¬ (2 ≤ 1) by omega, show ¬ (3 ≤ 1) by omega, if_false]
    exact .axis (by simpa using h1) hn

/-- **C55.** A time slice without psi on the axis keeps the nodes that it has. -/
theorem C55_no_axis (lt : F → F → Bool) (s : Slice F) (old : List (TreeNode F)) (h : s.psiAxis = none) :
    convertSlice lt s old = old := by
  unfold convertSlice; simp only [h]

/-- **C55.** Each time slice gets the contour tree of the same time slice of the source, and there are as many. -/
theorem C55_slices (lt : F → F → Bool) : ∀ (ss : List (Slice F)) (os : List (List (TreeNode F))),
    ss.length = os.length →
    (convert lt ss os).length = ss.length ∧
    ∀ (k : Nat) (s : Slice F) (o : List (TreeNode F)), ss[k]? = some s → os[k]? = some o →
      ∃ ns, (convert lt ss os)[k]? = some ns ∧
        (s.psiAxis = none → ns = o) ∧
        (s.psiAxis.isSome → ∃ ty, (ty = 0 ∨ ty = 2) ∧ Describes s ty ns)
  | [], [], _ => ⟨rfl, fun k s o h => by simp at h⟩
  | s :: ss, o :: os, h => by
    have ih := C55_slices lt ss os (by simpa using h)
    refine ⟨by simp [convert, ih.1], fun k s' o' h1 h2 => ?_⟩
    cases k with
    | zero =>
      cases h1; cases h2
      refine ⟨_, rfl, C55_no_axis lt s o, fun h => ⟨_, ?_, C55_tree lt s o h⟩⟩
      split
      · exact .inl rfl
      · exact .inr rfl
    | succ k =>
      simpa [convert] using ih.2 k s' o' (by simpa using h1) (by simpa using h2)

/-! A limit: a secondary separatrix is only converted together with the first one. -/

/-- **C55.** A secondary separatrix of a time slice without first separatrix is dropped. -/
theorem C55_secondary_limit (lt : F → F → Bool) (s : Slice F) (old : List (TreeNode F)) (h : s.psiAxis.isSome)
    (h1 : s.first.psi = none) : (convertSlice lt s old).length = 1 := by
  have := C55_tree lt s old h
  revert this
  generalize convertSlice lt s old = ns
  intro hd
  cases hd with
  | axis _ _ => rfl
  | one h2 => rw [h1] at h2; cases h2
  | both h2 => rw [h1] at h2; cases h2

/-- A diverted plasma with two x-points and a secondary separatrix. -/
def sampleSlice : Slice Int :=
  ⟨some 5, some 3, ⟨some 60, some 1⟩,
   ⟨some 3, some 1, ⟨none, none⟩, [⟨some 51, some (-3)⟩, ⟨some 52, some 3⟩], [50, 70], [0, 1]⟩,
   some ⟨some 2, none, ⟨none, none⟩, [⟨some 53, some 4⟩], [49, 71], [2, 3]⟩⟩

example : convertSlice (fun x y => decide (x < y)) sampleSlice [.empty] =
    [⟨some 0, some 60, some 1, some (-5), [], []⟩, ⟨some 1, some 51, some (-3), some (-3), [50, 70], [0, 1]⟩,
     ⟨some 1, some 53, some 4, some (-2), [49, 71], [2, 3]⟩, ⟨some 1, some 52, some 3, some (-3), [], []⟩] := by
  decide +kernel

/-- A limiter plasma, and a time slice without data. -/
example : convert (fun x y => decide (x < y))
    [{ sampleSlice with first := ⟨some 3, some 0, ⟨some 40, some 0⟩, [], [50], [0]⟩, secondary := none },
     { sampleSlice with psiAxis := none }] [[], [.empty]] =
    [[⟨some 0, some 60, some 1, some (-5), [], []⟩, ⟨some 2, some 40, some 0, some (-3), [50], [0]⟩], [.empty]] := by
  decide +kernel

/-- A secondary separatrix without first one is lost. -/
example : convertSlice (fun x y => decide (x < y))
    { sampleSlice with first := { sampleSlice.first with psi := none } } [] =
    [⟨some 0, some 60, some 1, some (-5), [], []⟩] := by
  decide +kernel

end Verif.Props
