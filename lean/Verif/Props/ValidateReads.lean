import Verif.Lemmas.ValidateReads
import Verif.Props.Validate
/-! C19: validation and reading. Attribute access creates child nodes, and reading the value of
an unset array stores its empty default, so reading is not without traces. -/
set_option linter.unusedSectionVars false
namespace Verif.Props
open Verif.Ids Verif.TreeSpec
open Verif.Ids.Opened (Defaults)
open Verif.Path (Parsed)
open Verif.Coord (Coordinate)

variable {V : Type} [ShapedValue V]

/-- **C19.** Whatever nodes and values are read, in any order, before `validate()` is called:
it returns normally, or raises the same error for the same node, as without the reads. All
`validate()` itself does to the IDS is to read nodes, so it can be repeated with the same
result. `D` says that the default of an unset array has no elements in any dimension, is no
integer and holds no `EMPTY_FLOAT`. -/
theorem C19_reads (x : Ctx V) (D : Defaults x.asInt) (as : List Addr) :
    Ctx.validate { x with root := x.root.reads as } = x.validate := by
  have h := Opened.validate_opened (x := { x with root := x.root.reads as }) D
  rw [Opened.ctx_reads] at h
  exact h.symm.trans (Opened.validate_opened D)

/-- **C19, C20.** Looking up a coordinate after any reads finds the same node or the same index
range, or fails in the same way; for values gathered from the elements of an array of
structures, each is the same as before, where an unset array may now be the empty default. -/
theorem C19_coordinate_reads (x : Ctx V) (D : Defaults x.asInt) (as : List Addr) (a : Addr)
    (dim : Nat) :
    match x.coordinate a dim, Ctx.coordinate { x with root := x.root.reads as } a dim with
    | .ok (.node b), r => r = .ok (.node b)
    | .ok (.range n), r => r = .ok (.range n)
    | .error e, r => r = .error e
    | .ok (.values vs), r => ∃ ws, r = .ok (.values ws) ∧ ws.length = vs.length ∧
        ∀ i : Nat, ∀ l v, vs[i]? = some (l, v) →
          ∃ w, ws[i]? = some (l, w) ∧
            (w = v ∨ (l.ndim ≠ 0 ∧ v.getD (Value.emptyArray l) = w.getD (Value.emptyArray l))) := by
  have h1 := Opened.coordinate_opened (x := x) D a dim
  have h2 := Opened.coordinate_opened (x := { x with root := x.root.reads as }) D a dim
  rw [Opened.ctx_reads, h1] at h2
  cases hx : x.coordinate a dim with
  | error e =>
    cases hy : Ctx.coordinate { x with root := x.root.reads as } a dim with
    | error e' => rw [hx, hy] at h2; simpa [Except.map] using h2.symm
    | ok r => rw [hx, hy] at h2; simp [Except.map] at h2
  | ok r =>
    cases hy : Ctx.coordinate { x with root := x.root.reads as } a dim with
    | error e' => rw [hx, hy] at h2; simp [Except.map] at h2
    | ok s =>
      rw [hx, hy] at h2
      simp only [Except.map, Except.ok.injEq] at h2
      cases r with
      | node b =>
        cases s with
        | node c => simpa [Opened.readResult] using h2.symm
        | range n => simp [Opened.readResult] at h2
        | values vs => simp [Opened.readResult] at h2
      | range n =>
        cases s with
        | node c => simp [Opened.readResult] at h2
        | range n => simpa [Opened.readResult] using h2.symm
        | values vs => simp [Opened.readResult] at h2
      | values vs =>
        cases s with
        | node c => simp [Opened.readResult] at h2
        | range n => simp [Opened.readResult] at h2
        | values ws =>
          simp only [Opened.readResult, CoordResult.values.injEq] at h2
          refine ⟨ws, rfl, ?_, ?_⟩
          · simpa using (congrArg List.length h2).symm
          · intro i l v hi
            have h3 := congrArg (fun (q : List (LeafMeta × Option V)) => q[i]?) h2
            simp only [List.getElem?_map, hi, Option.map_some] at h3
            cases hw : ws[i]? with
            | none => rw [hw] at h3; simp at h3
            | some q =>
              obtain ⟨l', w⟩ := q
              rw [hw] at h3
              simp only [Option.map_some, Option.some.injEq, Opened.readValue, Prod.mk.injEq] at h3
              obtain ⟨rfl, h4⟩ := h3
              refine ⟨w, rfl, ?_⟩
              by_cases hd : l.ndim = 0
              · left
                cases v <;> cases w <;> simp_all [readLeaf]
              · right
                refine ⟨hd, ?_⟩
                cases v <;> cases w <;> simp_all [readLeaf]

namespace ValidateReadsExample

/-- Arrays, as their shape and, for 0D integers, the number. -/
structure Arr where
  dims : List Nat
  number : Option Int

instance : ShapedValue Arr where
  isEmpty v := v.dims.contains 0
  emptyArray l := ⟨if l.ndim = 0 then [0] else List.replicate l.ndim 0, none⟩
  isEmpty_emptyArray l := by
    by_cases h : l.ndim = 0
    · simp [h]
    · simp [h]
  shape v := v.dims
  strLen _ := 0
  hasEmptyFloat _ := false
  isEmpty_iff v := by simp

/-- `time` is not set; `q` has two entries along it, and `r` does not exist yet. -/
def tree : Node Arr :=
  .struct (.present "ids_properties".toList
      (.struct (.present "homogeneous_time".toList (.leaf ⟨.int, 0, false⟩ (some ⟨[], some 1⟩)) .nil))
    (.present "time".toList (.leaf ⟨.flt, 1, true⟩ none)
      (.present "q".toList (.leaf ⟨.flt, 1, true⟩ (some ⟨[2], none⟩))
        (.absent "r".toList (.leaf ⟨.flt, 1, true⟩) .nil))))

def ctx : Ctx Arr where
  asInt v := v.number
  stack := 5
  root := tree
  dict := (sampleCtx 1 []).dict

theorem defaults : Defaults ctx.asInt where
  shape l h := by simp [Value.emptyArray, ShapedValue.shape, h]
  number _ _ := rfl
  noEmpty _ _ := rfl

/-- Reading `time` and `r` changes the tree, but not the error of validation. -/
example : ctx.validate = .error (.invalid [("q".toList, none)] (some 0) .mismatch) := by
  with_unfolding_all rfl
example : ctx.root.reads [[("time".toList, none)], [("r".toList, none)]] ≠ ctx.root := by
  intro h
  have := congrArg (fun n : Node Arr => match n.at [("time".toList, none)] with
    | some (.leaf _ (some _)) => true | _ => false) h
  revert this
  decide +kernel
example : Ctx.validate { ctx with root := ctx.root.reads [[("time".toList, none)], [("r".toList, none)]] }
    = .error (.invalid [("q".toList, none)] (some 0) .mismatch) :=
  (C19_reads ctx defaults _).trans (by with_unfolding_all rfl)

end ValidateReadsExample

end Verif.Props
