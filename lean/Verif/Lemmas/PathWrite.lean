import Verif.Lemmas.PathParse
/-! Written paths are in the grammar. -/
namespace Verif.Path
open Verif.PathSpec

theorem digits_number (n : Nat) : Number (digits n) := by
  refine ⟨Nat.toDigits_ne_nil, fun x hx => ?_⟩
  exact (isDigit_iff x).mp (Nat.isDigit_of_mem_toDigits (by omega) (by omega) hx)

theorem value_digits (n : Nat) : value (digits n) = n := by
  simp [value, digits]

theorem writeBound_bound (k : Nat) (b : Option Nat) :
    Bound k (writeBound k b) (b.map Int.ofNat) := by
  cases b with
  | none => exact .absent
  | some n =>
    have := Bound.given (shift := k) (digits_number (n + k))
    rw [value_digits] at this
    simpa [writeBound] using this

theorem generic_no {s : List Char} (h : Generic s) : '/' ∉ s ∧ '(' ∉ s ∧ '[' ∉ s := by
  have := Generic.plain h
  rcases h with rfl | ⟨d, hd, rfl⟩
  · decide
  · have : d ≠ '/' ∧ d ≠ '(' ∧ d ≠ '[' := by
      refine ⟨?_, ?_, ?_⟩ <;> (rintro rfl; simp [Digit] at hd)
    simp [Ne.symm this.1, Ne.symm this.2.1, Ne.symm this.2.2]

theorem write_not_generic {f : Bool} {p : PathItems} (hl : ¬ p.looksGeneric) :
    ¬ Generic (p.write f true) := by
  intro hg
  have hno := generic_no hg
  cases p with
  | done => simp [PathItems.write, Generic] at hg
  | plain n r =>
    cases r with
    | done => apply hl; simpa [PathItems.write, PathItems.looksGeneric] using hg
    | plain m r => exact hno.1 (by simp [PathItems.write])
    | indexed m i r => exact hno.1 (by simp [PathItems.write])
  | indexed n i r =>
    cases f
    · exact hno.2.2 (by simp [PathItems.write])
    · exact hno.2.1 (by simp [PathItems.write])

theorem sep_write {first need : Bool} (h : first = true → need = false) :
    PathSpec.Sep need (if first then [] else ['/']) := by
  cases first with
  | true => exact .inr ⟨rfl, h rfl⟩
  | false => exact .inl rfl

mutual
theorem PathItems.text {f first need : Bool} (p : PathItems) (hw : p.WF)
    (h : first = true → need = false) :
    PathText f need (p.write f first) p.names p.indices := by
  cases p with
  | done => exact .nil
  | plain n r =>
    simp only [PathItems.WF] at hw
    simp only [PathItems.write, PathItems.names, PathItems.indices]
    exact .plain (sep_write h) hw.1 (PathItems.text r hw.2 (by simp))
  | indexed n i r =>
    simp only [PathItems.WF] at hw
    simp only [PathItems.write, PathItems.names, PathItems.indices]
    exact .indexed (sep_write h) hw.1 (Index.text i hw.2.1) (PathItems.text r hw.2.2 (by simp))
theorem Index.text {f : Bool} (i : Index) (hw : i.WF) : IndexText f (i.write f) i.toIdx := by
  cases i with
  | generic t => simp only [Index.WF] at hw; exact .generic hw
  | num n =>
    have h := IndexText.num (fortran := f) (digits_number (n + if f then 1 else 0))
    rw [value_digits] at h
    simp only [Index.write, Index.toIdx]
    have e : (((n + if f then 1 else 0 : Nat) : Int) - base f) = n := by
      cases f <;> simp [base]
    rwa [e] at h
  | slice a b =>
    simp only [Index.write, Index.toIdx]
    have h1 := writeBound_bound (if f then 1 else 0) a
    have e : ((if f then 1 else 0 : Nat) : Int) = base f := by cases f <;> simp [base]
    rw [e] at h1
    exact .slice h1 (writeBound_bound 0 b)
  | path p =>
    simp only [Index.WF] at hw
    simp only [Index.write, Index.toIdx]
    exact .path (write_not_generic hw.2) (PathItems.text p hw.1 (by simp))
end

end Verif.Path
