import Verif.Spec.HashTrace
import Verif.Props.Hash
set_option linter.unusedSectionVars false
/-!
C13: which byte strings are digested.
-/
namespace Verif.Props
open Verif.Ids Verif.HashSpec

variable {F : Type} [FloatModel F] (h : Hasher F)

theorem digest_eq (o : Option Bytes) : digest h o = (o.map h.H, o.toList) := by cases o <;> rfl

theorem all_digests (l : List (List Char)) : all (l.map fun s => digest h (some (utf8 s))) =
    (l.map fun s => some (h.H (utf8 s)), l.map utf8) := by
  induction l with
  | nil => rfl
  | cons s l ih => simp only [List.map_cons, all, ih]; rfl

theorem recValue_eq (v : Val F) : recValue h v = ((valBytes h v).map h.H, valInputs h v) := by
  cases v with
  | strs l =>
    simp only [recValue, andThen]
    rw [all_digests, digest_eq]
    simp only [valBytes, valInputs]
  | _ => simp only [recValue, digest_eq, valInputs, List.append_nil]

mutual
theorem recNode_eq (name : Name) (x : Node (Val F)) : recNode h name x = (hashNode h name x, inputs h name x) := by
  match x with
  | .leaf l v => simp only [recNode, hashNode, inputs, recValue_eq]
  | .struct c => simp only [recNode, hashNode, inputs, recKids_eq (skips name) c, andThen, digest_eq]
  | .aos _ e => simp only [recNode, hashNode, inputs, recElems_eq name e, andThen, digest_eq]
termination_by structural x
theorem recKids_eq (skip : Bool) (c : Fields (Val F)) : recKids h skip c = (hashKids h skip c, inputsF h skip c) := by
  match c with
  | .nil => rfl
  | .absent _ _ r => simp only [recKids, hashKids, inputsF, recKids_eq skip r]
  | .present n x r =>
    simp only [recKids, hashKids, inputsF, recKids_eq skip r, recNode_eq n x]
    split <;> rfl
termination_by structural c
theorem recElems_eq (name : Name) (e : Elems (Val F)) : recElems h name e = (hashElems h name e, inputsE h name e) := by
  match e with
  | .nil => rfl
  | .cons c r => simp only [recElems, hashElems, inputsE, recElems_eq name r, recKids_eq (skips name) c, andThen, digest_eq]
termination_by structural e
end

/-- **C13.** The byte strings in the hypotheses of `C13_same_hash_same_contents` about the digest function are exactly those that are
digested to compute the hash: the computation in which every use of the digest function is recorded gives this hash and this
record. -/
theorem C13_digested (name : Name) (c : Fields (Val F)) :
    recNode h name (.struct c) = (calcHash h name c, inputs h name (.struct c)) := recNode_eq h name (.struct c)

example : (recNode sampleHasher [] (.struct (pairTree (some (.int 3)) none))).2.length = 2 := by
  rw [C13_digested]
  with_unfolding_all rfl

end Verif.Props
