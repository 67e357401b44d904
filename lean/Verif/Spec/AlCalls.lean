import Verif.Model.Al
import Verif.Spec.Convert
/-
What calls of the low level do to the stored data.
-/
namespace Verif.AlSpec
open Verif.Ids Verif.Al Verif.DiffSpec
open Verif.Convert (names)

variable {V : Type}

/-- The call writes or deletes, or opens a context for writing (arrays of structures are resized when their
context is opened). -/
def Changes : Event V → Prop
  | .begin _ (.global _ w _) _ => w = true
  | .begin _ (.slice _ w _) _ => w = true
  | .begin _ (.timerange _ _) _ => False
  | .begin _ (.aos _ _ n) _ => n ≠ 0
  | .write _ _ _ _ => True
  | .delete _ _ => True
  | _ => False

/-- The calls of the second list made after those in the first one. -/
def After (l l' : List (Event V)) (P : Event V → Prop) : Prop := ∃ seg, l' = l ++ seg ∧ ∀ e ∈ seg, P e

/-- The node at position `a` and all nodes above it are transferred (not skipped). -/
def Transferred (E : Env V) (a : Addr) : Prop :=
  ∀ k, 0 < k → k ≤ a.length → target E (names (a.take k)) ≠ none

end Verif.AlSpec
