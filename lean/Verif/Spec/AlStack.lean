import Verif.Model.AlLazy
/-
Stack discipline of Access Layer contexts: a reading of the list of low-level calls that knows nothing of the code
that makes them.
-/
namespace Verif.AlSpec
open Verif.Al

variable {V : Type}

/-- The contexts that are open after a call, newest first. `none` if the call breaks the discipline: it
opens a context below, or uses, or ends a context that is not the newest open one. -/
def call : List Ctx → Event V → Option (List Ctx)
  | [], _ => none
  | top :: st, .begin parent _ (some c) => if parent = top then some (c :: top :: st) else none
  | top :: st, .begin parent _ none => if parent = top then some (top :: st) else none
  | top :: st, .iterate c _ _ => if c = top then some (top :: st) else none
  | top :: st, .read c _ _ => if c = top then some (top :: st) else none
  | top :: st, .write c _ _ _ => if c = top then some (top :: st) else none
  | top :: st, .delete c _ => if c = top then some (top :: st) else none
  | top :: st, .finish c => if c = top then some st else none

def calls : List Ctx → List (Event V) → Option (List Ctx)
  | st, [] => some st
  | st, e :: r => (call st e).bind (calls · r)

/-- How often a context was opened. -/
def begun (c : Ctx) (log : List (Event V)) : Nat :=
  log.countP fun e => match e with | .begin _ _ (some d) => d == c | _ => false

/-- How often a context was ended. -/
def ended (c : Ctx) (log : List (Event V)) : Nat :=
  log.countP fun e => match e with | .finish d => d == c | _ => false

/-- Operations that work on the whole data entry, and do not access lazily loaded IDSs. -/
def OnEntry : Op V → Prop
  | .access _ _ => False
  | .close _ => False
  | _ => True

end Verif.AlSpec
