import Verif.Model.Al
/-
Which low-level paths and time bases calls of the low level may use.
-/
namespace Verif.AlSpec
open Verif.Ids Verif.Al

variable {V : Type}

/-- Without taking the time mode into account, the node with path `p` has low-level path `q` and time base
`tb`: those of the version map if it has the path, otherwise those of the Data Dictionary. Nodes that
are mapped to nothing or changed type have none. -/
inductive Stored (E : Env V) (p : Path) : Path → Text → Prop
  | plain (h : E.nbc = none) : Stored E p (E.info.ctxPath p) (E.info.timebase p)
  | unmapped {n : Nbc} (h : E.nbc = some n) (hp : n.path p = none) (hc : n.change p = false) :
      Stored E p (E.info.ctxPath p) (E.info.timebase p)
  | mapped {n : Nbc} {q : Path} {tb : Text} (h : E.nbc = some n) (hp : n.path p = some (some (q, tb))) :
      Stored E p q tb

/-- The time base in an IDS with this time mode, for nodes with time base `own`: nodes without time base
have none, and all others have `/time` if all nodes share one time base. -/
inductive InMode (mode : Mode) (own : Text) : Text → Prop
  | static (h : own = []) : InMode mode own []
  | shared (h : own ≠ []) (hm : mode = .homogeneous) : InMode mode own "/time".toList
  | own (h : own ≠ []) (hm : mode ≠ .homogeneous) : InMode mode own own

/-- A node has this low-level path and time base, and is not a time-dependent node of a time-independent
IDS. -/
def Placed (E : Env V) (q : Path) (tb : Text) : Prop :=
  ∃ p own, Stored E p q own ∧ InMode E.mode own tb ∧ ¬ (E.mode = .independent ∧ E.info.dynamic p = true)

/-- Calls that read or write nodes, or open arrays of structures, use the path and time base of a node. -/
def WellBased (E : Env V) : Event V → Prop
  | .read _ q tb => Placed E q tb
  | .write _ q tb _ => Placed E q tb
  | .begin _ (.aos q tb _) _ => Placed E q tb
  | _ => True

end Verif.AlSpec
