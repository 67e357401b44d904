import Verif.Model.LowLevel
/-
Which functions of the compiled library exist since when, and what calls of contexts ask the library for.
-/
namespace Verif.LowLevelSpec
open Verif.LowLevel

/-- Functions that all supported versions have. -/
def always : List Text :=
  ["begin_arraystruct_action", "begin_global_action", "begin_slice_action", "close_pulse", "delete_data", "end_action",
   "iterate_over_arraystruct", "read_data", "write_data"].map String.toList

/-- Functions and the version that introduced them. -/
def since : List (Text × Text) :=
  (["begin_dataentry_action", "build_uri_from_legacy_parameters", "register_plugin", "unregister_plugin", "bind_plugin",
    "unbind_plugin", "bind_readback_plugins", "unbind_readback_plugins", "write_plugins_metadata",
    "setvalue_parameter_plugin"].map fun n => (n.toList, "5.0".toList)) ++
  [("get_occurrences".toList, "5.1".toList), ("begin_timerange_action".toList, "5.4".toList)]

/-- The version of a library: libraries that cannot tell are version 5.0.0. -/
def VersionIs {σ V E : Type} (lib : Library σ V E) (v : Text) : Prop :=
  lib.version = some v ∨ (lib.version = none ∧ v = "5.0.0".toList)

/-- Operations on contexts. -/
inductive Op (V : Type) where
  | global (c : Int) (path : Text) (rwmode : Int) (datapath : Text)
  | slice (c : Int) (path : Text) (rwmode : Int) (time : V) (interp : Int)
  | array (c : Int) (path timebase : Text) (size : Int)
  | fetch (c : Int) (path timebase : Text) (datatype dim : Int)
  | store (c : Int) (path timebase : Text) (v : V)
  | delete (c : Int) (path : Text)
  | occurrences (c : Int) (ids : Text)

variable {σ V E : Type}

/-- The function of the library, its arguments, and what an error message calls the operation. -/
def Op.asks : Op V → Text × List (Arg V) × Text
  | .global c p m d => ("al_begin_global_action".toList, [.ctx c, .text p, .int m, .text d], "global_action".toList)
  | .slice c p m t i => ("al_begin_slice_action".toList, [.ctx c, .text p, .int m, .other t, .int i], "slice_action".toList)
  | .array c p t n => ("al_begin_arraystruct_action".toList, [.ctx c, .text p, .text t, .int n], "arraystruct_action".toList)
  | .fetch c p t k n => ("al_read_data".toList, [.ctx c, .text p, .text t, .int k, .int n], "read data at ".toList ++ p)
  | .store c p t v => ("al_write_data".toList, [.ctx c, .text p, .text t, .other v], "write data at ".toList ++ p)
  | .delete c p => ("al_delete_data".toList, [.ctx c, .text p], "delete data at ".toList ++ p)
  | .occurrences c n => ("al_get_occurrences".toList, [.ctx c, .text n], "list occurrences for ".toList ++ n)

/-- The code for the operation. -/
def Op.run (I : Interface σ V E) : Op V → σ → Except (Err E) V × σ
  | .global c p m d => globalAction I c p m d
  | .slice c p m t i => sliceAction I c p m t i true
  | .array c p t n => arrayAction I c p t n
  | .fetch c p t k n => readData I c p t k n
  | .store c p t v => writeData I c p t v
  | .delete c p => deleteData I c p
  | .occurrences c n => listOccurrences I c n

def Op.isStore : Op V → Bool
  | .store .. => true
  | _ => false

end Verif.LowLevelSpec
