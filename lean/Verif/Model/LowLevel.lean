/-
The interface to the compiled library: `imas/backends/imas_core/imas_interface.py` (lines 41-180), the methods of
contexts that call it (`imas/backends/imas_core/al_context.py` lines 63-218), `list_all_occurrences`
(`imas/backends/imas_core/db_entry_al.py` lines 349-358) and the version check of commands
(`imas/command/helpers.py` lines 32-45).

The library is any collection of functions, which may change its state `σ`, return a status and a value, or raise an
exception `E`.

`timerange_action` (`al_context.py` lines 111-124) is not included: it wraps whatever the library function returns.
-/
namespace Verif.LowLevel

abbrev Text := List Char

/-- Arguments of library functions: context numbers, texts, integers and other values. -/
inductive Arg (V : Type) where
  | ctx (c : Int)
  | text (t : Text)
  | int (i : Int)
  | other (v : V)
deriving DecidableEq

/-- Exceptions. -/
inductive Err (E : Type) where
  /-- `RuntimeError`, `imas_interface.py` lines 95-98 -/
  | notAvailable
  /-- `LLInterfaceError`, `imas_interface.py` lines 100-104 -/
  | needsVersion (least current : Text)
  /-- `LLInterfaceError`, e.g. `imas_interface.py` line 107 (the message names the module, not the function) -/
  | notImplemented
  /-- `AttributeError` of Python -/
  | noAttribute
  /-- `LowlevelError` (`imas/exception.py` lines 51-59) -/
  | lowlevel (what : Text) (status : Int)
  /-- `TypeError` of Python -/
  | typeError
  /-- `ValueError`, `al_context.py` lines 95-99 -/
  | unknownInterpolation
  /-- `RuntimeError`, `db_entry_al.py` lines 354-357 -/
  | needsOccurrences
  /-- an exception of the library itself -/
  | library (e : E)
deriving DecidableEq

/-- A function of the library: it may change the state of the library, and returns a status and a value. (Functions
that return a status only, or several values, are not distinguished.) -/
abbrev Func (σ V E : Type) := List (Arg V) → σ → Except E (Int × V) × σ

/-- The imported module. `version` is the answer of `get_al_version`, if the module has this function. -/
structure Library (σ V E : Type) where
  version : Option Text
  attr : Text → Option (Func σ V E)

/-- What a method does. -/
inductive Impl (σ V E : Type) where
  | lib (f : Func σ V E)
  | unavailable
  | least (v : Text)
  | unimplemented
  | version

variable {σ V E : Type}

/-- The methods of the class, with what they do, `imas_interface.py` lines 106-180. -/
def classMethods : List (Text × Impl σ V E) :=
  [("close_pulse".toList, .unimplemented),
   ("begin_global_action".toList, .unimplemented),
   ("begin_slice_action".toList, .unimplemented),
   ("end_action".toList, .unimplemented),
   ("write_data".toList, .unimplemented),
   ("read_data".toList, .unimplemented),
   ("delete_data".toList, .unimplemented),
   ("begin_arraystruct_action".toList, .unimplemented),
   ("iterate_over_arraystruct".toList, .unimplemented),
   ("build_uri_from_legacy_parameters".toList, .least "5.0".toList),
   ("begin_dataentry_action".toList, .least "5.0".toList),
   ("register_plugin".toList, .least "5.0".toList),
   ("unregister_plugin".toList, .least "5.0".toList),
   ("bind_plugin".toList, .least "5.0".toList),
   ("unbind_plugin".toList, .least "5.0".toList),
   ("bind_readback_plugins".toList, .least "5.0".toList),
   ("unbind_readback_plugins".toList, .least "5.0".toList),
   ("write_plugins_metadata".toList, .least "5.0".toList),
   ("setvalue_parameter_plugin".toList, .least "5.0".toList),
   ("get_occurrences".toList, .least "5.1".toList),
   ("get_al_version".toList, .version),
   ("begin_timerange_action".toList, .least "5.4".toList)]

/-- `public_methods`: the names in `dir(self)` without underscore, `imas_interface.py` line 71. (Sorted in Python; the
order makes no difference.) -/
def publicMethods : List Text :=
  ((classMethods : List (Text × Impl Unit Unit Unit)).map (·.1)).filter fun n => !(['_'].isPrefixOf n)

/-- A `LowlevelInterface`: its version and the attributes set on the object. -/
structure Interface (σ V E : Type) where
  version : Option Text
  versionText : Text
  attrs : List (Text × Impl σ V E)

/-- `setattr` -/
def setAttr (l : List (Text × Impl σ V E)) (n : Text) (x : Impl σ V E) : List (Text × Impl σ V E) := (n, x) :: l

/-- `LowlevelInterface.__init__`, `imas_interface.py` lines 67-93. -/
def init : Option (Library σ V E) → Interface σ V E
  | none => ⟨none, [], publicMethods.foldl (fun l n => setAttr l n .unavailable) []⟩
  | some lib =>
    have v := match lib.version with
      | some v => v
      | none => "5.0.0".toList
    ⟨some v, v, publicMethods.foldl (fun l n =>
      match lib.attr ("al_".toList ++ n) with
      | some f => setAttr l n (.lib f)
      | none => l) []⟩

/-- What a call gives: a status and a value, or a text for `get_al_version`. -/
inductive Answer (V : Type) where
  | value (status : Int) (v : V)
  | text (t : Text)
deriving DecidableEq

/-- Calling a method of the interface: attributes of the object come first, then those of the class. -/
def call (I : Interface σ V E) (n : Text) (args : List (Arg V)) (s : σ) : Except (Err E) (Answer V) × σ :=
  match (match I.attrs.lookup n with
    | some x => some x
    | none => (classMethods : List (Text × Impl σ V E)).lookup n) with
  | none => (.error .noAttribute, s)
  | some (.lib f) =>
    match f args s with
    | (.ok (st, v), s) => (.ok (.value st v), s)
    | (.error e, s) => (.error (.library e), s)
  | some .unavailable => (.error .notAvailable, s)
  | some (.least v) => (.error (.needsVersion v I.versionText), s)
  | some .unimplemented => (.error .notImplemented, s)
  | some .version => (.ok (.text I.versionText), s)

/-- A call whose status is looked at (`status, x = ll_interface.f(..)`, `if status != 0: raise ..`). -/
def checked (I : Interface σ V E) (n : Text) (args : List (Arg V)) (err : Int → Err E) (s : σ) : Except (Err E) V × σ :=
  match call I n args s with
  | (.ok (.value st v), s) => if st ≠ 0 then (.error (err st), s) else (.ok v, s)
  | (.ok (.text _), s) => (.error .typeError, s)
  | (.error e, s) => (.error e, s)

/-- `ALContext.global_action`, `al_context.py` lines 63-77. -/
def globalAction (I : Interface σ V E) (c : Int) (path : Text) (rwmode : Int) (datapath : Text) :=
  checked I "begin_global_action".toList [.ctx c, .text path, .int rwmode, .text datapath] (.lowlevel "global_action".toList)

/-- `ALContext.slice_action`, `al_context.py` lines 79-109; `known` is `interpolation_method in INTERP_MODES`. -/
def sliceAction (I : Interface σ V E) (c : Int) (path : Text) (rwmode : Int) (time : V) (interp : Int) (known : Bool) (s : σ) :
    Except (Err E) V × σ :=
  if !known then (.error .unknownInterpolation, s)
  else checked I "begin_slice_action".toList [.ctx c, .text path, .int rwmode, .other time, .int interp]
    (.lowlevel "slice_action".toList) s

/-- `ALContext.arraystruct_action`, `al_context.py` lines 126-145. -/
def arrayAction (I : Interface σ V E) (c : Int) (path timebase : Text) (size : Int) :=
  checked I "begin_arraystruct_action".toList [.ctx c, .text path, .text timebase, .int size]
    (.lowlevel "arraystruct_action".toList)

/-- `ALContext.read_data`, `al_context.py` lines 147-154. The message contains `repr(path)`, here the path itself. -/
def readData (I : Interface σ V E) (c : Int) (path timebase : Text) (datatype dim : Int) :=
  checked I "read_data".toList [.ctx c, .text path, .text timebase, .int datatype, .int dim]
    (.lowlevel ("read data at ".toList ++ path))

/-- `ALContext.delete_data`, `al_context.py` lines 156-160. -/
def deleteData (I : Interface σ V E) (c : Int) (path : Text) :=
  checked I "delete_data".toList [.ctx c, .text path] (.lowlevel ("delete data at ".toList ++ path))

/-- `ALContext.write_data`, `al_context.py` lines 162-166. `LowlevelError` is called without its second argument, which
raises a `TypeError`. -/
def writeData (I : Interface σ V E) (c : Int) (path timebase : Text) (v : V) :=
  checked I "write_data".toList [.ctx c, .text path, .text timebase, .other v] (fun _ => .typeError)

/-- `ALContext.list_all_occurrences`, `al_context.py` lines 168-175. (The returned array, or `None`, becomes a list.) -/
def listOccurrences (I : Interface σ V E) (c : Int) (ids : Text) :=
  checked I "get_occurrences".toList [.ctx c, .text ids] (.lowlevel ("list occurrences for ".toList ++ ids))

/-- `ALDBEntryImpl.list_all_occurrences`, `db_entry_al.py` lines 349-358: `LLInterfaceError`s become a `RuntimeError`. -/
def entryOccurrences (I : Interface σ V E) (c : Int) (ids : Text) (s : σ) : Except (Err E) V × σ :=
  match listOccurrences I c ids s with
  | (.error (.needsVersion _ _), s) => (.error .needsOccurrences, s)
  | (.error .notImplemented, s) => (.error .needsOccurrences, s)
  | r => r

/-- `ALArrayStructContext.iterate_over_arraystruct`, `al_context.py` lines 204-209: the current index changes only if the
call was successful. -/
def iterate (I : Interface σ V E) (c : Int) (cur step : Int) (s : σ) : Except (Err E) Unit × Int × σ :=
  match checked I "iterate_over_arraystruct".toList [.ctx c, .int step] (.lowlevel "iterate over arraystruct".toList) s with
  | (.ok _, s) => (.ok (), cur + step, s)
  | (.error e, s) => (.error e, cur, s)

/-- `ALArrayStructContext.iterate_to_index`, `al_context.py` lines 211-218. -/
def iterateTo (I : Interface σ V E) (c : Int) (cur index : Int) (s : σ) : Except (Err E) Unit × Int × σ :=
  if index - cur ≠ 0 then
    match checked I "iterate_over_arraystruct".toList [.ctx c, .int (index - cur)] (.lowlevel "iterate over arraystruct".toList) s with
    | (.ok _, s) => (.ok (), index, s)
    | (.error e, s) => (.error e, cur, s)
  else (.ok (), cur, s)

/-- `ALContext.close` and `__exit__`, `al_context.py` lines 60-61, 177-179: the status is not looked at. -/
def endAction (I : Interface σ V E) (c : Int) (s : σ) : Except (Err E) Unit × σ :=
  match call I "end_action".toList [.ctx c] s with
  | (.ok _, s) => (.ok (), s)
  | (.error e, s) => (.error e, s)

/-- `min_version_guard`, `command/helpers.py` lines 32-45: whether the command goes on (otherwise it exits with code 1).
`le` compares versions. -/
def versionGuard (le : Text → Text → Bool) (I : Interface σ V E) (least : Text) : Bool :=
  match I.version with
  | some v => le least v
  | none => false

end Verif.LowLevel
