import Verif.Model.Path
/-
Model of the construction cache of `IDSPath` (`imas/ids_path.py` lines 132-146).

Objects are identified by numbers. An object that `__new__` created but whose `__init__`
did not finish has no contents.
-/
namespace Verif.Path

/-- `IDSPath._cache` (line 132) and the heap of `IDSPath` objects. -/
structure World where
  /-- identity of the next new object -/
  next : Nat
  /-- `_cache`: path text to object -/
  cache : List Char → Option Nat
  /-- `parts` and `indices` of an object, `none` while `_init_done` is not set -/
  heap : Nat → Option Parsed

def World.empty : World := ⟨0, fun _ => none, fun _ => none⟩

/-- `__new__` (lines 134-137): look the text up, or create and cache a new object. -/
def World.new (w : World) (path : List Char) : World × Nat :=
  match w.cache path with
  | some i => (w, i)
  | none =>
    (⟨w.next + 1, fun p => if p = path then some w.next else w.cache p, w.heap⟩, w.next)

/-- Lines 143-146: `__init__` completes. -/
def World.finish (w : World) (i : Nat) (r : Parsed) : World :=
  { w with heap := fun j => if j = i then some r else w.heap j }

/-- `parseIndex` with the cache threaded through the nested construction. -/
def parseIndexW (nested : World → List Char → World × Except PathErr Parsed) (f : Bool)
    (w : World) (index : List Char) : World × Except PathErr Idx :=
  if isGeneric index then (w, .ok (.generic index))
  else if isNumber index then (w, .ok (.num (dec f (toInt index))))
  else if isSlice index then
    match splitChar ':' index with
    | [start, stop] =>
      (w, .ok (.slice (if start.isEmpty then none else some (dec f (toInt start)))
                  (if stop.isEmpty then none else some (toInt stop))))
    | _ => (w, .error .value)
  else
    match nested w index with
    | (w', .error e) => (w', .error e)
    | (w', .ok r) => (w', .ok (.path r.parts r.indices))

/-- `parsePieces` with the cache threaded through, in the order of the loop. -/
def parsePiecesW (nested : World → List Char → World × Except PathErr Parsed) (f : Bool) :
    World → List (List Char) → World × Except PathErr Parsed
  | w, [] => (w, .ok ⟨[], []⟩)
  | w, [last] =>
    if last.isEmpty then (w, .ok ⟨[], []⟩)
    else (w, .ok ⟨splitPart last, List.replicate (splitPart last).length none⟩)
  | w, part :: index :: rest =>
    if part.isEmpty then (w, .error .value)
    else
      match parseIndexW nested f w index with
      | (w', .error e) => (w', .error e)
      | (w', .ok idx) =>
        match parsePiecesW nested f w' rest with
        | (w'', .error e) => (w'', .error e)
        | (w'', .ok r) =>
          (w'', .ok ⟨splitPart part ++ r.parts,
            List.replicate ((splitPart part).length - 1) none ++ some idx :: r.indices⟩)

/-- `_parse_path` (lines 58-111) with the cache threaded through. -/
def parsePathW (nested : World → List Char → World × Except PathErr Parsed) (w : World)
    (path : List Char) : World × Except PathErr Parsed :=
  let f := path.contains '('
  if f && path.contains '[' then (w, .error .value)
  else
    match splitOnMatchingParens path (openChar f) (closeChar f) with
    | .error e => (w, .error e)
    | .ok pieces =>
      match parsePiecesW nested f w pieces with
      | (w', .error e) => (w', .error e)
      | (w', .ok r) => (w', if r.parts.all isValidField then .ok r else .error .value)

/-- `IDSPath(path)`: `__new__` then `__init__` (lines 134-146). The result is the object
and its contents, or the exception of the parser. The first argument is the remaining
depth of the call stack. -/
def construct : Nat → World → List Char → World × Except PathErr (Nat × Parsed)
  | 0, w, _ => (w, .error .recursion)
  | stack + 1, w, path =>
    let wi := w.new path
    match wi.1.heap wi.2 with
    | some r => (wi.1, .ok (wi.2, r))         -- already initialised (line 140)
    | none =>
      match parsePathW (fun w t =>
          match construct stack w t with
          | (w', .error e) => (w', .error e)
          | (w', .ok r) => (w', .ok r.2)) wi.1 path with
      | (w', .error e) => (w', .error e)
      | (w', .ok r) => (w'.finish wi.2 r, .ok (wi.2, r))

/-- Any number of constructions, each with its own stack depth; exceptions are caught by
the caller. -/
def constructAll : World → List (Nat × List Char) → World
  | w, [] => w
  | w, (n, t) :: rest => constructAll (construct n w t).1 rest

end Verif.Path
