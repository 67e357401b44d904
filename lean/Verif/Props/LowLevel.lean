import Verif.Spec.LowLevel
/-
C72: calls of the compiled library.
-/
namespace Verif.Props
open Verif.LowLevel Verif.LowLevelSpec

section
variable {σ V E : Type}

/-! ### Attributes -/

theorem foldl_unavailable (ns : List Text) (l : List (Text × Impl σ V E)) (n : Text) :
    (ns.foldl (fun l n => setAttr l n Impl.unavailable) l).lookup n =
      if n ∈ ns then some .unavailable else l.lookup n := by
  induction ns generalizing l with
  | nil => simp
  | cons m ns ih =>
    rw [List.foldl_cons, ih]
    by_cases h : n ∈ ns
    · simp [h]
    · simp only [h, if_false, List.mem_cons, or_false, setAttr, List.lookup_cons]
      by_cases e : n = m
      · simp [e]
      · have : (n == m) = false := by simpa using e
        simp [this, e]

theorem foldl_library (g : Text → Option (Func σ V E)) (ns : List Text) (l : List (Text × Impl σ V E)) (n : Text) :
    (ns.foldl (fun l n => match g n with
      | some f => setAttr l n (Impl.lib f)
      | none => l) l).lookup n =
      if n ∈ ns ∧ (g n).isSome then (g n).map .lib else l.lookup n := by
  induction ns generalizing l with
  | nil => simp
  | cons m ns ih =>
    rw [List.foldl_cons, ih]
    by_cases h : n ∈ ns ∧ (g n).isSome
    · rw [if_pos h, if_pos ⟨List.mem_cons_of_mem _ h.1, h.2⟩]
    · rw [if_neg h]
      by_cases e : n = m
      · subst e
        cases hg : g n with
        | none => simp
        | some f => simp [setAttr]
      · have hb : (n == m) = false := by simpa using e
        have : ¬ (n ∈ m :: ns ∧ (g n).isSome) := by
          rintro ⟨h1, h2⟩
          rcases List.mem_cons.1 h1 with h1 | h1
          · exact e h1
          · exact h ⟨h1, h2⟩
        rw [if_neg this]
        cases hg : g m with
        | none => rfl
        | some f => simp [setAttr, List.lookup_cons, hb]

/-- The names of the methods of the interface. -/
def methods : List Text := always ++ since.map (·.1) ++ ["get_al_version".toList]

theorem methods_public (n : Text) : n ∈ publicMethods ↔ n ∈ methods := by
  have h1 : (publicMethods.all fun n => decide (n ∈ methods)) = true := by decide +kernel
  have h2 : (methods.all fun n => decide (n ∈ publicMethods)) = true := by decide +kernel
  simp only [List.all_eq_true, decide_eq_true_eq] at h1 h2
  exact ⟨h1 n, h2 n⟩

/-- What the class does with a name. -/
inductive Kind where
  | plain | least (v : Text) | version
deriving DecidableEq

def Kind.impl : Kind → Impl σ V E
  | .plain => .unimplemented
  | .least v => .least v
  | .version => .version

def kinds : List (Text × Kind) :=
  always.map (·, .plain) ++ since.map (fun x => (x.1, .least x.2)) ++ [("get_al_version".toList, .version)]

def kindOf : Impl Unit Unit Unit → Kind
  | .least v => .least v
  | .version => .version
  | _ => .plain

theorem class_kinds : (classMethods : List (Text × Impl σ V E)) =
    (classMethods : List (Text × Impl Unit Unit Unit)).map fun x => (x.1, (kindOf x.2).impl) := rfl

theorem lookup_map_snd {α β : Type} (f : α → β) (l : List (Text × α)) (n : Text) :
    (l.map fun x => (x.1, f x.2)).lookup n = (l.lookup n).map f := by
  induction l with
  | nil => rfl
  | cons x l ih =>
    obtain ⟨m, a⟩ := x
    simp only [List.map_cons, List.lookup_cons, ih]
    cases n == m <;> rfl

theorem class_lookup {n : Text} {k : Kind} (h : (n, k) ∈ kinds) :
    (classMethods : List (Text × Impl σ V E)).lookup n = some k.impl := by
  have h1 : (kinds.all fun x => decide (((classMethods : List (Text × Impl Unit Unit Unit)).lookup x.1).map kindOf = some x.2)) = true := by
    decide +kernel
  simp only [List.all_eq_true, decide_eq_true_eq] at h1
  have h2 := h1 _ h
  rw [class_kinds, lookup_map_snd (fun i => (kindOf i).impl)]
  cases hl : (classMethods : List (Text × Impl Unit Unit Unit)).lookup n with
  | none => simp only at h2; rw [hl] at h2; cases h2
  | some i =>
    simp only at h2
    rw [hl, Option.map_some, Option.some.injEq] at h2
    rw [Option.map_some, h2]

theorem class_other {n : Text} (h : n ∉ methods) : (classMethods : List (Text × Impl σ V E)).lookup n = none := by
  have h1 : ((classMethods : List (Text × Impl Unit Unit Unit)).all fun x => decide (x.1 ∈ methods)) = true := by
    decide +kernel
  simp only [List.all_eq_true, decide_eq_true_eq] at h1
  rw [class_kinds, lookup_map_snd (fun i => (kindOf i).impl)]
  cases hl : (classMethods : List (Text × Impl Unit Unit Unit)).lookup n with
  | none => rfl
  | some i =>
    exfalso
    refine h (h1 (n, i) ?_)
    clear h1 h
    generalize (classMethods : List (Text × Impl Unit Unit Unit)) = l at hl
    induction l with
    | nil => cases hl
    | cons x l ih =>
      obtain ⟨m, a⟩ := x
      rw [List.lookup_cons] at hl
      split at hl
      · next e =>
        cases hl
        have : n = m := by simpa using e
        simp [this]
      · exact List.mem_cons_of_mem _ (ih hl)

theorem mem_always {n : Text} (h : n ∈ always) : (n, Kind.plain) ∈ kinds := by
  unfold kinds
  simp only [List.mem_append, List.mem_map]
  exact .inl (.inl ⟨n, h, rfl⟩)

theorem mem_since {n v : Text} (h : (n, v) ∈ since) : (n, Kind.least v) ∈ kinds := by
  unfold kinds
  simp only [List.mem_append, List.mem_map]
  exact .inl (.inr ⟨(n, v), h, rfl⟩)

theorem mem_version : ("get_al_version".toList, Kind.version) ∈ kinds := by
  unfold kinds
  exact List.mem_append_right _ (List.mem_singleton.2 rfl)

theorem kinds_methods {n : Text} {k : Kind} (h : (n, k) ∈ kinds) : n ∈ methods := by
  have h1 : (kinds.all fun x => decide (x.1 ∈ methods)) = true := by decide +kernel
  simp only [List.all_eq_true, decide_eq_true_eq] at h1
  exact h1 _ h

theorem init_attrs (lib : Library σ V E) (n : Text) :
    (init (some lib)).attrs.lookup n =
      if n ∈ methods ∧ (lib.attr ("al_".toList ++ n)).isSome then (lib.attr ("al_".toList ++ n)).map .lib else none := by
  have := foldl_library (fun n => lib.attr ("al_".toList ++ n)) publicMethods [] n
  simp only [methods_public] at this
  exact this

theorem init_version {lib : Library σ V E} {v : Text} (h : VersionIs lib v) :
    (init (some lib)).version = some v ∧ (init (some lib)).versionText = v := by
  unfold init
  rcases h with h | ⟨h, rfl⟩ <;> simp only [h, and_self]

/-! ### The interface -/

/-- **C72, no library.** Without the library, every function of the interface raises the same `RuntimeError` and nothing
happens. -/
theorem C72_no_library (n : Text) (hn : n ∈ methods) (args : List (Arg V)) (s : σ) :
    call (init (none : Option (Library σ V E))) n args s = (.error .notAvailable, s) := by
  have h := foldl_unavailable (σ := σ) (V := V) (E := E) publicMethods [] n
  rw [if_pos ((methods_public n).2 hn)] at h
  unfold call init
  simp only [h]

/-- **C72, library functions.** If the library has the function, it is called, once, with the same arguments; the result
and the exceptions are its own. -/
theorem C72_library (lib : Library σ V E) (n : Text) (hn : n ∈ methods) (f : Func σ V E)
    (hf : lib.attr ("al_".toList ++ n) = some f) (args : List (Arg V)) (s : σ) :
    (∀ st v s', f args s = (.ok (st, v), s') → call (init (some lib)) n args s = (.ok (.value st v), s')) ∧
    (∀ e s', f args s = (.error e, s') → call (init (some lib)) n args s = (.error (.library e), s')) := by
  have h := init_attrs lib n
  rw [if_pos ⟨hn, by rw [hf]; rfl⟩, hf, Option.map_some] at h
  unfold call
  simp only [h]
  constructor
  · intro st v s' e; rw [e]
  · intro e s' h; rw [h]

theorem call_class (lib : Library σ V E) {n : Text} {k : Kind} (hk : (n, k) ∈ kinds)
    (hf : lib.attr ("al_".toList ++ n) = none) (args : List (Arg V)) (s : σ) :
    call (init (some lib)) n args s = (match k with
      | .plain => .error .notImplemented
      | .least v => .error (.needsVersion v (init (some lib)).versionText)
      | .version => .ok (.text (init (some lib)).versionText), s) := by
  have h := init_attrs lib n
  rw [if_neg (by rw [hf]; simp)] at h
  unfold call
  simp only [h, class_lookup hk]
  cases k <;> rfl

/-- **C72, missing functions.** If the library does not have the function, the error says which version has it, and which
version the library is; nothing happens. -/
theorem C72_missing (lib : Library σ V E) (n least : Text) (hn : (n, least) ∈ since)
    (hf : lib.attr ("al_".toList ++ n) = none) (v : Text) (hv : VersionIs lib v) (args : List (Arg V)) (s : σ) :
    call (init (some lib)) n args s = (.error (.needsVersion least v), s) := by
  rw [call_class lib (mem_since hn) hf, (init_version hv).2]

/-- **C72, missing functions.** Functions that all supported versions have are reported as not implemented. -/
theorem C72_missing_always (lib : Library σ V E) (n : Text) (hn : n ∈ always)
    (hf : lib.attr ("al_".toList ++ n) = none) (args : List (Arg V)) (s : σ) :
    call (init (some lib)) n args s = (.error .notImplemented, s) :=
  call_class lib (mem_always hn) hf args s

/-- **C72, version.** `get_al_version` tells the version of the library. -/
theorem C72_version (lib : Library σ V E) (hf : lib.attr "al_get_al_version".toList = none) (v : Text) (hv : VersionIs lib v)
    (args : List (Arg V)) (s : σ) : call (init (some lib)) "get_al_version".toList args s = (.ok (.text v), s) := by
  rw [call_class lib mem_version hf, (init_version hv).2]

/-- **C72.** Other functions of the library are not reachable. -/
theorem C72_unknown (lib : Option (Library σ V E)) (n : Text) (hn : n ∉ methods) (args : List (Arg V)) (s : σ) :
    call (init lib) n args s = (.error .noAttribute, s) := by
  have h : (init lib).attrs.lookup n = none := by
    cases lib with
    | none =>
      have h := foldl_unavailable (σ := σ) (V := V) (E := E) publicMethods [] n
      rw [if_neg (by rw [methods_public]; exact hn)] at h
      exact h
    | some lib => rw [init_attrs, if_neg (fun h => hn h.1)]
  unfold call
  simp only [h, class_other hn]

/-- **C72, commands.** A command that needs a version goes on exactly if the library has at least this version. -/
theorem C72_guard (le : Text → Text → Bool) (lib : Option (Library σ V E)) (least : Text) :
    versionGuard le (init lib) least = true ↔ ∃ L v, lib = some L ∧ VersionIs L v ∧ le least v = true := by
  cases lib with
  | none => simp [versionGuard, init]
  | some L =>
    constructor
    · intro h
      refine ⟨L, (init (some L)).versionText, rfl, ?_, h⟩
      cases hv : L.version with
      | none => exact .inr ⟨hv, (init_version (.inr ⟨hv, rfl⟩)).2⟩
      | some v => exact .inl (by rw [hv, (init_version (.inl hv)).2])
    · rintro ⟨L', v, e, h, hl⟩
      cases e
      unfold versionGuard
      rw [(init_version h).1]
      exact hl

/-! ### Operations on contexts -/

theorem checked_iff (I : Interface σ V E) (n : Text) (args : List (Arg V)) (err : Int → Err E) (s s' : σ) (v : V) :
    checked I n args err s = (.ok v, s') ↔ call I n args s = (.ok (.value 0 v), s') := by
  unfold checked
  split
  · next st w s1 h =>
    rw [h]
    by_cases e : st = 0
    · subst e; simp
    · simp [e]
  · next t s1 h => rw [h]; simp
  · next e s1 h => rw [h]; simp

theorem ok_library {lib : Option (Library σ V E)} {n : Text} {args : List (Arg V)} {s s' : σ} {st : Int} {v : V} :
    call (init lib) n args s = (.ok (.value st v), s') ↔
      n ∈ methods ∧ ∃ L f, lib = some L ∧ L.attr ("al_".toList ++ n) = some f ∧ f args s = (.ok (st, v), s') := by
  constructor
  · intro h
    by_cases hn : n ∈ methods
    · refine ⟨hn, ?_⟩
      cases lib with
      | none => rw [C72_no_library n hn] at h; cases h
      | some L =>
        cases hf : L.attr ("al_".toList ++ n) with
        | none =>
          exfalso
          have : ∃ k, (n, k) ∈ kinds := by
            have h1 : (methods.all fun n => kinds.any fun x => decide (x.1 = n)) = true := by decide +kernel
            simp only [List.all_eq_true, List.any_eq_true, decide_eq_true_eq] at h1
            obtain ⟨⟨m, k⟩, hm, rfl⟩ := h1 n hn
            exact ⟨k, hm⟩
          obtain ⟨k, hk⟩ := this
          rw [call_class L hk hf] at h
          cases k <;> cases h
        | some f =>
          obtain ⟨h1, h2⟩ := C72_library L n hn f hf args s
          refine ⟨L, f, rfl, hf, ?_⟩
          rcases hr : f args s with ⟨r, s1⟩
          cases r with
          | error e => rw [h2 e s1 hr] at h; cases h
          | ok x =>
            obtain ⟨st', w⟩ := x
            rw [h1 st' w s1 hr] at h
            cases h
            rfl
    · rw [C72_unknown lib n hn] at h; cases h
  · rintro ⟨hn, L, f, rfl, hf, hr⟩
    exact (C72_library L n hn f hf args s).1 st v s' hr

theorem op_checked (I : Interface σ V E) (o : Op V) (s : σ) :
    ∃ n, n ∈ methods ∧ "al_".toList ++ n = o.asks.1 ∧
      o.run I s = checked I n o.asks.2.1 (if o.isStore then fun _ => .typeError else .lowlevel o.asks.2.2) s := by
  cases o
  · exact ⟨"begin_global_action".toList, by decide +kernel, rfl, rfl⟩
  · exact ⟨"begin_slice_action".toList, by decide +kernel, rfl, rfl⟩
  · exact ⟨"begin_arraystruct_action".toList, by decide +kernel, rfl, rfl⟩
  · exact ⟨"read_data".toList, by decide +kernel, rfl, rfl⟩
  · exact ⟨"write_data".toList, by decide +kernel, rfl, rfl⟩
  · exact ⟨"delete_data".toList, by decide +kernel, rfl, rfl⟩
  · exact ⟨"get_occurrences".toList, by decide +kernel, rfl, rfl⟩

/-- **C72, success.** An operation gives a value exactly if the library has the function and reports success (status
zero) when called with these arguments; then it is the value of the library, and the library was called once. -/
theorem C72_success (lib : Option (Library σ V E)) (o : Op V) (s s' : σ) (v : V) :
    o.run (init lib) s = (.ok v, s') ↔
      ∃ L f, lib = some L ∧ L.attr o.asks.1 = some f ∧ f o.asks.2.1 s = (.ok (0, v), s') := by
  obtain ⟨n, hn, e, h⟩ := op_checked (init lib) o s
  rw [h, checked_iff, ok_library, e]
  simp [hn]

/-- **C72, failure.** If the library reports another status, the error names the operation and the status. (Not for writing,
see `C72_write_limit`.) -/
theorem C72_failure (L : Library σ V E) (o : Op V) (ho : o.isStore = false) (f : Func σ V E) (hf : L.attr o.asks.1 = some f)
    (s s' : σ) (st : Int) (v : V) (hst : st ≠ 0) (h : f o.asks.2.1 s = (.ok (st, v), s')) :
    o.run (init (some L)) s = (.error (.lowlevel o.asks.2.2 st), s') := by
  obtain ⟨n, hn, e, hr⟩ := op_checked (init (some L)) o s
  rw [← e] at hf
  rw [hr, ho]
  unfold checked
  rw [(C72_library L n hn f hf _ s).1 st v s' h]
  simp [hst]

/-- **C72, limit.** If writing fails, the error is a `TypeError` that says nothing about the library. -/
theorem C72_write_limit (L : Library σ V E) (c : Int) (p t : Text) (x : V) (f : Func σ V E)
    (hf : L.attr "al_write_data".toList = some f) (s s' : σ) (st : Int) (v : V) (hst : st ≠ 0)
    (h : f [.ctx c, .text p, .text t, .other x] s = (.ok (st, v), s')) :
    (Op.store c p t x).run (init (some L)) s = (.error .typeError, s') := by
  show checked (init (some L)) "write_data".toList _ _ s = _
  unfold checked
  rw [(C72_library L "write_data".toList (by decide +kernel) f hf _ s).1 st v s' h]
  simp [hst]

/-- **C72, exceptions.** Exceptions of the library reach the caller. -/
theorem C72_exceptions (L : Library σ V E) (o : Op V) (f : Func σ V E) (hf : L.attr o.asks.1 = some f)
    (s s' : σ) (e : E) (h : f o.asks.2.1 s = (.error e, s')) : o.run (init (some L)) s = (.error (.library e), s') := by
  obtain ⟨n, hn, e1, hr⟩ := op_checked (init (some L)) o s
  rw [← e1] at hf
  rw [hr]
  unfold checked
  rw [(C72_library L n hn f hf _ s).2 e s' h]

/-- **C72, slices.** Unknown interpolation methods are rejected before the library is asked. -/
theorem C72_interpolation (I : Interface σ V E) (c : Int) (p : Text) (m : Int) (t : V) (i : Int) (s : σ) :
    sliceAction I c p m t i false s = (.error .unknownInterpolation, s) := rfl

/-- **C72, occurrences.** Listing occurrences with a library that cannot do it raises the error that names the version
needed, with any library that can the result is that of the library. -/
theorem C72_occurrences (L : Library σ V E) (c : Int) (ids : Text) (s : σ) :
    (L.attr "al_get_occurrences".toList = none → entryOccurrences (init (some L)) c ids s = (.error .needsOccurrences, s)) ∧
    (∀ f, L.attr "al_get_occurrences".toList = some f →
      entryOccurrences (init (some L)) c ids s = (Op.occurrences c ids).run (init (some L)) s) := by
  constructor
  · intro h
    unfold entryOccurrences listOccurrences checked
    rw [call_class L (mem_since (n := "get_occurrences".toList) (v := "5.1".toList) (by decide +kernel)) h]
  · intro f hf
    show entryOccurrences _ _ _ _ = listOccurrences _ _ _ _
    unfold entryOccurrences
    have key : ∀ e, (listOccurrences (init (some L)) c ids s).1 = .error e → (∀ a b, e ≠ .needsVersion a b) ∧ e ≠ .notImplemented := by
      intro e he
      unfold listOccurrences checked at he
      obtain ⟨h1, h2⟩ := C72_library L "get_occurrences".toList (by decide +kernel) f hf [.ctx c, .text ids] s
      rcases hr : f [.ctx c, .text ids] s with ⟨r, s1⟩
      cases r with
      | error x => rw [h2 x s1 hr] at he; cases he; exact ⟨fun _ _ h => (by cases h), fun h => (by cases h)⟩
      | ok x =>
        obtain ⟨st, w⟩ := x
        rw [h1 st w s1 hr] at he
        simp only at he
        split at he
        · cases he; exact ⟨fun _ _ h => (by cases h), fun h => (by cases h)⟩
        · cases he
    split
    · next h => rw [h] at key; exact absurd rfl ((key _ rfl).1 _ _)
    · next h => rw [h] at key; exact absurd rfl (key _ rfl).2
    · rfl

/-- **C72, positions.** After iterating to an index, the context is at this index if the library reports success, and
otherwise remembers where it was; the library is only called if the index changes, with the difference. -/
theorem C72_iterate (L : Library σ V E) (f : Func σ V E) (hf : L.attr "al_iterate_over_arraystruct".toList = some f)
    (c cur index : Int) (s : σ) :
    (index = cur → iterateTo (init (some L)) c cur index s = (.ok (), cur, s)) ∧
    (index ≠ cur → ∀ r s', f [.ctx c, .int (index - cur)] s = (r, s') →
      iterateTo (init (some L)) c cur index s = match r with
        | .ok (st, _) => if st = 0 then (.ok (), index, s')
            else (.error (.lowlevel "iterate over arraystruct".toList st), cur, s')
        | .error e => (.error (.library e), cur, s')) := by
  constructor
  · rintro rfl
    simp [iterateTo]
  · intro h r s' hr
    have h0 : index - cur ≠ 0 := by omega
    unfold iterateTo
    rw [if_pos h0]
    obtain ⟨h1, h2⟩ := C72_library L "iterate_over_arraystruct".toList (by decide +kernel) f hf [.ctx c, .int (index - cur)] s
    unfold checked
    cases r with
    | error x => rw [h2 x s' hr]
    | ok x =>
      obtain ⟨st, w⟩ := x
      rw [h1 st w s' hr]
      by_cases e : st = 0
      · simp [e]
      · simp [e]

/-- **C72, positions.** Steps add up: after `iterate`, the remembered index has changed by the step exactly if the library
reports success. -/
theorem C72_step (L : Library σ V E) (f : Func σ V E) (hf : L.attr "al_iterate_over_arraystruct".toList = some f)
    (c cur step : Int) (s : σ) (r : Except E (Int × V)) (s' : σ) (hr : f [.ctx c, .int step] s = (r, s')) :
    (iterate (init (some L)) c cur step s).2.2 = s' ∧
    ((∃ v, r = .ok (0, v)) → iterate (init (some L)) c cur step s = (.ok (), cur + step, s')) ∧
    ((¬ ∃ v, r = .ok (0, v)) → ∃ e, iterate (init (some L)) c cur step s = (.error e, cur, s')) := by
  obtain ⟨h1, h2⟩ := C72_library L "iterate_over_arraystruct".toList (by decide +kernel) f hf [.ctx c, .int step] s
  unfold iterate checked
  cases r with
  | error x => rw [h2 x s' hr]; simp
  | ok x =>
    obtain ⟨st, w⟩ := x
    rw [h1 st w s' hr]
    by_cases e : st = 0
    · simp [e]
    · simp [e]

/-- **C72, exceptions.** Exceptions of the library at the end of an action reach the caller, and a library that cannot end
actions is reported. -/
theorem C72_end (L : Library σ V E) (c : Int) (s : σ) :
    (∀ f e s', L.attr "al_end_action".toList = some f → f [.ctx c] s = (.error e, s') →
      endAction (init (some L)) c s = (.error (.library e), s')) ∧
    (L.attr "al_end_action".toList = none → endAction (init (some L)) c s = (.error .notImplemented, s)) := by
  constructor
  · intro f e s' hf h
    unfold endAction
    rw [(C72_library L "end_action".toList (by decide +kernel) f hf _ s).2 e s' h]
  · intro hf
    unfold endAction
    rw [C72_missing_always L "end_action".toList (by decide +kernel) hf]

/-- **C72, limit.** The status of the library at the end of an action is not looked at: a failure to finish an action (for
instance to store what was written) is not reported. -/
theorem C72_end_limit (L : Library σ V E) (f : Func σ V E) (hf : L.attr "al_end_action".toList = some f)
    (c : Int) (s s' : σ) (st : Int) (v : V) (h : f [.ctx c] s = (.ok (st, v), s')) :
    endAction (init (some L)) c s = (.ok (), s') := by
  unfold endAction
  rw [(C72_library L "end_action".toList (by decide +kernel) f hf _ s).1 st v s' h]

end

/-! ### Examples -/

/-- A library of version 5.0.0 that counts its calls; it has no `get_occurrences`, and fails to delete. -/
def countLib : Library Nat Int Text where
  version := none
  attr n := if n = "al_read_data".toList then some fun _ s => (.ok (0, 7), s + 1)
    else if n = "al_delete_data".toList then some fun _ s => (.ok (-3, 0), s + 1)
    else if n = "al_write_data".toList then some fun _ s => (.ok (-5, 0), s + 1)
    else if n = "al_iterate_over_arraystruct".toList then some fun _ s => (.ok (0, 0), s + 1)
    else if n = "al_end_action".toList then some fun _ s => (.error "lost".toList, s)
    else none

example : call (init (none : Option (Library Nat Int Text))) "read_data".toList [] 0 = (.error .notAvailable, 0) :=
  C72_no_library _ (by decide +kernel) _ _
example : call (init (some countLib)) "read_data".toList [.ctx 1] 4 = (.ok (.value 0 7), 5) :=
  (C72_library countLib _ (by decide +kernel) _ rfl _ _).1 _ _ _ rfl
example : call (init (some countLib)) "end_action".toList [.ctx 1] 4 = (.error (.library "lost".toList), 4) :=
  (C72_library countLib _ (by decide +kernel) _ rfl _ _).2 _ _ rfl
example : call (init (some countLib)) "get_occurrences".toList [] 4 =
    (.error (.needsVersion "5.1".toList "5.0.0".toList), 4) :=
  C72_missing countLib _ _ (by decide +kernel) rfl _ (.inr ⟨rfl, rfl⟩) _ _
example : call (init (some countLib)) "close_pulse".toList [] 4 = (.error .notImplemented, 4) :=
  C72_missing_always countLib _ (by decide +kernel) rfl _ _
example : call (init (some countLib)) "get_al_version".toList [] 4 = (.ok (.text "5.0.0".toList), 4) :=
  C72_version countLib rfl _ (.inr ⟨rfl, rfl⟩) _ _
example : call (init (some countLib)) "plugin".toList [] 4 = (.error .noAttribute, 4) :=
  C72_unknown _ _ (by decide +kernel) _ _
example : versionGuard (fun a b => decide (a = b)) (init (some countLib)) "5.0.0".toList = true :=
  (C72_guard _ _ _).2 ⟨countLib, _, rfl, .inr ⟨rfl, rfl⟩, by decide +kernel⟩
example : (Op.fetch 1 "a".toList [] 2 0).run (init (some countLib)) 4 = (.ok 7, 5) :=
  (C72_success _ _ _ _ _).2 ⟨countLib, _, rfl, rfl, rfl⟩
example : (Op.delete 1 "a".toList).run (init (some countLib)) 4 = (.error (.lowlevel "delete data at a".toList (-3)), 5) :=
  C72_failure countLib _ rfl _ rfl _ _ _ 0 (by decide) rfl
example : (Op.store 1 "a".toList [] 8).run (init (some countLib)) 4 = (.error .typeError, 5) :=
  C72_write_limit countLib _ _ _ _ _ rfl _ _ (-5) 0 (by decide) rfl
/-- A library that has lost its connection. -/
def lostLib : Library Nat Int Text := ⟨some "5.4.0".toList, fun _ => some fun _ s => (.error "lost".toList, s)⟩
example : (Op.delete 1 "a".toList).run (init (some lostLib)) 4 = (.error (.library "lost".toList), 4) :=
  C72_exceptions lostLib _ _ rfl _ _ _ rfl
/-- A library that fails every operation. -/
def failLib : Library Nat Int Text := ⟨some "5.4.0".toList, fun _ => some fun _ s => (.ok (-1, 0), s)⟩
example : endAction (init (some lostLib)) 1 4 = (.error (.library "lost".toList), 4) := (C72_end lostLib _ _).1 _ _ _ rfl rfl
example : endAction (init (some failLib)) 1 4 = (.ok (), 4) := C72_end_limit failLib _ rfl _ _ _ (-1) 0 rfl
example : entryOccurrences (init (some countLib)) 1 "eq".toList 4 = (.error .needsOccurrences, 4) :=
  (C72_occurrences countLib _ _ _).1 rfl
example : iterateTo (init (some countLib)) 1 2 5 4 = (.ok (), 5, 5) :=
  (C72_iterate countLib _ rfl _ _ _ _).2 (by decide) _ _ rfl
example : iterate (init (some countLib)) 1 2 1 4 = (.ok (), 3, 5) :=
  (C72_step countLib _ rfl _ _ _ _ _ _ rfl).2.1 ⟨_, rfl⟩

end Verif.Props
