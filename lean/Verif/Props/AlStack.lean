import Verif.Lemmas.AlStack
/-
C39: contexts of the Access Layer are opened and closed in stack discipline, and none leaks. The theorems hold
for every low level, so for every point at which it fails.
-/
namespace Verif.Props
open Verif.Ids Verif.Al Verif.AlSpec

variable {σ V : Type} [Value V]

/-- **C39** At any time, for any history of operations and whatever calls of the low level failed: the calls
made so far kept the stack discipline, and the contexts that are open are exactly those kept for lazy
loading, above the data entry. -/
theorem C39_discipline (L : LL σ V) (held : LSt σ V → Nat → Bool) (ll : σ) (db : Ctx)
    (ops : List (Op V)) :
    calls [db] (steps L held (opened ll db) ops).s.st.log =
      some ((steps L held (opened ll db) ops).s.cache.map (·.ctx) ++
        (steps L held (opened ll db) ops).s.db.toList) :=
  (steps_spec L held ops (opened ll db) ⟨rfl, fun _ => rfl⟩).1

/-- **C39** After a get, put, delete or reading the version, no context remains open but the data entry,
whether or not the operation raised. -/
theorem C39_nothing_left (L : LL σ V) (held : LSt σ V → Nat → Bool) (ll : σ) (db : Ctx)
    (ops : List (Op V)) (o : Op V) (ho : OnEntry o)
    (hopen : (steps L held (opened ll db) ops).s.db ≠ none) :
    ∃ d, (steps L held (opened ll db) ops).s.db = some d ∧
      calls [db] (steps L held (opened ll db) (ops ++ [o])).s.st.log = some [d] := by
  obtain ⟨d, hd⟩ := Option.ne_none_iff_exists'.1 hopen
  have hs := steps_spec L held ops (opened ll db) (db0 := db) ⟨rfl, fun _ => rfl⟩
  have e : steps L held (opened ll db) (ops ++ [o]) =
      (step L held (steps L held (opened ll db) ops) o).2 := by
    generalize opened ll db = w
    clear hs hd hopen
    induction ops generalizing w with
    | nil => rfl
    | cons x r ih => exact ih _
  refine ⟨d, hd, ?_⟩
  have h1 := step_spec L held _ o hs
  have h2 := step_cache L held _ o hs ho hopen
  rw [e, h1.1, h2.1, h2.2, hd]
  rfl

/-- **C39** After closing the data entry no context is open. -/
theorem C39_closed (L : LL σ V) (held : LSt σ V → Nat → Bool) (ll : σ) (db : Ctx)
    (ops : List (Op V)) (hc : (steps L held (opened ll db) ops).s.db = none) :
    calls [db] (steps L held (opened ll db) ops).s.st.log = some [] := by
  have hs := steps_spec L held ops (opened ll db) (db0 := db) ⟨rfl, fun _ => rfl⟩
  rw [hs.1, hc, hs.2 hc]
  rfl

/-- **C39** A successful close, or one that raises, closes all lazy contexts. -/
theorem C39_close (L : LL σ V) (held : LSt σ V → Nat → Bool) (w : World σ V) (ok : Bool)
    (h : w.s.db ≠ none) : (step L held w (.close ok)).2.s.cache = [] ∧
      ((step L held w (.close ok)).2.s.db = none ↔ ok = true) := by
  obtain ⟨d, hd⟩ := Option.ne_none_iff_exists'.1 h
  unfold step
  simp only [hd]
  cases ok
  · exact ⟨rfl, by simp [clear_db, hd]⟩
  · exact ⟨rfl, by simp⟩

/-- **C39** Every context (other than the data entry itself) was ended as often as it was opened, once the
entry is closed; before, it was not ended more often than opened. -/
theorem C39_once (L : LL σ V) (held : LSt σ V → Nat → Bool) (ll : σ) (db : Ctx)
    (ops : List (Op V)) (c : Ctx) (hne : c ≠ db) :
    ended c (steps L held (opened ll db) ops).s.st.log ≤
      begun c (steps L held (opened ll db) ops).s.st.log ∧
    ((steps L held (opened ll db) ops).s.db = none →
      ended c (steps L held (opened ll db) ops).s.st.log =
        begun c (steps L held (opened ll db) ops).s.st.log) := by
  have hk := calls_count c _ _ _ (C39_discipline L held ll db ops)
  have h0 : [db].count c = 0 := by
    rw [List.count_eq_zero]; simp [hne]
  refine ⟨by omega, fun hc => ?_⟩
  have := calls_count c _ _ _ (C39_closed L held ll db ops hc)
  simp at this h0
  omega

/-! A low level that knows one array of structures with two elements, counts its contexts, and refuses the
`k`-th call to `read`. -/

def flaky : LL (Nat × Nat) Nat where
  begin s c b :=
    match b with
    | .aos _ _ _ => (some (s.1 + 1, 2), (s.1 + 1, s.2))
    | _ => (some (s.1 + 1, 0), (s.1 + 1, s.2))
  iterate s _ _ := (true, s)
  read s _ _ _ _ := (if s.2 = 0 then none else some (some 1), (s.1, s.2 - 1))
  write s _ _ _ _ := (true, s)
  delete s _ _ := (true, s)
  finish s _ := s

def alLeaf : LeafMeta := ⟨.int, 0, false⟩

def alInfo : Info Nat :=
  { dynamic := fun _ => false, ctxPath := fun p => p, timebase := fun _ => [], maxoccur := fun _ => 0,
    isDefault := fun _ v => v == 0 }

def alConf : Conf Nat :=
  { occ := ['c'], uda := false, mdsplus := false,
    modeOf := fun v => if v = some 1 then .homogeneous else .unknown,
    timePath := [['h']], timeMeta := alLeaf, versionPath := [['v']], versionMeta := alLeaf }

/-- An array of structures with two data nodes, inside another one. -/
def alMeta : MFields :=
  .cons ['a'] (.aos (.cons ['b'] (.aos (.cons ['x'] (.leaf alLeaf) (.cons ['y'] (.leaf alLeaf) .nil))) .nil)) .nil

instance natValue : Value Nat := ⟨fun v => v == 7, fun _ => 7, fun _ => rfl⟩

def alHistory : List (Op Nat) :=
  [.lazyGet alConf alInfo none false .all alMeta,
   .access 0 [(['a'], some 1), (['b'], some 0), (['x'], none)],
   .access 0 [(['a'], some 0), (['b'], some 1), (['x'], none)],
   .access 0 [(['a'], some 1), (['b'], some 1), (['y'], none)]]

/-- Three lazy contexts are open after these accesses. -/
example : (steps flaky (fun _ _ => false) (opened (0, 100) 0) alHistory).s.cache.length = 3 := by
  decide +kernel
example : (steps flaky (fun _ _ => false) (opened (0, 100) 0)
    (alHistory ++ [.get alConf alInfo none false .all alMeta, .close true])).s.db = none := by
  decide +kernel
/-- A get that raises in the middle: two nested contexts have to be ended. -/
example : (step flaky (fun _ _ => false) (opened (0, 4) 0)
    (.get alConf alInfo none false .all alMeta)).2.s.st.log.length = 14 := by
  decide +kernel

end Verif.Props
