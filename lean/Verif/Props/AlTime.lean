import Verif.Spec.AlTime
import Verif.Props.AlReading
/-
C54: paths and time bases passed to the low level.
-/
namespace Verif.Props
open Verif.Ids Verif.Al Verif.AlSpec

section
variable {σ V : Type}

theorem target_placed {E : Env V} {p q : Path} {tb : Text} (h : target E p = some (q, tb)) : Placed E q tb := by
  have mode : ∀ own, InMode E.mode own (if own ≠ [] && E.mode = .homogeneous then rootTime else own) := by
    intro own
    by_cases ho : own = []
    · subst ho; exact .static rfl
    · by_cases hm : E.mode = .homogeneous
      · have : (if own ≠ [] && E.mode = .homogeneous then rootTime else own) = "/time".toList := by
          simp [ho, hm, rootTime]
        rw [this]; exact .shared ho hm
      · have : (if own ≠ [] && E.mode = .homogeneous then rootTime else own) = own := by simp [hm]
        rw [this]; exact .own ho hm
  unfold target at h
  split at h
  · cases h
  · next hd =>
    have hd' : ¬ (E.mode = .independent ∧ E.info.dynamic p = true) := by simpa using hd
    simp only at h
    split at h
    · cases h
    · next r q' own hr =>
      cases h
      refine ⟨p, own, ?_, mode own, hd'⟩
      split at hr
      · next hn => cases hr; exact .plain hn
      · next n hn =>
        split at hr
        · cases hr
        · next x hx => cases hr; exact .mapped hn hx
        · next hx =>
          split at hr
          · cases hr
          · next hc => cases hr; exact .unmapped hn hx (by simpa using hc)

theorem neutral_based (E : Env V) : Neutral (WellBased E) := ⟨fun _ => trivial, fun _ _ _ => trivial⟩
theorem reads_based (E : Env V) : ReadsBy E (WellBased E) :=
  ⟨fun _ _ _ _ h => target_placed h, fun _ _ _ _ _ h => target_placed h⟩

variable (L : LL σ V) (E : Env V)

mutual
theorem based_getNode (p : Path) (c : Ctx) (m : Meta) : Emits (WellBased E) (getNode L E p c m) := by
  cases m with
  | leaf l =>
    unfold getNode
    split
    · exact emits_ret _
    · next h => exact emits_andThen (emits_read L _ _ _ _ (target_placed h)) fun _ => emits_ret _
  | struct m =>
    unfold getNode
    split
    · exact emits_ret _
    · exact emits_andThen (based_getFields p c m) fun _ => emits_ret _
  | aos m =>
    unfold getNode
    split
    · exact emits_ret _
    · next h =>
      refine emits_with L _ _ (fun _ => target_placed h) (fun _ => trivial) fun c' n => ?_
      split
      · exact emits_ret _
      · exact emits_andThen (emits_times (emits_andThen (based_getFields p c' m) fun _ =>
          emits_andThen (emits_iterate L _ _ fun _ => trivial) fun _ => emits_ret _) _) fun _ => emits_ret _
theorem based_getFields (p : Path) (c : Ctx) (m : MFields) : Emits (WellBased E) (getFields L E p c m) := by
  cases m with
  | nil => unfold getFields; exact emits_ret _
  | cons n m r =>
    unfold getFields
    exact emits_andThen (based_getNode _ c m) fun _ => emits_andThen (based_getFields p c r) fun _ =>
      emits_ret _
end

mutual
theorem based_deleteNode (E' : Env V) (p : Path) (c : Ctx) (m : Meta) :
    Emits (WellBased E) (deleteNode L E' p c m) := by
  cases m with
  | struct m => unfold deleteNode; exact based_deleteFields E' p c m
  | leaf l => unfold deleteNode; exact emits_delete L _ _ trivial
  | aos m => unfold deleteNode; exact emits_delete L _ _ trivial
theorem based_deleteFields (E' : Env V) (p : Path) (c : Ctx) (m : MFields) :
    Emits (WellBased E) (deleteFields L E' p c m) := by
  cases m with
  | nil => unfold deleteFields; exact emits_ret _
  | cons n m r =>
    unfold deleteFields
    exact emits_andThen (based_deleteNode E' _ c m) fun _ => based_deleteFields E' p c r
end

variable [Value V] (slice verify : Bool)

mutual
theorem based_putNode (p : Path) (c : Ctx) (x : Node V) : Emits (WellBased E) (putNode L E slice verify p c x) := by
  cases x with
  | leaf l v =>
    unfold putNode
    split
    · exact emits_ret _
    · next h =>
      split
      · exact emits_ret _
      · split
        · exact emits_ret _
        · exact emits_write L _ _ _ _ (target_placed h)
  | struct f =>
    unfold putNode
    split
    · exact emits_ret _
    · exact based_putFields p c f
  | aos m e =>
    unfold putNode
    split
    · exact emits_ret _
    · next h =>
      split
      · exact emits_throw _
      · exact emits_with L _ _ (fun _ => target_placed h) (fun _ => trivial) fun c' _ => based_putElems p c' e
theorem based_putFields (p : Path) (c : Ctx) (f : Fields V) :
    Emits (WellBased E) (putFields L E slice verify p c f) := by
  cases f with
  | nil => unfold putFields; exact emits_ret _
  | absent n m r => unfold putFields; exact based_putFields p c r
  | present n x r =>
    unfold putFields
    split
    · exact emits_andThen (based_putNode (p ++ [n]) c x) fun _ => based_putFields p c r
    · exact based_putFields p c r
theorem based_putElems (p : Path) (c : Ctx) (e : Elems V) :
    Emits (WellBased E) (putElems L E slice verify p c e) := by
  cases e with
  | nil => unfold putElems; exact emits_ret _
  | cons f r =>
    unfold putElems
    exact emits_andThen (based_putFields p c f) fun _ =>
      emits_andThen (emits_iterate L _ _ fun _ => trivial) fun _ => based_putElems p c r
end

end

section
variable {σ V : Type} (L : LL σ V) (C : Conf V) (I : Info V) (nbc : Option Nbc) (db : Ctx)

/-- **C54.** After get has read the time mode, every node is read, and every array of structures is opened,
with its own low-level path (the one of the version map, if it has one) and its own time base, which is `/time`
for all time-dependent nodes if the IDS has homogeneous time. Nodes that depend on time are not read in
time-independent IDSs. Whatever the low level does. -/
theorem C54_get (constant : Bool) (r : Range) (m : MFields) (s s1 : St σ V) (mode : Mode)
    (h : readMode L C db C.uda s = (.ok mode, s1)) :
    After s1.log (alGet L C I nbc db constant r m s).2.log (WellBased ⟨I, mode, nbc⟩) := by
  unfold alGet
  rw [andThen_ok h]
  split
  · exact ⟨[], (List.append_nil _).symm, fun _ h => by cases h⟩
  · exact emits_with L _ _ (fun _ => by cases constant <;> cases r <;> trivial) (fun _ => trivial)
      (fun c _ => based_getFields L _ _ c m) s1

variable [Value V]

/-- **C54.** The same for put: everything is written with the path and time base with which get reads it. -/
theorem C54_put (ei : Info V) (mode : Mode) (m : MFields) (f : Fields V) (s : St σ V) :
    After s.log (alPut L C I ei nbc db mode m false f s).2.log (WellBased ⟨I, mode, nbc⟩) := by
  unfold alPut
  refine emits_andThen (emits_ret false) (fun b => ?_) s
  refine emits_andThen ?_ fun _ => ?_
  · split
    · exact emits_ret _
    · exact emits_with L _ _ (fun _ => trivial) (fun _ => trivial) fun c _ => based_deleteFields L _ _ _ _ _
  · exact emits_with L _ _ (fun _ => by cases b <;> trivial) (fun _ => trivial) fun c _ =>
      based_putFields L _ _ _ _ _ _

/-- **C54.** The same for put_slice, after the stored time mode was read. -/
theorem C54_put_slice (ei : Info V) (mode stored : Mode) (m : MFields) (f : Fields V) (s s1 : St σ V)
    (h : readMode L C db false s = (.ok stored, s1)) :
    After s1.log (alPut L C I ei nbc db mode m true f s).2.log (WellBased ⟨I, mode, nbc⟩) := by
  by_cases hu : stored = .unknown
  · subst hu
    rw [alPut_slice_empty L C I ei nbc db mode m f h]
    exact C54_put L C I nbc db ei mode m f s1
  · by_cases hs : stored = mode
    · subst hs
      rw [alPut_slice_same L C I ei nbc db stored m f h hu]
      exact emits_with L _ _ (fun _ => trivial) (fun _ => trivial) (fun c _ => based_putFields L _ _ _ _ _ _) s1
    · rw [alPut_slice_other L C I ei nbc db mode m f h hu hs]
      exact ⟨[], (List.append_nil _).symm, fun _ h => by cases h⟩

end

section
variable {σ V : Type} [Value V] (L : LL σ V) (held : LSt σ V → Nat → Bool)

/-- All lazy contexts of lazily loaded IDSs were made with paths and time bases of nodes. -/
def LazyBased (w : World σ V) : Prop := ∀ x ∈ w.ids, ReadNode (WellBased x.env) x.node

theorem lazyBased_step (w : World σ V) (o : Op V) (hw : LazyBased w) : LazyBased (step L held w o).2 := by
  cases o with
  | get => exact hw
  | version => exact hw
  | put => exact hw
  | delete => exact hw
  | close ok =>
    unfold step
    simp only
    split
    · exact hw
    · split <;> exact hw
  | access k a =>
    unfold step
    simp only
    split
    · exact hw
    · rename_i x hx
      have h := onlyReads_access L held x.env (neutral_based x.env) (reads_based x.env) a [] x.node w.s
        (hw x (List.mem_of_getElem? hx))
      have key : ∀ y : LNode V, ReadNode (WellBased x.env) y →
          ∀ z ∈ w.ids.set k { x with node := y }, ReadNode (WellBased z.env) z.node := by
        intro y hy z hz
        rcases List.mem_or_eq_of_mem_set hz with h | h
        · exact hw z h
        · rw [h]; exact hy
      split <;> rename_i e <;> rw [e] at h <;> exact key _ h.1
  | lazyGet C I nbc k r m =>
    unfold step
    simp only
    split
    · exact hw
    · intro x hx
      rcases List.mem_append.1 hx with h | h
      · exact hw x h
      · simp at h
        subst h
        exact ⟨⟨trivial, fun c x => by cases k <;> cases r <;> trivial⟩, readFields_fresh m⟩

theorem lazyBased_steps : ∀ (ops : List (Op V)) (w : World σ V), LazyBased w → LazyBased (steps L held w ops)
  | [], _, hw => hw
  | o :: r, w, hw => lazyBased_steps r _ (lazyBased_step L held w o hw)

/-- No operation changes what lazily loaded IDSs know. -/
theorem env_step (w : World σ V) (o : Op V) (k : Nat) (E : Env V) (h : (w.ids[k]?).map (·.env) = some E) :
    ((step L held w o).2.ids[k]?).map (·.env) = some E := by
  cases o with
  | get => exact h
  | version => exact h
  | put => exact h
  | delete => exact h
  | close ok =>
    unfold step
    simp only
    split
    · exact h
    · split <;> exact h
  | access j a =>
    unfold step
    simp only
    split
    · exact h
    · rename_i x hx
      have key : ∀ y : LNode V, ((w.ids.set j { x with node := y })[k]?).map (·.env) = some E := by
        intro y
        by_cases hj : j = k
        · subst hj
          rw [hx] at h
          have hl : j < w.ids.length := (List.getElem?_eq_some_iff.1 hx).1
          simpa [List.getElem?_set, hl] using h
        · rw [List.getElem?_set, if_neg hj]; exact h
      split <;> exact key _
  | lazyGet C I nbc c r m =>
    unfold step
    simp only
    split
    · exact h
    · have hl : k < w.ids.length := by
        cases hk : w.ids[k]? with
        | none => rw [hk] at h; cases h
        | some x => exact (List.getElem?_eq_some_iff.1 hk).1
      simp only
      rw [List.getElem?_append_left hl]; exact h

theorem env_steps (k : Nat) (E : Env V) : ∀ (ops : List (Op V)) (w : World σ V),
    (w.ids[k]?).map (·.env) = some E → ((steps L held w ops).ids[k]?).map (·.env) = some E
  | [], _, h => h
  | o :: r, w, h => env_steps k E r _ (env_step L held w o k E h)

/-- **C54.** The same for lazy loading: after any operations on an open entry, a lazily loaded IDS is requested
and then, after any further operations, one of its nodes is accessed. All calls made then use the path and time base
of a node, for the time mode that was read when the IDS was requested. -/
theorem C54_lazy (ll : σ) (db : Ctx) (before later : List (Op V)) (C : Conf V) (I : Info V) (nbc : Option Nbc)
    (constant : Bool) (r : Range) (m : MFields) (a : Addr) (w w1 w2 : World σ V)
    (h0 : w = steps L held (opened ll db) before)
    (h1 : step L held w (.lazyGet C I nbc constant r m) = (.done, w1)) (h2 : w2 = steps L held w1 later) :
    ∃ c mode s', w.s.db = some c ∧ readMode L C c C.uda (clearCache L w.s).st = (.ok mode, s') ∧
      After w2.s.st.log (step L held w2 (.access w.ids.length a)).2.s.st.log (WellBased ⟨I, mode, nbc⟩) := by
  have hb : LazyBased w := h0 ▸ lazyBased_steps L held before _ (by intro x hx; simp [opened] at hx)
  have hb1 : LazyBased w1 := by
    have := lazyBased_step L held w (.lazyGet C I nbc constant r m) hb
    rw [h1] at this; exact this
  have hb2 : LazyBased w2 := h2 ▸ lazyBased_steps L held later _ hb1
  unfold step at h1
  simp only at h1
  split at h1
  · cases h1
  · next mode s he =>
    cases h1
    unfold onEntry at he
    split at he
    · cases he
    · next c hc =>
      unfold lift at he
      simp only at he
      rcases hr : readMode L C c C.uda (clearCache L w.s).st with ⟨_ | md, s'⟩
      · rw [andThen_error hr] at he; cases he
      · rw [andThen_ok hr] at he
        by_cases hk : (!md.known) = true
        · rw [if_pos hk] at he; cases he
        · rw [if_neg hk] at he
          have hmd : md = mode := by
            have := congrArg Prod.fst he
            simpa [M.ret] using this
          subst hmd
          refine ⟨c, md, s', hc, hr, ?_⟩
          have he2 := env_steps L held w.ids.length ⟨I, md, nbc⟩ later
            { s := { s with nextLazy := s.nextLazy + 1 }
              ids := w.ids ++ [lazyIds C I nbc constant r m md s] } (by simp [lazyIds])
          rw [← h2] at he2
          cases hx : w2.ids[w.ids.length]? with
          | none => rw [hx] at he2; cases he2
          | some x =>
            rw [hx] at he2
            simp only [Option.map_some, Option.some.injEq] at he2
            have hrd := hb2 x (List.mem_of_getElem? hx)
            have h := onlyReads_access L held x.env (neutral_based x.env) (reads_based x.env) a [] x.node w2.s hrd
            unfold step
            simp only [hx]
            rw [he2] at h ⊢
            split <;> rename_i e <;> rw [e] at h <;> exact h.2

end

/-! An IDS with a time-dependent node `a/b/y`, whose own time base is `b/time`. -/

def alTimed : Info Nat :=
  { alInfo with
    dynamic := fun p => p.getLast? = some ['y']
    timebase := fun p => if p.getLast? = some ['y'] then "b/time".toList else [] }

def basesOf (l : List (Event Nat)) : List (Name × Text) :=
  l.filterMap fun e => match e with
    | .read _ q tb => q.getLast?.map (·, tb)
    | .write _ q tb _ => q.getLast?.map (·, tb)
    | _ => none

/-- Get of an IDS with homogeneous time. -/
example : (basesOf (alGet flaky alConf alTimed none 0 false .all alMeta ⟨(0, 100), []⟩).2.log).take 3 =
    [(['h'], []), (['x'], []), (['y'], "/time".toList)] := by decide +kernel
example : (readMode flaky alConf 0 alConf.uda ⟨(0, 100), []⟩).1 = .ok .homogeneous := rfl
/-- Put of an IDS with homogeneous time, and with heterogeneous time. -/
example : basesOf (alPut flaky alConf alTimed alTimed none 0 .homogeneous alMeta false alTree ⟨(0, 100), []⟩).2.log =
    [(['x'], []), (['y'], "/time".toList), (['y'], "/time".toList)] := by decide +kernel
example : basesOf (alPut flaky alConf alTimed alTimed none 0 .heterogeneous alMeta false alTree ⟨(0, 100), []⟩).2.log =
    [(['x'], []), (['y'], "b/time".toList), (['y'], "b/time".toList)] := by decide +kernel
/-- Lazy loading. -/
example : basesOf (steps flaky (fun _ _ => false) (opened (0, 100) 0)
    [.lazyGet alConf alTimed none false .all alMeta,
     .access 0 [(['a'], some 1), (['b'], some 0), (['y'], none)]]).s.st.log =
    [(['h'], []), (['y'], "/time".toList)] := by decide +kernel
example : (match (step flaky (fun _ _ => false) (opened (0, 100) 0)
    (.lazyGet alConf alTimed none false .all alMeta)).1 with | .done => true | _ => false) = true := by decide +kernel

end Verif.Props
