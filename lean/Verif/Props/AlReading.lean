import Verif.Lemmas.AlReading
import Verif.Props.AlStack
import Verif.Props.AlSlice
/-
C51: reading does not write.
-/
namespace Verif.Props
open Verif.Ids Verif.Al Verif.AlSpec

/-- Operations that read: get, lazy get, access to a lazily loaded IDS, reading the version, close. -/
def ReadOnly {V : Type} : Op V → Prop
  | .put .. => False
  | .delete _ => False
  | _ => True

theorem readLazy_begin {V : Type} (k : Bool) (r : Range) (occ : Text) :
    ReadBegin (V := V) Reading ((if k then Range.all else r).begin occ) := by
  intro c x
  cases k <;> cases r <;> trivial

theorem readOnly_step {σ V : Type} [Value V] (L : LL σ V) (held : LSt σ V → Nat → Bool) (w : World σ V) (o : Op V)
    (ho : ReadOnly o) (hw : ∀ x ∈ w.ids, ReadNode Reading x.node) :
    OnlyReads Reading w.s (step L held w o).2.s ∧ ∀ x ∈ (step L held w o).2.ids, ReadNode Reading x.node := by
  cases o with
  | put => exact ho.elim
  | delete => exact ho.elim
  | get C I nbc k r m =>
    exact ⟨onlyReads_onEntry L neutral_reading (fun db => reading_alGet L C I nbc db k r m) w.s, hw⟩
  | version C => exact ⟨onlyReads_onEntry L neutral_reading (fun db => reading_alReadVersion L C db) w.s, hw⟩
  | close ok =>
    unfold step
    simp only
    split
    · exact ⟨onlyReads_refl _, hw⟩
    · rename_i db _
      have h := onlyReads_clear L neutral_reading w.s
      split
      · refine ⟨onlyReads_trans h ⟨[.finish db], rfl, ?_⟩, hw⟩
        intro e he
        simp at he; subst he; trivial
      · exact ⟨h, hw⟩
  | access k a =>
    unfold step
    simp only
    split
    · exact ⟨onlyReads_refl _, hw⟩
    · rename_i x hx
      have h := onlyReads_access L held x.env neutral_reading (reads_reading x.env) a [] x.node w.s (hw x (List.mem_of_getElem? hx))
      have key : ∀ y : LIds V, ReadNode Reading y.node → ∀ z ∈ w.ids.set k y, ReadNode Reading z.node := by
        intro y hy z hz
        rcases List.mem_or_eq_of_mem_set hz with h | h
        · exact hw z h
        · rw [h]; exact hy
      split <;> rename_i e <;> rw [e] at h <;> exact ⟨h.2, key _ h.1⟩
  | lazyGet C I nbc k r m =>
    unfold step
    simp only
    have h := onlyReads_onEntry L neutral_reading (p := fun db => (readMode L C db C.uda).andThen fun mode =>
      if !mode.known then .throw .assertion else .ret mode) (by
        intro c
        refine emits_andThen (reading_readMode L C c _) fun mode => ?_
        split
        · exact emits_throw _
        · exact emits_ret _) w.s
    split
    · rename_i e; rw [e] at h; exact ⟨h, hw⟩
    · rename_i mode s e
      rw [e] at h
      refine ⟨h, fun x hx => ?_⟩
      rcases List.mem_append.1 hx with h | h
      · exact hw x h
      · simp at h
        subst h
        exact ⟨⟨trivial, readLazy_begin k r C.occ⟩, readFields_fresh m⟩

theorem readOnly_steps {σ V : Type} [Value V] (L : LL σ V) (held : LSt σ V → Nat → Bool) : ∀ (ops : List (Op V))
    (w : World σ V), (∀ o ∈ ops, ReadOnly o) → (∀ x ∈ w.ids, ReadNode Reading x.node) → OnlyReads Reading w.s (steps L held w ops).s
  | [], w, _, _ => onlyReads_refl w.s
  | o :: r, w, ho, hw => by
    have h := readOnly_step L held w o (ho o (by simp)) hw
    exact onlyReads_trans h.1 (readOnly_steps L held r _ (fun o' h' => ho o' (by simp [h'])) h.2)

/-- **C51.** Reading does not write. In any history of gets, lazy gets, accesses to lazily loaded IDSs, reads of the
version and closes, whatever the low level does (it may fail at any call), no call to the low level writes or deletes
data or opens a context that allows this. -/
theorem C51_reading {σ V : Type} [Value V] (L : LL σ V) (held : LSt σ V → Nat → Bool) (ll : σ) (db : Ctx)
    (ops : List (Op V)) (h : ∀ o ∈ ops, ReadOnly o) :
    ∀ e ∈ (steps L held (opened ll db) ops).s.st.log, ¬ Changes e := by
  obtain ⟨seg, h1, h2⟩ := readOnly_steps L held ops (opened ll db) h (by simp [opened])
  intro e he
  rw [h1] at he
  simp [opened] at he
  exact not_changes_of_reading e (h2 e he)

/-- The history of the example in `AlStack` reads only, and makes fourteen calls or more. -/
example : ∀ e ∈ (steps flaky (fun _ _ => false) (opened (0, 100) 0) alHistory).s.st.log, ¬ Changes e :=
  C51_reading _ _ _ _ _ (by simp [alHistory, ReadOnly])
example : 14 ≤ (steps flaky (fun _ _ => false) (opened (0, 100) 0) alHistory).s.st.log.length := by decide +kernel

end Verif.Props

namespace Verif.Props
open Verif.Ids Verif.Al Verif.AlSpec

/-- The call writes or deletes data. -/
def Alters {V : Type} : Event V → Prop
  | .write _ _ _ _ => True
  | .delete _ _ => True
  | .begin _ (.aos _ _ n) _ => n ≠ 0
  | _ => False

/-- **C52.** `delete_data` never deletes part of an IDS: it raises, whatever the state of the entry and whatever the
low level does, and no data is written or deleted. -/
theorem C52_delete {σ V : Type} [Value V] (L : LL σ V) (held : LSt σ V → Nat → Bool) (w : World σ V) (C : Conf V) :
    (∃ e, (step L held w (.delete C)).1 = .error (.backend e)) ∧
    After w.s.st.log (step L held w (.delete C)).2.s.st.log fun e => ¬ Alters e := by
  have herr : ∀ (db : Ctx) (s : St σ V), ∃ e, (alDelete L C db s).1 = .error e := by
    intro db s
    unfold alDelete withAction llBegin
    rcases L.begin s.ll db (.global C.occ true false) with ⟨_ | ⟨c', n⟩, ll⟩
    · exact ⟨_, rfl⟩
    · exact ⟨_, rfl⟩
  have hem : ∀ db, Emits (σ := σ) (fun e : Event V => ¬ Alters e) (alDelete L C db) := fun db =>
    emits_with L _ _ (fun _ => id) (fun _ => id) fun _ _ => emits_throw _
  unfold step onEntry
  cases hdb : w.s.db with
  | none => exact ⟨⟨_, rfl⟩, [], by simp, by simp⟩
  | some db =>
    obtain ⟨e, he⟩ := herr db (clearCache L w.s).st
    obtain ⟨g1, h1, h2⟩ := onlyReads_clear L neutral_reading w.s
    obtain ⟨g2, h3, h4⟩ := hem db (clearCache L w.s).st
    refine ⟨⟨e, ?_⟩, g1 ++ g2, ?_, ?_⟩
    · simp only [lift, he, Res.of]
    · simp only [lift]
      rw [h3, h1, List.append_assoc]
    · intro x hx
      rcases List.mem_append.1 hx with h | h
      · have := h2 x h
        cases x with
        | begin c b r => cases b <;> simp_all [Alters, Reading]
        | _ => simp_all [Alters, Reading]
      · exact h4 x h

example : ∃ e, (step flaky (fun _ _ => false) (steps flaky (fun _ _ => false) (opened (0, 100) 0) alHistory)
    (.delete alConf)).1 = .error (.backend e) := (C52_delete _ _ _ _).1

end Verif.Props
