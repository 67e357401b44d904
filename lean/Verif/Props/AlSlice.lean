import Verif.Lemmas.AlCalls
import Verif.Spec.AlCalls
import Verif.Props.AlStack
/-
C37: put_slice touches only time-dependent data. The theorems hold for every low level. `readMode` is the stored time mode.
-/
namespace Verif.Props
open Verif.Ids Verif.Al Verif.AlSpec Verif.DiffSpec Verif.TreeSpec
open Verif.Convert (names)

variable {σ V : Type} [Value V] (L : LL σ V) (C : Conf V) (I ei : Info V) (nbc : Option Nbc) (db : Ctx)

omit [Value V] in
theorem not_changes_of_reading (e : Event V) (h : Reading e) : ¬ Changes e := by
  cases e with
  | begin c b r => cases b <;> simp_all [Reading, Changes]
  | _ => simp_all [Reading, Changes]

/-- **C37** put_slice to an occurrence that has a time mode: nothing is deleted, and every value written
belongs to a time-dependent data node of the IDS, and is written to the low-level path of that node. This holds for all calls,
also if the operation raises in the end. -/
theorem C37_dynamic_only (mode : Mode) (m : MFields) (f : Fields V) (hw : WFFields f) (s s1 : St σ V)
    (stored : Mode) (hm : readMode L C db false s = (.ok stored, s1)) (hu : stored ≠ .unknown) :
    After s1.log (alPut L C I ei nbc db mode m true f s).2.log fun e =>
      (∀ c q, e ≠ .delete c q) ∧
      ∀ c q tb v, e = .write c q tb v → ∃ a, ValueAt (.struct f) a v ∧ I.dynamic (names a) = true ∧
        target ⟨I, mode, nbc⟩ (names a) = some (q, tb) := by
  by_cases he : stored = mode
  · subst he
    rw [alPut_slice_same L C I ei nbc db stored m f hm hu]
    obtain ⟨seg, h1, h2⟩ := emits_with L db (.slice C.occ true 0)
      (body := fun c _ => putFields L ⟨I, stored, nbc⟩ true C.mdsplus [] c f)
      (P := Writing (Sends ⟨I, stored, nbc⟩ true [] (.struct f)))
      (fun _ => trivial) (fun _ => trivial) (fun c _ => writing_putFields L _ true C.mdsplus [] c f hw) s1
    refine ⟨seg, h1, fun e he => ⟨fun c q e' => ?_, fun c q tb v e' => ?_⟩⟩
    · subst e'; exact h2 _ he
    · subst e'
      obtain ⟨a, x1, x2, x3⟩ := h2 _ he
      exact ⟨a, x1, by simpa using x3 rfl, by simpa using x2⟩
  · rw [alPut_slice_other L C I ei nbc db mode m f hm hu he]
    exact ⟨[], by simp, fun e he => by cases he⟩

/-- **C37** If put_slice succeeds, every time-dependent data node with a value is written (unless it, or a
node above it, is skipped because of the time mode or because the stored version does not have it). -/
theorem C37_all_written (mode : Mode) (m : MFields) (f : Fields V) (hw : WFFields f) (s s1 s2 : St σ V)
    (stored : Mode) (hm : readMode L C db false s = (.ok stored, s1)) (hu : stored ≠ .unknown)
    (hok : alPut L C I ei nbc db mode m true f s = (.ok (), s2)) (a : Addr) (v : V)
    (ha : ValueAt (.struct f) a v) (hd : I.dynamic (names a) = true)
    (ht : Transferred ⟨I, mode, nbc⟩ a) :
    ∃ c q tb, target ⟨I, mode, nbc⟩ (names a) = some (q, tb) ∧
      ∃ seg, s2.log = s1.log ++ seg ∧ .write c q tb v ∈ seg := by
  have hne : a ≠ [] := by
    rintro rfl
    obtain ⟨l, h, _⟩ := ha
    simp [Node.at] at h
  have hlen : 0 < a.length := List.length_pos_iff.2 hne
  have hta := ht a.length hlen (Nat.le_refl _)
  rw [List.take_length] at hta
  obtain ⟨⟨q, tb⟩, hq⟩ := Option.ne_none_iff_exists'.1 hta
  have hcov := covers_with L db (.slice C.occ true 0)
      (body := fun c _ => putFields L ⟨I, mode, nbc⟩ true C.mdsplus [] c f)
      (fun c _ => covers_putFields L ⟨I, mode, nbc⟩ true C.mdsplus [] c f hw)
  by_cases he : stored = mode
  · subst he
    rw [alPut_slice_same L C I ei nbc db stored m f hm hu] at hok
    obtain ⟨seg, h1, h2⟩ := hcov s1 () s2 hok
    obtain ⟨c, hc⟩ := h2 q tb v ⟨a, ha, fun k h0 hk => by simpa using ht k h0 hk, by simpa using hq,
      fun _ => by simpa using hd⟩
    exact ⟨c, q, tb, hq, seg, h1, hc⟩
  · rw [alPut_slice_other L C I ei nbc db mode m f hm hu he] at hok
    cases hok

/-- **C37** With another time mode than the stored one, put_slice raises without changing anything. -/
theorem C37_other_mode (mode : Mode) (m : MFields) (f : Fields V) (s s1 : St σ V)
    (stored : Mode) (hm : readMode L C db false s = (.ok stored, s1)) (hu : stored ≠ .unknown)
    (hne : stored ≠ mode) :
    (alPut L C I ei nbc db mode m true f s).1 = .error .entry ∧
    After s.log (alPut L C I ei nbc db mode m true f s).2.log fun e => ¬ Changes e := by
  obtain ⟨seg, h1, h2⟩ := reading_readMode L C db false s
  rw [hm] at h1
  rw [alPut_slice_other L C I ei nbc db mode m f hm hu hne]
  exact ⟨rfl, seg, h1, fun e he => not_changes_of_reading e (h2 e he)⟩

/-- **C37** If the stored time mode cannot be read, put_slice raises without changing anything. -/
theorem C37_unreadable (mode : Mode) (m : MFields) (f : Fields V) (s s1 : St σ V) (e : Err)
    (hm : readMode L C db false s = (.error e, s1)) :
    (alPut L C I ei nbc db mode m true f s).1 = .error e ∧
    After s.log (alPut L C I ei nbc db mode m true f s).2.log fun e => ¬ Changes e := by
  obtain ⟨seg, h1, h2⟩ := reading_readMode L C db false s
  rw [hm] at h1
  rw [alPut_slice_error L C I ei nbc db mode m f hm]
  exact ⟨rfl, seg, h1, fun e he => not_changes_of_reading e (h2 e he)⟩

/-- **C37** On an empty occurrence, put_slice does what put does. -/
theorem C37_empty_occurrence (mode : Mode) (m : MFields) (f : Fields V) (s s1 : St σ V)
    (hm : readMode L C db false s = (.ok .unknown, s1)) :
    alPut L C I ei nbc db mode m true f s = alPut L C I ei nbc db mode m false f s1 :=
  alPut_slice_empty L C I ei nbc db mode m f hm

omit [Value V] in
/-- **C37** Reading (get, get_slice, get_sample, reading the version) changes nothing. -/
theorem C37_reading (constant : Bool) (r : Range) (m : MFields) (s : St σ V) :
    (After s.log (alGet L C I nbc db constant r m s).2.log fun e => ¬ Changes e) ∧
    (After s.log (alReadVersion L C db s).2.log fun e => ¬ Changes e) := by
  obtain ⟨g1, h1, h2⟩ := reading_alGet L C I nbc db constant r m s
  obtain ⟨g2, h3, h4⟩ := reading_alReadVersion L C db s
  exact ⟨⟨g1, h1, fun e he => not_changes_of_reading e (h2 e he)⟩,
    ⟨g2, h3, fun e he => not_changes_of_reading e (h4 e he)⟩⟩

/-! An IDS with a static and a dynamic data node in an array of structures. -/

def alDyn : Info Nat := { alInfo with dynamic := fun p => p.getLast? = some ['y'] }

def alTree : Fields Nat :=
  .present ['a'] (.aos (.cons ['x'] (.leaf alLeaf) (.cons ['y'] (.leaf alLeaf) .nil))
    (.cons (.present ['x'] (.leaf alLeaf (some 3)) (.present ['y'] (.leaf alLeaf (some 4)) .nil))
    (.cons (.present ['x'] (.leaf alLeaf none) (.present ['y'] (.leaf alLeaf (some 5)) .nil)) .nil))) .nil

example : WFFields alTree := by simp [alTree, WFFields, WF, WFElems, WFMFields, WFMeta, mnames, Fields.names]
example : (readMode flaky alConf 0 false ⟨(0, 100), []⟩).1 = .ok .homogeneous := rfl
/-- Two values are written. -/
example : (alPut flaky alConf alDyn alDyn none 0 .homogeneous alMeta true alTree ⟨(0, 100), []⟩).2.log.countP
    (fun e => match e with | .write _ _ _ _ => true | _ => false) = 2 := by decide +kernel
example : (alPut flaky alConf alDyn alDyn none 0 .homogeneous alMeta true alTree ⟨(0, 100), []⟩).1 = .ok () := rfl
example : ValueAt (.struct alTree) [(['a'], some 1), (['y'], none)] 5 := ⟨alLeaf, rfl, rfl⟩

end Verif.Props
