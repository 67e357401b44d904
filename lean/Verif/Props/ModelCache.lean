import Verif.Model.ModelCache
/-! C44, C45: cached MDSplus models and definition files. -/
namespace Verif.Props
open Verif.ModelCache

/-! ### C44 -/

/-- The directory holds a complete model. -/
def CompleteModel (d : Dir) : Prop := ∃ c, d = some c ∧ ∀ f ∈ required, f ∈ c

/-- The directory does not exist, or is empty, or holds a complete model. -/
def CleanDir (d : Dir) : Prop := d = none ∨ d = some [] ∨ CompleteModel d

/-- The builds that succeed or fail in a schedule: no process raises while it builds, and what is
built is a complete model. -/
def GoodBuilds (sched : Schedule) : Prop :=
  ∀ i m, (i, m) ∈ sched → ∃ c, m = some c ∧ ∀ f ∈ required, f ∈ c

/-- What holds for a process: if it has seen a file or has moved its model, the model is complete;
and no process removes the directory. -/
def GoodPC (d : Dir) : PC → Prop
  | .firstFile k | .waitFile _ k => k < total ∧ (k ≠ 0 → CompleteModel d)
  | .secondFile k | .listFile k | .thirdFile k => k < total
  | .build => d ≠ none
  | .replace t => d ≠ none ∧ ∀ f ∈ required, f ∈ t
  | .lastFile k => k < total ∧ CompleteModel d
  | .remove => False
  | .removing _ => False
  | .returned => CompleteModel d
  | _ => True

theorem complete_isFile {d : Dir} (h : CompleteModel d) {k : Nat} (hk : k < total) :
    isFile d k = true := by
  obtain ⟨c, rfl, hc⟩ := h
  have : k ∈ required := by
    unfold total at hk
    unfold required
    rcases k with _ | _ | _ | _ | _ | k
    all_goals simp
    omega
  simp [isFile, hc k this]

theorem clean_isFile {d : Dir} (h : CleanDir d) {k : Nat} (hf : isFile d k = true) :
    CompleteModel d := by
  rcases h with rfl | rfl | h
  · simp [isFile] at hf
  · simp [isFile] at hf
  · exact h

theorem waitStart_good {d : Dir} (n : Nat) : GoodPC d (waitStart n) := by
  cases n with
  | zero => trivial
  | succ n => exact ⟨by decide, by simp⟩

/-- One step keeps the directory clean, does not remove it, does not damage a complete model, and
keeps the process good. -/
theorem next_good {t : Timeout} {d : Dir} {m : Option (List Nat)} {pc : PC}
    (hd : CleanDir d) (hp : GoodPC d pc) (hm : ∃ c, m = some c ∧ ∀ f ∈ required, f ∈ c) :
    CleanDir (next t d m pc).1 ∧ (d ≠ none → (next t d m pc).1 ≠ none) ∧
    (CompleteModel d → CompleteModel (next t d m pc).1) ∧
    GoodPC (next t d m pc).1 (next t d m pc).2 := by
  have keep : ∀ pc', GoodPC d pc' → CleanDir d ∧ (d ≠ none → d ≠ none) ∧
      (CompleteModel d → CompleteModel d) ∧ GoodPC d pc' := fun _ h => ⟨hd, id, id, h⟩
  cases pc with
  | firstDir =>
    simp only [next]; split
    · exact keep _ ⟨by decide, by simp⟩
    · exact keep _ trivial
  | firstFile k =>
    simp only [next]; split
    · next hf =>
      have := clean_isFile hd hf
      split
      · exact keep _ this
      · exact keep _ ⟨by have := hp.1; omega, fun _ => this⟩
    · exact keep _ trivial
  | secondDir =>
    simp only [next]; split
    · exact keep _ (show 0 < total by decide)
    · exact keep _ trivial
  | secondFile k =>
    simp only [next]; split
    · split
      · exact keep _ trivial
      · exact keep _ (show k + 1 < total by have : k < total := hp; omega)
    · exact keep _ (waitStart_good t)
  | waitFile n k =>
    simp only [next]; split
    · next hf =>
      have := clean_isFile hd hf
      split
      · exact keep _ this
      · exact keep _ ⟨by have := hp.1; omega, fun _ => this⟩
    · exact keep _ (waitStart_good n)
  | listDir =>
    simp only [next]; split
    · exact ⟨.inl rfl, by simp, id, trivial⟩
    · split
      · exact ⟨hd, by simp, id, show 0 < total by decide⟩
      · exact ⟨hd, by simp, id, trivial⟩
  | listFile k =>
    simp only [next]; split
    · split
      · exact keep _ trivial
      · exact keep _ (show k + 1 < total by have : k < total := hp; omega)
    · exact keep _ trivial
  | thirdDir =>
    simp only [next]; split
    · exact keep _ trivial
    · exact keep _ (show 0 < total by decide)
  | thirdFile k =>
    simp only [next]; split
    · split
      · exact keep _ trivial
      · exact keep _ (show k + 1 < total by have : k < total := hp; omega)
    · exact keep _ trivial
  | makeDir =>
    simp only [next]; split
    · exact ⟨.inr (.inl rfl), by simp, fun ⟨c, h, _⟩ => by simp at h, by simp [GoodPC]⟩
    · exact ⟨hd, by simp, id, by simp [GoodPC]⟩
  | build =>
    obtain ⟨c, rfl, hc⟩ := hm
    exact keep _ ⟨hp, hc⟩
  | replace tmp =>
    have hn : CompleteModel (some tmp) := ⟨tmp, rfl, hp.2⟩
    simp only [next]; split
    · exact ⟨.inr (.inr hn), by simp, fun _ => hn, by decide, hn⟩
    · exact ⟨.inr (.inr hn), by simp, fun _ => hn, by decide, hn⟩
    · next f c =>
      have : CompleteModel (some (f :: c)) := by
        rcases hd with h | h | h
        · simp at h
        · simp at h
        · exact h
      exact ⟨hd, by simp, id, by decide, this⟩
  | lastFile k =>
    have hf := complete_isFile hp.2 hp.1
    simp only [next, hf, if_true]
    split
    · exact keep _ hp.2
    · exact keep _ ⟨by have := hp.1; omega, hp.2⟩
  | remove => exact hp.elim
  | removing l => exact hp.elim
  | returned => exact keep _ hp
  | raised => exact keep _ trivial

theorem good_mono {d d' : Dir} {pc : PC} (h1 : d ≠ none → d' ≠ none)
    (h2 : CompleteModel d → CompleteModel d') (h : GoodPC d pc) : GoodPC d' pc := by
  cases pc with
  | firstFile k => exact ⟨h.1, fun e => h2 (h.2 e)⟩
  | waitFile n k => exact ⟨h.1, fun e => h2 (h.2 e)⟩
  | build => exact h1 h
  | replace t => exact ⟨h1 h.1, h.2⟩
  | lastFile k => exact ⟨h.1, h2 h.2⟩
  | returned => exact h2 h
  | firstDir => exact h
  | secondDir => exact h
  | secondFile k => exact h
  | listDir => exact h
  | listFile k => exact h
  | thirdDir => exact h
  | thirdFile k => exact h
  | makeDir => exact h
  | remove => exact h
  | removing l => exact h
  | raised => exact h

theorem run_good {t : Timeout} : ∀ (sched : Schedule) (s : State), GoodBuilds sched →
    CleanDir s.dir → (∀ i, GoodPC s.dir (s.pcs i)) →
    CleanDir (s.run t sched).dir ∧ (CompleteModel s.dir → CompleteModel (s.run t sched).dir) ∧
    ∀ i, GoodPC (s.run t sched).dir ((s.run t sched).pcs i)
  | [], s, _, hd, hp => ⟨hd, id, hp⟩
  | (i, m) :: r, s, hs, hd, hp => by
    obtain ⟨a, b, c, e⟩ := next_good (t := t) hd (hp i) (hs i m (by simp))
    have hp' : ∀ j, GoodPC (s.step t i m).dir ((s.step t i m).pcs j) := by
      intro j
      unfold State.step
      simp only
      split
      · exact e
      · exact good_mono b c (hp j)
    obtain ⟨x, y, z⟩ := run_good r (s.step t i m) (fun j k h => hs j k (by simp [h])) a hp'
    exact ⟨x, fun h => y (c h), z⟩

theorem run_append {t : Timeout} : ∀ (a b : Schedule) (s : State),
    s.run t (a ++ b) = (s.run t a).run t b
  | [], _, _ => rfl
  | (i, m) :: a, b, s => run_append a b (s.step t i m)

/-- **C44 (partial).** Any number of processes ask for the same model, their steps are interleaved
arbitrarily, and each of them may be killed at any point; none raises an exception while it builds
its model (`GoodBuilds`), and the directory is not left damaged by something else (`CleanDir`).
Whenever a process returns, the directory holds a complete model, and this stays so for ever.
Without `GoodBuilds` this is false, see `C44_failed_build_removes_model`. -/
theorem C44_returned_model_complete_partial (t : Timeout) (d : Dir) (hd : CleanDir d)
    (sched later : Schedule) (hs : GoodBuilds (sched ++ later)) (i : Nat)
    (hr : ((initial d).run t sched).pcs i = .returned) :
    CompleteModel ((initial d).run t sched).dir ∧
    CompleteModel ((initial d).run t (sched ++ later)).dir := by
  have h1 : GoodBuilds sched := fun j m h => hs j m (by simp [h])
  have h2 : GoodBuilds later := fun j m h => hs j m (by simp [h])
  obtain ⟨a, _, c⟩ := run_good (t := t) sched (initial d) h1 hd (fun i => trivial)
  have hc : CompleteModel ((initial d).run t sched).dir := by
    have := c i; rw [hr] at this; exact this
  refine ⟨hc, ?_⟩
  rw [run_append]
  exact (run_good later _ h2 a c).2.1 hc

/-- **C44.** If the process that built a model finds it complete, that is the model one process has
built: a complete model is never mixed from two builds or replaced by another one. -/
theorem C44_model_not_replaced (t : Timeout) (d : Dir) (hd : CleanDir d)
    (sched later : Schedule) (hs : GoodBuilds (sched ++ later))
    (hc : CompleteModel ((initial d).run t sched).dir) :
    ((initial d).run t (sched ++ later)).dir = ((initial d).run t sched).dir := by
  have gen : ∀ (later : Schedule) (s : State), GoodBuilds later → CleanDir s.dir →
      (∀ i, GoodPC s.dir (s.pcs i)) → CompleteModel s.dir → (s.run t later).dir = s.dir := by
    intro later
    induction later with
    | nil => intros; rfl
    | cons a r ih =>
      obtain ⟨i, m⟩ := a
      intro s hs hd hp hc
      obtain ⟨a1, b1, c1, e1⟩ := next_good (t := t) hd (hp i) (hs i m (by simp))
      have hp' : ∀ j, GoodPC (s.step t i m).dir ((s.step t i m).pcs j) := by
        intro j
        unfold State.step
        simp only
        split
        · exact e1
        · exact good_mono b1 c1 (hp j)
      have same : (s.step t i m).dir = s.dir := by
        show (next t s.dir m (s.pcs i)).1 = s.dir
        have hpi := hp i
        obtain ⟨c, hcd, hcf⟩ := hc
        have hne : c ≠ [] := by
          rintro rfl
          have := hcf 0 (by simp [required])
          simp at this
        cases hpc : s.pcs i <;> rw [hpc] at hpi <;> simp only [next]
        case firstDir => split <;> rfl
        case firstFile => split <;> (try split) <;> rfl
        case secondDir => split <;> rfl
        case secondFile => split <;> (try split) <;> rfl
        case waitFile => split <;> (try split) <;> rfl
        case listDir => split <;> (try split) <;> rfl
        case listFile => split <;> (try split) <;> rfl
        case thirdDir => split <;> rfl
        case thirdFile => split <;> (try split) <;> rfl
        case makeDir => rw [hcd]
        case build => split <;> rfl
        case replace tmp =>
          rw [hcd]
          cases c with
          | nil => exact absurd rfl hne
          | cons f fs => rfl
        case lastFile => split <;> (try split) <;> rfl
        case remove => exact hpi.elim
        case removing => exact hpi.elim
      have := ih (s.step t i m) (fun j k h => hs j k (by simp [h])) a1 hp' (c1 hc)
      simp only [State.run]
      rw [this, same]
  have h1 : GoodBuilds sched := fun j m h => hs j m (by simp [h])
  have h2 : GoodBuilds later := fun j m h => hs j m (by simp [h])
  obtain ⟨a, _, c⟩ := run_good (t := t) sched (initial d) h1 hd (fun i => trivial)
  rw [run_append]
  exact gen later _ h2 a c hc

/-- `n` steps of process `i`. -/
def times (n i : Nat) (m : Option (List Nat)) : Schedule := List.replicate n (i, m)

/-- Two processes start while there is no directory; both create and build. Process 1 finishes
first and returns; then the build of process 0 raises, and it removes the directory. -/
def failingSchedule : Schedule :=
  times 4 0 none ++ times 5 1 none ++ times 1 0 none ++ times 7 1 (some required) ++ times 8 0 none

/-- **C44, limit.** If one process raises while it builds, it removes the model of another one that
has already returned. -/
theorem C44_failed_build_removes_model (t : Timeout) :
    ((initial none).run t failingSchedule).pcs 1 = .returned ∧
    ((initial none).run t failingSchedule).dir = none := by
  simp [failingSchedule, times, List.replicate, State.run, State.step, initial, next, isDir, isFile,
    total, required]

/-- Process 0 finds no directory twice, then process 1 creates it. -/
def racingSchedule : Schedule := times 2 0 none ++ times 5 1 none ++ times 1 0 none

/-- **C44, limit.** If the directory is created between the checks of another process, that
process raises "Programmer error, this case should never be true" although nothing failed. -/
theorem C44_race_raises (t : Timeout) : ((initial none).run t racingSchedule).pcs 0 = .raised := rfl

/-- The hypotheses are met by two processes building at the same time, of which the second returns
when the first one is done. -/
example : GoodBuilds (times 12 0 (some required) ++ times 6 1 (some required)) ∧
    ((initial none).run 120 (times 12 0 (some required) ++ times 6 1 (some required))).pcs 1 =
      .returned := by
  refine ⟨?_, rfl⟩
  intro i m h
  refine ⟨required, ?_, fun f hf => hf⟩
  rcases List.mem_append.mp h with h | h
  · exact congrArg Prod.snd (List.eq_of_mem_replicate h)
  · exact congrArg Prod.snd (List.eq_of_mem_replicate h)

/-- What a process that runs alone knows about the files it has checked. -/
def Checked1 (d : Dir) : PC → Prop
  | .firstFile k => ∀ j, j < k → isFile d j = true
  | .waitFile _ k => ∀ j, j < k → isFile d j = true
  | .lastFile k => ∀ j, j < k → isFile d j = true
  | .returned => ∀ j, j < 5 → isFile d j = true
  | _ => True

theorem checked1_waitStart (d : Dir) (n : Nat) : Checked1 d (waitStart n) := by
  cases n with
  | zero => trivial
  | succ n => exact fun j h => absurd h (by omega)

theorem checked1_next (t : Timeout) (d : Dir) (m : Option (List Nat)) (pc : PC) (h : Checked1 d pc) :
    Checked1 (next t d m pc).1 (next t d m pc).2 := by
  have more : ∀ k, (∀ j, j < k → isFile d j = true) → isFile d k = true → ∀ j, j < k + 1 → isFile d j = true := by
    intro k hk hf j hj
    by_cases e : j = k
    · rw [e]; exact hf
    · exact hk j (by omega)
  unfold next
  split
  · split
    · exact fun j hj => absurd hj (by omega)
    · trivial
  · next k =>
    split
    · next hf =>
      split
      · next e => intro j hj; exact more k h hf j (by simp only [total] at e; omega)
      · exact more k h hf
    · trivial
  · split <;> trivial
  · split
    · split <;> trivial
    · exact checked1_waitStart d t
  · next n k =>
    split
    · next hf =>
      split
      · next e => intro j hj; exact more k h hf j (by simp only [total] at e; omega)
      · exact more k h hf
    · exact checked1_waitStart d n
  · split
    · trivial
    · split <;> trivial
  · split
    · split <;> trivial
    · trivial
  · split <;> trivial
  · split
    · split <;> trivial
    · trivial
  · split <;> trivial
  · split <;> trivial
  · split <;> exact fun j hj => absurd hj (by omega)
  · next k =>
    split
    · next hf =>
      split
      · next e => intro j hj; exact more k h hf j (by simp only [total] at e; omega)
      · exact more k h hf
    · trivial
  · split <;> trivial
  · split <;> trivial
  · split
    · trivial
    · split <;> trivial
  · exact h
  · trivial

/-- **C44.** A process that runs alone returns only if the model is complete: whatever the directory held before
(also a damaged model), and whatever its builds leave behind, including nothing or part of a model. -/
theorem C44_alone (t : Timeout) (d : Dir) (i : Nat) (made : List (Option (List Nat)))
    (hr : ((initial d).run t (made.map (i, ·))).pcs i = .returned) :
    CompleteModel ((initial d).run t (made.map (i, ·))).dir := by
  have gen : ∀ (made : List (Option (List Nat))) (s : State), Checked1 s.dir (s.pcs i) →
      Checked1 (s.run t (made.map (i, ·))).dir ((s.run t (made.map (i, ·))).pcs i) := by
    intro made
    induction made with
    | nil => intro s h; exact h
    | cons m r ih =>
      intro s h
      refine ih (s.step t i m) ?_
      have := checked1_next t s.dir m (s.pcs i) h
      simpa [State.step] using this
  have h := gen made (initial d) trivial
  rw [hr] at h
  have h' : ∀ j, j < 5 → isFile ((initial d).run t (made.map (i, ·))).dir j = true := h
  cases hd : ((initial d).run t (made.map (i, ·))).dir with
  | none =>
    have := h' 0 (by omega)
    rw [hd] at this
    cases this
  | some c =>
    refine ⟨c, rfl, fun f hf => ?_⟩
    have hf5 : f < 5 := by
      simp only [required, List.mem_cons, List.not_mem_nil, or_false] at hf
      omega
    have := h' f hf5
    rw [hd] at this
    simpa [isFile] using this

/-- The directory has part of a model; the process waits for two rounds, builds the model, but finds the
directory not replaced, and raises. Starting with an empty directory it returns. -/
example : ((initial (some [0])).run 2 ((List.replicate 30 (some required)).map (0, ·))).pcs 0 = .raised := by
  decide +kernel
example : ((initial (some [])).run 2 ((List.replicate 30 (some required)).map (0, ·))).pcs 0 = .returned := by
  decide +kernel

/-! ### C45 -/

/-- **C45 (partial).** The file whose path is returned holds the complete definition, for any
history of calls that were killed while writing before the version could be read from the file,
if the file did not exist before or did not have this version. Missing: calls that are killed
later, see `C45_truncated_file_accepted`. -/
theorem C45_returned_file_complete_partial (data : Bytes) (ok : Bytes → Bool)
    (file : Option Bytes) (hist : List (Option Nat))
    (hf : ∀ b, file = some b → ok b = true → b = data)
    (hh : ∀ n, some n ∈ hist → ok (data.take n) = true → data.take n = data) (s : Option Nat)
    (hr : (extract data ok (extracts data ok file hist) s).2 = true) :
    (extract data ok (extracts data ok file hist) s).1 = some data := by
  have inv : ∀ (hist : List (Option Nat)) (file : Option Bytes),
      (∀ b, file = some b → ok b = true → b = data) →
      (∀ n, some n ∈ hist → ok (data.take n) = true → data.take n = data) →
      ∀ b, extracts data ok file hist = some b → ok b = true → b = data := by
    intro hist
    induction hist with
    | nil => intro file hf _; exact hf
    | cons a r ih =>
      intro file hf hh
      simp only [extracts]
      refine ih _ ?_ (fun n hn => hh n (by simp [hn]))
      intro b hb hok
      unfold extract at hb
      cases file with
      | none =>
        simp only [Bool.false_eq_true, if_false] at hb
        cases a with
        | none => simpa using hb.symm
        | some n =>
          simp at hb; subst hb
          exact hh n (by simp) hok
      | some c =>
        simp only at hb
        split at hb
        · exact hf b hb hok
        · cases a with
          | none => simpa using hb.symm
          | some n =>
            simp at hb; subst hb
            exact hh n (by simp) hok
  have hi := inv hist file hf hh
  generalize extracts data ok file hist = g at hr hi
  unfold extract at hr ⊢
  cases g with
  | none =>
    simp only [Bool.false_eq_true, if_false] at hr ⊢
    cases s with
    | none => rfl
    | some n => simp at hr
  | some c =>
    simp only at hr ⊢
    split
    · next hc => exact congrArg some (hi c rfl hc)
    · next hc =>
      rw [if_neg hc] at hr
      cases s with
      | none => rfl
      | some n => simp at hr

/-- **C45, limit.** If a call is killed after the part of the file with the version was written, all
later calls return the path of the truncated file. -/
theorem C45_truncated_file_accepted (data : Bytes) (ok : Bytes → Bool) (n : Nat)
    (hn : n < data.length) (hok : ok (data.take n) = true) (hist : List (Option Nat)) :
    extract data ok (extracts data ok none (some n :: hist)) none = (some (data.take n), true) ∧
    data.take n ≠ data := by
  have h : ∀ hist : List (Option Nat), extracts data ok (some (data.take n)) hist =
      some (data.take n) := by
    intro hist
    induction hist with
    | nil => rfl
    | cons a r ih => simp only [extracts, extract, hok, if_true]; exact ih
  refine ⟨?_, ?_⟩
  · have : extracts data ok none (some n :: hist) = some (data.take n) := by
      simp only [extracts, extract, Bool.false_eq_true, if_false]
      exact h hist
    rw [this]
    simp [extract, hok]
  · intro e
    have := congrArg List.length e
    simp at this
    omega

/-- A definition of five bytes, the first two of which tell the version: killed after one byte
the file is written anew, killed after three bytes it stays truncated. -/
def sampleOk (b : Bytes) : Bool := b.take 2 == [3, 9]

example : extract [3, 9, 1, 2, 3] sampleOk (extracts [3, 9, 1, 2, 3] sampleOk none [some 1]) none =
    (some [3, 9, 1, 2, 3], true) := by decide
example : extract [3, 9, 1, 2, 3] sampleOk (extracts [3, 9, 1, 2, 3] sampleOk none [some 3]) none =
    (some [3, 9, 1], true) := by decide

end Verif.Props
