import Verif.Spec.Entry
/-! C40, C41, C42: data entries. -/
namespace Verif.Props
open Verif.Entry Verif.EntrySpec

/-! ### C40 -/

/-- The log extends, nothing else of the entry changes, and the calls are on the open object. -/
structure Uses (e e' : Entry) : Prop where
  impl : e'.impl = e.impl
  version : e'.version = e.version
  byUri : e'.byUri = e.byUri
  log : ∃ ev : Log, e'.log = e.log ++ ev ∧
    ∀ x ∈ ev, e.impl = some x.handle ∧ ¬IsOpen x.call ∧ ¬IsClose x.call

theorem Uses.refl (e : Entry) : Uses e e := ⟨rfl, rfl, rfl, [], by simp, by simp⟩

theorem Uses.trans {a b c : Entry} (h : Uses a b) (k : Uses b c) : Uses a c := by
  obtain ⟨ev, hl, he⟩ := h.log
  obtain ⟨ev', hl', he'⟩ := k.log
  refine ⟨k.impl.trans h.impl, k.version.trans h.version, k.byUri.trans h.byUri, ev ++ ev', ?_, ?_⟩
  · rw [hl', hl, List.append_assoc]
  · intro x hx
    rcases List.mem_append.mp hx with hx | hx
    · exact he x hx
    · have := he' x hx; rwa [h.impl] at this

theorem invoke_log (w : World) (log : Log) (h : Nat) (c : Call) :
    ∃ ok, (invoke w log h c).1 = log ++ [⟨h, c, ok⟩] ∧
      (ok = true ↔ (invoke w log h c).2 = .ok ()) := by
  unfold invoke
  cases w.fails log c with
  | none => exact ⟨true, rfl, by simp⟩
  | some x => exact ⟨false, rfl, by simp⟩

theorem uses_invoke {w : World} {e : Entry} {h : Nat} {c : Call} {log : Log} {r : Except Exc Unit}
    (hi : e.impl = some h) (ho : ¬IsOpen c) (hc : ¬IsClose c)
    (hr : invoke w e.log h c = (log, r)) : Uses e { e with log } := by
  obtain ⟨ok, hl, _⟩ := invoke_log w e.log h c
  rw [hr] at hl
  refine ⟨rfl, rfl, rfl, [⟨h, c, ok⟩], hl, ?_⟩
  intro x hx
  simp at hx; subst hx
  exact ⟨hi, ho, hc⟩

theorem get_uses (w : World) (e : Entry) (n : Text) (occ : Int) (o : GetOpts) :
    Uses e (get w e n occ o).1 := by
  unfold Verif.Entry.get
  split
  · exact Uses.refl e
  · next h hi =>
    split
    · exact Uses.refl e
    · split
      · exact Uses.refl e
      · split
        · next log x hr => exact uses_invoke hi (by simp [IsOpen]) (by simp [IsClose]) hr
        · next log u hr =>
          have u1 := uses_invoke hi (by simp [IsOpen]) (by simp [IsClose]) hr
          split
          · exact u1
          · split
            · next log' x hr' =>
              exact u1.trans (uses_invoke (e := { e with log }) hi (by simp [IsOpen])
                (by simp [IsClose]) hr')
            · next log' x hr' =>
              exact u1.trans (uses_invoke (e := { e with log }) hi (by simp [IsOpen])
                (by simp [IsClose]) hr')

theorem put_uses (w : World) (dis : Option Text) (e : Entry) (d : Doc) (occ : Int) (s : Bool) :
    Uses e (put w dis e d occ s).1 := by
  unfold put
  split
  · exact Uses.refl e
  · next h hi =>
    split
    · exact Uses.refl e
    · split
      · exact Uses.refl e
      · split
        · exact Uses.refl e
        · simp only
          generalize (if d.constant = true then { d with mode := independent } else d) = d1
          split
          · exact Uses.refl e
          · split
            · split
              · next hr => exact uses_invoke hi (by simp [IsOpen]) (by simp [IsClose]) hr
              · next hr => exact uses_invoke hi (by simp [IsOpen]) (by simp [IsClose]) hr
            · split
              · next hr => exact uses_invoke hi (by simp [IsOpen]) (by simp [IsClose]) hr
              · next log u hr =>
                have u1 := uses_invoke hi (by simp [IsOpen]) (by simp [IsClose]) hr
                split
                · next hr' =>
                  exact u1.trans (uses_invoke (e := { e with log }) hi (by simp [IsOpen])
                    (by simp [IsClose]) hr')
                · next hr' =>
                  exact u1.trans (uses_invoke (e := { e with log }) hi (by simp [IsOpen])
                    (by simp [IsClose]) hr')

theorem delete_uses (w : World) (e : Entry) (n : Text) (occ : Int) :
    Uses e (delete w e n occ).1 := by
  unfold delete
  split
  · exact Uses.refl e
  · next h hi =>
    split <;> next hr => exact uses_invoke hi (by simp [IsOpen]) (by simp [IsClose]) hr

theorem getNodes_uses (w : World) (n p : Text) : ∀ (l : List Int) (e : Entry) (acc : List Nat),
    Uses e (getNodes w n p e l acc).1
  | [], e, acc => Uses.refl e
  | occ :: r, e, acc => by
    unfold getNodes
    have u := get_uses w e n occ ⟨true, true, false, none⟩
    split
    · next hr => rwa [hr] at u
    · next hr =>
      rw [hr] at u
      split
      · exact u
      · exact u.trans (getNodes_uses w n p r _ _)
    · next hr => rwa [hr] at u

theorem listAll_uses (w : World) (e : Entry) (n : Text) (p : Option Text) :
    Uses e (listAll w e n p).1 := by
  unfold listAll
  split
  · exact Uses.refl e
  · next h hi =>
    split
    · next hr => exact uses_invoke hi (by simp [IsOpen]) (by simp [IsClose]) hr
    · next log u hr =>
      have u1 := uses_invoke hi (by simp [IsOpen]) (by simp [IsClose]) hr
      split
      · exact u1
      · next p =>
        have u2 := u1.trans (getNodes_uses w n p (w.occurrences e.log) _ [])
        split <;> next hr' => rwa [hr'] at u2

/-- Invariant: the protocol, and handles are numbered by positions in the log. -/
structure EntryInv (e : Entry) : Prop where
  protocol : Protocol e.log e.impl
  numbered : ∀ x ∈ e.log, x.handle < e.log.length
  open' : ∀ h, e.impl = some h → h < e.log.length

theorem protocol_uses {h : Nat} : ∀ (ev : Log) {l : Log}, Protocol l (some h) →
    (∀ x ∈ ev, h = x.handle ∧ ¬IsOpen x.call ∧ ¬IsClose x.call) → Protocol (l ++ ev) (some h)
  | [], l, p, _ => by simpa using p
  | x :: ev, l, p, hx => by
    obtain ⟨h1, h2, h3⟩ := hx x (by simp)
    have p' : Protocol (l ++ [⟨h, x.call, x.ok⟩]) (some h) := .used p h2 (.inl h3)
    have := protocol_uses ev p' (fun y hy => hx y (by simp [hy]))
    have e : (⟨h, x.call, x.ok⟩ : Event) = x := by rw [h1]
    rw [e] at this
    simpa using this

theorem inv_uses {e e' : Entry} (i : EntryInv e) (u : Uses e e') : EntryInv e' := by
  obtain ⟨ev, hl, he⟩ := u.log
  cases hi : e.impl with
  | none =>
    have : ev = [] := by
      cases ev with
      | nil => rfl
      | cons x r => have := (he x (by simp)).1; rw [hi] at this; simp at this
    subst this
    have hl : e'.log = e.log := by simpa using hl
    exact ⟨by rw [hl, u.impl]; exact i.protocol, by rw [hl]; exact i.numbered,
      by rw [hl, u.impl]; exact i.open'⟩
  | some h =>
    have hx : ∀ x ∈ ev, h = x.handle ∧ ¬IsOpen x.call ∧ ¬IsClose x.call := fun x hx => by
      obtain ⟨a, b, c⟩ := he x hx
      rw [hi] at a
      exact ⟨by simpa using a, b, c⟩
    have ho := i.open' h hi
    refine ⟨?_, ?_, ?_⟩
    · rw [hl, u.impl, hi]
      exact protocol_uses ev (hi ▸ i.protocol) hx
    · intro x hm
      rw [hl] at hm ⊢
      rw [List.length_append]
      rcases List.mem_append.mp hm with hm | hm
      · have := i.numbered x hm; omega
      · have := (hx x hm).1; omega
    · intro h' hh
      rw [u.impl, hi] at hh
      have : h = h' := by simpa using hh
      rw [hl, List.length_append]; omega

theorem inv_openPulse {w : World} {e : Entry} {m : Nat} (i : EntryInv e) :
    EntryInv (openPulse w e m).1 := by
  unfold openPulse
  split
  · exact i
  · next hi =>
    split
    · exact i
    · have p := i.protocol
      rw [hi] at p
      have hfresh : ∀ x ∈ e.log, x.handle ≠ e.log.length := fun x hx => by
        have := i.numbered x hx; omega
      obtain ⟨ok, hl, hok⟩ := invoke_log w e.log e.log.length (.openPulse m)
      have hnum : ∀ x ∈ e.log ++ [⟨e.log.length, .openPulse m, ok⟩],
          x.handle < (e.log ++ [(⟨e.log.length, .openPulse m, ok⟩ : Event)]).length := by
        intro x hm
        rw [List.length_append]
        rcases List.mem_append.mp hm with hm | hm
        · have := i.numbered x hm; simp; omega
        · simp at hm; subst hm; simp
      split
      · next log u hr =>
        rw [hr] at hl hok
        have : ok = true := hok.mpr rfl
        subst this
        simp only at hl; subst hl
        refine ⟨.opened p (.inr ⟨m, rfl⟩) hfresh, hnum, ?_⟩
        intro h hh
        simp at hh; subst hh; simp
      · next log x hr =>
        rw [hr] at hl hok
        have : ok = false := by
          cases ok with
          | false => rfl
          | true => simp at hok
        subst this
        simp only at hl; subst hl
        refine ⟨?_, hnum, ?_⟩
        · simp only [hi]; exact .notOpened p (.inr ⟨m, rfl⟩)
        · intro h hh; simp [hi] at hh

theorem inv_close {w : World} {e : Entry} {er : Bool} (i : EntryInv e) :
    EntryInv (close w e er).1 := by
  unfold close
  split
  · exact i
  · next h hi =>
    have p := i.protocol
    rw [hi] at p
    have ho := i.open' h hi
    obtain ⟨ok, hl, hok⟩ := invoke_log w e.log h (.close er)
    have hnum : ∀ x ∈ e.log ++ [⟨h, .close er, ok⟩],
        x.handle < (e.log ++ [(⟨h, .close er, ok⟩ : Event)]).length := by
      intro x hm
      rw [List.length_append]
      rcases List.mem_append.mp hm with hm | hm
      · have := i.numbered x hm; simp; omega
      · simp at hm; subst hm; simp; omega
    split
    · next log u hr =>
      rw [hr] at hl hok
      have : ok = true := hok.mpr rfl
      subst this
      simp only at hl; subst hl
      exact ⟨.closed p ⟨er, rfl⟩, hnum, by simp⟩
    · next log x hr =>
      rw [hr] at hl hok
      have : ok = false := by
        cases ok with
        | false => rfl
        | true => simp at hok
      subst this
      simp only at hl; subst hl
      refine ⟨?_, hnum, ?_⟩
      · simp only [hi]; exact .used p (by simp [IsOpen]) (.inr rfl)
      · intro h' hh
        simp [hi] at hh; subst hh
        rw [List.length_append]; omega

theorem inv_step {w : World} {e : Entry} (op : Op) (i : EntryInv e) : EntryInv (step w e op).1 := by
  cases op with
  | openPulse m => exact inv_openPulse i
  | close er => exact inv_close i
  | get n o x => exact inv_uses i (get_uses w e n o x)
  | put dis d o s => exact inv_uses i (put_uses w dis e d o s)
  | delete n o => exact inv_uses i (delete_uses w e n o)
  | list n p => exact inv_uses i (listAll_uses w e n p)

theorem inv_run {w : World} : ∀ (ops : List Op) {e : Entry}, EntryInv e → EntryInv (run w e ops)
  | [], _, i => i
  | op :: r, _, i => inv_run r (inv_step op i)

theorem inv_legacy (v : Text) : EntryInv (newLegacy v) :=
  ⟨.start, by simp [newLegacy], by simp [newLegacy]⟩

theorem inv_uri {w : World} {v : Text} {e : Entry} (h : newUri w v = some e) : EntryInv e := by
  unfold newUri at h
  obtain ⟨ok, hl, hok⟩ := invoke_log w [] 0 .openUri
  split at h
  · next log u hr =>
    rw [hr] at hl hok
    have : ok = true := hok.mpr rfl
    subst this
    simp only at hl; subst hl
    simp at h; subst h
    exact ⟨.opened .start (.inl rfl) (by simp), by simp, by simp⟩
  · simp at h

/-- An entry that a program can have: just constructed, and then used by any operations, the
exceptions of which may have been caught. -/
inductive Reachable (w : World) : Entry → Prop
  | legacy (v : Text) (ops : List Op) : Reachable w (run w (newLegacy v) ops)
  | uri {v : Text} {e : Entry} (h : newUri w v = some e) (ops : List Op) :
      Reachable w (run w e ops)

theorem reachable_inv {w : World} {e : Entry} (h : Reachable w e) : EntryInv e := by
  cases h with
  | legacy v ops => exact inv_run ops (inv_legacy v)
  | uri h ops => exact inv_run ops (inv_uri h)

theorem step_byUri (w : World) (e : Entry) (op : Op) : (step w e op).1.byUri = e.byUri := by
  cases op with
  | openPulse m =>
    simp only [step, openPulse]
    split
    · rfl
    · split
      · rfl
      · split <;> rfl
  | close er =>
    simp only [step, close]
    split
    · rfl
    · split <;> rfl
  | get n o x => exact (get_uses w e n o x).byUri
  | put dis d o s => exact (put_uses w dis e d o s).byUri
  | delete n o => exact (delete_uses w e n o).byUri
  | list n p => exact (listAll_uses w e n p).byUri

theorem run_byUri (w : World) : ∀ (ops : List Op) (e : Entry), (run w e ops).byUri = e.byUri
  | [], _ => rfl
  | op :: r, e => (run_byUri w r (step w e op).1).trans (step_byUri w e op)

theorem told_append {w : World} {α β : Type} {l a b : Log} {x : α} {r : Except Exc β}
    (s : Told w l a (.ok x : Except Exc α)) (t : Told w (l ++ a) b r) : Told w l (a ++ b) r := by
  generalize hq : (Except.ok x : Except Exc α) = q at s
  induction s with
  | done => simpa using t
  | next hc t' ih => exact .next hc (ih (by simpa using t) hq)
  | failed => cases hq

theorem told_other {w : World} {α β : Type} {l a : Log} {x : α} {r : Except Exc β}
    (s : Told w l a (.ok x : Except Exc α)) : Told w l a r := by
  simpa using told_append s (.done (r := r))

theorem told_error {w : World} {α β : Type} {l a : Log} {x : Exc}
    (s : Told w l a (.error x : Except Exc α)) : Told w l a (.error x : Except Exc β) := by
  generalize hq : (Except.error x : Except Exc α) = q at s
  induction s with
  | done => exact .done
  | next hc t' ih => exact .next hc (ih hq)
  | failed hc => cases hq; exact .failed hc

theorem told_invoke {w : World} {log log' : Log} {h : Nat} {c : Call} {r : Except Exc Unit}
    (e : invoke w log h c = (log', r)) : ∃ ev, log' = log ++ ev ∧ Told w log ev r := by
  unfold invoke at e
  split at e
  · next x hx => cases e; exact ⟨_, rfl, .failed hx⟩
  · next hx => cases e; exact ⟨_, rfl, .next hx .done⟩

theorem get_told (w : World) (e : Entry) (n : Text) (occ : Int) (o : GetOpts) :
    ∃ ev, (get w e n occ o).1.log = e.log ++ ev ∧ Told w e.log ev (get w e n occ o).2 := by
  have none' : ∀ r : Outcome, ∃ ev, e.log = e.log ++ ev ∧ Told w e.log ev r := fun r => ⟨[], by simp, .done⟩
  unfold Entry.get
  split
  · exact none' _
  · split
    · exact none' _
    · split
      · exact none' _
      · split
        · next h1 => obtain ⟨ev, rfl, t⟩ := told_invoke h1; exact ⟨ev, rfl, told_error t⟩
        · next h1 =>
          obtain ⟨ev, rfl, t⟩ := told_invoke h1
          split
          · exact ⟨ev, rfl, told_other t⟩
          · split
            · next h2 =>
              obtain ⟨ev', rfl, t'⟩ := told_invoke h2
              exact ⟨ev ++ ev', by simp, told_append t (told_error t')⟩
            · next h2 =>
              obtain ⟨ev', rfl, t'⟩ := told_invoke h2
              exact ⟨ev ++ ev', by simp, told_append t (told_other t')⟩

theorem put_told (w : World) (dis : Option Text) (e : Entry) (d : Doc) (occ : Int) (s : Bool) :
    ∃ ev, (put w dis e d occ s).1.log = e.log ++ ev ∧ Told w e.log ev (put w dis e d occ s).2.2 := by
  have none' : ∀ r : Outcome, ∃ ev, e.log = e.log ++ ev ∧ Told w e.log ev r := fun r => ⟨[], by simp, .done⟩
  unfold put
  split
  · exact none' _
  · split
    · exact none' _
    · split
      · exact none' _
      · split
        · exact none' _
        · simp only
          generalize (if d.constant = true then { d with mode := independent } else d) = d1
          split
          · exact none' _
          · split
            · split
              · next h1 => obtain ⟨ev, rfl, t⟩ := told_invoke h1; exact ⟨ev, rfl, told_error t⟩
              · next h1 => obtain ⟨ev, rfl, t⟩ := told_invoke h1; exact ⟨ev, rfl, told_other t⟩
            · split
              · next h1 => obtain ⟨ev, rfl, t⟩ := told_invoke h1; exact ⟨ev, rfl, told_error t⟩
              · next h1 =>
                obtain ⟨ev, rfl, t⟩ := told_invoke h1
                split
                · next h2 =>
                  obtain ⟨ev', rfl, t'⟩ := told_invoke h2
                  exact ⟨ev ++ ev', by simp, told_append t (told_error t')⟩
                · next h2 =>
                  obtain ⟨ev', rfl, t'⟩ := told_invoke h2
                  exact ⟨ev ++ ev', by simp, told_append t (told_other t')⟩

theorem getNodes_told (w : World) (n p : Text) : ∀ (l : List Int) (e : Entry) (acc : List Nat),
    ∃ ev, (getNodes w n p e l acc).1.log = e.log ++ ev ∧ Told w e.log ev (getNodes w n p e l acc).2
  | [], e, acc => ⟨[], by simp [getNodes], .done⟩
  | occ :: r, e, acc => by
    obtain ⟨ev, hl, t⟩ := get_told w e n occ ⟨true, true, false, none⟩
    unfold getNodes
    split
    · next h => rw [h] at hl t; exact ⟨ev, hl, told_error t⟩
    · next e' _ _ h =>
      rw [h] at hl t
      split
      · exact ⟨ev, hl, told_other t⟩
      · next v _ =>
        obtain ⟨ev', hl', t'⟩ := getNodes_told w n p r e' (acc ++ [v])
        have hl : e'.log = e.log ++ ev := hl
        refine ⟨ev ++ ev', by rw [hl', hl, List.append_assoc], told_append t (hl ▸ t')⟩
    · next h => rw [h] at hl t; exact ⟨ev, hl, told_other t⟩

/-- **C40.** Every exception of the backend reaches the user, whatever the operation and whatever the state of the entry: the
operation makes no further call after the one that failed, and raises the same exception. So an operation that does not raise made
no call that failed. -/
theorem C40_errors (w : World) (e : Entry) (op : Op) :
    ∃ ev, (step w e op).1.log = e.log ++ ev ∧ Told w e.log ev (step w e op).2 := by
  have none' : ∀ r : Outcome, ∃ ev, e.log = e.log ++ ev ∧ Told w e.log ev r := fun r => ⟨[], by simp, .done⟩
  cases op with
  | openPulse m =>
    simp only [step]
    unfold openPulse
    split
    · exact none' _
    · split
      · exact none' _
      · split
        · next h1 => obtain ⟨ev, rfl, t⟩ := told_invoke h1; exact ⟨ev, rfl, told_other t⟩
        · next h1 => obtain ⟨ev, rfl, t⟩ := told_invoke h1; exact ⟨ev, rfl, told_error t⟩
  | close er =>
    simp only [step]
    unfold close
    split
    · exact none' _
    · split
      · next h1 => obtain ⟨ev, rfl, t⟩ := told_invoke h1; exact ⟨ev, rfl, told_other t⟩
      · next h1 => obtain ⟨ev, rfl, t⟩ := told_invoke h1; exact ⟨ev, rfl, told_error t⟩
  | get n o x => exact get_told w e n o x
  | put dis d o s => exact put_told w dis e d o s
  | delete n o =>
    simp only [step]
    unfold delete
    split
    · exact none' _
    · split
      · next h1 => obtain ⟨ev, rfl, t⟩ := told_invoke h1; exact ⟨ev, rfl, told_error t⟩
      · next h1 => obtain ⟨ev, rfl, t⟩ := told_invoke h1; exact ⟨ev, rfl, told_other t⟩
  | list n p =>
    simp only [step]
    unfold listAll
    split
    · exact none' _
    · split
      · next h1 => obtain ⟨ev, rfl, t⟩ := told_invoke h1; exact ⟨ev, rfl, told_error t⟩
      · next log _ h1 =>
        obtain ⟨ev, rfl, t⟩ := told_invoke h1
        split
        · exact ⟨ev, rfl, told_other t⟩
        · next p =>
          obtain ⟨ev', hl', t'⟩ := getNodes_told w n p (w.occurrences e.log) { e with log := e.log ++ ev } []
          split
          · next h2 =>
            rw [h2] at hl' t'
            exact ⟨ev ++ ev', by simpa using hl', told_append t (told_error t')⟩
          · next h2 =>
            rw [h2] at hl' t'
            exact ⟨ev ++ ev', by simpa using hl', told_append t (told_other t')⟩

/-- **C40.** An entry that was constructed with legacy parameters is not open at first. Whatever is done with it, it can be
opened whenever it is not open, unless the backend refuses. An entry that was constructed with a URI is open at first, and can
never be opened again. -/
theorem C40_reopen (w : World) (v : Text) (ops : List Op) (m : Nat) :
    (newLegacy v).impl = none ∧
    ((run w (newLegacy v) ops).impl = none → w.fails (run w (newLegacy v) ops).log (.openPulse m) = none →
      (openPulse w (run w (newLegacy v) ops) m).2 = .ok .unit ∧ (openPulse w (run w (newLegacy v) ops) m).1.impl.isSome) ∧
    ∀ e, newUri w v = some e → e.impl.isSome ∧ openPulse w (run w e ops) m = (run w e ops, .error .runtime) := by
  refine ⟨rfl, fun hi hf => ?_, fun e he => ?_⟩
  · have hb : (run w (newLegacy v) ops).byUri = false := run_byUri w ops _
    simp [openPulse, hi, hb, invoke, hf]
  · have hb : (run w e ops).byUri = e.byUri := run_byUri w ops _
    unfold newUri at he
    split at he
    · cases he
      refine ⟨rfl, ?_⟩
      unfold openPulse
      split
      · rfl
      · simp [hb]
    · cases he

/-- **C40.** Whatever operations are done on an entry and whichever backend calls fail, the calls
of the backend are in order: at most one backend object is open at any time, every object is
used only after its successful opening and before its successful closing, and the entry is open
exactly if the backend object is. -/
theorem C40_protocol (w : World) {e : Entry} (h : Reachable w e) : Protocol e.log e.impl :=
  (reachable_inv h).protocol

/-- **C40.** On an entry that is not open, reading, writing, deleting and listing raise
`RuntimeError`, and nothing else happens. -/
theorem C40_closed_entry_refuses (w : World) (e : Entry) (h : e.impl = none) (op : Op)
    (hop : (∀ m, op ≠ .openPulse m) ∧ ∀ er, op ≠ .close er) :
    step w e op = (e, .error .runtime) := by
  cases op with
  | openPulse m => exact absurd rfl (hop.1 m)
  | close er => exact absurd rfl (hop.2 er)
  | get n o x => simp [step, Verif.Entry.get, h]
  | put dis d o s => simp [step, put, h]
  | delete n o => simp [step, delete, h]
  | list n p => simp [step, listAll, h]

/-- **C40.** `open` and `create` are refused without any effect if the entry is open or was
constructed with an URI; otherwise they open the entry if the backend does. -/
theorem C40_open (w : World) (e : Entry) (m : Nat) :
    ((e.impl ≠ none ∨ e.byUri = true) → openPulse w e m = (e, .error .runtime)) ∧
    (e.impl = none → e.byUri = false →
      ((openPulse w e m).2 = .ok .unit ∧ (openPulse w e m).1.impl = some e.log.length ∧
        w.fails e.log (.openPulse m) = none) ∨
      ∃ x, (openPulse w e m).2 = .error x ∧ (openPulse w e m).1.impl = none ∧
        w.fails e.log (.openPulse m) = some x) := by
  refine ⟨?_, ?_⟩
  · intro h
    unfold openPulse
    cases hi : e.impl with
    | some k => rfl
    | none =>
      rcases h with h | h
      · exact absurd hi h
      · simp [h]
  · intro hi hu
    unfold openPulse
    rw [hi, hu]
    unfold invoke
    cases hf : w.fails e.log (.openPulse m) with
    | none => exact .inl ⟨rfl, rfl, rfl⟩
    | some x => exact .inr ⟨x, rfl, rfl, rfl⟩

/-- **C40.** `close` leaves the entry closed unless the backend raises while closing; closing a
closed entry does nothing. -/
theorem C40_close (w : World) (e : Entry) (er : Bool) :
    ((close w e er).1.impl = none ∧ (close w e er).2 = .ok .unit ∧
      ∀ er', close w (close w e er).1 er' = ((close w e er).1, .ok .unit)) ∨
    ∃ x, (close w e er).2 = .error x ∧ (close w e er).1.impl = e.impl ∧
      w.fails e.log (.close er) = some x := by
  cases hi : e.impl with
  | none =>
    left
    have : close w e er = (e, .ok .unit) := by unfold close; rw [hi]
    rw [this]
    refine ⟨hi, rfl, ?_⟩
    intro er'
    unfold close; simp only [hi]
  | some h =>
    cases hf : w.fails e.log (.close er) with
    | none =>
      left
      have : close w e er = ({ e with impl := none, log := e.log ++ [⟨h, .close er, true⟩] },
          .ok .unit) := by
        unfold close; simp only [hi, invoke, hf]
      rw [this]
      exact ⟨rfl, rfl, fun er' => rfl⟩
    | some x =>
      right
      have : close w e er = ({ e with log := e.log ++ [⟨h, .close er, false⟩] }, .error x) := by
        unfold close; simp only [hi, invoke, hf]
      rw [this]
      exact ⟨x, rfl, hi, rfl⟩

/-- **C40.** After a `with` block the entry is closed, whatever happens in the block, unless the
backend raises while closing. An exception of the block is passed on. -/
theorem C40_with_block (w : World) (e : Entry) (ops : List Op) :
    (withBlock w e ops).1.impl = none ∨
    ∃ l h x, (withBlock w e ops).1.log = l ++ [⟨h, .close false, false⟩] ∧
      (withBlock w e ops).2 = .error x ∧ w.fails l (.close false) = some x := by
  unfold withBlock
  cases he : enter w e with
  | mk e1 r1 =>
    cases r1 with
    | error x =>
      left
      simp only
      unfold enter at he
      cases hi : e.impl with
      | some h => rw [hi] at he; simp at he
      | none =>
        rw [hi] at he
        simp only at he
        unfold openPulse at he
        rw [hi] at he
        simp only at he
        split at he
        · cases he; exact hi
        · split at he
          · cases he
          · cases he; rfl
    | ok u =>
      simp only
      cases hi : (body w e1 ops).1.impl with
      | none =>
        left
        have : close w (body w e1 ops).1 false = ((body w e1 ops).1, .ok .unit) := by
          unfold close; rw [hi]
        rw [this]
        exact hi
      | some h =>
        cases hf : w.fails (body w e1 ops).1.log (.close false) with
        | none =>
          left
          have : close w (body w e1 ops).1 false =
              ({ (body w e1 ops).1 with
                  impl := none
                  log := (body w e1 ops).1.log ++ [⟨h, .close false, true⟩] }, .ok .unit) := by
            unfold close; simp only [hi, invoke, hf]
          rw [this]
        | some x =>
          right
          have : close w (body w e1 ops).1 false =
              ({ (body w e1 ops).1 with
                  log := (body w e1 ops).1.log ++ [⟨h, .close false, false⟩] }, .error x) := by
            unfold close; simp only [hi, invoke, hf]
          rw [this]
          exact ⟨_, h, x, rfl, rfl, hf⟩

/-- **C40.** Statements of a `with` block are executed up to the first one that raises an error; this error is raised
after the entry is closed (unless closing raises one), and the statements behind it are not executed. -/
theorem C40_with_raises (w : World) (e e1 e' : Entry) (r : Val) (a b : List Op) (op : Op) (x : Exc)
    (he : enter w e = (e1, .ok r))
    (ha : ∀ (k : Nat) o, a[k]? = some o → ∃ r, (step w (run w e1 (a.take k)) o).2 = .ok r)
    (hop : step w (run w e1 a) op = (e', .error x)) :
    (withBlock w e (a ++ op :: b)).1 = (close w e' false).1 ∧
      (((close w e' false).2 = .ok .unit ∧ (withBlock w e (a ++ op :: b)).2 = .error x) ∨
        ∃ y, (close w e' false).2 = .error y ∧ (withBlock w e (a ++ op :: b)).2 = .error y) := by
  have hb : body w e1 (a ++ op :: b) = (e', .error x) := by
    clear he
    induction a generalizing e1 with
    | nil => simp only [run] at hop; simp [body, hop]
    | cons o a ih =>
      obtain ⟨r, h0⟩ := ha 0 o rfl
      simp only [List.take_zero, run] at h0
      have h1 : step w e1 o = ((step w e1 o).1, .ok r) := by rw [← h0]
      rw [List.cons_append, body, h1]
      exact ih _ (fun k o' hk => ha (k + 1) o' hk) hop
  unfold withBlock
  rw [he]
  simp only [hb]
  rcases C40_close w e' false with ⟨-, h, -⟩ | ⟨y, h, -, -⟩
  · rw [show close w e' false = ((close w e' false).1, .ok .unit) by rw [← h]]
    exact ⟨rfl, .inl ⟨rfl, rfl⟩⟩
  · rw [show close w e' false = ((close w e' false).1, .error y) by rw [← h]]
    exact ⟨rfl, .inr ⟨y, rfl, rfl⟩⟩

/-- **C40.** If no statement of a `with` block raises an error, all are executed, and no error is raised unless closing
the entry does. -/
theorem C40_with_completes (w : World) (e e1 : Entry) (r : Val) (a : List Op) (he : enter w e = (e1, .ok r))
    (ha : ∀ (k : Nat) o, a[k]? = some o → ∃ r, (step w (run w e1 (a.take k)) o).2 = .ok r) :
    (withBlock w e a).1 = (close w (run w e1 a) false).1 ∧ (withBlock w e a).2 = (close w (run w e1 a) false).2 := by
  have hb : body w e1 a = (run w e1 a, .ok .unit) := by
    clear he
    induction a generalizing e1 with
    | nil => rfl
    | cons o a ih =>
      obtain ⟨r, h0⟩ := ha 0 o rfl
      simp only [List.take_zero, run] at h0
      have h1 : step w e1 o = ((step w e1 o).1, .ok r) := by rw [← h0]
      rw [body, h1]
      exact ih _ (fun k o' hk => ha (k + 1) o' hk)
  unfold withBlock
  rw [he]
  simp only [hb]
  rcases C40_close w (run w e1 a) false with ⟨-, h, -⟩ | ⟨y, h, -, -⟩
  · rw [show close w (run w e1 a) false = ((close w (run w e1 a) false).1, .ok .unit) by rw [← h]]
    exact ⟨rfl, rfl⟩
  · rw [show close w (run w e1 a) false = ((close w (run w e1 a) false).1, .error y) by rw [← h]]
    exact ⟨rfl, rfl⟩

/-- A backend that answers everything, with one IDS stored in version `3.1`. -/
def calmWorld : World where
  fails _ _ := none
  readVersion _ := "3.1".toList
  alVersion _ := "5".toList
  occurrences _ := [0, 1]
  data l := l.length
  node d _ := .ok d
  validate _ := none
  language := "IMAS-Python".toList
  known := ["3.1".toList, "3.2".toList, "4.0".toList]
  hasIds _ _ := true
  cmp a b := if a = b then .eq else .lt

/-- A backend whose opening fails the first time and whose closing always fails. -/
def moodyWorld : World :=
  { calmWorld with
    fails := fun l c =>
      match c with
      | .openPulse _ => if l.length = 0 then some (.other 1) else none
      | .close _ => some (.other 2)
      | _ => none }

example : (run calmWorld (newLegacy "3.2".toList)
    [.get [] 0 ⟨false, true, false, none⟩, .openPulse 40, .get "x".toList 0 ⟨false, true, false, none⟩,
     .close false, .openPulse 41, .list "x".toList (some [])]).impl = some 4 := by decide

example : (run moodyWorld (newLegacy "3.2".toList)
    [.openPulse 40, .openPulse 40, .close false]).impl = some 1 := by decide

/-- The hypotheses of `C40_reopen` are met after an entry was opened and closed. -/
example := (C40_reopen calmWorld "3.2".toList [.openPulse 40, .close false] 41).2.1 (by decide) (by decide)
example : (newUri calmWorld "3.2".toList).isSome := by decide

def openLegacy : Entry := (enter calmWorld (newLegacy "3.2".toList)).1

/-- The hypotheses of `C40_with_raises` are met: the second statement opens an entry that is open already. -/
example := C40_with_raises calmWorld (newLegacy "3.2".toList) openLegacy _ .unit [.list "x".toList none] [.close true] (.openPulse 41) .runtime
  rfl (fun k o h => by
    cases k with
    | zero => cases h; exact ⟨_, rfl⟩
    | succ k => cases h) rfl
example := C40_with_completes calmWorld (newLegacy "3.2".toList) openLegacy .unit [.list "x".toList none] rfl
  (fun k o h => by
    cases k with
    | zero => cases h; exact ⟨_, rfl⟩
    | succ k => cases h)

/-! ### C41 -/

theorem storedVersion_ok {w : World} {entry read : Text} {ig : Bool} {r : Option Text} :
    storedVersion w entry read ig = .ok r ↔
      (r = none ∧ (read = [] ∨ Unknown w entry read ∧ ig = true)) ∨
      ∃ v, r = some v ∧ Usable w entry read v := by
  unfold storedVersion Unknown Usable
  by_cases h0 : read = []
  · subst h0
    rw [if_pos rfl]
    constructor
    · intro h; exact .inl ⟨(Except.ok.inj h).symm, .inl rfl⟩
    · rintro (⟨rfl, _⟩ | ⟨v, _, h1, h2, _⟩)
      · rfl
      · exact absurd h1.symm h2
  · by_cases h1 : read ≠ entry ∧ read ∉ w.known
    · rw [if_neg h0, if_pos h1]
      have hno : ∀ v, read = v ∧ v ≠ [] ∧ (v = entry ∨ v ∈ w.known) → False := by
        rintro v ⟨rfl, _, h | h⟩
        · exact h1.1 h
        · exact h1.2 h
      cases ig with
      | true =>
        rw [if_pos rfl]
        constructor
        · intro h; exact .inl ⟨(Except.ok.inj h).symm, .inr ⟨⟨h0, h1⟩, rfl⟩⟩
        · rintro (⟨rfl, _⟩ | ⟨v, _, h⟩)
          · rfl
          · exact (hno v h).elim
      | false =>
        constructor
        · intro h; cases h
        · rintro (⟨_, h | h⟩ | ⟨v, _, h⟩)
          · exact absurd h h0
          · cases h.2
          · exact (hno v h).elim
    · rw [if_neg h0, if_neg h1]
      constructor
      · intro h
        have := Except.ok.inj h
        refine .inr ⟨read, this.symm, rfl, h0, ?_⟩
        by_cases he : read = entry
        · exact .inl he
        · exact .inr (Decidable.not_not.mp fun hk => h1 ⟨he, hk⟩)
      · rintro (⟨_, h | h⟩ | ⟨v, rfl, rfl, _⟩)
        · exact absurd h h0
        · exact absurd h.1.2 h1
        · rfl

theorem storedVersion_err {w : World} {entry read : Text} {ig : Bool} {x : Exc} :
    storedVersion w entry read ig = .error x ↔
      x = .unknownVersion ∧ Unknown w entry read ∧ ig = false := by
  unfold storedVersion Unknown
  by_cases h0 : read = []
  · subst h0; simp
  · by_cases h1 : read ≠ entry ∧ read ∉ w.known
    · rw [if_neg h0, if_pos h1]
      cases ig <;> simp [h0, h1, eq_comm]
    · rw [if_neg h0, if_neg h1]
      constructor
      · intro h; cases h
      · rintro ⟨_, h, _⟩; exact absurd h.2 h1

theorem major_eq : ∀ t : Text, major t = t.takeWhile (· ≠ '.')
  | [] => rfl
  | c :: r => by
    rw [major, List.takeWhile_cons, major_eq r]
    by_cases h : c = '.' <;> simp [h]

theorem sameMajor_iff {a b : Text} : SameMajor a b ↔ major a = major b := by
  rw [major_eq, major_eq, SameMajor]

theorem plan_usable {w : World} {entry name read v : Text} {o : GetOpts}
    (ho : o.destination = none) (hu : Usable w entry read v) (hn : w.hasIds entry name = true) :
    plan w entry name read o =
      if o.autoconvert = true then
        if v = entry then .ok (entry, none)
        else if ¬ SameMajor v entry then .error .runtime
        else if w.cmp v entry = .eq then .error .type
        else if w.hasIds v name = true then .ok (entry, some ⟨entry, v⟩)
        else .error .value
      else if v ∈ w.known then
        if w.hasIds v name = true then .ok (v, none) else .error .idsName
      else .error .unknownVersion := by
  have hs : storedVersion w entry read o.ignoreUnknown = .ok (some v) :=
    storedVersion_ok.mpr (.inr ⟨v, rfl, hu⟩)
  simp only [plan, hs, destinationVersion, ho]
  by_cases ha : o.autoconvert = true
  · simp only [ha, if_true, chooseMap]
    by_cases hv : v = entry
    · simp only [hv, if_true]
    · simp only [if_neg hv]
      by_cases hm : ¬ SameMajor v entry
      · simp only [if_pos hm, if_pos (mt sameMajor_iff.2 hm)]
      · have hm' : ¬ major v ≠ major entry := fun h => hm (mt sameMajor_iff.1 h)
        have hk : v ∈ w.known := hu.2.2.resolve_left hv
        simp only [if_neg hm, if_neg hm', if_pos hk, versionMap, hn]
        cases hc : w.cmp v entry with
        | eq => simp
        | lt => cases hi : w.hasIds v name <;> simp
        | gt => cases hi : w.hasIds v name <;> simp
  · simp only [if_neg ha, factoryNew]
    by_cases hk : v ∈ w.known
    · simp only [if_pos hk]
      cases hi : w.hasIds v name with
      | true => simp [chooseMap]
      | false => simp
    · simp only [if_neg hk]

theorem plan_none {w : World} {entry name read : Text} {o : GetOpts}
    (ho : o.destination = none) (hs : storedVersion w entry read o.ignoreUnknown = .ok none) :
    plan w entry name read o = .ok (entry, none) := by
  simp only [plan, hs, destinationVersion, ho, chooseMap]

theorem usable_unique {w : World} {entry read v v' : Text} (h : Usable w entry read v)
    (h' : Usable w entry read v') : v' = v := h'.1.symm.trans h.1

theorem usable_not_unknown {w : World} {entry read v : Text} (h : Usable w entry read v)
    (h' : Unknown w entry read) : False := by
  obtain ⟨rfl, _, h⟩ := h
  rcases h with h | h
  · exact h'.2.1 h
  · exact h'.2.2 h

/-- **C41.** `get` without destination hands an IDS of version `v` to the backend, together with
the map from the paths of this version to those of version `u` of the data, exactly as the rules
of `Returns` say. -/
theorem C41_returned_version (w : World) (entry name read : Text) (o : GetOpts)
    (ho : o.destination = none) (hn : w.hasIds entry name = true) (v : Text) (m : Option NbcMap) :
    plan w entry name read o = .ok (v, m) ↔
      ∃ u, Returns w entry name read o v u ∧ m = u.map fun u => ⟨v, u⟩ := by
  by_cases hs : storedVersion w entry read o.ignoreUnknown = .ok none
  · rw [plan_none ho hs]
    rcases storedVersion_ok.mp hs with ⟨_, h⟩ | ⟨v', h, _⟩
    · constructor
      · intro e
        cases e
        rcases h with h | ⟨h, hi⟩
        · exact ⟨none, .unversioned h, rfl⟩
        · exact ⟨none, .ignored h hi, rfl⟩
      · rintro ⟨u, hr, rfl⟩
        have hnu : ∀ v', ¬Usable w entry read v' := fun v' hu => by
          rcases h with h | ⟨h, _⟩
          · exact hu.2.1 (hu.1 ▸ h)
          · exact usable_not_unknown hu h
        cases hr with
        | unversioned h => rfl
        | ignored h hi => rfl
        | same h ha => exact absurd h (hnu _)
        | converted h => exact absurd h (hnu _)
        | asStored h => exact absurd h (hnu _)
    · simp at h
  · by_cases hu : ∃ v', Usable w entry read v'
    · obtain ⟨v', hu⟩ := hu
      rw [plan_usable ho hu hn]
      have h0 : read ≠ [] := hu.1 ▸ hu.2.1
      constructor
      · intro e
        by_cases ha : o.autoconvert = true
        · rw [if_pos ha] at e
          split at e
          · next hv => cases e; subst hv; exact ⟨none, .same hu ha, rfl⟩
          · next hv =>
            split at e
            · cases e
            · next hm =>
              split at e
              · cases e
              · next hc =>
                split at e
                · next hi =>
                  cases e
                  exact ⟨some v', .converted hu ha hv (Decidable.not_not.mp hm) hi hc, rfl⟩
                · cases e
        · rw [if_neg ha] at e
          split at e
          · next hk =>
            split at e
            · next hi => cases e; exact ⟨none, .asStored hu (by simpa using ha) hk hi, rfl⟩
            · cases e
          · cases e
      · rintro ⟨u, hr, rfl⟩
        cases hr with
        | unversioned h => exact absurd h h0
        | ignored h hi => exact (usable_not_unknown hu h).elim
        | same h ha => rw [if_pos ha, if_pos (usable_unique h hu)]; rfl
        | @converted v1 h ha hv hm hi hc =>
          have := usable_unique h hu; subst this
          rw [if_pos ha, if_neg hv, if_neg (by simp [hm]), if_neg hc, if_pos hi]; rfl
        | asStored h ha hk hi =>
          have := usable_unique h hu; subst this
          rw [if_neg (by simp [ha]), if_pos hk, if_pos hi]; rfl
    · -- unknown version, refused
      have : ∃ x, storedVersion w entry read o.ignoreUnknown = .error x := by
        cases hc : storedVersion w entry read o.ignoreUnknown with
        | error x => exact ⟨x, rfl⟩
        | ok r =>
          rcases storedVersion_ok.mp hc with ⟨rfl, _⟩ | ⟨v', _, h⟩
          · exact absurd hc hs
          · exact absurd ⟨v', h⟩ hu
      obtain ⟨x, hx⟩ := this
      have hh := storedVersion_err.mp hx
      constructor
      · intro e; simp [plan, hx] at e
      · rintro ⟨u, hr, rfl⟩
        cases hr with
        | unversioned h => exact absurd h hh.2.1.1
        | ignored h hi => rw [hh.2.2] at hi; simp at hi
        | same h ha => exact absurd ⟨_, h⟩ hu
        | converted h => exact absurd ⟨_, h⟩ hu
        | asStored h => exact absurd ⟨_, h⟩ hu

/-- **C41.** `get` without destination refuses data that was found exactly in the cases of
`Refuses`, with the exception given there. -/
theorem C41_refused (w : World) (entry name read : Text) (o : GetOpts)
    (ho : o.destination = none) (hn : w.hasIds entry name = true) (x : Exc) :
    plan w entry name read o = .error x ↔ Refuses w entry name read o x := by
  by_cases hu : ∃ v', Usable w entry read v'
  · obtain ⟨v', hu⟩ := hu
    rw [plan_usable ho hu hn]
    constructor
    · intro e
      by_cases ha : o.autoconvert = true
      · rw [if_pos ha] at e
        split at e
        · cases e
        · next hv =>
          split at e
          · next hm => cases e; exact .major hu ha hm
          · next hm =>
            have hm := Decidable.not_not.mp hm
            split at e
            · next hc => cases e; exact .twin hu ha hv hm hc
            · next hc =>
              split at e
              · cases e
              · next hi => cases e; exact .missing hu ha hv hm (by simpa using hi) hc
      · rw [if_neg ha] at e
        have ha : o.autoconvert = false := by simpa using ha
        split at e
        · next hk =>
          split at e
          · cases e
          · next hi => cases e; exact .missingStored hu ha hk (by simpa using hi)
        · next hk =>
          cases e
          have := hu.2.2.resolve_right hk
          subst this
          exact .unreleased hu ha hk
    · intro hr
      cases hr with
      | unknown h hi => exact (usable_not_unknown hu h).elim
      | major h ha hm =>
        have := usable_unique h hu; subst this
        rw [if_pos ha, if_neg (by rintro rfl; exact hm rfl), if_pos hm]
      | missing h ha hv hm hi hc =>
        have := usable_unique h hu; subst this
        rw [if_pos ha, if_neg hv, if_neg (by simp [hm]), if_neg hc, if_neg (by simp [hi])]
      | twin h ha hv hm hc =>
        have := usable_unique h hu; subst this
        rw [if_pos ha, if_neg hv, if_neg (by simp [hm]), if_pos hc]
      | unreleased h ha hk =>
        have := usable_unique h hu; subst this
        rw [if_neg (by simp [ha]), if_neg hk]
      | missingStored h ha hk hi =>
        have := usable_unique h hu; subst this
        rw [if_neg (by simp [ha]), if_pos hk, if_neg (by simp [hi])]
  · constructor
    · intro e
      cases hs : storedVersion w entry read o.ignoreUnknown with
      | ok r =>
        rcases storedVersion_ok.mp hs with ⟨rfl, _⟩ | ⟨v', _, h⟩
        · rw [plan_none ho hs] at e; cases e
        · exact absurd ⟨v', h⟩ hu
      | error y =>
        simp only [plan, hs] at e
        cases e
        obtain ⟨rfl, h, hi⟩ := storedVersion_err.mp hs
        exact .unknown h hi
    · intro hr
      cases hr with
      | unknown h hi =>
        simp only [plan, storedVersion_err.mpr ⟨rfl, h, hi⟩]
      | major h => exact absurd ⟨_, h⟩ hu
      | missing h => exact absurd ⟨_, h⟩ hu
      | twin h => exact absurd ⟨_, h⟩ hu
      | unreleased h => exact absurd ⟨_, h⟩ hu
      | missingStored h => exact absurd ⟨_, h⟩ hu

/-- **C41.** The whole of `get` on an open entry, for an IDS that exists in the version of the
entry: the version of the stored data is read first; data is read only if the version allows it,
with the version map decided above; exceptions of the backend are passed on. -/
theorem C41_get (w : World) (e : Entry) (h : Nat) (hi : e.impl = some h) (name : Text) (occ : Int)
    (o : GetOpts) (hl : ¬(o.lzy = true ∧ o.destination.isSome = true))
    (hn : w.hasIds e.version name = true) :
    (∃ x, w.fails e.log (.readVersion name occ) = some x ∧
      get w e name occ o = ({ e with log := e.log ++ [⟨h, .readVersion name occ, false⟩] }, .error x)) ∨
    (w.fails e.log (.readVersion name occ) = none ∧
      ∃ log1, log1 = e.log ++ [⟨h, .readVersion name occ, true⟩] ∧
      ((∃ x, plan w e.version name (w.readVersion e.log) o = .error x ∧
          get w e name occ o = ({ e with log := log1 }, .error x)) ∨
       ∃ v m, plan w e.version name (w.readVersion e.log) o = .ok (v, m) ∧
        ((∃ x, w.fails log1 (.get name occ v o.lzy m) = some x ∧
            get w e name occ o =
              ({ e with log := log1 ++ [⟨h, .get name occ v o.lzy m, false⟩] }, .error x)) ∨
         (w.fails log1 (.get name occ v o.lzy m) = none ∧
            get w e name occ o =
              ({ e with log := log1 ++ [⟨h, .get name occ v o.lzy m, true⟩] },
                .ok (.ids v (w.data log1))))))) := by
  cases hf : w.fails e.log (.readVersion name occ) with
  | some x =>
    left
    refine ⟨x, rfl, ?_⟩
    unfold Verif.Entry.get
    simp only [hi, if_neg hl, hn, invoke, hf]
    simp
  | none =>
    right
    refine ⟨rfl, _, rfl, ?_⟩
    cases hp : plan w e.version name (w.readVersion e.log) o with
    | error x =>
      left
      refine ⟨x, rfl, ?_⟩
      unfold Verif.Entry.get
      simp only [hi, if_neg hl, hn, invoke, hf, hp]
      simp
    | ok r =>
      obtain ⟨v, m⟩ := r
      right
      refine ⟨v, m, rfl, ?_⟩
      cases hg : w.fails (e.log ++ [⟨h, .readVersion name occ, true⟩]) (.get name occ v o.lzy m) with
      | some x =>
        left
        refine ⟨x, rfl, ?_⟩
        unfold Verif.Entry.get
        simp only [hi, if_neg hl, hn, invoke, hf, hp, hg]
        simp
      | none =>
        right
        refine ⟨rfl, ?_⟩
        unfold Verif.Entry.get
        simp only [hi, if_neg hl, hn, invoke, hf, hp, hg]
        simp

/-- **C41, limit.** If the user gives a destination in another version than the entry, the code
uses the version map of the entry: with data in the version of the entry it always raises
`TypeError`, and with data in a third version the map is not one for the destination. -/
theorem C41_destination_limits (w : World) (entry name : Text) (d : Text) (o : GetOpts)
    (hd : o.destination = some d) (hm : SameMajor d entry) (hde : d ≠ entry)
    (hcmp : ∀ v, w.cmp v v = .eq) (hk : entry ∈ w.known) (he : entry ≠ []) :
    plan w entry name entry o = .error .type ∧
    ∀ v m, v ≠ entry → v ≠ d → plan w entry name v o = .ok (d, some m) → m.source = entry := by
  replace hm := sameMajor_iff.1 hm
  refine ⟨?_, ?_⟩
  · have hs : storedVersion w entry entry o.ignoreUnknown = .ok (some entry) :=
      storedVersion_ok.mpr (.inr ⟨entry, rfl, rfl, he, .inl rfl⟩)
    simp only [plan, hs, destinationVersion, hd, chooseMap, if_neg (Ne.symm hde), hm, if_pos hk,
      versionMap, hcmp]
    simp
  · intro v m hv hvd hp
    cases hs : storedVersion w entry v o.ignoreUnknown with
    | error x => simp [plan, hs] at hp
    | ok r =>
      simp only [plan, hs, destinationVersion, hd] at hp
      cases hc : chooseMap w entry name r d with
      | error x => rw [hc] at hp; cases hp
      | ok m' =>
        rw [hc] at hp
        have e := Except.ok.inj hp
        have e2 : m' = some m := congrArg Prod.snd e
        subst e2
        unfold chooseMap at hc
        cases r with
        | none => simp at hc
        | some u =>
          simp only at hc
          split at hc
          · cases hc
          · split at hc
            · cases hc
            · split at hc
              · unfold versionMap at hc
                cases hcc : w.cmp u entry with
                | eq => simp [hcc] at hc
                | lt =>
                  simp only [hcc] at hc
                  split at hc
                  · cases hc
                  · next hx =>
                    split at hx
                    · cases hx; cases hc; rfl
                    · cases hx
                | gt =>
                  simp only [hcc] at hc
                  split at hc
                  · cases hc
                  · next hx =>
                    split at hx
                    · cases hx; cases hc; rfl
                    · cases hx
              · cases hc

/-- Data of version 3.1 is converted for an entry of version 3.2 … -/
example : plan calmWorld "3.2".toList "x".toList "3.1".toList ⟨false, true, false, none⟩ =
    .ok ("3.2".toList, some ⟨"3.2".toList, "3.1".toList⟩) := by rfl
/-- … is returned as it is without conversion … -/
example : plan calmWorld "3.2".toList "x".toList "3.1".toList ⟨false, false, false, none⟩ =
    .ok ("3.1".toList, none) := by rfl
/-- … and refused for an entry of version 4.0. -/
example : plan calmWorld "4.0".toList "x".toList "3.1".toList ⟨false, true, false, none⟩ =
    .error .runtime := by rfl
/-- A destination of version 3.2 for an entry of version 3.1. -/
example : plan calmWorld "3.1".toList "x".toList "3.1".toList
    ⟨false, true, false, some "3.2".toList⟩ = .error .type := by rfl

/-! ### C42 -/

theorem autoValidate_ok {w : World} {dis : Option Text} {d : Doc} :
    (∃ u, autoValidate w dis d = .ok u) ↔ ValidationOff dis ∨ w.validate d = none := by
  unfold autoValidate ValidationOff
  by_cases h : dis = none ∨ dis = some [] ∨ dis = some ['0']
  · rw [if_pos h]
    have hno : ¬∃ t, dis = some t ∧ t ≠ [] ∧ t ≠ ['0'] := by
      rintro ⟨t, rfl, h1, h2⟩
      rcases h with h | h | h
      · simp at h
      · exact h1 (by simpa using h)
      · exact h2 (by simpa using h)
    cases w.validate d with
    | none => simp
    | some x => simp [hno]
  · rw [if_neg h]
    have : ∃ t, dis = some t ∧ t ≠ [] ∧ t ≠ ['0'] := by
      cases dis with
      | none => simp at h
      | some t => exact ⟨t, rfl, fun e => h (by simp [e]), fun e => h (by simp [e])⟩
    simp [this]

theorem mode_iff (m : Int) : m ∈ timeModes ↔ m = 0 ∨ m = 1 ∨ m = 2 := by simp [timeModes]

/-- **C42.** `put` and `put_slice` on an open entry call the backend's `put` only for storable
IDSs; all other IDSs are refused with an exception, and the backend is not called at all. -/
theorem C42_refused (w : World) (dis : Option Text) (e : Entry) (h : Nat) (hi : e.impl = some h)
    (d : Doc) (occ : Int) (s : Bool) (hs : ¬Storable w dis d s) :
    ∃ x d', put w dis e d occ s = (e, d', .error x) := by
  unfold put
  rw [hi]
  simp only
  split
  · exact ⟨_, _, rfl⟩
  · next hl =>
    split
    · exact ⟨_, _, rfl⟩
    · next u hv =>
      split
      · exact ⟨_, _, rfl⟩
      · next hm =>
        have hm := Decidable.not_not.mp hm
        by_cases hc : s = true ∧
            (if d.constant = true then { d with mode := independent } else d).mode = independent
        · rw [if_pos hc]; exact ⟨_, _, rfl⟩
        · exfalso
          apply hs
          refine ⟨by simpa using hl, autoValidate_ok.mp ⟨u, hv⟩, (mode_iff _).mp hm, ?_⟩
          intro hs
          cases hcc : d.constant with
          | true => exact absurd ⟨hs, by simp [hcc]⟩ hc
          | false =>
            refine ⟨fun h2 => hc ⟨hs, ?_⟩, rfl⟩
            simp [hcc, h2, independent]

/-- **C42.** A storable IDS is handed to the backend exactly once, after its time mode and
version information have been set; the IDS of the user ends up as it was stored. Only if the
backend cannot tell its version, it is not called. -/
theorem C42_stored (w : World) (dis : Option Text) (e : Entry) (h : Nat) (hi : e.impl = some h)
    (d : Doc) (occ : Int) (s : Bool) (hs : Storable w dis d s)
    (hv : w.fails e.log .alVersion = none) :
    ∃ log1, (log1 = e.log ∧ d.versionPut = none ∨
        log1 = e.log ++ [⟨h, .alVersion, true⟩] ∧ d.versionPut ≠ none) ∧
      put w dis e d occ s =
        ({ e with log := (invoke w log1 h (.put (stored w e d) occ s)).1 }, stored w e d,
          match w.fails log1 (.put (stored w e d) occ s) with
          | none => .ok .unit
          | some x => .error x) := by
  obtain ⟨hl, hval, hm, hsl⟩ := hs
  obtain ⟨u, hu⟩ := autoValidate_ok.mpr hval
  have hmode : ¬d.mode ∉ timeModes := by simp [mode_iff, hm]
  have hl : ¬d.isLazy = true := by simp [hl]
  have hcond : ¬(s = true ∧
      (if d.constant = true then { d with mode := independent } else d).mode = independent) := by
    rintro ⟨h1, h2⟩
    obtain ⟨h3, h4⟩ := hsl h1
    simp [h4, independent] at h2
    exact h3 h2
  cases hvp : d.versionPut with
  | none =>
    refine ⟨e.log, .inl ⟨rfl, rfl⟩, ?_⟩
    have hd1 : (if d.constant = true then { d with mode := independent } else d) = stored w e d := by
      cases hcc : d.constant <;> simp [stored, hcc, hvp, independent] <;> cases d <;> simp_all
    unfold put
    simp only [hi, if_neg hl, hu, if_neg hmode, if_neg hcond]
    rw [hd1]
    have : (stored w e d).versionPut = none := by simp [stored, hvp]
    simp only [this, invoke]
    cases w.fails e.log (.put (stored w e d) occ s) <;> simp
  | some vp =>
    refine ⟨e.log ++ [⟨h, .alVersion, true⟩], .inr ⟨rfl, by simp⟩, ?_⟩
    have hvp1 : (if d.constant = true then { d with mode := independent } else d).versionPut =
        some vp := by cases d.constant <;> simp [hvp]
    have hd2 : { (if d.constant = true then { d with mode := independent } else d) with
        versionPut := some ⟨e.version, w.alVersion e.log, w.language⟩ } = stored w e d := by
      cases hcc : d.constant <;> simp [stored, hcc, hvp, independent]
    unfold put
    simp only [hi, if_neg hl, hu, if_neg hmode, if_neg hcond, hvp1]
    simp only [invoke, hv, hd2]
    cases w.fails (e.log ++ [⟨h, .alVersion, true⟩]) (.put (stored w e d) occ s) <;> simp

/-- **C42.** What is stored has a valid time mode, a constant IDS is time independent, and the
version of the entry is noted. -/
theorem C42_stored_ids (w : World) (dis : Option Text) (e : Entry) (d : Doc) (s : Bool)
    (hs : Storable w dis d s) :
    ((stored w e d).mode = 0 ∨ (stored w e d).mode = 1 ∨ (stored w e d).mode = 2) ∧
    (d.constant = true → (stored w e d).mode = 2) ∧
    (d.constant = false → (stored w e d).mode = d.mode) ∧
    (∀ vp, (stored w e d).versionPut = some vp → vp.dataDictionary = e.version) ∧
    ((stored w e d).versionPut = none ↔ d.versionPut = none) ∧
    (stored w e d).name = d.name ∧ (stored w e d).rest = d.rest := by
  refine ⟨?_, ?_, ?_, ?_, ?_, rfl, rfl⟩
  · cases h : d.constant <;> simp [stored, h]; exact hs.2.2.1
  · intro h; simp [stored, h]
  · intro h; simp [stored, h]
  · intro vp h
    simp only [stored, Option.map_eq_some_iff] at h
    obtain ⟨a, _, rfl⟩ := h
    rfl
  · simp [stored]

/-- A constant IDS with time mode 0. -/
def sampleDoc : Doc := ⟨"wall".toList, "3.2".toList, false, true, 0, some ⟨[], [], []⟩, 7⟩

example : Storable calmWorld none sampleDoc false ∧ ¬Storable calmWorld none sampleDoc true :=
  ⟨⟨rfl, .inr rfl, .inl rfl, by simp⟩, fun h => by simpa [sampleDoc] using (h.2.2.2 rfl).2⟩

end Verif.Props
