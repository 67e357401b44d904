import Verif.Model.Serialize
/-! C43: serialization. -/
namespace Verif.Props
open Verif.Serialize

variable {D : Type}

/-- What is assumed of the Access Layer when nothing fails: the ASCII backend leaves an encoding
of the data in the file and reads it back; reading and writing files does not change bytes; the
flexbuffers backend decodes what it has encoded, and its buffers begin with its number. -/
structure Faithful (w : World D) (enc : D → Bytes) : Prop where
  put : ∀ d f f', w.put d f = (f', .ok ()) → ∀ f'' , w.closeWrite d f' = (f'', .ok ()) →
    f'' = some (enc d)
  nonempty : ∀ d, enc d ≠ []
  readFile : ∀ b b', w.readFile b = .ok b' → b' = b
  writeFile : ∀ b f f', w.writeFile b f = (f', .ok ()) → f' = some b
  openEntry : ∀ b f, w.openEntry (some b) = (f, .ok ()) → f = some b
  get : ∀ d f r, w.get (some (enc d)) = (f, .ok r) → r = d
  flex : ∀ d b, w.flexWrite d = .ok b → (∃ c r, b = flexNumber :: c :: r) ∧
    ∀ r, w.flexRead b = .ok r → r = d

/-- **C43.** For every protocol: if serializing an IDS succeeds and deserializing the bytes succeeds,
the result is the original IDS. -/
theorem C43_round_trip (w : World D) (enc : D → Bytes) (h : Faithful w enc) (p : Option Nat) (d : D)
    (b : Bytes) (d' : D) (hs : (serialize w p d).2 = .ok b) (hd : (deserialize w b).2 = .ok d') :
    d' = d := by
  unfold serialize at hs
  simp only at hs
  split at hs
  · cases hs
  · split at hs
    · -- ASCII
      unfold serializeAscii at hs
      cases h1 : w.openEntry none with
      | mk f1 r1 =>
        cases r1 with
        | error e => simp [h1] at hs
        | ok u1 =>
          simp only [h1] at hs
          cases h2 : w.put d f1 with
          | mk f2 r2 =>
            cases r2 with
            | error e => simp [h2] at hs
            | ok u2 =>
              simp only [h2] at hs
              cases h3 : w.closeWrite d f2 with
              | mk f3 r3 =>
                cases r3 with
                | error e => simp [h3] at hs
                | ok u3 =>
                  have e3 := h.put d f1 f2 h2 f3 h3
                  subst e3
                  simp only [h3] at hs
                  cases h4 : w.readFile (enc d) with
                  | error e => simp [h4] at hs
                  | ok data =>
                    have e4 := h.readFile _ _ h4
                    subst e4
                    simp only [h4] at hs
                    have hb := (Except.ok.inj hs).symm
                    subst hb
                    cases he : enc d with
                    | nil => exact absurd he (h.nonempty d)
                    | cons c r =>
                      rw [he] at hd
                      simp only [deserialize, if_true] at hd
                      unfold deserializeAscii at hd
                      cases g1 : w.writeFile (c :: r) none with
                      | mk f5 r5 =>
                        cases r5 with
                        | error e => simp [g1] at hd
                        | ok u5 =>
                          have e5 := h.writeFile _ _ _ g1
                          subst e5
                          simp only [g1] at hd
                          cases g2 : w.openEntry (some (c :: r)) with
                          | mk f6 r6 =>
                            cases r6 with
                            | error e => simp [g2] at hd
                            | ok u6 =>
                              have e6 := h.openEntry _ _ g2
                              subst e6
                              simp only [g2] at hd
                              cases g3 : w.get (some (c :: r)) with
                              | mk f7 r7 =>
                                cases r7 with
                                | error e => simp [g3] at hd
                                | ok x =>
                                  have g3' := g3
                                  rw [← he] at g3'
                                  have e7 := h.get d _ _ g3'
                                  subst e7
                                  simp only [g3] at hd
                                  cases g4 : w.closeRead f7 with
                                  | mk f8 r8 =>
                                    cases r8 with
                                    | error e => simp [g4] at hd
                                    | ok u8 =>
                                      simp only [g4] at hd
                                      exact (Except.ok.inj hd).symm
    · split at hs
      · next hf =>
        obtain ⟨⟨c, r, rfl⟩, hr⟩ := h.flex d b hs
        have : flexNumber ≠ asciiProtocol := by decide
        simp only [deserialize, if_neg this, hf.1, true_and, if_true] at hd
        exact hr d' hd
      · cases hs

/-- An Access Layer and a file system that never fail: `enc d` is what the ASCII backend leaves in the file for `d`. -/
structure Reliable (w : World D) (enc : D → Bytes) : Prop where
  write : ∀ d, w.isUnset d = false → ∃ f f', w.openEntry none = (f, .ok ()) ∧ w.put d f = (f', .ok ()) ∧
    w.closeWrite d f' = (some (enc d), .ok ())
  nonempty : ∀ d, enc d ≠ []
  readFile : ∀ b, w.readFile b = .ok b
  writeFile : ∀ b, w.writeFile b none = (some b, .ok ())
  openEntry : ∀ b, w.openEntry (some b) = (some b, .ok ())
  get : ∀ d, w.isUnset d = false → ∃ f f', w.get (some (enc d)) = (f, .ok d) ∧ w.closeRead f = (f', .ok ())
  flex : w.flex = true → ∀ d, w.isUnset d = false → ∃ c r, w.flexWrite d = .ok (61 :: c :: r) ∧
    w.flexRead (61 :: c :: r) = .ok d

/-- **C43.** If nothing fails outside: an IDS with a time mode is serialized with every protocol that the installed
Access Layer supports, also if none is given, the first byte is the number of the protocol, and deserializing
the bytes gives the IDS. All other protocols are refused, and so is an IDS without time mode. -/
theorem C43_succeeds (w : World D) (enc : D → Bytes) (h : Reliable w enc) (p : Option Nat) (d : D) :
    (w.isUnset d = false ∧ (p = none ∨ p = some 60 ∨ p = some 61 ∧ w.flex = true) →
      ∃ n b, serialize w p d = (none, .ok (n :: b)) ∧ (∀ k, p = some k → n = k) ∧
        (p = none → n = if w.flex = true then 61 else 60) ∧ deserialize w (n :: b) = (none, .ok d)) ∧
    (¬ (w.isUnset d = false ∧ (p = none ∨ p = some 60 ∨ p = some 61 ∧ w.flex = true)) →
      serialize w p d = (none, .error .value)) := by
  have ascii : w.isUnset d = false → serializeAscii w d = (none, .ok (60 :: enc d)) ∧
      deserialize w (60 :: enc d) = (none, .ok d) := by
    intro hu
    obtain ⟨f, f', h1, h2, h3⟩ := h.write d hu
    obtain ⟨g, g', h4, h5⟩ := h.get d hu
    refine ⟨by simp only [serializeAscii, h1, h2, h3, h.readFile]; rfl, ?_⟩
    cases he : enc d with
    | nil => exact absurd he (h.nonempty d)
    | cons c r =>
      rw [he] at h4
      simp only [deserialize, asciiProtocol, if_true, deserializeAscii, h.writeFile, h.openEntry, h4, h5]
      cases g' <;> rfl
  refine ⟨?_, ?_⟩
  · rintro ⟨hu, hp⟩
    have a1 := ascii hu
    have flex : w.flex = true → ∃ b, w.flexWrite d = .ok (61 :: b) ∧ deserialize w (61 :: b) = (none, .ok d) := by
      intro hf
      obtain ⟨c, r, h1, h2⟩ := h.flex hf d hu
      exact ⟨_, h1, by simp [deserialize, asciiProtocol, flexNumber, hf, h2]⟩
    have ha : ∀ q : Option Nat, q.getD (defaultProtocol w) = 60 → serialize w q d = (none, .ok (60 :: enc d)) := by
      intro q hq
      simp only [serialize, hq, hu, Bool.false_eq_true, if_false, asciiProtocol, if_true, a1.1]
    have hb : ∀ q : Option Nat, q.getD (defaultProtocol w) = 61 → w.flex = true → serialize w q d = (none, w.flexWrite d) := by
      intro q hq hf
      simp [serialize, hq, hu, asciiProtocol, flexNumber, hf]
    rcases hp with rfl | rfl | ⟨rfl, hf⟩
    · by_cases hf : w.flex = true
      · obtain ⟨b, h1, h2⟩ := flex hf
        exact ⟨61, b, by rw [hb none (by simp [defaultProtocol, hf, flexNumber]) hf, h1], by simp, by simp [hf], h2⟩
      · exact ⟨60, _, ha none (by simp [defaultProtocol, hf, asciiProtocol]), by simp, by simp [hf], a1.2⟩
    · exact ⟨60, _, ha _ rfl, by simp, by simp, a1.2⟩
    · obtain ⟨b, h1, h2⟩ := flex hf
      exact ⟨61, b, by rw [hb _ rfl hf, h1], by simp, by simp, h2⟩
  · intro hn
    unfold serialize
    simp only
    split
    · rfl
    · next hu =>
      have hu : w.isUnset d = false := by simpa using hu
      cases p with
      | none => exact absurd ⟨hu, .inl rfl⟩ hn
      | some k =>
        have e : (some k).getD (defaultProtocol w) = k := rfl
        rw [e, asciiProtocol, flexNumber, if_neg (fun e => hn ⟨hu, .inr (.inl (congrArg some e))⟩),
          if_neg (fun e => hn ⟨hu, .inr (.inr ⟨congrArg some e.2, e.1⟩)⟩)]

/-- **C43.** Deserializing leaves no temporary file, whatever the bytes are and wherever it
fails. -/
theorem C43_deserialize_leaves_no_file (w : World D) (data : Bytes) :
    (deserialize w data).1 = none := by
  unfold deserialize
  split
  · rfl
  · rfl
  · split
    · simp only; cases (deserializeAscii w _).1 <;> rfl
    · split
      · rfl
      · split <;> rfl

/-- **C43.** Bytes that cannot come from `serialize` - fewer than two, or beginning with another
number - are refused, and nothing is written or read. -/
theorem C43_malformed_refused (w : World D) (data : Bytes)
    (h : data.length ≤ 1 ∨ ∃ p r, data = p :: r ∧ p ≠ asciiProtocol ∧ (p ≠ flexNumber ∨ w.flex = false)) :
    ∃ e, deserialize w data = (none, .error e) ∧ (e = .value ∨ e = .notImplemented ∧
      data.head? = some flexNumber) := by
  cases data with
  | nil => exact ⟨.value, rfl, .inl rfl⟩
  | cons p r =>
    cases r with
    | nil => exact ⟨.value, rfl, .inl rfl⟩
    | cons c r =>
      rcases h with h | ⟨p', r', e, h1, h2⟩
      · simp at h
      · cases e
        simp only [deserialize, if_neg h1]
        rcases h2 with h2 | h2
        · refine ⟨.value, ?_, .inl rfl⟩
          simp [h2]
        · simp only [h2, Bool.false_eq_true, false_and, if_false]
          by_cases hp : p = flexNumber
          · refine ⟨.notImplemented, by simp [hp], .inr ⟨rfl, by simp [hp]⟩⟩
          · exact ⟨.value, by simp [hp], .inl rfl⟩

/-- **C43 (partial).** Serializing leaves no temporary file if it succeeds, or if it fails at any
point after the data has been written and the entry closed. Missing: failures before, see
`C43_failed_put_leaves_file`. -/
theorem C43_serialize_leaves_no_file_partial (w : World D) (p : Option Nat) (d : D)
    (h : ∀ f f', w.openEntry none = (f, .ok ()) → w.put d f = (f', .ok ()) →
      ∃ f'', w.closeWrite d f' = (f'', .ok ()))
    (hp : ∀ f, w.openEntry none = (f, .ok ()) → ∃ f', w.put d f = (f', .ok ()))
    (ho : ∃ f, w.openEntry none = (f, .ok ())) :
    (serialize w p d).1 = none := by
  unfold serialize
  simp only
  split
  · rfl
  · split
    · obtain ⟨f, hf⟩ := ho
      obtain ⟨f', hf'⟩ := hp f hf
      obtain ⟨f'', hf''⟩ := h f f' hf hf'
      simp only [serializeAscii, hf, hf', hf'']
      cases f'' with
      | none => rfl
      | some b => simp only; split <;> rfl
    · split <;> rfl

/-- **C43.** If serializing succeeds, no temporary file is left. -/
theorem C43_successful_serialize_leaves_no_file (w : World D) (p : Option Nat) (d : D) (b : Bytes)
    (h : (serialize w p d).2 = .ok b) : (serialize w p d).1 = none := by
  unfold serialize at h ⊢
  simp only at h ⊢
  split
  · rfl
  · next hu =>
    rw [if_neg hu] at h
    split
    · next ha =>
      rw [if_pos ha] at h
      unfold serializeAscii at h ⊢
      cases h1 : w.openEntry none with
      | mk f1 r1 =>
        cases r1 with
        | error e => simp [h1] at h
        | ok u1 =>
          simp only [h1] at h ⊢
          cases h2 : w.put d f1 with
          | mk f2 r2 =>
            cases r2 with
            | error e => simp [h2] at h
            | ok u2 =>
              simp only [h2] at h ⊢
              cases h3 : w.closeWrite d f2 with
              | mk f3 r3 =>
                cases r3 with
                | error e => simp [h3] at h
                | ok u3 =>
                  simp only [h3] at h ⊢
                  cases f3 with
                  | none => rfl
                  | some b => simp only; split <;> rfl
    · split <;> rfl

/-- **C43, limit.** If `put` fails after the file was created, for instance because the IDS is not
valid, the temporary file stays. -/
theorem C43_failed_put_leaves_file (w : World D) (d : D) (f f' : File) (b : Bytes) (e : Exc)
    (hu : w.isUnset d = false) (ho : w.openEntry none = (f, .ok ()))
    (hp : w.put d f = (f', .error e)) (hf : f' = some b) :
    serialize w (some asciiProtocol) d = (some b, .error e) := by
  subst hf
  simp [serialize, hu, serializeAscii, ho, hp]

/-- A backend for numbers: `0` is unset, `7` cannot be put. -/
def sampleSerializer : World Nat where
  flex := true
  isUnset d := d == 0
  openEntry f := (some (f.getD []), .ok ())
  put d f := if d = 7 then (f, .error (.other 1)) else (f, .ok ())
  closeWrite d _ := (some [d, d], .ok ())
  readFile b := .ok b
  writeFile b _ := (some b, .ok ())
  get f := match f with
    | some [a, b] => if a = b then (f, .ok a) else (f, .error .value)
    | _ => (f, .error .value)
  closeRead f := (f, .ok ())
  flexWrite d := .ok [flexNumber, d]
  flexRead b := match b with
    | [61, d] => .ok d
    | _ => .error .value

example : Faithful sampleSerializer (fun d => [d, d]) where
  put d f f' _ f'' h := by cases h; rfl
  nonempty d := by simp
  readFile b b' h := by cases h; rfl
  writeFile b f f' h := by cases h; rfl
  openEntry b f h := by cases h; rfl
  get d f r h := by simp [sampleSerializer] at h; exact h.2.symm
  flex d b h := by
    cases h
    exact ⟨⟨d, [], rfl⟩, fun r hr => by cases hr; rfl⟩

/-- The same backend, on which every value can be put. -/
def reliableSerializer : World Nat := { sampleSerializer with put := fun _ f => (f, .ok ()) }

example : Reliable reliableSerializer (fun d => [d, d]) where
  write d _ := ⟨_, _, rfl, rfl, rfl⟩
  nonempty d := by simp
  readFile b := rfl
  writeFile b := rfl
  openEntry b := rfl
  get d _ := ⟨some [d, d], some [d, d], by simp [reliableSerializer, sampleSerializer], rfl⟩
  flex _ d _ := ⟨d, [], rfl, rfl⟩

example : (serialize sampleSerializer (some 60) 5).2 = .ok [60, 5, 5] ∧
    (deserialize sampleSerializer [60, 5, 5]).2 = .ok 5 ∧
    (serialize sampleSerializer (some 60) 7).1 = some [] := ⟨rfl, rfl, rfl⟩

end Verif.Props
