import Verif.Spec.Command
/-
C65: the command `imas convert`.
-/
namespace Verif.Props
open Verif.Command Verif.CommandSpec

variable {R D : Type} {W : World R D} {a : Args}

/-! ### Parts -/

theorem cmd_target_iff {t : Target} : target W a = .ok t ↔ Asks W a t := by
  unfold target
  constructor
  · intro h
    split at h
    · cases h; exact .version ‹_›
    · split at h
      · cases h; exact .file ‹_› ‹_›
      · cases h
  · intro h
    cases h with
    | version h => rw [if_pos h]
    | file h h' => rw [if_neg h, if_pos h']

theorem cmd_target_error {e : Exc} (h : target W a = .error e) : e = .unknownVersion ∧ ∀ t, ¬ Asks W a t := by
  refine ⟨?_, fun t ht => ?_⟩
  · unfold target at h
    split at h
    · cases h
    · split at h
      · cases h
      · cases h; rfl
  · rw [cmd_target_iff.mpr ht] at h
    cases h

theorem cmd_asks_unique {t t' : Target} (h : Asks W a t) (h' : Asks W a t') : t = t' := by
  have := (cmd_target_iff.mpr h).symm.trans (cmd_target_iff.mpr h')
  cases this
  rfl

theorem cmd_idsList {t : Target} {n : Text} : n ∈ idsList W a t ↔ AsksIds W a t n := by
  unfold idsList AsksIds
  have e : "*".toList = ['*'] := rfl
  rw [e]
  by_cases h : a.ids = ['*']
  · simp [h]
  · simp [h]

theorem cmd_idsList_nodup {t : Target} (h : NamesOnce W) : (idsList W a t).Nodup := by
  unfold idsList
  split
  · simp
  · exact h t

/-- The work list holds exactly the occurrences asked for, each once. -/
theorem cmd_work (hl : ListsTruth W) : ∀ (ns : List Text) (l : List (Text × Int)), (work W a ns).2 = .ok l → ns.Nodup →
    l.Nodup ∧ ∀ n o, (n, o) ∈ l ↔ n ∈ ns ∧ AsksOcc W a n o := by
  intro ns
  induction ns with
  | nil =>
    intro l h _
    cases h
    simp
  | cons n r ih =>
    intro l h hn
    rw [List.nodup_cons] at hn
    unfold work at h
    split at h
    · rename_i hocc
      split at h
      · cases h
      · rename_i occs ho
        obtain ⟨h1, h2⟩ := hl _ _ ho
        cases hw : (work W a r).2 with
        | error e => simp [hw, Except.map] at h
        | ok rest =>
          simp only [hw, Except.map] at h
          cases h
          obtain ⟨i1, i2⟩ := ih rest hw hn.2
          refine ⟨?_, ?_⟩
          · rw [List.nodup_append]
            refine ⟨?_, i1, ?_⟩
            · exact List.Pairwise.map _ (fun x y hxy he => hxy (congrArg Prod.snd he)) h1
            · rintro ⟨x, o⟩ hx ⟨y, o'⟩ hy he
              obtain ⟨o2, -, he2⟩ := List.mem_map.mp hx
              cases he2
              cases he
              exact hn.1 ((i2 _ _).mp hy).1
          · intro n' o
            rw [List.mem_append, i2, List.mem_cons, List.mem_map]
            constructor
            · rintro (⟨o', h3, h4⟩ | ⟨h3, h4⟩)
              · cases h4
                exact ⟨.inl rfl, .inl ⟨hocc, (h2 _).mp h3⟩⟩
              · exact ⟨.inr h3, h4⟩
            · rintro ⟨rfl | h3, h4⟩
              · rcases h4 with ⟨-, h4⟩ | ⟨h4, -⟩
                · exact .inl ⟨o, (h2 _).mpr h4, rfl⟩
                · exact absurd hocc h4
              · exact .inr ⟨h3, h4⟩
    · rename_i hocc
      cases hw : (work W a r).2 with
      | error e => simp [hw, Except.map] at h
      | ok rest =>
        simp only [hw, Except.map] at h
        cases h
        obtain ⟨i1, i2⟩ := ih rest hw hn.2
        refine ⟨?_, ?_⟩
        · rw [List.nodup_cons]
          exact ⟨fun hm => hn.1 ((i2 _ _).mp hm).1, i1⟩
        · intro n' o
          rw [List.mem_cons, i2, List.mem_cons]
          constructor
          · rintro (h3 | ⟨h3, h4⟩)
            · cases h3
              exact ⟨.inl rfl, .inr ⟨hocc, rfl⟩⟩
            · exact ⟨.inr h3, h4⟩
          · rintro ⟨rfl | h3, h4⟩
            · rcases h4 with ⟨h4, -⟩ | ⟨-, h4⟩
              · exact absurd h4 hocc
              · rw [h4]; exact .inl rfl
            · exact .inr ⟨h3, h4⟩

/-- When the work list can be made. -/
theorem cmd_work_ok (ns : List Text) :
    (∃ l, (work W a ns).2 = .ok l) ↔ (a.occurrence = -1 → ∀ n ∈ ns, ∃ l, W.list n = .ok l) := by
  induction ns with
  | nil => exact ⟨fun _ _ n hn => (by cases hn), fun _ => ⟨[], rfl⟩⟩
  | cons n r ih =>
    unfold work
    split
    · rename_i hocc
      split
      · rename_i e he
        constructor
        · rintro ⟨l, h⟩; cases h
        · intro h
          obtain ⟨l, h2⟩ := h hocc n (List.mem_cons_self ..)
          rw [he] at h2
          cases h2
      · rename_i l0 hl0
        constructor
        · rintro ⟨l, h⟩ _ n' hn'
          rcases List.mem_cons.mp hn' with rfl | hn'
          · exact ⟨_, hl0⟩
          · refine ih.mp ?_ hocc n' hn'
            cases hw : (work W a r).2 with
            | error e => simp [hw, Except.map] at h
            | ok x => exact ⟨x, rfl⟩
        · intro h
          obtain ⟨x, hx⟩ := ih.mpr (fun _ n' hn' => h hocc n' (List.mem_cons_of_mem _ hn'))
          exact ⟨l0.map (fun o => (n, o)) ++ x, by simp [hx, Except.map]⟩
    · rename_i hocc
      refine ⟨fun _ h => absurd h hocc, fun _ => ?_⟩
      obtain ⟨x, hx⟩ := ih.mpr (fun h => absurd h hocc)
      exact ⟨(n, a.occurrence) :: x, by simp [hx, Except.map]⟩

/-- Reading an occurrence gives what it holds, for IDSs that the default dictionary knows. -/
theorem cmd_getIn {n : Text} {o : Int} {v : Text} {d : D} :
    getIn W n o = .ok (v, d) ↔ W.knows W.inVersion n = true ∧ Holds W n o v d := by
  unfold getIn Holds storedVersion
  cases hk : W.knows W.inVersion n
  · simp
  · simp only [Bool.not_true, Bool.false_eq_true, if_false, true_and]
    cases hs : W.stored n o with
    | none => simp
    | some x =>
      obtain ⟨v', r⟩ := x
      simp only [Option.some.injEq, Prod.mk.injEq]
      by_cases hv : v' = []
      · simp only [hv, if_true]
        constructor
        · intro h
          cases hl : W.load W.inVersion n r with
          | error e => simp [hl, Except.map] at h
          | ok d' =>
            simp only [hl, Except.map] at h
            cases h
            exact ⟨[], r, ⟨rfl, rfl⟩, by simp, .inl rfl, hk, hl⟩
        · rintro ⟨w, r', ⟨rfl, rfl⟩, h2, -, -, h3⟩
          simp only [if_true] at h2
          subst h2
          simp [h3, Except.map]
      · simp only [hv, if_false]
        constructor
        · intro h
          split at h
          · cases h
          · rename_i hu
            split at h
            · cases h
            · rename_i hk'
              cases hl : W.load v' n r with
              | error e => simp [hl, Except.map] at h
              | ok d' =>
                simp only [hl, Except.map] at h
                cases h
                refine ⟨v, r, ⟨rfl, rfl⟩, by simp [hv], ?_, by simpa using hk', hl⟩
                by_cases h1 : v = W.inVersion
                · exact .inl h1
                · by_cases h2 : v ∈ W.versions
                  · exact .inr h2
                  · exact absurd ⟨h1, h2⟩ hu
        · rintro ⟨w, r', ⟨rfl, rfl⟩, h2, h3, h4, h5⟩
          simp only [hv, if_false] at h2
          subst h2
          have : ¬ (v ≠ W.inVersion ∧ v ∉ W.versions) := by
            rintro ⟨h6, h7⟩
            rcases h3 with h3 | h3
            · exact h6 h3
            · exact h7 h3
          rw [if_neg this]
          simp [h4, h5, Except.map]

theorem cmd_convertIds {t : Target} {n v : Text} {d d' : D} : convertIds W a t n v d = .ok d' ↔
    n ∈ W.names t ∧ ∃ c, W.convert v t n d = .ok c ∧
      ((a.noProvenance = true ∨ a.uriIn = [] → d' = c) ∧
        (a.noProvenance = false → a.uriIn ≠ [] → d' = W.origin v a.uriIn c)) := by
  unfold convertIds
  by_cases hn : n ∈ W.names t
  · simp only [hn, not_true_eq_false, if_false, true_and]
    cases hc : W.convert v t n d with
    | error e => simp [Except.map]
    | ok c =>
      simp only [Except.map, Except.ok.injEq]
      cases hp : a.noProvenance
      · by_cases hu : a.uriIn = []
        · simp [hu, eq_comm]
        · simp [hu, eq_comm]
      · simp [eq_comm]
  · simp [hn]

/-- What the loop puts for an occurrence. -/
theorem cmd_image {t : Target} {n : Text} {o : Int} {d' : D} :
    (∃ v d, getIn W n o = .ok (v, d) ∧ (if v = W.outVersion t then .ok d else convertIds W a t n v d) = .ok d') ↔
      W.knows W.inVersion n = true ∧ Image W a t n o d' := by
  unfold Image
  constructor
  · rintro ⟨v, d, h1, h2⟩
    obtain ⟨h3, h4⟩ := cmd_getIn.mp h1
    refine ⟨h3, v, d, h4, ?_⟩
    split at h2
    · cases h2
      exact .inl ⟨‹_›, rfl⟩
    · exact .inr ⟨‹_›, cmd_convertIds.mp h2⟩
  · rintro ⟨h1, v, d, h2, h3⟩
    refine ⟨v, d, cmd_getIn.mpr ⟨h1, h2⟩, ?_⟩
    rcases h3 with ⟨h3, rfl⟩ | ⟨h3, h4⟩
    · rw [if_pos h3]
    · rw [if_neg h3]
      exact cmd_convertIds.mpr h4

/-- One occurrence is converted, or nothing is put. -/
theorem cmd_one {t : Target} {n : Text} {o : Int} {s : Store D} :
    (∃ d, W.knows W.inVersion n = true ∧ Image W a t n o d ∧
      one W a t n o s = ([.get n o, .put n o], (fun n' o' => if n' = n ∧ o' = o then (W.put (s n o) n o d).1 else s n' o'),
        (W.put (s n o) n o d).2)) ∨
    ((¬ (W.knows W.inVersion n = true ∧ ∃ d, Image W a t n o d)) ∧ ∃ e, one W a t n o s = ([.get n o], s, some e)) := by
  by_cases h : W.knows W.inVersion n = true ∧ ∃ d, Image W a t n o d
  · obtain ⟨h1, d, h2⟩ := h
    obtain ⟨v, d0, h3, h4⟩ := cmd_image.mpr ⟨h1, h2⟩
    refine .inl ⟨d, h1, h2, ?_⟩
    unfold one
    simp only [h3, h4]
  · refine .inr ⟨h, ?_⟩
    unfold one
    cases h3 : getIn W n o with
    | error e => exact ⟨e, rfl⟩
    | ok x =>
      obtain ⟨v, d0⟩ := x
      simp only
      cases h4 : (if v = W.outVersion t then Except.ok d0 else convertIds W a t n v d0) with
      | error e => exact ⟨e, rfl⟩
      | ok d =>
        obtain ⟨h5, h6⟩ := cmd_image.mp ⟨v, d0, h3, h4⟩
        exact absurd ⟨h5, d, h6⟩ h

/-- An image is determined by the input. -/
theorem cmd_image_unique {t : Target} {n : Text} {o : Int} {d d' : D} (h : Image W a t n o d) (h' : Image W a t n o d') : d = d' := by
  obtain ⟨v, x, ⟨v1, r1, h1, h2, -, -, h3⟩, hi⟩ := h
  obtain ⟨v', x', ⟨v2, r2, h1', h2', -, -, h3'⟩, hi'⟩ := h'
  rw [h1] at h1'
  cases h1'
  rw [← h2] at h2'
  subst h2'
  rw [h3] at h3'
  cases h3'
  rcases hi with ⟨p, q⟩ | ⟨p, -, c, q, q1, q2⟩ <;> rcases hi' with ⟨p', q'⟩ | ⟨p', -, c', q', q1', q2'⟩
  · rw [q, q']
  · exact absurd p p'
  · exact absurd p' p
  · rw [q] at q'
    cases q'
    by_cases hp : a.noProvenance = true ∨ a.uriIn = []
    · rw [q1 hp, q1' hp]
    · have hp1 : a.noProvenance = false := by
        cases hh : a.noProvenance
        · rfl
        · exact absurd (.inl hh) hp
      have hp2 : a.uriIn ≠ [] := fun hh => hp (.inr hh)
      rw [q2 hp1 hp2, q2' hp1 hp2]

/-- The loop: either everything is put, or one occurrence fails and the later ones are not put. -/
theorem cmd_loop {t : Target} : ∀ (l : List (Text × Int)) (s : Store D), l.Nodup → (∀ n o, (n, o) ∈ l → s n o = none) →
    ((loop W a t l s).2.2 = none ∧ (∀ n o, (n, o) ∉ l → (loop W a t l s).2.1 n o = s n o) ∧
      ∀ n o, (n, o) ∈ l → W.knows W.inVersion n = true ∧ ∃ d, Image W a t n o d ∧ (W.put none n o d).2 = none ∧
        (loop W a t l s).2.1 n o = (W.put none n o d).1) ∨
    ((loop W a t l s).2.2 ≠ none ∧ (∀ n o, (n, o) ∉ l → (loop W a t l s).2.1 n o = s n o) ∧
      ∃ n₀ o₀, (n₀, o₀) ∈ l ∧ (¬ ∃ d, W.knows W.inVersion n₀ = true ∧ Image W a t n₀ o₀ d ∧ (W.put none n₀ o₀ d).2 = none) ∧
        ∀ n o, (n, o) ∈ l → (loop W a t l s).2.1 n o = none ∨
          ∃ d, Image W a t n o d ∧ (loop W a t l s).2.1 n o = (W.put none n o d).1 ∧
            ((n, o) ≠ (n₀, o₀) → (W.put none n o d).2 = none)) := by
  intro l
  induction l with
  | nil =>
    intro s _ _
    exact .inl ⟨rfl, fun _ _ _ => rfl, fun n o h => by cases h⟩
  | cons p r ih =>
    obtain ⟨n, o⟩ := p
    intro s hnd hs
    rw [List.nodup_cons] at hnd
    have hsn := hs n o (List.mem_cons_self ..)
    rcases cmd_one (W := W) (a := a) (t := t) (n := n) (o := o) (s := s) with ⟨d, hk, hi, ho⟩ | ⟨hno, e, ho⟩
    · cases hp : (W.put none n o d).2 with
      | some e =>
        right
        have hlo : loop W a t ((n, o) :: r) s = ([.get n o, .put n o],
            (fun n' o' => if n' = n ∧ o' = o then (W.put (s n o) n o d).1 else s n' o'), some e) := by
          simp only [loop, ho, hsn, hp]
        rw [hlo]
        refine ⟨by simp, ?_, n, o, List.mem_cons_self .., ?_, ?_⟩
        · intro n' o' hm
          have : ¬ (n' = n ∧ o' = o) := fun hh => hm (by rw [hh.1, hh.2]; exact List.mem_cons_self ..)
          simp only [if_neg this]
        · rintro ⟨d', -, hd', hp'⟩
          rw [cmd_image_unique hd' hi, hp] at hp'
          cases hp'
        · intro n' o' hm
          by_cases hh : n' = n ∧ o' = o
          · obtain ⟨rfl, rfl⟩ := hh
            exact .inr ⟨d, hi, by simp [hsn], fun h => absurd rfl h⟩
          · simp only [if_neg hh]
            exact .inl (hs _ _ hm)
      | none =>
        have hlo : (loop W a t ((n, o) :: r) s).2 =
            (loop W a t r (fun n' o' => if n' = n ∧ o' = o then (W.put none n o d).1 else s n' o')).2 := by
          simp only [loop, ho, hsn, hp]
        rw [hlo]
        have hs' : ∀ n' o', (n', o') ∈ r →
            (fun n' o' => if n' = n ∧ o' = o then (W.put none n o d).1 else s n' o') n' o' = none := by
          intro n' o' hm
          have : ¬ (n' = n ∧ o' = o) := fun hh => hnd.1 (by rw [← hh.1, ← hh.2]; exact hm)
          simp only [if_neg this]
          exact hs _ _ (List.mem_cons_of_mem _ hm)
        rcases ih _ hnd.2 hs' with ⟨h1, h2, h3⟩ | ⟨h1, h2, n₀, o₀, h3, h4, h5⟩
        · refine .inl ⟨h1, ?_, ?_⟩
          · intro n' o' hm
            rw [h2 _ _ (fun hh => hm (List.mem_cons_of_mem _ hh))]
            have : ¬ (n' = n ∧ o' = o) := fun hh => hm (by rw [hh.1, hh.2]; exact List.mem_cons_self ..)
            simp only [if_neg this]
          · intro n' o' hm
            rcases List.mem_cons.mp hm with hh | hm
            · cases hh
              refine ⟨hk, d, hi, hp, ?_⟩
              rw [h2 _ _ hnd.1]
              simp
            · exact h3 _ _ hm
        · refine .inr ⟨h1, ?_, n₀, o₀, List.mem_cons_of_mem _ h3, h4, ?_⟩
          · intro n' o' hm
            rw [h2 _ _ (fun hh => hm (List.mem_cons_of_mem _ hh))]
            have : ¬ (n' = n ∧ o' = o) := fun hh => hm (by rw [hh.1, hh.2]; exact List.mem_cons_self ..)
            simp only [if_neg this]
          · intro n' o' hm
            rcases List.mem_cons.mp hm with hh | hm
            · cases hh
              refine .inr ⟨d, hi, ?_, fun _ => hp⟩
              rw [h2 _ _ hnd.1]
              simp
            · exact h5 _ _ hm
    · right
      have hlo : loop W a t ((n, o) :: r) s = ([.get n o], s, some e) := by
        simp only [loop, ho]
      rw [hlo]
      refine ⟨by simp, fun _ _ _ => rfl, n, o, List.mem_cons_self .., ?_, fun n' o' hm => .inl (hs _ _ hm)⟩
      rintro ⟨d, h1, h2, -⟩
      exact hno ⟨h1, d, h2⟩

/-- The cases of a run. -/
theorem cmd_cases (W : World R D) (a : Args) :
    (W.recent = false ∧ run W a = ⟨[], none, some .exit⟩) ∨
    (W.recent = true ∧ (∀ t, ¬ Asks W a t) ∧ run W a = ⟨[], none, some .unknownVersion⟩) ∨
    (∃ t e, W.recent = true ∧ Asks W a t ∧ W.openIn a.uriIn = some e ∧ run W a = ⟨[.openIn], none, some e⟩) ∨
    (∃ t e, W.recent = true ∧ Asks W a t ∧ W.openIn a.uriIn = none ∧ W.openOut a.uriOut t = some e ∧
      run W a = ⟨[.openIn, .openOut t, .closeIn], none, W.closeIn.or (some e)⟩) ∨
    (∃ t e, W.recent = true ∧ Asks W a t ∧ W.openIn a.uriIn = none ∧ W.openOut a.uriOut t = none ∧
      (work W a (idsList W a t)).2 = .error e ∧
      run W a = ⟨.openIn :: .openOut t :: (work W a (idsList W a t)).1 ++ [.closeOut, .closeIn], some fun _ _ => none,
        W.closeIn.or (W.closeOut.or (some e))⟩) ∨
    (∃ t l, W.recent = true ∧ Asks W a t ∧ W.openIn a.uriIn = none ∧ W.openOut a.uriOut t = none ∧
      (work W a (idsList W a t)).2 = .ok l ∧
      run W a = ⟨.openIn :: .openOut t :: ((work W a (idsList W a t)).1 ++ (loop W a t l fun _ _ => none).1) ++ [.closeOut, .closeIn],
        some (loop W a t l fun _ _ => none).2.1, W.closeIn.or (W.closeOut.or (loop W a t l fun _ _ => none).2.2)⟩) := by
  cases hr : W.recent with
  | false => exact .inl ⟨rfl, by simp [run, hr]⟩
  | true =>
    right
    cases ht : target W a with
    | error e =>
      obtain ⟨h1, h2⟩ := cmd_target_error ht
      subst h1
      exact .inl ⟨rfl, h2, by simp [run, hr, ht]⟩
    | ok t =>
      have ha := cmd_target_iff.mp ht
      right
      cases hi : W.openIn a.uriIn with
      | some e => exact .inl ⟨t, e, rfl, ha, rfl, by simp [run, hr, ht, hi]⟩
      | none =>
        right
        cases ho : W.openOut a.uriOut t with
        | some e => exact .inl ⟨t, e, rfl, ha, rfl, ho, by simp [run, hr, ht, hi, ho, leave]⟩
        | none =>
          right
          cases hw : (work W a (idsList W a t)).2 with
          | error e => exact .inl ⟨t, e, rfl, ha, rfl, ho, hw, by simp [run, hr, ht, hi, ho, leave, hw]⟩
          | ok l => exact .inr ⟨t, l, rfl, ha, rfl, ho, hw, by simp [run, hr, ht, hi, ho, leave, hw]⟩

/-! ### Theorems -/

/-- C65: when the command ends without an error, the output holds the conversion of every occurrence that the user asked for, as `put`
stores it in an empty occurrence, and nothing else. -/
theorem C65_converted (hl : ListsTruth W) (hn : NamesOnce W) (h : (run W a).error = none) :
    ∃ t s, Asks W a t ∧ (run W a).out = some s ∧ ∀ n o,
      (Selected W a t n o → ∃ d, Image W a t n o d ∧ (W.put none n o d).2 = none ∧ s n o = (W.put none n o d).1) ∧
      (¬ Selected W a t n o → s n o = none) := by
  rcases cmd_cases W a with ⟨-, e⟩ | ⟨-, -, e⟩ | ⟨_, _, -, -, -, e⟩ | ⟨_, _, -, -, -, -, e⟩ | ⟨_, _, -, -, -, -, -, e⟩ |
    ⟨t, l, -, ha, -, -, hw, e⟩
  · rw [e] at h; cases h
  · rw [e] at h; cases h
  · rw [e] at h; cases h
  · rw [e] at h
    cases hc : W.closeIn <;> simp [hc] at h
  · rw [e] at h
    cases hc : W.closeIn <;> cases hc' : W.closeOut <;> simp [hc, hc'] at h
  · rw [e] at h ⊢
    simp only [Option.or_eq_none_iff] at h
    obtain ⟨w1, w2⟩ := cmd_work hl _ _ hw (cmd_idsList_nodup hn)
    refine ⟨t, _, ha, rfl, fun n o => ?_⟩
    have hsel : (n, o) ∈ l ↔ Selected W a t n o := by rw [w2, cmd_idsList]; rfl
    rcases cmd_loop (W := W) (a := a) (t := t) l (fun _ _ => none) w1 (fun _ _ _ => rfl) with ⟨-, h2, h3⟩ | ⟨h1, -⟩
    · exact ⟨fun hs => (h3 n o (hsel.mpr hs)).2, fun hs => h2 n o (fun hm => hs (hsel.mp hm))⟩
    · exact absurd h.2.2 h1

/-- C65: when the command succeeds: the dictionary exists, the entries can be opened and closed, the occurrences can be listed, and
every occurrence asked for can be read, converted and put. The default dictionary must know the IDSs as well. -/
theorem C65_succeeds (hl : ListsTruth W) (hn : NamesOnce W) :
    (run W a).error = none ↔ W.recent = true ∧ W.closeIn = none ∧ W.closeOut = none ∧ W.openIn a.uriIn = none ∧
      ∃ t, Asks W a t ∧ W.openOut a.uriOut t = none ∧
        (a.occurrence = -1 → ∀ n, AsksIds W a t n → ∃ l, W.list n = .ok l) ∧
        ∀ n o, Selected W a t n o → W.knows W.inVersion n = true ∧ ∃ d, Image W a t n o d ∧ (W.put none n o d).2 = none := by
  rcases cmd_cases W a with ⟨h, e⟩ | ⟨-, h, e⟩ | ⟨_, _, -, -, h, e⟩ | ⟨t, _, -, ha, -, h, e⟩ | ⟨t, _, -, ha, -, -, hw, e⟩ |
    ⟨t, l, hr, ha, hi, ho, hw, e⟩
  · rw [e]; simp [h]
  · rw [e]; simp [h]
  · rw [e]; simp [h]
  · rw [e]
    refine ⟨fun h' => ?_, ?_⟩
    · cases hc : W.closeIn <;> simp [hc] at h'
    · rintro ⟨-, -, -, -, t', h1, h2, -⟩
      rw [cmd_asks_unique h1 ha, h] at h2
      cases h2
  · rw [e]
    refine ⟨fun h' => ?_, ?_⟩
    · cases hc : W.closeIn <;> cases hc' : W.closeOut <;> simp [hc, hc'] at h'
    · rintro ⟨-, -, -, -, t', h1, -, h2, -⟩
      rw [cmd_asks_unique h1 ha] at h2
      obtain ⟨l, h3⟩ := (cmd_work_ok (W := W) (a := a) (idsList W a t)).mpr (fun h n hm => h2 h n (cmd_idsList.mp hm))
      rw [hw] at h3
      cases h3
  · rw [e]
    simp only [Option.or_eq_none_iff]
    obtain ⟨w1, w2⟩ := cmd_work hl _ _ hw (cmd_idsList_nodup hn)
    have hsel : ∀ n o, (n, o) ∈ l ↔ Selected W a t n o := fun n o => by rw [w2, cmd_idsList]; rfl
    have hlist := (cmd_work_ok (W := W) (a := a) (idsList W a t)).mp ⟨l, hw⟩
    rcases cmd_loop (W := W) (a := a) (t := t) l (fun _ _ => none) w1 (fun _ _ _ => rfl) with ⟨h1, -, h3⟩ |
      ⟨h1, -, n₀, o₀, h3, h4, -⟩
    · refine ⟨fun h => ⟨hr, h.1, h.2.1, hi, t, ha, ho, fun hh n hm => hlist hh n (cmd_idsList.mpr hm), ?_⟩,
        fun h => ⟨h.2.1, h.2.2.1, h1⟩⟩
      intro n o hs
      obtain ⟨k, d, i, p, -⟩ := h3 n o ((hsel n o).mpr hs)
      exact ⟨k, d, i, p⟩
    · refine ⟨fun h => absurd h.2.2 h1, ?_⟩
      rintro ⟨-, -, -, -, t', g1, -, -, g2⟩
      have := cmd_asks_unique g1 ha
      subst this
      obtain ⟨k, d, i, p⟩ := g2 _ _ ((hsel _ _).mp h3)
      exact absurd ⟨d, k, i, p⟩ h4

/-- C65: when the command fails after the output was created, everything in the output is still the conversion of an occurrence
that was asked for; and all of them are complete, except perhaps the one that could not be put. -/
theorem C65_failed (hl : ListsTruth W) (hn : NamesOnce W) {s : Store D} (h : (run W a).out = some s) :
    ∃ t n₀ o₀, Asks W a t ∧ ∀ n o x, s n o = some x → Selected W a t n o ∧ ∃ d, Image W a t n o d ∧ (W.put none n o d).1 = some x ∧
      ((n, o) ≠ (n₀, o₀) → (W.put none n o d).2 = none) := by
  rcases cmd_cases W a with ⟨-, e⟩ | ⟨-, -, e⟩ | ⟨_, _, -, -, -, e⟩ | ⟨_, _, -, -, -, -, e⟩ | ⟨t, _, -, ha, -, -, -, e⟩ |
    ⟨t, l, -, ha, -, -, hw, e⟩
  · rw [e] at h; cases h
  · rw [e] at h; cases h
  · rw [e] at h; cases h
  · rw [e] at h; cases h
  · rw [e] at h
    cases h
    exact ⟨t, [], 0, ha, fun _ _ _ hx => by cases hx⟩
  · rw [e] at h
    cases h
    obtain ⟨w1, w2⟩ := cmd_work hl _ _ hw (cmd_idsList_nodup hn)
    have hsel : ∀ n o, (n, o) ∈ l ↔ Selected W a t n o := fun n o => by rw [w2, cmd_idsList]; rfl
    rcases cmd_loop (W := W) (a := a) (t := t) l (fun _ _ => none) w1 (fun _ _ _ => rfl) with ⟨-, h2, h3⟩ |
      ⟨-, h2, n₀, o₀, -, -, h5⟩
    · refine ⟨t, [], 0, ha, fun n o x hx => ?_⟩
      by_cases hm : (n, o) ∈ l
      · obtain ⟨-, d, i, p, q⟩ := h3 n o hm
        exact ⟨(hsel _ _).mp hm, d, i, q.symm.trans hx, fun _ => p⟩
      · rw [h2 n o hm] at hx
        cases hx
    · refine ⟨t, n₀, o₀, ha, fun n o x hx => ?_⟩
      by_cases hm : (n, o) ∈ l
      · rcases h5 n o hm with h5 | ⟨d, i, q, p⟩
        · rw [h5] at hx; cases hx
        · exact ⟨(hsel _ _).mp hm, d, i, q.symm.trans hx, p⟩
      · rw [h2 n o hm] at hx
        cases hx

/-- C65: a version that is neither known nor a file is refused before any data entry is opened; and if the input cannot be opened,
no output is created. -/
theorem C65_refused (W : World R D) (a : Args) :
    ((∀ t, ¬ Asks W a t) → (run W a).log = [] ∧ (run W a).out = none ∧ (W.recent = true → (run W a).error = some .unknownVersion)) ∧
    (∀ e, W.recent = true → W.openIn a.uriIn = some e → (∃ t, Asks W a t) → (run W a).log = [.openIn] ∧ (run W a).out = none ∧
      (run W a).error = some e) := by
  rcases cmd_cases W a with ⟨h, e⟩ | ⟨-, h, e⟩ | ⟨t, x, h, ha, hi, e⟩ | ⟨t, _, -, ha, hi, -, e⟩ | ⟨t, _, -, ha, hi, -, -, e⟩ |
    ⟨t, l, -, ha, hi, -, -, e⟩
  · rw [e]; simp [h]
  · rw [e]; simp [h]
  · rw [e]
    refine ⟨fun hh => absurd ha (hh t), fun e' _ he' _ => ?_⟩
    rw [hi] at he'
    cases he'
    exact ⟨rfl, rfl, rfl⟩
  all_goals
    refine ⟨fun hh => absurd ha (hh t), fun e' _ he' _ => ?_⟩
    rw [hi] at he'
    cases he'

/-- The events while making the work list. -/
theorem cmd_work_log (ns : List Text) : ∀ x ∈ (work W a ns).1, ∃ n ∈ ns, x = .list n := by
  induction ns with
  | nil => intro x hx; cases hx
  | cons n r ih =>
    intro x hx
    unfold work at hx
    split at hx
    · split at hx
      · simp only [List.mem_singleton] at hx
        exact ⟨n, List.mem_cons_self .., hx⟩
      · rcases List.mem_cons.mp hx with hx | hx
        · exact ⟨n, List.mem_cons_self .., hx⟩
        · obtain ⟨m, h1, h2⟩ := ih x hx
          exact ⟨m, List.mem_cons_of_mem _ h1, h2⟩
    · obtain ⟨m, h1, h2⟩ := ih x hx
      exact ⟨m, List.mem_cons_of_mem _ h1, h2⟩

/-- The events in the loop. -/
theorem cmd_loop_log {t : Target} : ∀ (l : List (Text × Int)) (s : Store D), ∀ x ∈ (loop W a t l s).1,
    ∃ n o, (n, o) ∈ l ∧ (x = .get n o ∨ x = .put n o) := by
  intro l
  induction l with
  | nil => intro s x hx; cases hx
  | cons p r ih =>
    obtain ⟨n, o⟩ := p
    intro s x hx
    have hone : ∀ y ∈ (one W a t n o s).1, y = .get n o ∨ y = .put n o := by
      intro y hy
      rcases cmd_one (W := W) (a := a) (t := t) (n := n) (o := o) (s := s) with ⟨d, -, -, ho⟩ | ⟨-, e, ho⟩
      · rw [ho] at hy
        simpa using hy
      · rw [ho] at hy
        exact .inl (by simpa using hy)
    simp only [loop] at hx
    split at hx
    · exact ⟨n, o, List.mem_cons_self .., hone x hx⟩
    · rcases List.mem_append.mp hx with hx | hx
      · exact ⟨n, o, List.mem_cons_self .., hone x hx⟩
      · obtain ⟨n', o', h1, h2⟩ := ih _ x hx
        exact ⟨n', o', List.mem_cons_of_mem _ h1, h2⟩

/-- C65: what the command does to the data entries: whatever happens, entries that were opened are closed at the end, the output
first; the input is only listed and read, and only the occurrences asked for are put. -/
theorem C65_closed (hl : ListsTruth W) (hn : NamesOnce W) :
    ((run W a).out = none ∧ ((run W a).log = [] ∨ ((run W a).log = [.openIn] ∧ W.openIn a.uriIn ≠ none) ∨
      ∃ t, Asks W a t ∧ (run W a).log = [.openIn, .openOut t, .closeIn])) ∨
    ((run W a).out ≠ none ∧ ∃ t body, Asks W a t ∧ (run W a).log = [.openIn, .openOut t] ++ body ++ [.closeOut, .closeIn] ∧
      ∀ x ∈ body, (∃ n, AsksIds W a t n ∧ x = .list n) ∨ ∃ n o, Selected W a t n o ∧ (x = .get n o ∨ x = .put n o)) := by
  rcases cmd_cases W a with ⟨h, e⟩ | ⟨-, h, e⟩ | ⟨t, x, h, ha, hi, e⟩ | ⟨t, _, -, ha, hi, -, e⟩ | ⟨t, _, -, ha, hi, -, -, e⟩ |
    ⟨t, l, -, ha, hi, -, hw, e⟩
  · rw [e]; exact .inl ⟨rfl, .inl rfl⟩
  · rw [e]; exact .inl ⟨rfl, .inl rfl⟩
  · rw [e]; exact .inl ⟨rfl, .inr (.inl ⟨rfl, by rw [hi]; simp⟩)⟩
  · rw [e]; exact .inl ⟨rfl, .inr (.inr ⟨t, ha, rfl⟩)⟩
  · rw [e]
    refine .inr ⟨by simp, t, _, ha, rfl, fun x hx => ?_⟩
    obtain ⟨n, h1, h2⟩ := cmd_work_log _ x hx
    exact .inl ⟨n, cmd_idsList.mp h1, h2⟩
  · rw [e]
    refine .inr ⟨by simp, t, _, ha, rfl, fun x hx => ?_⟩
    obtain ⟨w1, w2⟩ := cmd_work hl _ _ hw (cmd_idsList_nodup hn)
    rcases List.mem_append.mp hx with hx | hx
    · obtain ⟨n, h1, h2⟩ := cmd_work_log _ x hx
      exact .inl ⟨n, cmd_idsList.mp h1, h2⟩
    · obtain ⟨n, o, h1, h2⟩ := cmd_loop_log _ _ x hx
      obtain ⟨h3, h4⟩ := (w2 n o).mp h1
      exact .inr ⟨n, o, ⟨cmd_idsList.mp h3, h4⟩, h2⟩

/-! ### Example and limits -/

/-- An input with `core_profiles` occurrences 0 and 1 of version `3.39.0` and `4.0.0`, and a `gone` IDS that only DD 3 has. -/
def cmdWorld : World Nat (Text × Nat) where
  recent := true
  versions := ["3.39.0".toList, "4.0.0".toList]
  isPath p := p = "my.xml".toList
  knows v n := n = "core_profiles".toList || (n = "gone".toList && v = "3.39.0".toList)
  openIn _ := none
  inVersion := "4.0.0".toList
  list n := .ok (if n = "core_profiles".toList then [0, 1] else if n = "gone".toList then [0] else [])
  stored n o :=
    if n = "core_profiles".toList then
      if o = 0 then some ("3.39.0".toList, 5) else if o = 1 then some ("4.0.0".toList, 6) else none
    else if n = "gone".toList then if o = 0 then some ("3.39.0".toList, 7) else none
    else none
  load v _ r := .ok (v, r)
  openOut _ _ := none
  outVersion
    | .version v => v
    | .file _ => "9".toList
  names
    | .version v => if v = "3.39.0".toList then ["core_profiles".toList, "gone".toList] else ["core_profiles".toList]
    | .file _ => ["core_profiles".toList]
  convert _ t _ d := .ok (match t with | .version v => (v, d.2 + 100) | .file _ => ("9".toList, d.2 + 100))
  origin _ _ d := (d.1, d.2 + 1000)
  put _ _ _ d := (some d, none)
  closeIn := none
  closeOut := none

theorem cmdWorld_lists : ListsTruth cmdWorld := by
  intro n l h
  simp only [cmdWorld] at h ⊢
  cases h
  by_cases h1 : n = "core_profiles".toList
  · simp only [h1, if_true]
    refine ⟨by decide, fun o => ?_⟩
    by_cases h2 : o = 0
    · simp [h2]
    · by_cases h3 : o = 1
      · simp [h3]
      · simp [h2, h3]
  · by_cases h2 : n = "gone".toList
    · have h1' : ¬ "gone".toList = "core_profiles".toList := by decide
      simp only [h2, if_true, if_neg h1']
      refine ⟨by decide, fun o => ?_⟩
      by_cases h2 : o = 0
      · simp [h2]
      · simp [h2]
    · simp only [if_neg h1, if_neg h2]
      simp

theorem cmdWorld_names : NamesOnce cmdWorld := by
  intro t
  cases t with
  | version v =>
    show (if v = _ then _ else _ : List Text).Nodup
    split
    · decide
    · decide
  | file p => exact (by decide : ["core_profiles".toList].Nodup)

/-- The example converts both occurrences: one with its origin noted, and one as it is. -/
example : (run cmdWorld ⟨"in".toList, "4.0.0".toList, "out".toList, ['*'], -1, false⟩).error = none ∧
    ((run cmdWorld ⟨"in".toList, "4.0.0".toList, "out".toList, ['*'], -1, false⟩).out.map fun s =>
      (s "core_profiles".toList 0, s "core_profiles".toList 1)) =
      some (some ("4.0.0".toList, 1105), some ("4.0.0".toList, 6)) := by
  decide +kernel

/-- Without provenance. -/
example : ((run cmdWorld ⟨"in".toList, "4.0.0".toList, "out".toList, "core_profiles".toList, 0, true⟩).out.map fun s =>
      (s "core_profiles".toList 0, s "core_profiles".toList 1)) = some (some ("4.0.0".toList, 105), none) := by
  decide +kernel

/-- The hypotheses about the version hold in the example. -/
example : Asks cmdWorld ⟨"in".toList, "4.0.0".toList, "out".toList, ['*'], -1, false⟩ (.version "4.0.0".toList) :=
  .version (by decide)

example : ∀ t, ¬ Asks cmdWorld ⟨"in".toList, "5".toList, "out".toList, ['*'], -1, false⟩ t := by
  intro t h
  cases h with
  | version h => exact absurd h (by decide)
  | file _ h => exact absurd h (by decide)

/-- C65, limit: the command reports success when all IDSs are asked for, although an IDS of the input that the dictionary of the
output does not define is silently left out. -/
theorem C65_left_out_limit : ∃ (W : World Nat (Text × Nat)) (a : Args) (n : Text) (s : Store (Text × Nat)), ListsTruth W ∧ NamesOnce W ∧
    a.ids = "*".toList ∧ a.occurrence = -1 ∧ (W.stored n 0).isSome = true ∧
    (run W a).error = none ∧ (run W a).out = some s ∧ ∀ o, s n o = none := by
  have he : (run cmdWorld ⟨"in".toList, "4.0.0".toList, "out".toList, ['*'], -1, false⟩).error = none := by decide +kernel
  obtain ⟨t, s, ha, hs, h⟩ := C65_converted cmdWorld_lists cmdWorld_names he
  refine ⟨cmdWorld, _, "gone".toList, s, cmdWorld_lists, cmdWorld_names, rfl, rfl, by decide, he, hs, fun o => (h _ o).2 ?_⟩
  rintro ⟨⟨-, h1⟩ | ⟨h1, -⟩, -⟩
  · cases ha with
    | version _ => exact absurd h1 (by decide)
    | file h2 _ => exact absurd h2 (by decide)
  · exact absurd rfl h1

/-- C65, limit: an IDS that the input holds and that the dictionary of the output defines stops the command, when the *default*
dictionary does not define it. Even if no conversion is needed at all. -/
theorem C65_default_dictionary_limit : ∃ (W : World Nat (Text × Nat)) (a : Args) (t : Target), ListsTruth W ∧ NamesOnce W ∧ Asks W a t ∧
    (∀ n o, Selected W a t n o → ∃ d, Image W a t n o d ∧ (W.put none n o d).2 = none) ∧ (run W a).error = some .idsName := by
  refine ⟨cmdWorld, ⟨"in".toList, "3.39.0".toList, "out".toList, "gone".toList, -1, false⟩, .version "3.39.0".toList,
    cmdWorld_lists, cmdWorld_names, .version (by decide), ?_, by decide +kernel⟩
  rintro n o ⟨⟨h1, -⟩ | ⟨-, h1⟩, h2⟩
  · exact absurd h1 (by decide)
  · subst h1
    have ho : o = 0 := by
      rcases h2 with ⟨-, h2⟩ | ⟨h2, -⟩
      · have h1' : ¬ "gone".toList = "core_profiles".toList := by decide
        simp only [cmdWorld, if_neg h1', if_true] at h2
        by_cases h3 : o = 0
        · exact h3
        · simp [h3] at h2
      · exact absurd rfl h2
    subst ho
    exact ⟨("3.39.0".toList, 7), ⟨"3.39.0".toList, _, ⟨"3.39.0".toList, 7, by decide, by decide, .inr (by decide), by decide, rfl⟩,
      .inl ⟨rfl, rfl⟩⟩, rfl⟩

end Verif.Props
