import Verif.Lemmas.Open
/-
Properties of how data entries are opened.

C63: what the arguments of `DBEntry` mean does not depend on the order of keyword arguments, and there is at most one
meaning; netCDF files are chosen exactly for names ending with `.nc`; and entries open once.

C64: the Access Layer is asked once, with the given URI and the action of the mode, and after the backend was prepared.
-/
namespace Verif.Props
open Verif.Open Verif.OpenSpec

/-! ### C63 -/

theorem open_args_le {ps : List Param} {args vs : List Arg} {kw : List (Text × Arg)} (h : Binds ps args kw vs) :
    args.length ≤ ps.length := by
  rw [← h.length]; exact h.positional.length_le

theorem open_uri_names {args : List Arg} {kw : List (Text × Arg)} {u m : Arg} (h : AsUri args kw u m)
    {k : Text × Arg} (hk : k ∈ kw) : k.1 = nUri ∨ k.1 = nMode := by
  obtain ⟨i, p, -, hp, e⟩ := h.keyword k hk
  rw [← e]
  have := List.mem_of_getElem? hp
  simp only [uriParams, List.mem_cons, List.not_mem_nil, or_false] at this
  rcases this with rfl | rfl
  · exact .inl rfl
  · exact .inr rfl

theorem open_uri_not_legacy {args : List Arg} {kw : List (Text × Arg)} {u m : Arg} {l : Legacy}
    (h : AsUri args kw u m) : ¬ AsLegacy args kw l := by
  intro h'
  have hl : args.length ≤ 2 := open_args_le h
  rcases h'.value 3 _ l.run (by omega) rfl rfl with h1 | ⟨-, h1⟩
  · rcases open_uri_names h h1 with e | e
    · exact absurd (show "run".toList = nUri from e) (by decide)
    · exact absurd (show "run".toList = nMode from e) (by decide)
  · simp at h1

theorem open_legacy_no_shot {args : List Arg} {kw : List (Text × Arg)} {l : Legacy} (h : AsLegacy args kw l) (v : Arg) :
    (nShot, v) ∉ kw := by
  intro hk
  obtain ⟨i, p, -, hp, e⟩ := h.keyword _ hk
  have e' : p.name = nShot := e
  have hn : ∀ p ∈ legacyParams, p.name ≠ nShot := by decide
  exact hn p (List.mem_of_getElem? hp) e'

theorem open_legacy_unique {args : List Arg} {kw : List (Text × Arg)} (hk : (kw.map (·.1)).Nodup) {l l' : Legacy}
    (h : AsLegacy args kw l) (h' : AsLegacy args kw l') : l = l' := by
  have := binds_fun hk h h'
  simp only [List.cons.injEq, and_true] at this
  obtain ⟨h1, h2, h3, h4, h5, h6⟩ := this
  cases l; cases l'
  simp_all

/-- The list of keyword arguments with `pulse` for `shot`. -/
theorem open_shot_list {kw : List (Text × Arg)} (hk : (kw.map (·.1)).Nodup) {v : Arg} (hv : (nShot, v) ∈ kw)
    (hp : ∀ x, (nPulse, x) ∉ kw) :
    Shot kw (kw.filter (fun k => k.1 ≠ nShot) ++ [(nPulse, v)]) ∧
    ((kw.filter (fun k => k.1 ≠ nShot) ++ [(nPulse, v)]).map (·.1)).Nodup := by
  refine ⟨⟨v, hv, hp, fun k => ?_⟩, ?_⟩
  · rw [List.mem_append, List.mem_filter, List.mem_singleton]
    simp only [decide_eq_true_eq]
    constructor
    · rintro (h | h)
      · exact .inr h
      · exact .inl h
    · rintro (h | h)
      · exact .inr h
      · exact .inl h
  · rw [List.map_append, List.nodup_append]
    refine ⟨hk.sublist (List.filter_sublist.map _), by simp, ?_⟩
    intro a ha b hb e
    simp only [List.map_cons, List.map_nil, List.mem_singleton] at hb
    obtain ⟨⟨n, y⟩, hx, rfl⟩ := List.mem_map.1 ha
    subst hb
    have e' : n = nPulse := e
    subst e'
    exact hp y (List.mem_filter.1 hx).1

theorem open_bind_legacy {args : List Arg} {kw : List (Text × Arg)} (hk : (kw.map (·.1)).Nodup) :
    (match bind legacyParams args kw with
      | some [a, b, c, d, e, f] => Except.ok (Wanted.legacy ⟨a, b, c, d, e, f⟩)
      | _ => .error .type) = (.error .type : Except Exc Wanted) ∧ (∀ l, ¬ AsLegacy args kw l) ∨
    ∃ l, AsLegacy args kw l ∧ (match bind legacyParams args kw with
      | some [a, b, c, d, e, f] => Except.ok (Wanted.legacy ⟨a, b, c, d, e, f⟩)
      | _ => Except.error Exc.type) = .ok (.legacy l) := by
  cases hb : bind legacyParams args kw with
  | none =>
    refine .inl ⟨rfl, fun l hl => ?_⟩
    rw [(bind_iff hk legacyParams _ _).2 hl] at hb
    simp at hb
  | some vs =>
    have h := (bind_iff hk _ _ _).1 hb
    have hl := h.length
    match vs, h, hl with
    | [a, b, c, d, e, f], h, _ => exact .inr ⟨⟨a, b, c, d, e, f⟩, h, rfl⟩

theorem open_cases (args : List Arg) {kw : List (Text × Arg)} (hk : (kw.map (·.1)).Nodup) :
    (∃ x, arguments args kw = .ok x ∧ Means args kw x ∧ ∀ y, Means args kw y → y = x) ∨
    (∀ x, ¬ Means args kw x) ∧
      ((∃ a b, (nShot, a) ∈ kw ∧ (nPulse, b) ∈ kw) ∧ arguments args kw = .error .value ∨
       (¬ ∃ a b, (nShot, a) ∈ kw ∧ (nPulse, b) ∈ kw) ∧ arguments args kw = .error .type) := by
  unfold arguments
  have hu : (∃ u m, bind uriParams args kw = some [u, m]) ∨ ∀ u m, bind uriParams args kw ≠ some [u, m] := by
    by_cases h : ∃ u m, bind uriParams args kw = some [u, m]
    · exact .inl h
    · exact .inr fun u m e => h ⟨u, m, e⟩
  rcases hu with ⟨u, m, hu⟩ | hu
  · rw [hu]
    have ha : AsUri args kw u m := (bind_iff hk _ _ _).1 hu
    have hu : u.text = writtenOut u := by cases u <;> rfl
    refine .inl ⟨.uri u.text m, rfl, hu ▸ .uri ha, ?_⟩
    intro y hy
    cases hy with
    | uri h =>
      have := binds_fun hk h ha
      simp only [List.cons.injEq, and_true] at this
      rw [this.1, this.2, hu]
    | legacy h => exact absurd h (open_uri_not_legacy ha)
    | shot hs h =>
      obtain ⟨v, hv, -⟩ := hs
      rcases open_uri_names ha hv with e | e
      · exact absurd (show nShot = nUri from e) (by decide)
      · exact absurd (show nShot = nMode from e) (by decide)
  · have hnu : ∀ u m, ¬ AsUri args kw u m := fun u m h => hu u m ((bind_iff hk _ _ _).2 h)
    split
    · next e => exact absurd e (hu _ _)
    · unfold shotToPulse
      cases hs : kw.lookup nShot with
      | none =>
        have hns := lookup_not.1 hs
        simp only
        rcases open_bind_legacy (args := args) hk with ⟨e, hn⟩ | ⟨l, hl, e⟩
        · refine .inr ⟨?_, .inr ⟨fun ⟨a, _, h, _⟩ => hns a h, e⟩⟩
          intro x hx
          cases hx with
          | uri h => exact hnu _ _ h
          | legacy h => exact hn _ h
          | shot hs h => obtain ⟨v, hv, -⟩ := hs; exact hns v hv
        · refine .inl ⟨.legacy l, e, .legacy hl, ?_⟩
          intro y hy
          cases hy with
          | uri h => exact absurd h (hnu _ _)
          | legacy h => rw [open_legacy_unique hk h hl]
          | shot hs h => obtain ⟨v, hv, -⟩ := hs; exact absurd hv (hns v)
      | some v =>
        have hv := (lookup_mem hk).1 hs
        simp only
        cases hp : kw.lookup nPulse with
        | some b =>
          have hb := (lookup_mem hk).1 hp
          refine .inr ⟨?_, .inl ⟨⟨v, b, hv, hb⟩, rfl⟩⟩
          intro x hx
          cases hx with
          | uri h => exact hnu _ _ h
          | legacy h => exact open_legacy_no_shot h v hv
          | shot hs h => obtain ⟨_, _, hn, _⟩ := hs; exact hn b hb
        | none =>
          have hnp := lookup_not.1 hp
          obtain ⟨hsh, hk'⟩ := open_shot_list hk hv hnp
          have unique : ∀ kw', Shot kw kw' → ∀ l, AsLegacy args kw' l →
              AsLegacy args (kw.filter (fun k => k.1 ≠ nShot) ++ [(nPulse, v)]) l := by
            rintro kw' ⟨v', hv', -, hm⟩ l hl
            have hvv : v' = v := by
              have := (lookup_mem (n := nShot) hk).2 hv'
              rw [hs] at this; exact (Option.some.inj this).symm
            subst hvv
            refine binds_congr (fun k => ?_) hl
            rw [hm]
            obtain ⟨v2, hv2, -, hm2⟩ := hsh
            have hvv : v2 = v' := by
              have := (lookup_mem (n := nShot) hk).2 hv2
              rw [hs] at this; exact (Option.some.inj this).symm
            rw [hm2, hvv]
          simp only [Option.isSome_none, Bool.false_eq_true, if_false]
          rcases open_bind_legacy (args := args) hk' with ⟨e, hn⟩ | ⟨l, hl, e⟩
          · refine .inr ⟨?_, .inr ⟨fun ⟨_, b, _, h⟩ => hnp b h, e⟩⟩
            intro x hx
            cases hx with
            | uri h => exact hnu _ _ h
            | legacy h => exact open_legacy_no_shot h v hv
            | shot hs h => exact hn _ (unique _ hs _ h)
          · refine .inl ⟨.legacy l, e, .shot hsh hl, ?_⟩
            intro y hy
            cases hy with
            | uri h => exact absurd h (hnu _ _)
            | legacy h => exact absurd hv (open_legacy_no_shot h v)
            | shot hs h => rw [open_legacy_unique hk' (unique _ hs _ h) hl]

/-- C63: the arguments of `DBEntry` are understood exactly if they are those of one of the two signatures, and they
mean what that signature says: the URI signature, or the legacy signature, in which `shot` may stand for `pulse`. -/
theorem C63_arguments (args : List Arg) {kw : List (Text × Arg)} (hk : (kw.map (·.1)).Nodup) (x : Wanted) :
    arguments args kw = .ok x ↔ Means args kw x := by
  rcases open_cases args hk with ⟨y, h1, h2, h3⟩ | ⟨h1, h2⟩
  · rw [h1]
    constructor
    · intro h; rw [← Except.ok.inj h]; exact h2
    · intro h; rw [h3 x h]
  · refine ⟨fun h => ?_, fun h => absurd h (h1 x)⟩
    rcases h2 with ⟨-, h2⟩ | ⟨-, h2⟩ <;> (rw [h2] at h; cases h)

/-- C63: a call never has two meanings. -/
theorem C63_one_meaning {args : List Arg} {kw : List (Text × Arg)} (hk : (kw.map (·.1)).Nodup) {x y : Wanted}
    (hx : Means args kw x) (hy : Means args kw y) : x = y := by
  have h1 := (C63_arguments args hk x).2 hx
  rw [(C63_arguments args hk y).2 hy] at h1
  exact (Except.ok.inj h1).symm

/-- C63: a call without meaning raises a `ValueError` if both `shot` and `pulse` are given by name, and
a `TypeError` otherwise. -/
theorem C63_errors (args : List Arg) {kw : List (Text × Arg)} (hk : (kw.map (·.1)).Nodup) (e : Exc) :
    arguments args kw = .error e ↔ (∀ x, ¬ Means args kw x) ∧
      ((∃ a b, ("shot".toList, a) ∈ kw ∧ ("pulse".toList, b) ∈ kw) ∧ e = .value ∨
       (¬ ∃ a b, ("shot".toList, a) ∈ kw ∧ ("pulse".toList, b) ∈ kw) ∧ e = .type) := by
  rcases open_cases args hk with ⟨y, h1, h2, h3⟩ | ⟨h1, h2⟩
  · rw [h1]
    exact ⟨fun h => (by cases h), fun h => absurd h2 (h.1 y)⟩
  · rcases h2 with ⟨hb, h2⟩ | ⟨hb, h2⟩
    · rw [h2]
      constructor
      · intro h; cases h; exact ⟨h1, .inl ⟨hb, rfl⟩⟩
      · rintro ⟨-, ⟨-, rfl⟩ | ⟨hn, -⟩⟩
        · rfl
        · exact absurd hb hn
    · rw [h2]
      constructor
      · intro h; cases h; exact ⟨h1, .inr ⟨hb, rfl⟩⟩
      · rintro ⟨-, ⟨hn, -⟩ | ⟨-, rfl⟩⟩
        · exact absurd hn hb
        · rfl

theorem open_means_congr {args : List Arg} {kw kw' : List (Text × Arg)} (h : ∀ k, k ∈ kw ↔ k ∈ kw') {x : Wanted}
    (hm : Means args kw x) : Means args kw' x := by
  cases hm with
  | uri h' => exact .uri (binds_congr h h')
  | legacy h' => exact .legacy (binds_congr h h')
  | shot hs h' =>
    obtain ⟨v, h1, h2, h3⟩ := hs
    refine .shot ⟨v, (h _).1 h1, fun x hx => h2 x ((h _).2 hx), fun k => ?_⟩ h'
    rw [h3, h]

/-- C63: keyword arguments may be given in any order. -/
theorem C63_keyword_order (args : List Arg) {kw kw' : List (Text × Arg)} (hk : (kw.map (·.1)).Nodup) (h : kw.Perm kw') :
    arguments args kw = arguments args kw' := by
  have hk' : (kw'.map (·.1)).Nodup := (h.map _).nodup_iff.1 hk
  have hm : ∀ k, k ∈ kw ↔ k ∈ kw' := fun k => h.mem_iff
  cases h1 : arguments args kw with
  | ok x => exact ((C63_arguments args hk' x).2 (open_means_congr hm ((C63_arguments args hk x).1 h1))).symm
  | error e =>
    refine ((C63_errors args hk' e).2 ?_).symm
    obtain ⟨h2, h3⟩ := (C63_errors args hk e).1 h1
    refine ⟨fun x hx => h2 x (open_means_congr (fun k => (hm k).symm) hx), ?_⟩
    simpa only [hm] using h3

/-- C63: `shot` is another name of `pulse`. -/
theorem C63_shot (args : List Arg) {kw : List (Text × Arg)} (v : Arg) (hk : (kw.map (·.1)).Nodup)
    (hs : ∀ x, (nShot, x) ∉ kw) (hp : ∀ x, (nPulse, x) ∉ kw) :
    arguments args ((nShot, v) :: kw) = arguments args ((nPulse, v) :: kw) := by
  have notIn : ∀ n, (∀ x, (n, x) ∉ kw) → n ∉ kw.map (·.1) := by
    intro n hn hm
    obtain ⟨⟨n', y⟩, hy, e⟩ := List.mem_map.1 hm
    have e' : n' = n := e
    subst e'
    exact hn y hy
  have hk1 : (((nShot, v) :: kw).map (·.1)).Nodup := List.nodup_cons.2 ⟨notIn _ hs, hk⟩
  have hk2 : (((nPulse, v) :: kw).map (·.1)).Nodup := List.nodup_cons.2 ⟨notIn _ hp, hk⟩
  have hne : nShot ≠ nPulse := by decide
  have hsh : Shot ((nShot, v) :: kw) ((nPulse, v) :: kw) := by
    refine ⟨v, List.mem_cons_self, ?_, ?_⟩
    · intro x hx
      rcases List.mem_cons.1 hx with e | e
      · exact hne (congrArg Prod.fst e).symm
      · exact hp x e
    · intro k
      rw [List.mem_cons, List.mem_cons]
      constructor
      · rintro (h | h)
        · exact .inl h
        · refine .inr ⟨.inr h, ?_⟩
          intro e
          have e' : k.1 = nShot := e
          exact notIn _ hs (e' ▸ List.mem_map.2 ⟨k, h, rfl⟩)
      · rintro (h | ⟨h | h, hn⟩)
        · exact .inl h
        · exact absurd (congrArg Prod.fst h) hn
        · exact .inr h
  have noUri : ∀ {n : Text} {u m : Arg}, n ≠ nUri → n ≠ nMode → ¬ AsUri args ((n, v) :: kw) u m := by
    intro n u m h1 h2 h
    rcases open_uri_names h (k := (n, v)) (by simp) with e | e
    · exact h1 e
    · exact h2 e
  have means : ∀ x, Means args ((nShot, v) :: kw) x ↔ Means args ((nPulse, v) :: kw) x := by
    intro x
    constructor
    · intro h
      cases h with
      | uri h => exact absurd h (noUri (by decide) (by decide))
      | legacy h => exact absurd (List.mem_cons_self) (open_legacy_no_shot h v)
      | @shot kw' l hs' h =>
        refine .legacy (binds_congr (fun k => ?_) h)
        obtain ⟨v', h1, -, h3⟩ := hs'
        have hvv : v' = v := by
          rcases List.mem_cons.1 h1 with e | e
          · exact congrArg Prod.snd e
          · exact absurd e (hs v')
        obtain ⟨v2, h4, -, h5⟩ := hsh
        have hvv2 : v2 = v := by
          rcases List.mem_cons.1 h4 with e | e
          · exact congrArg Prod.snd e
          · exact absurd e (hs v2)
        rw [h3, h5, hvv, hvv2]
    · intro h
      cases h with
      | uri h => exact absurd h (noUri (by decide) (by decide))
      | legacy h => exact .shot hsh h
      | shot hs' h =>
        obtain ⟨_, _, h2, _⟩ := hs'
        exact absurd (List.mem_cons_self) (h2 v)
  cases h1 : arguments args ((nShot, v) :: kw) with
  | ok x => exact ((C63_arguments args hk2 x).2 ((means x).1 ((C63_arguments args hk1 x).1 h1))).symm
  | error e =>
    refine ((C63_errors args hk2 e).2 ?_).symm
    obtain ⟨h2, h3⟩ := (C63_errors args hk1 e).1 h1
    refine ⟨fun x hx => h2 x ((means x).2 hx), .inr ⟨?_, ?_⟩⟩
    · rintro ⟨a, b, h, -⟩
      rcases List.mem_cons.1 h with e | e
      · exact hne (congrArg Prod.fst e)
      · exact hs a e
    · rcases h3 with ⟨⟨a, b, -, h⟩, -⟩ | ⟨-, h⟩
      · exfalso
        rcases List.mem_cons.1 h with e | e
        · exact hne (congrArg Prod.fst e).symm
        · exact hp b e
      · exact h

theorem isNetcdf_iff (uri : Text) : isNetcdf uri = true ↔ NcFile uri := by
  unfold isNetcdf NcFile
  rw [Bool.and_eq_true, Bool.not_eq_true', ← Bool.not_eq_true, List.isSuffixOf_iff_suffix, List.isPrefixOf_iff_prefix]
  constructor
  · rintro ⟨⟨p, h1⟩, h2⟩
    exact ⟨⟨p, h1.symm⟩, fun ⟨r, hr⟩ => h2 ⟨r, hr.symm⟩⟩
  · rintro ⟨⟨p, h1⟩, h2⟩
    exact ⟨⟨p, h1.symm⟩, fun ⟨r, hr⟩ => h2 ⟨r, hr.symm⟩⟩

variable {B : Type}

/-- C63: a new entry is what its arguments mean. With legacy parameters nothing is opened; a name that ends with `.nc`
is a netCDF file, unless it starts with `imas:`; and every other URI is opened with the Access Layer. -/
theorem C63_new_entry (w : World B) (f : Factory) (args : List Arg) {kw : List (Text × Arg)}
    (hk : (kw.map (·.1)).Nodup) (s s' : St B) (e : Entry) (h : newEntry w (.ok f) args kw s = (s', .ok e)) :
    Means args kw e.wanted ∧ e.factory = f ∧
    ((∃ l, e.wanted = .legacy l ∧ e.impl = none ∧ s' = s) ∨
     (∃ u m, e.wanted = .uri u m ∧ NcFile u ∧ e.impl = some (.netcdf u m) ∧ s' = s) ∨
     (∃ u m a, e.wanted = .uri u m ∧ ¬ NcFile u ∧ e.impl = some (.al a) ∧ fromUri w u m f s = (s', .ok a))) := by
  unfold newEntry at h
  cases ha : arguments args kw with
  | error x => rw [ha] at h; cases h
  | ok a =>
    have hm := (C63_arguments args hk a).1 ha
    rw [ha] at h
    simp only at h
    cases a with
    | legacy l => cases h; exact ⟨hm, rfl, .inl ⟨l, rfl, rfl, rfl⟩⟩
    | uri u m =>
      simp only at h
      split at h
      · next hn => cases h; exact ⟨hm, rfl, .inr (.inl ⟨u, m, rfl, (isNetcdf_iff u).1 hn, rfl, rfl⟩)⟩
      · next hn =>
        split at h
        · cases h
        · next hu => cases h; exact ⟨hm, rfl, .inr (.inr ⟨u, m, _, rfl, fun h' => hn ((isNetcdf_iff u).2 h'), rfl, hu⟩)⟩

/-- C63: arguments without meaning, or an unknown Data Dictionary, are reported before anything is opened. -/
theorem C63_nothing_opened (w : World B) (d : Except Exc Factory) (args : List Arg) {kw : List (Text × Arg)}
    (hk : (kw.map (·.1)).Nodup) (s : St B) (h : (∀ x, ¬ Means args kw x) ∨ ∃ x, d = .error x) :
    ∃ e, newEntry w d args kw s = (s, .error e) := by
  unfold newEntry
  cases ha : arguments args kw with
  | error x => exact ⟨x, rfl⟩
  | ok a =>
    rcases h with h | ⟨x, rfl⟩
    · exact absurd ((C63_arguments args hk a).1 ha) (h a)
    · exact ⟨x, rfl⟩

/-- C63: an entry is opened once: `open` and `create` raise a `RuntimeError` and do nothing if the entry is open, or was
created with a URI. -/
theorem C63_open_once (w : World B) (e : Entry) (a : Action) (opts : Arg) (s : St B)
    (h : e.impl ≠ none ∨ ∃ u m, e.wanted = .uri u m) (force : Bool) :
    create w e force opts s = (s, .error .runtime) ∧ «open» w e a force opts s = (s, .error .runtime) := by
  have key : ∀ a, openPulse w e a opts s = (s, .error .runtime) := by
    intro a
    unfold openPulse
    rcases h with h | ⟨u, m, h⟩
    · cases hi : e.impl with
      | none => exact absurd hi h
      | some i => rfl
    · rw [h]
      cases e.impl <;> rfl
  exact ⟨key _, key _⟩

/-! ### C64 -/

theorem open_orDefault (x d : Arg) : OrDefault x d (if x.truthy then x else d) := by
  unfold OrDefault Arg.truthy
  cases x with
  | none => simp
  | int i =>
    by_cases h : i = 0
    · subst h; simp
    · simp [h]
  | str t =>
    by_cases h : t = []
    · subst h; simp
    · simp [h]
  | path t => simp

theorem open_same (w : World B) (b : Text) (a : Action) (f : Factory) (s : Sys B) : OnlyPrepares w b a f s s :=
  ⟨fun _ => .inl rfl, fun _ => .inl rfl⟩

theorem open_env (w : World B) {b : Text} {a : Action} (f : Factory) {s s' : Sys B} (h : OnlyPrepares w b a f s s') (k v : Text)
    (hk : b = "mdsplus".toList ∧ a ≠ .open ∧ k = vIdsPath ∨ b = "uda".toList ∧ k = vIdsdef) :
    OnlyPrepares w b a f s (s'.setEnv k v) := by
  refine ⟨fun x => ?_, h.files⟩
  show (if x = k then some v else s'.env x) = _ ∨ _
  by_cases e : x = k
  · rw [e]
    exact .inr hk
  · rw [if_neg e]
    exact h.env x

theorem open_versionAt {w : World B} {s : Sys B} {p v : Text} :
    versionAt w s p = some v ↔ ∃ b, s.files p = some b ∧ w.versionOf b = some v := by
  unfold versionAt
  cases s.files p <;> simp

theorem open_extract {w : World B} (hw : Truthful w) {b : Text} (a : Action) (f : Factory) (hb : b = "uda".toList)
    (hx : f.xmlPath = none) (s : Sys B) :
    ((∃ b, s.files (cached w f.version) = some b ∧ w.versionOf b = some f.version) ∧
      extractIdsdef w f.version s = (s, .ok (cached w f.version))) ∨
    ((∀ b, s.files (cached w f.version) = some b → w.versionOf b ≠ some f.version) ∧
      (w.bundled f.version = none ∧ extractIdsdef w f.version s = (s, .error .unknownVersion) ∨
       ∃ s', extractIdsdef w f.version s = (s', .ok (cached w f.version)) ∧ OnlyPrepares w b a f s s' ∧
        ∃ b, s'.files (cached w f.version) = some b ∧ w.versionOf b = some f.version)) := by
  unfold extractIdsdef
  by_cases h : versionAt w s (cached w f.version) = some f.version
  · rw [if_pos h]
    exact .inl ⟨open_versionAt.1 h, rfl⟩
  · rw [if_neg h]
    have hn : ∀ b, s.files (cached w f.version) = some b → w.versionOf b ≠ some f.version :=
      fun b h1 h2 => h (open_versionAt.2 ⟨b, h1, h2⟩)
    refine .inr ⟨hn, ?_⟩
    cases hy : w.bundled f.version with
    | none => exact .inl ⟨rfl, rfl⟩
    | some y =>
      have hc : (s.write (cached w f.version) y).files (cached w f.version) = some y := if_pos rfl
      refine .inr ⟨_, rfl, ⟨fun _ => .inl rfl, fun p => ?_⟩, y, hc, hw _ _ hy⟩
      by_cases hp : p = cached w f.version
      · subst hp
        exact .inr ⟨hb, hx, rfl, hc.trans hy.symm, hn⟩
      · exact .inl (if_neg hp)

theorem open_setEnv_self (s : Sys B) (k v : Text) : (s.setEnv k v).env k = some v := if_pos rfl

/-- Preparing a backend. -/
theorem open_setup {w : World B} (hw : Truthful w) (b : Text) (a : Action) (f : Factory) (s : Sys B) :
    (∃ e, CannotPrepare w b a f s e ∧ setupBackend w b a f s = (s, .error e)) ∨
    ∃ s', setupBackend w b a f s = (s', .ok ()) ∧ Prepared w b a f s' ∧ OnlyPrepares w b a f s s' := by
  unfold setupBackend
  by_cases hm : b = bMdsplus
  · rw [if_pos hm]
    have hu : b ≠ "uda".toList := by rw [hm]; decide
    by_cases ha : a = .open
    · rw [if_neg (by simp [ha])]
      exact .inr ⟨s, rfl, ⟨fun h => absurd h hu, fun _ h => absurd ha h⟩, open_same w b a f s⟩
    · rw [if_pos ha]
      cases hx : w.models f with
      | error e => exact .inl ⟨e, .models hm ha hx, rfl⟩
      | ok p =>
        by_cases hp : p = []
        · subst hp
          exact .inr ⟨s, rfl, ⟨fun h => absurd h hu, fun _ _ => ⟨[], hx, fun h => absurd rfl h⟩⟩, open_same w b a f s⟩
        · simp only [ne_eq, hp, not_false_eq_true, if_true]
          exact .inr ⟨_, rfl, ⟨fun h => absurd h hu, fun _ _ => ⟨p, hx, fun _ => open_setEnv_self ..⟩⟩,
            open_env w f (open_same w b a f s) _ _ (.inl ⟨hm, ha, rfl⟩)⟩
  · rw [if_neg hm]
    have notM : ∀ s', (b = "uda".toList → ∃ p, s'.env "IDSDEF_PATH".toList = some p ∧
        (f.xmlPath = some (.str p) ∨ f.xmlPath = none ∧ ∃ b, s'.files p = some b ∧ w.versionOf b = some f.version)) →
        Prepared w b a f s' := fun s' h => ⟨h, fun h => absurd h hm⟩
    by_cases hu : b = bUda
    · rw [if_pos hu]
      cases hx : f.xmlPath with
      | some p =>
        cases p with
        | str p =>
          exact .inr ⟨_, rfl, notM _ fun _ => ⟨p, open_setEnv_self .., .inl hx⟩,
            open_env w f (open_same w b a f s) _ _ (.inr ⟨hu, rfl⟩)⟩
        | none => exact .inl ⟨_, .notText hu hx (by simp), rfl⟩
        | int i => exact .inl ⟨_, .notText hu hx (by simp), rfl⟩
        | path t => exact .inl ⟨_, .notText hu hx (by simp), rfl⟩
      | none =>
        have inner : (∀ d b, s.env "IMAS_PREFIX".toList = some d → s.files (d ++ "/include/IDSDef.xml".toList) = some b →
              w.versionOf b ≠ some f.version) →
            (∃ e, CannotPrepare w b a f s e ∧ (match extractIdsdef w f.version s with
              | (s, .error e) => (s, Except.error e)
              | (s, .ok p) => (s.setEnv vIdsdef p, .ok ())) = (s, .error e)) ∨
            ∃ s', (match extractIdsdef w f.version s with
              | (s, .error e) => (s, Except.error e)
              | (s, .ok p) => (s.setEnv vIdsdef p, .ok ())) = (s', .ok ()) ∧ Prepared w b a f s' ∧ OnlyPrepares w b a f s s' := by
          intro hpre
          rcases open_extract hw a f hu hx s with ⟨⟨y, h1, h2⟩, h3⟩ | ⟨h1, ⟨h2, h3⟩ | ⟨s', h3, h4, h5⟩⟩
          · rw [h3]
            exact .inr ⟨_, rfl, notM _ fun _ => ⟨_, open_setEnv_self .., .inr ⟨hx, y, h1, h2⟩⟩,
              open_env w f (open_same w b a f s) _ _ (.inr ⟨hu, rfl⟩)⟩
          · rw [h3]
            exact .inl ⟨_, .unknown hu hx h2 hpre h1, rfl⟩
          · rw [h3]
            exact .inr ⟨_, rfl, notM _ fun _ => ⟨_, open_setEnv_self .., .inr ⟨hx, h5⟩⟩,
              open_env w f h4 _ _ (.inr ⟨hu, rfl⟩)⟩
        simp only
        cases he : s.env vPrefix with
        | none => exact inner fun d b h => by rw [show s.env "IMAS_PREFIX".toList = none from he] at h; cases h
        | some d =>
          simp only
          by_cases hv : versionAt w s (d ++ "/include/IDSDef.xml".toList) = some f.version
          · rw [if_pos hv]
            obtain ⟨y, h1, h2⟩ := open_versionAt.1 hv
            exact .inr ⟨_, rfl, notM _ fun _ => ⟨_, open_setEnv_self .., .inr ⟨hx, y, h1, h2⟩⟩,
              open_env w f (open_same w b a f s) _ _ (.inr ⟨hu, rfl⟩)⟩
          · rw [if_neg hv]
            refine inner fun d' y h h1 h2 => hv ?_
            rw [show s.env "IMAS_PREFIX".toList = some d from he] at h
            cases h
            exact open_versionAt.2 ⟨y, h1, h2⟩
    · rw [if_neg hu]
      exact .inr ⟨s, rfl, notM _ fun h => absurd h hu, open_same w b a f s⟩

theorem open_al {w : World B} (hw : Truthful w) {uri b q : Text} (hu : ImasUri uri b q) (a : Action) (f : Factory) (s : St B) :
    Opens w uri b q a f s (openAl w uri a f s).1 (openAl w uri a f s).2 := by
  unfold openAl
  simp only [backendOf_imas hu]
  rcases open_setup hw b a f s.sys with ⟨e, h1, h2⟩ | ⟨s', h1, h2, h3⟩
  · rw [h2]; exact .unprepared h1
  · rw [h1]
    simp only
    cases hb : w.begin ⟨uri, a, s'⟩ with
    | none => exact .refused h2 h3 hb
    | some c =>
      refine .opened h2 h3 hb rfl (fun n v => options_iff ?_ n v)
      obtain ⟨name, slash, e, -⟩ := urlparse_imas hu
      rw [e]

/-- C64: opening a URI of IMAS with a valid mode asks the Access Layer at most once, and with this URI and the action of
the mode. Before that, the environment is prepared for the backend that the URI names, in upper or lower case and with or
without host, and nothing else is changed. If the backend cannot be prepared, nothing happens at all. The options of the
entry are those of the query. -/
theorem C64_open_uri {w : World B} (hw : Truthful w) (hi : w.hasImas = true) {uri b q : Text} (hu : ImasUri uri b q)
    {mode : Arg} {a : Action} (hm : ModeIs mode a) (f : Factory) (s : St B) :
    Opens w uri b q a f s (fromUri w uri mode f s).1 (fromUri w uri mode f s).2 := by
  unfold fromUri
  rw [if_neg (by simp [hi])]
  cases hm <;> exact open_al hw hu _ f s

/-- C64: any other mode raises a `ValueError`, and nothing is opened. -/
theorem C64_unknown_mode (w : World B) (hi : w.hasImas = true) (uri : Text) (mode : Arg) (f : Factory) (s : St B)
    (h : ∀ a, ¬ ModeIs mode a) : fromUri w uri mode f s = (s, .error .value) := by
  unfold fromUri
  rw [if_neg (by simp [hi])]
  cases mode with
  | str m =>
    simp only
    cases hm : openModes.lookup m with
    | none => rfl
    | some a =>
      exfalso
      simp only [openModes, List.lookup_cons, List.lookup_nil] at hm
      split at hm
      · next e => rw [eq_of_beq e] at h; exact h _ .r
      · split at hm
        · next e => rw [eq_of_beq e] at h; exact h _ .a
        · split at hm
          · next e => rw [eq_of_beq e] at h; exact h _ .w
          · split at hm
            · next e => rw [eq_of_beq e] at h; exact h _ .x
            · cases hm
  | none => rfl
  | int i => rfl
  | path t => rfl

/-- C64: without the Access Layer, URIs other than netCDF files raise a `RuntimeError`. -/
theorem C64_no_access_layer (w : World B) (hi : w.hasImas = false) (uri : Text) (mode : Arg) (f : Factory) (s : St B)
    (l : Legacy) (a : Action) (o : Arg) :
    fromUri w uri mode f s = (s, .error .runtime) ∧ fromPulseRun w l a o f s = (s, .error .runtime) := by
  unfold fromUri fromPulseRun
  rw [if_pos hi, if_pos hi]
  exact ⟨rfl, rfl⟩

/-- C64: `open` and `create` of an entry with legacy parameters ask the Access Layer for the URI of the given parameters,
where the user name, the data version and the options have default values. If there is no such URI, nothing is opened;
otherwise the entry is opened as with this URI: by `create` with the action for creating entries, which overwrites entries
unless `force=False`, and by `open` with the given mode. -/
theorem C64_open_legacy {w : World B} (hw : Truthful w) (hi : w.hasImas = true) (l : Legacy) (f : Factory) (o : Arg)
    (s : St B) :
    ∃ user version opts, OrDefault l.userName (.str w.user) user ∧ OrDefault l.dataVersion (.str f.version) version ∧
      OrDefault o (.str []) opts ∧
      (w.buildUri l.backendId l.pulse l.run user l.dbName version opts = none →
        (∀ force, create w ⟨.legacy l, f, none⟩ force o s = (s, .error .lowlevel)) ∧
        ∀ mode force, «open» w ⟨.legacy l, f, none⟩ mode force o s = (s, .error .lowlevel)) ∧
      ∀ uri b q, w.buildUri l.backendId l.pulse l.run user l.dbName version opts = some uri → ImasUri uri b q →
        (∀ force, ∃ s' r, Opens w uri b q (if force then .forceCreate else .create) f s s' r ∧
          create w ⟨.legacy l, f, none⟩ force o s = (s', r.map fun a => ⟨.legacy l, f, some (.al a)⟩)) ∧
        ∀ mode force, ∃ s' r, Opens w uri b q (if force then .forceOpen else mode) f s s' r ∧
          «open» w ⟨.legacy l, f, none⟩ mode force o s = (s', r.map fun a => ⟨.legacy l, f, some (.al a)⟩) := by
  refine ⟨_, _, _, open_orDefault .., open_orDefault .., open_orDefault .., ?_, ?_⟩
  · intro hb
    have key : ∀ a, openPulse w ⟨.legacy l, f, none⟩ a o s = (s, .error .lowlevel) := by
      intro a
      unfold openPulse fromPulseRun
      simp only [hi, Bool.true_eq_false, if_false, hb]
    exact ⟨fun _ => key _, fun _ _ => key _⟩
  · intro uri b q hb hu
    have key : ∀ a, ∃ s' r, Opens w uri b q a f s s' r ∧
        openPulse w ⟨.legacy l, f, none⟩ a o s = (s', r.map fun a => ⟨.legacy l, f, some (.al a)⟩) := by
      intro a
      refine ⟨_, _, open_al hw hu a f s, ?_⟩
      unfold openPulse fromPulseRun
      simp only [hi, Bool.true_eq_false, if_false, hb]
      rcases openAl w uri a f s with ⟨s', x | y⟩ <;> rfl
    exact ⟨fun _ => key _, fun _ _ => key _⟩

/-- C64, a limit: `xml_path` may be a `pathlib.Path`, but then opening an entry with the UDA backend always raises a
`TypeError`, since the value of the environment variable must be a text. -/
theorem C64_path_limit {w : World B} (hi : w.hasImas = true) {uri q : Text} (hu : ImasUri uri "uda".toList q)
    {mode : Arg} {a : Action} (hm : ModeIs mode a) (v p : Text) (s : St B) :
    fromUri w uri mode ⟨v, some (.path p)⟩ s = (s, .error .type) := by
  have key : ∀ a, openAl w uri a ⟨v, some (.path p)⟩ s = (s, .error .type) := by
    intro a
    unfold openAl
    simp only [backendOf_imas hu]
    rfl
  unfold fromUri
  rw [if_neg (by simp [hi])]
  cases hm <;> exact key _

/-! ### Examples -/

/-- A small world: files contain their version; version 3 is bundled. -/
def openWorld : World Text where
  hasImas := true
  versionOf := some
  bundled v := if v = "3".toList then some v else none
  cacheDir := "/c".toList
  models _ := .ok "/m".toList
  user := "me".toList
  buildUri _ _ _ user _ _ _ := some ("imas:hdf5?user=".toList ++ user.text)
  begin c := if c.sys.env vIdsdef = some "/c/3.xml".toList then some 5 else none

theorem openWorld_truthful : Truthful openWorld := by
  intro v b h
  change (if v = "3".toList then some v else none) = some b at h
  split at h
  · exact congrArg some (Option.some.inj h).symm
  · cases h

def openState : St Text := ⟨⟨fun _ => none, fun _ => none⟩, []⟩

/-- The URI signature, by name and in another order. -/
example : (arguments [] [(nMode, .str ['r']), (nUri, .path "a.nc".toList)]).toOption =
    some (.uri "a.nc".toList (.str ['r'])) := by decide +kernel

/-- The legacy signature, with `shot` and some arguments by name. -/
example : (arguments [.int 13, .str "test".toList] [("run".toList, .int 2), (nShot, .int 1)]).toOption =
    some (.legacy ⟨.int 13, .str "test".toList, .int 1, .int 2, .none, .none⟩) := by decide +kernel

/-- Both `shot` and `pulse`, and a missing argument. -/
example : (match arguments [.int 13, .str "test".toList] [("run".toList, .int 2), (nShot, .int 1), (nPulse, .int 1)] with
      | .error e => decide (e = .value)
      | .ok _ => false) = true ∧
    (match arguments [.int 13, .str "test".toList, .int 1] [] with
      | .error e => decide (e = .type)
      | .ok _ => false) = true := by decide +kernel

/-- A backend and a name alone are taken for a URI and a mode. -/
example : (arguments [.int 13, .str "test".toList] []).toOption = some (.uri "13".toList (.str "test".toList)) := by
  decide +kernel

example : NcFile "data/test.nc".toList ∧ ¬ NcFile "imas:hdf5?path=test.nc".toList := by
  rw [← isNetcdf_iff, ← isNetcdf_iff]
  decide +kernel

/-- A URI with host, upper case letters, query and fragment. -/
theorem openUri : ImasUri "imas://uda.org:56/UDA?path=/a;b=1&path=x=y#f".toList "uda".toList "path=/a;b=1&path=x=y".toList := by
  refine ⟨⟨"imas".toList, "//uda.org:56/".toList, "UDA".toList, "?path=/a;b=1&path=x=y".toList, "#f".toList, by decide +kernel,
    by decide +kernel, .inr ⟨"uda.org:56".toList, by decide +kernel, by decide +kernel⟩, by decide +kernel, by decide +kernel,
    by decide +kernel, .inr (by decide +kernel), by decide +kernel, .inr ⟨"f".toList, by decide +kernel⟩⟩, by decide +kernel⟩

/-- The last value of an option counts. -/
example : OptionIs "path=/a;b=1&path=x=y".toList "path".toList "x=y".toList := by
  have h : (urlparse "imas://uda.org:56/UDA?path=/a;b=1&path=x=y#f".toList).2 = "path=/a;b=1&path=x=y".toList := by
    decide +kernel
  exact (options_iff h _ _).1 (by decide +kernel)

/-- UDA gets the definition of the version of the entry; and it is opened. -/
example : (match fromUri openWorld "imas://uda.org:56/UDA?path=/a;b=1&path=x=y#f".toList (.str ['r']) ⟨"3".toList, none⟩ openState with
      | (s, .ok a) => decide (a.ctx = 5 ∧ s.sys.files "/c/3.xml".toList = some "3".toList ∧ s.calls.length = 1)
      | _ => false) = true := by
  decide +kernel

example : Opens openWorld "imas://uda.org:56/UDA?path=/a;b=1&path=x=y#f".toList "uda".toList "path=/a;b=1&path=x=y".toList .open
    ⟨"3".toList, none⟩ openState
    (fromUri openWorld "imas://uda.org:56/UDA?path=/a;b=1&path=x=y#f".toList (.str ['r']) ⟨"3".toList, none⟩ openState).1
    (fromUri openWorld "imas://uda.org:56/UDA?path=/a;b=1&path=x=y#f".toList (.str ['r']) ⟨"3".toList, none⟩ openState).2 :=
  C64_open_uri openWorld_truthful rfl openUri .r _ _

/-- A version that is not bundled. -/
example : CannotPrepare openWorld "uda".toList .open ⟨"4".toList, none⟩ openState.sys .unknownVersion :=
  .unknown rfl rfl (by decide +kernel) (by intro d b h; cases h) (by intro b h; cases h)

/-- Legacy parameters. -/
example : ImasUri "imas:hdf5?user=me".toList "hdf5".toList "user=me".toList ∧
    openWorld.buildUri (.int 13) (.int 1) (.int 2) (.str "me".toList) (.str "t".toList) (.str "3".toList) (.str []) =
      some "imas:hdf5?user=me".toList := by
  refine ⟨⟨⟨"imas".toList, [], "hdf5".toList, "?user=me".toList, [], by decide +kernel, by decide +kernel, .inl rfl, by decide +kernel,
    by decide +kernel, by decide +kernel, .inr (by decide +kernel), by decide +kernel, .inl rfl⟩, by decide +kernel⟩, by decide +kernel⟩

end Verif.Props
