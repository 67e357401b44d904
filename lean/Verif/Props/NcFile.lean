import Verif.Lemmas.PyInt
import Verif.Spec.NcFile
import Verif.Lemmas.NcReadable
import Verif.Props.NcRound
import Verif.Props.NcStore
/-
C66: validation of netCDF files.
-/
namespace Verif.Props
open Verif.Ids Verif.TreeSpec Verif.Nc Verif.NcSpec Verif.NcFile Verif.NcFileSpec
open Verif.ConvertSpec (metaAt)
open Verif.AlSpec (arraysOf)
open Verif.Coord (pyInt pyInt_iff)
open Verif.PyIntSpec (WritesInt)
open Verif.NcStore (showInt assoc sort)

section
variable {S : Type} {A : Type}

/-! ### Parts -/

theorem ncf_assoc {l : List (Text × A)} (h : (l.map (·.1)).Nodup) {n : Text} {a : A} : assoc l n = some a ↔ (n, a) ∈ l := by
  induction l with
  | nil => simp [assoc]
  | cons x r ih =>
    obtain ⟨k, b⟩ := x
    simp only [List.map_cons, List.nodup_cons] at h
    unfold assoc
    by_cases hk : n = k
    · subst hk
      rw [if_pos rfl]
      simp only [Option.some.injEq, List.mem_cons, Prod.mk.injEq, true_and]
      constructor
      · intro e; exact .inl e.symm
      · rintro (e | e)
        · exact e.symm
        · exact absurd (List.mem_map.mpr ⟨_, e, rfl⟩) h.1
    · rw [if_neg hk, ih h.2]
      simp [hk]

theorem ncf_find {f : File A} (h : GroupsOnce f) {n : Text} {o : Int} {a : A} : findOcc f n o = some a ↔ HasOcc f n (occName o) a := by
  unfold findOcc HasOcc
  rw [show occName o = showInt o from (C34_group_name o).symm]
  cases ht : assoc f.groups n with
  | none =>
    simp only [reduceCtorEq, false_iff]
    rintro ⟨t, h1, -⟩
    rw [(ncf_assoc h.tops).mpr h1] at ht
    cases ht
  | some t =>
    have h1 := (ncf_assoc h.tops).mp ht
    simp only
    rw [ncf_assoc (h.occs _ h1)]
    constructor
    · exact fun h2 => ⟨t, h1, h2⟩
    · rintro ⟨t', h2, h3⟩
      rw [(ncf_assoc h.tops).mpr h2] at ht
      cases ht
      exact h3

theorem ncf_occurrences {f : File A} (h : GroupsOnce f) {n : Text} {o : Int} :
    o ∈ occurrences f n ↔ ∃ s a, HasOcc f n s a ∧ pyInt s = some o := by
  unfold occurrences HasOcc
  cases ht : assoc f.groups n with
  | none =>
    simp only [List.not_mem_nil, false_iff]
    rintro ⟨s, a, ⟨t, h1, -⟩, -⟩
    rw [(ncf_assoc h.tops).mpr h1] at ht
    cases ht
  | some t =>
    have h1 := (ncf_assoc h.tops).mp ht
    simp only [mem_sort, List.mem_filterMap]
    constructor
    · rintro ⟨⟨s, a⟩, h2, h3⟩
      exact ⟨s, a, ⟨t, h1, h2⟩, h3⟩
    · rintro ⟨s, a, ⟨t', h2, h3⟩, h4⟩
      rw [(ncf_assoc h.tops).mpr h2] at ht
      cases ht
      exact ⟨(s, a), h3, h4⟩

theorem ncf_number {s : Text} : (∃ i, WritesInt s i) ↔ pyInt s ≠ none := by
  simp only [← pyInt_iff]
  cases pyInt s <;> simp

theorem ncf_tops {names : List Text} : ∀ {l : List (Text × Top A)}, checkTops names l = .ok () ↔
    ∀ n t, (n, t) ∈ l → t.extras = false ∧ n ∈ names ∧ ∀ s a, (s, a) ∈ t.occs → pyInt s ≠ none
  | [] => by simp [checkTops]
  | (k, u) :: r => by
    have ih := ncf_tops (names := names) (l := r)
    unfold checkTops
    have hany : u.occs.any (fun s => (pyInt s.1).isNone) = true ↔ ¬ ∀ s a, (s, a) ∈ u.occs → pyInt s ≠ none := by
      rw [List.any_eq_true]
      constructor
      · rintro ⟨⟨s, a⟩, h1, h2⟩ h
        exact h s a h1 (by simpa using h2)
      · intro h
        by_cases hh : ∃ x ∈ u.occs, (pyInt x.1).isNone = true
        · exact hh
        · exact absurd (fun s a hm he => hh ⟨(s, a), hm, by simp [he]⟩) h
    split
    · rename_i h
      refine ⟨fun h' => (by cases h'), fun h' => ?_⟩
      have := (h' k u (List.mem_cons_self ..)).1
      rw [h] at this
      cases this
    · rename_i h
      split
      · rename_i h2
        exact ⟨fun h' => (by cases h'), fun h' => absurd (h' k u (List.mem_cons_self ..)).2.1 h2⟩
      · rename_i h2
        split
        · rename_i h3
          exact ⟨fun h' => (by cases h'), fun h' => absurd (h' k u (List.mem_cons_self ..)).2.2 (hany.mp h3)⟩
        · rename_i h3
          rw [ih]
          constructor
          · intro h' n t hm
            rcases List.mem_cons.mp hm with e | hm
            · cases e
              refine ⟨by simpa using h, Classical.not_not.mp h2, ?_⟩
              exact Classical.not_not.mp fun hh => h3 (hany.mpr hh)
            · exact h' n t hm
          · exact fun h' n t hm => h' n t (List.mem_cons_of_mem _ hm)

theorem ncf_tops_error {names : List Text} : ∀ {l : List (Text × Top A)} {e : Exc}, checkTops names l = .error e → e = .invalid
  | [], _, h => by cases h
  | (k, u) :: r, e, h => by
    unfold checkTops at h
    split at h
    · cases h; rfl
    · split at h
      · cases h; rfl
      · split at h
        · cases h; rfl
        · exact ncf_tops_error h

theorem ncf_each {h : A → Except Exc Unit} : ∀ {l : List A}, each h l = .ok () ↔ ∀ x ∈ l, h x = .ok ()
  | [] => by simp [each]
  | x :: r => by
    unfold each
    cases hx : h x with
    | error e => simp [hx]
    | ok u =>
      simp only [List.mem_cons, forall_eq_or_imp]
      rw [ncf_each (l := r)]
      exact ⟨fun hh => ⟨hx, hh⟩, fun hh => hh.2⟩

theorem ncf_each_error {h : A → Except Exc Unit} : ∀ {l : List A} {e : Exc}, each h l = .error e → ∃ x ∈ l, h x = .error e
  | [], _, h => by cases h
  | x :: r, e, hh => by
    unfold each at hh
    split at hh
    · rename_i e' he
      cases hh
      exact ⟨x, List.mem_cons_self .., he⟩
    · obtain ⟨y, h1, h2⟩ := ncf_each_error hh
      exact ⟨y, List.mem_cons_of_mem _ h1, h2⟩

variable [DecidableEq S] {D : Dict S} {f : File (Group S)}

theorem ncf_occs {b : Bool} : ∀ {l : List Text}, checkOccs D b f l = .ok () ↔ ∀ n ∈ l, ∀ o ∈ occurrences f n, checkOcc D b f n o = .ok ()
  | [] => by simp [checkOccs]
  | n :: r => by
    unfold checkOccs
    cases hx : each (checkOcc D b f n) (occurrences f n) with
    | error e =>
      refine ⟨fun h => (by cases h), fun h => ?_⟩
      rw [ncf_each.mpr (h n (List.mem_cons_self ..))] at hx
      cases hx
    | ok u =>
      simp only [List.mem_cons, forall_eq_or_imp]
      rw [ncf_occs (l := r)]
      exact ⟨fun hh => ⟨ncf_each.mp hx, hh⟩, fun hh => hh.2⟩

theorem ncf_occs_error {b : Bool} : ∀ {l : List Text} {e : Exc}, checkOccs D b f l = .error e →
    ∃ n ∈ l, ∃ o ∈ occurrences f n, checkOcc D b f n o = .error e
  | [], _, h => by cases h
  | n :: r, e, hh => by
    unfold checkOccs at hh
    split at hh
    · rename_i e' he
      cases hh
      obtain ⟨o, h1, h2⟩ := ncf_each_error he
      exact ⟨n, List.mem_cons_self .., o, h1, h2⟩
    · obtain ⟨y, h1, h2⟩ := ncf_occs_error hh
      exact ⟨y, List.mem_cons_of_mem _ h1, h2⟩

theorem ncf_mode (hD : DictOk D) {n : Text} (hn : n ∈ D.names) : ModeOk (D.fields n) := by
  obtain ⟨l, h1, h2, h3⟩ := hD.mode n hn
  exact ⟨⟨l, h1, h2⟩, h3⟩

/-- The check of a group. -/
theorem ncf_group (hD : DictOk D) {n : Text} (hn : n ∈ D.names) {g : Group S} (hg : NamesOk g) :
    checkGroup (D.reader n g) true = .ok () ↔ Valid D n g := by
  obtain ⟨fuel, I, hN⟩ := hD.meta_ok n hn
  have hw := hD.fields n hn
  have hm := ncf_mode hD hn
  obtain ⟨own, hl⟩ := layout hw hN true
  unfold checkGroup Valid
  have rm := fun hom => readMode_ok (R := D.reader n g) (hom := hom) hw hN hm rfl
  cases hmode : readMode (D.reader n g) with
  | error e =>
    refine ⟨fun h => (by cases h), ?_⟩
    rintro ⟨v, k, h1, h2, h3, h4, -⟩
    obtain ⟨y, h5, h6⟩ := h4 _ _ h1
    obtain ⟨h, h7, -⟩ := (rm (decide (k = 1))).2 ⟨v, y, k, h1, h5, validMode (R := D.reader n g) hw hN hm h5 h6, h2, h3, rfl⟩
    rw [hmode] at h7
    cases h7
  | ok hom =>
    obtain ⟨v, y, k, h1, h2, h3, h4, h5, rfl⟩ := (rm hom).1 ⟨hom, hmode, rfl⟩
    simp only [if_true]
    have hok := validateGroup_ok (R := D.reader n g) (hom := decide (k = 1)) hg hl.aos
    rw [hok]
    constructor
    · rintro ⟨h6, h7⟩
      exact ⟨v, k, h1, h4, h5, h6, h7⟩
    · rintro ⟨v', k', h6, h7, h8, h9⟩
      cases (show dget g.vars modePath = some v from h1).symm.trans h6
      rw [show (v.data.get []).bind D.sc.int = some k from h4] at h7
      cases h7
      exact h9

theorem ncf_name {fname : Text} : FileName fname ↔ endsWith fname ".nc".toList = true ∧ "imas:".toList.isPrefixOf fname = false := by
  unfold FileName endsWith
  rw [List.isSuffixOf_iff_suffix]
  have : "imas:".toList.isPrefixOf fname = false ↔ ¬ ∃ r, fname = "imas:".toList ++ r := by
    rw [← Bool.not_eq_true, List.isPrefixOf_iff_prefix]
    constructor
    · rintro h ⟨r, hr⟩; exact h ⟨r, hr.symm⟩
    · rintro h ⟨r, hr⟩; exact h ⟨r, hr.symm⟩
  rw [this]
  constructor
  · rintro ⟨⟨r, h1⟩, h2⟩; exact ⟨⟨r, h1.symm⟩, h2⟩
  · rintro ⟨⟨r, h1⟩, h2⟩; exact ⟨⟨r, h1.symm⟩, h2⟩

theorem ncf_open {dicts : Text → Option (Dict S)} {v : Text} (hv : f.version = some v) (hd : dicts v = some D) :
    openFile dicts f = if f.extras = false ∧ f.groups = [] then .error .invalid else .ok D := by
  unfold openFile
  cases he : f.extras <;> cases hg : f.groups <;> simp [hv, hd]

theorem ncf_occName {s : Text} {i j : Int} (hs : s = occName i) (hi : (Nat.toDigits 10 i.natAbs).length ≤ 4300) (h : pyInt s = some j) :
    i = j := by
  subst hs
  rw [show occName i = showInt i from (C34_group_name i).symm, pyInt_showInt hi] at h
  exact Option.some.inj h

theorem ncf_occ {b : Bool} (hf : GroupsOnce f) {n : Text} {o : Int} : checkOcc D b f n o = .ok () ↔
    ∃ g, HasOcc f n (occName o) g ∧ checkGroup (D.reader n g) b = .ok () := by
  unfold checkOcc
  cases h : findOcc f n o with
  | none =>
    refine ⟨fun h' => (by cases h'), ?_⟩
    rintro ⟨g, h1, -⟩
    rw [(ncf_find hf).mpr h1] at h
    cases h
  | some g =>
    simp only
    have hh := (ncf_find hf).mp h
    constructor
    · intro h'
      refine ⟨g, hh, ?_⟩
      cases hc : checkGroup (D.reader n g) b with
      | ok u => rfl
      | error e => rw [hc] at h'; cases e <;> cases h'
    · rintro ⟨g', h1, h2⟩
      rw [(ncf_find hf).mpr h1] at h
      cases h
      rw [h2]

/-! ### Theorems -/

/-- C66: a file with a known version is accepted if and only if it has the name of a netCDF file, there are only groups of IDSs and of
numbers, without anything else in between, and for every number there is a valid group with the usual name of this number. -/
theorem C66_accepts {dicts : Text → Option (Dict S)} {fname v : Text} (hv : f.version = some v) (hd : dicts v = some D) (hD : DictOk D)
    (hf : GroupsOnce f) (hg : NamedGroups f) :
    validateFile dicts true fname (some f) = .ok () ↔ FileName fname ∧ Structured D f ∧
      ∀ n s a i, HasOcc f n s a → WritesInt s i → ∃ g, HasOcc f n (occName i) g ∧ Valid D n g := by
  simp only [← pyInt_iff]
  unfold validateFile
  rw [ncf_name]
  cases h1 : endsWith fname ".nc".toList
  · simp
  rcases h2 : "imas:".toList.isPrefixOf fname with _ | _
  case true => simp
  simp only [Bool.not_true, Bool.false_eq_true, if_false, and_self, true_and]
  rw [ncf_open hv hd]
  by_cases h3 : f.extras = false ∧ f.groups = []
  · rw [if_pos h3]
    refine ⟨fun h => (by cases h), ?_⟩
    rintro ⟨h, -⟩
    exact absurd h3.2 h.nonempty
  · rw [if_neg h3]
    simp only
    rcases h4 : f.extras with _ | _
    case true =>
      simp only [if_true]
      refine ⟨fun h => (by cases h), ?_⟩
      rintro ⟨h, -⟩
      rw [h.root] at h4
      cases h4
    case false =>
      simp only [Bool.false_eq_true, if_false]
      have hne : f.groups ≠ [] := fun h => h3 ⟨h4, h⟩
      cases h5 : checkTops D.names f.groups with
      | error e =>
        refine ⟨fun h => (by cases h), ?_⟩
        rintro ⟨h, -⟩
        rw [ncf_tops.mpr (fun n t hm => ⟨(h.tops n t hm).1, (h.tops n t hm).2, fun s a hs => ncf_number.mp (h.numbers n s a ⟨t, hm, hs⟩)⟩)] at h5
        cases h5
      | ok u =>
        have h6 := ncf_tops.mp h5
        have hst : Structured D f := ⟨h4, hne, fun n t hm => ⟨(h6 n t hm).1, (h6 n t hm).2.1⟩, by
          rintro n s a ⟨t, hm, hs⟩
          exact ncf_number.mpr ((h6 n t hm).2.2 s a hs)⟩
        simp only [hst, true_and]
        rw [ncf_occs]
        have hname : ∀ n s a, HasOcc f n s a → n ∈ D.names := by
          rintro n s a ⟨t, hm, -⟩
          exact (hst.tops n t hm).2
        constructor
        · intro h n s a i hs hi
          obtain ⟨g, h7, h8⟩ := (ncf_occ hf).mp (h n (hname n s a hs) i ((ncf_occurrences hf).mpr ⟨s, a, hs, hi⟩))
          exact ⟨g, h7, (ncf_group hD (hname n s a hs) (hg _ _ _ h7)).mp h8⟩
        · intro h n hn o ho
          obtain ⟨s, a, h7, h8⟩ := (ncf_occurrences hf).mp ho
          obtain ⟨g, h9, h10⟩ := h n s a o h7 h8
          exact (ncf_occ hf).mpr ⟨g, h9, (ncf_group hD hn (hg _ _ _ h9)).mpr h10⟩

/-- C66: if the names of occurrences are written in the usual way, all groups are checked: a file is accepted if and only if it is
structured, and all of its groups are valid. -/
theorem C66_all_groups {dicts : Text → Option (Dict S)} {fname v : Text} (hv : f.version = some v) (hd : dicts v = some D) (hD : DictOk D)
    (hf : GroupsOnce f) (hg : NamedGroups f) (hu : UsualNames f) :
    validateFile dicts true fname (some f) = .ok () ↔ FileName fname ∧ Structured D f ∧ ∀ n s g, HasOcc f n s g → Valid D n g := by
  rw [C66_accepts hv hd hD hf hg]
  refine and_congr_right fun _ => and_congr_right fun hst => ⟨fun h n s g hs => ?_, fun h n s a i hs hi => ?_⟩
  · obtain ⟨i, h1, h2⟩ := hu n s g hs
    cases h3 : pyInt s with
    | none => exact absurd h3 (ncf_number.mp (hst.numbers n s g hs))
    | some j =>
      have := ncf_occName h1 h2 h3
      subst this
      obtain ⟨g', h4, h5⟩ := h n s g i hs ((pyInt_iff _ _).1 h3)
      rw [← h1] at h4
      obtain ⟨t, h6, h7⟩ := hs
      obtain ⟨t', h8, h9⟩ := h4
      have e1 := (ncf_assoc hf.tops).mpr h6
      rw [(ncf_assoc hf.tops).mpr h8] at e1
      cases e1
      have e2 := (ncf_assoc (hf.occs _ h6)).mpr h7
      rw [(ncf_assoc (hf.occs _ h6)).mpr h9] at e2
      cases e2
      exact h5
  · obtain ⟨j, h1, h2⟩ := hu n s a hs
    have := ncf_occName h1 h2 ((pyInt_iff _ _).2 hi)
    subst this
    exact ⟨a, by rw [← h1]; exact hs, h n s a hs⟩

/-- C66: everything that is wrong is reported with an `InvalidNetCDFEntry`. Dimensions of variables exist, and sparse variables with
dimensions have a `:shape` variable. -/
theorem C66_invalid {dicts : Text → Option (Dict S)} {fname v : Text} (hv : f.version = some v) (hd : dicts v = some D) (hD : DictOk D)
    (hf : GroupsOnce f) (hg : NamedGroups f) (hu : UsualNames f) (hx : ∀ n s g, HasOcc f n s g → DimsExist g)
    (hs : ∀ n s g, HasOcc f n s g → ∀ p y v, metaAt (.struct (D.fields n)) p = some y → dget g.vars p = some v → v.sparse = true →
      NcSpec.rank y ≠ 0 → dget g.shapes p ≠ none) (hn : FileName fname) :
    validateFile dicts true fname (some f) = .error .invalid ↔ ¬ (Structured D f ∧ ∀ n s g, HasOcc f n s g → Valid D n g) := by
  have hall := C66_all_groups (fname := fname) hv hd hD hf hg hu
  constructor
  · intro h hh
    rw [hall.mpr ⟨hn, hh⟩] at h
    cases h
  · intro h
    cases hr : validateFile dicts true fname (some f) with
    | ok u => exact absurd (hall.mp hr).2 h
    | error e =>
      congr 1
      obtain ⟨h1, h2⟩ := ncf_name.mp hn
      unfold validateFile at hr
      simp only [h1, h2, Bool.not_true, Bool.false_eq_true, if_false] at hr
      rw [ncf_open hv hd] at hr
      split at hr
      · rename_i e' he
        split at he
        · cases he; cases hr; rfl
        · cases he
      · rename_i D' hD'
        have : D' = D := by
          split at hD'
          · cases hD'
          · cases hD'; rfl
        subst this
        split at hr
        · cases hr; rfl
        · split at hr
          · rename_i e' he
            cases hr
            exact ncf_tops_error he
          · rename_i hok
            obtain ⟨n, hn', o, ho, hc⟩ := ncf_occs_error hr
            obtain ⟨s, a, h7, h8⟩ := (ncf_occurrences hf).mp ho
            obtain ⟨i, h9, h10⟩ := hu n s a h7
            have := ncf_occName h9 h10 h8
            subst this
            rw [h9] at h7
            unfold checkOcc at hc
            rw [(ncf_find hf).mpr h7] at hc
            simp only at hc
            obtain ⟨fuel, I, hN⟩ := hD.meta_ok n hn'
            have hm := ncf_mode hD hn'
            have hcheck : ∀ e', checkGroup (D'.reader n a) true = .error e' → e' = .invalid := by
              intro e' he'
              unfold checkGroup at he'
              split at he'
              · rename_i e2 h2
                cases he'
                exact readMode_error (R := D'.reader n a) hm rfl (hx _ _ _ h7) h2
              · exact validateGroup_error (R := D'.reader n a) (hx _ _ _ h7) (hg _ _ _ h7) (hs _ _ _ h7) (by simpa using he')
            cases h11 : checkGroup (D'.reader n a) true with
            | ok u => rw [h11] at hc; cases hc
            | error e' =>
              rw [h11, hcheck _ h11] at hc
              cases hc
              rfl

/-- C66: files with other names, missing files and files without a known version are refused. -/
theorem C66_refused (dicts : Text → Option (Dict S)) (b : Bool) (fname : Text) :
    ((¬ ∃ r, fname = r ++ ".nc".toList) → ∀ file, validateFile dicts b fname file = .error .invalid) ∧
    (FileName fname → validateFile dicts b fname none = .error .notFound) ∧
    (FileName fname → f.version = none → validateFile dicts b fname (some f) = .error .invalid) ∧
    (FileName fname → f.extras = false → f.groups = [] → validateFile dicts b fname (some f) = .error .invalid) ∧
    (∀ v, FileName fname → f.version = some v → dicts v = none → f.groups ≠ [] →
      validateFile dicts b fname (some f) = .error .unknownVersion) := by
  refine ⟨fun h file => ?_, fun h => ?_, fun h hv => ?_, fun h he hg => ?_, fun v h hv hd hg => ?_⟩
  · have : endsWith fname ".nc".toList = false := by
      rw [← Bool.not_eq_true, endsWith, List.isSuffixOf_iff_suffix]
      rintro ⟨r, hr⟩
      exact h ⟨r, hr.symm⟩
    unfold validateFile
    rw [this]
    rfl
  all_goals
    obtain ⟨h1, h2⟩ := ncf_name.mp h
    unfold validateFile
    simp only [h1, h2, Bool.not_true, Bool.false_eq_true, if_false]
  · unfold openFile
    rw [hv]
    split
    · rename_i e' he
      split at he
      · cases he; rfl
      · cases he; rfl
    · rename_i D' he
      split at he <;> cases he
  · unfold openFile
    simp [he, hg]
  · unfold openFile
    have : f.groups.isEmpty = false := by
      cases hh : f.groups with
      | nil => exact absurd hh hg
      | cons => rfl
    simp [hv, hd, this]

/-- C66: every occurrence of an accepted file that is listed can be read. The data of variables have the sizes of their dimensions, as
netCDF guarantees, and sizes of arrays of structures are within the dimensions. -/
theorem C66_readable {dicts : Text → Option (Dict S)} {fname v : Text} (hv : f.version = some v) (hd : dicts v = some D)
    (hD : DictOk D) (hf : GroupsOnce f) (hg : NamedGroups f) (hx : ∀ n s g, HasOcc f n s g → DataFits g)
    (ha : ∀ n s g v k, HasOcc f n s g → dget g.vars ["ids_properties".toList, "homogeneous_time".toList] = some v →
      (v.data.get []).bind D.sc.int = some k → ArraysFit (D.fields n) (D.ncmeta n) (decide (k = 1)) g)
    (h : validateFile dicts true fname (some f) = .ok ()) {n : Text} {o : Int} (ho : o ∈ occurrences f n) (b : Bool) :
    ∃ c, getFile D b f n o = .ok c := by
  obtain ⟨-, hst, hall⟩ := (C66_accepts hv hd hD hf hg).mp h
  obtain ⟨s, a, h1, h2⟩ := (ncf_occurrences hf).mp ho
  obtain ⟨g, h3, h4⟩ := hall n s a o h1 ((pyInt_iff _ _).1 h2)
  have hn : n ∈ D.names := by
    obtain ⟨t, h5, -⟩ := h3
    exact (hst.tops n t h5).2
  obtain ⟨fuel, I, hN⟩ := hD.meta_ok n hn
  have hw := hD.fields n hn
  have hc := (ncf_group hD hn (hg _ _ _ h3)).mpr h4
  unfold checkGroup at hc
  have hfind := (ncf_find hf).mpr h3
  unfold findOcc at hfind
  unfold getFile
  split at hfind
  · cases hfind
  rename_i t ht
  rw [ht]
  simp only [hfind]
  unfold readIds
  cases hmode : readMode (D.reader n g) with
  | error e => rw [hmode] at hc; cases hc
  | ok hom =>
    rw [hmode] at hc
    simp only [if_true] at hc
    obtain ⟨w, y, k, h5, -, -, h6, -, rfl⟩ := (readMode_ok (R := D.reader n g) hw hN (ncf_mode hD hn) rfl).1 ⟨hom, hmode, rfl⟩
    obtain ⟨own, hl⟩ := layout hw hN (decide (k = 1))
    have hval := ((validateGroup_ok (R := D.reader n g) (hom := decide (k = 1)) (hg _ _ _ h3) hl.aos).mp hc).1
    have hp : Nc.Plain (D.reader n g) (decide (k = 1)) own :=
      ⟨rfl, rfl, hl, hg _ _ _ h3, hx _ _ _ h3, ha _ _ _ _ _ h3 h5 h6, hval⟩
    obtain ⟨c, hc'⟩ := hp.all
    have : (if b = true then validateAll (D.reader n g) (decide (k = 1)) (D.reader n g).group.names else .ok ()) = .ok () := by
      cases b
      · rfl
      · exact hc
    exact ⟨c, by simp only [this, hc']⟩

/-- C66: files with groups that were written by the library are accepted. -/
theorem C66_written {dicts : Text → Option (Dict S)} {fname v : Text} (hv : f.version = some v) (hd : dicts v = some D)
    (hD : DictOk D) (hE : ∀ n ∈ D.names, ErrorsOk (D.fields n)) (hf : GroupsOnce f) (hg : NamedGroups f) (hu : UsualNames f)
    (hn : FileName fname) (hr : f.extras = false) (hne : f.groups ≠ []) (ht : ∀ n t, (n, t) ∈ f.groups → t.extras = false ∧ n ∈ D.names)
    (hw : ∀ n s g, HasOcc f n s g → ∃ c k, TypedF c (D.fields n) ∧ RanksOk c ∧ timeMode D.sc c = some k ∧ (k = 0 ∨ k = 1 ∨ k = 2) ∧
      writeIds D.sc (D.texts n) (D.ncmeta n) (D.fields n) c = .ok g) :
    validateFile dicts true fname (some f) = .ok () := by
  rw [C66_all_groups hv hd hD hf hg hu]
  refine ⟨hn, ⟨hr, hne, ht, ?_⟩, ?_⟩
  · intro n s a hs
    obtain ⟨i, h1, h2⟩ := hu n s a hs
    refine ⟨i, (pyInt_iff _ _).1 ?_⟩
    rw [h1, show occName i = showInt i from (C34_group_name i).symm, pyInt_showInt h2]
  · intro n s g hs
    obtain ⟨c, k, h1, h2, h3, h4, h5⟩ := hw n s g hs
    have hn' : n ∈ D.names := by
      obtain ⟨t, h6, -⟩ := hs
      exact (ht n t h6).2
    obtain ⟨fuel, I, hN⟩ := hD.meta_ok n hn'
    exact C33_written (hD.fields n hn') hN (hE n hn') h1 h2 h3 h4 h5

end

/-! ### Examples and limits -/

def fileDict (N : NcMeta) : Dict Int where
  names := ["magnetics".toList, "pf_active".toList]
  fields _ := dataMeta
  ncmeta _ := N
  texts _ := dataTexts
  sc := dataScalars

def fileDicts (N : NcMeta) (v : Text) : Option (Dict Int) := if v = "4.0.0".toList then some (fileDict N) else none

theorem fileDict_ok {N : NcMeta} (h : ncMetadata 10 dataInfo dataMeta = .ok N) : DictOk (fileDict N) where
  fields _ _ := dataMeta_wf
  meta_ok _ _ := ⟨10, dataInfo, h⟩
  mode _ _ := ⟨_, rfl, rfl, rfl⟩

/-- A file with occurrences of one IDS. -/
def fileOf (occs : List (Text × Group Int)) : File (Group Int) where
  version := some "4.0.0".toList
  extras := false
  groups := [("magnetics".toList, ⟨false, occs⟩)]

theorem fileOf_has {occs : List (Text × Group Int)} {n s : Text} {g : Group Int} (h : HasOcc (fileOf occs) n s g) :
    n = "magnetics".toList ∧ (s, g) ∈ occs := by
  obtain ⟨t, h1, h2⟩ := h
  simp only [fileOf, List.mem_singleton, Prod.mk.injEq] at h1
  obtain ⟨rfl, rfl⟩ := h1
  exact ⟨rfl, h2⟩

theorem fileOf_once {occs : List (Text × Group Int)} (h : (occs.map (·.1)).Nodup) : GroupsOnce (fileOf occs) :=
  ⟨by simp [fileOf], by simpa [fileOf] using h⟩

/-- A group without variables. -/
def emptyGroup : Group Int := ⟨[], [], []⟩

/-- The `:shape` variables contain large numbers. -/
def bigShapes (g : Group Int) : Group Int :=
  { g with shapes := g.shapes.map fun s => (s.1, { s.2 with data := ⟨s.2.data.shape, fun i => (s.2.data.get i).map fun _ => 9, by
      intro i; rw [Option.isSome_map]; exact s.2.data.ok i⟩ }) }

def fitTest (g : Group Int) : Bool :=
  (g.vars.all fun v => v.2.dims.map (dget g.dims) == v.2.data.shape.map some) &&
  (g.shapes.all fun v => v.2.dims.map (dget g.dims) == v.2.data.shape.map some)

theorem fitTest_ok {g : Group Int} (h : fitTest g = true) : DataFits g := by
  simp only [fitTest, Bool.and_eq_true, List.all_eq_true, beq_iff_eq] at h
  exact ⟨fun p v hv => h.1 (p, v) (mem_of_dget hv), fun p v hv => h.2 (p, v) (mem_of_dget hv)⟩

def arraysTest (N : NcMeta) (g : Group Int) : Bool :=
  g.vars.all fun v => match metaOf dataMeta v.1, (N.getDims true v.1).getLast? with
    | some (.aos _), some d =>
      (v.2.sparse || (dget g.dims (.dd d)).isSome) &&
      (match dget g.shapes v.1, dget g.dims (.dd d) with
        | some s, some k => (Arr.indices s.data.shape).all fun i => match s.data.get i with
          | some n => decide (n ≤ k)
          | none => true
        | _, _ => true)
    | _, _ => true

theorem arraysTest_ok {N : NcMeta} {g : Group Int} (h : arraysTest N g = true) : ArraysFit dataMeta N true g := by
  intro p c v d hp hv hd
  simp only [arraysTest, List.all_eq_true] at h
  have h1 := h (p, v) (mem_of_dget hv)
  have hne : p ≠ [] := by rintro rfl; cases hp
  simp only [metaOf_eq _ _ hne, hp, hd, Bool.and_eq_true, Bool.or_eq_true] at h1
  obtain ⟨h1, h2⟩ := h1
  refine ⟨fun hs hn => ?_, fun hs s i n k h3 h4 h5 => ?_⟩
  · rw [hs, hn] at h1
    simp at h1
  · simp only [h3, h5, List.all_eq_true] at h2
    have h6 := s.data.ok (i ++ [0])
    rw [h4] at h6
    have := h2 _ (mem_indices.mpr h6.symm)
    rw [h4] at this
    simpa using this

def okTest {A : Type} (r : Except Exc A) : Bool :=
  match r with
  | .ok _ => true
  | .error _ => false

theorem okTest_ok {r : Except Exc Unit} (h : okTest r = true) : r = .ok () := by
  cases r with
  | ok u => rfl
  | error e => cases h

def errTest {A : Type} (r : Except Exc A) (e : Exc) : Bool :=
  match r with
  | .ok _ => false
  | .error x => decide (x = e)

theorem errTest_ok {A : Type} {r : Except Exc A} {e : Exc} (h : errTest r e = true) : r = .error e := by
  cases r with
  | ok u => cases h
  | error x => simp only [errTest, decide_eq_true_eq] at h; rw [h]

theorem usual_one {g : Group Int} {l : List Int} (hl : l.all (fun i => (Nat.toDigits 10 i.natAbs).length ≤ 4300) = true) :
    UsualNames (fileOf (l.map fun i => (occName i, g))) := by
  intro n s a ha
  have := (fileOf_has ha).2
  obtain ⟨i, h1, h2⟩ := List.mem_map.mp this
  cases h2
  exact ⟨i, rfl, by simpa using List.all_eq_true.mp hl i h1⟩

/-- Files with a written group, for several occurrences, meet the hypotheses of `C66_accepts`, `C66_all_groups`, `C66_written` and
`C66_readable`, and are accepted. -/
example : ∃ (D : Dict Int) (dicts : Text → Option (Dict Int)) (v : Text) (f : File (Group Int)),
    DictOk D ∧ (∀ n ∈ D.names, ErrorsOk (D.fields n)) ∧ dicts v = some D ∧ f.version = some v ∧ GroupsOnce f ∧ NamedGroups f ∧
    UsualNames f ∧ (∀ n s g, HasOcc f n s g → DataFits g) ∧
    (∀ n s g v k, HasOcc f n s g → dget g.vars ["ids_properties".toList, "homogeneous_time".toList] = some v →
      (v.data.get []).bind D.sc.int = some k → ArraysFit (D.fields n) (D.ncmeta n) (decide (k = 1)) g) ∧
    (∀ n s g, HasOcc f n s g → ∃ c k, TypedF c (D.fields n) ∧ RanksOk c ∧ timeMode D.sc c = some k ∧ (k = 0 ∨ k = 1 ∨ k = 2) ∧
      writeIds D.sc (D.texts n) (D.ncmeta n) (D.fields n) c = .ok g) ∧
    validateFile dicts true "a.nc".toList (some f) = .ok () ∧ occurrences f "magnetics".toList = [0, 12] := by
  obtain ⟨N, g, c, hb⟩ := dataBack_some
  obtain ⟨h1, h2, -⟩ := dataBack_ok hb
  have hhas : ∀ {n s a}, HasOcc (fileOf ([0, 12].map fun i => (occName i, g))) n s a → a = g := by
    intro n s a ha
    obtain ⟨i, -, h⟩ := List.mem_map.mp (fileOf_has ha).2
    cases h
    rfl
  have herr : ErrorsOk dataMeta := errors_ok (by decide +kernel)
  have hnd : (([0, 12].map fun i => (occName i, g)).map (·.1)).Nodup := by
    rw [show ([0, 12].map fun i => (occName i, g)).map (·.1) = [occName 0, occName 12] from rfl]
    decide +kernel
  refine ⟨fileDict N, fileDicts N, "4.0.0".toList, fileOf ([0, 12].map fun i => (occName i, g)), fileDict_ok h1, fun _ _ => herr, if_pos rfl,
    rfl, fileOf_once hnd, ?_, usual_one (by decide +kernel), ?_, ?_, ?_, ?_, ?_⟩
  · intro n s a ha
    rw [hhas ha]
    exact namesTest_ok (dataTest_ok (f := fun N g c => namesTest g) (by decide +kernel) hb)
  · intro n s a ha
    rw [hhas ha]
    exact fitTest_ok (dataTest_ok (f := fun N g c => fitTest g) (by decide +kernel) hb)
  · intro n s a v k ha hv hk
    rw [hhas ha] at hv ⊢
    have h3 := dataTest_ok (f := fun N g c => match dget g.vars ["ids_properties".toList, "homogeneous_time".toList] with
      | some v => decide (v.data.get [] = some 1)
      | none => false) (by decide +kernel) hb
    simp only [hv, decide_eq_true_eq] at h3
    rw [h3] at hk
    cases hk
    exact arraysTest_ok (dataTest_ok (f := fun N g c => arraysTest N g) (by decide +kernel) hb)
  · intro n s a ha
    rw [hhas ha]
    exact ⟨dataTree, 1, dataTree_typed, dataTree_ranks, show timeMode dataScalars dataTree = some 1 by decide +kernel, .inr (.inl rfl), h2⟩
  · exact okTest_ok (dataTest_ok (f := fun N g c => okTest (validateFile (fileDicts N) true "a.nc".toList
      (some (fileOf ([0, 12].map fun i => (occName i, g)))))) (by decide +kernel) hb)
  · show sort ([(occName 0, g), (occName 12, g)].filterMap fun s => pyInt s.1) = _
    rw [show [(occName 0, g), (occName 12, g)].filterMap (fun s => pyInt s.1) = [occName 0, occName 12].filterMap pyInt from rfl]
    decide +kernel

/-- The hypotheses of `C66_invalid` are met for files with wrong units. -/
example : ∃ (D : Dict Int) (dicts : Text → Option (Dict Int)) (v : Text) (f : File (Group Int)),
    DictOk D ∧ dicts v = some D ∧ f.version = some v ∧ GroupsOnce f ∧ NamedGroups f ∧ UsualNames f ∧
    (∀ n s g, HasOcc f n s g → DimsExist g) ∧
    (∀ n s g, HasOcc f n s g → ∀ p y v, metaAt (.struct (D.fields n)) p = some y → dget g.vars p = some v → v.sparse = true →
      NcSpec.rank y ≠ 0 → dget g.shapes p ≠ none) ∧ FileName "a.nc".toList ∧
    validateFile dicts true "a.nc".toList (some f) = .error .invalid := by
  obtain ⟨N, g, c, hb⟩ := dataBack_some
  obtain ⟨h1, h2, -⟩ := dataBack_ok hb
  have hhas : ∀ {n s a}, HasOcc (fileOf ([3].map fun i => (occName i, otherUnits g))) n s a → a = otherUnits g := by
    intro n s a ha
    obtain ⟨i, -, h⟩ := List.mem_map.mp (fileOf_has ha).2
    cases h
    rfl
  refine ⟨fileDict N, fileDicts N, "4.0.0".toList, fileOf ([3].map fun i => (occName i, otherUnits g)), fileDict_ok h1, if_pos rfl,
    rfl, fileOf_once (by simp), ?_, usual_one (by decide +kernel), ?_, ?_, ncf_name.mpr (by decide +kernel), ?_⟩
  · intro n s a ha
    rw [hhas ha]
    exact namesTest_ok (dataTest_ok (f := fun N g c => namesTest (otherUnits g)) (by decide +kernel) hb)
  · intro n s a ha
    rw [hhas ha]
    exact dimsTest_ok (dataTest_ok (f := fun N g c => dimsTest (otherUnits g)) (by decide +kernel) hb)
  · intro n s a ha p y v hy hv hsp hr
    rw [hhas ha] at hv ⊢
    have ht := dataTest_ok (f := fun N g c => (otherUnits g).vars.all fun v => !v.2.sparse || (dget (otherUnits g).shapes v.1).isSome ||
      (match metaOf dataMeta v.1 with
        | some y => NcSpec.rank y = 0
        | none => false)) (by decide +kernel) hb
    simp only [List.all_eq_true] at ht
    have := ht (p, v) (mem_of_dget hv)
    have hp : p ≠ [] := by rintro rfl; cases hy; exact hr rfl
    simp only [metaOf_eq _ _ hp, show metaAt (.struct dataMeta) p = some y from hy] at this
    intro hn
    simp [hsp, hn, hr] at this
  · exact errTest_ok (dataTest_ok (f := fun N g c => errTest (validateFile (fileDicts N) true "a.nc".toList
      (some (fileOf ([3].map fun i => (occName i, otherUnits g))))) .invalid) (by decide +kernel) hb)

/-- C66, limit: groups whose names are unusual numbers are not checked. A file with `magnetics/1` and `magnetics/01` is accepted,
whatever is in the second group. -/
theorem C66_unusual_names_limit : ∃ (D : Dict Int) (dicts : Text → Option (Dict Int)) (v : Text) (f : File (Group Int)) (n s : Text)
    (g : Group Int), DictOk D ∧ dicts v = some D ∧ f.version = some v ∧ GroupsOnce f ∧ NamedGroups f ∧
    validateFile dicts true "a.nc".toList (some f) = .ok () ∧ HasOcc f n s g ∧ ¬ Valid D n g := by
  obtain ⟨N, g, c, hb⟩ := dataBack_some
  obtain ⟨h1, h2, -⟩ := dataBack_ok hb
  refine ⟨fileDict N, fileDicts N, "4.0.0".toList, fileOf [("1".toList, g), ("01".toList, emptyGroup)], "magnetics".toList, "01".toList,
    emptyGroup, fileDict_ok h1, if_pos rfl, rfl, fileOf_once (show ["1".toList, "01".toList].Nodup by decide +kernel), ?_, ?_, ?_, ?_⟩
  · intro n s a ha
    have := (fileOf_has ha).2
    simp only [List.mem_cons, Prod.mk.injEq, List.not_mem_nil, or_false] at this
    rcases this with ⟨-, rfl⟩ | ⟨-, rfl⟩
    · exact namesTest_ok (dataTest_ok (f := fun N g c => namesTest g) (by decide +kernel) hb)
    · exact namesTest_ok (by decide +kernel)
  · exact okTest_ok (dataTest_ok (f := fun N g c => okTest (validateFile (fileDicts N) true "a.nc".toList
      (some (fileOf [("1".toList, g), ("01".toList, emptyGroup)])))) (by decide +kernel) hb)
  · exact ⟨_, List.mem_singleton.mpr rfl, by simp⟩
  · rintro ⟨v, k, h, -⟩
    cases h

/-- C66, limit: with `IMAS_DISABLE_NC_VALIDATE`, groups are accepted without checking their variables. -/
theorem C66_switched_off_limit : ∃ (D : Dict Int) (dicts : Text → Option (Dict Int)) (v : Text) (f : File (Group Int)),
    DictOk D ∧ dicts v = some D ∧ f.version = some v ∧ validateFile dicts true "a.nc".toList (some f) = .error .invalid ∧
    validateFile dicts false "a.nc".toList (some f) = .ok () := by
  obtain ⟨N, g, c, hb⟩ := dataBack_some
  obtain ⟨h1, h2, -⟩ := dataBack_ok hb
  refine ⟨fileDict N, fileDicts N, "4.0.0".toList, fileOf [("0".toList, otherUnits g)], fileDict_ok h1, if_pos rfl, rfl, ?_, ?_⟩
  · exact errTest_ok (dataTest_ok (f := fun N g c => errTest (validateFile (fileDicts N) true "a.nc".toList
      (some (fileOf [("0".toList, otherUnits g)]))) .invalid) (by decide +kernel) hb)
  · exact okTest_ok (dataTest_ok (f := fun N g c => okTest (validateFile (fileDicts N) false "a.nc".toList
      (some (fileOf [("0".toList, otherUnits g)])))) (by decide +kernel) hb)

/-- C66, limit: with only an unusual name, validation ends with an `IndexError`. -/
theorem C66_index_limit : ∃ (D : Dict Int) (dicts : Text → Option (Dict Int)) (v : Text) (f : File (Group Int)),
    DictOk D ∧ dicts v = some D ∧ f.version = some v ∧ GroupsOnce f ∧ NamedGroups f ∧
    (∀ n s g, HasOcc f n s g → Valid D n g) ∧ validateFile dicts true "a.nc".toList (some f) = .error .index := by
  obtain ⟨N, g, c, hb⟩ := dataBack_some
  obtain ⟨h1, h2, -⟩ := dataBack_ok hb
  have hn : NamesOk g := namesTest_ok (dataTest_ok (f := fun N g c => namesTest g) (by decide +kernel) hb)
  refine ⟨fileDict N, fileDicts N, "4.0.0".toList, fileOf [("01".toList, g)], fileDict_ok h1, if_pos rfl, rfl,
    fileOf_once (by simp), ?_, ?_, ?_⟩
  · intro n s a ha
    have := (fileOf_has ha).2
    simp only [List.mem_cons, Prod.mk.injEq, List.not_mem_nil, or_false] at this
    rw [this.2]
    exact hn
  · intro n s a ha
    obtain ⟨rfl, this⟩ := fileOf_has ha
    simp only [List.mem_cons, Prod.mk.injEq, List.not_mem_nil, or_false] at this
    rw [this.2]
    exact (ncf_group (fileDict_ok h1) (by simp [fileDict]) hn).mp (by
      have := dataTest_ok (f := fun N g c => (checkGroup ((fileDict N).reader "magnetics".toList g) true).isOk) (by decide +kernel) hb
      cases hc : checkGroup ((fileDict N).reader "magnetics".toList g) true with
      | ok u => rfl
      | error e => rw [hc] at this; cases this)
  · exact errTest_ok (dataTest_ok (f := fun N g c => errTest (validateFile (fileDicts N) true "a.nc".toList
      (some (fileOf [("01".toList, g)]))) .index) (by decide +kernel) hb)

/-- C66, limit: the numbers of elements in `:shape` variables are not checked. Files where they exceed the dimension are accepted, and
reading ends with an `IndexError`. -/
theorem C66_sizes_limit : ∃ (D : Dict Int) (dicts : Text → Option (Dict Int)) (v : Text) (f : File (Group Int)) (n : Text) (o : Int),
    DictOk D ∧ dicts v = some D ∧ f.version = some v ∧ GroupsOnce f ∧ NamedGroups f ∧ (∀ n s g, HasOcc f n s g → DataFits g) ∧
    validateFile dicts true "a.nc".toList (some f) = .ok () ∧ o ∈ occurrences f n ∧ getFile D true f n o = .error (.reading .index) := by
  obtain ⟨N, g, c, hb⟩ := dataBack_some
  obtain ⟨h1, h2, -⟩ := dataBack_ok hb
  refine ⟨fileDict N, fileDicts N, "4.0.0".toList, fileOf [("0".toList, bigShapes g)], "magnetics".toList, 0, fileDict_ok h1, if_pos rfl,
    rfl, fileOf_once (by simp), ?_, ?_, ?_, (ncf_occurrences (fileOf_once (by simp))).mpr ⟨"0".toList, _,
      ⟨_, List.mem_singleton.mpr rfl, List.mem_singleton.mpr rfl⟩, by decide +kernel⟩, ?_⟩
  · intro n s a ha
    have := (fileOf_has ha).2
    simp only [List.mem_cons, Prod.mk.injEq, List.not_mem_nil, or_false] at this
    rw [this.2]
    exact namesTest_ok (dataTest_ok (f := fun N g c => namesTest (bigShapes g)) (by decide +kernel) hb)
  · intro n s a ha
    have := (fileOf_has ha).2
    simp only [List.mem_cons, Prod.mk.injEq, List.not_mem_nil, or_false] at this
    rw [this.2]
    exact fitTest_ok (dataTest_ok (f := fun N g c => fitTest (bigShapes g)) (by decide +kernel) hb)
  · exact okTest_ok (dataTest_ok (f := fun N g c => okTest (validateFile (fileDicts N) true "a.nc".toList
      (some (fileOf [("0".toList, bigShapes g)])))) (by decide +kernel) hb)
  · exact errTest_ok (dataTest_ok (f := fun N g c => errTest (getFile (fileDict N) true (fileOf [("0".toList, bigShapes g)])
      "magnetics".toList 0) (.reading .index)) (by decide +kernel) hb)

end Verif.Props
