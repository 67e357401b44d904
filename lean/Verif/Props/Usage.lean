import Verif.Lemmas.Usage
import Verif.Lemmas.UsageTree
/-!
C68: the analysis of databases (`imas analyze-db`, `imas process-db-analysis`).
-/
namespace Verif.Props
open Verif.Ids Verif.Usage Verif.UsageSpec Verif.TreeSpec

/-! ### Analysing files -/

theorem usage_split_noNumber : ∀ {n : Text}, NoNumber n → splitStem n = (n, [])
  | [], _ => rfl
  | [c], _ => rfl
  | c :: d :: r, h => by
    have h1 : ¬ (c = '_' ∧ d.isDigit = true) := by
      rintro ⟨rfl, hd⟩
      exact h ⟨[], d, r, rfl, hd⟩
    have h2 : NoNumber (d :: r) := by
      rintro ⟨a, x, b, e, hx⟩
      exact h ⟨c :: a, x, b, by rw [e]; rfl, hx⟩
    rw [splitStem, if_neg h1, usage_split_noNumber h2]

theorem usage_split_number {d : Char} {o : Text} (hd : d.isDigit = true) : ∀ {n : Text}, NoNumber n →
    splitStem (n ++ '_' :: d :: o) = (n, d :: o)
  | [], _ => by
    show splitStem ('_' :: d :: o) = _
    rw [splitStem, if_pos ⟨rfl, hd⟩]
  | [c], h => by
    show splitStem (c :: '_' :: d :: o) = _
    rw [splitStem, if_neg (by rintro ⟨_, h⟩; exact absurd h (by decide)), splitStem, if_pos ⟨rfl, hd⟩]
  | c :: x :: r, h => by
    have h1 : ¬ (c = '_' ∧ x.isDigit = true) := by
      rintro ⟨rfl, hd⟩
      exact h ⟨[], x, r, rfl, hd⟩
    have h2 : NoNumber (x :: r) := by
      rintro ⟨a, y, b, e, hx⟩
      exact h ⟨c :: a, y, b, by rw [e]; rfl, hx⟩
    have ih := usage_split_number hd (o := o) h2
    show splitStem (c :: x :: (r ++ '_' :: d :: o)) = _
    rw [splitStem, if_neg h1]
    rw [show x :: (r ++ '_' :: d :: o) = (x :: r) ++ '_' :: d :: o from rfl, ih]

theorem usage_path_append (a b : Text) : datasetPath (a ++ b) = datasetPath a ++ datasetPath b := by
  simp [datasetPath]

theorem usage_path_plain : ∀ {n : Name}, PlainName n → datasetPath n = n
  | [], _ => rfl
  | c :: r, h => by
    obtain ⟨h1, h2, h3⟩ := h
    simp only [List.mem_cons, not_or] at h1 h2 h3
    have ih := usage_path_plain (n := r) ⟨h1.2, h2.2, h3.2⟩
    have e : datasetPath (c :: r) = datasetPath [c] ++ datasetPath r := usage_path_append [c] r
    have e1 : (c != '[') = true := by simpa using Ne.symm h1.1
    have e2 : (c != ']') = true := by simpa using Ne.symm h2.1
    have e3 : datasetPath [c] = [c] := by
      simp only [datasetPath, List.filter_cons, e1, e2, Bool.and_self, if_true, List.filter_nil, List.map_cons, List.map_nil,
        if_neg (Ne.symm h3.1)]
    rw [e, e3, ih]; rfl

theorem usage_path_brackets (b : Bool) : datasetPath (if b then "[]".toList else []) = [] := by
  cases b <;> rfl

theorem usage_dataset : ∀ {x : Place}, (∀ k ∈ x, PlainName k.1) → datasetPath (datasetOf x) = pathString (x.map (·.1))
  | [], _ => rfl
  | [(n, b)], h => by
    rw [datasetOf, usage_path_append, usage_path_brackets, usage_path_plain (h _ (List.mem_cons_self ..))]
    simp [pathString]
  | (n, b) :: y :: r, h => by
    have ih := usage_dataset (x := y :: r) fun k hk => h k (List.mem_cons_of_mem _ hk)
    rw [datasetOf, usage_path_append, usage_path_append, usage_path_brackets, usage_path_plain (h _ (List.mem_cons_self ..)),
      show datasetPath ('&' :: datasetOf (y :: r)) = '/' :: datasetPath (datasetOf (y :: r)) from rfl, ih]
    simp [pathString]

theorem usage_filled : ∀ (ds : List Text), filledPaths ds = (ds.filter fun d => !"SHAPE".toList.isSuffixOf d).map datasetPath
  | [] => rfl
  | d :: r => by
    rw [filledPaths, usage_filled r, List.filter_cons]
    by_cases h : "SHAPE".toList.isSuffixOf d = true
    · rw [if_pos h, if_neg (by rw [h]; decide)]
    · rw [if_neg h, if_pos (by rw [Bool.eq_false_iff.2 h]; rfl)]
      rfl

/-- What is written about a file of the HDF5 backend: the name of the IDS, the occurrence, and the paths of the filled data
nodes. -/
theorem C68_file {f : H5File} {n occ : Text} {places : List Place} (h : FileOf f n occ places) :
    idsInfo f = .ok ⟨n, occ, places.map fun x => pathString (x.map (·.1))⟩ := by
  obtain ⟨ds, hd, he⟩ := h.data
  have hs : splitStem f.stem = (n, occ) := by
    rw [h.stem]
    cases occ with
    | nil => rw [if_pos rfl]; exact usage_split_noNumber h.name
    | cons d o => rw [if_neg (by simp)]; exact usage_split_number (h.number d (List.mem_cons_self ..)) h.name
  rw [idsInfo, hd]
  show Except.ok _ = _
  rw [hs, usage_filled, he, List.map_map]
  congr 2
  exact List.map_congr_left fun x hx => usage_dataset (h.plain x hx)

/-- A file with `profiles_1d[]&grid&rho` and `time` of occurrence 12. -/
def usageFile : H5File :=
  ⟨"core_profiles_12".toList, some ["profiles_1d[]&grid&rho".toList, "profiles_1d[]&grid&rho_SHAPE".toList, "time".toList]⟩

theorem usage_noNumber {n : Text} (h : (List.range n.length).all (fun i => !((n[i]? == some '_') &&
    ((n[i + 1]?).map Char.isDigit == some true))) = true) : NoNumber n := by
  rintro ⟨a, d, b, rfl, hd⟩
  have := List.all_eq_true.1 h a.length (by simp)
  simp [hd] at this

theorem usage_fileOf : FileOf usageFile "core_profiles".toList "12".toList
    [[("profiles_1d".toList, true), ("grid".toList, false), ("rho".toList, false)], [("time".toList, false)]] where
  name := usage_noNumber (by decide +kernel)
  stem := by decide +kernel
  number := by decide +kernel
  plain := by
    intro x hx k hk
    exact ⟨by revert x k; decide +kernel, by revert x k; decide +kernel, by revert x k; decide +kernel⟩
  data := ⟨_, rfl, by decide +kernel⟩

example : idsInfo usageFile =
    .ok ⟨"core_profiles".toList, "12".toList, ["profiles_1d/grid/rho".toList, "time".toList]⟩ := C68_file usage_fileOf

/-- The name of an IDS with a digit after an underscore is taken apart: its occurrence 0 looks like an occurrence of another IDS. -/
theorem C68_name_limit (a b : Text) (d : Char) (ds : List Text) (hd : d.isDigit = true) (ha : NoNumber a) :
    (idsInfo ⟨a ++ '_' :: d :: b, some ds⟩).toOption.map (fun i => (i.name, i.occurrence)) = some (a, d :: b) := by
  rw [idsInfo]
  show some ((splitStem (a ++ '_' :: d :: b)).1, (splitStem (a ++ '_' :: d :: b)).2) = _
  rw [usage_split_number hd ha]

example : NoNumber "grid".toList := usage_noNumber (by decide +kernel)

/-! ### The output of the analysis -/

theorem usage_infos {fs : List H5File} {l : List IdsInfo} (h : idsInfos fs = .ok l) :
    Each Describes (fs.filter fun f => f.stem != "master".toList) l := by
  induction fs generalizing l with
  | nil => rw [idsInfos] at h; cases h; exact .nil
  | cons f r ih =>
    rw [idsInfos] at h
    by_cases hm : f.stem = "master".toList
    · rw [if_pos hm] at h
      rw [List.filter_cons_of_neg (by rw [hm]; decide)]
      exact ih h
    · rw [if_neg hm] at h
      rw [List.filter_cons_of_pos (by simpa using hm)]
      cases hi : idsInfo f with
      | error e => rw [hi] at h; cases h
      | ok i =>
        rw [hi] at h
        cases hr : idsInfos r with
        | error e => rw [hr] at h; cases h
        | ok m =>
          rw [hr] at h
          cases h
          refine .cons ?_ (ih hr)
          intro n occ places hf
          have := C68_file hf
          rw [hi] at this
          exact Except.ok.inj this

theorem usage_infos_error {fs : List H5File} : (∃ e, idsInfos fs = .error e) ↔
    ∃ f ∈ fs, f.stem ≠ "master".toList ∧ f.datasets = none := by
  induction fs with
  | nil => rw [idsInfos]; simp
  | cons f r ih =>
    rw [idsInfos]
    by_cases hm : f.stem = "master".toList
    · rw [if_pos hm, ih]
      constructor
      · rintro ⟨g, hg, h⟩; exact ⟨g, List.mem_cons_of_mem _ hg, h⟩
      · rintro ⟨g, hg, h⟩
        rcases List.mem_cons.1 hg with rfl | hg
        · exact absurd hm h.1
        · exact ⟨g, hg, h⟩
    · rw [if_neg hm]
      cases hd : f.datasets with
      | none =>
        rw [idsInfo, hd]
        exact ⟨fun _ => ⟨f, List.mem_cons_self .., hm, hd⟩, fun _ => ⟨_, rfl⟩⟩
      | some ds =>
        rw [idsInfo, hd]
        constructor
        · rintro ⟨e, h⟩
          have : ∃ e, idsInfos r = .error e := by
            cases hr : idsInfos r with
            | error e => exact ⟨e, rfl⟩
            | ok m => rw [hr] at h; cases h
          obtain ⟨g, hg, h⟩ := ih.1 this
          exact ⟨g, List.mem_cons_of_mem _ hg, h⟩
        · rintro ⟨g, hg, h⟩
          rcases List.mem_cons.1 hg with rfl | hg
          · rw [hd] at h; cases h.2
          · obtain ⟨e, he⟩ := ih.2 ⟨g, hg, h⟩
            exact ⟨e, by rw [he]; rfl⟩

theorem usage_all {machine : Text} {ds : List Folder} {l : List EntryInfo} (h : analyzeAll machine ds = .ok l) :
    Each (FolderInfo machine) ds l := by
  induction ds generalizing l with
  | nil => rw [analyzeAll] at h; cases h; exact .nil
  | cons d r ih =>
    rw [analyzeAll, analyzeFolder] at h
    cases hi : idsInfos d.files with
    | error e => rw [hi] at h; cases h
    | ok i =>
      rw [hi] at h
      cases hr : analyzeAll machine r with
      | error e => rw [hr] at h; cases h
      | ok m =>
        rw [hr] at h
        cases h
        exact .cons ⟨rfl, rfl, usage_infos hi⟩ (ih hr)

theorem usage_all_error {machine : Text} {ds : List Folder} : (∃ e, analyzeAll machine ds = .error e) ↔
    ∃ d ∈ ds, ∃ f ∈ d.files, f.stem ≠ "master".toList ∧ f.datasets = none := by
  induction ds with
  | nil => rw [analyzeAll]; simp
  | cons d r ih =>
    rw [analyzeAll, analyzeFolder]
    cases hi : idsInfos d.files with
    | error e =>
      exact ⟨fun _ => ⟨d, List.mem_cons_self .., usage_infos_error.1 ⟨e, hi⟩⟩, fun _ => ⟨e, rfl⟩⟩
    | ok i =>
      constructor
      · rintro ⟨e, h⟩
        have : ∃ e, analyzeAll machine r = .error e := by
          cases hr : analyzeAll machine r with
          | error e => exact ⟨e, rfl⟩
          | ok m => rw [hr] at h; cases h
        obtain ⟨g, hg, h⟩ := ih.1 this
        exact ⟨g, List.mem_cons_of_mem _ hg, h⟩
      · rintro ⟨g, hg, h⟩
        rcases List.mem_cons.1 hg with rfl | hg
        · obtain ⟨e, he⟩ := usage_infos_error.2 h
          rw [hi] at he; cases he
        · obtain ⟨e, he⟩ := ih.2 ⟨g, hg, h⟩
          exact ⟨e, by rw [he]; rfl⟩

/-- `imas analyze-db` either appends what it found about every folder, in this order, to what is in the output file, or leaves the
file as it is and fails. It fails if h5py is not available, if the output file cannot be read, or if one of the files in the
folders cannot be read. -/
theorem C68_analyze (has : Bool) (machine : Text) (out : Output) (folders : List Folder) :
    ((analyzeDb has machine out folders).2 = none →
      (analyzeDb has machine out folders).1 ≠ .unreadable ∧
      ∃ l, contents (analyzeDb has machine out folders).1 = contents out ++ l ∧ Each (FolderInfo machine) folders l) ∧
    ((analyzeDb has machine out folders).2 ≠ none → (analyzeDb has machine out folders).1 = out) ∧
    ((analyzeDb has machine out folders).2 = none ↔ has = true ∧ out ≠ .unreadable ∧
      ∀ d ∈ folders, ∀ f ∈ d.files, f.stem ≠ "master".toList → f.datasets ≠ none) := by
  have hall : (∀ d ∈ folders, ∀ f ∈ d.files, f.stem ≠ "master".toList → f.datasets ≠ none) ↔
      ¬ ∃ e, analyzeAll machine folders = .error e := by
    rw [usage_all_error]
    constructor
    · rintro h ⟨d, hd, f, hf, h1, h2⟩; exact h d hd f hf h1 h2
    · intro h d hd f hf h1 h2; exact h ⟨d, hd, f, hf, h1, h2⟩
  rw [hall]
  cases has with
  | false => simp [analyzeDb]
  | true =>
    cases out with
    | unreadable => simp [analyzeDb]
    | absent =>
      cases ha : analyzeAll machine folders with
      | error e => simp [analyzeDb, ha]
      | ok l =>
        have := usage_all ha
        by_cases hl : l = []
        · subst hl
          simp [analyzeDb, ha, contents, this]
        · simp [analyzeDb, ha, contents, this, hl]
    | data old =>
      cases ha : analyzeAll machine folders with
      | error e => simp [analyzeDb, ha]
      | ok l =>
        have := usage_all ha
        by_cases hl : old ++ l = []
        · have hl' := List.append_eq_nil_iff.1 hl
          obtain ⟨rfl, rfl⟩ := hl'
          simp [analyzeDb, ha, contents, this]
        · simp only [analyzeDb, ha, contents, hl]
          simp [this]

/-- A folder with one file. -/
def usageFolder : Folder := ⟨"/db".toList, [⟨"master".toList, none⟩, usageFile]⟩

example : analyzeDb true "host".toList (.data []) [usageFolder] =
    (.data [⟨"host".toList, "/db".toList, [⟨"core_profiles".toList, "12".toList, ["profiles_1d/grid/rho".toList, "time".toList]⟩]⟩],
      none) := by decide +kernel

/-- Folders without `master.h5` are not skipped: they are analysed like the others (the code tests a method that it does not
call). -/
theorem C68_master_limit (machine path : Text) (f : H5File) (i : IdsInfo) (hf : f.stem ≠ "master".toList)
    (hi : idsInfo f = .ok i) : analyzeDb true machine .absent [⟨path, [f]⟩] = (.data [⟨machine, path, [i]⟩], none) := by
  have h : idsInfos [f] = .ok [i] := by rw [idsInfos, if_neg hf, hi]; rfl
  rw [analyzeDb]
  simp only [analyzeAll, analyzeFolder, h]
  rfl

example : usageFile.stem ≠ "master".toList := by decide +kernel

/-! ### The CSV file -/

theorem usage_hasSub (sub : Text) : ∀ s : Text, hasSub sub s = true ↔ sub <:+: s
  | [] => by
    rw [hasSub, List.isPrefixOf_iff_prefix]
    simp [List.infix_iff_prefix_suffix]
  | c :: r => by
    rw [hasSub, Bool.or_eq_true, usage_hasSub sub r, List.isPrefixOf_iff_prefix, List.infix_cons_iff]

section
variable {A : Type}

theorem usage_sorted_mem {x : Text × A} {l : List (Text × A)} : x ∈ sorted l ↔ x ∈ l := mem_sortBy

theorem usage_sorted {l : List (Text × A)} (h : (keys l).Nodup) : (sorted l).Pairwise fun a b => a.1 < b.1 := by
  have h1 : (sorted l).Pairwise fun a b => a.1 ≤ b.1 := by
    have := sortBy_sorted (le := fun (a b : Text × A) => decide (a.1 ≤ b.1)) (l := l) (by
      intro a _ b _ c _ hab hbc
      exact decide_eq_true (List.le_trans (of_decide_eq_true hab) (of_decide_eq_true hbc))) (by
      intro a _ b _
      rcases List.le_total a.1 b.1 with h | h
      · simp [h]
      · simp [h])
    exact this.imp fun h => of_decide_eq_true h
  have h2 : (sorted l).Pairwise fun a b => a.1 ≠ b.1 := by
    have hp : ((sorted l).map (·.1)).Perm (l.map (·.1)) := (sortBy_perm l).map _
    have := hp.nodup_iff.2 h
    exact List.pairwise_map.1 this
  exact (h1.and h2).imp fun ⟨a, b⟩ => (List.le_iff_lt_or_eq.1 a).resolve_right b

end

/-- The row of a path. -/
def usageRow (n : Text) (e o : Usage) (x : Text × Nat) : Row :=
  .path n x.1 (find (x.1 ++ "_error_upper".toList) e.paths).isSome ⟨x.2, e.num⟩ ⟨(find x.1 o.paths).getD 0, o.num⟩

theorem usage_pathRows (n : Text) (e o : Usage) (he : e.num ≠ 0) (ho : o.num ≠ 0) : ∀ l : List (Text × Nat),
    pathRows n e o l = .ok ((l.filter fun x => !hasSub "_error_".toList x.1).map (usageRow n e o))
  | [] => rfl
  | (p, k) :: r => by
    rw [pathRows, usage_pathRows n e o he ho r, List.filter_cons]
    by_cases h : hasSub "_error_".toList p = true
    · rw [if_pos h, if_neg (by rw [h]; decide)]
    · rw [if_neg h, if_pos (by rw [Bool.eq_false_iff.2 h]; rfl), quot, if_neg he, quot, if_neg ho]
      rfl

/-- The rows of an IDS. -/
def usageBlock (s : Stats) (x : Text × Usage) : List Row :=
  .ids x.1 ⟨x.2.num, s.num⟩ ::
    ((sorted x.2.paths).filter fun y => !hasSub "_error_".toList y.1).map (usageRow x.1 x.2 (use s.occ x.1))

theorem usage_idsRows (s : Stats) (hs : s.num ≠ 0) : ∀ l : List (Text × Usage),
    (∀ x ∈ l, x.2.num ≠ 0 ∧ (use s.occ x.1).num ≠ 0) → idsRows s l = .ok (l.flatMap (usageBlock s))
  | [], _ => rfl
  | (n, e) :: r, h => by
    have ⟨h1, h2⟩ := h _ (List.mem_cons_self ..)
    have e2 := usage_pathRows n e (use s.occ n) h1 h2 (sorted e.paths)
    rw [idsRows, quot, if_neg hs]
    show (match pathRows n e (use s.occ n) (sorted e.paths) with
      | .error x => Except.error x
      | .ok l => (idsRows s r).map fun m => Row.ids n ⟨e.num, s.num⟩ :: (l ++ m)) = _
    rw [e2, usage_idsRows s hs r fun x hx => h x (List.mem_cons_of_mem _ hx)]
    rfl

theorem usage_csv {E : List EntryInfo} {s : Stats} (h : Counted E s) :
    csv s = .ok ((sorted s.entry).flatMap (usageBlock s)) := by
  rw [csv]
  cases he : s.entry with
  | nil => rfl
  | cons x r =>
    rw [← he]
    have key : ∀ x ∈ s.entry, E.any (hasIds x.1) = true := by
      intro x hx
      rw [← h.has, Usage.has, find_of_mem h.dict.1 (k := x.1) (v := x.2) hx]; rfl
    apply usage_idsRows
    · rw [h.num]
      have := key x (by rw [he]; exact List.mem_cons_self ..)
      intro e
      rw [List.length_eq_zero_iff] at e
      rw [e] at this; cases this
    · intro x hx
      have hx := usage_sorted_mem.1 hx
      have hk := key x hx
      obtain ⟨e, hE, hi⟩ := List.any_eq_true.1 hk
      have hu : use s.entry x.1 = x.2 := by rw [use, find_of_mem h.dict.1 (k := x.1) (v := x.2) hx]; rfl
      constructor
      · rw [← hu, h.entries]
        have := List.countP_pos_iff.2 ⟨e, hE, hi⟩
        omega
      · rw [h.occs]
        obtain ⟨i, h1, h2⟩ := List.any_eq_true.1 hi
        have : i ∈ occurrences x.1 E := by
          rw [occurrences, List.mem_filter, List.mem_flatMap]; exact ⟨⟨e, hE, h1⟩, h2⟩
        intro h0
        rw [List.length_eq_zero_iff] at h0
        rw [h0] at this; cases this

theorem usage_find_iff {E : List EntryInfo} {s : Stats} (h : Counted E s) {n : Text} {u : Usage} :
    (n, u) ∈ s.entry ↔ E.any (hasIds n) = true ∧ u = use s.entry n := by
  constructor
  · intro hx
    have hf := find_of_mem h.dict.1 hx
    constructor
    · rw [← h.has, Usage.has, hf]; rfl
    · rw [use, hf]; rfl
  · rintro ⟨h1, rfl⟩
    rw [← h.has, Usage.has] at h1
    obtain ⟨v, hv⟩ := Option.isSome_iff_exists.1 h1
    rw [use, hv]
    exact mem_of_find hv

theorem usage_fills_ids {n p : Text} {E : List EntryInfo} (h : E.any (fills n p) = true) : E.any (hasIds n) = true := by
  obtain ⟨e, he, h⟩ := List.any_eq_true.1 h
  obtain ⟨i, hi, h⟩ := List.any_eq_true.1 h
  rw [Bool.and_eq_true] at h
  exact List.any_eq_true.2 ⟨e, he, List.any_eq_true.2 ⟨i, hi, h.1⟩⟩

theorem usage_ids_mem {E : List EntryInfo} {s : Stats} (h : Counted E s) {n : Text} {f : Freq} :
    .ids n f ∈ (sorted s.entry).flatMap (usageBlock s) ↔ IdsRow E n f := by
  rw [List.mem_flatMap]
  constructor
  · rintro ⟨⟨k, u⟩, hx, hm⟩
    rw [usage_sorted_mem, usage_find_iff h] at hx
    obtain ⟨h1, rfl⟩ := hx
    rcases List.mem_cons.1 hm with hm | hm
    · cases hm
      refine ⟨List.any_eq_true.1 h1, ?_⟩
      rw [← h.entries, ← h.num]
    · obtain ⟨_, _, hm⟩ := List.mem_map.1 hm
      cases hm
  · rintro ⟨h1, rfl⟩
    refine ⟨(n, use s.entry n), usage_sorted_mem.2 ((usage_find_iff h).2 ⟨List.any_eq_true.2 h1, rfl⟩), ?_⟩
    rw [← h.entries, ← h.num]
    exact List.mem_cons_self ..

theorem usage_path_mem {E : List EntryInfo} {s : Stats} (h : Counted E s) {n p : Text} {b : Bool} {f1 f2 : Freq} :
    .path n p b f1 f2 ∈ (sorted s.entry).flatMap (usageBlock s) ↔
      E.any (fills n p) = true ∧ ¬ "_error_".toList <:+: p ∧ b = E.any (fills n (p ++ "_error_upper".toList)) ∧
      f1 = ⟨E.countP (fills n p), E.countP (hasIds n)⟩ ∧
      f2 = ⟨listed n p (E.flatMap (·.ids)), (occurrences n E).length⟩ := by
  rw [List.mem_flatMap]
  have hrow : ∀ k, (p, k) ∈ (use s.entry n).paths ↔ E.any (fills n p) = true ∧ k = E.countP (fills n p) := by
    intro k
    rw [← h.path, ← h.paths, hasPath, cnt]
    constructor
    · intro hx
      rw [find_of_mem (h.dict.2 n) hx]
      exact ⟨rfl, rfl⟩
    · rintro ⟨h1, rfl⟩
      obtain ⟨v, hv⟩ := Option.isSome_iff_exists.1 h1
      rw [hv]
      exact mem_of_find hv
  constructor
  · rintro ⟨⟨k, u⟩, hx, hm⟩
    rw [usage_sorted_mem, usage_find_iff h] at hx
    obtain ⟨h1, rfl⟩ := hx
    rcases List.mem_cons.1 hm with hm | hm
    · cases hm
    · obtain ⟨⟨q, j⟩, hy, hm⟩ := List.mem_map.1 hm
      rw [List.mem_filter, usage_sorted_mem] at hy
      dsimp only at hy hm
      rw [usageRow] at hm
      injection hm with e1 e2 e3 e4 e5
      subst e1 e2
      obtain ⟨h2, h3⟩ := hy
      obtain ⟨h4, h5⟩ := (hrow j).1 h2
      refine ⟨h4, ?_, ?_, ?_, ?_⟩
      · intro hi
        rw [(usage_hasSub _ _).2 hi] at h3
        cases h3
      · rw [← e3, ← h.path]; rfl
      · rw [← e4, h.entries]; exact congrArg (Freq.mk · _) h5
      · rw [← e5, ← h.occPaths, ← h.occs]; rfl
  · rintro ⟨h1, h2, rfl, rfl, rfl⟩
    refine ⟨(n, use s.entry n), usage_sorted_mem.2 ((usage_find_iff h).2 ⟨usage_fills_ids h1, rfl⟩), ?_⟩
    refine List.mem_cons_of_mem _ (List.mem_map.2 ⟨(p, E.countP (fills n p)), ?_, ?_⟩)
    · rw [List.mem_filter, usage_sorted_mem]
      refine ⟨(hrow _).2 ⟨h1, rfl⟩, ?_⟩
      rw [Bool.eq_false_iff.2 (fun hi => h2 ((usage_hasSub _ _).1 hi))]; rfl
    · rw [usageRow, ← h.entries, ← h.path, ← h.occPaths, ← h.occs]; rfl

theorem usage_order {E : List EntryInfo} {s : Stats} (h : Counted E s) :
    ((sorted s.entry).flatMap (usageBlock s)).Pairwise Before := by
  rw [List.pairwise_flatMap]
  constructor
  · rintro ⟨n, u⟩ hx
    rw [usage_sorted_mem, usage_find_iff h] at hx
    obtain ⟨_, rfl⟩ := hx
    rw [usageBlock, List.pairwise_cons]
    constructor
    · intro r hr
      obtain ⟨y, _, rfl⟩ := List.mem_map.1 hr
      exact List.le_refl n
    · rw [List.pairwise_map]
      refine List.Pairwise.filter _ ?_
      refine (usage_sorted (h.dict.2 n)).imp ?_
      intro a b hab
      exact .inr ⟨rfl, hab⟩
  · refine (usage_sorted h.dict.1).imp ?_
    rintro ⟨n, u⟩ ⟨m, v⟩ hnm x hx y hy
    dsimp only at hnm
    rcases List.mem_cons.1 hx with rfl | hx
    · rcases List.mem_cons.1 hy with rfl | hy
      · exact hnm
      · obtain ⟨z, _, rfl⟩ := List.mem_map.1 hy
        exact List.le_of_lt hnm
    · obtain ⟨w, _, rfl⟩ := List.mem_map.1 hx
      rcases List.mem_cons.1 hy with rfl | hy
      · exact hnm
      · obtain ⟨z, _, rfl⟩ := List.mem_map.1 hy
        exact .inl hnm

/-- The CSV file: there is one row for every IDS that is in some data entry, with the share of the data entries, and one row for
every path that is filled somewhere, except those of error bars, with the share of the data entries with the IDS and the share of
the occurrences of the IDS in which it is filled. The rows are sorted, none is repeated, and writing does not fail. -/
theorem C68_rows (files : List (List EntryInfo)) (ho : Once files.flatten) :
    ∃ rows, csv (collect {} files) = .ok rows ∧ rows.Pairwise Before ∧
      (∀ n f, .ids n f ∈ rows ↔ IdsRow files.flatten n f) ∧
      ∀ n p b f1 f2, .path n p b f1 f2 ∈ rows ↔ PathRow files.flatten n p b f1 f2 := by
  have h := counted files
  refine ⟨_, usage_csv h, usage_order h, fun n f => usage_ids_mem h, ?_⟩
  intro n p b f1 f2
  rw [usage_path_mem h]
  have e : listed n p (files.flatten.flatMap (·.ids)) =
      (occurrences n files.flatten).countP fun i => i.filled.contains p := by
    apply listed_once
    intro i hi
    obtain ⟨e, he, hi⟩ := List.mem_flatMap.1 hi
    exact ho e he i hi
  rw [e]
  constructor
  · rintro ⟨h1, h2, h3, h4, h5⟩; exact ⟨List.any_eq_true.1 h1, h2, h3, h4, h5⟩
  · rintro ⟨h1, h2, h3, h4, h5⟩; exact ⟨List.any_eq_true.2 h1, h2, h3, h4, h5⟩

/-- The shares in the CSV file are positive and at most 1. -/
theorem C68_shares (files : List (List EntryInfo)) (ho : Once files.flatten) (rows : List Row)
    (h : csv (collect {} files) = .ok rows) :
    (∀ n f, .ids n f ∈ rows → 0 < f.num ∧ f.num ≤ f.den) ∧
    ∀ n p b f1 f2, .path n p b f1 f2 ∈ rows → (0 < f1.num ∧ f1.num ≤ f1.den) ∧ (0 < f2.num ∧ f2.num ≤ f2.den) := by
  obtain ⟨rows', h1, _, h2, h3⟩ := C68_rows files ho
  rw [h] at h1
  cases h1
  constructor
  · intro n f hf
    obtain ⟨hp, rfl⟩ := (h2 n f).1 hf
    exact ⟨List.countP_pos_iff.2 hp, List.countP_le_length⟩
  · intro n p b f1 f2 hf
    obtain ⟨hp, _, _, rfl, rfl⟩ := (h3 n p b f1 f2).1 hf
    refine ⟨⟨List.countP_pos_iff.2 hp, List.countP_mono_left ?_⟩, ?_, List.countP_le_length⟩
    · intro e he hfe
      obtain ⟨i, hi, hx⟩ := List.any_eq_true.1 hfe
      rw [Bool.and_eq_true] at hx
      exact List.any_eq_true.2 ⟨i, hi, hx.1⟩
    · obtain ⟨e, he, hfe⟩ := hp
      obtain ⟨i, hi, hx⟩ := List.any_eq_true.1 hfe
      rw [Bool.and_eq_true] at hx
      refine List.countP_pos_iff.2 ⟨i, ?_, hx.2⟩
      rw [occurrences, List.mem_filter, List.mem_flatMap]
      exact ⟨⟨e, he, hi⟩, hx.1⟩

/-- Two data entries; the first has two occurrences of `eq`, in one of them `q` is filled with error bars. -/
def usageData : List (List EntryInfo) :=
  [[⟨[], [], [⟨"eq".toList, [], ["p".toList, "q".toList, "q_error_upper".toList]⟩, ⟨"eq".toList, ['1'], ["p".toList]⟩]⟩],
   [⟨[], [], [⟨"nbi".toList, [], ["p".toList]⟩]⟩]]

theorem usage_once {E : List EntryInfo} (h : E.all (fun e => e.ids.all fun i => decide i.filled.Nodup) = true) : Once E := by
  intro e he i hi
  exact of_decide_eq_true (List.all_eq_true.1 (List.all_eq_true.1 h e he) i hi)

example : Once usageData.flatten := usage_once (by decide +kernel)

example : (csv (collect {} usageData)).toOption = some
    [.ids "eq".toList ⟨1, 2⟩, .path "eq".toList "p".toList false ⟨1, 1⟩ ⟨2, 2⟩, .path "eq".toList "q".toList true ⟨1, 1⟩ ⟨1, 2⟩,
     .ids "nbi".toList ⟨1, 2⟩, .path "nbi".toList "p".toList false ⟨1, 1⟩ ⟨1, 1⟩] := by decide +kernel

/-- If a path is listed twice for one occurrence, the share of the occurrences can be larger than 1. -/
theorem C68_twice_limit : (csv (collect {} [[⟨[], [], [⟨"eq".toList, [], ["p".toList, "p".toList]⟩]⟩]])).toOption =
    some [.ids "eq".toList ⟨1, 1⟩, .path "eq".toList "p".toList false ⟨1, 1⟩ ⟨2, 1⟩] := by decide +kernel

/-! ### The overview -/

theorem usage_filledIn {n p : Text} {E : List EntryInfo} : p ∈ filledIn n E ↔ E.any (fills n p) = true := by
  rw [filledIn, List.mem_flatMap]
  constructor
  · rintro ⟨i, hi, hp⟩
    rw [occurrences, List.mem_filter, List.mem_flatMap] at hi
    obtain ⟨⟨e, he, hi⟩, hn⟩ := hi
    refine List.any_eq_true.2 ⟨e, he, List.any_eq_true.2 ⟨i, hi, ?_⟩⟩
    rw [hn, Bool.true_and, List.contains_iff_mem]; exact hp
  · intro h
    obtain ⟨e, he, h⟩ := List.any_eq_true.1 h
    obtain ⟨i, hi, h⟩ := List.any_eq_true.1 h
    rw [Bool.and_eq_true] at h
    refine ⟨i, ?_, List.contains_iff_mem.1 h.2⟩
    rw [occurrences, List.mem_filter, List.mem_flatMap]
    exact ⟨⟨e, he, hi⟩, h.1⟩

theorem usage_counts_congr {l m : List Text} (h : ∀ p, p ∈ l ↔ p ∈ m) {p : Path} {c : MFields} {a b : Nat}
    (hc : Counts l p c a b) : Counts m p c a b := by
  obtain ⟨L, h1, h2, h3, rfl⟩ := hc
  refine ⟨L, h1, h2, h3, ?_⟩
  congr 1
  funext q
  simp [h]

theorem usage_shown_congr {l m : List Text} (h : ∀ p, p ∈ l ↔ p ∈ m) {pre : Path} {f : MFields} {p : Path} {c : MFields}
    (hs : Shown l pre f p c) : Shown m pre f p c := by
  induction hs with
  | top h => exact .top h
  | inside hc hq _ ih =>
    obtain ⟨q, h1, h2⟩ := hq
    exact .inside hc ⟨q, h1, (h _).1 h2⟩ ih

theorem usage_counts_unique {l : List Text} {p : Path} {c : MFields} {a b a' b' : Nat} (h : Counts l p c a b)
    (h' : Counts l p c a' b') : a = a' ∧ b = b' := by
  obtain ⟨L, n1, m1, rfl, rfl⟩ := h
  obtain ⟨M, n2, m2, rfl, rfl⟩ := h'
  have hp : L.Perm M := (List.perm_ext_iff_of_nodup n1 n2).2 fun q => (m1 q).trans (m2 q).symm
  exact ⟨hp.length_eq, hp.countP_eq _⟩

/-- The analysis of an IDS. -/
def usageNode (u : Usage) (m : MFields) : Analysis :=
  ⟨(walk (u.paths.map (·.1)) [] m).2.1, (walk (u.paths.map (·.1)) [] m).2.2, (walk (u.paths.map (·.1)) [] m).1⟩

theorem usage_analyses_mem (dict : Text → Option MFields) {n : Text} {a : Analysis} : ∀ {d : Usages},
    (n, a) ∈ analyses dict d ↔ ∃ u m, (n, u) ∈ d ∧ dict n = some m ∧ a = usageNode u m
  | [] => by simp [analyses]
  | (k, u) :: r => by
    have ih := usage_analyses_mem dict (n := n) (a := a) (d := r)
    rw [analyses]
    cases hk : dict k with
    | none =>
      dsimp only
      rw [ih]
      constructor
      · rintro ⟨u, m, h1, h2⟩; exact ⟨u, m, List.mem_cons_of_mem _ h1, h2⟩
      · rintro ⟨v, m, h1, h2, h3⟩
        rcases List.mem_cons.1 h1 with h1 | h1
        · cases h1; rw [hk] at h2; cases h2
        · exact ⟨v, m, h1, h2, h3⟩
    | some m =>
      dsimp only
      rw [List.mem_cons, ih]
      constructor
      · rintro (h | ⟨v, m', h1, h2⟩)
        · cases h; exact ⟨u, m, List.mem_cons_self .., hk, rfl⟩
        · exact ⟨v, m', List.mem_cons_of_mem _ h1, h2⟩
      · rintro ⟨v, m', h1, h2, h3⟩
        rcases List.mem_cons.1 h1 with h1 | h1
        · cases h1
          rw [hk] at h2
          cases h2
          subst h3
          exact .inl rfl
        · exact .inr ⟨v, m', h1, h2, h3⟩

theorem usage_analyses_keys (dict : Text → Option MFields) : ∀ {d : Usages}, (keys d).Nodup → (keys (analyses dict d)).Nodup
  | [], _ => by simp [analyses, keys]
  | (k, u) :: r, h => by
    have h' := h
    simp only [keys, List.map_cons, List.nodup_cons] at h'
    have ih := usage_analyses_keys dict (d := r) h'.2
    rw [analyses]
    cases hk : dict k with
    | none => exact ih
    | some m =>
      show (k :: keys (analyses dict r)).Nodup
      rw [List.nodup_cons]
      refine ⟨?_, ih⟩
      intro hm
      obtain ⟨⟨n, a⟩, hx, rfl⟩ := List.mem_map.1 hm
      obtain ⟨v, _, hv, _⟩ := (usage_analyses_mem dict).1 hx
      exact h'.1 (List.mem_map.2 ⟨_, hv, rfl⟩)

theorem usage_occ_iff {E : List EntryInfo} {s : Stats} (h : Counted E s) {n : Text} {u : Usage} :
    (n, u) ∈ s.occ ↔ E.any (hasIds n) = true ∧ u = use s.occ n := by
  constructor
  · intro hx
    have hf := find_of_mem h.dictOcc.1 hx
    constructor
    · rw [← h.hasOcc, Usage.has, hf]; rfl
    · rw [use, hf]; rfl
  · rintro ⟨h1, rfl⟩
    rw [← h.hasOcc, Usage.has] at h1
    obtain ⟨v, hv⟩ := Option.isSome_iff_exists.1 h1
    rw [use, hv]
    exact mem_of_find hv

theorem usage_occ_paths {E : List EntryInfo} {s : Stats} (h : Counted E s) (n p : Text) :
    p ∈ (use s.occ n).paths.map (·.1) ↔ p ∈ filledIn n E := by
  rw [usage_filledIn, ← h.occPath, hasPath, find_isSome]; rfl

theorem usage_sort_fraction {l : List (Text × Analysis)} (h : ∀ x ∈ l, 0 < x.2.num) :
    (sortBy (fun (a b : Text × Analysis) => atLeast a.2 b.2) l).Pairwise fun a b => b.2.filled * a.2.num ≤ a.2.filled * b.2.num := by
  have := sortBy_sorted (le := fun (a b : Text × Analysis) => atLeast a.2 b.2) (l := l) (by
    intro a ha b hb c hc hab hbc
    have h1 : b.2.filled * a.2.num ≤ a.2.filled * b.2.num := of_decide_eq_true hab
    have h2 : c.2.filled * b.2.num ≤ b.2.filled * c.2.num := of_decide_eq_true hbc
    refine decide_eq_true ?_
    have h3 := Nat.mul_le_mul_right c.2.num h1
    have h4 := Nat.mul_le_mul_right a.2.num h2
    refine Nat.le_of_mul_le_mul_right (c := b.2.num) ?_ (h b hb)
    have e1 : c.2.filled * a.2.num * b.2.num = c.2.filled * b.2.num * a.2.num := Nat.mul_right_comm ..
    have e2 : b.2.filled * c.2.num * a.2.num = b.2.filled * a.2.num * c.2.num := Nat.mul_right_comm ..
    have e3 : a.2.filled * c.2.num * b.2.num = a.2.filled * b.2.num * c.2.num := Nat.mul_right_comm ..
    omega) (by
    intro a _ b _
    rcases Nat.le_total (b.2.filled * a.2.num) (a.2.filled * b.2.num) with h | h
    · exact .inl (decide_eq_true h)
    · exact .inr (decide_eq_true h))
  exact this.imp fun h => of_decide_eq_true h

/-- The table: it has one row for every IDS of the Data Dictionary that is in some data entry (those without filled data only if
they are asked for), with the number of data nodes that the Data Dictionary has and how many of them are filled somewhere. The
rows are in the order of this fraction. The Data Dictionary must not have IDSs without data nodes. -/
theorem C68_overview (dict : Text → Option MFields) (showEmpty : Bool) (files : List (List EntryInfo))
    (hd : ∀ n m, dict n = some m → WFMFields m ∧ ∃ q, DataNode m q) :
    ∃ rows, overview dict showEmpty (collect {} files) = .ok rows ∧
      (∀ n a b, (n, a, b) ∈ rows ↔ (∃ m, dict n = some m ∧ Counts (filledIn n files.flatten) [] m b a) ∧
        (∃ e ∈ files.flatten, hasIds n e = true) ∧ (showEmpty = true ∨ a ≠ 0)) ∧
      rows.Pairwise (fun x y => y.2.1 * x.2.2 ≤ x.2.1 * y.2.2) ∧ (rows.map (·.1)).Nodup := by
  have h := counted files
  generalize files.flatten = E at h ⊢
  generalize collect {} files = s at h ⊢
  have hnode : ∀ n m, dict n = some m →
      Counts (filledIn n E) [] m (usageNode (use s.occ n) m).num (usageNode (use s.occ n) m).filled := by
    intro n m hm
    exact usage_counts_congr (usage_occ_paths h n) (counts_walk (hd n m hm).1)
  have hpos : ((analyses dict s.occ).any fun x => x.2.num == 0) = false := by
    rw [Bool.eq_false_iff]
    intro hx
    obtain ⟨⟨n, a⟩, hx, h0⟩ := List.any_eq_true.1 hx
    obtain ⟨u, m, hu, hm, rfl⟩ := (usage_analyses_mem dict).1 hx
    obtain ⟨_, rfl⟩ := (usage_occ_iff h).1 hu
    obtain ⟨q, hq⟩ := (hd n m hm).2
    obtain ⟨L, _, hL, h1, _⟩ := hnode n m hm
    have h0 : (usageNode (use s.occ n) m).num = 0 := eq_of_beq h0
    rw [h0] at h1
    have := (hL q).2 hq
    rw [List.length_eq_zero_iff.1 h1.symm] at this
    cases this
  refine ⟨_, by rw [overview, byFraction, if_neg (by rw [hpos]; decide)]; rfl, ?_, ?_, ?_⟩
  · intro n a b
    rw [List.mem_map]
    constructor
    · rintro ⟨⟨k, x⟩, hx, e⟩
      cases e
      rw [List.mem_filter, mem_sortBy] at hx
      obtain ⟨hx, hs⟩ := hx
      obtain ⟨u, m, hu, hm, rfl⟩ := (usage_analyses_mem dict).1 hx
      obtain ⟨he, rfl⟩ := (usage_occ_iff h).1 hu
      refine ⟨⟨m, hm, hnode _ m hm⟩, List.any_eq_true.1 he, ?_⟩
      rw [Bool.or_eq_true] at hs
      exact hs.imp id fun h => by simpa using h
    · rintro ⟨⟨m, hm, hc⟩, he, hs⟩
      obtain ⟨rfl, rfl⟩ := usage_counts_unique hc (hnode n m hm)
      refine ⟨(n, usageNode (use s.occ n) m), ?_, rfl⟩
      rw [List.mem_filter, mem_sortBy]
      refine ⟨(usage_analyses_mem dict).2 ⟨_, m, (usage_occ_iff h).2 ⟨List.any_eq_true.2 he, rfl⟩, hm, rfl⟩, ?_⟩
      rw [Bool.or_eq_true]
      exact hs.imp id fun h => by simpa using h
  · rw [List.pairwise_map]
    refine List.Pairwise.filter _ ?_
    have hall : ∀ x ∈ analyses dict s.occ, 0 < x.2.num := by
      intro x hx
      rcases Nat.eq_zero_or_pos x.2.num with h0 | h0
      · have := (List.any_eq_false.1 hpos) x hx
        rw [h0] at this; exact absurd rfl this
      · exact h0
    exact usage_sort_fraction hall
  · have hk := usage_analyses_keys dict h.dictOcc.1
    have hp : (sortBy (fun (a b : Text × Analysis) => atLeast a.2 b.2) (analyses dict s.occ)).map (·.1) |>.Perm ((analyses dict s.occ).map (·.1)) :=
      (sortBy_perm _).map _
    have := hp.nodup_iff.2 hk
    rw [List.map_map]
    exact (this.sublist ((List.filter_sublist).map _))

theorem usage_find_analyses {E : List EntryInfo} {s : Stats} (h : Counted E s) (dict : Text → Option MFields) (n : Text) (a : Analysis) :
    find n (analyses dict s.occ) = some a ↔
      ∃ m, dict n = some m ∧ E.any (hasIds n) = true ∧ a = usageNode (use s.occ n) m := by
  constructor
  · intro hf
    obtain ⟨u, m, hu, hm, rfl⟩ := (usage_analyses_mem dict).1 (mem_of_find hf)
    obtain ⟨he, rfl⟩ := (usage_occ_iff h).1 hu
    exact ⟨m, hm, he, rfl⟩
  · rintro ⟨m, hm, he, rfl⟩
    exact find_of_mem (usage_analyses_keys dict h.dictOcc.1)
      ((usage_analyses_mem dict).2 ⟨_, m, (usage_occ_iff h).2 ⟨he, rfl⟩, hm, rfl⟩)

theorem usage_wf_child {f : MFields} {n : Name} {c : MFields} (h : Child f n c) (hw : WFMFields f) : WFMFields c := by
  induction h with
  | struct _ => rw [WFMFields] at hw; have := hw.2.1; rw [WFMeta] at this; exact this
  | aos _ => rw [WFMFields] at hw; have := hw.2.1; rw [WFMeta] at this; exact this
  | rest _ ih => rw [WFMFields] at hw; exact ih hw.2.2

theorem usage_wf_shown {l : List Text} {pre : Path} {f : MFields} {p : Path} {c : MFields} (h : Shown l pre f p c)
    (hw : WFMFields f) : WFMFields c := by
  induction h with
  | top h => exact usage_wf_child h hw
  | inside h _ _ ih => exact ih (usage_wf_child h hw)

/-- The details of an IDS: there are some if the IDS is in the Data Dictionary and in some data entry. The tree has one line for
every data node that is filled in some occurrence, and lines for the structures that are at the top or in a structure with filled
data, with the number of data nodes in them and how many of these are filled. -/
theorem C68_tree (dict : Text → Option MFields) (files : List (List EntryInfo)) (n : Text)
    (hd : ∀ n m, dict n = some m → WFMFields m) :
    (detail dict (collect {} files) n = none ↔ dict n = none ∨ ∀ e ∈ files.flatten, hasIds n e = false) ∧
    ∀ a b lines, detail dict (collect {} files) n = some (a, b, lines) → ∃ m, dict n = some m ∧
      Counts (filledIn n files.flatten) [] m b a ∧ lines.countP isUsed = a ∧
      (∀ d t, .used d t ∈ lines ↔
        ∃ p, DataNode m p ∧ pathString p ∈ filledIn n files.flatten ∧ d + 1 = p.length ∧ t = pathString p) ∧
      ∀ d t x y, .inner d t x y ∈ lines ↔
        ∃ p c, Shown (filledIn n files.flatten) [] m p c ∧ d + 1 = p.length ∧ t = pathString p ∧
          Counts (filledIn n files.flatten) p c y x := by
  have h := counted files
  generalize files.flatten = E at h ⊢
  generalize collect {} files = s at h ⊢
  have hp := usage_occ_paths h n
  constructor
  · rw [detail, Option.map_eq_none_iff]
    constructor
    · intro hf
      cases hm : dict n with
      | none => exact .inl rfl
      | some m =>
        refine .inr fun e he => ?_
        rw [Bool.eq_false_iff]
        intro hi
        rw [(usage_find_analyses h dict n _).2 ⟨m, hm, List.any_eq_true.2 ⟨e, he, hi⟩, rfl⟩] at hf
        cases hf
    · intro hn
      cases hf : find n (analyses dict s.occ) with
      | none => rfl
      | some x =>
        obtain ⟨m, hm, he, _⟩ := (usage_find_analyses h dict n x).1 hf
        rcases hn with hn | hn
        · rw [hn] at hm; cases hm
        · obtain ⟨e, he, hi⟩ := List.any_eq_true.1 he
          rw [hn e he] at hi; cases hi
  · intro a b lines hx
    rw [detail, Option.map_eq_some_iff] at hx
    obtain ⟨y, hf, hx⟩ := hx
    obtain ⟨m, hm, he, rfl⟩ := (usage_find_analyses h dict n y).1 hf
    cases hx
    refine ⟨m, hm, usage_counts_congr hp (counts_walk (hd n m hm)), lines_count _ m [] 0, ?_, ?_⟩
    · intro d t
      refine (lines_used _ m [] 0 d t).trans ?_
      simp only [List.nil_append, Nat.zero_add, hp]
    · intro d t x y
      refine (lines_shown _ m [] 0 d t x y).trans ?_
      simp only [List.nil_append, Nat.zero_add]
      constructor
      · rintro ⟨p, c, h1, h2, h3, h4⟩
        refine ⟨p, c, usage_shown_congr hp h1, h2, h3, ?_⟩
        have := counts_walk (filled := (use s.occ n).paths.map (·.1)) (p := p) (usage_wf_shown h1 (hd n m hm))
        rw [← h4] at this
        exact usage_counts_congr hp this
      · rintro ⟨p, c, h1, h2, h3, h4⟩
        have h1' := usage_shown_congr (fun p => (hp p).symm) h1
        refine ⟨p, c, h1', h2, h3, ?_⟩
        have := counts_walk (filled := (use s.occ n).paths.map (·.1)) (p := p) (usage_wf_shown h1' (hd n m hm))
        obtain ⟨rfl, rfl⟩ := usage_counts_unique h4 (usage_counts_congr hp this)
        rfl

/-- An IDS `eq` with `p`, a structure `s` with `x` and an array of structures `t` with `y`. -/
def usageMeta : MFields :=
  .cons "p".toList (.leaf ⟨.flt, 0, false⟩) (.cons "s".toList (.struct (.cons "x".toList (.leaf ⟨.flt, 0, false⟩)
    (.cons "t".toList (.aos (.cons "y".toList (.leaf ⟨.flt, 0, false⟩) .nil)) .nil))) .nil)

def usageDict (n : Text) : Option MFields := if n = "eq".toList then some usageMeta else none

theorem usage_dict_ok : ∀ n m, usageDict n = some m → WFMFields m ∧ ∃ q, DataNode m q := by
  intro n m h
  unfold usageDict at h
  split at h
  · cases h
    refine ⟨?_, _, .leaf⟩
    simp [usageMeta, WFMFields, WFMeta, mnames]
  · cases h

/-- A data entry in which `p` and `s/x` are filled. -/
def usageEq : List (List EntryInfo) := [[⟨[], [], [⟨"eq".toList, [], ["p".toList, "s/x".toList, "old".toList]⟩]⟩], []]

example : (overview usageDict false (collect {} usageEq)).toOption = some [("eq".toList, 2, 3)] := by decide +kernel

example : detail usageDict (collect {} usageEq) "eq".toList =
    some (2, 3, [.used 0 "p".toList, .inner 0 "s".toList 1 2, .used 1 "s/x".toList, .inner 1 "s/t".toList 0 1]) := by
  decide +kernel

end Verif.Props
