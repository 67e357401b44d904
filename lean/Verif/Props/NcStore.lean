import Verif.Spec.NcStore
import Verif.Lemmas.Coordinate
/-! C34: a netCDF data entry is a write-once store. -/
namespace Verif.Props
open Verif.NcStore Verif.NcStoreSpec
open Verif.Coord (pyInt strip isSpace)
open Verif.CoordSpec Verif.PathSpec Verif.Coord Verif.Path

variable {B G : Type}

/-! ### Numbers as text -/

theorem pyInt_showInt {i : Int} (h : Small i) : pyInt (showInt i) = some i := by
  unfold showInt
  have hd := pyInt_digits (k := i.natAbs) h
  split
  · next hn =>
    have hne : Nat.toDigits 10 i.natAbs = digits i.natAbs := rfl
    have hnum := digits_number i.natAbs
    have hs : strip ('-' :: digits i.natAbs) = '-' :: digits i.natAbs := by
      have key : ∀ t : List Char, (∀ x ∈ t, isSpace x = false) → t.dropWhile isSpace = t := by
        intro t ht
        cases t with
        | nil => rfl
        | cons c cs => rw [List.dropWhile_cons]; simp [ht c (by simp)]
      have hall : ∀ x ∈ '-' :: digits i.natAbs, isSpace x = false := by
        intro x hx
        rcases List.mem_cons.mp hx with rfl | hx
        · decide
        · exact isSpace_digit (hnum.2 x hx)
      unfold strip
      rw [key _ hall, key _ (fun x hx => hall x (List.mem_reverse.mp hx)), List.reverse_reverse]
    have hds : Verif.Coord.digitString (digits i.natAbs) = some i.natAbs := by
      unfold pyInt at hd
      rw [strip_digits hnum.2] at hd
      split at hd
      · next t ht => have := hnum.2 '+' (by rw [ht]; simp); simp [Digit] at this
      · next t ht => have := hnum.2 '-' (by rw [ht]; simp); simp [Digit] at this
      · simp only [Option.map_eq_some_iff] at hd
        obtain ⟨a, ha, hb⟩ := hd
        have : a = i.natAbs := Int.ofNat.inj hb
        rw [ha, this]
    rw [hne]
    unfold pyInt
    rw [hs]
    simp only [hds, Option.map_some, Option.some.injEq]
    simp only [Int.ofNat_eq_natCast]
    omega
  · next hn =>
    rw [show Nat.toDigits 10 i.natAbs = digits i.natAbs from rfl]
    rw [hd]
    simp only [Option.some.injEq]
    omega

theorem showInt_inj {i j : Int} (hi : Small i) (hj : Small j) (h : showInt i = showInt j) : i = j := by
  have a := pyInt_showInt hi
  rw [h, pyInt_showInt hj] at a
  exact (Option.some.inj a).symm

/-! ### Groups -/

theorem assoc_addGroup_same {groups : List (Text × List (Text × G))} {name occ : Text} {g : G} :
    assoc (addGroup groups name occ g) name = some ((assoc groups name).getD [] ++ [(occ, g)]) := by
  induction groups with
  | nil => simp [addGroup, assoc]
  | cons a r ih =>
    obtain ⟨n, subs⟩ := a
    unfold addGroup
    split
    · next h => simp [assoc, h]
    · next h => simp only [assoc, if_neg h]; exact ih

theorem assoc_addGroup_other {groups : List (Text × List (Text × G))} {name name' occ : Text} {g : G}
    (h : name' ≠ name) : assoc (addGroup groups name occ g) name' = assoc groups name' := by
  induction groups with
  | nil => simp [addGroup, assoc, h]
  | cons a r ih =>
    obtain ⟨n, subs⟩ := a
    unfold addGroup
    split
    · next hn => subst hn; simp [assoc, h]
    · simp only [assoc, ih]

theorem assoc_append {A : Type} {l l' : List (Text × A)} {k : Text} :
    assoc (l ++ l') k = (assoc l k).or (assoc l' k) := by
  induction l with
  | nil => simp [assoc]
  | cons a r ih =>
    obtain ⟨n, v⟩ := a
    simp only [List.cons_append, assoc]
    split <;> simp [ih]

theorem findGroup_add {ds : Dataset G} {name occ name' occ' : Text} {g : G}
    (hnew : findGroup ds name occ = none) :
    findGroup { ds with groups := addGroup ds.groups name occ g } name' occ' =
      if name' = name ∧ occ' = occ then some g else findGroup ds name' occ' := by
  unfold findGroup
  by_cases hn : name' = name
  · subst hn
    simp only [assoc_addGroup_same, assoc_append, true_and]
    unfold findGroup at hnew
    cases ha : assoc ds.groups name' with
    | none =>
      simp only [Option.getD_none, assoc]
      split <;> simp
    | some subs =>
      rw [ha] at hnew
      simp only at hnew
      simp only [Option.getD_some, assoc]
      by_cases ho : occ' = occ
      · subst ho; simp [hnew]
      · simp [ho]
  · simp only [assoc_addGroup_other hn, hn, false_and, if_false]

/-! ### Histories -/

/-- Invariant: the occurrences of all groups are texts of numbers, without duplicates. -/
def GroupsOk (ds : Dataset G) : Prop :=
  ∀ name subs, assoc ds.groups name = some subs →
    (∀ s ∈ subs, ∃ i, Small i ∧ s.1 = showInt i) ∧ (subs.map (·.1)).Nodup

theorem assoc_none {A : Type} {l : List (Text × A)} {k : Text} :
    assoc l k = none ↔ k ∉ l.map (·.1) := by
  induction l with
  | nil => simp [assoc]
  | cons a r ih =>
    obtain ⟨n, v⟩ := a
    simp only [assoc, List.map_cons, List.mem_cons, not_or]
    split
    · next h => simp [h]
    · next h => simp [h, ih]

theorem step_ok {f : Format B G} {ds : Dataset G} {op : Op B} (h : GroupsOk ds)
    (hs : SmallOps [op]) : GroupsOk (step f ds op) := by
  cases op with
  | get n o s => exact h
  | delete n o => exact h
  | list n => exact h
  | put d occ slice =>
    simp only [step, put]
    have hocc : Small occ := hs.1
    split
    · exact h
    · split
      · exact h
      · split
        · exact h
        · next hf =>
          have hf : findGroup ds d.name (showInt occ) = none := by simpa using hf
          have key : GroupsOk { ds with
              groups := addGroup ds.groups d.name (showInt occ)
                (f.write (f.note ds.version d.body)).1 } := by
            intro name subs ha
            by_cases hn : name = d.name
            · subst hn
              rw [assoc_addGroup_same] at ha
              have ha := (Option.some.inj ha).symm
              subst ha
              cases hg : assoc ds.groups d.name with
              | none => simp; exact ⟨occ, hocc, rfl⟩
              | some subs =>
                obtain ⟨h1, h2⟩ := h _ _ hg
                unfold findGroup at hf
                rw [hg] at hf
                have hf := assoc_none.mp hf
                simp only [Option.getD_some]
                refine ⟨?_, ?_⟩
                · intro s hs
                  rcases List.mem_append.mp hs with hs | hs
                  · exact h1 s hs
                  · simp at hs; subst hs; exact ⟨occ, hocc, rfl⟩
                · rw [List.map_append, List.nodup_append]
                  refine ⟨h2, by simp, ?_⟩
                  intro a ha b hb
                  simp at hb; subst hb
                  rintro rfl
                  exact hf ha
            · rw [assoc_addGroup_other hn] at ha
              exact h _ _ ha
          split <;> exact key

theorem run_ok {f : Format B G} : ∀ (ops : List (Op B)) {ds : Dataset G}, GroupsOk ds → SmallOps ops →
    GroupsOk (run f ds ops)
  | [], _, h, _ => h
  | .put _ _ _ :: r, _, h, hs => run_ok r (step_ok h ⟨hs.1, trivial⟩) hs.2
  | .get _ _ _ :: r, _, h, hs => run_ok r h hs
  | .delete _ _ :: r, _, h, hs => run_ok r h hs
  | .list _ :: r, _, h, hs => run_ok r h hs

theorem step_version {f : Format B G} {ds : Dataset G} {op : Op B} :
    (step f ds op).version = ds.version := by
  cases op with
  | put d occ s =>
    simp only [step, put]
    split
    · rfl
    · split
      · rfl
      · split
        · rfl
        · split <;> rfl
  | get n o s => rfl
  | delete n o => rfl
  | list n => rfl

theorem run_version {f : Format B G} : ∀ (ops : List (Op B)) {ds : Dataset G},
    (run f ds ops).version = ds.version
  | [], _ => rfl
  | _ :: r, _ => (run_version r).trans step_version

/-- What one operation does to the group of a place. -/
theorem step_find {f : Format B G} {ds : Dataset G} {op : Op B} {name : Text} {occ : Int}
    (hs : SmallOps [op]) (ho : Small occ) :
    findGroup (step f ds op) name (showInt occ) =
      (findGroup ds name (showInt occ)).or
        ((firstPut ds.version name occ [op]).map fun b => (f.write (f.note ds.version b)).1) := by
  cases op with
  | get n o s => simp [step, firstPut]
  | delete n o => simp [step, delete, firstPut]
  | list n => simp [step, firstPut]
  | put d o s =>
    cases s with
    | true => simp [step, put, firstPut]
    | false =>
      simp only [step, put, firstPut, Bool.false_eq_true, if_false]
      by_cases hv : ds.version ≠ d.version
      · have : ¬(d.name = name ∧ o = occ ∧ d.version = ds.version) := fun h => hv h.2.2.symm
        simp [hv, this]
      · have hv := (Decidable.not_not.mp hv).symm
        simp only [hv, ne_eq, not_true_eq_false, if_false, and_true]
        cases hf : findGroup ds d.name (showInt o) with
        | some g =>
          simp only [Option.isSome_some, if_true]
          by_cases hp : d.name = name ∧ o = occ
          · obtain ⟨rfl, rfl⟩ := hp; rw [hf]; simp
          · simp [hp]
        | none =>
          simp only [Option.isSome_none, Bool.false_eq_true, if_false]
          have key := findGroup_add (g := (f.write (f.note ds.version d.body)).1) hf
            (name' := name) (occ' := showInt occ)
          have hiff : (name = d.name ∧ showInt occ = showInt o) ↔ (d.name = name ∧ o = occ) := by
            constructor
            · rintro ⟨rfl, h⟩; exact ⟨rfl, (showInt_inj ho hs.1 h).symm⟩
            · rintro ⟨rfl, rfl⟩; exact ⟨rfl, rfl⟩
          have hres : findGroup { ds with
              groups := addGroup ds.groups d.name (showInt o)
                (f.write (f.note ds.version d.body)).1 } name (showInt occ) =
              (findGroup ds name (showInt occ)).or
                (Option.map (fun b => (f.write (f.note ds.version b)).1)
                  (if d.name = name ∧ o = occ then some d.body else none)) := by
            rw [key]
            by_cases hp : d.name = name ∧ o = occ
            · obtain ⟨rfl, rfl⟩ := hp
              simp [hf]
            · rw [if_neg (fun h => hp (hiff.mp h)), if_neg hp]; simp
          split <;> exact hres

/-- **C34.** The group of an occurrence is named by its number in decimal notation. -/
theorem C34_group_name (i : Int) : showInt i = (toString i).toList := by
  cases i with
  | ofNat n =>
    have h : ¬ (Int.ofNat n < 0) := by simp
    rw [showInt, if_neg h]
    show _ = (Nat.repr n).toList
    simp [Nat.repr]
  | negSucc n =>
    have h : Int.negSucc n < 0 := Int.negSucc_lt_zero n
    rw [showInt, if_pos h]
    show _ = ("-" ++ Nat.repr (n + 1)).toList
    simp [Nat.repr]

/-- **C34.** After any history of operations - some of which may have failed midway - a place holds
exactly what the first full put of the right version to this place has written there: later puts
change nothing, and no operation on another place changes it. -/
theorem C34_first_put_wins (f : Format B G) (version : Text) (ops : List (Op B)) (hs : SmallOps ops)
    (name : Text) (occ : Int) (ho : Small occ) :
    findGroup (run f ⟨version, []⟩ ops) name (showInt occ) =
      (firstPut version name occ ops).map fun b => (f.write (f.note version b)).1 := by
  have gen : ∀ (ops : List (Op B)) (ds : Dataset G), SmallOps ops →
      findGroup (run f ds ops) name (showInt occ) =
        (findGroup ds name (showInt occ)).or
          ((firstPut ds.version name occ ops).map fun b => (f.write (f.note ds.version b)).1) := by
    intro ops
    induction ops with
    | nil => intro ds _; simp [run, firstPut]
    | cons op r ih =>
      intro ds hs
      have hs1 : SmallOps [op] := by cases op <;> simp_all [SmallOps]
      have hs2 : SmallOps r := by cases op <;> simp_all [SmallOps]
      simp only [run]
      rw [ih _ hs2, step_find hs1 ho, step_version, Option.or_assoc]
      congr 1
      cases op with
      | get n o s => simp [firstPut]
      | delete n o => simp [firstPut]
      | list n => simp [firstPut]
      | put d o s =>
        cases s with
        | true => simp [firstPut]
        | false =>
          simp only [firstPut]
          split <;> simp
  have := gen ops ⟨version, []⟩ hs
  simpa [findGroup, assoc] using this

theorem get_of_find {f : Format B G} {ds : Dataset G} {name : Text} {occ : Int} {g : G}
    (h : findGroup ds name (showInt occ) = some g) : get f ds name occ false = f.read g := by
  unfold findGroup at h
  unfold NcStore.get
  split at h
  · cases h
  · rename_i subs hs
    simp [hs, h]

/-- **C34.** A put to a place without data, of an IDS of the dataset's version, makes the written
data readable there; the put succeeds if writing does. -/
theorem C34_put_fresh (f : Format B G) (ds : Dataset G) (d : Doc B) (occ : Int)
    (hv : d.version = ds.version) (hnew : findGroup ds d.name (showInt occ) = none) :
    get f (put f ds d occ false).1 d.name occ false =
      f.read (f.write (f.note ds.version d.body)).1 ∧
    ((put f ds d occ false).2 = .ok () ↔ (f.write (f.note ds.version d.body)).2 = none) := by
  have key := findGroup_add (g := (f.write (f.note ds.version d.body)).1) hnew
    (name' := d.name) (occ' := showInt occ)
  simp only [and_self, if_true] at key
  simp only [put, hv, hnew, Bool.false_eq_true, if_false, ne_eq, not_true_eq_false,
    Option.isSome_none]
  cases hw : (f.write (f.note ds.version d.body)).2 with
  | none => simp [get_of_find key]
  | some e => simp [get_of_find key]

/-- **C34.** A second put to a place, a put in another version, `put_slice` and `delete_data`
are refused, and the dataset is unchanged. -/
theorem C34_refused (f : Format B G) (ds : Dataset G) (d : Doc B) (occ : Int) (name : Text) :
    (∀ g, findGroup ds d.name (showInt occ) = some g →
      put f ds d occ false = (ds, .error .runtime)) ∧
    (d.version ≠ ds.version → put f ds d occ false = (ds, .error .runtime)) ∧
    put f ds d occ true = (ds, .error .notImplemented) ∧
    delete ds name occ = (ds, .error .notImplemented) := by
  refine ⟨?_, ?_, rfl, rfl⟩
  · intro g hg
    simp only [put, hg, Bool.false_eq_true, if_false, Option.isSome_some, if_true]
    split <;> rfl
  · intro hv
    have : ds.version ≠ d.version := fun h => hv h.symm
    simp [put, this]

theorem step_name {f : Format B G} {ds : Dataset G} {op : Op B} {name : Text} :
    assoc (step f ds op).groups name = none ↔ assoc ds.groups name = none ∧
      ∀ d o, op = .put d o false → d.name = name → d.version ≠ ds.version := by
  cases op with
  | get n o s => simp [step]
  | delete n o => simp [step, delete]
  | list n => simp [step]
  | put d occ s =>
    simp only [step, put]
    cases s with
    | true => simp
    | false =>
      simp only [Bool.false_eq_true, if_false]
      by_cases hv : ds.version ≠ d.version
      · rw [if_pos hv]
        refine ⟨fun h => ⟨h, ?_⟩, fun h => h.1⟩
        rintro d' o' h - e
        cases h
        exact hv e.symm
      · rw [if_neg hv]
        have hv' : d.version = ds.version := (Classical.not_not.mp hv).symm
        split
        · rename_i hsome
          refine ⟨fun h => ⟨h, ?_⟩, fun h => h.1⟩
          rintro d' o' h' hd -
          cases h'
          subst hd
          unfold findGroup at hsome
          rw [h] at hsome
          cases hsome
        · have hadd : assoc (addGroup ds.groups d.name (showInt occ) (f.write (f.note ds.version d.body)).1) name = none ↔
              assoc ds.groups name = none ∧ d.name ≠ name := by
            by_cases hn : name = d.name
            · subst hn
              simp [assoc_addGroup_same]
            · rw [assoc_addGroup_other hn]
              simp [Ne.symm hn]
          have hres : assoc (addGroup ds.groups d.name (showInt occ) (f.write (f.note ds.version d.body)).1) name = none ↔
              assoc ds.groups name = none ∧ ∀ d' o', Op.put d occ false = .put d' o' false → d'.name = name → d'.version ≠ ds.version := by
            rw [hadd]
            refine and_congr_right fun _ => ⟨?_, fun h hn => h d occ rfl hn hv'⟩
            rintro h d' o' h' hd
            cases h'
            exact absurd hd h
          split <;> exact hres

theorem run_name {f : Format B G} {name : Text} : ∀ {ops : List (Op B)} {ds : Dataset G},
    assoc (run f ds ops).groups name = none ↔ assoc ds.groups name = none ∧
      ∀ d o, Op.put d o false ∈ ops → d.name = name → d.version ≠ ds.version
  | [], ds => by simp [run]
  | op :: r, ds => by
    simp only [run]
    rw [run_name (ops := r), step_name, step_version]
    constructor
    · rintro ⟨⟨h1, h2⟩, h3⟩
      refine ⟨h1, fun d o h => ?_⟩
      rcases List.mem_cons.mp h with e | h
      · exact h2 d o e.symm
      · exact h3 d o h
    · rintro ⟨h1, h2⟩
      exact ⟨⟨h1, fun d o e => h2 d o (e ▸ List.mem_cons_self ..)⟩, fun d o h => h2 d o (List.mem_cons_of_mem _ h)⟩

/-- **C34.** Reading an IDS of which nothing was put raises `DataEntryException`. -/
theorem C34_get_missing (f : Format B G) (version : Text) (ops : List (Op B)) (name : Text) (occ : Int)
    (hno : ∀ d o, Op.put d o false ∈ ops → d.name = name → d.version ≠ version) :
    get f (run f ⟨version, []⟩ ops) name occ false = .error .dataEntry := by
  have := run_name (f := f) (name := name) (ops := ops) (ds := ⟨version, []⟩)
  rw [NcStore.get, this.mpr ⟨rfl, hno⟩]
  rfl

/-- **C34.** Reading an occurrence to which nothing was put raises another exception, an `IndexError`, if something was put to another
occurrence of this IDS. -/
theorem C34_get_missing_occurrence (f : Format B G) (version : Text) (ops : List (Op B)) (hs : SmallOps ops)
    (name : Text) (occ : Int) (ho : Small occ) (hno : firstPut version name occ ops = none) {d : Doc B} {o : Int}
    (hp : Op.put d o false ∈ ops) (hd : d.name = name) (hv : d.version = version) :
    get f (run f ⟨version, []⟩ ops) name occ false = .error .index := by
  have h1 := C34_first_put_wins f version ops hs name occ ho
  rw [hno] at h1
  simp only [Option.map_none] at h1
  have h2 : assoc (run f ⟨version, []⟩ ops).groups name ≠ none := by
    rw [Ne, run_name]
    rintro ⟨-, h⟩
    exact h d o hp hd hv
  unfold findGroup at h1
  unfold NcStore.get
  cases h3 : assoc (run f ⟨version, []⟩ ops).groups name with
  | none => exact absurd h3 h2
  | some subs =>
    rw [h3] at h1
    simp only at h1
    simp [h1]

/-! ### Listing -/

theorem mem_insert {i j : Int} : ∀ {l : List Int}, j ∈ NcStore.insert i l ↔ j = i ∨ j ∈ l
  | [] => by simp [NcStore.insert]
  | k :: r => by
    unfold NcStore.insert
    split
    · simp
    · simp only [List.mem_cons, mem_insert (l := r)]
      constructor
      · rintro (h | h | h) <;> simp [h]
      · rintro (h | h | h) <;> simp [h]

theorem mem_sort {j : Int} : ∀ {l : List Int}, j ∈ sort l ↔ j ∈ l
  | [] => by simp [sort]
  | k :: r => by simp [sort, mem_insert, mem_sort (l := r)]

theorem increasing_insert {i : Int} : ∀ {l : List Int}, Increasing l → i ∉ l →
    Increasing (NcStore.insert i l)
  | [], _, _ => by simp [NcStore.insert, Increasing]
  | k :: r, h, hn => by
    unfold NcStore.insert
    simp only [List.mem_cons, not_or] at hn
    split
    · next hk =>
      refine ⟨?_, h⟩
      intro j hj
      rcases List.mem_cons.mp hj with rfl | hj
      · omega
      · have := h.1 j hj; omega
    · next hk =>
      refine ⟨?_, increasing_insert h.2 hn.2⟩
      intro j hj
      rcases mem_insert.mp hj with rfl | hj
      · omega
      · exact h.1 j hj

theorem increasing_sort : ∀ {l : List Int}, l.Nodup → Increasing (sort l)
  | [], _ => trivial
  | k :: r, h => by
    rw [List.nodup_cons] at h
    exact increasing_insert (increasing_sort h.2) (by rw [mem_sort]; exact h.1)

theorem assoc_mem {A : Type} : ∀ {l : List (Text × A)} {k : Text} {v : A}, assoc l k = some v →
    (k, v) ∈ l
  | [], _, _, h => by simp [assoc] at h
  | (n, u) :: r, k, v, h => by
    simp only [assoc] at h
    split at h
    · next e => simp at h; simp [h, e]
    · simp [assoc_mem h]

/-- **C34.** `list_all_occurrences` returns, in increasing order and without duplicates, exactly the
occurrences to which an IDS of this name was put (also if the put failed midway). -/
theorem C34_list_all_occurrences (f : Format B G) (version : Text) (ops : List (Op B))
    (hs : SmallOps ops) (name : Text) :
    Increasing (listAll (run f ⟨version, []⟩ ops) name) ∧
    ∀ occ, Small occ → (occ ∈ listAll (run f ⟨version, []⟩ ops) name ↔
      (firstPut version name occ ops).isSome = true) := by
  have hok : GroupsOk (run f (⟨version, []⟩ : Dataset G) ops) :=
    run_ok ops (by intro n s h; simp [assoc] at h) hs
  have hmain : ∀ occ, Small occ → ((findGroup (run f (⟨version, []⟩ : Dataset G) ops) name
      (showInt occ)).isSome = true ↔ (firstPut version name occ ops).isSome = true) := by
    intro occ ho
    rw [C34_first_put_wins f version ops hs name occ ho]
    simp
  unfold listAll
  cases ha : assoc (run f (⟨version, []⟩ : Dataset G) ops).groups name with
  | none =>
    refine ⟨trivial, ?_⟩
    intro occ ho
    rw [← hmain occ ho]
    simp [findGroup, ha]
  | some subs =>
    obtain ⟨h1, h2⟩ := hok _ _ ha
    simp only
    refine ⟨increasing_sort ?_, ?_⟩
    · clear ha hmain
      induction subs with
      | nil => simp
      | cons s r ih =>
        simp only [List.map_cons, List.nodup_cons] at h2
        obtain ⟨i, hi, he⟩ := h1 s (by simp)
        have hp : pyInt s.1 = some i := by rw [he]; exact pyInt_showInt hi
        simp only [List.filterMap_cons, hp]
        rw [List.nodup_cons]
        refine ⟨?_, ih (fun x hx => h1 x (by simp [hx])) h2.2⟩
        intro hm
        simp only [List.mem_filterMap] at hm
        obtain ⟨a, ham, hpa⟩ := hm
        obtain ⟨j, hj, hej⟩ := h1 a (by simp [ham])
        rw [hej, pyInt_showInt hj] at hpa
        have : j = i := by simpa using hpa
        subst this
        apply h2.1
        rw [he, ← hej]
        exact List.mem_map_of_mem ham
    · intro occ ho
      rw [← hmain occ ho, mem_sort]
      simp only [findGroup, ha, List.mem_filterMap]
      constructor
      · rintro ⟨a, ham, hpa⟩
        obtain ⟨j, hj, hej⟩ := h1 a ham
        rw [hej, pyInt_showInt hj] at hpa
        have : j = occ := by simpa using hpa
        subst this
        cases hc : assoc subs (showInt j) with
        | some g => rfl
        | none =>
          have := assoc_none.mp hc
          exact absurd (hej ▸ List.mem_map_of_mem ham) this
      · intro h
        obtain ⟨g, hg⟩ := Option.isSome_iff_exists.mp h
        exact ⟨_, assoc_mem hg, pyInt_showInt ho⟩

/-- **C34, limit.** A put that fails midway leaves its group behind: it is listed, and every later
put to this place is refused. -/
theorem C34_failed_put_blocks (f : Format B G) (ds : Dataset G) (d d' : Doc B) (occ : Int)
    (x : Exc) (hv : d.version = ds.version) (hnew : findGroup ds d.name (showInt occ) = none)
    (hw : (f.write (f.note ds.version d.body)).2 = some x) (hn : d'.name = d.name) :
    (put f ds d occ false).2 = .error x ∧
    (put f (put f ds d occ false).1 d' occ false).2 = .error .runtime := by
  have key := findGroup_add (g := (f.write (f.note ds.version d.body)).1) hnew
    (name' := d.name) (occ' := showInt occ)
  simp only [and_self, if_true] at key
  have hput : put f ds d occ false = ({ ds with
      groups := addGroup ds.groups d.name (showInt occ) (f.write (f.note ds.version d.body)).1 },
      .error x) := by
    simp [put, hv, hnew, hw]
  rw [hput]
  refine ⟨rfl, ?_⟩
  rw [((C34_refused f _ d' occ []).1 _ (by rw [hn]; exact key))]

/-- A store of numbers; odd numbers cannot be written completely. -/
def sampleFormat : Format Nat Nat where
  note _ b := b
  write b := if b % 2 = 0 then (b, none) else (0, some (.other 1))
  read g := .ok g

def sampleOps : List (Op Nat) :=
  [.put ⟨"a".toList, "3".toList, 4⟩ 12 false, .put ⟨"a".toList, "3".toList, 6⟩ 12 false,
   .put ⟨"a".toList, "3".toList, 7⟩ 2 false, .put ⟨"b".toList, "4".toList, 8⟩ 0 false,
   .delete "a".toList 12]

example : SmallOps sampleOps := by
  simp only [sampleOps, SmallOps, Small, and_true]
  refine ⟨?_, ?_, ?_, ?_⟩ <;> decide

example : listAll (run sampleFormat ⟨"3".toList, []⟩ sampleOps) "a".toList = [2, 12] := by
  with_unfolding_all decide
example : firstPut "3".toList "a".toList 12 sampleOps = some 4 := by decide

/-- The hypotheses of `C34_get_missing_occurrence`. -/
example : firstPut "3".toList "a".toList 7 sampleOps = none ∧ ∃ d o, Op.put d o false ∈ sampleOps ∧ d.name = "a".toList ∧
    d.version = "3".toList := by
  refine ⟨by decide, ?_⟩
  exact ⟨_, _, List.mem_cons_self .., by decide, by decide⟩

end Verif.Props
