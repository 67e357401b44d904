import Verif.Lemmas.NcLazy
import Verif.Lemmas.NcLayout
/-
Lazy reading of netCDF groups (C32).
-/
namespace Verif.Props
open Verif.Ids Verif.Nc Verif.NcSpec Verif.TreeSpec
open Verif.ConvertSpec (metaAt)
open Verif.AlSpec (arraysOf IsDataPath)

variable {S : Type} [DecidableEq S]

theorem aligned_same {m : MFields} : Aligned m m some where
  kind p q x hp hx hs h := by
    cases h
    refine ⟨hp, x, hx, ?_⟩
    cases x <;> simp_all [SameKind, IsStruct]
  inj p p' q _ _ h h' := by cases h; cases h'; rfl
  arrays p q _ h := by cases h; rfl

/-- What a read has found out before data are read. -/
theorem reads {R : Reader S} {b : Bool} {c : Fields (Arr S)} (h : readIds R b = .ok c) :
    ∃ hom, readVars R hom R.group.names R.target.fresh = .ok c ∧
      ∀ lm, lazyMap R R.group.names [] = .ok lm → readLazy R b = .ok (hom, lm) := by
  unfold readIds at h
  unfold readLazy
  split at h
  · cases h
  · rename_i hom hh
    refine ⟨hom, ?_⟩
    split at h
    · cases h
    · refine ⟨h, ?_⟩
      intro lm hlm
      rw [hlm]

/-- C32: if an eager read succeeds, a lazy read does, and after any accesses, each access shows what the eager read gives. Data
stored in another Data Dictionary version: if arrays of structures that are not sparse have the same path there. -/
theorem C32_lazy_conversion {R : Reader S} {I : Info} {fuel : Nat} (hw : WFMFields R.stored) (hN : ncMetadata fuel I R.stored = .ok R.N)
    (hg : NamesOk R.group) (ha : Aligned R.stored R.target (targetOf R.map))
    (hs : ∀ p q v, (∃ c, metaAt (.struct R.stored) p = some (.aos c)) → targetOf R.map p = some q →
      dget R.group.vars p = some v → v.sparse = true ∨ p = q)
    {b : Bool} {c : Fields (Arr S)} (h : readIds R b = .ok c) :
    ∃ hom lm, readLazy R b = .ok (hom, lm) ∧ ∀ accesses p i,
      SameResult (look c p i) (lazyGet R hom lm [] [] p i (lazyGets R hom lm accesses R.target.fresh)).2 := by
  obtain ⟨hom, h1, h2⟩ := reads h
  obtain ⟨lm, h3⟩ := lazyMap_success (l := []) h1
  refine ⟨hom, lm, h2 lm h3, ?_⟩
  have hc := eager ha hg h1
  have hlm : LazyMapOk R R.group.names lm := by
    have := lazyMap_ok ha (D := []) (fun q p => by simp [dget]) h3
    simpa using this
  obtain ⟨own, hl⟩ := layout hw hN hom
  have he := eagerAs (lm := lm) ha (fun p hp => by
      have hp0 := isDataPath_ne hp
      obtain ⟨x, hx, -⟩ := hp
      exact hl.aos p x hp0 hx) (fun p q v h4 h5 h6 h7 => by
    rcases hs p q v h4 h5 h6 with h8 | rfl
    · rw [h7] at h8; cases h8
    · rfl) hc hlm
  intro acc q j
  obtain ⟨h4, h5⟩ := lazyGets_ok hc.typed he acc (typed_freshF R.target) (loaded_fresh [] [] R.target)
  exact (lazyGet_ok q (j := j) h4 hc.typed h5 he).2.2

/-- C32: the same for data of the same Data Dictionary version. -/
theorem C32_lazy {R : Reader S} {I : Info} {fuel : Nat} (hw : WFMFields R.stored) (hN : ncMetadata fuel I R.stored = .ok R.N)
    (hg : NamesOk R.group) (hm : R.map = none) (ht : R.target = R.stored) {b : Bool} {c : Fields (Arr S)} (h : readIds R b = .ok c) :
    ∃ hom lm, readLazy R b = .ok (hom, lm) ∧ ∀ accesses p i,
      SameResult (look c p i) (lazyGet R hom lm [] [] p i (lazyGets R hom lm accesses R.target.fresh)).2 := by
  have hto : targetOf R.map = some := by rw [hm]; rfl
  refine C32_lazy_conversion hw hN hg (by rw [hto, ht]; exact aligned_same) ?_ h
  intro p q v _ h2 _
  rw [hto] at h2
  cases h2
  exact .inr rfl

/-! ### Examples -/

def dataScalars : Scalars Int where
  fill
    | .int => -999999999
    | _ => 7777
  unset := 0
  int := some

def dataTexts : Texts where
  documentation _ := []
  units p := if p = [ncName "time"] then ['s'] else []

/-- Data with a time base, and arrays of structures with different numbers of elements. -/
def dataMeta : MFields :=
  .cons (ncName "ids_properties") (.struct (.cons (ncName "homogeneous_time") (ncLeaf .int 0) .nil)) <|
  .cons (ncName "channel") (.aos <|
    .cons (ncName "name") (ncLeaf .str 0) <|
    .cons (ncName "data") (ncLeaf .flt 1) <|
    .cons (ncName "part") (.aos (.cons (ncName "x") (ncLeaf .flt 0) .nil)) .nil) <|
  .cons (ncName "time") (ncLeaf .flt 1) .nil

def dataInfo : Info where
  refs p _ := if p = [ncName "channel", ncName "data"] then [[ncName "time"]] else []
  time _ _ := false
  sameAs _ _ := []
  alternative _ := []

def dataNode (t : BaseType) (n : Nat) (v : Arr Int) : Node (Arr Int) := .leaf ⟨t, n, false⟩ (some v)

def dataPart (v : Option (Arr Int)) : Fields (Arr Int) := .present (ncName "x") (.leaf ⟨.flt, 0, false⟩ v) .nil

def dataTree : Fields (Arr Int) :=
  .present (ncName "ids_properties") (.struct (.present (ncName "homogeneous_time") (dataNode .int 0 (.scalar 1)) .nil)) <|
  .present (ncName "channel") (.aos
    (.cons (ncName "name") (ncLeaf .str 0) <|
    .cons (ncName "data") (ncLeaf .flt 1) <|
    .cons (ncName "part") (.aos (.cons (ncName "x") (ncLeaf .flt 0) .nil)) .nil)
    (.cons
      (.present (ncName "name") (dataNode .str 0 (.scalar 11)) <|
      .present (ncName "data") (dataNode .flt 1 (.vec [1, 2])) <|
      .present (ncName "part") (.aos (.cons (ncName "x") (ncLeaf .flt 0) .nil) (.cons (dataPart none) (.cons (dataPart (some (.scalar 5))) .nil))) .nil)
    (.cons
      (.absent (ncName "name") (ncLeaf .str 0) <|
      .present (ncName "data") (dataNode .flt 1 (.vec [3])) <|
      .present (ncName "part") (.aos (.cons (ncName "x") (ncLeaf .flt 0) .nil) (.cons (dataPart (some (.scalar 6))) .nil)) .nil) .nil))) <|
  .present (ncName "time") (dataNode .flt 1 (.vec [8, 9])) .nil

/-- An element of the data found at a node. -/
def elemOf {S : Type} (o : Option (Node (Arr S))) (i : List Nat) : Option S :=
  match o with
  | some (.leaf _ (some v)) => v.get i
  | _ => none

def sizeOf' {V : Type} (o : Option (Node V)) : Option Nat :=
  match o with
  | some (.aos _ e) => some e.length
  | _ => none

def dataReader (N : NcMeta) (g : Group Int) : Reader Int where
  sc := dataScalars
  tx := dataTexts
  N := N
  stored := dataMeta
  target := dataMeta
  map := none
  group := g

/-- Writes the tree and reads it back. -/
def dataBack : Option (NcMeta × Group Int × Fields (Arr Int)) :=
  match ncMetadata 10 dataInfo dataMeta with
  | .error _ => none
  | .ok N =>
    match writeIds dataScalars dataTexts N dataMeta dataTree with
    | .error _ => none
    | .ok g =>
      match readIds (dataReader N g) true with
      | .error _ => none
      | .ok c => some (N, g, c)

theorem dataBack_some : ∃ N g c, dataBack = some (N, g, c) := by
  have h : dataBack.isSome = true := by decide +kernel
  cases hb : dataBack with
  | none => rw [hb] at h; cases h
  | some x => exact ⟨x.1, x.2.1, x.2.2, rfl⟩

theorem dataBack_ok {N : NcMeta} {g : Group Int} {c : Fields (Arr Int)} (h : dataBack = some (N, g, c)) :
    ncMetadata 10 dataInfo dataMeta = .ok N ∧ writeIds dataScalars dataTexts N dataMeta dataTree = .ok g ∧
      readIds (dataReader N g) true = .ok c := by
  unfold dataBack at h
  split at h
  · cases h
  · rename_i N' hN
    split at h
    · cases h
    · rename_i g' hg
      split at h
      · cases h
      · rename_i c' hc
        cases h
        exact ⟨hN, hg, hc⟩

def dataTest (f : NcMeta → Group Int → Fields (Arr Int) → Bool) : Bool :=
  match dataBack with
  | none => false
  | some (N, g, c) => f N g c

theorem dataTest_ok {f : NcMeta → Group Int → Fields (Arr Int) → Bool} (h : dataTest f = true) {N : NcMeta} {g : Group Int}
    {c : Fields (Arr Int)} (hb : dataBack = some (N, g, c)) : f N g c = true := by
  unfold dataTest at h
  rw [hb] at h
  exact h

def namesTest (g : Group Int) : Bool :=
  decide (g.vars.map (·.1)).Nodup && decide (g.shapes.map (·.1)).Nodup && !(g.vars.map (·.1)).contains [] &&
    !(g.shapes.map (·.1)).contains []

theorem namesTest_ok {g : Group Int} (h : namesTest g = true) : NamesOk g := by
  simp only [namesTest, Bool.and_eq_true, decide_eq_true_eq, Bool.not_eq_true', List.contains_eq_mem, decide_eq_false_iff_not] at h
  exact ⟨h.1.1.1, h.1.1.2, h.1.2, h.2⟩

/-- The hypotheses of `C32_lazy` are met for data with sparse variables: an eager read gives these nodes, and so do lazy
reads. -/
example : ∃ (N : NcMeta) (g : Group Int) (c : Fields (Arr Int)), WFMFields dataMeta ∧ ncMetadata 10 dataInfo dataMeta = .ok N ∧
    NamesOk g ∧ readIds (dataReader N g) true = .ok c ∧ g.vars.any (·.2.sparse) = true ∧
    elemOf (look c [ncName "channel", ncName "part", ncName "x"] [1, 0]) [] = some 6 ∧
    sizeOf' (look c [ncName "channel", ncName "part"] [0]) = some 2 ∧
    elemOf (look c [ncName "channel", ncName "part", ncName "x"] [0, 0]) [] = none := by
  obtain ⟨N, g, c, hb⟩ := dataBack_some
  obtain ⟨h1, h2, h3⟩ := dataBack_ok hb
  refine ⟨N, g, c, ?_, h1, namesTest_ok ?_, h3, ?_, ?_, ?_, ?_⟩
  · simp only [WFMFields, WFMeta, dataMeta, ncLeaf, mnames]
    decide +kernel
  · exact dataTest_ok (f := fun N g c => namesTest g) (by decide +kernel) hb
  · exact dataTest_ok (f := fun N g c => g.vars.any (·.2.sparse)) (by decide +kernel) hb
  · have := dataTest_ok (f := fun N g c => elemOf (look c [ncName "channel", ncName "part", ncName "x"] [1, 0]) [] = some 6) (by decide +kernel) hb
    simpa using this
  · have := dataTest_ok (f := fun N g c => sizeOf' (look c [ncName "channel", ncName "part"] [0]) = some 2) (by decide +kernel) hb
    simpa using this
  · have := dataTest_ok (f := fun N g c => elemOf (look c [ncName "channel", ncName "part", ncName "x"] [0, 0]) [] = none) (by decide +kernel) hb
    simpa using this

/-! ### Renamed arrays of structures -/

def movedStored : MFields :=
  .cons (ncName "ids_properties") (.struct (.cons (ncName "homogeneous_time") (ncLeaf .int 0) .nil)) <|
  .cons (ncName "old") (.aos (.cons (ncName "x") (ncLeaf .flt 0) .nil)) .nil

def movedTarget : MFields :=
  .cons (ncName "ids_properties") (.struct (.cons (ncName "homogeneous_time") (ncLeaf .int 0) .nil)) <|
  .cons (ncName "new") (.aos (.cons (ncName "x") (ncLeaf .flt 0) .nil)) .nil

def movedInfo : Info where
  refs _ _ := []
  time _ _ := false
  sameAs _ _ := []
  alternative _ := []

def movedTree : Fields (Arr Int) :=
  .present (ncName "ids_properties") (.struct (.present (ncName "homogeneous_time") (dataNode .int 0 (.scalar 0)) .nil)) <|
  .present (ncName "old") (.aos (.cons (ncName "x") (ncLeaf .flt 0) .nil)
    (.cons (dataPart (some (.scalar 5))) (.cons (dataPart (some (.scalar 6))) .nil))) .nil

def movedMap : NcMap where
  path p :=
    if p = [ncName "old"] then some (some [ncName "new"])
    else if p = [ncName "old", ncName "x"] then some (some [ncName "new", ncName "x"])
    else none
  change _ := false

def movedReader (N : NcMeta) (g : Group Int) : Reader Int where
  sc := dataScalars
  tx := dataTexts
  N := N
  stored := movedStored
  target := movedTarget
  map := some movedMap
  group := g

def movedTest (f : Reader Int → Fields (Arr Int) → Bool → List (Path × Path) → Bool) : Bool :=
  match ncMetadata 10 movedInfo movedStored with
  | .error _ => false
  | .ok N =>
    match writeIds dataScalars dataTexts N movedStored movedTree with
    | .error _ => false
    | .ok g =>
      match readIds (movedReader N g) true, readLazy (movedReader N g) true with
      | .ok c, .ok (hom, lm) => f (movedReader N g) c hom lm
      | _, _ => false

/-- C32, limit: an array of structures renamed since the data were written (and not sparse) is read eagerly, and cannot be read
lazily: `LazyContext.get_child` asks the metadata of the stored version for the dimensions of the new path (nc2ids.py 341-345). -/
theorem C32_renamed_array_limit : ∃ (R : Reader Int) (I : Info) (c : Fields (Arr Int)) (hom : Bool) (lm : List (Path × Path))
    (e : NcErr), ncMetadata 10 I R.stored = .ok R.N ∧ readIds R true = .ok c ∧ readLazy R true = .ok (hom, lm) ∧
    sizeOf' (look c [ncName "new"] []) = some 2 ∧ (lazyGet R hom lm [] [] [ncName "new"] [] R.target.fresh).2 = .error e := by
  have h : movedTest (fun R c hom lm => sizeOf' (look c [ncName "new"] []) = some 2 &&
      (match (lazyGet R hom lm [] [] [ncName "new"] [] R.target.fresh).2 with
        | .error _ => true
        | .ok _ => false)) = true := by decide +kernel
  unfold movedTest at h
  split at h
  · cases h
  · rename_i N hN
    split at h
    · cases h
    · rename_i g hg
      split at h
      · rename_i c hom lm hc hl
        simp only [Bool.and_eq_true, decide_eq_true_eq] at h
        obtain ⟨h1, h2⟩ := h
        split at h2
        · rename_i e he
          exact ⟨movedReader N g, movedInfo, c, hom, lm, e, hN, hc, hl, h1, he⟩
        · cases h2
      · cases h

end Verif.Props
