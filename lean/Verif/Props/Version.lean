import Verif.Model.Version
/-! C46: selecting a Data Dictionary version. -/
namespace Verif.Props
open Verif.Version

variable {T : Type}

/-- The external package lists exactly the versions it can load. -/
def Consistent (w : World T) : Prop := ∀ v, v ∈ w.available ↔ (w.bundled v).isSome = true

theorem cacheGet_mem {c : Cache T} {k : Key} {t : T} (h : cacheGet c k = some t) : (k, t) ∈ c := by
  induction c with
  | nil => simp [cacheGet] at h
  | cons e c ih =>
    obtain ⟨k', t'⟩ := e
    simp only [cacheGet] at h
    split at h
    · next e => simp at h; subst h; subst e; simp
    · simp [ih h]

/-- Invariant of the cache over a history of file contents: bundled definitions are right, and
a file entry is what the file held at some time of the history. -/
def CacheInv (w : World T) (files : List (Text → Option T)) (c : Cache T) : Prop :=
  ∀ k t, (k, t) ∈ c →
    (∀ v, k = .bundled v → w.bundled v = some t) ∧
    (∀ p, k = .file p → ∃ f ∈ files, f p = some t)

theorem cachePut_inv {w : World T} {files : List (Text → Option T)} {c : Cache T} {k : Key} {t : T}
    (h : CacheInv w files c)
    (hk : (∀ v, k = .bundled v → w.bundled v = some t) ∧
      (∀ p, k = .file p → ∃ f ∈ files, f p = some t)) :
    CacheInv w files (cachePut c k t) := by
  intro k' t' hm
  have := List.mem_of_mem_take hm
  rcases List.mem_cons.mp this with e | hm'
  · cases e; exact hk
  · exact h k' t' (List.mem_filter.mp hm').1

theorem load_inv {w : World T} {files : List (Text → Option T)} {c : Cache T} {k : Key}
    (h : CacheInv w files c) (f : Text → Option T) (hf : f ∈ files) :
    CacheInv w files (loadCached { w with file := f } c k).1 ∧
    ∀ t, (loadCached { w with file := f } c k).2 = .ok t →
      (∀ v, k = .bundled v → w.bundled v = some t) ∧
      (∀ p, k = .file p → ∃ f ∈ files, f p = some t) := by
  unfold loadCached
  cases hg : cacheGet c k with
  | some t =>
    have hk := h k t (cacheGet_mem hg)
    refine ⟨cachePut_inv h hk, ?_⟩
    intro t' ht; simp at ht; subst ht; exact hk
  | none =>
    simp only
    cases hl : load { w with file := f } k with
    | error e => exact ⟨h, by simp⟩
    | ok t =>
      have hk : (∀ v, k = .bundled v → w.bundled v = some t) ∧
          (∀ p, k = .file p → ∃ f ∈ files, f p = some t) := by
        cases k with
        | bundled v =>
          simp only [load] at hl
          split at hl
          · next t' ht => simp at hl; subst hl; exact ⟨fun v' e => by cases e; exact ht, by simp⟩
          · simp at hl
        | file p =>
          simp only [load] at hl
          split at hl
          · next t' ht => simp at hl; subst hl; exact ⟨by simp, fun p' e => by cases e; exact ⟨f, hf, ht⟩⟩
          · simp at hl
      exact ⟨cachePut_inv h hk, fun t' ht => by simp at ht; subst ht; exact hk⟩

theorem factory_cache {stated : T → Option Text} {w : World T} {env : Env} {c : Cache T}
    {v x : Option Text} : (newFactory stated w env c v x).1 = (ddEtree w env c v x).1 := by
  unfold newFactory
  cases h : ddEtree w env c v x with
  | mk c' r =>
    cases r with
    | error e => rfl
    | ok t =>
      simp only
      cases truthy v with
      | none => rfl
      | some u => simp only; split <;> split <;> rfl

theorem calls_inv {stated : T → Option Text} {w : World T} :
    ∀ (h : List (Call T)) {files : List (Text → Option T)} {c : Cache T}, CacheInv w files c →
    CacheInv w (files ++ h.map (·.file)) (calls stated w c h) := by
  intro h
  induction h with
  | nil => intro files c hc; simpa [calls] using hc
  | cons a r ih =>
    intro files c hc
    simp only [calls, List.map_cons]
    have hc' : CacheInv w (files ++ [a.file]) c := fun k t hm =>
      ⟨(hc k t hm).1, fun p hp => by
        obtain ⟨f, hf, hv⟩ := (hc k t hm).2 p hp; exact ⟨f, by simp [hf], hv⟩⟩
    have : CacheInv w (files ++ [a.file])
        (newFactory stated { w with file := a.file } a.env c a.version a.xmlPath).1 := by
      rw [factory_cache]
      unfold ddEtree
      cases select { w with file := a.file } a.env a.version a.xmlPath with
      | error e => exact hc'
      | ok k => exact (load_inv hc' a.file (by simp)).1
    have := ih this
    simpa using this

/-- **C46.** After any history of factory constructions, requesting a version by name gives a
factory for exactly that bundled definition and version, or an error: `UnknownDDVersion`
exactly if the version is not available (or `RuntimeError` if the bundled file states another
version). -/
theorem C46_explicit_version (stated : T → Option Text) (w : World T) (hw : Consistent w)
    (hist : List (Call T)) (env : Env) (v : Text) (hv : v ≠ []) :
    match (newFactory stated w env (calls stated w [] hist) (some v) none).2 with
    | .ok f => f.version = v ∧ v ∈ w.available ∧ w.bundled v = some f.etree
    | .error e => (e = .unknownVersion ∧ v ∉ w.available) ∨
        (e = .runtime ∧ ∃ t s, w.bundled v = some t ∧ stated t = some s ∧ s ≠ v) := by
  have hinv := calls_inv (stated := stated) (w := w) hist (files := []) (c := [])
    (by intro k t h; simp at h)
  have hinv' : CacheInv w ([] ++ hist.map (·.file) ++ [w.file]) (calls stated w [] hist) :=
    fun k t hm => ⟨(hinv k t hm).1, fun p hp => by
      obtain ⟨f, hf, hv⟩ := (hinv k t hm).2 p hp; exact ⟨f, by simp at hf; simp [hf], hv⟩⟩
  have ht : truthy (some v) = some v := by
    cases v with
    | nil => exact absurd rfl hv
    | cons a l => rfl
  have hl := (load_inv (k := .bundled v) hinv' w.file (by simp)).2
  have tn : truthy none = none := rfl
  have hsel : select w env (some v) none = .ok (.bundled v) := by
    simp only [select, ht, tn]
  unfold newFactory ddEtree
  simp only [hsel, ht]
  change ∀ t, (loadCached w _ _).2 = .ok t → _ at hl
  cases hld : loadCached w (calls stated w [] hist) (.bundled v) with
  | mk c' r =>
    rw [hld] at hl
    cases r with
    | error e =>
      simp only
      left
      unfold loadCached at hld
      cases hg : cacheGet (calls stated w [] hist) (.bundled v) with
      | some t => rw [hg] at hld; simp at hld
      | none =>
        rw [hg] at hld
        simp only [load] at hld
        cases hb : w.bundled v with
        | some t => rw [hb] at hld; simp at hld
        | none =>
          rw [hb] at hld; simp at hld
          refine ⟨hld.2.symm, fun hm => ?_⟩
          have := (hw v).mp hm
          rw [hb] at this; simp at this
    | ok t =>
      have hb := (hl t rfl).1 v rfl
      have hav : v ∈ w.available := (hw v).mpr (by rw [hb]; rfl)
      simp only
      cases hs : stated t with
      | none => simp [hb, hav]
      | some s =>
        simp only
        by_cases e : v = s
        · subst e; simp [hb, hav]
        · rw [if_pos e]
          exact .inr ⟨rfl, t, s, hb, hs, fun h => e h.symm⟩

/-- **C46.** The order in which the definition is chosen: explicit arguments, which exclude
each other; then the version named by `IMAS_VERSION` if it is bundled; then the file under
`IMAS_PREFIX` if `IMAS_VERSION` is set but not bundled; then the last listed version. -/
theorem C46_selection_order (w : World T) (env : Env) (v p : Text) (hv : v ≠ []) (hp : p ≠ []) :
    select w env (some v) (some p) = .error .value ∧
    select w env (some v) none = .ok (.bundled v) ∧
    select w env none (some p) = .ok (.file p) ∧
    (env.imasVersion = some v → v ∈ w.available → select w env none none = .ok (.bundled v)) ∧
    (∀ d, env.imasVersion = some v → v ∉ w.available → env.imasPrefix = some d →
      (w.file (w.defFile d)).isSome = true →
      select w env none none = .ok (.file (w.defFile d))) ∧
    (∀ l u, w.available = l ++ [u] →
      env.imasVersion = none ∨ (env.imasVersion = some v ∧ v ∉ w.available ∧
        (env.imasPrefix = none ∨ ∃ d, env.imasPrefix = some d ∧
          (w.file (w.defFile d)).isSome = false)) →
      select w env none none = .ok (.bundled u)) := by
  have tv : truthy (some v) = some v := by
    cases v with
    | nil => exact absurd rfl hv
    | cons a l => rfl
  have tp : truthy (some p) = some p := by
    cases p with
    | nil => exact absurd rfl hp
    | cons a l => rfl
  have tn : truthy none = none := rfl
  refine ⟨?_, ?_, ?_, ?_, ?_, ?_⟩
  · simp only [select, tv, tp]
  · simp only [select, tv, tn]
  · simp only [select, tn, tp]
  · intro h1 h2
    simp only [select, tn, fromEnv, h1, if_pos h2, tv, Option.map_some]
  · intro d h1 h2 h3 h4
    simp only [select, tn, fromEnv, h1, if_neg h2, h3, if_pos h4]
  · intro l u hl h
    have hlat : latest w.available = .ok u := by simp [latest, hl]
    rcases h with h | ⟨h1, h2, h3 | ⟨d, h3, h4⟩⟩
    · simp only [select, tn, fromEnv, h, hlat]
    · simp only [select, tn, fromEnv, h1, if_neg h2, h3, hlat]
    · simp only [select, tn, fromEnv, h1, if_neg h2, h3, h4, hlat]
      simp

/-- **C46.** The default is the newest available version, for any order in which the external
package lists the versions. -/
theorem C46_default_is_newest (w : World T) (env : Env) (he : env.imasVersion = none)
    (le : Text → Text → Prop) (hr : ∀ v, le v v) (hs : w.available.Pairwise le)
    (hne : w.available ≠ []) :
    ∃ u, select w env none none = .ok (.bundled u) ∧ u ∈ w.available ∧ ∀ v ∈ w.available, le v u := by
  have hl : w.available = w.available.dropLast ++ [w.available.getLast hne] :=
    (List.dropLast_concat_getLast hne).symm
  refine ⟨w.available.getLast hne, ?_, List.getLast_mem hne, ?_⟩
  · have hlat : latest w.available = .ok (w.available.getLast hne) := by
      simp [latest, List.getLast?_eq_some_getLast hne]
    simp only [select, truthy, fromEnv, he, hlat]
  · intro v hv
    rw [hl] at hs hv
    rw [List.pairwise_append] at hs
    rcases List.mem_append.mp hv with h | h
    · exact hs.2.2 v h _ (by simp)
    · simp at h; rw [h]; exact hr _

/-- **C46**, where it falls short: a definition file that changed after it was loaded is not
read again, the factory still has the old contents. -/
theorem C46_changed_file_not_reloaded (stated : T → Option Text) (w : World T) (env : Env)
    (p : Text) (hp : p ≠ []) (old : T) (hf : w.file p = some old) (later : Text → Option T) :
    (newFactory stated { w with file := later } env
      (newFactory stated w env [] none (some p)).1 none (some p)).2.map Factory.etree = .ok old := by
  have tp : truthy (some p) = some p := by
    cases p with
    | nil => exact absurd rfl hp
    | cons a l => rfl
  have tn : truthy none = none := rfl
  have hs : ∀ w' : World T, select w' env none (some p) = .ok (.file p) := fun w' => by
    simp only [select, tp, tn]
  have h1 : (newFactory stated w env [] none (some p)).1 = [(.file p, old)] := by
    rw [factory_cache]
    simp [ddEtree, hs, loadCached, cacheGet, load, hf, cachePut, cacheSize]
  rw [h1]
  simp [newFactory, ddEtree, hs, tn, loadCached, cacheGet, Except.map]

/-- Two bundled versions for the examples. -/
def sampleWorld : World Nat where
  available := ["3.39.0".toList, "4.0.0".toList]
  bundled v := if v = "3.39.0".toList then some 3 else if v = "4.0.0".toList then some 4 else none
  file _ := none
  defFile p := p

example : Consistent sampleWorld := by
  intro v
  simp only [sampleWorld, List.mem_cons, List.not_mem_nil, or_false]
  by_cases h1 : v = "3.39.0".toList
  · simp [h1]
  · by_cases h2 : v = "4.0.0".toList
    · subst h2; simp
    · rw [if_neg h1, if_neg h2]
      exact ⟨fun h => h.elim (absurd · h1) (absurd · h2), fun h => absurd h (by simp)⟩
example : (newFactory (fun _ => none) sampleWorld ⟨none, none⟩ [] (some "4.0.0".toList) none).2.map
    (fun f => (f.etree, f.version)) = .ok (4, "4.0.0".toList) := by rfl
example : select sampleWorld ⟨some "9".toList, none⟩ none none = .ok (.bundled "4.0.0".toList) := by rfl

end Verif.Props
