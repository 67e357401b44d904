import Verif.Props.VersionMap
import Verif.Props.Convert
/-
C56: nodes that are obsolete in DD 3.42 are converted to DD4 like in DD 3.41.
-/
namespace Verif.Props
open Verif.Ids Verif.VMap Verif.VMapSpec

/-- The DD3 to DD4 rules for names, identifiers and `ids_properties/source` do not concern this path. -/
structure NoRule (d : Dicts) (p : Path) : Prop where
  source : p ≠ ["ids_properties".toList, "source".toList]
  name : ∀ g, p = g ++ ["name".toList] → ∀ o ∈ d.old, o.path = g ++ ["identifier".toList] →
    ∃ o ∈ d.old, o.path = g ++ ["index".toList]
  identifier : ∀ g, p = g ++ ["identifier".toList] → ∀ o ∈ d.old, o.path = g ++ ["name".toList] →
    ∃ o ∈ d.old, o.path = g ++ ["index".toList]

theorem lookup_append {A B : Type} [BEq A] (l l' : List (A × B)) (a : A) :
    (l ++ l').lookup a = (l.lookup a).or (l'.lookup a) := by
  induction l with
  | nil => rfl
  | cons x l ih =>
    obtain ⟨k, v⟩ := x
    simp only [List.cons_append, List.lookup_cons]
    cases a == k <;> simp [ih]

theorem lookup_all {A B : Type} [BEq A] [LawfulBEq A] {l : List (A × B)} {a : A} {v : B}
    (h : ∀ x ∈ l, x.1 = a → x.2 = v) (hm : ∃ x ∈ l, x.1 = a) : l.lookup a = some v := by
  induction l with
  | nil => obtain ⟨_, h, -⟩ := hm; cases h
  | cons x l ih =>
    obtain ⟨k, w⟩ := x
    rw [List.lookup_cons]
    by_cases e : a = k
    · subst e
      have := h (a, w) (.head _) rfl
      simp only at this
      subst this
      simp
    · rw [show (a == k) = false by simpa using e]
      obtain ⟨y, hy, e'⟩ := hm
      cases hy with
      | head => exact absurd e'.symm e
      | tail _ hy => exact ih (fun x hx => h x (.tail _ hx)) ⟨y, hy, e'⟩

theorem lookup_no {A B : Type} [BEq A] [LawfulBEq A] {l : List (A × B)} {a : A}
    (h : ∀ x ∈ l, x.1 ≠ a) : l.lookup a = none := by
  induction l with
  | nil => rfl
  | cons x l ih =>
    obtain ⟨k, w⟩ := x
    rw [List.lookup_cons, show (a == k) = false by simpa using fun e : a = k => h _ (.head _) e.symm]
    exact ih fun x hx => h x (.tail _ hx)

theorem lookup_key {A B : Type} [BEq A] [LawfulBEq A] {l : List (A × B)} {a : A} {v : B}
    (h : l.lookup a = some v) : a ∈ l.map (·.1) := by
  induction l with
  | nil => cases h
  | cons x l ih =>
    obtain ⟨k, w⟩ := x
    rw [List.lookup_cons] at h
    by_cases e : a = k
    · subst e; exact .head _
    · rw [show (a == k) = false by simpa using e] at h
      exact .tail _ (ih h)

theorem nameRule_keeps {m : Maps} {g p : Path} (h1 : p ≠ g ++ [nName]) (h2 : p ≠ g ++ [nIdentifier]) :
    (nameRule m g).toNew.lookup p = m.toNew.lookup p := by
  have e1 : (p == g ++ [nName]) = false := by simpa using h1
  have e2 : (p == g ++ [nIdentifier]) = false := by simpa using h2
  unfold nameRule
  simp only
  split <;> split <;> simp [addRename, List.lookup_cons, e1, e2]

theorem nameRules_keeps (d : Dicts) (m : Maps) {p : Path}
    (hN : ∀ g, p = g ++ ["name".toList] → ∀ o ∈ d.old, o.path = g ++ ["identifier".toList] →
      ∃ o ∈ d.old, o.path = g ++ ["index".toList])
    (hI : ∀ g, p = g ++ ["identifier".toList] → ∀ o ∈ d.old, o.path = g ++ ["name".toList] →
      ∃ o ∈ d.old, o.path = g ++ ["index".toList]) :
    (nameRules d m).toNew.lookup p = m.toNew.lookup p := by
  unfold nameRules
  suffices ∀ l : List Path, (∀ g ∈ l, p ≠ g ++ [nName] ∧ p ≠ g ++ [nIdentifier]) → ∀ m : Maps,
      (l.foldl nameRule m).toNew.lookup p = m.toNew.lookup p by
    refine this _ (fun g hg => ?_) m
    obtain ⟨f, hf, e⟩ := List.mem_filterMap.1 hg
    unfold nameParent at e
    split at e
    · cases e
    · next n hn =>
      simp only at e
      split at e
      · next hc =>
        cases e
        simp only [Bool.and_eq_true, decide_eq_true_eq, Option.isSome_iff_exists,
          Option.isNone_iff_eq_none] at hc
        obtain ⟨⟨⟨⟨⟨h1, h2⟩, ⟨o, h3⟩⟩, h4⟩, h5⟩, h6⟩ := hc
        subst h1
        have hp : f.path = f.path.dropLast ++ [nName] := by
          obtain ⟨ys, e⟩ := List.getLast?_eq_some_iff.1 hn
          rw [e, List.dropLast_concat]
        refine ⟨fun e => ?_, fun e => ?_⟩
        · obtain ⟨i, hi, ei⟩ := hN _ e o (field?_some h3).1 (field?_some h3).2
          exact field?_none h4 i hi ei
        · obtain ⟨i, hi, ei⟩ := hI _ e f hf hp
          exact field?_none h4 i hi ei
      · cases e
  intro l
  induction l with
  | nil => intro _ m; rfl
  | cons g l ih =>
    intro hl m
    rw [List.foldl_cons, ih (fun g hg => hl g (.tail _ hg)), nameRule_keeps (hl g (.head _)).1 (hl g (.head _)).2]

theorem sourceRule_keeps (m : Maps) {p : Path} (h : p ≠ ["ids_properties".toList, "source".toList]) :
    (sourceRule m).toNew.lookup p = m.toNew.lookup p := by
  unfold sourceRule
  simp only
  rw [List.lookup_cons, show (p == nSource) = false by simpa [nSource] using h]

theorem map3_keeps {d : Dicts} {p : Path} (h : NoRule d p) : (map3 d).toNew.lookup p = (buildMap d).toNew.lookup p := by
  unfold map3
  rw [nameRules_keeps _ _ h.name h.identifier, sourceRule_keeps _ h.source]

/-- `g` is obsolete. -/
theorem mem_obsolete {m m341 : List (Path × Option Path)} {g : Path} :
    g ∈ obsolete m m341 ↔ m.lookup g = some none ∧ (m341.lookup g).isSome := by
  unfold obsolete
  rw [List.mem_filter]
  simp only [Bool.and_eq_true, beq_iff_eq]
  exact ⟨fun h => h.2, fun h => ⟨lookup_key h.1, h⟩⟩

/-- What the migration gives for a path. -/
theorem lookup_migrate (m m341 : List (Path × Option Path)) (p : Path) :
    (migrate m m341).lookup p =
      if (p ∈ obsolete m m341 ∨ ∃ g ∈ obsolete m m341, (text g ++ ['/']) <+: text p) ∧ (m341.lookup p).isSome then
        m341.lookup p
      else m.lookup p := by
  unfold migrate
  simp only
  rw [lookup_append, lookup_append]
  generalize hA : ((obsolete m m341).filterMap fun p => (m341.lookup p).map (p, ·)) = A
  generalize hU : ((obsolete m m341).flatMap fun g => (m341.map (·.1)).filterMap fun p =>
    if (text g ++ ['/']).isPrefixOf (text p) then (m341.lookup p).map (p, ·) else none) = U
  have mA : ∀ x, x ∈ A ↔ x.1 ∈ obsolete m m341 ∧ m341.lookup x.1 = some x.2 := by
    intro x
    subst hA
    rw [List.mem_filterMap]
    constructor
    · rintro ⟨q, hq, h⟩
      obtain ⟨v, h1, rfl⟩ := Option.map_eq_some_iff.1 h
      exact ⟨hq, h1⟩
    · rintro ⟨h1, h2⟩
      exact ⟨x.1, h1, by rw [h2]; rfl⟩
  have mU : ∀ x, x ∈ U ↔ (∃ g ∈ obsolete m m341, (text g ++ ['/']) <+: text x.1) ∧ m341.lookup x.1 = some x.2 := by
    intro x
    subst hU
    rw [List.mem_flatMap]
    constructor
    · rintro ⟨g, hg, h⟩
      obtain ⟨q, hq, h⟩ := List.mem_filterMap.1 h
      split at h
      · next hp =>
        obtain ⟨v, h1, rfl⟩ := Option.map_eq_some_iff.1 h
        exact ⟨⟨g, hg, List.isPrefixOf_iff_prefix.1 hp⟩, h1⟩
      · cases h
    · rintro ⟨⟨g, hg, hp⟩, h⟩
      refine ⟨g, hg, List.mem_filterMap.2 ⟨x.1, lookup_key h, ?_⟩⟩
      rw [if_pos (List.isPrefixOf_iff_prefix.2 hp), h]
      rfl
  cases hv : m341.lookup p with
  | none =>
    have e1 : U.lookup p = none := lookup_no fun x hx e => by
      have := ((mU x).1 hx).2; rw [e, hv] at this; cases this
    have e2 : A.lookup p = none := lookup_no fun x hx e => by
      have := ((mA x).1 hx).2; rw [e, hv] at this; cases this
    rw [e1, e2]; simp
  | some v =>
    have hU1 : ∀ x ∈ U, x.1 = p → x.2 = v := fun x hx e => by
      have := ((mU x).1 hx).2; rw [e, hv] at this; exact (Option.some.inj this).symm
    have hA1 : ∀ x ∈ A, x.1 = p → x.2 = v := fun x hx e => by
      have := ((mA x).1 hx).2; rw [e, hv] at this; exact (Option.some.inj this).symm
    by_cases hu : ∃ g ∈ obsolete m m341, (text g ++ ['/']) <+: text p
    · rw [lookup_all hU1 ⟨(p, v), (mU _).2 ⟨hu, hv⟩, rfl⟩, if_pos ⟨.inr hu, rfl⟩]
      rfl
    · have e1 : U.lookup p = none := lookup_no fun x hx e => hu (e ▸ ((mU x).1 hx).1)
      by_cases ho : p ∈ obsolete m m341
      · rw [e1, lookup_all hA1 ⟨(p, v), (mA _).2 ⟨ho, hv⟩, rfl⟩, if_pos ⟨.inl ho, rfl⟩]
        rfl
      · have e2 : A.lookup p = none := lookup_no fun x hx e => ho (e ▸ ((mA x).1 hx).1)
        rw [e1, e2, if_neg (fun h => h.1.elim ho hu)]
        rfl

theorem good_of {l : List Field} (h : WellFormed l) {o : Field} (ho : o ∈ l) : Good o.path := h.names o ho

/-- **C56.** A node of DD 3.42 or later that would be dropped, and that DD4 knows under a new name for DD 3.41 (the
dictionaries `d341` identify it with another field of a fitting type), is mapped to this new name. -/
theorem C56_migrated {d d341 : Dicts} (G : Given d341) (f o : Field) (hc : Claim d341 f o) (ht : Fits d341 o f)
    (hn : f.path ≠ o.path) (hd : (buildMap d).toNew.lookup o.path = some none)
    (h1 : NoRule d o.path) (h2 : NoRule d341 o.path) :
    (map342 d d341).toNew.lookup o.path = some (some f.path) := by
  have e : (map3 d341).toNew.lookup o.path = some (some f.path) := by
    rw [map3_keeps h2]
    rcases C21_found G f o hc ht with h | h
    · exact h.2
    · exact absurd h.1 hn
  unfold map342
  rw [nameRules_keeps _ _ h1.name h1.identifier]
  simp only
  rw [lookup_migrate, if_pos]
  · exact e
  · refine ⟨.inl (mem_obsolete.2 ⟨?_, by rw [e]; rfl⟩), by rw [e]; rfl⟩
    rw [sourceRule_keeps _ h1.source, hd]

/-- **C56.** So is everything below such a node. -/
theorem C56_below {d d341 : Dicts} (G : Given d341) (f o f' o' : Field) (hc : Claim d341 f o) (ht : Fits d341 o f)
    (hn : f.path ≠ o.path) (hd : (buildMap d).toNew.lookup o.path = some none)
    (h1 : NoRule d o.path) (h2 : NoRule d341 o.path)
    (hc' : Claim d341 f' o') (ht' : Fits d341 o' f') (hn' : f'.path ≠ o'.path) (r : Path) (hr : r ≠ [])
    (hb : o'.path = o.path ++ r) (h1' : NoRule d o'.path) (h2' : NoRule d341 o'.path) :
    (map342 d d341).toNew.lookup o'.path = some (some f'.path) := by
  have e : (map3 d341).toNew.lookup o.path = some (some f.path) := by
    rw [map3_keeps h2]
    rcases C21_found G f o hc ht with h | h
    · exact h.2
    · exact absurd h.1 hn
  have e' : (map3 d341).toNew.lookup o'.path = some (some f'.path) := by
    rw [map3_keeps h2']
    rcases C21_found G f' o' hc' ht' with h | h
    · exact h.2
    · exact absurd h.1 hn'
  unfold map342
  rw [nameRules_keeps _ _ h1'.name h1'.identifier]
  simp only
  rw [lookup_migrate, if_pos]
  · exact e'
  · refine ⟨.inr ⟨o.path, mem_obsolete.2 ⟨?_, by rw [e]; rfl⟩, text r, ?_⟩, by rw [e']; rfl⟩
    · rw [sourceRule_keeps _ h1.source, hd]
    · rw [hb, text_append (good_of G.old hc.2.1).1 hr]
      simp

/-- **C56.** All paths that are not dropped, and are not below a dropped path, are mapped as before. -/
theorem C56_kept {d d341 : Dicts} (G : Given d) (o : Field) (ho : o ∈ d.old)
    (h0 : (buildMap d).toNew.lookup o.path ≠ some none)
    (hu : ∀ a r, r ≠ [] → o.path = a ++ r → (buildMap d).toNew.lookup a ≠ some none) (h : NoRule d o.path) :
    (map342 d d341).toNew.lookup o.path = (buildMap d).toNew.lookup o.path := by
  have hs := sourceRule_keeps (buildMap d) h.source
  unfold map342
  rw [nameRules_keeps _ _ h.name h.identifier]
  simp only
  rw [lookup_migrate, if_neg, hs]
  rintro ⟨h1 | ⟨g, hg, t, ht⟩, -⟩
  · exact h0 (hs ▸ (mem_obsolete.1 h1).1)
  · have h2 := (mem_obsolete.1 hg).1
    by_cases e : g = ["ids_properties".toList, "source".toList]
    · subst e
      rw [sourceRule, List.lookup_cons] at h2
      simp [nSource, nProvenance] at h2
    rw [sourceRule_keeps _ e] at h2
    obtain ⟨o2, ho2, e2, -⟩ := C21_nothing_old G g h2
    have hg2 : Good g := e2 ▸ good_of G.old ho2
    obtain ⟨r, hr, hr0, -⟩ := text_split (s := t) hg2 (good_of G.old ho) (by rw [← ht]; simp)
    exact hu g r hr0 hr h2

/-- **C56.** The migration adds no other renames: a new path that differs from the one before is the new path for DD 3.41. -/
theorem C56_sound {d d341 : Dicts} (G : Given d341) (p q : Path) (h : (map342 d d341).toNew.lookup p = some (some q))
    (h1 : NoRule d p) (h2 : NoRule d341 p) :
    (buildMap d).toNew.lookup p = some (some q) ∨
    Was d341 q p ∧ ∃ f o, Claim d341 f o ∧ f.path = q ∧ o.path = p := by
  unfold map342 at h
  rw [nameRules_keeps _ _ h1.name h1.identifier] at h
  simp only at h
  rw [lookup_migrate] at h
  split at h
  · right
    rw [map3_keeps h2] at h
    obtain ⟨h1, f, o, h2, h3, h4, -⟩ := C21_linked G q p ((C21_inverse G q p).2 h)
    exact ⟨h1, f, o, h2, h3, h4⟩
  · left
    rwa [sourceRule_keeps _ h1.source] at h

/-- **C56.** In this direction `ids_properties/source` becomes `ids_properties/provenance` (and a node of the provenance,
C28). -/
theorem C56_source (d d341 : Dicts) :
    (map342 d d341).toNew.lookup ["ids_properties".toList, "source".toList] =
      some (some ["ids_properties".toList, "provenance".toList]) := by
  have last : ∀ (g : Path) (n : Name), ["ids_properties".toList, "source".toList] = g ++ [n] → n = "source".toList := by
    intro g n e
    have := congrArg List.getLast? e
    simpa using this.symm
  have hn : ∀ g, ["ids_properties".toList, "source".toList] = g ++ ["name".toList] → False :=
    fun g e => absurd (last g _ e) (by decide)
  have hi : ∀ g, ["ids_properties".toList, "source".toList] = g ++ ["identifier".toList] → False :=
    fun g e => absurd (last g _ e) (by decide)
  have src : ∀ m : Maps, (sourceRule m).toNew.lookup ["ids_properties".toList, "source".toList] =
      some (some ["ids_properties".toList, "provenance".toList]) := by
    intro m
    unfold sourceRule
    simp only
    rw [List.lookup_cons]
    simp [nSource, nProvenance]
  unfold map342
  rw [nameRules_keeps _ _ (fun g e => (hn g e).elim) (fun g e => (hi g e).elim)]
  simp only
  rw [lookup_migrate]
  split
  · unfold map3
    rw [nameRules_keeps _ _ (fun g e => (hn g e).elim) (fun g e => (hi g e).elim), src]
  · exact src _

/-! ### A concrete case -/

def nTor : Name := ['j', 't']
def nPhi : Name := ['j', 'p']
def nProf : Name := ['p']
def nOther : Name := ['b']
def nObs : Name := ['o']

/-- DD4 renamed `p/jt` to `p/jp` and `o` to `b` in version 42. DD 3.42 has both names. -/
def dd4 : List Field :=
  [vmField [nProf] tStruct, vmField [nProf, nPhi] tFlt (some ⟨.renamed, some [42], [[nTor]]⟩),
   vmField [nOther] tStruct (some ⟨.renamed, some [42], [[nObs]]⟩), vmField [nOther, nR] tFlt]

def dicts342 : Dicts where
  version := 42
  same a b := a = b
  old := [vmField [nProf] tStruct, vmField [nProf, nPhi] tFlt, vmField [nProf, nTor] tFlt, vmField [nOther] tStruct,
    vmField [nOther, nR] tFlt, vmField [nObs] tStruct, vmField [nObs, nR] tFlt]
  new := dd4

def dicts341 : Dicts where
  version := 41
  same a b := a = b
  old := [vmField [nProf] tStruct, vmField [nProf, nTor] tFlt, vmField [nObs] tStruct, vmField [nObs, nR] tFlt]
  new := dd4

theorem given342 : Given dicts342 := given_of_check (by decide +kernel)
theorem given341 : Given dicts341 := given_of_check (by decide +kernel)

/-- Without the migration the obsolete nodes are dropped. -/
example : (buildMap dicts342).toNew.lookup [nProf, nTor] = some none ∧
    (buildMap dicts342).toNew.lookup [nObs] = some none := by decide +kernel

theorem noRule_sample (d : Dicts) (p : Path) (h : p.getLast? = some nTor ∨ p.getLast? = some nObs ∨ p.getLast? = some nR) :
    NoRule d p := by
  have no : ∀ n : Name, p.getLast? = some n → n ≠ nTor → n ≠ nObs → n ≠ nR → False := by
    intro n hn h1 h2 h3
    rw [hn] at h
    rcases h with h | h | h
    · exact h1 (Option.some.inj h)
    · exact h2 (Option.some.inj h)
    · exact h3 (Option.some.inj h)
  refine ⟨fun e => ?_, fun g e => ?_, fun g e => ?_⟩
  · exact no nSource.getLast! (by rw [e]; decide) (by decide) (by decide) (by decide)
  · exact (no "name".toList (by rw [e]; simp) (by decide) (by decide) (by decide)).elim
  · exact (no "identifier".toList (by rw [e]; simp) (by decide) (by decide) (by decide)).elim

theorem names341 : Names dicts341 (vmField [nOther] tStruct (some ⟨.renamed, some [42], [[nObs]]⟩))
    (vmField [nObs] tStruct) :=
  ⟨by simp [dicts341, dd4], by simp [dicts341], [], nOther, [nObs], [], rfl, .root,
    formerly_def.2 ⟨⟨.renamed, some [42], [[nObs]]⟩, [42], rfl, rfl, rfl, rfl, rfl⟩, rfl⟩

example : (map342 dicts342 dicts341).toNew.lookup [nObs] = some (some [nOther]) :=
  C56_migrated given341 _ _ (names_claim names341) (.inl rfl) (by decide) (by decide +kernel)
    (noRule_sample _ _ (.inr (.inl rfl))) (noRule_sample _ _ (.inr (.inl rfl)))

/-- The node below it is in the same place of a moved structure. -/
theorem claim341 : Claim dicts341 (vmField [nOther, nR] tFlt) (vmField [nObs, nR] tFlt) :=
  ⟨by simp [dicts341, dd4], by simp [dicts341], .inl (.inr ⟨_, _, [nR], ⟨names341, .inl rfl, .inl rfl⟩, rfl, rfl⟩)⟩

example : (map342 dicts342 dicts341).toNew.lookup [nObs, nR] = some (some [nOther, nR]) :=
  C56_below given341 _ _ _ _ (names_claim names341) (.inl rfl) (by decide) (by decide +kernel)
    (noRule_sample _ _ (.inr (.inl rfl))) (noRule_sample _ _ (.inr (.inl rfl))) claim341 (.inl rfl) (by decide) [nR]
    (by simp) rfl (noRule_sample _ _ (.inr (.inr rfl))) (noRule_sample _ _ (.inr (.inr rfl)))

example : (map342 dicts342 dicts341).toNew.lookup [nProf, nTor] = some (some [nProf, nPhi]) := by decide +kernel

/-! ### Limits -/

/-- Two nodes of DD 3.42 have the same new path: the obsolete one, and the one that replaced it. -/
theorem C56_two_sources_limit :
    (map342 dicts342 dicts341).toNew.lookup [nProf, nTor] = some (some [nProf, nPhi]) ∧
    (map342 dicts342 dicts341).toNew.lookup [nProf, nPhi] = none ∧ Has dicts342.old [nProf, nPhi] ∧
    Has dicts342.new [nProf, nPhi] :=
  ⟨by decide +kernel, by decide +kernel, ⟨_, .tail _ (.head _), rfl⟩, ⟨_, .tail _ (.head _), rfl⟩⟩

/-- The conversion with these maps. -/
def cfg342 : Convert.Cfg (List Int) where
  path q := (map342 dicts342 dicts341).toNew.lookup q
  change _ := none
  post _ := none
  store _ v := .ok (some v)

/-- An IDS that has both nodes with different values. -/
def data342 : Fields (List Int) :=
  .present nProf (.struct (.present nPhi (.leaf ⟨.flt, 0, true⟩ (some [1]))
    (.present nTor (.leaf ⟨.flt, 0, true⟩ (some [2])) .nil))) .nil

def meta4 : MFields := .cons nProf (.struct (.cons nPhi (.leaf ⟨.flt, 0, true⟩) .nil)) .nil

/-- If both are filled, the value of the obsolete node replaces that of the other one, without any message. -/
theorem C56_overwritten_limit :
    (match Convert.copyIds cfg342 data342 (Meta.struct meta4).fresh with
     | .ok root => root.at [(nProf, none), (nPhi, none)]
     | .error _ => none) = some (.leaf ⟨.flt, 0, true⟩ (some [2])) := by
  rfl

end Verif.Props
