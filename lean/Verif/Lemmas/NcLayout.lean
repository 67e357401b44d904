import Verif.Props.NcMeta
import Verif.Lemmas.NcLook
/-
What is used of `NCMetadata` for reading and writing data.
-/
namespace Verif.Nc
open Verif.Ids Verif.TreeSpec Verif.NcSpec
open Verif.ConvertSpec (mchild child metaAt)
open Verif.AlSpec (arraysOf IsDataPath)

/-- `own p` are the dimensions of a node itself. -/
structure Layout (m : MFields) (N : NcMeta) (hom : Bool) (own : Path → List Dim) : Prop where
  rank : ∀ p x, p ≠ [] → metaAt (.struct m) p = some x → (own p).length = rank x
  tuple : ∀ p, IsDataPath m p → N.getDims hom p = (arraysOf m [] p).flatMap own ++ own p
  aos : ∀ p x, p ≠ [] → metaAt (.struct m) p = some x → N.aos p = (arraysOf m [] p).getLast?
  paths : ∀ p, p ∈ N.paths ↔ p ≠ [] ∧ ∃ x, metaAt (.struct m) p = some x
  nodup : N.paths.Nodup
  coords : ∀ p y, metaAt (.struct m) p = some y → IsStruct y ∨ NcSpec.rank y = 0 ∧ arraysOf m [] p = [] → N.getCoords hom p = []

theorem tensorizeOne_rest {I : Info} {s : Parse} {e : Entry} {u : List (Option Dim)} {N N' : NcMeta}
    (h : tensorizeOne I s e u N = .ok N') : N'.aos = N.aos ∧ N'.paths = N.paths ∧
      ∀ p, p ≠ e.path → dget N'.coords p = dget N.coords p := by
  unfold tensorizeOne at h
  simp only at h
  split at h
  · cases h
  · split at h
    · cases h
    · cases h
      refine ⟨rfl, rfl, ?_⟩
      intro p hp
      simp only
      split
      · rfl
      · rw [dget_dset, if_neg hp]

theorem tensorizeAll_rest {I : Info} {s : Parse} : ∀ {es : List Entry} {N N' : NcMeta}, tensorizeAll I s es N = .ok N' →
    N'.aos = N.aos ∧ N'.paths = N.paths ∧ ∀ p, dget s.ut p = none → dget N'.coords p = dget N.coords p
  | [], N, N', h => by
    simp only [tensorizeAll, Except.ok.injEq] at h
    subst h
    exact ⟨rfl, rfl, fun _ _ => rfl⟩
  | e :: r, N, N', h => by
    simp only [tensorizeAll] at h
    split at h
    · exact tensorizeAll_rest h
    · rename_i u hu
      split at h
      · cases h
      · rename_i N1 h1
        obtain ⟨a1, a2, a3⟩ := tensorizeOne_rest h1
        obtain ⟨b1, b2, b3⟩ := tensorizeAll_rest h
        refine ⟨b1.trans a1, b2.trans a2, ?_⟩
        intro p hp
        rw [b3 p hp, a3 p]
        rintro rfl
        rw [hu] at hp
        cases hp

theorem metadata_rest {I : Info} {m : MFields} {fuel : Nat} {N : NcMeta} (h : ncMetadata fuel I m = .ok N) :
    N.aos = (fun p => ((walkFields [] none 0 m).find? (·.path = p)).bind (·.parent)) ∧
    N.paths = (walkFields [] none 0 m).map (·.path) := by
  unfold ncMetadata at h
  simp only at h
  split at h
  · cases h
  · split at h
    · cases h
    · split at h
      · cases h
      · obtain ⟨h1, h2, -⟩ := tensorizeAll_rest h
        exact ⟨h1, h2⟩

theorem struct_coords {I : Info} {m : MFields} (hw : WFMFields m) {fuel : Nat} {N : NcMeta} (h : ncMetadata fuel I m = .ok N)
    {p : Path} {y : Meta} (hp : metaAt (.struct m) p = some y) (hy : IsStruct y ∨ rank y = 0 ∧ arraysOf m [] p = []) :
    dget N.coords p = none := by
  unfold ncMetadata at h
  simp only at h
  split at h
  · cases h
  · rename_i s hs
    have hpi := parseAll_ok I _ [] {} (parseInv_nil I) (by simpa using walk_nodup m [] none 0 hw) hs
    rw [List.nil_append] at hpi
    split at h
    · cases h
    · rename_i s1 h1
      have hm := merge_ok hpi h1
      split at h
      · cases h
      · rename_i ut hut
        have hr := resolve_ok fuel (resolveInv_start hm.unnamed hm.nodup) hut
        obtain ⟨-, -, h3⟩ := tensorizeAll_rest h
        rw [h3 p ?_]
        · simp [dget]
        · simp only
          have hlen : ∀ p, (dget ut p).map List.length = (dget s.ut p).map List.length := fun p => (hr.len p).trans (hm.len p)
          have := hlen p
          cases hu : dget ut p with
          | none => rfl
          | some u =>
            exfalso
            rw [hu] at this
            cases hu2 : dget s.ut p with
            | none => rw [hu2] at this; cases this
            | some u2 =>
              obtain ⟨e, he, hrel, rfl⟩ := hpi.ut' p u2 hu2
              obtain ⟨x, -, -, hx, hnd, hst, -, hpar, -⟩ := walk_known hw he
              rw [hp] at hx
              cases hx
              rcases hy with hy | ⟨hy, hy'⟩
              · exact hrel.1 (hst.2 hy)
              · rw [hy'] at hpar
                rcases hrel.2 with h5 | h5
                · omega
                · rw [hpar] at h5; cases h5

theorem layout {I : Info} {m : MFields} (hw : WFMFields m) {fuel : Nat} {N : NcMeta} (h : ncMetadata fuel I m = .ok N) (hom : Bool) :
    ∃ own, Layout m N hom own := by
  obtain ⟨own, hd⟩ := Verif.Props.C29_dimensions hw h
  obtain ⟨h1, h2⟩ := metadata_rest h
  have haos : ∀ p x, p ≠ [] → metaAt (.struct m) p = some x → N.aos p = (arraysOf m [] p).getLast? := by
    intro p x hp hx
    obtain ⟨e, he, rfl, hok⟩ := walk_entry hw hp hx
    rw [h1]
    have : (walkFields [] none 0 m).find? (·.path = e.path) = some e := by
      have hn := walk_nodup m [] none 0 hw
      revert hn he
      generalize walkFields [] none 0 m = l
      intro he hn
      induction l with
      | nil => cases he
      | cons a l ih =>
        rw [List.map_cons, List.nodup_cons] at hn
        rw [List.find?_cons]
        by_cases hae : a.path = e.path
        · rcases List.mem_cons.1 he with rfl | he
          · simp
          · exact absurd (List.mem_map.2 ⟨e, he, hae.symm⟩) hn.1
        · rcases List.mem_cons.1 he with rfl | he
          · exact absurd rfl hae
          · simp [hae, ih he hn.2]
    simp only [this, Option.bind_some]
    obtain ⟨-, -, -, -, -, -, hpar, -⟩ := hok
    simpa using hpar
  have hpaths : ∀ p, p ∈ N.paths ↔ p ≠ [] ∧ ∃ x, metaAt (.struct m) p = some x := by
    intro p
    rw [h2]
    constructor
    · intro hp
      obtain ⟨e, he, rfl⟩ := List.mem_map.1 hp
      obtain ⟨x, hne, -, hx, -⟩ := walk_known hw he
      exact ⟨hne, x, hx⟩
    · rintro ⟨hne, x, hx⟩
      obtain ⟨e, he, rfl, -⟩ := walk_entry hw hne hx
      exact List.mem_map.2 ⟨e, he, rfl⟩
  have hnd : N.paths.Nodup := by rw [h2]; exact walk_nodup m [] none 0 hw
  have hco : ∀ p y, metaAt (.struct m) p = some y → IsStruct y ∨ NcSpec.rank y = 0 ∧ arraysOf m [] p = [] → N.getCoords hom p = [] := by
    intro p y hp hy
    simp [NcMeta.getCoords, struct_coords hw h hp hy]
  have hne : ∀ p, IsDataPath m p → p ≠ [] := by
    rintro p ⟨x, hx, hn⟩ rfl
    simp only [metaAt, Option.some.injEq] at hx
    exact hn _ hx.symm
  have htup : ∀ p, IsDataPath m p → N.getDims false p = (arraysOf m [] p).flatMap own ++ own p := by
    intro p hp
    have hp0 := hne p hp
    obtain ⟨x, hx, hn⟩ := hp
    exact hd.tuple p x hp0 hx (by cases x <;> simp_all [IsStruct])
  cases hom with
  | false => exact ⟨own, hd.rank, htup, haos, hpaths, hnd, hco⟩
  | true =>
    obtain ⟨P, ut, hf⟩ := final hw h
    refine ⟨fun p => (own p).map fun d => if d ∈ N.times then timeDim else d, ?_, ?_, haos, hpaths, hnd, hco⟩
    · intro p x hp hx
      simp only [List.length_map]
      exact hd.rank p x hp hx
    · intro p hp
      rw [hd.time p (fun d => if d ∈ N.times then timeDim else d) (fun d ht => if_pos ((hf.times d).2 ht))
        (fun d ht => if_neg fun h => ht ((hf.times d).1 h)), htup p hp]
      simp [List.map_append, List.map_flatMap]

end Verif.Nc
