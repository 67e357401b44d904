import Verif.Spec.Xarray
import Verif.Lemmas.NcLayout
import Verif.Lemmas.ConvertPlan
/-
The paths that `include_coordinate_paths` gives.
-/
namespace Verif.Nc
open Verif.Ids Verif.TreeSpec Verif.NcSpec
open Verif.ConvertSpec (mchild child metaAt)
open Verif.AlSpec (arraysOf IsDataPath)

/-- Reachable from a list of paths. -/
inductive Reach (coords : Path → List Path) (Q : List Path) : Path → Prop
  | base {p : Path} (h : p ∈ Q) : Reach coords Q p
  | step {p q : Path} (h : Reach coords Q p) (hq : q ∈ coords p) : Reach coords Q q

theorem Reach.sub {coords : Path → List Path} {Q Q' : List Path} (hQ : ∀ p ∈ Q, Reach coords Q' p) {p : Path} (h : Reach coords Q p) :
    Reach coords Q' p := by
  induction h with
  | base h => exact hQ _ h
  | step _ hq ih => exact .step ih hq

theorem includeLoop_ok {coords : Path → List Path} : ∀ (fuel : Nat) {queue done res : List Path},
    includeLoop coords fuel queue done = some res → done.Nodup →
    res.Nodup ∧ (∀ p ∈ done, p ∈ res) ∧ (∀ p ∈ queue, p ∈ res) ∧ (∀ p ∈ res, p ∈ done ∨ Reach coords queue p) ∧
      ∀ p ∈ res, p ∉ done → ∀ q ∈ coords p, q ∈ res
  | fuel, [], done, res, h, hn => by
    have : res = done := by cases fuel <;> simpa [includeLoop] using h.symm
    subst this
    exact ⟨hn, fun _ h => h, by simp, fun _ h => .inl h, fun p h h' => absurd h h'⟩
  | 0, p :: queue, done, res, h, hn => by simp [includeLoop] at h
  | fuel + 1, p :: queue, done, res, h, hn => by
    rw [includeLoop] at h
    split at h
    · rename_i hp
      obtain ⟨h1, h2, h3, h4, h5⟩ := includeLoop_ok fuel h hn
      refine ⟨h1, h2, ?_, ?_, h5⟩
      · intro q hq
        rcases List.mem_cons.1 hq with rfl | hq
        · exact h2 _ hp
        · exact h3 q hq
      · intro q hq
        rcases h4 q hq with h6 | h6
        · exact .inl h6
        · exact .inr (h6.sub fun p hp => .base (List.mem_cons_of_mem _ hp))
    · rename_i hp
      have hn' : (done ++ [p]).Nodup := by
        rw [List.nodup_append]
        refine ⟨hn, by simp, ?_⟩
        intro a ha b hb
        simp only [List.mem_singleton] at hb
        subst hb
        rintro rfl
        exact hp ha
      obtain ⟨h1, h2, h3, h4, h5⟩ := includeLoop_ok fuel h hn'
      have hpr : p ∈ res := h2 p (by simp)
      refine ⟨h1, fun q hq => h2 q (by simp [hq]), ?_, ?_, ?_⟩
      · intro q hq
        rcases List.mem_cons.1 hq with rfl | hq
        · exact hpr
        · exact h3 q (by simp [hq])
      · intro q hq
        rcases h4 q hq with h6 | h6
        · rcases List.mem_append.1 h6 with h6 | h6
          · exact .inl h6
          · simp only [List.mem_singleton] at h6
            subst h6
            exact .inr (.base (by simp))
        · refine .inr (h6.sub fun r hr => ?_)
          rcases List.mem_append.1 hr with hr | hr
          · exact .base (List.mem_cons_of_mem _ hr)
          · exact .step (.base (by simp)) hr
      · intro q hq hqd r hr
        by_cases hqp : q = p
        · subst hqp
          exact h3 r (by simp [hr])
        · exact h5 q hq (by simp [hqd, hqp]) r hr

/-- Coordinates of paths that were not visited. -/
def waiting (coords : Path → List Path) (done : List Path) : List Path → Nat
  | [] => 0
  | k :: r => (if k ∈ done then 0 else (coords k).length) + waiting coords done r

theorem waiting_append {coords : Path → List Path} {done : List Path} {p : Path} (hp : p ∉ done) : ∀ {keys : List Path}, keys.Nodup →
    waiting coords (done ++ [p]) keys + (if p ∈ keys then (coords p).length else 0) = waiting coords done keys
  | [], _ => rfl
  | k :: r, hn => by
    rw [List.nodup_cons] at hn
    have ih := waiting_append (coords := coords) hp hn.2
    by_cases hk : k = p
    · subst hk
      rw [if_neg hn.1] at ih
      rw [waiting, waiting, if_pos (by simp), if_pos (by simp), if_neg hp]
      omega
    · have h1 : k ∈ done ++ [p] ↔ k ∈ done := by simp [hk]
      have h2 : p ∈ k :: r ↔ p ∈ r := by
        rw [List.mem_cons]
        exact ⟨fun h => h.resolve_left fun e => hk e.symm, .inr⟩
      simp only [waiting, h1, h2]
      omega

theorem includeLoop_ends {coords : Path → List Path} {keys : List Path} (hn : keys.Nodup) (hk : ∀ p, p ∉ keys → coords p = []) :
    ∀ (fuel : Nat) {queue done : List Path}, queue.length + waiting coords done keys ≤ fuel →
      ∃ res, includeLoop coords fuel queue done = some res
  | fuel, [], done, _ => ⟨done, by cases fuel <;> rfl⟩
  | 0, p :: queue, done, h => by simp at h
  | fuel + 1, p :: queue, done, h => by
    simp only [List.length_cons] at h
    rw [includeLoop]
    split
    · exact includeLoop_ends hn hk fuel (by omega)
    · rename_i hp
      apply includeLoop_ends hn hk fuel
      have := waiting_append (coords := coords) hp hn
      rw [List.length_append]
      by_cases hm : p ∈ keys
      · rw [if_pos hm] at this
        omega
      · rw [if_neg hm] at this
        rw [hk p hm, List.length_nil]
        omega

theorem mem_parents : ∀ (n : Nat) {p a : Path}, p.length ≤ n → (a ∈ parents n p ↔ Inside p a)
  | 0, p, a, h => by
    have : p = [] := List.length_eq_zero_iff.1 (by omega)
    subst this
    simp [parents, Inside]
  | n + 1, [], a, h => by simp [parents, Inside]
  | n + 1, k :: r, a, h => by
    have hl : (k :: r).dropLast.length ≤ n := by simp at h ⊢; omega
    rw [parents, List.mem_cons, mem_parents n hl]
    · obtain ⟨t, e, ht⟩ := (List.eq_nil_or_concat (k :: r)).resolve_left (by simp)
      rw [List.concat_eq_append] at ht
      rw [ht, List.dropLast_concat]
      constructor
      · rintro (rfl | ⟨x, y, rfl⟩)
        · exact ⟨e, [], rfl⟩
        · exact ⟨x, y ++ [e], by simp⟩
      · rintro ⟨x, y, hxy⟩
        rcases List.eq_nil_or_concat y with rfl | ⟨y', e', rfl⟩
        · left
          have := congrArg List.dropLast hxy
          rw [List.dropLast_concat, List.dropLast_concat] at this
          exact this.symm
        · right
          rw [List.concat_eq_append, ← List.cons_append, ← List.append_assoc] at hxy
          have := congrArg List.dropLast hxy
          rw [List.dropLast_concat, List.dropLast_concat] at this
          exact ⟨x, y', this⟩
    · simp

/-- Arrays of structures around a node are what contains it and has dimensions. -/
theorem mem_arrays_iff : ∀ (p b : Path) (m : MFields) (x : Meta), metaAt (.struct m) p = some x → ∀ a,
    (a ∈ arraysOf m b p ↔ ∃ t k r e, p = t ++ k :: r ∧ a = b ++ t ∧ t ≠ [] ∧ metaAt (.struct m) t = some (.aos e))
  | [], b, m, x, h, a => by simp [arraysOf]
  | [n], b, m, x, h, a => by
    simp only [arraysOf, List.not_mem_nil, false_iff]
    rintro ⟨t, k, r, e, h1, -, h2, -⟩
    cases t with
    | nil => exact h2 rfl
    | cons s t => simp at h1
  | n :: n' :: p, b, m, x, h, a => by
    rw [arraysOf]
    rw [metaAt] at h
    have hc : child (.struct m) n = mchild m n := rfl
    rw [hc] at h
    cases hm : mchild m n with
    | none => rw [hm] at h; cases h
    | some y =>
      rw [hm] at h
      simp only [Option.bind_some] at h
      have key : ∀ d, (y = .struct d ∨ y = .aos d) → metaAt (.struct d) (n' :: p) = some x → ∀ a,
          ((∃ t k r e, n :: n' :: p = t ++ k :: r ∧ a = b ++ t ∧ t ≠ [] ∧ metaAt (.struct m) t = some (.aos e)) ↔
            (a = b ++ [n] ∧ y = .aos d) ∨ a ∈ arraysOf d (b ++ [n]) (n' :: p)) := by
        intro d hd hx a
        rw [mem_arrays_iff (n' :: p) (b ++ [n]) d x hx a]
        constructor
        · rintro ⟨t, k, r, e, h1, h2, h3, h4⟩
          cases t with
          | nil => exact absurd rfl h3
          | cons s t =>
            simp only [List.cons_append, List.cons.injEq] at h1
            obtain ⟨rfl, h1⟩ := h1
            rw [metaAt] at h4
            have hc : child (.struct m) n = mchild m n := rfl
            rw [hc, hm, Option.bind_some] at h4
            cases t with
            | nil =>
              simp only [metaAt, Option.some.injEq] at h4
              left
              rcases hd with rfl | rfl
              · cases h4
              · exact ⟨h2, rfl⟩
            | cons s' t =>
              right
              refine ⟨s' :: t, k, r, e, h1, by simpa using h2, by simp, ?_⟩
              rcases hd with rfl | rfl
              · exact h4
              · simpa [metaAt, child] using h4
        · rintro (⟨rfl, rfl⟩ | ⟨t, k, r, e, h1, rfl, h3, h4⟩)
          · refine ⟨[n], n', p, d, by simp, rfl, by simp, ?_⟩
            rw [metaAt]
            have hc : child (.struct m) n = mchild m n := rfl
            rw [hc, hm]
            rfl
          · refine ⟨n :: t, k, r, e, by simp [h1], by simp, by simp, ?_⟩
            rw [metaAt]
            have hc : child (.struct m) n = mchild m n := rfl
            rw [hc, hm, Option.bind_some]
            cases t with
            | nil => exact absurd rfl h3
            | cons s t =>
              rcases hd with rfl | rfl
              · exact h4
              · simpa [metaAt, child] using h4
      cases y with
      | leaf l => simp [metaAt, child] at h
      | struct d =>
        rw [key d (.inl rfl) h a]
        simp
      | aos d =>
        have hx : metaAt (.struct d) (n' :: p) = some x := by simpa [metaAt, child] using h
        rw [key d (.inr rfl) hx a]
        simp

theorem nodup_dups {A : Type} [BEq A] [LawfulBEq A] : ∀ (n : Nat) (l : List A), l.length ≤ n → l.eraseDups.Nodup
  | _, [], _ => by simp
  | 0, a :: l, h => by simp at h
  | n + 1, a :: l, h => by
    simp only [List.length_cons] at h
    rw [List.eraseDups_cons, List.nodup_cons]
    refine ⟨?_, nodup_dups n _ (by have := List.length_filter_le (fun b => !b == a) l; omega)⟩
    rw [List.mem_eraseDups]
    simp

section
variable {I : Info} {m : MFields} {fuel : Nat} {N : NcMeta}

/-- What contains a node has dimensions if it is an array of structures. -/
theorem dims_array (hw : WFMFields m) (hN : ncMetadata fuel I m = .ok N) (hom : Bool) {t : Path} {k : Name} {r : Path} {x : Meta}
    (h : metaAt (.struct m) (t ++ k :: r) = some x) :
    (N.getDims hom t).isEmpty = false ↔ t ≠ [] ∧ ∃ e, metaAt (.struct m) t = some (.aos e) := by
  obtain ⟨own, hl⟩ := layout hw hN hom
  obtain ⟨P, ut, hf⟩ := final hw hN
  constructor
  · intro hd
    have : (dget N.dims t).isSome := by
      cases hg : dget N.dims t with
      | none => simp [NcMeta.getDims, hg] at hd
      | some l => rfl
    obtain ⟨u, hu⟩ := Option.isSome_iff_exists.1 ((hf.keys t).1 this)
    obtain ⟨y, h1, h2, h3, -⟩ := hf.exist t u hu
    refine ⟨h1, ?_⟩
    cases y with
    | struct d => exact absurd trivial h3
    | aos e => exact ⟨e, h2⟩
    | leaf l =>
      rw [Verif.Convert.metaAt_append, h2] at h
      simp [metaAt, child] at h
  · rintro ⟨h1, e, h2⟩
    rw [hl.tuple t ⟨_, h2, by rintro _ ⟨⟩⟩]
    have := hl.rank t _ h1 h2
    simp only [rank] at this
    cases ho : own t with
    | nil => rw [ho] at this; simp at this
    | cons d r => simp

theorem include_ok (hw : WFMFields m) (hN : ncMetadata fuel I m = .ok N) (hom : Bool) {sel : List Path}
    (hsel : ∀ p ∈ sel, ∃ x, metaAt (.struct m) p = some x) :
    ∃ n, ∀ k, n ≤ k → ∃ l, includePaths k N hom sel = some l ∧ l.Nodup ∧ ∀ p, p ∈ l ↔ Needed m (N.getCoords hom) sel p := by
  have hkeys : ∀ p, p ∉ (N.coords.map (·.1)).eraseDups → N.getCoords hom p = [] := by
    intro p hp
    rw [List.mem_eraseDups] at hp
    simp [NcMeta.getCoords, dget_none.2 hp]
  have hnd := nodup_dups _ (N.coords.map (·.1)) (Nat.le_refl _)
  refine ⟨(startQueue (N.getDims hom) sel).length + waiting (N.getCoords hom) [] (N.coords.map (·.1)).eraseDups, fun k hk => ?_⟩
  obtain ⟨l, hl⟩ := includeLoop_ends hnd hkeys k (queue := startQueue (N.getDims hom) sel) (done := []) hk
  obtain ⟨h1, -, h3, h4, h5⟩ := includeLoop_ok k hl (by simp)
  have hq : ∀ p, p ∈ startQueue (N.getDims hom) sel ↔ p ∈ sel ∨ ∃ q ∈ sel, p ∈ arraysOf m [] q := by
    intro p
    simp only [startQueue, List.mem_append, List.mem_flatMap, List.mem_filter, mem_parents _ (Nat.le_refl _), Bool.not_eq_true']
    apply or_congr Iff.rfl
    constructor
    · rintro ⟨q, hq, ⟨n, r, rfl⟩, hd⟩
      obtain ⟨x, hx⟩ := hsel _ hq
      obtain ⟨h6, e, h7⟩ := (dims_array hw hN hom hx).1 hd
      exact ⟨_, hq, (mem_arrays_iff _ [] m x hx p).2 ⟨p, n, r, e, rfl, rfl, h6, h7⟩⟩
    · rintro ⟨q, hq, hp⟩
      obtain ⟨x, hx⟩ := hsel _ hq
      obtain ⟨t, n, r, e, rfl, h7, h8, h9⟩ := (mem_arrays_iff _ [] m x hx p).1 hp
      rw [List.nil_append] at h7
      subst h7
      exact ⟨_, hq, ⟨n, r, rfl⟩, (dims_array hw hN hom hx).2 ⟨h8, e, h9⟩⟩
  refine ⟨l, hl, h1, fun p => ⟨fun hp => ?_, fun hp => ?_⟩⟩
  · have : Reach (N.getCoords hom) (startQueue (N.getDims hom) sel) p := (h4 p hp).resolve_left (by simp)
    clear hp
    induction this with
    | base h =>
      rcases (hq _).1 h with h | ⟨q, h, h'⟩
      · exact .selected h
      · exact .array h h'
    | step _ hq ih => exact .coordinate ih hq
  · induction hp with
    | selected h => exact h3 _ ((hq _).2 (.inl h))
    | array h ha => exact h3 _ ((hq _).2 (.inr ⟨_, h, ha⟩))
    | coordinate _ hq ih => exact h5 _ ih (by simp) _ hq

end
end Verif.Nc
