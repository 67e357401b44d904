import Verif.Model.VersionNbc
import Verif.Spec.VersionNbc
import Verif.Lemmas.AlMap
import Verif.Props.VersionMap
/-
Lemmas about the maps for reading and writing in another version.
-/
namespace Verif.VMap
open Verif.Ids Verif.VMapSpec Verif.ConvertSpec Verif.AlSpec

/-! ### Paths relative to the nearest array of structures -/

theorem metaCtx_cons (l : List Field) (done ctx : Path) (n k : Name) (r : Path) :
    metaCtx l done ctx (n :: k :: r) =
      metaCtx l (done ++ [n]) (if isArrayAt l (done ++ [n]) then [] else ctx ++ [n]) (k :: r) := rfl

theorem metaCtx_snoc (l : List Field) (t : Path) : ∀ (done ctx : Path) (n : Name), t ≠ [] →
    metaCtx l done ctx (t ++ [n]) = if isArrayAt l (done ++ t) then [n] else metaCtx l done ctx t ++ [n] := by
  induction t with
  | nil => intro _ _ _ h; exact absurd rfl h
  | cons k r ih =>
    intro done ctx n _
    cases r with
    | nil =>
      simp only [List.nil_append, List.cons_append, metaCtx]
      split <;> simp
    | cons k' r' =>
      have := ih (done ++ [k]) (if isArrayAt l (done ++ [k]) then [] else ctx ++ [k]) n (by simp)
      simp only [List.cons_append, List.append_assoc, List.nil_append] at this
      simp only [List.cons_append, metaCtx]
      exact this

theorem ctxPathOf_eq (l : List Field) (p : Path) : ctxPathOf l p = metaCtx l [] [] p := by
  induction p using snocRec with
  | nil => simp [ctxPathOf, metaCtx, parents]
  | snoc t n ih =>
    by_cases ht : t = []
    · subst ht; simp [ctxPathOf, metaCtx, parents_one]
    · rw [metaCtx_snoc l t [] [] n ht, List.nil_append, ← ih]
      unfold ctxPathOf
      rw [parents_snoc t n ht, List.reverse_append, List.reverse_singleton, List.singleton_append, List.find?_cons]
      cases ha : isArrayAt l t with
      | true => simp
      | false =>
        simp only [Bool.false_eq_true, if_false]
        cases hg : (parents t).reverse.find? (isArrayAt l) with
        | none => rfl
        | some g =>
          have := List.mem_of_find?_eq_some hg
          rw [List.mem_reverse, mem_parents] at this
          obtain ⟨-, r, -, e⟩ := this
          simp only
          rw [List.drop_append_of_le_length]
          rw [e]; simp

theorem field?_shows {l : List Field} (hw : (l.map (·.path)).Nodup) {m : MFields} (h : Shows l m) {p : Path}
    (hp : p ≠ []) {x : Meta} (hx : metaAt (.struct m) p = some x) :
    ∃ f, field? l p = some f ∧ f ∈ l ∧ f.path = p ∧ IsKind f.dtype x := by
  obtain ⟨f, hf, e, hk⟩ := h.node p x hp hx
  refine ⟨f, ?_, hf, e, hk⟩
  rw [← e]; exact field?_mem hw hf

theorem isArrayAt_none {l : List Field} {m : MFields} (h : Shows l m) {p : Path}
    (hx : metaAt (.struct m) p = none) : isArrayAt l p = false := by
  unfold isArrayAt
  cases hf : field? l p with
  | none => rfl
  | some f =>
    obtain ⟨h1, h2⟩ := field?_some hf
    obtain ⟨x, h3, -⟩ := h.field f h1
    rw [h2, hx] at h3
    cases h3

theorem isArrayAt_iff {l : List Field} (hw : (l.map (·.path)).Nodup) {m : MFields} (h : Shows l m) {p : Path}
    (hp : p ≠ []) : isArrayAt l p = true ↔ ∃ d, metaAt (.struct m) p = some (.aos d) := by
  cases hx : metaAt (.struct m) p with
  | none => simp [isArrayAt_none h hx]
  | some x =>
    obtain ⟨f, h1, -, -, h2⟩ := field?_shows hw h hp hx
    simp only [isArrayAt, h1, decide_eq_true_eq]
    cases x with
    | leaf _ => simp only [h2.2, false_iff]; rintro ⟨d, hd⟩; cases hd
    | struct _ => rw [show f.dtype = _ from h2]; simp
    | aos d => simp only [show f.dtype = _ from h2, true_iff]; exact ⟨d, rfl⟩

theorem metaAt_append (x : Meta) (p q : Path) : metaAt x (p ++ q) = (metaAt x p).bind (metaAt · q) := by
  induction p generalizing x with
  | nil => simp [metaAt]
  | cons n r ih =>
    simp only [List.cons_append, metaAt]
    cases child x n with
    | none => rfl
    | some y => simp [ih]

theorem metaCtx_outside (l : List Field) (t : Path) : ∀ (done ctx : Path), t ≠ [] →
    (∀ s, s ≠ [] → isArrayAt l (done ++ s) = false) → metaCtx l done ctx t = ctx ++ t := by
  induction t with
  | nil => intro _ _ h; exact absurd rfl h
  | cons n r ih =>
    intro done ctx _ h
    cases r with
    | nil => rfl
    | cons k r' =>
      rw [metaCtx_cons, h [n] (by simp), if_neg (by simp)]
      have := ih (done ++ [n]) (ctx ++ [n]) (by simp) (fun s _ => by
        rw [List.append_assoc]; exact h ([n] ++ s) (by simp))
      rw [this]; simp

theorem metaCtx_relPath {l : List Field} (hw : (l.map (·.path)).Nodup) {m : MFields} (h : Shows l m) (t : Path) :
    ∀ (done ctx : Path) (c : MFields) (x : Meta), metaAt (.struct m) done = some x → (∀ n, child x n = mchild c n) →
      t ≠ [] → metaCtx l done ctx t = relPath c ctx t := by
  induction t with
  | nil => intro _ _ _ _ _ _ h; exact absurd rfl h
  | cons n r ih =>
    intro done ctx c x hx hc _
    have at1 : metaAt (.struct m) (done ++ [n]) = mchild c n := by
      rw [metaAt_append, hx]
      simp only [Option.bind_some, metaAt, hc]
      cases mchild c n <;> rfl
    have outside : (∀ y, mchild c n = some y → ∃ l, y = .leaf l) →
        metaCtx l done ctx (n :: r) = ctx ++ n :: r := by
      intro hleaf
      cases r with
      | nil => rfl
      | cons k r' =>
        rw [metaCtx_cons]
        have arr : isArrayAt l (done ++ [n]) = false := by
          rw [Bool.eq_false_iff]
          intro ha
          obtain ⟨d, hd⟩ := (isArrayAt_iff hw h (by simp)).1 ha
          rw [at1] at hd
          obtain ⟨_, e⟩ := hleaf _ hd
          cases e
        rw [arr, if_neg (by simp), metaCtx_outside l _ _ _ (by simp)]
        · simp
        · intro s hs
          apply isArrayAt_none h
          rw [metaAt_append, at1]
          cases hy : mchild c n with
          | none => rfl
          | some y =>
            obtain ⟨_, rfl⟩ := hleaf _ hy
            cases s with
            | nil => exact absurd rfl hs
            | cons k s => simp [metaAt, child]
    simp only [relPath]
    cases hy : mchild c n with
    | none => exact outside (fun y e => by rw [hy] at e; cases e)
    | some y =>
      cases y with
      | leaf l => exact outside (fun y e => by rw [hy] at e; cases e; exact ⟨_, rfl⟩)
      | struct d =>
        simp only
        cases r with
        | nil => simp [metaCtx, relPath]
        | cons k r' =>
          rw [metaCtx_cons]
          have arr : isArrayAt l (done ++ [n]) = false := by
            rw [Bool.eq_false_iff]
            intro ha
            obtain ⟨d, hd⟩ := (isArrayAt_iff hw h (by simp)).1 ha
            rw [at1, hy] at hd
            cases hd
          rw [arr, if_neg (by simp)]
          exact ih (done ++ [n]) (ctx ++ [n]) d (.struct d) (at1.trans hy) (fun _ => rfl) (by simp)
      | aos d =>
        simp only
        cases r with
        | nil => simp [metaCtx]
        | cons k r' =>
          rw [metaCtx_cons, if_pos ((isArrayAt_iff hw h (by simp)).2 ⟨d, at1.trans hy⟩), if_neg (by simp)]
          exact ih (done ++ [n]) [] d (.aos d) (at1.trans hy) (fun _ => rfl) (by simp)

/-- Both ways in which the code finds paths relative to the nearest array of structures are right. -/
theorem metaCtx_eq {l : List Field} (hw : (l.map (·.path)).Nodup) {m : MFields} (h : Shows l m) (t : Path)
    (ht : t ≠ []) : metaCtx l [] [] t = relPath m [] t :=
  metaCtx_relPath hw h t [] [] m (.struct m) rfl (fun _ => rfl) ht

/-! ### Arrays of structures above a node -/

theorem arraysOf_snoc (t : Path) : ∀ (c : MFields) (done : Path) (n : Name) (x : Meta), t ≠ [] →
    metaAt (.struct c) t = some x → arraysOf c done (t ++ [n]) =
      arraysOf c done t ++ (match x with | .aos _ => [done ++ t] | _ => []) := by
  induction t with
  | nil => intro _ _ _ _ h; exact absurd rfl h
  | cons k r ih =>
    intro c done n x _ hx
    simp only [metaAt, child] at hx
    cases hy : mchild c k with
    | none => rw [hy] at hx; cases hx
    | some y =>
      rw [hy, Option.bind_some] at hx
      cases r with
      | nil =>
        simp only [metaAt, Option.some.injEq] at hx
        subst hx
        cases y <;> simp [arraysOf, hy]
      | cons k' r' =>
        cases y with
        | leaf l => simp [metaAt, child] at hx
        | struct d =>
          have := ih d (done ++ [k]) n x (by simp) hx
          simp only [List.cons_append, List.append_assoc] at this
          simp only [List.cons_append, arraysOf, hy]
          rw [this]; rfl
        | aos d =>
          have := ih d (done ++ [k]) n x (by simp) (by simpa [metaAt, child] using hx)
          simp only [List.cons_append, List.append_assoc] at this
          simp only [List.cons_append, arraysOf, hy]
          rw [this]; rfl

theorem arraysOf_one (c : MFields) (done : Path) (n : Name) : arraysOf c done [n] = [] := by
  simp [arraysOf]

/-- The arrays of structures above a path are among its parents, in the same order. -/
theorem arraysOf_parents {l : List Field} (hw : (l.map (·.path)).Nodup) {m : MFields} (h : Shows l m) (p : Path)
    (hp : (metaAt (.struct m) p).isSome) : arraysOf m [] p = (parents p).filter (isArrayAt l) := by
  induction p using snocRec with
  | nil => simp [arraysOf, parents]
  | snoc p n ih =>
    by_cases hp0 : p = []
    · subst hp0; simp [arraysOf_one, parents_one]
    · rw [metaAt_append] at hp
      cases hx : metaAt (.struct m) p with
      | none => rw [hx] at hp; simp at hp
      | some x =>
        rw [arraysOf_snoc p m [] n x hp0 hx, parents_snoc p n hp0, List.filter_append, ih (by simp [hx])]
        congr 1
        have := isArrayAt_iff hw h hp0
        rw [hx] at this
        cases x with
        | aos d => simp [this.2 ⟨d, rfl⟩]
        | leaf d =>
          have : isArrayAt l p = false := by
            rw [Bool.eq_false_iff]; intro e; obtain ⟨_, e⟩ := this.1 e; cases e
          simp [this]
        | struct d =>
          have : isArrayAt l p = false := by
            rw [Bool.eq_false_iff]; intro e; obtain ⟨_, e⟩ := this.1 e; cases e
          simp [this]

theorem parents_append (g : Path) (hg : g ≠ []) (r : Path) (hr : r ≠ []) :
    parents (g ++ r) = parents g ++ g :: (parents r).map (g ++ ·) := by
  induction r using snocRec with
  | nil => exact absurd rfl hr
  | snoc r n ih =>
    by_cases h : r = []
    · subst h; rw [List.nil_append, parents_snoc g n hg, parents_one]; rfl
    · rw [← List.append_assoc, parents_snoc _ _ (by simp [hg]), ih h, parents_snoc r n h]
      simp

theorem filter_parents_last {l : List Field} {g r : Path} (hg : g ≠ []) (hr : r ≠ []) (ha : isArrayAt l g = true)
    (hn : ∀ s u, s ≠ [] → u ≠ [] → r = s ++ u → isArrayAt l (g ++ s) = false) :
    (parents (g ++ r)).filter (isArrayAt l) = (parents g).filter (isArrayAt l) ++ [g] := by
  rw [parents_append g hg r hr, List.filter_append, List.filter_cons, if_pos ha]
  congr 2
  rw [List.filter_eq_nil_iff]
  intro x hx
  obtain ⟨s, hs, rfl⟩ := List.mem_map.1 hx
  obtain ⟨h1, u, h2, h3⟩ := mem_parents.1 hs
  simp [hn s u h1 h2 h3]

/-- Either there is no array of structures above the path, or there is a nearest one. -/
theorem nearest_array (l : List Field) (p : Path) : (parents p).filter (isArrayAt l) = [] ∨
    ∃ g r, g ≠ [] ∧ r ≠ [] ∧ p = g ++ r ∧ isArrayAt l g = true ∧
      ∀ s u, s ≠ [] → u ≠ [] → r = s ++ u → isArrayAt l (g ++ s) = false := by
  induction p using snocRec with
  | nil => left; simp [parents]
  | snoc p n ih =>
    by_cases hp : p = []
    · subst hp; left; simp [parents_one]
    · cases ha : isArrayAt l p with
      | true =>
        refine .inr ⟨p, [n], hp, by simp, rfl, ha, fun s u hs hu e => ?_⟩
        have := congrArg List.length e
        have := List.length_pos_iff.2 hs
        have := List.length_pos_iff.2 hu
        simp at *
        omega
      | false =>
        rcases ih with h | ⟨g, r, h1, h2, h3, h4, h5⟩
        · left; rw [parents_snoc p n hp, List.filter_append, h]; simp [ha]
        · refine .inr ⟨g, r ++ [n], h1, by simp, by rw [h3]; simp, h4, fun s u hs hu e => ?_⟩
          obtain ⟨u, k, rfl⟩ := snoc_of_ne hu
          rw [← List.append_assoc] at e
          obtain ⟨e1, -⟩ := List.append_inj' e rfl
          by_cases hu0 : u = []
          · subst hu0
            rw [List.append_nil] at e1
            rw [← e1, ← h3]; exact ha
          · exact h5 s u hs hu0 e1

/-! ### The map in one direction -/

/-- Identified fields that did not change, like everything above them. -/
def Same (C H : Field → Field → Prop) (f o : Field) : Prop :=
  C f o ∧ ∀ f' o' r, C f' o' → f.path = f'.path ++ r → ¬ H f' o'

/-- What holds for the map in one direction: `A` are the fields it is for, `B` the fields it leads to, `C` identifies
them, `H` says that they changed. -/
structure Side (A B : List Field) (C H : Field → Field → Prop) (m : List (Path × Option Path))
    (change : List (Path × Option Handler)) : Prop where
  mem : ∀ f o, C f o → f ∈ A ∧ o ∈ B
  one : ∀ f o o', C f o → C f o' → o = o'
  one' : ∀ f f' o, C f o → C f' o → f = f'
  level : ∀ f o t r, C f o → f.path = o.path → t ≠ [] → f.path = t ++ r → ∃ f' o', C f' o' ∧ f'.path = t ∧ o'.path = t
  through : ∀ f o t r, C f o → t ≠ [] → r ≠ [] → f.path = t ++ r →
    (∃ f' o', C f' o' ∧ f'.path = t) ∨ (m.lookup t = none ∧ change.lookup t = none)
  around : ∀ f o, Same C H f o →
    (∀ g, Above f.path g → g ∈ A → g.dtype = "struct_array".toList →
      ∃ h, Above o.path h ∧ C g h ∧ h.dtype = "struct_array".toList) ∧
    (∀ h, Above o.path h → h ∈ B → h.dtype = "struct_array".toList →
      ∃ g, Above f.path g ∧ C g h ∧ g.dtype = "struct_array".toList)
  entry : ∀ p q, m.lookup p = some (some q) → ∃ f o, C f o ∧ f.path = p
  key : ∀ p, m.lookup p = some none → p ≠ []
  plain : ∀ f o, C f o → ¬ H f o → m.lookup f.path = some (some o.path) ∨
    (f.path = o.path ∧ m.lookup f.path = none ∧ change.lookup f.path = none)
  changed : ∀ f o, C f o → H f o → m.lookup f.path = some none ∨
    (m.lookup f.path = none ∧ (change.lookup f.path).isSome)
  missing : ∀ f ∈ A, f.dtype ≠ "structure".toList → m.lookup f.path = none → (∃ o, C f o) ∨
    ∃ a r, r ≠ [] ∧ f.path = a ++ r ∧ m.lookup a = some none

variable {V : Type}

theorem metaCtx_congr {A B : List Field} (p : Path)
    (h : ∀ k, 0 < k → k < p.length → isArrayAt A (p.take k) = isArrayAt B (p.take k)) :
    metaCtx A [] [] p = metaCtx B [] [] p := by
  induction p using snocRec with
  | nil => rfl
  | snoc p n ih =>
    by_cases hp : p = []
    · subst hp; rfl
    · rw [metaCtx_snoc A p [] [] n hp, metaCtx_snoc B p [] [] n hp]
      have e := h p.length (List.length_pos_iff.2 hp) (by simp)
      rw [List.take_left' rfl] at e
      rw [List.nil_append, e, ih]
      intro k h1 h2
      have := h k h1 (by simp; omega)
      rwa [List.take_append_of_le_length (by omega)] at this

section
variable {A B : List Field} {C H : Field → Field → Prop} {m : List (Path × Option Path)}
  {change : List (Path × Option Handler)}

theorem mapped_entry {I : Al.Info V} {p q : Path} (h : m.lookup p = some (some q)) :
    mapped (nbcOf m change B) I p = some (ctxPathOf B q) := by
  have : (nbcOf m change B).path p = some (some (ctxPathOf B q, tbpOf B q)) := by simp only [nbcOf, h]
  unfold mapped
  rw [this]
  rfl

theorem nothing_none {I : Al.Info V} {p : Path} (h : m.lookup p = some none) :
    mapped (nbcOf m change B) I p = none := by
  have : (nbcOf m change B).path p = some none := by simp only [nbcOf, h]
  unfold mapped
  rw [this]
  rfl

theorem mapped_absent {I : Al.Info V} {p : Path} (h : m.lookup p = none) :
    mapped (nbcOf m change B) I p = if (change.lookup p).isSome then none else some (I.ctxPath p) := by
  have : (nbcOf m change B).path p = none := by simp only [nbcOf, h]
  unfold mapped
  rw [this]
  rfl

theorem Side.mapped_some (S : Side A B C H m change) {I : Al.Info V} {f o : Field} (hc : C f o) (hh : ¬ H f o) :
    (mapped (nbcOf m change B) I f.path).isSome := by
  rcases S.plain f o hc hh with h | ⟨-, h1, h2⟩
  · rw [mapped_entry h]; rfl
  · rw [mapped_absent h1, h2]; rfl

theorem Side.mapped_none (S : Side A B C H m change) {I : Al.Info V} {f o : Field} (hc : C f o) (hh : H f o) :
    mapped (nbcOf m change B) I f.path = none := by
  rcases S.changed f o hc hh with h | ⟨h1, h2⟩
  · exact nothing_none h
  · rw [mapped_absent h1, if_pos h2]

/-- Identified fields above a field that did not change. -/
theorem Same.above {f o : Field} (h : Same C H f o) {f' o' : Field} (h1 : C f' o') {r : Path} (h2 : f.path = f'.path ++ r) :
    Same C H f' o' :=
  ⟨h1, fun g p u h3 h4 => h.2 g p (u ++ r) h3 (by rw [h2, h4, List.append_assoc])⟩

theorem isArrayAt_field {l : List Field} (hw : (l.map (·.path)).Nodup) {f : Field} (hf : f ∈ l) :
    isArrayAt l f.path = true ↔ f.dtype = "struct_array".toList := by
  unfold isArrayAt
  rw [field?_mem hw hf]
  simp only [decide_eq_true_eq]

theorem isArrayAt_exists {l : List Field} {p : Path} (h : isArrayAt l p = true) :
    ∃ f ∈ l, f.path = p ∧ f.dtype = "struct_array".toList := by
  unfold isArrayAt at h
  cases hf : field? l p with
  | none => rw [hf] at h; cases h
  | some f =>
    rw [hf] at h
    obtain ⟨h1, h2⟩ := field?_some hf
    exact ⟨f, h1, h2, of_decide_eq_true h⟩

theorem Side.no_arrays {l l' : List Field} {p q : Path}
    (h : ∀ g, Above q g → g ∈ l' → g.dtype = "struct_array".toList →
      ∃ f, Above p f ∧ f ∈ l ∧ f.dtype = "struct_array".toList) (hw : WellFormed l)
    (hn : (parents p).filter (isArrayAt l) = []) : (parents q).filter (isArrayAt l') = [] := by
  rw [List.filter_eq_nil_iff] at hn ⊢
  intro x hx hxa
  obtain ⟨-, r, hr, e⟩ := mem_parents.1 hx
  obtain ⟨g, h1, rfl, h2⟩ := isArrayAt_exists hxa
  obtain ⟨f, ⟨u, hu, e'⟩, h3, h4⟩ := h g ⟨r, hr, e⟩ h1 h2
  exact hn f.path (mem_parents.2 ⟨(hw.names f h3).1, u, hu, e'⟩) ((isArrayAt_field hw.once h3).2 h4)

/-- The arrays of structures above identified fields are identified. -/
theorem Side.arrays_link (wA : WellFormed A) (wB : WellFormed B) (S : Side A B C H m change) {link : Path → Option Path}
    (hlink : ∀ p q, link p = some q ↔ ∃ f o, Same C H f o ∧ f.path = p ∧ o.path = q) (k : Nat) :
    ∀ f o, f.path.length = k → Same C H f o →
      ((parents f.path).filter (isArrayAt A)).map link = ((parents o.path).filter (isArrayAt B)).map some := by
  induction k using Nat.strongRecOn with
  | ind k ih =>
    intro f o hk hs
    obtain ⟨r1, r2⟩ := S.around f o hs
    rcases nearest_array A f.path with h | ⟨g, r, hg, hr, e, ha, hlast⟩
    · rw [h, Side.no_arrays (fun h a b c => by
        obtain ⟨g, h1, h2, h3⟩ := r2 h a b c
        exact ⟨g, h1, (S.mem _ _ h2).1, h3⟩) wA h]
      rfl
    · obtain ⟨g, hgm, rfl, hgt⟩ := isArrayAt_exists ha
      obtain ⟨h, ⟨u, hu, e'⟩, hc, ht⟩ := r1 g ⟨r, hr, e⟩ hgm hgt
      have hhm := (S.mem _ _ hc).2
      have hgh : Same C H g h := hs.above hc e
      have hlast' : ∀ s v, s ≠ [] → v ≠ [] → u = s ++ v → isArrayAt B (h.path ++ s) = false := by
        intro s v hsne hv eu
        rw [Bool.eq_false_iff]
        intro hx
        obtain ⟨h', hm', ep, ht'⟩ := isArrayAt_exists hx
        obtain ⟨g', ⟨r', hr', e1⟩, hc', hgt'⟩ := r2 h' ⟨v, hv, by rw [ep, e', eu, List.append_assoc]⟩ hm' ht'
        have hgm' := (S.mem _ _ hc').1
        -- `g'` is not longer than `g`
        rcases List.append_eq_append_iff.1 (e.symm.trans e1) with ⟨x, h1, h2⟩ | ⟨x, h1, h2⟩
        · by_cases hx0 : x = []
          · subst hx0
            rw [List.append_nil] at h1
            cases field_once wA.once hgm' hgm h1
            cases S.one _ _ _ hc hc'
            exact hsne (by simpa using ep)
          · have := hlast x r' hx0 hr' h2
            rw [← h1] at this
            rw [(isArrayAt_field wA.once hgm').2 hgt'] at this
            cases this
        · by_cases hx0 : x = []
          · subst hx0
            rw [List.append_nil] at h1
            cases field_once wA.once hgm hgm' h1
            cases S.one _ _ _ hc hc'
            exact hsne (by simpa using ep)
          · obtain ⟨h2', ⟨w, hw, e2⟩, hc2, -⟩ := (S.around g h hgh).1 g' ⟨x, hx0, h1⟩ hgm' hgt'
            cases S.one _ _ _ hc' hc2
            have l1 := congrArg List.length e2
            have l2 := congrArg List.length ep
            have l3 := List.length_pos_iff.2 hsne
            simp at l1 l2
            omega
      have hg0 := (wA.names g hgm).1
      have hh0 := (wB.names h hhm).1
      rw [e, e', filter_parents_last hg0 hr ha hlast,
        filter_parents_last hh0 hu ((isArrayAt_field wB.once hhm).2 ht) hlast', List.map_append, List.map_append,
        ih g.path.length (by rw [← hk, e]; have := List.length_pos_iff.2 hr; simp; omega) g h rfl hgh]
      congr 1
      simp [(hlink g.path h.path).2 ⟨g, h, hgh, rfl, rfl⟩]

theorem Side.arrayAt (wA : WellFormed A) (wB : WellFormed B) (S : Side A B C H m change)
    (hkind : ∀ f o, C f o → ¬ H f o → (f.dtype = "struct_array".toList ↔ o.dtype = "struct_array".toList))
    {f o : Field} (h : Same C H f o) : isArrayAt A f.path = isArrayAt B o.path := by
  obtain ⟨hf, ho⟩ := S.mem f o h.1
  have := hkind f o h.1 (h.2 f o [] h.1 (by simp))
  unfold isArrayAt
  rw [field?_mem wA.once hf, field?_mem wB.once ho]
  simp only [this]

/-- The map describes which nodes are the same. -/
theorem Side.describes (wA : WellFormed A) (wB : WellFormed B) (S : Side A B C H m change)
    (hkind : ∀ f o, C f o → ¬ H f o → (f.dtype = "structure".toList ↔ o.dtype = "structure".toList) ∧
      (f.dtype = "struct_array".toList ↔ o.dtype = "struct_array".toList))
    {mA mB : MFields} (sA : Shows A mA) (sB : Shows B mB) (link : Path → Option Path)
    (hlink : ∀ p q, link p = some q ↔ ∃ f o, Same C H f o ∧ f.path = p ∧ o.path = q)
    (xA xB : Path → Nat) (dA dB : LeafMeta → V → Bool) :
    Describes (nbcOf m change B) (infoOf B xB dB) (infoOf A xA dA) mB mA link where
  here := by
    intro p q _ hl
    obtain ⟨f, o, h, rfl, rfl⟩ := (hlink p q).1 hl
    have hh := h.2 f o [] h.1 (by simp)
    rcases S.plain f o h.1 hh with h1 | ⟨e, h1, h2⟩
    · rw [mapped_entry h1, ctxPathOf_eq]
      rfl
    · rw [mapped_absent h1, h2]
      simp only [Option.isSome_none, Bool.false_eq_true, if_false, infoOf]
      rw [← e]
      refine congrArg some (metaCtx_congr _ fun k hk hl => ?_)
      have n1 : f.path.take k ≠ [] := by
        intro h0
        have := congrArg List.length h0
        rw [List.length_take, List.length_nil] at this
        omega
      obtain ⟨f', o', hc, e1, e2⟩ := S.level f o _ (f.path.drop k) h.1 e n1 (List.take_append_drop _ _).symm
      have := S.arrayAt wA wB (fun f o a b => (hkind f o a b).2)
        (h.above hc (r := f.path.drop k) (by rw [e1, List.take_append_drop]))
      rwa [e1, e2] at this
  skip := by
    intro p ⟨x, hx, hxs⟩ hl
    have hp : p ≠ [] := by
      intro e; subst e
      simp only [metaAt, Option.some.injEq] at hx
      exact hxs _ hx.symm
    obtain ⟨f, hf, rfl, hfk⟩ := sA.node p x hp hx
    have hns : f.dtype ≠ "structure".toList := by
      cases x with
      | leaf l => exact hfk.1
      | struct c => exact absurd rfl (hxs c)
      | aos c => rw [show f.dtype = _ from hfk]; decide +kernel
    by_cases hc : ∃ o, C f o
    · obtain ⟨o, hc⟩ := hc
      by_cases hbad : ∃ f' o' r, C f' o' ∧ f.path = f'.path ++ r ∧ H f' o'
      · obtain ⟨f', o', r, h1, h2, h3⟩ := hbad
        exact ⟨f'.path, (wA.names f' (S.mem _ _ h1).1).1, ⟨r, h2.symm⟩, S.mapped_none h1 h3⟩
      · have : link f.path = some o.path := (hlink _ _).2 ⟨f, o, ⟨hc, fun f' o' r h1 h2 h3 =>
          hbad ⟨f', o', r, h1, h2, h3⟩⟩, rfl, rfl⟩
        rw [hl] at this; cases this
    · cases hm : m.lookup f.path with
      | none =>
        rcases S.missing f hf hns hm with h1 | ⟨a, r, -, h2, h3⟩
        · exact absurd h1 hc
        · exact ⟨a, S.key a h3, ⟨r, h2.symm⟩, nothing_none h3⟩
      | some y =>
        cases y with
        | none => exact ⟨f.path, hp, List.prefix_rfl, nothing_none hm⟩
        | some q =>
          obtain ⟨f', o, h1, h2⟩ := S.entry _ _ hm
          cases field_once wA.once (S.mem _ _ h1).1 hf h2
          exact absurd ⟨o, h1⟩ hc
  above := by
    intro p q t _ hl ht htp
    obtain ⟨f, o, h, rfl, rfl⟩ := (hlink p q).1 hl
    obtain ⟨r, hr⟩ := htp
    by_cases hr0 : r = []
    · subst hr0
      rw [List.append_nil] at hr
      rw [hr]
      exact S.mapped_some h.1 (h.2 f o [] h.1 (by simp))
    · rcases S.through f o t r h.1 ht hr0 hr.symm with ⟨f', o', h3, rfl⟩ | ⟨h3, h4⟩
      · exact S.mapped_some h3 (h.2 f' o' r h3 hr.symm)
      · rw [mapped_absent h3, h4]; rfl
  exist := by
    intro p q ⟨x, hx, hxs⟩ hl
    obtain ⟨f, o, h, rfl, rfl⟩ := (hlink p q).1 hl
    obtain ⟨hf, ho⟩ := S.mem f o h.1
    obtain ⟨y, hy, hk⟩ := sB.field o ho
    refine ⟨y, hy, fun d e => ?_⟩
    subst e
    obtain ⟨x', hx', hk'⟩ := sA.field f hf
    rw [hx] at hx'
    cases hx'
    have := ((hkind f o h.1 (h.2 f o [] h.1 (by simp))).1).2 hk
    cases x with
    | leaf l => exact hk'.1 this
    | struct d => exact hxs d rfl
    | aos d =>
      rw [show f.dtype = _ from hk'] at this
      simp at this
  arrays := by
    intro p q ⟨x, hx, hxs⟩ hl
    obtain ⟨f, o, h, rfl, rfl⟩ := (hlink p q).1 hl
    obtain ⟨hf, ho⟩ := S.mem f o h.1
    obtain ⟨y, hy, -⟩ := sB.field o ho
    rw [arraysOf_parents wA.once sA _ (by simp [hx]), arraysOf_parents wB.once sB _ (by simp [hy])]
    exact S.arrays_link wA wB hlink _ f o rfl h

/-- There is a function that gives the linked paths. -/
theorem Side.link_exists (wA : WellFormed A) (S : Side A B C H m change) :
    ∃ link : Path → Option Path, ∀ p q, link p = some q ↔ ∃ f o, Same C H f o ∧ f.path = p ∧ o.path = q := by
  classical
  refine ⟨fun p => if h : ∃ q f o, Same C H f o ∧ f.path = p ∧ o.path = q then some h.choose else none, ?_⟩
  intro p q
  by_cases h : ∃ q f o, Same C H f o ∧ f.path = p ∧ o.path = q
  · simp only [h, dif_pos, Option.some.injEq]
    obtain ⟨f, o, h1, h2, h3⟩ := h.choose_spec
    constructor
    · intro e; exact ⟨f, o, h1, h2, h3.trans e⟩
    · rintro ⟨f', o', h4, h5, h6⟩
      cases field_once wA.once (S.mem _ _ h1.1).1 (S.mem _ _ h4.1).1 (h2.trans h5.symm)
      cases S.one _ _ _ h1.1 h4.1
      rw [← h3, h6]
  · simp only [h, dif_neg, not_false_eq_true, reduceCtorEq, false_iff]
    exact fun ⟨f, o, h1⟩ => h ⟨q, f, o, h1⟩

end

/-! ### The maps that are built -/

section
variable {d : Dicts}
open Verif.Props

theorem change_iff (G : Given d) {f o : Field} (hc : Claim d f o) (hu : (buildMap d).toOld.lookup f.path = none) :
    ((buildMap d).changeOld.lookup f.path).isSome ↔ Changed d f o := by
  obtain ⟨ops, tops, I, K⟩ := inv_renames G
  have e1 : (buildMap d).changeOld = (renames d).changeOld := rfl
  rw [e1, I.is.changeOld]
  constructor
  · intro h
    obtain ⟨x, hx⟩ := Option.isSome_iff_exists.1 h
    obtain ⟨t, h1, h2, -⟩ := lookup_some hx
    obtain ⟨f', hf', e3, hs, -⟩ := I.tok t h1
    cases field_once G.new.once hf' hc.1 (e3.trans h2)
    rcases hs with ⟨o', -, c', h3, -⟩ | ⟨h3, -⟩ | ⟨h3, -⟩
    · cases G.claim_same c' hc
      exact .inl h3
    · exact .inr (.inl h3)
    · exact .inr (.inr h3)
  · intro h
    have ex : ∃ t ∈ tops, t.new = f.path := by
      rcases h with h | h
      · have h4 : (renames d).toOld.lookup f.path = none := by
          rcases build_toOld d f.path with ⟨h5, -⟩ | h5
          · rw [hu] at h5; simp at h5
          · rw [← h5, hu]
        exact (inv_unmapped I K G hc h4).2.2 h
      · exact I.points f hc.1 h
    obtain ⟨t, ht, e⟩ := ex
    rw [Option.isSome_iff_ne_none]
    intro hn
    exact lookup_none.1 hn t ht e

theorem was_up (G : Given d) {q p : Path} (h : Was d q p) : q.length ≤ p.length ∧
    ∀ t r, q = t ++ r → r ≠ [] → ∃ s u, p = s ++ u ∧ r.length ≤ u.length ∧ Was d t s := by
  induction h with
  | root => exact ⟨Nat.le_refl _, fun t r e hr => absurd (by simpa using e.symm : t = [] ∧ r = []).2 hr⟩
  | @renamed q p k n f o h hf hp hk ho hop ht ih =>
    have hk0 := List.length_pos_iff.2 (G.inner f hf k hk).1
    have ih1 := ih.1
    refine ⟨by simp; omega, fun t r e hr => ?_⟩
    obtain ⟨r, n', rfl⟩ := snoc_of_ne hr
    rw [← List.append_assoc] at e
    obtain ⟨e1, -⟩ := List.append_inj' e rfl
    by_cases hr0 : r = []
    · subst hr0
      rw [List.append_nil] at e1
      exact ⟨p, k, rfl, by simp; omega, e1 ▸ h⟩
    · obtain ⟨s, u, h1, h2, h3⟩ := ih.2 t r e1 hr0
      exact ⟨s, u ++ k, by rw [h1, List.append_assoc], by simp; omega, h3⟩
  | @same q p n h hn ih =>
    refine ⟨by simpa using ih.1, fun t r e hr => ?_⟩
    obtain ⟨r, n', rfl⟩ := snoc_of_ne hr
    rw [← List.append_assoc] at e
    obtain ⟨e1, -⟩ := List.append_inj' e rfl
    by_cases hr0 : r = []
    · subst hr0
      rw [List.append_nil] at e1
      exact ⟨p, [n], rfl, by simp, e1 ▸ h⟩
    · obtain ⟨s, u, h1, h2, h3⟩ := ih.2 t r e1 hr0
      exact ⟨s, u ++ [n], by rw [h1, List.append_assoc], by simpa using h2, h3⟩

/-- If two fields are identified, each structure above the new field is identified with a structure above the old one. -/
theorem _root_.Verif.VMap.Given.claim_up (G : Given d) {f o : Field} (h : Claim d f o) {t r : Path} (ht : t ≠ []) (hr : r ≠ [])
    (e : f.path = t ++ r) : ∃ f' o' u, Claim d f' o' ∧ f'.path = t ∧ o.path = o'.path ++ u ∧ r.length ≤ u.length ∧
      t.length ≤ o'.path.length := by
  have key : ∃ s u, o.path = s ++ u ∧ r.length ≤ u.length ∧ Was d t s := by
    by_cases hn : Names d f o → Fits d o f
    · exact (was_up G (G.claim_was h hn)).2 t r e hr
    · have hN : Names d f o := Classical.byContradiction fun hx => hn fun h => absurd h hx
      obtain ⟨hf, ho, q, n, k, p, e1, hw, hk, e2⟩ := hN
      have hk0 := List.length_pos_iff.2 (G.inner f hf k hk).1
      obtain ⟨r, n', rfl⟩ := snoc_of_ne hr
      rw [e1, ← List.append_assoc] at e
      obtain ⟨e3, -⟩ := List.append_inj' e rfl
      by_cases hr0 : r = []
      · subst hr0
        rw [List.append_nil] at e3
        exact ⟨p, k, e2, by simp; omega, e3 ▸ hw⟩
      · obtain ⟨s, u, h1, h2, h3⟩ := (was_up G hw).2 t r e3 hr0
        exact ⟨s, u ++ k, by rw [e2, h1, List.append_assoc], by simp; omega, h3⟩
  obtain ⟨s, u, e1, hu, hw⟩ := key
  obtain ⟨f', h1, h2⟩ := wf_prefix G.new r ht ⟨f, h.1, e⟩
  have hl := (was_up G hw).1
  have hs : s ≠ [] := fun h0 => by
    have := List.length_pos_iff.2 ht
    rw [h0, List.length_nil] at hl
    omega
  obtain ⟨o', h3, h4⟩ := wf_prefix G.old u hs ⟨o, h.2.1, e1⟩
  exact ⟨f', o', u, G.was_claim h1 h3 (by rw [h2, h4]; exact hw), h2, by rw [h4]; exact e1, hu, by rw [h4]; exact hl⟩

/-- Above identified fields with the same path, fields with the same path are identified. -/
theorem _root_.Verif.VMap.Given.claim_level (G : Given d) {f o : Field} (h : Claim d f o) (hp : f.path = o.path) {t r : Path} (ht : t ≠ [])
    (e : f.path = t ++ r) : ∃ f' o', Claim d f' o' ∧ f'.path = t ∧ o'.path = t := by
  by_cases hr : r = []
  · subst hr
    rw [List.append_nil] at e
    exact ⟨f, o, h, e, hp ▸ e⟩
  · obtain ⟨f', o', u, h1, h2, h3, h4, h5⟩ := G.claim_up h ht hr e
    refine ⟨f', o', h1, h2, ?_⟩
    have e1 : t ++ r = o'.path ++ u := by rw [← e, hp, h3]
    have hl := congrArg List.length e1
    simp only [List.length_append] at hl
    exact (List.append_inj e1 (by omega)).1.symm

theorem same_node_iff (G : Given d) (L : Placed d) {f o : Field} :
    Same (fun o f => Claim d f o) (fun o f => Changed d f o) o f ↔ SameNode d f o := by
  constructor
  · rintro ⟨h1, h2⟩
    refine ⟨h1, fun f' o' r h3 h4 => ?_⟩
    by_cases hr : r = []
    · subst hr
      rw [List.append_nil] at h4
      cases field_once G.new.once h1.1 h3.1 h4
      cases G.claim_same h1 h3
      exact h2 o f [] h1 (by simp)
    · obtain ⟨f1, o1, u, h5, h6, h7, -⟩ := G.claim_up h1 (G.new.names f' h3.1).1 hr h4
      cases field_once G.new.once h5.1 h3.1 h6
      cases G.claim_same h5 h3
      exact h2 o' f' u h3 h7
  · rintro ⟨h1, h2⟩
    refine ⟨h1, fun o' f' r h3 h4 => ?_⟩
    by_cases hr : r = []
    · subst hr
      rw [List.append_nil] at h4
      cases field_once G.old.once h1.2.1 h3.2.1 h4
      cases G.claim_same' h1 h3
      exact h2 f o [] h1 (by simp)
    · rcases L.left f o h1 o' h3.2.1 ⟨r, hr, h4⟩ with ⟨g, h5, u, -, h6⟩ | ⟨-, h5⟩
      · cases G.claim_same' h5 h3
        exact h2 f' o' u h3 h6
      · exact h5 f' h3

theorem keeps_kinds {d : Dicts} (hk : KeepsKind d) {f o : Field} (hh : ¬ Changed d f o) :
    (f.dtype = "structure".toList ↔ o.dtype = "structure".toList) ∧
      (f.dtype = "struct_array".toList ↔ o.dtype = "struct_array".toList) := by
  apply hk
  cases h : d.same f.dtype o.dtype with
  | true => rfl
  | false => exact absurd (.inl h) hh

/-- The arrays of structures around identified fields. -/
theorem _root_.Verif.VMap.Given.around (G : Given d) (L : Placed d) (hk : KeepsKind d) {f o : Field} (h : SameNode d f o) :
    (∀ g, Above f.path g → g ∈ d.new → g.dtype = "struct_array".toList →
      ∃ h, Above o.path h ∧ Claim d g h ∧ h.dtype = "struct_array".toList) ∧
    (∀ h, Above o.path h → h ∈ d.old → h.dtype = "struct_array".toList →
      ∃ g, Above f.path g ∧ Claim d g h ∧ g.dtype = "struct_array".toList) := by
  constructor
  · rintro g ⟨r, hr, e⟩ hg ht
    obtain ⟨f', o', u, h1, h2, h3, h4⟩ := G.claim_up h.1 (G.new.names g hg).1 hr e
    cases field_once G.new.once h1.1 hg h2
    refine ⟨o', ⟨u, ?_, h3⟩, h1, (keeps_kinds hk (h.2 _ _ r h1 e)).2.1 ht⟩
    have := List.length_pos_iff.2 hr
    exact List.length_pos_iff.1 (by have := h4.1; omega)
  · rintro h' ha hm ht
    rcases L.left f o h.1 h' hm ha with ⟨g, h1, h2⟩ | ⟨h1, -⟩
    · obtain ⟨r, hr, e⟩ := h2
      exact ⟨g, ⟨r, hr, e⟩, h1, (keeps_kinds hk (h.2 _ _ r h1 e)).2.2 ht⟩
    · rw [h1] at ht
      exact absurd ht (by decide +kernel)

theorem skipped_free (m : List (Path × Option Path)) (l : List Path) : ∀ done, (∀ p ∈ done, ∀ e ∈ m, p ∉ parents e.1) →
    ∀ p ∈ skipped m l done, ∀ e ∈ m, p ∉ parents e.1 := by
  induction l with
  | nil => intro done h; exact h
  | cons q r ih =>
    intro done h
    unfold skipped
    split
    · exact ih done h
    · next hq =>
      split
      · exact ih done h
      · refine ih _ fun p hp e he hx => ?_
        rcases List.mem_cons.1 hp with rfl | hp
        · exact hq (List.any_eq_true.2 ⟨e, he, by simpa using hx⟩)
        · exact h p hp e he hx

/-- Structures that were left are not skipped. -/
theorem _root_.Verif.VMap.Given.through_old (G : Given d) {f o : Field} (h : Claim d f o) {t r : Path} (ht : t ≠ [])
    (hr : r ≠ []) (e : o.path = t ++ r) (hn : ∀ f' o', Claim d f' o' → o'.path ≠ t) :
    (buildMap d).toNew.lookup t = none ∧ (buildMap d).changeNew.lookup t = none := by
  obtain ⟨o', ho', rfl⟩ := wf_prefix G.old r ht ⟨o, h.2.1, e⟩
  obtain ⟨ops, tops, I, K⟩ := inv_renames G
  constructor
  · have h1 : (renames d).toNew.lookup o'.path = none := by
      cases hm : (renames d).toNew.lookup o'.path with
      | none => rfl
      | some x =>
        obtain ⟨f1, o1, c, e1⟩ := inv_entry' I hm
        exact absurd e1 (hn f1 o1 c)
    have h2 : (renames d).toNew.lookup o.path ≠ none := by
      intro h2
      rcases inv_sync G I h with ⟨h3, -⟩ | ⟨-, h3, -⟩ | ⟨-, h3, -⟩
      · obtain ⟨e1, -⟩ := inv_unmapped I K G h h3
        obtain ⟨f', o1, h4, -, h5⟩ := G.claim_level h e1 ht (e1.trans e)
        exact hn _ _ h4 h5
      · rw [h2] at h3; cases h3
      · rw [h2] at h3; cases h3
    rcases lookup_mapMissing (missingOld_none d) o'.path with ⟨h3, -, -⟩ | ⟨-, h3⟩
    · exfalso
      obtain ⟨x, hx⟩ := Option.ne_none_iff_exists'.1 h2
      rw [I.is.toNew] at hx
      obtain ⟨op, h4, h5, -⟩ := lookup_some hx
      refine skipped_free _ _ [] (by simp) _ h3 _ (by rw [I.is.toNew]; exact List.mem_map.2 ⟨op, h4, rfl⟩) ?_
      rw [h5]
      exact mem_parents.2 ⟨ht, r, hr, e⟩
    · exact h3.trans h1
  · have e1 : (buildMap d).changeNew = (renames d).changeNew := rfl
    rw [e1, I.is.changeNew]
    refine lookup_none.2 fun x hx e2 => ?_
    obtain ⟨f', -, -, -, h1, -⟩ := I.tok x hx
    exact hn f' o' (h1 o' ho' e2.symm) rfl

/-- If previous names have one part, nodes are not moved. -/
theorem _root_.Verif.VMapSpec.Level.placed (G : Given d) (L : Level d) : Placed d where
  reuse f hf o ho e := ⟨.inr ⟨o, L.reuse f hf o ho e⟩, .inr ⟨f, L.reuse f hf o ho e⟩⟩
  left := by
    rintro f o hc h hm ⟨r, hr, e⟩
    left
    obtain ⟨h1, h2⟩ := G.claim_take L hc
    obtain ⟨f1, o1, h3, h4, h5⟩ := h2 h.path.length (List.length_pos_iff.2 (G.old.names h hm).1) (by rw [h1, e]; simp)
    rw [e, List.take_left' rfl] at h5
    cases field_once G.old.once h3.2.1 hm h5
    refine ⟨f1, h3, f.path.drop h.path.length, ?_, by rw [h4, List.take_append_drop]⟩
    have := List.length_pos_iff.2 hr
    have hl := congrArg List.length e
    intro h0
    have := congrArg List.length h0
    simp at this hl
    omega

/-- The map to the old version. -/
theorem side_old (G : Given d) (L : Placed d) (hr : RenamedOnly d) (hk : KeepsKind d) :
    Side d.new d.old (Claim d) (Changed d) (buildMap d).toOld (buildMap d).changeOld where
  mem f o h := ⟨h.1, h.2.1⟩
  one f o o' h h' := G.claim_same h h'
  one' f f' o h h' := G.claim_same' h h'
  level f o t r h e ht hr := G.claim_level h e ht hr
  through f o t r h ht hr e := by
    obtain ⟨f', o', -, h1, h2, -⟩ := G.claim_up h ht hr e
    exact .inl ⟨f', o', h1, h2⟩
  around f o h := G.around L hk h
  entry p q h := by
    obtain ⟨-, f, o, h1, h2, -⟩ := C21_linked G p q h
    exact ⟨f, o, h1, h2⟩
  key p h := by
    obtain ⟨f, hf, rfl, -⟩ := C21_nothing G p h
    exact (G.new.names f hf).1
  plain f o hc hh := by
    have hs : d.same f.dtype o.dtype = true := by
      cases h : d.same f.dtype o.dtype with
      | true => rfl
      | false => exact absurd (.inl h) hh
    rcases C21_found G f o hc (.inl hs) with ⟨h, -⟩ | ⟨h1, h2, -⟩
    · exact .inl h
    · refine .inr ⟨h1, h2, ?_⟩
      rw [← Option.isNone_iff_eq_none, ← Option.not_isSome, Bool.not_eq_true', Bool.eq_false_iff]
      exact fun h => hh ((change_iff G hc h2).1 h)
  changed f o hc hh := by
    cases hm : (buildMap d).toOld.lookup f.path with
    | none => exact .inr ⟨rfl, (change_iff G hc hm).2 hh⟩
    | some x =>
      cases x with
      | none => exact .inl rfl
      | some q =>
        obtain ⟨-, f', o', h1, h2, -, h4⟩ := C21_linked G _ _ hm
        cases field_once G.new.once h1.1 hc.1 h2
        cases G.claim_same h1 hc
        exact absurd hh (hr f o hc h4)
  missing f hf hs h := by
    rcases C21_unmapped G f hf h with ⟨o, -, -, c, -⟩ | ⟨hn, ⟨-, a, r, h1⟩ | ⟨-, f', o, r, hr', c, e, -⟩ | ⟨-, o, ho, e, -⟩⟩
    · exact .inl ⟨o, c⟩
    · exact .inr ⟨a, r, h1⟩
    · obtain ⟨f1, o1, -, h1, h2, -⟩ := G.claim_up c (G.new.names f hf).1 hr' e
      cases field_once G.new.once h1.1 hf h2
      exact absurd h1 (hn o1)
    · exact .inl ((L.reuse f hf o ho e.symm).1.resolve_left hs)

/-- The map to the new version. -/
theorem side_new (G : Given d) (L : Placed d) (hr : RenamedOnly d) (hk : KeepsKind d) :
    Side d.old d.new (fun o f => Claim d f o) (fun o f => Changed d f o) (buildMap d).toNew
      (buildMap d).changeNew where
  mem f o h := ⟨h.2.1, h.1⟩
  one f o o' h h' := G.claim_same' h h'
  one' f f' o h h' := G.claim_same h h'
  level o f t r h e ht hr := by
    obtain ⟨f', o', h1, h2, h3⟩ := G.claim_level h e.symm ht (e.symm.trans hr)
    exact ⟨o', f', h1, h3, h2⟩
  through o f t r h ht hr e := by
    by_cases hc : ∃ f' o', Claim d f' o' ∧ o'.path = t
    · obtain ⟨f', o', h1, h2⟩ := hc
      exact .inl ⟨o', f', h1, h2⟩
    · exact .inr (G.through_old h ht hr e fun f' o' h1 h2 => hc ⟨f', o', h1, h2⟩)
  around o f h := by
    obtain ⟨h1, h2⟩ := G.around L hk ((same_node_iff G L).1 h)
    exact ⟨h2, h1⟩
  entry p q h := by
    obtain ⟨-, f, o, h1, -, h2, -⟩ := C21_linked G q p ((C21_inverse G q p).2 h)
    exact ⟨o, f, h1, h2⟩
  key p h := by
    obtain ⟨f, hf, rfl, -⟩ := C21_nothing_old G p h
    exact (G.old.names f hf).1
  plain o f hc hh := by
    rcases (side_old G L hr hk).plain f o hc hh with h | ⟨h1, h2, h3⟩
    · exact .inl ((C21_inverse G _ _).1 h)
    · have hs : d.same f.dtype o.dtype = true := by
        cases h : d.same f.dtype o.dtype with
        | true => rfl
        | false => exact absurd (.inl h) hh
      rcases C21_found G f o hc (.inl hs) with ⟨h, -⟩ | ⟨-, -, h4⟩
      · rw [h2] at h; cases h
      · refine .inr ⟨h1.symm, h4, ?_⟩
        rcases C21_changes G f o hc with ⟨-, h5⟩ | ⟨x, y, h5, -⟩
        · exact h5
        · rw [h3] at h5; cases h5
  changed o f hc hh := by
    rcases (side_old G L hr hk).changed f o hc hh with h | ⟨h1, h2⟩
    · cases hm : (buildMap d).toNew.lookup o.path with
      | none =>
        rcases C21_unmapped_old G o hc.2.1 hm with ⟨f', hf', e, c, -, h3⟩ | ⟨h3, -⟩
        · cases G.claim_same' c hc
          rw [← e, h] at h3; cases h3
        · exact absurd hc (h3 f)
      | some x =>
        cases x with
        | none => exact .inl rfl
        | some q =>
          have := (C21_inverse G q o.path).2 hm
          obtain ⟨-, f', o', h3, h4, h5, -⟩ := C21_linked G _ _ this
          cases field_once G.old.once h3.2.1 hc.2.1 h5
          cases G.claim_same' h3 hc
          rw [← h4, h] at this
          cases this
    · rcases C21_unmapped G f hc.1 h1 with ⟨o', ho', e, c, ht, h3⟩ | ⟨h3, -⟩
      · cases G.claim_same c hc
        rw [← e] at h3
        refine .inr ⟨h3, ?_⟩
        rcases C21_changes G f o hc with ⟨h5, -⟩ | ⟨x, y, -, h5, -⟩
        · rw [h5] at h2; cases h2
        · rw [h5]; rfl
      · exact absurd hc (h3 o)
  missing o ho hs h := by
    rcases C21_unmapped_old G o ho h with ⟨f, -, -, c, -⟩ | ⟨hn, ⟨-, a, r, h1⟩ | ⟨-, f, o', r, hr', c, e, -⟩ | ⟨f, -, hf, e, -⟩⟩
    · exact .inl ⟨f, c⟩
    · exact .inr ⟨a, r, h1⟩
    · rcases L.left f o' c o ho ⟨r, hr', e⟩ with ⟨g, h1, -⟩ | ⟨h1, -⟩
      · exact absurd h1 (hn g)
      · exact absurd h1 hs
    · exact .inl ((L.reuse f hf o ho e).2.resolve_left hs)

end

/-! ### Checks for concrete dictionaries -/

mutual
/-- All nodes of a metadata tree. -/
def nodesM (p : Path) : Meta → List (Path × Meta)
  | .leaf l => [(p, .leaf l)]
  | .struct c => (p, .struct c) :: nodesF p c
  | .aos c => (p, .aos c) :: nodesF p c
def nodesF (p : Path) : MFields → List (Path × Meta)
  | .nil => []
  | .cons n m r => nodesM (p ++ [n]) m ++ nodesF p r
end

theorem nodesF_child {c : MFields} {n : Name} {y : Meta} (h : mchild c n = some y) (p : Path) :
    ∀ z ∈ nodesM (p ++ [n]) y, z ∈ nodesF p c := by
  induction c using MFields.rec (motive_1 := fun _ => True) with
  | leaf | struct | aos => trivial
  | nil => simp [mchild] at h
  | cons k m r _ ih =>
    intro z hz
    simp only [mchild] at h
    simp only [nodesF, List.mem_append]
    split at h
    · next e => cases h; subst e; exact .inl hz
    · exact .inr (ih h z hz)

theorem nodesM_mem (q : Path) : ∀ (x : Meta) (p : Path) (y : Meta), metaAt x q = some y → (p ++ q, y) ∈ nodesM p x := by
  induction q with
  | nil =>
    intro x p y h
    simp only [metaAt, Option.some.injEq] at h
    subst h
    cases x <;> simp [nodesM]
  | cons n r ih =>
    intro x p y h
    simp only [metaAt] at h
    cases hc : child x n with
    | none => rw [hc] at h; cases h
    | some z =>
      rw [hc, Option.bind_some] at h
      have := ih z (p ++ [n]) y h
      rw [List.append_assoc, List.singleton_append] at this
      cases x with
      | leaf => cases hc
      | struct c => exact List.mem_cons_of_mem _ (nodesF_child hc p _ this)
      | aos c => exact List.mem_cons_of_mem _ (nodesF_child hc p _ this)

def isKindB (t : List Char) : Meta → Bool
  | .leaf _ => t ≠ "structure".toList && t ≠ "struct_array".toList
  | .struct _ => t = "structure".toList
  | .aos _ => t = "struct_array".toList

theorem isKind_iff {t : List Char} {x : Meta} : isKindB t x = true ↔ IsKind t x := by
  cases x <;> simp only [isKindB, IsKind, Bool.and_eq_true, decide_eq_true_eq]

def showsB (l : List Field) (m : MFields) : Bool :=
  (nodesF [] m).all (fun z => l.any fun f => f.path = z.1 && isKindB f.dtype z.2) &&
  l.all fun f => match metaAt (.struct m) f.path with
    | some x => isKindB f.dtype x
    | none => false

theorem shows_of_check {l : List Field} {m : MFields} (h : showsB l m = true) : Shows l m := by
  simp only [showsB, Bool.and_eq_true, List.all_eq_true, List.any_eq_true] at h
  obtain ⟨h1, h2⟩ := h
  constructor
  · intro p x hp hx
    have := nodesM_mem p _ [] x hx
    simp only [nodesM, List.nil_append, List.mem_cons, Prod.mk.injEq] at this
    rcases this with ⟨e, -⟩ | this
    · exact absurd e hp
    · obtain ⟨f, hf, e⟩ := h1 _ this
      simp only [decide_eq_true_eq] at e
      exact ⟨f, hf, e.1, isKind_iff.1 e.2⟩
  · intro f hf
    have := h2 f hf
    cases hx : metaAt (.struct m) f.path with
    | none => rw [hx] at this; cases this
    | some x => rw [hx] at this; exact ⟨x, rfl, isKind_iff.1 this⟩

def changedB (d : Dicts) (f o : Field) : Bool :=
  !d.same f.dtype o.dtype || match f.nbc with
    | none => false
    | some a => a.desc = .repeatConditional || a.desc = .centreline

theorem changed_changedB {d : Dicts} {f o : Field} (h : Changed d f o) : changedB d f o = true := by
  unfold changedB
  rcases h with h | ⟨a, _, h1, h2, -⟩ | ⟨a, _, h1, h2, -⟩
  · simp [h]
  · simp [h1, h2]
  · simp [h1, h2]

/-- Claims, with the fields above. -/
def placedB (d : Dicts) : Bool :=
  d.new.all (fun f => d.old.all fun o => !(f.path = o.path) ||
    (f.dtype = "structure".toList || d.old.any (claimB d f)) && (o.dtype = "structure".toList || d.new.any (claimB d · o))) &&
  d.new.all fun f => d.old.all fun o => !claimB d f o || d.old.all fun h =>
    !(h.path.isPrefixOf o.path && h.path ≠ o.path) ||
      d.new.any (fun g => claimB d g h && g.path.isPrefixOf f.path && g.path ≠ f.path) ||
      h.dtype = "structure".toList && d.new.all fun g => !claimB d g h || !changedB d g h

theorem above_iff {p : Path} {g : Field} : Above p g ↔ (g.path.isPrefixOf p && decide (g.path ≠ p)) = true := by
  rw [Bool.and_eq_true, List.isPrefixOf_iff_prefix, decide_eq_true_eq]
  constructor
  · rintro ⟨r, hr, e⟩
    refine ⟨⟨r, e.symm⟩, fun h => hr ?_⟩
    rw [e] at h
    simpa using h
  · rintro ⟨⟨r, e⟩, h⟩
    refine ⟨r, fun hr => h ?_, e.symm⟩
    rw [← e, hr, List.append_nil]

theorem placed_of_check {d : Dicts} (G : Given d) (h : placedB d = true) : Placed d := by
  unfold placedB at h
  simp only [Bool.and_eq_true, List.all_eq_true] at h
  obtain ⟨h1, h2⟩ := h
  have iff := fun {f o} (hf : f ∈ d.new) (ho : o ∈ d.old) => claim_iff G.old G.new hf ho
  constructor
  · intro f hf o ho e
    have := h1 f hf o ho
    simp only [e, decide_true, Bool.not_true, Bool.false_or, Bool.and_eq_true, Bool.or_eq_true, decide_eq_true_eq,
      List.any_eq_true] at this
    refine ⟨this.1.imp id fun ⟨o', a, b⟩ => ⟨o', (iff hf a).2 b⟩, this.2.imp id fun ⟨f', a, b⟩ => ⟨f', (iff a ho).2 b⟩⟩
  · intro f o hc h hm ha
    have := h2 f hc.1 o hc.2.1
    rw [(iff hc.1 hc.2.1).1 hc, Bool.not_true, Bool.false_or, List.all_eq_true] at this
    have := this h hm
    rw [above_iff.1 ha, Bool.not_true, Bool.false_or, Bool.or_eq_true] at this
    rcases this with h3 | h3
    · rw [List.any_eq_true] at h3
      obtain ⟨g, hg, h4⟩ := h3
      rw [Bool.and_assoc, Bool.and_eq_true] at h4
      exact .inl ⟨g, (iff hg hm).2 h4.1, above_iff.2 h4.2⟩
    · simp only [Bool.and_eq_true, List.all_eq_true, decide_eq_true_eq] at h3
      refine .inr ⟨h3.1, fun g hg hch => ?_⟩
      have := h3.2 g hg.1
      rw [(iff hg.1 hm).1 hg, changed_changedB hch] at this
      cases this

theorem renamedOnly_of_check {d : Dicts} (G : Given d)
    (h : (d.new.all fun f => d.old.all fun o => !(renamedB d f o && changedB d f o)) = true) : RenamedOnly d := by
  intro f o hc hr hch
  simp only [List.all_eq_true] at h
  have := h f hc.1 o hc.2.1
  rw [changed_changedB hch, Bool.and_true, Bool.not_eq_true'] at this
  rw [(renamed_iff G.old G.new hc.1 hc.2.1).1 hr] at this
  cases this

end Verif.VMap
