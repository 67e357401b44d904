import Verif.Lemmas.NcValid
/-
Reading back everything that was written.
-/
namespace Verif.Nc
open Verif.Ids Verif.TreeSpec Verif.NcSpec
open Verif.ConvertSpec (mchild child metaAt)
open Verif.AlSpec (arraysOf IsDataPath)

set_option linter.unusedSectionVars false
variable {S : Type} [DecidableEq S]
variable {m : MFields} {N : NcMeta} {hom : Bool} {own : Path → List Dim} {c : Fields (Arr S)} {sizes : List (NcDim × Nat)}
variable {sc : Scalars S} {tx : Texts} {g : Group S}

theorem aligned_refl {m : MFields} : Aligned m m some where
  kind p q x hp hx hs h := by
    cases h
    refine ⟨hp, x, hx, ?_⟩
    cases x <;> simp_all [SameKind, IsStruct]
  inj p p' q _ _ h h' := by cases h; cases h'; rfl
  arrays p q _ h := by cases h; rfl

theorem namesOk_back (hg : Written sc tx N hom m own c sizes g) : NamesOk g := by
  have h0 : [] ∉ g.vars.map (·.1) := by
    rw [hg.names]
    rintro ⟨i, x, hx, -⟩
    simp [look] at hx
  exact ⟨hg.nodup, hg.shapesNodup, h0, fun h => h0 (hg.shapeNames _ h)⟩

theorem aos_meta {p : Path} {i : List Nat} {t : Fields (Arr S)} (ht : TypedF t m) {m' : MFields} {e : Elems (Arr S)}
    (h : look t p i = some (.aos m' e)) : ∃ d, metaAt (.struct m) p = some (.aos d) := by
  obtain ⟨y, hy, hty, -⟩ := look_typed p [] ht h
  cases y with
  | leaf => simp [Typed] at hty
  | struct => simp [Typed] at hty
  | aos d => exact ⟨d, hy⟩

/-- While variables are read, nodes of the new IDS are at places where the written one has nodes. -/
theorem look_back (hs : Sized m N hom own c sizes) (hg : Written sc tx N hom m own c sizes g) (hst : Storable sc (N.getDims hom) c)
    {D : List (Path × Bool)} {t : Fields (Arr S)} (hi : EagerInv (backReader sc tx N m g) hom D t) {p : Path} {i : List Nat}
    {x : Node (Arr S)} (hx : look t p i = some x) : ∃ y, look c p i = some y := by
  refine look_exists p hi.typed hs.typed ?_ hx
  intro q j m1 e1 m2 e2 h1 h2
  obtain ⟨d, hd⟩ := aos_meta hi.typed h1
  have hdp : IsDataPath m q := ⟨_, hd, by rintro _ ⟨⟩⟩
  by_cases hq : (q, false) ∈ D
  · obtain ⟨v, -, hv, -, hr⟩ := hi.read q j _ h1 q hq hdp rfl
    have := back_read hs hg hst hv h2
    simp only at this
    rw [hr] at this
    have := Except.ok.inj this
    omega
  · have := hi.unset q j _ h1 (by
      intro p' hp' _ hpq
      cases hpq
      exact hq hp')
    simp only [Unset] at this
    omega

theorem readVar_success (hs : Sized m N hom own c sizes) (hg : Written sc tx N hom m own c sizes g) (hst : Storable sc (N.getDims hom) c)
    {D : List (Path × Bool)} {t : Fields (Arr S)} (hi : EagerInv (backReader sc tx N m g) hom D t) {x : Path × Bool} (hx : x ∈ g.names) :
    ∃ t', readVar (backReader sc tx N m g) hom t x = .ok t' := by
  obtain ⟨p, b⟩ := x
  cases b with
  | true => exact ⟨t, rfl⟩
  | false =>
    obtain ⟨v, hv⟩ := dget_of_name (mem_names.1 hx)
    obtain ⟨sp, y, ⟨hp, -⟩, -, hy, -⟩ := hg.var p v hv
    have hmo : metaOf m p = some y := by rw [metaOf_eq _ _ hp, hy]
    simp only [readVar]
    rw [show (backReader sc tx N m g).stored = m from rfl, show (backReader sc tx N m g).group = g from rfl,
      show (backReader sc tx N m g).target = m from rfl, show targetOf (backReader sc tx N m g).map p = some p from rfl, hmo, hv]
    have key : ∀ z, z = y → ∀ i x, look t p i = some x →
        ∃ w, readNode (backReader sc tx N m g) hom p z v ([] ++ i) x = .ok w := by
      rintro z rfl i x hx
      rw [List.nil_append]
      obtain ⟨x', hx'⟩ := look_back hs hg hst hi hx
      obtain ⟨y1, hy1, ht1, -⟩ := look_typed p [] hi.typed hx
      obtain ⟨y2, hy2, ht2, -⟩ := look_typed p [] hs.typed hx'
      rw [show (backReader sc tx N m g).target = m from rfl, hy] at hy1
      rw [hy] at hy2
      cases hy1
      cases hy2
      have hb := back_read hs hg hst hv hx'
      cases z with
      | struct d => exact ⟨x, rfl⟩
      | aos d =>
        cases x <;> simp only [Typed] at ht1
        cases x' <;> simp only [Typed] at ht2
        simp only at hb
        simp only [readNode, hb, resizeNode]
        exact ⟨_, rfl⟩
      | leaf l =>
        cases x <;> simp only [Typed] at ht1
        cases x' <;> simp only [Typed] at ht2
        subst ht2
        simp only at hb
        simp only [readNode]
        rw [show (backReader sc tx N m g).N = N from rfl, hb]
        simp only [setLeaf]
        exact ⟨_, rfl⟩
    have hm := mapPath_success (f := readNode (backReader sc tx N m g) hom p y v) (i0 := []) hi.typed hp hy (key y rfl)
    cases y with
    | struct d => exact ⟨t, rfl⟩
    | aos d => simp only [hmo]; exact hm
    | leaf l => simp only [hmo]; exact hm

theorem readVars_success (hs : Sized m N hom own c sizes) (hg : Written sc tx N hom m own c sizes g) (hst : Storable sc (N.getDims hom) c) :
    ∀ {L D : List (Path × Bool)} {t : Fields (Arr S)}, EagerInv (backReader sc tx N m g) hom D t → D ++ L = g.names →
      ∃ t', readVars (backReader sc tx N m g) hom L t = .ok t'
  | [], D, t, _, _ => ⟨t, rfl⟩
  | x :: L, D, t, hi, he => by
    have hx : x ∈ g.names := by rw [← he]; simp
    obtain ⟨t1, h1⟩ := readVar_success hs hg hst hi hx
    have hnd := names_nodup (namesOk_back hg)
    have hso : g.names.Pairwise NameLe := sortNames_sorted _
    rw [← he] at hnd hso
    have hxD : x ∉ D := by
      intro hx
      rw [List.nodup_append] at hnd
      exact hnd.2.2 x hx x (by simp) rfl
    have hne := names_ne (namesOk_back hg) x hx
    have hi1 := readVar_ok (R := backReader sc tx N m g) aligned_refl hi hxD (fun p k r e => by
      subst e
      exact sorted_before hne hso) h1
    obtain ⟨t', ht'⟩ := readVars_success hs hg hst (L := L) hi1 (by simpa using he)
    exact ⟨t', by simp only [readVars, h1]; exact ht'⟩

/-- What is read back. -/
theorem read_back (hs : Sized m N hom own c sizes) (hg : Written sc tx N hom m own c sizes g) (hst : Storable sc (N.getDims hom) c) :
    ∃ c', readVars (backReader sc tx N m g) hom g.names m.fresh = .ok c' ∧ TypedF c' m ∧
      ∀ p i, (look c' p i).map obs = (look c p i).map fun x => (obs x).norm := by
  obtain ⟨c', h1⟩ := readVars_success hs hg hst (L := g.names) (D := []) (eager_start (backReader sc tx N m g) hom) rfl
  have hi := eager (R := backReader sc tx N m g) aligned_refl (namesOk_back hg) h1
  rw [show (backReader sc tx N m g).group = g from rfl] at hi
  refine ⟨c', h1, hi.typed, ?_⟩
  have same : ∀ p i x y, look c' p i = some x → look c p i = some y → obs x = (obs y).norm := by
    intro p i x y hx hy
    obtain ⟨z1, hz1, ht1, -⟩ := look_typed p [] hi.typed hx
    obtain ⟨z2, hz2, ht2, -⟩ := look_typed p [] hs.typed hy
    rw [show (backReader sc tx N m g).target = m from rfl, hz2] at hz1
    have hz1 := Option.some.inj hz1
    subst hz1
    by_cases hst' : IsStruct z2
    · cases z2 with
      | leaf => exact absurd hst' id
      | aos => exact absurd hst' id
      | struct d =>
        cases x <;> simp only [Typed] at ht1
        cases y <;> simp only [Typed] at ht2
        rfl
    have hdp : IsDataPath m p := ⟨_, hz2, not_isStruct hst'⟩
    by_cases hp : (p, false) ∈ g.names
    · have hr := hi.read p i x hx p hp hdp rfl
      cases z2 with
      | struct d => exact absurd trivial hst'
      | leaf l =>
        cases x <;> simp only [Typed] at ht1
        cases y <;> simp only [Typed] at ht2
        subst ht2
        obtain ⟨v, l', hv, hl', hr⟩ := hr
        have hp0 := isDataPath_ne hdp
        rw [show (backReader sc tx N m g).stored = m from rfl, metaOf_eq _ _ hp0, hz2] at hl'
        cases hl'
        have hb := back_read hs hg hst hv hy
        simp only at hb
        rw [show (backReader sc tx N m g).N = N from rfl, hb] at hr
        cases hr
        rfl
      | aos d =>
        cases x <;> simp only [Typed] at ht1
        cases y <;> simp only [Typed] at ht2
        obtain ⟨v, -, hv, -, hr⟩ := hr
        have hb := back_read hs hg hst hv hy
        simp only at hb
        rw [hr] at hb
        simp only [obs, Obs.norm, Except.ok.inj hb]
    · have hu := hi.unset p i x hx (by
        intro p' hp' _ hpq
        cases hpq
        exact hp hp')
      have hn : ¬ Filled y := by
        intro hf
        exact hp (mem_names.2 ((hg.names p).2 ⟨i, y, hy, (look_filled hs hz2 hst' hy).1 hf⟩))
      cases z2 with
      | struct d => exact absurd trivial hst'
      | leaf l =>
        cases x <;> simp only [Typed] at ht1
        cases y <;> simp only [Typed] at ht2
        simp only [Unset] at hu
        subst hu
        simp only [obs, Obs.norm]
        rw [(norm_filled).2 hn]
      | aos d =>
        cases x <;> simp only [Typed] at ht1
        cases y <;> simp only [Typed] at ht2
        simp only [Unset] at hu
        simp only [Filled, ne_eq, Classical.not_not] at hn
        simp only [obs, Obs.norm, hu, hn]
  intro p i
  cases hx : look c' p i with
  | some x =>
    obtain ⟨y, hy⟩ := look_back hs hg hst hi hx
    rw [hy]
    simp only [Option.map_some, same p i x y hx hy]
  | none =>
    cases hy : look c p i with
    | none => rfl
    | some y =>
      obtain ⟨x, hx'⟩ := look_exists p hs.typed hi.typed (by
        intro q j m1 e1 m2 e2 h1 h2
        have := same q j _ _ h2 h1
        simp only [obs, Obs.norm, Obs.aos.injEq] at this
        omega) hy
      rw [hx] at hx'
      cases hx'

end Verif.Nc
