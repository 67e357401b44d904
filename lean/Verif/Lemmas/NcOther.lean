import Verif.Lemmas.NcRound
import Verif.Model.NcVersion
/-
Reading everything that was written into an IDS of another Data Dictionary version.
-/
namespace Verif.Nc
open Verif.Ids Verif.TreeSpec Verif.NcSpec
open Verif.ConvertSpec (mchild child metaAt)
open Verif.AlSpec (arraysOf IsDataPath)

set_option linter.unusedSectionVars false
variable {S : Type} [DecidableEq S]

/-- Nodes exist if the arrays of structures around them have enough elements. -/
theorem look_intro {V : Type} [Value V] : ∀ (p : Path) {c : Fields V} {m : MFields} (b : Path) {i : List Nat} {y : Meta}, TypedF c m → p ≠ [] →
    metaAt (.struct m) p = some y → i.length = (arraysOf m b p).length →
    (∀ (k : Nat) t j m' e, (arraysOf m b p)[k]? = some (b ++ t) → i[k]? = some j → look c t (i.take k) = some (.aos m' e) → j < e.length) →
    ∃ x, look c p i = some x
  | [], _, _, _, _, _, _, hp, _, _, _ => absurd rfl hp
  | [k], c, m, b, i, y, ht, _, hy, hi, _ => by
    have : i = [] := by simpa [arraysOf] using hi
    subst this
    rcases typed_child ht k with ⟨h1, -⟩ | ⟨y, z, -, h2, -⟩
    · simp [metaAt, child, h1] at hy
    · exact ⟨z, by rw [look]; exact h2⟩
  | k :: k' :: p, c, m, b, i, y, ht, _, hy, hi, hl => by
    rcases typed_child ht k with ⟨h1, -⟩ | ⟨y', z, h1, h2, h3⟩
    · simp [metaAt, child, h1] at hy
    rw [metaAt, child, h1, Option.bind_some] at hy
    rw [arraysOf, h1] at hi hl
    cases y' with
    | leaf l => simp [metaAt, child] at hy
    | struct m' =>
      cases z <;> simp only [Typed] at h3
      rename_i d
      obtain ⟨x, hx⟩ := look_intro (k' :: p) (b ++ [k]) h3 (by simp) hy hi (by
        intro n t j m1 e ha hj hlo
        have ht : t ≠ [] := by rintro rfl; simp [look] at hlo
        refine hl n (k :: t) j m1 e (by simpa using ha) hj ((look_ind ht).2 (.inl ⟨d, h2, hlo⟩)))
      exact ⟨x, (look_ind (by simp)).2 (.inl ⟨d, h2, hx⟩)⟩
    | aos m' =>
      cases z <;> simp only [Typed] at h3
      rename_i m1 e
      obtain ⟨rfl, h3⟩ := h3
      cases i with
      | nil => simp at hi
      | cons j i =>
        have hj := hl 0 [k] j _ e (by simp) (by simp) (by rw [List.take_zero, look]; exact h2)
        cases hd : e.get? j with
        | none =>
          have := elems_get (e := e) (j := j)
          rw [hd] at this
          simp at this
          omega
        | some d =>
          obtain ⟨x, hx⟩ := look_intro (k' :: p) (b ++ [k]) (typed_elem h3 hd) (by simp)
            (by simpa [metaAt, child] using hy) (by simpa using hi) (by
            intro n t j' m2 e' ha hj' hlo
            have ht : t ≠ [] := by rintro rfl; simp [look] at hlo
            refine hl (n + 1) (k :: t) j' m2 e' (by simpa using ha) (by simpa using hj') ?_
            exact (look_ind ht).2 (.inr ⟨_, _, j, i.take n, d, h2, by simp, hd, hlo⟩))
          exact ⟨x, (look_ind (by simp)).2 (.inr ⟨_, _, _, _, _, h2, rfl, hd, hx⟩)⟩

variable {m mt : MFields} {N : NcMeta} {hom : Bool} {own : Path → List Dim} {c : Fields (Arr S)} {sizes : List (NcDim × Nat)}
variable {sc : Scalars S} {tx : Texts} {g : Group S} {M : Option NcMap}

theorem readSize_other {p q : Path} {v : Var S} {i : List Nat} :
    readSize (otherReader sc tx N m mt M g) hom p q v i = readSize (backReader sc tx N m g) hom p q v i := rfl

theorem readValue_other {w : Bool} {p : Path} {l : LeafMeta} {v : Var S} {i : List Nat} (l' : LeafMeta) (hl : l.ndim = l'.ndim) :
    readValue (otherReader sc tx N m mt M g) w p l v i = readValue (backReader sc tx N m g) w p l' v i := by
  unfold readValue
  rw [hl]
  rfl

theorem sameKind_left {x y : Meta} (h : SameKind x y) : ¬ IsStruct x ∧ ¬ IsStruct y := by
  cases x <;> cases y <;> simp_all [SameKind, IsStruct]

/-- While variables are read, nodes of the new IDS are at places where the written one has nodes. -/
theorem look_other (hs : Sized m N hom own c sizes) (hg : Written sc tx N hom m own c sizes g) (hst : Storable sc (N.getDims hom) c)
    (ha : Aligned m mt (targetOf M)) {D : List (Path × Bool)} {t : Fields (Arr S)}
    (hi : EagerInv (otherReader sc tx N m mt M g) hom D t) {p q : Path} {i : List Nat} {x : Node (Arr S)} (hp : IsDataPath m p)
    (hq : targetOf M p = some q) (hx : look t q i = some x) : ∃ y, look c p i = some y := by
  obtain ⟨y, hy, hns⟩ := id hp
  obtain ⟨-, -, -, hlen⟩ := look_typed q [] hi.typed hx
  have harr := ha.arrays p q hp hq
  have hl : (arraysOf m [] p).length = (arraysOf mt [] q).length := by simpa using congrArg List.length harr
  refine look_intro p [] hs.typed (isDataPath_ne hp) hy (hlen.trans hl.symm) ?_
  intro k a j m1 e hk hj hlo
  rw [List.nil_append] at hk
  have hka : (arraysOf mt [] q)[k]?.map some = some (targetOf M a) := by
    rw [← List.getElem?_map, ← harr, List.getElem?_map, hk]; rfl
  obtain ⟨b, hb, hba⟩ : ∃ b, (arraysOf mt [] q)[k]? = some b ∧ targetOf M a = some b := by
    cases hb : (arraysOf mt [] q)[k]? with
    | none => rw [hb] at hka; cases hka
    | some b => rw [hb] at hka; exact ⟨b, rfl, (Option.some.inj hka).symm⟩
  obtain ⟨b', m2, e2, j', h1, h2, h3, h4⟩ := look_arrays q [] hi.typed hx k b hb
  rw [List.nil_append] at h1
  subst h1
  rw [hj] at h3
  cases h3
  obtain ⟨d, hd⟩ := aos_meta hs.typed hlo
  have hda : IsDataPath m a := ⟨_, hd, by rintro _ ⟨⟩⟩
  by_cases hD : (a, false) ∈ D
  · obtain ⟨v, -, hv, -, hr⟩ := hi.read b _ _ h2 a hD hda hba
    have hbr := back_read hs hg hst hv hlo
    simp only at hbr
    rw [readSize_other, hbr] at hr
    have := Except.ok.inj hr
    omega
  · have := hi.unset b _ _ h2 (by
      intro p' hp' hdp' hpq
      have := ha.inj p' a b hdp' hda hpq hba
      subst this
      exact hD hp')
    simp only [Unset] at this
    omega

theorem readVar_other (hs : Sized m N hom own c sizes) (hg : Written sc tx N hom m own c sizes g) (hst : Storable sc (N.getDims hom) c)
    (ha : Aligned m mt (targetOf M)) {D : List (Path × Bool)} {t : Fields (Arr S)}
    (hi : EagerInv (otherReader sc tx N m mt M g) hom D t) {x : Path × Bool} (hx : x ∈ g.names) :
    ∃ t', readVar (otherReader sc tx N m mt M g) hom t x = .ok t' := by
  obtain ⟨p, b⟩ := x
  cases b with
  | true => exact ⟨t, rfl⟩
  | false =>
    obtain ⟨v, hv⟩ := dget_of_name (mem_names.1 hx)
    obtain ⟨sp, y, ⟨hp, -⟩, -, hy, -⟩ := hg.var p v hv
    have hmo : metaOf m p = some y := by rw [metaOf_eq _ _ hp, hy]
    simp only [readVar]
    rw [show (otherReader sc tx N m mt M g).stored = m from rfl, show (otherReader sc tx N m mt M g).group = g from rfl,
      show (otherReader sc tx N m mt M g).target = mt from rfl, show (otherReader sc tx N m mt M g).map = M from rfl, hmo, hv]
    by_cases hst' : IsStruct y
    · cases y with
      | struct d => exact ⟨t, rfl⟩
      | leaf => exact absurd hst' id
      | aos => exact absurd hst' id
    have hdp : IsDataPath m p := ⟨y, hy, not_isStruct hst'⟩
    cases hq : targetOf M p with
    | none => cases y <;> first | exact absurd trivial hst' | exact ⟨t, rfl⟩
    | some q =>
      obtain ⟨hq0, z, hz, hk⟩ := ha.kind p q y hp hy hst' hq
      have hmz : metaOf mt q = some z := by rw [metaOf_eq _ _ hq0, hz]
      have key : ∀ i x, look t q i = some x →
          ∃ w, readNode (otherReader sc tx N m mt M g) hom p y v ([] ++ i) x = .ok w := by
        intro i x hx
        rw [List.nil_append]
        obtain ⟨x', hx'⟩ := look_other hs hg hst ha hi hdp hq hx
        obtain ⟨y1, hy1, ht1, -⟩ := look_typed q [] hi.typed hx
        obtain ⟨y2, hy2, ht2, -⟩ := look_typed p [] hs.typed hx'
        rw [show (otherReader sc tx N m mt M g).target = mt from rfl, hz] at hy1
        rw [hy] at hy2
        cases hy1
        cases hy2
        have hb := back_read hs hg hst hv hx'
        cases y with
        | struct d => exact absurd trivial hst'
        | aos d =>
          cases z <;> simp only [SameKind] at hk
          cases x <;> simp only [Typed] at ht1
          cases x' <;> simp only [Typed] at ht2
          simp only at hb
          simp only [readNode]
          rw [readSize_other, hb]
          simp only [resizeNode]
          exact ⟨_, rfl⟩
        | leaf l =>
          cases z <;> simp only [SameKind] at hk
          cases x <;> simp only [Typed] at ht1
          cases x' <;> simp only [Typed] at ht2
          subst ht2
          simp only at hb
          simp only [readNode]
          rw [show (otherReader sc tx N m mt M g).N = N from rfl, readValue_other _ rfl, hb]
          simp only [setLeaf]
          exact ⟨_, rfl⟩
      have hm := mapPath_success (f := readNode (otherReader sc tx N m mt M g) hom p y v) (i0 := []) hi.typed hq0 hz key
      cases y with
      | struct d => exact ⟨t, rfl⟩
      | aos d => simp only [hmz]; exact hm
      | leaf l => simp only [hmz]; exact hm

theorem readVars_other (hs : Sized m N hom own c sizes) (hg : Written sc tx N hom m own c sizes g) (hst : Storable sc (N.getDims hom) c)
    (ha : Aligned m mt (targetOf M)) :
    ∀ {L D : List (Path × Bool)} {t : Fields (Arr S)}, EagerInv (otherReader sc tx N m mt M g) hom D t → D ++ L = g.names →
      ∃ t', readVars (otherReader sc tx N m mt M g) hom L t = .ok t'
  | [], D, t, _, _ => ⟨t, rfl⟩
  | x :: L, D, t, hi, he => by
    have hx : x ∈ g.names := by rw [← he]; simp
    obtain ⟨t1, h1⟩ := readVar_other hs hg hst ha hi hx
    have hnd := names_nodup (namesOk_back hg)
    have hso : g.names.Pairwise NameLe := sortNames_sorted _
    rw [← he] at hnd hso
    have hxD : x ∉ D := by
      intro hx
      rw [List.nodup_append] at hnd
      exact hnd.2.2 x hx x (by simp) rfl
    have hne := names_ne (namesOk_back hg) x hx
    have hi1 := readVar_ok (R := otherReader sc tx N m mt M g) ha hi hxD (fun p k r e => by
      subst e
      exact sorted_before hne hso) h1
    obtain ⟨t', ht'⟩ := readVars_other hs hg hst ha (L := L) hi1 (by simpa using he)
    exact ⟨t', by simp only [readVars, h1]; exact ht'⟩

/-- What is read. -/
theorem read_other (hs : Sized m N hom own c sizes) (hg : Written sc tx N hom m own c sizes g) (hst : Storable sc (N.getDims hom) c)
    (ha : Aligned m mt (targetOf M)) :
    ∃ c', readVars (otherReader sc tx N m mt M g) hom g.names mt.fresh = .ok c' ∧ TypedF c' mt ∧
      (∀ p q, IsDataPath m p → targetOf M p = some q → ∀ i, (look c' q i).map obs = (look c p i).map fun x => (obs x).norm) ∧
      (∀ q i x, look c' q i = some x → (∀ p, IsDataPath m p → targetOf M p ≠ some q) → Unset x) := by
  obtain ⟨c', h1⟩ := readVars_other hs hg hst ha (L := g.names) (D := []) (eager_start (otherReader sc tx N m mt M g) hom) rfl
  have hi := eager (R := otherReader sc tx N m mt M g) ha (namesOk_back hg) h1
  rw [show (otherReader sc tx N m mt M g).group = g from rfl] at hi
  refine ⟨c', h1, hi.typed, ?_, fun q i x hx hn => hi.unset q i x hx fun p _ hd => hn p hd⟩
  have same : ∀ p q i x y, IsDataPath m p → targetOf M p = some q → look c' q i = some x → look c p i = some y →
      obs x = (obs y).norm := by
    intro p q i x y hdp hq hx hy
    obtain ⟨z1, hz1, ht1, -⟩ := look_typed q [] hi.typed hx
    obtain ⟨z2, hz2, ht2, -⟩ := look_typed p [] hs.typed hy
    have hp0 := isDataPath_ne hdp
    have hst' : ¬ IsStruct z2 := by
      obtain ⟨z, hz, hn⟩ := hdp
      rw [hz2] at hz
      cases hz
      cases z2 with
      | struct d => exact absurd rfl (hn d)
      | leaf => exact id
      | aos => exact id
    obtain ⟨-, z, hz, hk⟩ := ha.kind p q z2 hp0 hz2 hst' hq
    rw [show (otherReader sc tx N m mt M g).target = mt from rfl, hz] at hz1
    have hz1 := Option.some.inj hz1
    subst hz1
    by_cases hp : (p, false) ∈ g.names
    · have hr := hi.read q i x hx p hp hdp hq
      cases z2 with
      | struct d => exact absurd trivial hst'
      | leaf l =>
        cases z <;> simp only [SameKind] at hk
        cases x <;> simp only [Typed] at ht1
        cases y <;> simp only [Typed] at ht2
        subst ht2
        obtain ⟨v, l', hv, hl', hr⟩ := hr
        rw [show (otherReader sc tx N m mt M g).stored = m from rfl, metaOf_eq _ _ hp0, hz2] at hl'
        cases hl'
        have hb := back_read hs hg hst hv hy
        simp only at hb
        rw [show (otherReader sc tx N m mt M g).N = N from rfl, readValue_other _ rfl, hb] at hr
        cases hr
        rfl
      | aos d =>
        cases z <;> simp only [SameKind] at hk
        cases x <;> simp only [Typed] at ht1
        cases y <;> simp only [Typed] at ht2
        obtain ⟨v, -, hv, -, hr⟩ := hr
        have hb := back_read hs hg hst hv hy
        simp only at hb
        rw [readSize_other, hb] at hr
        simp only [obs, Obs.norm, Except.ok.inj hr]
    · have hu := hi.unset q i x hx (by
        intro p' hp' hdp' hpq
        have := ha.inj p' p q hdp' hdp hpq hq
        subst this
        exact hp hp')
      have hn : ¬ Filled y := by
        intro hf
        exact hp (mem_names.2 ((hg.names p).2 ⟨i, y, hy, (look_filled hs hz2 hst' hy).1 hf⟩))
      cases z2 with
      | struct d => exact absurd trivial hst'
      | leaf l =>
        cases z <;> simp only [SameKind] at hk
        cases x <;> simp only [Typed] at ht1
        cases y <;> simp only [Typed] at ht2
        simp only [Unset] at hu
        subst hu
        simp only [obs, Obs.norm]
        rw [(norm_filled).2 hn]
      | aos d =>
        cases z <;> simp only [SameKind] at hk
        cases x <;> simp only [Typed] at ht1
        cases y <;> simp only [Typed] at ht2
        simp only [Unset] at hu
        simp only [Filled, ne_eq, Classical.not_not] at hn
        simp only [obs, Obs.norm, hu, hn]
  intro p q hdp hq i
  cases hx : look c' q i with
  | some x =>
    obtain ⟨y, hy⟩ := look_other hs hg hst ha hi hdp hq hx
    rw [hy]
    simp only [Option.map_some, same p q i x y hdp hq hx hy]
  | none =>
    cases hy : look c p i with
    | none => rfl
    | some y =>
      obtain ⟨z2, hz2, hns⟩ := id hdp
      have hst' : ¬ IsStruct z2 := by
        cases z2 with
        | struct d => exact absurd rfl (hns d)
        | leaf => exact id
        | aos => exact id
      obtain ⟨hq0, z, hz, hk⟩ := ha.kind p q z2 (isDataPath_ne hdp) hz2 hst' hq
      obtain ⟨-, -, -, hlen⟩ := look_typed p [] hs.typed hy
      have harr := ha.arrays p q hdp hq
      have hl : (arraysOf m [] p).length = (arraysOf mt [] q).length := by simpa using congrArg List.length harr
      obtain ⟨x, hx'⟩ := look_intro q [] hi.typed hq0 hz (hlen.trans hl) (by
        intro k b j m1 e hk hj hlo
        rw [List.nil_append] at hk
        have hkb : (arraysOf m [] p)[k]?.map (targetOf M) = some (some b) := by
          rw [← List.getElem?_map, harr, List.getElem?_map]
          rw [show (otherReader sc tx N m mt M g).target = mt from rfl] at hk
          rw [hk]
          rfl
        obtain ⟨a, h3, hab⟩ : ∃ a, (arraysOf m [] p)[k]? = some a ∧ targetOf M a = some b := by
          cases h3 : (arraysOf m [] p)[k]? with
          | none => rw [h3] at hkb; cases hkb
          | some a => rw [h3] at hkb; exact ⟨a, rfl, Option.some.inj hkb⟩
        obtain ⟨a', m2, e2, j', h4, h5, h6, h7⟩ := look_arrays p [] hs.typed hy k a h3
        rw [List.nil_append] at h4
        subst h4
        rw [hj] at h6
        cases h6
        obtain ⟨d, hd⟩ := aos_meta hs.typed h5
        have := same a b _ _ _ ⟨_, hd, by rintro _ ⟨⟩⟩ hab hlo h5
        simp only [obs, Obs.norm, Obs.aos.injEq] at this
        omega)
      rw [hx] at hx'
      cases hx'

/-! ### Maps that agree on the variables -/

theorem readVar_agree {M' : Option NcMap} {t : Fields (Arr S)} {x : Path × Bool}
    (h : ∀ p, x = (p, false) → IsDataPath m p → targetOf M p = targetOf M' p)
    (hk : ∀ p q, x = (p, false) → IsDataPath m p → targetOf M p = some q → metaOf mt q ≠ none) :
    readVar (otherReader sc tx N m mt M g) hom t x = readVar (otherReader sc tx N m mt M' g) hom t x := by
  obtain ⟨p, b⟩ := x
  cases b with
  | true => rfl
  | false =>
    simp only [readVar]
    rw [show (otherReader sc tx N m mt M g).stored = m from rfl, show (otherReader sc tx N m mt M' g).stored = m from rfl,
      show (otherReader sc tx N m mt M g).group = g from rfl, show (otherReader sc tx N m mt M' g).group = g from rfl,
      show (otherReader sc tx N m mt M g).target = mt from rfl, show (otherReader sc tx N m mt M' g).target = mt from rfl,
      show (otherReader sc tx N m mt M g).map = M from rfl, show (otherReader sc tx N m mt M' g).map = M' from rfl]
    cases hm : metaOf m p with
    | none => cases dget g.vars p <;> rfl
    | some y =>
      have hp : p ≠ [] := by rintro rfl; simp [metaOf] at hm
      rw [metaOf_eq _ _ hp] at hm
      cases hv : dget g.vars p with
      | none => cases y <;> rfl
      | some v =>
        cases y with
        | struct d => rfl
        | leaf l =>
          have hd : IsDataPath m p := ⟨_, hm, by rintro _ ⟨⟩⟩
          have hk := fun q => hk p q rfl hd
          rw [h p rfl hd] at hk
          simp only [h p rfl hd]
          cases hq : targetOf M' p with
          | none => rfl
          | some q =>
            cases hz : metaOf mt q with
            | none => exact absurd hz (hk q hq)
            | some z => simp only [hz]; rfl
        | aos l =>
          have hd : IsDataPath m p := ⟨_, hm, by rintro _ ⟨⟩⟩
          have hk := fun q => hk p q rfl hd
          rw [h p rfl hd] at hk
          simp only [h p rfl hd]
          cases hq : targetOf M' p with
          | none => rfl
          | some q =>
            cases hz : metaOf mt q with
            | none => exact absurd hz (hk q hq)
            | some z => simp only [hz]; rfl

theorem readVars_agree {M' : Option NcMap} : ∀ {L : List (Path × Bool)} {t : Fields (Arr S)},
    (∀ p, (p, false) ∈ L → IsDataPath m p → targetOf M p = targetOf M' p) →
    (∀ p q, (p, false) ∈ L → IsDataPath m p → targetOf M p = some q → metaOf mt q ≠ none) →
    readVars (otherReader sc tx N m mt M g) hom L t = readVars (otherReader sc tx N m mt M' g) hom L t
  | [], _, _, _ => rfl
  | x :: L, t, h, hk => by
    simp only [readVars]
    rw [readVar_agree (fun p e => h p (by simp [e])) (fun p q e => hk p q (by simp [e]))]
    cases readVar (otherReader sc tx N m mt M' g) hom t x with
    | error e => rfl
    | ok t' => exact readVars_agree (fun p e => h p (by simp [e])) (fun p q e => hk p q (by simp [e]))

end Verif.Nc
