import Verif.Lemmas.AlAppend
import Verif.Props.Tree
import Verif.Props.AlRound
/-
C37: what is stored after put_slice.
-/
namespace Verif.Props
open Verif.Ids Verif.Al Verif.AlSpec Verif.TreeSpec Verif.DiffSpec Verif.ConvertSpec
open Verif.Convert (names)

section
variable {V : Type} [Value V] (B : Backend V) (db : Ctx)

/-- **C37** put_slice on an occurrence with the same time mode: it succeeds, other occurrences stay the same, and a get afterwards gives what
it gave before, except that the time-dependent values of the slice are appended - each of them once, to the node
where it belongs. No size changes.
The arrays of structures of the slice have no time base, and as many elements as the stored ones. -/
theorem C37_appended (add : Option V → V → V) (hB : AppendsLocally B add) (hadd : AddsData add)
    (C : Conf V) (I : Info V) (m : MFields) (f g0 : Fields V) (mode : Mode) (constant : Bool)
    (hm : WFMFields m) (ht : TypedF f m) (hctx : ∀ t, t ≠ [] → I.ctxPath t = relPath m [] t)
    (hmax : C.mdsplus = true → WithinMaxF I [] f)
    (hbase : ∀ a k, SizeAt (.struct f) a k → I.timebase (names a) = [])
    (hdim : ∀ a l, atMeta (.struct m) a = some (.leaf l) → I.dynamic (names a) = true → l.ndim ≠ 0)
    (tp : Path) (htp : I.ctxPath tp = C.timePath) (l : LeafMeta)
    (hleaf : atMeta (.struct m) (tp.map (·, none)) = some (.leaf l)) (hdyn : ¬ TimeDependent I (tp.map (·, none)))
    (s s0 s0' : St (Disk V) V) (hs : s.ll.stack = [])
    (hmode : readMode (disk B db) C db false s = (.ok mode, s0)) (hk : mode.known = true)
    (hg : alGet (disk B db) C I none db constant .all m s = (.ok g0, s0'))
    (hsize : ∀ a k, SizeAt (.struct f) a k → ¬ (mode = .independent ∧ TimeDependent I a) → SizeAt (.struct g0) a k) :
    ∃ s1, alPut (disk B db) C I I none db mode m true f s = (.ok (), s1) ∧ s1.ll.stack = [] ∧
      (∀ o, o ≠ C.occ → s1.ll.stores o = s.ll.stores o) ∧
      ∃ g1 s2, alGet (disk B db) C I none db constant .all m s1 = (.ok g1, s2) ∧
        s2.ll.stores = s1.ll.stores ∧ s2.ll.stack = [] ∧ TypedF g1 m ∧
        (∀ a k, SizeAt (.struct g1) a k ↔ SizeAt (.struct g0) a k) ∧
        (∀ a v, ValueAt (.struct g1) a v ↔
          (I.dynamic (names a) = true ∧ mode ≠ .independent ∧ AppendedAt add g0 f a v) ∨
          (ValueAt (.struct g0) a v ∧
            ¬ (I.dynamic (names a) = true ∧ mode ≠ .independent ∧ ∃ w, ValueAt (.struct f) a w))) := by
  -- the stored time mode, and what get gave before
  have hstored : C.modeOf ((s.ll.stores C.occ).data [] C.timePath) = mode := by
    obtain ⟨s', h1, -, -⟩ := readMode_spec B db C false hs
    rw [hmode] at h1
    cases h1
    rfl
  have hview : B.view ((if constant then Range.all else .all).begin C.occ) = id := by
    rw [show (if constant then Range.all else .all).begin C.occ = .global C.occ false false by cases constant <;> rfl]
    funext S
    exact B.view_global _ _ _ _
  have hg0 : g0 = evalFields (s.ll.stores C.occ) ⟨I, mode, none⟩ [] [] m := by
    obtain ⟨s', h1, -, -⟩ := alGet_spec B db C I none constant .all m hs hstored hk
    rw [hg, hview] at h1
    cases h1
    rfl
  have hwf : WFFields f := Verif.Convert.wf_of_typedF f m ht hm
  have hT : ∀ p q, pathOf ⟨I, mode, none⟩ p = some q → q = I.ctxPath p := by
    intro p q h
    rw [pathOf_plain] at h
    split at h <;> cases h
    rfl
  have hinj : ∀ b c R, IsNode m b → IsNode m c → keyOf (pathOf ⟨I, mode, none⟩) [] [] b = some R →
      keyOf (pathOf ⟨I, mode, none⟩) [] [] c = some R → b = c := by
    intro b c R hb hc
    refine key_inj _ b m [] [] [] c R ?_ hb hc
    intro t q h1 h2
    rw [hT _ _ h2]
    exact hctx t h1
  have hu : mode ≠ .unknown := by rintro rfl; cases hk
  -- sizes of the stored arrays
  have hsz : ∀ a k Q q, SizeAt (.struct f) a k → keyOf (pathOf ⟨I, mode, none⟩) [] [] a = some (Q, q) →
      (s.ll.stores C.occ).size Q q = k := by
    intro a k Q q h1 h2
    obtain ⟨y, hy, hf⟩ := sizeAt_filled h1
    have ha := isNode_of_filled ht hy hf
    have h3 := hsize a k h1 ((stored_iff I mode (isNode_last ha)).1 (by rw [h2]; rfl))
    rw [hg0, eval_size] at h3
    obtain ⟨d, Q', q', -, h4, -, h5, -⟩ := h3
    rw [h2] at h4
    cases h4
    exact h5
  have hfits : AddFits ⟨I, mode, none⟩ (s.ll.stores C.occ) [] [] f := by
    refine ⟨fun b c y z R h1 h2 h3 h4 => hinj b c R (isNode_of_filled ht h1 h2) (isNode_of_filled ht h3 h4), hsz, ?_⟩
    intro a k q tb h1 h2
    have h3 := hbase a k h1
    simp only [target, List.nil_append, h3] at h2
    split at h2
    · cases h2
    · exact (by simpa using h2.symm : q = I.ctxPath (names a) ∧ tb = []).2
  obtain ⟨s1, p1, p2, p3⟩ := alPutSlice_spec B db C I I none mode m f hs hstored hu hmax
  have hadds := addFields_adds B ⟨I, mode, none⟩ hB [] [] f hwf (s.ll.stores C.occ) hfits
  have hst : s1.ll.stores C.occ = addFields B ⟨I, mode, none⟩ [] [] f (s.ll.stores C.occ) := by
    rw [p2, setStore_get]
  rw [← hst] at hadds
  -- the time mode is still the same
  have hmode1 : C.modeOf ((s1.ll.stores C.occ).data [] C.timePath) = mode := by
    have hnode : IsNode m (tp.map (·, none)) := ⟨_, hleaf, by simp⟩
    obtain ⟨R, hR⟩ := Option.isSome_iff_exists.1 ((stored_iff I mode (isNode_last hnode)).2 fun h => hdyn h.2)
    obtain ⟨r1, r2⟩ := keyOf_plain _ _ _ _ _ hR
    have r3 := hT _ _ r2
    simp only [List.nil_append, htp] at r3
    have hR' : keyOf (pathOf ⟨I, mode, none⟩) [] [] (tp.map (·, none)) = some ([], C.timePath) := by
      rw [hR, ← r3, ← r1]
    rw [hadds.same, hstored]
    rintro w ⟨a, h1, h2, h3⟩
    obtain ⟨y, hy, hf⟩ := valueAt_filled h1
    have := hinj _ _ _ (isNode_of_filled ht hy hf) hnode h3 hR'
    subst this
    refine hdyn ⟨names (tp.map (·, none)), ?_, List.prefix_refl _, by simpa using h2⟩
    intro he
    rw [Verif.Convert.names, List.map_map] at he
    have : tp = [] := by simpa using he
    subst this
    simp [atMeta] at hleaf
  obtain ⟨s2, q1, q2, q3⟩ := alGet_spec B db C I none constant .all m (p3.trans hs) hmode1 hk
  rw [hview] at q1
  refine ⟨s1, p1, p3.trans hs, ?_, _, s2, q1, q2, q3.trans (p3.trans hs), typed_evalF _ _ _ _ _, ?_, ?_⟩
  · intro o ho
    rw [p2]
    simp [setStore, ho]
  · intro a k
    rw [hg0, id, eval_size, eval_size]
    unfold Reached
    rw [hadds.size]
  · intro a v
    have hreach : ∀ Q, Reached (s1.ll.stores C.occ) [] Q ↔ Reached (s.ll.stores C.occ) [] Q := by
      intro Q; unfold Reached; rw [hadds.size]
    -- what was there before
    have old : ∀ Q q o, keyOf (pathOf ⟨I, mode, none⟩) [] [] a = some (Q, q) →
        Reached (s.ll.stores C.occ) [] Q → I.dynamic (names a) = true → (∃ w, ValueAt (.struct f) a w) →
        (ValueAt (.struct g0) a o ↔ (s.ll.stores C.occ).data Q q = some o ∧ Value.isEmpty o = false) := by
      intro Q q o h1 h2 h3 ⟨w, h4⟩
      rw [hg0, eval_value]
      constructor
      · rintro ⟨l', Q', q', -, h5, -, h6, h7, -⟩
        rw [h1] at h5
        cases h5
        exact ⟨h6, h7⟩
      · rintro ⟨h5, h6⟩
        obtain ⟨l', h7, h8⟩ := h4
        obtain ⟨d, h9, h10⟩ := atMeta_of_typed a _ (.struct m) _ (by simpa only [Typed] using ht) h7
        cases d with
        | struct d => simp [Typed] at h10
        | aos d => simp [Typed] at h10
        | leaf l2 => exact ⟨l2, Q, q, h9, h1, h2, h5, h6, by simp [hdim a l2 h9 h3]⟩
    have reach : ∀ Q q w, ValueAt (.struct f) a w → keyOf (pathOf ⟨I, mode, none⟩) [] [] a = some (Q, q) →
        Reached (s.ll.stores C.occ) [] Q := by
      intro Q q w h1 h2 Q1 r i Q2 e
      obtain ⟨y, hy, -⟩ := valueAt_filled h1
      obtain ⟨b, k, h3, h4, h5⟩ := above_size ⟨I, mode, none⟩ f hy h2 e
      rw [hsz b k _ r h3 h4]
      exact h5
    have appended : ∀ Q q w, ValueAt (.struct f) a w → I.dynamic (names a) = true →
        keyOf (pathOf ⟨I, mode, none⟩) [] [] a = some (Q, q) →
        (s1.ll.stores C.occ).data Q q = some (add ((s.ll.stores C.occ).data Q q) w) :=
      fun Q q w h1 h2 h3 => hadds.data Q q w ⟨a, h1, by simpa using h2, h3⟩
    have result : ∀ Q q w, ValueAt (.struct f) a w → I.dynamic (names a) = true →
        keyOf (pathOf ⟨I, mode, none⟩) [] [] a = some (Q, q) →
        (AppendedAt add g0 f a v ↔ v = add ((s.ll.stores C.occ).data Q q) w) := by
      intro Q q w h1 h2 h3
      have ho := fun o => old Q q o h3 (reach Q q w h1 h3) h2 ⟨w, h1⟩
      constructor
      · rintro ⟨w', h4, h5⟩
        have : w' = w := by
          obtain ⟨_, e1, -⟩ := h1
          obtain ⟨_, e2, -⟩ := h4
          rw [e1] at e2
          cases e2
          rfl
        subst this
        rcases h5 with ⟨o, h6, rfl⟩ | ⟨h6, rfl⟩
        · rw [((ho o).1 h6).1]
        · cases hd : (s.ll.stores C.occ).data Q q with
          | none => rfl
          | some o =>
            refine (hadd.empty o w' ?_).symm
            cases he : Value.isEmpty o with
            | true => rfl
            | false => exact absurd ((ho o).2 ⟨hd, he⟩) (h6 o)
      · rintro rfl
        refine ⟨w, h1, ?_⟩
        cases hd : (s.ll.stores C.occ).data Q q with
        | none => exact .inr ⟨fun o h => by simp [(ho o), hd] at h, rfl⟩
        | some o =>
          cases he : Value.isEmpty o with
          | false => exact .inl ⟨o, (ho o).2 ⟨hd, he⟩, rfl⟩
          | true =>
            refine .inr ⟨fun o' h => ?_, hadd.empty o w he⟩
            rw [ho o', hd] at h
            rw [← Option.some.inj h.1, he] at h
            exact absurd h.2 (by simp)
    have indep : ∀ Q q, keyOf (pathOf ⟨I, mode, none⟩) [] [] a = some (Q, q) → (∃ w, ValueAt (.struct f) a w) →
        I.dynamic (names a) = true → mode ≠ .independent := by
      rintro Q q h1 ⟨w, h2⟩ h3 h4
      obtain ⟨y, hy, hf⟩ := valueAt_filled h2
      have ha := isNode_of_filled ht hy hf
      refine (stored_iff I mode (isNode_last ha)).1 (by rw [h1]; rfl) ⟨h4, names a, ?_, List.prefix_refl _, h3⟩
      obtain ⟨n, i, b, rfl⟩ := filled_cons hy hf
      simp [names]
    rw [id, eval_value]
    constructor
    · rintro ⟨l', Q, q, h1, h2, h3, h4, h5, h6⟩
      by_cases hw : I.dynamic (names a) = true ∧ ∃ w, ValueAt (.struct f) a w
      · obtain ⟨hd, w, hw⟩ := hw
        refine .inl ⟨hd, indep Q q h2 ⟨w, hw⟩ hd, ?_⟩
        rw [result Q q w hw hd h2]
        rw [appended Q q w hw hd h2] at h4
        exact (Option.some.inj h4).symm
      · refine .inr ⟨?_, fun h => hw ⟨h.1, h.2.2⟩⟩
        rw [hg0, eval_value]
        refine ⟨l', Q, q, h1, h2, (hreach Q).1 h3, ?_, h5, h6⟩
        rw [← hadds.same Q q ?_]
        · exact h4
        · rintro w ⟨b, g1, g2, g3⟩
          obtain ⟨y, hy, hf⟩ := valueAt_filled g1
          have := hinj b a _ (isNode_of_filled ht hy hf) ⟨_, h1, by simp⟩ g3 h2
          subst this
          exact hw ⟨by simpa using g2, w, g1⟩
    · rintro (⟨hd, hi, w, hw, hc⟩ | ⟨h, hn⟩)
      · obtain ⟨y, hy, hf⟩ := valueAt_filled hw
        have ha := isNode_of_filled ht hy hf
        obtain ⟨⟨Q, q⟩, hk'⟩ := Option.isSome_iff_exists.1 ((stored_iff I mode (isNode_last ha)).2 fun h => hi h.1)
        have hv := (result Q q w hw hd hk').1 ⟨w, hw, hc⟩
        obtain ⟨l', h7, h8⟩ := id hw
        obtain ⟨d, h9, h10⟩ := atMeta_of_typed a _ (.struct m) _ (by simpa only [Typed] using ht) h7
        cases d with
        | struct d => simp [Typed] at h10
        | aos d => simp [Typed] at h10
        | leaf l2 =>
          refine ⟨l2, Q, q, h9, hk', (hreach Q).2 (reach Q q w hw hk'), ?_, ?_, by simp [hdim a l2 h9 hd]⟩
          · rw [appended Q q w hw hd hk', hv]
          · rw [hv]
            exact hadd.filled _ w h8
      · rw [hg0, eval_value] at h
        obtain ⟨l', Q, q, h1, h2, h3, h4, h5, h6⟩ := h
        refine ⟨l', Q, q, h1, h2, (hreach Q).2 h3, ?_, h5, h6⟩
        rw [hadds.same Q q ?_]
        · exact h4
        · rintro w ⟨b, g1, g2, g3⟩
          obtain ⟨y, hy, hf⟩ := valueAt_filled g1
          have := hinj b a _ (isNode_of_filled ht hy hf) ⟨_, h1, by simp⟩ g3 h2
          subst this
          exact hn ⟨by simpa using g2, indep Q q h2 ⟨w, g1⟩ (by simpa using g2), w, g1⟩

end

/-! A slice with data inside an array of structures, appended to a stored occurrence. -/

def appBackend : Backend (List Int) where
  view _ S := S
  view_global _ _ _ _ := rfl
  appendData S P q _ v := S.setData P q ((S.data P q).getD [] ++ v)
  appendSize S P q _ n := if n ≤ S.size P q then S else S.setSize P q n

def joinData (o : Option (List Int)) (v : List Int) : List Int := o.getD [] ++ v

def appScalar : LeafMeta := ⟨.int, 0, false⟩
def appLeaf : LeafMeta := ⟨.int, 1, false⟩

def appMeta : MFields :=
  .cons ['h'] (.leaf appScalar) (.cons ['a'] (.aos (.cons ['x'] (.leaf appLeaf) (.cons ['y'] (.leaf appLeaf) .nil)))
    (.cons ['t'] (.leaf appLeaf) .nil))

def appInfo : Info (List Int) :=
  { dynamic := fun p => p = [['a'], ['y']] || p = [['t']], ctxPath := relPath appMeta [], timebase := fun _ => [],
    maxoccur := fun _ => 0, isDefault := fun _ v => v.isEmpty }

def appConf : Conf (List Int) :=
  { occ := ['c'], uda := false, mdsplus := false, modeOf := fun v => if v = some [1] then .homogeneous else .unknown,
    timePath := [['h']], timeMeta := appScalar, versionPath := [['v']], versionMeta := appScalar }

def appSlice : Fields (List Int) :=
  .present ['h'] (.leaf appScalar (some [1])) (.present ['a'] (.aos (.cons ['x'] (.leaf appLeaf) (.cons ['y'] (.leaf appLeaf) .nil))
    (.cons (.present ['x'] (.leaf appLeaf (some [9])) (.present ['y'] (.leaf appLeaf (some [5])) .nil)) .nil))
    (.present ['t'] (.leaf appLeaf (some [2])) .nil))

def appStore : Store (List Int) :=
  (((({ data := fun _ _ => none, size := fun _ _ => 0 } : Store (List Int)).setData [] [['h']] [1]).setSize [] [['a']] 1).setData
    [([['a']], 0)] [['y']] [3, 4]).setData [([['a']], 0)] [['x']] [8]

def appState : St (Disk (List Int)) (List Int) := ⟨⟨fun _ => appStore, [], 1⟩, []⟩

theorem appSlice_sizes {a : Addr} {k : Nat} (h : SizeAt (.struct appSlice) a k) : a = [(['a'], none)] ∧ k = 1 := by
  obtain ⟨m, e, h, rfl, -⟩ := h
  match a with
  | [] => simp [Node.at] at h
  | (n, i) :: r =>
    simp only [appSlice] at h
    by_cases h1 : n = ['h']
    · subst h1
      cases i <;> cases r <;> simp_all [Fields.get?, Node.at, Node.item]
    · by_cases h2 : n = ['a']
      · subst h2
        cases i with
        | none =>
          cases r with
          | nil => simp [Fields.get?, Node.at, Node.item] at h; simp [← h.2, Elems.length]
          | cons s r => simp [Fields.get?, Node.at, Node.item] at h
        | some i =>
          match i with
          | 0 =>
            cases r with
            | nil => simp [Fields.get?, Elems.get?, Node.at, Node.item] at h
            | cons s r =>
              obtain ⟨s, j⟩ := s
              by_cases h3 : s = ['x']
              · subst h3
                cases j <;> cases r <;> simp_all [Fields.get?, Elems.get?, Node.at, Node.item]
              · by_cases h4 : s = ['y']
                · subst h4
                  cases j <;> cases r <;> simp_all [Fields.get?, Elems.get?, Node.at, Node.item]
                · simp_all [Fields.get?, Elems.get?, Node.at, Node.item]
          | i + 1 => simp_all [Fields.get?, Elems.get?, Node.at, Node.item]
      · by_cases h3 : n = ['t']
        · subst h3
          cases i <;> cases r <;> simp_all [Fields.get?, Node.at, Node.item]
        · simp_all [Fields.get?, Node.at, Node.item]

theorem appBackend_local : AppendsLocally appBackend joinData :=
  ⟨fun _ _ _ _ _ => rfl, fun S P q => by simp [appBackend]⟩

theorem joinData_adds : AddsData joinData where
  empty o v h := by
    have : o = [] := by simpa [Value.isEmpty] using h
    subst this; rfl
  filled o v h := by
    have : v ≠ [] := by simpa [Value.isEmpty] using h
    simp [Value.isEmpty, joinData, this]

theorem app_dims : ∀ a l, atMeta (.struct appMeta) a = some (.leaf l) → appInfo.dynamic (names a) = true → l.ndim ≠ 0 := by
  intro a l h hd
  have : l = appLeaf ∨ l = appScalar ∧ names a = [['h']] := by
    match a with
    | [] => simp [atMeta] at h
    | (n, i) :: r =>
      simp only [appMeta] at h
      rw [atMeta_cons] at h
      by_cases h1 : n = ['h']
      · subst h1
        cases i <;> cases r <;> simp_all [mchild, atMeta, names]
      · by_cases h2 : n = ['a']
        · subst h2
          left
          cases i with
          | none => cases r <;> simp_all [mchild, atMeta]
          | some i =>
            simp only [mchild] at h
            cases r with
            | nil => simp_all [mchild, atMeta]
            | cons s r =>
              obtain ⟨s, j⟩ := s
              by_cases h3 : s = ['x']
              · subst h3
                cases j <;> cases r <;> simp_all [mchild, atMeta]
              · by_cases h4 : s = ['y']
                · subst h4
                  cases j <;> cases r <;> simp_all [mchild, atMeta]
                · have e3 : ¬ ['x'] = s := fun e => h3 e.symm
                  have e4 : ¬ ['y'] = s := fun e => h4 e.symm
                  simp_all [mchild, atMeta]
        · by_cases h3 : n = ['t']
          · subst h3
            left
            cases i <;> cases r <;> simp_all [mchild, atMeta]
          · simp_all [mchild, atMeta]
  rcases this with rfl | ⟨rfl, h2⟩
  · simp [appLeaf]
  · rw [h2] at hd
    exact absurd hd (by decide)

def appBefore := alGet (disk appBackend 0) appConf appInfo none 0 false .all appMeta appState
def appAfter := alGet (disk appBackend 0) appConf appInfo none 0 false .all appMeta
  (alPut (disk appBackend 0) appConf appInfo appInfo none 0 .homogeneous appMeta true appSlice appState).2

/-- The hypotheses are met. -/
example :=
  C37_appended appBackend 0 joinData appBackend_local joinData_adds appConf appInfo appMeta appSlice _ .homogeneous false
    (by simp [appMeta, WFMFields, WFMeta, mnames]) (by simp [appSlice, appMeta, TypedF, Typed, TypedE])
    (fun _ _ => rfl) (fun h => by simp [appConf] at h) (fun _ _ _ => rfl) app_dims [['h']] rfl appScalar rfl
    (by
      rintro ⟨t, h1, h2, h3⟩
      have : t = [['h']] := by
        have h4 := List.prefix_iff_eq_take.1 h2
        cases t with
        | nil => exact absurd rfl h1
        | cons x t => rw [h4]; simp [names]
      subst this
      exact absurd h3 (by decide))
    appState _ _ rfl rfl rfl rfl
    (by
      intro a k h _
      obtain ⟨rfl, rfl⟩ := appSlice_sizes h
      exact ⟨_, _, rfl, rfl, by decide⟩)

/-- The time-dependent values are appended, the other one stays. -/
example : (match appBefore.1, appAfter.1 with
    | .ok g0, .ok g1 =>
      ([[(['a'], some 0), (['y'], none)], [(['a'], some 0), (['x'], none)], [(['t'], none)]].map fun a =>
        match (Node.struct g0).at a, (Node.struct g1).at a with
        | some (.leaf _ v), some (.leaf _ w) => (v, w)
        | _, _ => (none, none)) ==
      [(some [3, 4], some [3, 4, 5]), (some [8], some [8]), (none, some [2])]
    | _, _ => false) = true := by decide +kernel

end Verif.Props
