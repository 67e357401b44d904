import Verif.Lemmas.AlRound
import Verif.Props.Diff
import Verif.Props.AlMap
/-
C36: putting an IDS and getting it back.
-/
namespace Verif.Props
open Verif.Ids Verif.Al Verif.AlSpec Verif.TreeSpec Verif.DiffSpec Verif.ConvertSpec

section
variable {V : Type} [Value V] (B : Backend V) (db : Ctx)

/-- **C36.** Putting an IDS succeeds whatever the occurrence held before, changes no other occurrence, and a
get afterwards gives the values and sizes of the put IDS and nothing else - except for time-dependent nodes of
an IDS without time, which are not stored.
`tp` is the path of `homogeneous_time`, which is set and gives the time mode. -/
theorem C36_put_get (C : Conf V) (I : Info V) (m : MFields) (f : Fields V) (mode : Mode) (constant : Bool)
    (hm : WFMFields m) (ht : TypedF f m) (hctx : ∀ t, t ≠ [] → I.ctxPath t = relPath m [] t)
    (hd : NoDefaults I f) (hmax : C.mdsplus = true → WithinMaxF I [] f)
    (tp : Path) (v : V) (htp : I.ctxPath tp = C.timePath) (hv : ValueAt (.struct f) (tp.map (·, none)) v)
    (hdyn : ¬ TimeDependent I (tp.map (·, none))) (hmode : C.modeOf (some v) = mode) (hk : mode.known = true)
    (s : St (Disk V) V) (hs : s.ll.stack = []) :
    ∃ s1, alPut (disk B db) C I I none db mode m false f s = (.ok (), s1) ∧ s1.ll.stack = [] ∧
      (∀ o, o ≠ C.occ → s1.ll.stores o = s.ll.stores o) ∧
      ∃ g s2, alGet (disk B db) C I none db constant .all m s1 = (.ok g, s2) ∧
        s2.ll.stores = s1.ll.stores ∧ s2.ll.stack = [] ∧ TypedF g m ∧
        (∀ a v, ValueAt (.struct g) a v ↔
          ValueAt (.struct f) a v ∧ ¬ (mode = .independent ∧ TimeDependent I a)) ∧
        (∀ a k, SizeAt (.struct g) a k ↔
          SizeAt (.struct f) a k ∧ ¬ (mode = .independent ∧ TimeDependent I a)) := by
  obtain ⟨s1, p1, p2, p3⟩ := alPut_spec B db C I I none mode m f hs hmax
  have hwf : WFFields f := Verif.Convert.wf_of_typedF f m ht hm
  have hst : s1.ll.stores C.occ =
      storeFields ⟨I, mode, none⟩ [] [] f (deleteFieldsS ⟨I, mode, none⟩ [] m (s.ll.stores C.occ)) := by
    rw [p2, setStore_get]
  have hT : ∀ p q, pathOf ⟨I, mode, none⟩ p = some q → q = I.ctxPath p := by
    intro p q h
    rw [pathOf_plain] at h
    split at h <;> cases h
    rfl
  have hinj : ∀ b c R, IsNode m b → IsNode m c → keyOf (pathOf ⟨I, mode, none⟩) [] [] b = some R →
      keyOf (pathOf ⟨I, mode, none⟩) [] [] c = some R → b = c := by
    intro b c R hb hc
    refine key_inj _ b m [] [] [] c R ?_ hb hc
    intro t q h1 h2
    rw [hT _ _ h2]
    exact hctx t h1
  have inj : ∀ b c y z R, (Node.struct f).at b = some y → Filled y → (Node.struct f).at c = some z → Filled z →
      keyOf (pathOf ⟨I, mode, none⟩) [] [] b = some R → keyOf (pathOf ⟨I, mode, none⟩) [] [] c = some R →
      b = c :=
    fun b c y z R h1 h2 h3 h4 => hinj b c R (isNode_of_filled ht h1 h2) (isNode_of_filled ht h3 h4)
  have clear : ∀ a Q q, IsNode m a → keyOf (pathOf ⟨I, mode, none⟩) [] [] a = some (Q, q) →
      Clear (deleteFieldsS ⟨I, mode, none⟩ [] m (s.ll.stores C.occ)) Q q := by
    rintro a Q q ⟨x, hx, hxs⟩ hk
    obtain ⟨t, h1, h2⟩ := key_top _ I.ctxPath hT a m [] x Q q hx hxs hk
    exact delete_top ⟨I, mode, none⟩ h1 [] h2 _
  have hval := transfer_value ⟨I, mode, none⟩ ⟨I, mode, none⟩ f m
    (deleteFieldsS ⟨I, mode, none⟩ [] m (s.ll.stores C.occ)) hwf inj clear
  have hsize := transfer_size ⟨I, mode, none⟩ ⟨I, mode, none⟩ f m
    (deleteFieldsS ⟨I, mode, none⟩ [] m (s.ll.stores C.occ)) hwf inj clear
  have tv : Typed (Node.struct f) (.struct m) := by simpa only [Typed] using ht
  -- values
  have hval' : ∀ a v, ValueAt (.struct (evalFields (s1.ll.stores C.occ) ⟨I, mode, none⟩ [] [] m)) a v ↔
      ValueAt (.struct f) a v ∧ ¬ (mode = .independent ∧ TimeDependent I a) := by
    intro a w
    rw [hst, hval]
    constructor
    · rintro ⟨l, b, h1, h2, h3, h4, h5⟩
      obtain ⟨y, hy, hf⟩ := valueAt_filled h2
      have hb := isNode_of_filled ht hy hf
      have ha : IsNode m a := ⟨_, h1, by simp⟩
      obtain ⟨R, hR⟩ := Option.isSome_iff_exists.1 h4
      have := hinj b a R hb ha (h3.trans hR) hR
      subst this
      exact ⟨h2, (stored_iff I mode (isNode_last ha)).1 h4⟩
    · rintro ⟨h1, h2⟩
      obtain ⟨y, hy, hf⟩ := valueAt_filled h1
      have ha := isNode_of_filled ht hy hf
      obtain ⟨l, h3, h4⟩ := h1
      obtain ⟨d, h5, h6⟩ := atMeta_of_typed a _ _ _ tv h3
      cases d with
      | struct d => simp [Typed] at h6
      | aos d => simp [Typed] at h6
      | leaf l' =>
        simp only [Typed] at h6
        subst h6
        refine ⟨l, a, h5, ⟨l, h3, h4⟩, rfl, (stored_iff I mode (isNode_last ha)).2 h2, ?_⟩
        cases hn : decide (l.ndim = 0) with
        | false => simp
        | true => simp only [Bool.true_and]; exact hd a l w h3 (by simpa using hn)
  have hsize' : ∀ a k, SizeAt (.struct (evalFields (s1.ll.stores C.occ) ⟨I, mode, none⟩ [] [] m)) a k ↔
      SizeAt (.struct f) a k ∧ ¬ (mode = .independent ∧ TimeDependent I a) := by
    intro a w
    rw [hst, hsize]
    constructor
    · rintro ⟨l, b, h1, h2, h3, h4⟩
      obtain ⟨y, hy, hf⟩ := sizeAt_filled h2
      have hb := isNode_of_filled ht hy hf
      have ha : IsNode m a := ⟨_, h1, by simp⟩
      obtain ⟨R, hR⟩ := Option.isSome_iff_exists.1 h4
      have := hinj b a R hb ha (h3.trans hR) hR
      subst this
      exact ⟨h2, (stored_iff I mode (isNode_last ha)).1 h4⟩
    · rintro ⟨h1, h2⟩
      obtain ⟨y, hy, hf⟩ := sizeAt_filled h1
      have ha := isNode_of_filled ht hy hf
      obtain ⟨l, e, h3, h4, h7⟩ := h1
      obtain ⟨d, h5, h6⟩ := atMeta_of_typed a _ _ _ tv h3
      cases d with
      | struct d => simp [Typed] at h6
      | leaf d => simp [Typed] at h6
      | aos l' => exact ⟨l', a, h5, ⟨l, e, h3, h4, h7⟩, rfl, (stored_iff I mode (isNode_last ha)).2 h2⟩
  -- the time mode that was stored
  have hstored : C.modeOf ((s1.ll.stores C.occ).data [] C.timePath) = mode := by
    have h1 := (hval' (tp.map (·, none)) v).2 ⟨hv, fun h => hdyn h.2⟩
    rw [eval_value] at h1
    obtain ⟨l, Q, q, -, h3, -, h4, -⟩ := h1
    obtain ⟨h5, h6⟩ := keyOf_plain _ _ _ _ _ h3
    have := hT _ _ h6
    simp only [List.nil_append] at this h5
    rw [h5, this, htp] at h4
    rw [h4, hmode]
  obtain ⟨s2, g1, g2, g3⟩ := alGet_spec B db C I none constant .all m (p3.trans hs) hstored hk
  have hview : B.view ((if constant then Range.all else .all).begin C.occ) (s1.ll.stores C.occ) =
      s1.ll.stores C.occ := by
    rw [show (if constant then Range.all else .all).begin C.occ = .global C.occ false false by cases constant <;> rfl]
    exact B.view_global _ _ _ _
  rw [hview] at g1
  refine ⟨s1, p1, p3.trans hs, ?_, _, s2, g1, g2, g3.trans (p3.trans hs), typed_evalF _ _ _ _ _, hval', hsize'⟩
  intro o ho
  rw [p2]
  simp [setStore, ho]

/-- **C36.** The IDS that comes back equals the IDS that was put (for an IDS without time: if no
time-dependent node is filled, which `validate` checks before a put). -/
theorem C36_equal (eqv : V → V → Bool) (hrefl : ∀ v, eqv v v = true) (pos : Position)
    (C : Conf V) (I : Info V) (m : MFields) (f : Fields V) (mode : Mode) (constant : Bool)
    (hm : WFMFields m) (ht : TypedF f m) (hctx : ∀ t, t ≠ [] → I.ctxPath t = relPath m [] t)
    (hd : NoDefaults I f) (hmax : C.mdsplus = true → WithinMaxF I [] f)
    (tp : Path) (v : V) (htp : I.ctxPath tp = C.timePath) (hv : ValueAt (.struct f) (tp.map (·, none)) v)
    (hdyn : ¬ TimeDependent I (tp.map (·, none))) (hmode : C.modeOf (some v) = mode) (hk : mode.known = true)
    (htime : mode = .independent → ∀ a y, (Node.struct f).at a = some y → Filled y → ¬ TimeDependent I a)
    (s : St (Disk V) V) (hs : s.ll.stack = []) :
    ∃ s1 g s2, alPut (disk B db) C I I none db mode m false f s = (.ok (), s1) ∧
      alGet (disk B db) C I none db constant .all m s1 = (.ok g, s2) ∧ structEq eqv pos pos g f = true := by
  obtain ⟨s1, h1, -, -, g, s2, h2, -, -, h3, h4, h5⟩ :=
    C36_put_get B db C I m f mode constant hm ht hctx hd hmax tp v htp hv hdyn hmode hk s hs
  refine ⟨s1, g, s2, h1, h2, ?_⟩
  have kept : ∀ a y, (Node.struct f).at a = some y → Filled y → ¬ (mode = .independent ∧ TimeDependent I a) :=
    fun a y h hf hc => htime hc.1 a y h hf hc.2
  refine C12_same_content_equal eqv pos g f m (Verif.Convert.wf_of_typedF g m h3 hm)
    (Verif.Convert.wf_of_typedF f m ht hm) h3 ht ⟨?_, ?_⟩ ?_
  · intro a w h
    exact ⟨w, ((h4 a w).1 h).1, hrefl w⟩
  · intro a w h
    obtain ⟨y, hy, hf⟩ := valueAt_filled h
    exact ⟨w, (h4 a w).2 ⟨h, kept a y hy hf⟩, hrefl w⟩
  · intro a k
    rw [h5]
    constructor
    · exact fun h => h.1
    · intro h
      obtain ⟨y, hy, hf⟩ := sizeAt_filled h
      exact ⟨h, kept a y hy hf⟩

end

set_option linter.unusedSimpArgs false in
theorem older_no_defaults : NoDefaults (pathInfo olderMeta) olderIds := by
  intro a l v h _
  have key : v = 1 ∨ v = 4 ∨ v = 5 := by
    match a with
    | [] => simp [Node.at] at h
    | (n, i) :: r =>
      simp only [olderIds] at h
      by_cases h1 : n = ['h']
      · subst h1
        cases i <;> cases r <;> simp_all [Fields.get?, Elems.get?, Node.at, Node.item]
      · by_cases h2 : n = ['a']
        · subst h2
          cases i with
          | none => cases r <;> simp_all [Fields.get?, Elems.get?, Node.at, Node.item]
          | some i =>
            match i with
            | 0 =>
              cases r with
              | nil => simp_all [Fields.get?, Elems.get?, Node.at, Node.item]
              | cons k r =>
                obtain ⟨k, j⟩ := k
                by_cases h3 : k = ['x']
                · subst h3
                  cases j <;> cases r <;> simp_all [Fields.get?, Elems.get?, Node.at, Node.item]
                · simp_all [Fields.get?, Elems.get?, Node.at, Node.item]
            | 1 =>
              cases r with
              | nil => simp_all [Fields.get?, Elems.get?, Node.at, Node.item]
              | cons k r =>
                obtain ⟨k, j⟩ := k
                by_cases h3 : k = ['x']
                · subst h3
                  cases j <;> cases r <;> simp_all [Fields.get?, Elems.get?, Node.at, Node.item, Meta.fresh]
                · simp_all [Fields.get?, Elems.get?, Node.at, Node.item]
            | i + 2 => simp_all [Fields.get?, Elems.get?, Node.at, Node.item]
        · by_cases h3 : n = ['c']
          · subst h3
            cases i <;> cases r <;> simp_all [Fields.get?, Elems.get?, Node.at, Node.item]
          · simp_all [Fields.get?, Elems.get?, Node.at, Node.item]
  rcases key with rfl | rfl | rfl <;> rfl

/-- The hypotheses are met. -/
example (s : St (Disk Nat) Nat) (hs : s.ll.stack = []) :=
  C36_equal plainBackend 0 (· == ·) (by simp) ⟨[], [], []⟩ pathConf (pathInfo olderMeta) olderMeta olderIds .homogeneous false
    (by simp [olderMeta, WFMFields, WFMeta, mnames]) (by simp [olderIds, olderMeta, TypedF, Typed, TypedE])
    (fun _ _ => rfl) older_no_defaults (fun h => by simp [pathConf, alConf] at h) [['h']] 1 rfl ⟨alLeaf, rfl, rfl⟩
    (homogeneous_static _) rfl rfl (fun h => by cases h) s hs

end Verif.Props
