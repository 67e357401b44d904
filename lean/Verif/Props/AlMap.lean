import Verif.Lemmas.AlMap
import Verif.Props.AlSlice
/-
C49: reading and writing in another minor version.
-/
namespace Verif.Props
open Verif.Ids Verif.Al Verif.AlSpec Verif.TreeSpec Verif.DiffSpec Verif.ConvertSpec
open Verif.Convert (names)

section
variable {V : Type} [Value V] (B : Backend V) (db : Ctx)

/-- **C49, get.** Getting an IDS in another version than it was stored in succeeds, and gives exactly the
values and sizes of the counterparts of its nodes in the stored IDS: nodes with other names are found,
nodes without counterpart are not set. (Time-dependent nodes of an IDS without time are not stored.) -/
theorem C49_get (C : Conf V) (I1 I2 : Info V) (m1 m2 : MFields) (N : Nbc) (link : Path → Option Path)
    (hN : Describes N I1 I2 m1 m2 link) (f : Fields V) (mode : Mode) (constant : Bool)
    (hm : WFMFields m1) (ht : TypedF f m1) (hctx : ∀ t, t ≠ [] → I1.ctxPath t = relPath m1 [] t)
    (hmax : C.mdsplus = true → WithinMaxF I1 [] f)
    (tp : Path) (v : V) (htp : I1.ctxPath tp = C.timePath) (hv : ValueAt (.struct f) (tp.map (·, none)) v)
    (hdyn : ¬ TimeDependent I1 (tp.map (·, none))) (hmode : C.modeOf (some v) = mode) (hk : mode.known = true)
    (s : St (Disk V) V) (hs : s.ll.stack = []) :
    ∃ s1 g s2, alPut (disk B db) C I1 I1 none db mode m1 false f s = (.ok (), s1) ∧
      alGet (disk B db) C I2 (some N) db constant .all m2 s1 = (.ok g, s2) ∧ TypedF g m2 ∧
      (∀ a v, ValueAt (.struct g) a v ↔ ∃ l b, atMeta (.struct m2) a = some (.leaf l) ∧
        ValueAt (.struct f) b v ∧ Counterpart link a b ∧ (l.ndim = 0 && I2.isDefault l v) = false ∧
        ¬ (mode = .independent ∧ TimeDependent I2 a) ∧ ¬ (mode = .independent ∧ TimeDependent I1 b)) ∧
      (∀ a k, SizeAt (.struct g) a k ↔ ∃ d b, atMeta (.struct m2) a = some (.aos d) ∧
        SizeAt (.struct f) b k ∧ Counterpart link a b ∧
        ¬ (mode = .independent ∧ TimeDependent I2 a) ∧ ¬ (mode = .independent ∧ TimeDependent I1 b)) := by
  obtain ⟨s1, p1, p2, p3⟩ := alPut_spec B db C I1 I1 none mode m1 f hs hmax
  have hwf : WFFields f := Verif.Convert.wf_of_typedF f m1 ht hm
  have hst : s1.ll.stores C.occ =
      storeFields ⟨I1, mode, none⟩ [] [] f (deleteFieldsS ⟨I1, mode, none⟩ [] m1 (s.ll.stores C.occ)) := by
    rw [p2, setStore_get]
  have inj : ∀ b c y z R, (Node.struct f).at b = some y → Filled y → (Node.struct f).at c = some z → Filled z →
      keyOf (pathOf ⟨I1, mode, none⟩) [] [] b = some R → keyOf (pathOf ⟨I1, mode, none⟩) [] [] c = some R →
      b = c :=
    fun b c y z R h1 h2 h3 h4 k1 k2 => plain_inj hctx (isNode_of_filled ht h1 h2) (isNode_of_filled ht h3 h4)
      (plain_mono k1) (plain_mono k2)
  have clear : ∀ a Q q, IsNode m2 a → keyOf (pathOf ⟨I2, mode, some N⟩) [] [] a = some (Q, q) →
      Clear (deleteFieldsS ⟨I1, mode, none⟩ [] m1 (s.ll.stores C.occ)) Q q := by
    intro a Q q ha hk
    obtain ⟨b, ⟨x, hx, hxs⟩, -, hb⟩ := counterpart_exists hN ha hk
    obtain ⟨t, h1, h2⟩ := key_top _ I1.ctxPath (fun p q h => by simpa using h.symm) b m1 [] x Q q hx hxs hb
    exact delete_top ⟨I1, mode, none⟩ h1 [] h2 _
  have hstored : C.modeOf ((s1.ll.stores C.occ).data [] C.timePath) = mode := by
    obtain ⟨y, hy, hf⟩ := valueAt_filled hv
    have hnode := isNode_of_filled ht hy hf
    obtain ⟨⟨Q, q⟩, hkey⟩ := Option.isSome_iff_exists.1
      ((stored_iff I1 mode (isNode_last hnode)).2 fun h => hdyn h.2)
    obtain ⟨h5, h6⟩ := keyOf_plain _ _ _ _ _ hkey
    have h7 := plain_path h6
    simp only [List.nil_append] at h5 h7
    subst h5
    rw [htp] at h7
    subst h7
    rw [hst]
    rcases store_data ⟨I1, mode, none⟩ f hwf [] [] (deleteFieldsS ⟨I1, mode, none⟩ [] m1 (s.ll.stores C.occ))
      [] C.timePath with ⟨c, w, g1, g2, g3⟩ | ⟨g1, -⟩
    · obtain ⟨z, hz, hzf⟩ := valueAt_filled g1
      have := inj _ c _ _ _ hy hf hz hzf hkey g2
      subst this
      obtain ⟨l1, e1, -⟩ := g1
      obtain ⟨l2, e2, -⟩ := hv
      rw [e1] at e2
      cases e2
      rw [g3, hmode]
    · exact absurd hkey (g1 _ _ hv)
  obtain ⟨s2, g1, g2, g3⟩ := alGet_spec B db C I2 (some N) constant .all m2 (p3.trans hs) hstored hk
  have hview : B.view ((if constant then Range.all else .all).begin C.occ) (s1.ll.stores C.occ) =
      s1.ll.stores C.occ := by
    rw [show (if constant then Range.all else .all).begin C.occ = .global C.occ false false by cases constant <;> rfl]
    exact B.view_global _ _ _ _
  rw [hview] at g1
  refine ⟨s1, _, s2, p1, g1, typed_evalF _ _ _ _ _, ?_, ?_⟩
  · intro a w
    rw [hst, transfer_value _ _ f m2 _ hwf inj clear]
    constructor
    · rintro ⟨l, b, h1, h2, h3, h4, h5⟩
      obtain ⟨y, hy, hf⟩ := valueAt_filled h2
      obtain ⟨c1, c2, c3⟩ := (counterpart_iff hN hctx ⟨_, h1, by simp⟩ (isNode_of_filled ht hy hf)).1 ⟨h3, h4⟩
      exact ⟨l, b, h1, h2, c1, h5, c2, c3⟩
    · rintro ⟨l, b, h1, h2, c1, h5, c2, c3⟩
      obtain ⟨y, hy, hf⟩ := valueAt_filled h2
      obtain ⟨h3, h4⟩ := (counterpart_iff hN hctx ⟨_, h1, by simp⟩ (isNode_of_filled ht hy hf)).2 ⟨c1, c2, c3⟩
      exact ⟨l, b, h1, h2, h3, h4, h5⟩
  · intro a w
    rw [hst, transfer_size _ _ f m2 _ hwf inj clear]
    constructor
    · rintro ⟨l, b, h1, h2, h3, h4⟩
      obtain ⟨y, hy, hf⟩ := sizeAt_filled h2
      obtain ⟨c1, c2, c3⟩ := (counterpart_iff hN hctx ⟨_, h1, by simp⟩ (isNode_of_filled ht hy hf)).1 ⟨h3, h4⟩
      exact ⟨l, b, h1, h2, c1, c2, c3⟩
    · rintro ⟨l, b, h1, h2, c1, c2, c3⟩
      obtain ⟨y, hy, hf⟩ := sizeAt_filled h2
      obtain ⟨h3, h4⟩ := (counterpart_iff hN hctx ⟨_, h1, by simp⟩ (isNode_of_filled ht hy hf)).2 ⟨c1, c2, c3⟩
      exact ⟨l, b, h1, h2, h3, h4⟩

/-- **C49, put.** Putting an IDS of another version than the data entry succeeds, and reading it in the version of
the data entry gives exactly the values and sizes of the counterparts in the put IDS; nodes without counterpart
are skipped, and nothing of earlier contents is left.
`link` must not send two nodes to the same place. -/
theorem C49_put (C : Conf V) (I1 I2 : Info V) (m1 m2 : MFields) (N : Nbc) (link : Path → Option Path)
    (hN : Describes N I1 I2 m1 m2 link) (f : Fields V) (mode : Mode) (constant : Bool)
    (hone : ∀ p p' q, IsDataPath m2 p → IsDataPath m2 p' → link p = some q → link p' = some q → p = p')
    (hm : WFMFields m2) (ht : TypedF f m2) (hctx : ∀ t, t ≠ [] → I1.ctxPath t = relPath m1 [] t)
    (hmax : C.mdsplus = true → WithinMaxF I2 [] f)
    (tp tq : Path) (v : V) (hlink : link tp = some tq) (htp : I1.ctxPath tq = C.timePath)
    (hv : ValueAt (.struct f) (tp.map (·, none)) v)
    (hdyn : ¬ TimeDependent I2 (tp.map (·, none))) (hmode : C.modeOf (some v) = mode) (hk : mode.known = true)
    (s : St (Disk V) V) (hs : s.ll.stack = []) :
    ∃ s1 g s2, alPut (disk B db) C I2 I1 (some N) db mode m1 false f s = (.ok (), s1) ∧
      (∀ o, o ≠ C.occ → s1.ll.stores o = s.ll.stores o) ∧
      alGet (disk B db) C I1 none db constant .all m1 s1 = (.ok g, s2) ∧ TypedF g m1 ∧
      (∀ b v, ValueAt (.struct g) b v ↔ ∃ l a, atMeta (.struct m1) b = some (.leaf l) ∧
        ValueAt (.struct f) a v ∧ Counterpart link a b ∧ (l.ndim = 0 && I1.isDefault l v) = false ∧
        ¬ (mode = .independent ∧ TimeDependent I2 a) ∧ ¬ (mode = .independent ∧ TimeDependent I1 b)) ∧
      (∀ b k, SizeAt (.struct g) b k ↔ ∃ d a, atMeta (.struct m1) b = some (.aos d) ∧
        SizeAt (.struct f) a k ∧ Counterpart link a b ∧
        ¬ (mode = .independent ∧ TimeDependent I2 a) ∧ ¬ (mode = .independent ∧ TimeDependent I1 b)) := by
  obtain ⟨s1, p1, p2, p3⟩ := alPut_spec B db C I2 I1 (some N) mode m1 f hs hmax
  have hwf : WFFields f := Verif.Convert.wf_of_typedF f m2 ht hm
  have hst : s1.ll.stores C.occ =
      storeFields ⟨I2, mode, some N⟩ [] [] f (deleteFieldsS ⟨I1, mode, none⟩ [] m1 (s.ll.stores C.occ)) := by
    rw [p2, setStore_get]
  have inj : ∀ b c y z R, (Node.struct f).at b = some y → Filled y → (Node.struct f).at c = some z → Filled z →
      keyOf (pathOf ⟨I2, mode, some N⟩) [] [] b = some R → keyOf (pathOf ⟨I2, mode, some N⟩) [] [] c = some R →
      b = c := by
    intro b c y z R h1 h2 h3 h4 k1 k2
    have nb := isNode_of_filled ht h1 h2
    have nc := isNode_of_filled ht h3 h4
    obtain ⟨b', n1, cp1, e1⟩ := counterpart_exists hN nb k1
    obtain ⟨c', n2, cp2, e2⟩ := counterpart_exists hN nc k2
    have := plain_inj hctx n1 n2 e1 e2
    subst this
    exact node_unique b m2 c nb nc
      (hone _ _ _ (dataPath_of_node nb) (dataPath_of_node nc) cp1.1 cp2.1) (cp1.2.trans cp2.2.symm)
  have clear : ∀ a Q q, IsNode m1 a → keyOf (pathOf ⟨I1, mode, none⟩) [] [] a = some (Q, q) →
      Clear (deleteFieldsS ⟨I1, mode, none⟩ [] m1 (s.ll.stores C.occ)) Q q := by
    rintro a Q q ⟨x, hx, hxs⟩ hk
    obtain ⟨t, h1, h2⟩ := key_top _ I1.ctxPath (fun p q h => plain_path h) a m1 [] x Q q hx hxs hk
    exact delete_top ⟨I1, mode, none⟩ h1 [] h2 _
  have hstored : C.modeOf ((s1.ll.stores C.occ).data [] C.timePath) = mode := by
    obtain ⟨y, hy, hf⟩ := valueAt_filled hv
    have hnode := isNode_of_filled ht hy hf
    have hnames : names (tp.map (·, (none : Option Nat))) = tp := by
      simp [names, Function.comp_def]
    have hsome : (keyOf (pathOf ⟨I2, mode, some N⟩) [] [] (tp.map (·, none))).isSome := by
      rw [keyOf_isSome _ _ [] [] (isNode_last hnode)]
      intro t ht hp
      rw [List.nil_append, pathOf_mapped, if_neg (fun h => hdyn ⟨t, ht, hp, h.2⟩)]
      rw [hnames] at hp
      exact hN.above _ _ t (by have := dataPath_of_node hnode; rwa [hnames] at this) hlink ht hp
    obtain ⟨⟨Q, q⟩, hkey⟩ := Option.isSome_iff_exists.1 hsome
    obtain ⟨h5, h6⟩ := keyOf_plain _ _ _ _ _ hkey
    have h7 := linked_path hN (by have := dataPath_of_node hnode; rwa [hnames] at this) hlink h6
    subst h5
    rw [htp] at h7
    subst h7
    rw [hst]
    rcases store_data ⟨I2, mode, some N⟩ f hwf [] [] (deleteFieldsS ⟨I1, mode, none⟩ [] m1 (s.ll.stores C.occ))
      [] C.timePath with ⟨c, w, g1, g2, g3⟩ | ⟨g1, -⟩
    · obtain ⟨z, hz, hzf⟩ := valueAt_filled g1
      have := inj _ c _ _ _ hy hf hz hzf hkey g2
      subst this
      obtain ⟨l1, e1, -⟩ := g1
      obtain ⟨l2, e2, -⟩ := hv
      rw [e1] at e2
      cases e2
      rw [g3, hmode]
    · exact absurd hkey (g1 _ _ hv)
  obtain ⟨s2, g1, g2, g3⟩ := alGet_spec B db C I1 none constant .all m1 (p3.trans hs) hstored hk
  have hview : B.view ((if constant then Range.all else .all).begin C.occ) (s1.ll.stores C.occ) =
      s1.ll.stores C.occ := by
    rw [show (if constant then Range.all else .all).begin C.occ = .global C.occ false false by cases constant <;> rfl]
    exact B.view_global _ _ _ _
  rw [hview] at g1
  -- same key, seen from either side
  have keys : ∀ {a b : Addr}, IsNode m2 a → IsNode m1 b →
      ((keyOf (pathOf ⟨I2, mode, some N⟩) [] [] a = keyOf (pathOf ⟨I1, mode, none⟩) [] [] b ∧
        (keyOf (pathOf ⟨I1, mode, none⟩) [] [] b).isSome) ↔
      (Counterpart link a b ∧ ¬ (mode = .independent ∧ TimeDependent I2 a) ∧
        ¬ (mode = .independent ∧ TimeDependent I1 b))) := by
    intro a b ha hb
    rw [← counterpart_iff hN hctx ha hb]
    constructor
    · rintro ⟨h1, h2⟩; exact ⟨h1.symm, by rw [h1]; exact h2⟩
    · rintro ⟨h1, h2⟩; exact ⟨h1.symm, by rw [h1]; exact h2⟩
  refine ⟨s1, _, s2, p1, ?_, g1, typed_evalF _ _ _ _ _, ?_, ?_⟩
  · intro o ho
    rw [p2]
    simp [setStore, ho]
  · intro b w
    rw [hst, transfer_value _ _ f m1 _ hwf inj clear]
    constructor
    · rintro ⟨l, a, h1, h2, h3, h4, h5⟩
      obtain ⟨y, hy, hf⟩ := valueAt_filled h2
      obtain ⟨c1, c2, c3⟩ := (keys (isNode_of_filled ht hy hf) ⟨_, h1, by simp⟩).1 ⟨h3, h4⟩
      exact ⟨l, a, h1, h2, c1, h5, c2, c3⟩
    · rintro ⟨l, a, h1, h2, c1, h5, c2, c3⟩
      obtain ⟨y, hy, hf⟩ := valueAt_filled h2
      obtain ⟨h3, h4⟩ := (keys (isNode_of_filled ht hy hf) ⟨_, h1, by simp⟩).2 ⟨c1, c2, c3⟩
      exact ⟨l, a, h1, h2, h3, h4, h5⟩
  · intro b w
    rw [hst, transfer_size _ _ f m1 _ hwf inj clear]
    constructor
    · rintro ⟨l, a, h1, h2, h3, h4⟩
      obtain ⟨y, hy, hf⟩ := sizeAt_filled h2
      obtain ⟨c1, c2, c3⟩ := (keys (isNode_of_filled ht hy hf) ⟨_, h1, by simp⟩).1 ⟨h3, h4⟩
      exact ⟨l, a, h1, h2, c1, c2, c3⟩
    · rintro ⟨l, a, h1, h2, c1, c2, c3⟩
      obtain ⟨y, hy, hf⟩ := sizeAt_filled h2
      obtain ⟨h3, h4⟩ := (keys (isNode_of_filled ht hy hf) ⟨_, h1, by simp⟩).2 ⟨c1, c2, c3⟩
      exact ⟨l, a, h1, h2, h3, h4⟩

end

/-! ### Two versions

In the newer one the array `a` with its node `x` is called `b`, the node `n` is new and the node `c` has another type. -/

def strLeaf : LeafMeta := ⟨.str, 0, false⟩

def olderMeta : MFields :=
  .cons ['h'] (.leaf alLeaf) (.cons ['a'] (.aos (.cons ['x'] (.leaf alLeaf) .nil)) (.cons ['c'] (.leaf alLeaf) .nil))

def newerMeta : MFields :=
  .cons ['h'] (.leaf alLeaf) (.cons ['b'] (.aos (.cons ['x'] (.leaf alLeaf) (.cons ['n'] (.leaf alLeaf) .nil)))
    (.cons ['c'] (.leaf strLeaf) .nil))

def pathInfo (m : MFields) : Info Nat :=
  { dynamic := fun p => p.getLast? = some ['x'], ctxPath := relPath m [], timebase := fun _ => [], maxoccur := fun _ => 0
    isDefault := fun _ v => v == 9 }

def newerMap : Nbc :=
  { path := fun p =>
      if p = [['b']] then some (some ([['a']], []))
      else if p = [['b'], ['x']] then some (some ([['x']], []))
      else if p = [['b'], ['n']] then some none
      else none
    change := fun p => p = [['c']] }

def newerLink (p : Path) : Option Path :=
  if p = [['h']] then some [['h']]
  else if p = [['b']] then some [['a']]
  else if p = [['b'], ['x']] then some [['a'], ['x']]
  else none

def olderIds : Fields Nat :=
  .present ['h'] (.leaf alLeaf (some 1))
    (.present ['a'] (.aos (.cons ['x'] (.leaf alLeaf) .nil)
      (.cons (.present ['x'] (.leaf alLeaf (some 4)) .nil) (.cons (.absent ['x'] (.leaf alLeaf) .nil) .nil)))
    (.present ['c'] (.leaf alLeaf (some 5)) .nil))

def newerIds : Fields Nat :=
  .present ['h'] (.leaf alLeaf (some 1))
    (.present ['b'] (.aos (.cons ['x'] (.leaf alLeaf) (.cons ['n'] (.leaf alLeaf) .nil))
      (.cons (.present ['x'] (.leaf alLeaf (some 4)) (.present ['n'] (.leaf alLeaf (some 6)) .nil)) .nil))
    (.absent ['c'] (.leaf strLeaf) .nil))

theorem newer_paths {p : Path} (h : IsDataPath newerMeta p) :
    p = [['h']] ∨ p = [['b']] ∨ p = [['b'], ['x']] ∨ p = [['b'], ['n']] ∨ p = [['c']] := by
  obtain ⟨x, hx, hs⟩ := h
  match p with
  | [] => simp [metaAt] at hx; exact absurd hx.symm (hs _)
  | n :: r =>
    simp only [metaAt, child, newerMeta, mchild] at hx
    by_cases h1 : n = ['h']
    · subst h1
      simp only [if_pos, Option.bind_some] at hx
      cases r with
      | nil => simp
      | cons k r => simp [metaAt, child] at hx
    · by_cases h2 : n = ['b']
      · subst h2
        rw [if_neg h1, if_pos rfl, Option.bind_some] at hx
        cases r with
        | nil => simp
        | cons k r =>
          simp only [metaAt, child, mchild] at hx
          by_cases h3 : k = ['x']
          · subst h3
            simp only [if_pos, Option.bind_some] at hx
            cases r with
            | nil => simp
            | cons k r => simp [metaAt, child] at hx
          · by_cases h4 : k = ['n']
            · subst h4
              rw [if_neg h3, if_pos rfl, Option.bind_some] at hx
              cases r with
              | nil => simp
              | cons k r => simp [metaAt, child] at hx
            · simp [h3, h4] at hx
      · by_cases h3 : n = ['c']
        · subst h3
          rw [if_neg h1, if_neg h2, if_pos rfl, Option.bind_some] at hx
          cases r with
          | nil => simp
          | cons k r => simp [metaAt, child] at hx
        · simp [h1, h2, h3] at hx

/-- The map of the example describes its links. -/
theorem newer_describes : Describes newerMap (pathInfo olderMeta) (pathInfo newerMeta) olderMeta newerMeta newerLink where
  here p q hp hl := by
    rcases newer_paths hp with rfl | rfl | rfl | rfl | rfl <;> simp [newerLink] at hl <;> subst hl <;> rfl
  skip p hp hl := by
    rcases newer_paths hp with rfl | rfl | rfl | rfl | rfl <;> simp [newerLink] at hl
    · exact ⟨_, by simp, List.prefix_refl _, rfl⟩
    · exact ⟨_, by simp, List.prefix_refl _, rfl⟩
  above p q t hp hl ht htp := by
    rcases newer_paths hp with rfl | rfl | rfl | rfl | rfl
    · have : t = [['h']] := by
        obtain ⟨u, hu⟩ := htp; cases t <;> simp_all
      subst this; rfl
    · have : t = [['b']] := by
        obtain ⟨u, hu⟩ := htp; cases t <;> simp_all
      subst this; rfl
    · have : t = [['b']] ∨ t = [['b'], ['x']] := by
        obtain ⟨u, hu⟩ := htp
        cases t with
        | nil => exact absurd rfl ht
        | cons n t => cases t <;> simp_all
      rcases this with rfl | rfl <;> rfl
    · simp [newerLink] at hl
    · simp [newerLink] at hl
  exist p q hp hl := by
    rcases newer_paths hp with rfl | rfl | rfl | rfl | rfl <;> simp [newerLink] at hl <;> subst hl
    · exact ⟨.leaf alLeaf, rfl, by simp⟩
    · exact ⟨_, rfl, by simp⟩
    · exact ⟨.leaf alLeaf, rfl, by simp⟩
  arrays p q hp hl := by
    rcases newer_paths hp with rfl | rfl | rfl | rfl | rfl <;> simp [newerLink] at hl <;> subst hl <;> rfl

theorem newer_once (p p' q : Path) (hp : IsDataPath newerMeta p) (hp' : IsDataPath newerMeta p')
    (h : newerLink p = some q) (h' : newerLink p' = some q) : p = p' := by
  rcases newer_paths hp with rfl | rfl | rfl | rfl | rfl <;> rcases newer_paths hp' with rfl | rfl | rfl | rfl | rfl <;>
    simp [newerLink] at h h' <;> subst h <;> simp_all

def plainBackend : Backend Nat := ⟨fun _ S => S, fun _ _ _ _ => rfl, fun S _ _ _ _ => S, fun S _ _ _ _ => S⟩

def pathConf : Conf Nat := { alConf with modeOf := fun v => if v = some 1 then .homogeneous else .unknown }

theorem homogeneous_static (m : MFields) : ¬ TimeDependent (pathInfo m) ([['h']].map (·, none)) := by
  rintro ⟨t, ht, ⟨u, hu⟩, hd⟩
  cases t with
  | nil => exact ht rfl
  | cons n t =>
    simp [names] at hu
    obtain ⟨rfl, rfl, -⟩ := hu
    simp [pathInfo] at hd

/-- The hypotheses of `C49_get` and `C49_put` are met. -/
example (s : St (Disk Nat) Nat) (hs : s.ll.stack = []) :=
  C49_get plainBackend 0 pathConf (pathInfo olderMeta) (pathInfo newerMeta) olderMeta newerMeta newerMap newerLink
    newer_describes olderIds .homogeneous false
    (by simp [olderMeta, WFMFields, WFMeta, mnames]) (by simp [olderIds, olderMeta, TypedF, Typed, TypedE])
    (fun _ _ => rfl) (fun h => by simp [pathConf, alConf] at h) [['h']] 1 rfl ⟨alLeaf, rfl, rfl⟩ (homogeneous_static _)
    rfl rfl s hs

example (s : St (Disk Nat) Nat) (hs : s.ll.stack = []) :=
  C49_put plainBackend 0 pathConf (pathInfo olderMeta) (pathInfo newerMeta) olderMeta newerMeta newerMap newerLink
    newer_describes newerIds .homogeneous false newer_once
    (by simp [newerMeta, WFMFields, WFMeta, mnames]) (by simp [newerIds, newerMeta, TypedF, Typed, TypedE])
    (fun _ _ => rfl) (fun h => by simp [pathConf, alConf] at h) [['h']] [['h']] 1 rfl rfl ⟨alLeaf, rfl, rfl⟩
    (homogeneous_static _) rfl rfl s hs

example : Counterpart newerLink [(['b'], some 1), (['x'], none)] [(['a'], some 1), (['x'], none)] := ⟨rfl, rfl⟩
example : ¬ ∃ b, Counterpart newerLink [(['c'], none)] b := by rintro ⟨b, h, -⟩; simp [newerLink, names] at h

/-! ### Limits -/

def emptyStore : Store Nat := ⟨fun _ _ => none, fun _ _ => 0⟩

/-- Stored data: `homogeneous_time`, a node `a` outside arrays, and an array `b` with one element. -/
def limitStore : Store Nat :=
  ⟨fun P q => if P = [] ∧ q = [['h']] then some 1 else if P = [] ∧ q = [['a']] then some 5 else none,
   fun P q => if P = [] ∧ q = [['b']] then 1 else 0⟩

def limitDisk : St (Disk Nat) Nat := ⟨⟨fun _ => limitStore, [], 1⟩, []⟩

/-- **C49, limit.** A node with both another name and another type is not skipped: the stored value of the other
type ends up in the node (the integer 5 in the string node `c`, although `c` is in `type_change`). -/
theorem C49_renamed_type_change_limit :
    ∃ N : Nbc, N.change [['c']] = true ∧ N.path [['c']] = some (some ([['a']], [])) ∧
      (alGet (disk plainBackend 0) pathConf (pathInfo (.cons ['c'] (.leaf strLeaf) .nil)) (some N) 0 false .all
        (.cons ['c'] (.leaf strLeaf) .nil) limitDisk).1 = .ok (.present ['c'] (.leaf strLeaf (some 5)) .nil) :=
  ⟨⟨fun p => if p = [['c']] then some (some ([['a']], [])) else none, fun p => p = [['c']]⟩, rfl, rfl,
    by with_unfolding_all rfl⟩

/-- **C49, limit.** A node that moved into an array of structures is not found: its low-level path is looked up
within the array. (The node `a` is called `b/x` in the newer version.) -/
theorem C49_moved_into_array_limit :
    ∃ N : Nbc, N.path [['b'], ['x']] = some (some ([['a']], [])) ∧ (limitStore.data [] [['a']]).isSome ∧
      (alGet (disk plainBackend 0) pathConf (pathInfo newerMeta) (some N) 0 false .all
        (.cons ['b'] (.aos (.cons ['x'] (.leaf alLeaf) .nil)) .nil) limitDisk).1 =
      .ok (.present ['b'] (.aos (.cons ['x'] (.leaf alLeaf) .nil) (.cons (.absent ['x'] (.leaf alLeaf) .nil) .nil)) .nil) :=
  ⟨⟨fun p => if p = [['b'], ['x']] then some (some ([['a']], [])) else none, fun _ => false⟩, rfl, rfl,
    by with_unfolding_all rfl⟩

end Verif.Props
