import Verif.Lemmas.VersionNbc
import Verif.Props.AlMap
/-
C57: which data is found when reading and writing in another version.
-/
namespace Verif.Props
open Verif.Ids Verif.Al Verif.AlSpec Verif.TreeSpec Verif.DiffSpec Verif.ConvertSpec Verif.VMapSpec
open Verif.VMap hiding Path Nbc
open Verif.Convert (names)

/-- The map to the old version describes which nodes are the same. -/
theorem describes_old {V : Type} {d : Dicts} (G : Given d) (L : Placed d) (hr : RenamedOnly d) (hk : KeepsKind d) {m1 m2 : MFields}
    (s1 : Shows d.old m1) (s2 : Shows d.new m2) (x1 x2 : Path → Nat) (d1 d2 : LeafMeta → V → Bool) :
    ∃ link, (∀ p q, link p = some q ↔ ∃ f o, SameNode d f o ∧ f.path = p ∧ o.path = q) ∧
      Describes (nbcToOld d) (infoOf d.old x1 d1) (infoOf d.new x2 d2) m1 m2 link := by
  obtain ⟨link, hl⟩ := (side_old G L hr hk).link_exists G.new
  exact ⟨link, hl, (side_old G L hr hk).describes G.new G.old (fun f o _ h => keeps_kinds hk h) s2 s1 link hl x2 x1 d2 d1⟩

/-- The same for the map to the new version. -/
theorem describes_new {V : Type} {d : Dicts} (G : Given d) (L : Placed d) (hr : RenamedOnly d) (hk : KeepsKind d) {m1 m2 : MFields}
    (s1 : Shows d.old m1) (s2 : Shows d.new m2) (x1 x2 : Path → Nat) (d1 d2 : LeafMeta → V → Bool) :
    ∃ link, (∀ p q, link p = some q ↔ ∃ f o, SameNode d f o ∧ o.path = p ∧ f.path = q) ∧
      Describes (nbcToNew d) (infoOf d.new x2 d2) (infoOf d.old x1 d1) m2 m1 link := by
  obtain ⟨link, hl⟩ := (side_new G L hr hk).link_exists G.old
  have hl' : ∀ p q, link p = some q ↔ ∃ f o, SameNode d f o ∧ o.path = p ∧ f.path = q := by
    intro p q
    rw [hl]
    constructor
    · rintro ⟨o, f, h1, h2, h3⟩; exact ⟨f, o, (same_node_iff G L).1 h1, h2, h3⟩
    · rintro ⟨f, o, h1, h2, h3⟩; exact ⟨o, f, (same_node_iff G L).2 h1, h2, h3⟩
  refine ⟨link, hl', (side_new G L hr hk).describes G.old G.new (fun o f _ h => ?_) s1 s2 link hl x1 x2 d1 d2⟩
  have := keeps_kinds hk h
  exact ⟨this.1.symm, this.2.symm⟩

section
variable {V : Type} [Value V] (B : Backend V) (db : Ctx)

/-- **C57, old data.** Reading data of an older version gives exactly the values and sizes of the nodes that the dictionaries
identify: nodes with other names, in renamed structures too, are found; new nodes, nodes with another type and everything
in structures with another type are not set. -/
theorem C57_get_old (d : Dicts) (G : Given d) (L : Placed d) (hr : RenamedOnly d) (hkind : KeepsKind d) (C : Conf V) (m1 m2 : MFields)
    (s1 : Shows d.old m1) (s2 : Shows d.new m2) (x1 x2 : Path → Nat) (d1 d2 : LeafMeta → V → Bool)
    (f : Fields V) (mode : Mode) (constant : Bool) (hm : WFMFields m1) (ht : TypedF f m1)
    (hmax : C.mdsplus = true → WithinMaxF (infoOf d.old x1 d1) [] f)
    (tp : Path) (v : V) (htp : relPath m1 [] tp = C.timePath) (hv : ValueAt (.struct f) (tp.map (·, none)) v)
    (hdyn : ¬ TimeDependent (infoOf d.old x1 d1) (tp.map (·, none))) (hmode : C.modeOf (some v) = mode)
    (hk : mode.known = true) (s : St (Disk V) V) (hs : s.ll.stack = []) (htp0 : tp ≠ []) :
    ∃ s1 g s2, alPut (disk B db) C (infoOf d.old x1 d1) (infoOf d.old x1 d1) none db mode m1 false f s = (.ok (), s1) ∧
      alGet (disk B db) C (infoOf d.new x2 d2) (some (nbcToOld d)) db constant .all m2 s1 = (.ok g, s2) ∧ TypedF g m2 ∧
      (∀ a v, ValueAt (.struct g) a v ↔ ∃ l b, atMeta (.struct m2) a = some (.leaf l) ∧
        ValueAt (.struct f) b v ∧ SamePlace d a b ∧ (l.ndim = 0 && d2 l v) = false ∧
        ¬ (mode = .independent ∧ TimeDependent (infoOf d.new x2 d2) a) ∧
        ¬ (mode = .independent ∧ TimeDependent (infoOf d.old x1 d1) b)) ∧
      (∀ a k, SizeAt (.struct g) a k ↔ ∃ e b, atMeta (.struct m2) a = some (.aos e) ∧
        SizeAt (.struct f) b k ∧ SamePlace d a b ∧
        ¬ (mode = .independent ∧ TimeDependent (infoOf d.new x2 d2) a) ∧
        ¬ (mode = .independent ∧ TimeDependent (infoOf d.old x1 d1) b)) := by
  obtain ⟨link, hl, hd⟩ := describes_old G L hr hkind s1 s2 x1 x2 d1 d2
  have := C49_get B db C _ _ m1 m2 _ link hd f mode constant hm ht (fun t h => metaCtx_eq G.old.once s1 t h) hmax tp v
    ((metaCtx_eq G.old.once s1 tp htp0).trans htp) hv hdyn hmode hk s hs
  simp only [Counterpart, hl] at this
  exact this

/-- **C57, new data.** The same for reading data of a newer version with an older one. -/
theorem C57_get_new (d : Dicts) (G : Given d) (L : Placed d) (hr : RenamedOnly d) (hkind : KeepsKind d) (C : Conf V) (m1 m2 : MFields)
    (s1 : Shows d.old m1) (s2 : Shows d.new m2) (x1 x2 : Path → Nat) (d1 d2 : LeafMeta → V → Bool)
    (f : Fields V) (mode : Mode) (constant : Bool) (hm : WFMFields m2) (ht : TypedF f m2)
    (hmax : C.mdsplus = true → WithinMaxF (infoOf d.new x2 d2) [] f)
    (tp : Path) (v : V) (htp : relPath m2 [] tp = C.timePath) (hv : ValueAt (.struct f) (tp.map (·, none)) v)
    (hdyn : ¬ TimeDependent (infoOf d.new x2 d2) (tp.map (·, none))) (hmode : C.modeOf (some v) = mode)
    (hk : mode.known = true) (s : St (Disk V) V) (hs : s.ll.stack = []) (htp0 : tp ≠ []) :
    ∃ s1 g s2, alPut (disk B db) C (infoOf d.new x2 d2) (infoOf d.new x2 d2) none db mode m2 false f s = (.ok (), s1) ∧
      alGet (disk B db) C (infoOf d.old x1 d1) (some (nbcToNew d)) db constant .all m1 s1 = (.ok g, s2) ∧ TypedF g m1 ∧
      (∀ b v, ValueAt (.struct g) b v ↔ ∃ l a, atMeta (.struct m1) b = some (.leaf l) ∧
        ValueAt (.struct f) a v ∧ SamePlace d a b ∧ (l.ndim = 0 && d1 l v) = false ∧
        ¬ (mode = .independent ∧ TimeDependent (infoOf d.old x1 d1) b) ∧
        ¬ (mode = .independent ∧ TimeDependent (infoOf d.new x2 d2) a)) ∧
      (∀ b k, SizeAt (.struct g) b k ↔ ∃ e a, atMeta (.struct m1) b = some (.aos e) ∧
        SizeAt (.struct f) a k ∧ SamePlace d a b ∧
        ¬ (mode = .independent ∧ TimeDependent (infoOf d.old x1 d1) b) ∧
        ¬ (mode = .independent ∧ TimeDependent (infoOf d.new x2 d2) a)) := by
  obtain ⟨link, hl, hd⟩ := describes_new G L hr hkind s1 s2 x1 x2 d1 d2
  have hcp : ∀ a b, Counterpart link b a ↔ SamePlace d a b := by
    intro a b
    simp only [Counterpart, SamePlace, hl]
    constructor
    · rintro ⟨⟨f, o, h1, h2, h3⟩, h4⟩; exact ⟨⟨f, o, h1, h3, h2⟩, h4.symm⟩
    · rintro ⟨⟨f, o, h1, h2, h3⟩, h4⟩; exact ⟨⟨f, o, h1, h3, h2⟩, h4.symm⟩
  have := C49_get B db C _ _ m2 m1 _ link hd f mode constant hm ht (fun t h => metaCtx_eq G.new.once s2 t h) hmax tp v
    ((metaCtx_eq G.new.once s2 tp htp0).trans htp) hv hdyn hmode hk s hs
  simp only [hcp] at this
  exact this

/-- **C57, writing old data.** Putting an IDS of a newer version into a data entry of an older one stores exactly the values
and sizes of the nodes that the dictionaries identify, and leaves nothing of earlier contents. -/
theorem C57_put_old (d : Dicts) (G : Given d) (L : Placed d) (hr : RenamedOnly d) (hkind : KeepsKind d) (C : Conf V) (m1 m2 : MFields)
    (s1 : Shows d.old m1) (s2 : Shows d.new m2) (x1 x2 : Path → Nat) (d1 d2 : LeafMeta → V → Bool)
    (f : Fields V) (mode : Mode) (constant : Bool) (hm : WFMFields m2) (ht : TypedF f m2)
    (hmax : C.mdsplus = true → WithinMaxF (infoOf d.new x2 d2) [] f)
    (ft ot : Field) (v : V) (hsame : SameNode d ft ot) (htp : relPath m1 [] ot.path = C.timePath)
    (hv : ValueAt (.struct f) (ft.path.map (·, none)) v)
    (hdyn : ¬ TimeDependent (infoOf d.new x2 d2) (ft.path.map (·, none))) (hmode : C.modeOf (some v) = mode)
    (hk : mode.known = true) (s : St (Disk V) V) (hs : s.ll.stack = []) :
    ∃ s1 g s2, alPut (disk B db) C (infoOf d.new x2 d2) (infoOf d.old x1 d1) (some (nbcToOld d)) db mode m1 false f s =
        (.ok (), s1) ∧
      (∀ o, o ≠ C.occ → s1.ll.stores o = s.ll.stores o) ∧
      alGet (disk B db) C (infoOf d.old x1 d1) none db constant .all m1 s1 = (.ok g, s2) ∧ TypedF g m1 ∧
      (∀ b v, ValueAt (.struct g) b v ↔ ∃ l a, atMeta (.struct m1) b = some (.leaf l) ∧
        ValueAt (.struct f) a v ∧ SamePlace d a b ∧ (l.ndim = 0 && d1 l v) = false ∧
        ¬ (mode = .independent ∧ TimeDependent (infoOf d.new x2 d2) a) ∧
        ¬ (mode = .independent ∧ TimeDependent (infoOf d.old x1 d1) b)) ∧
      (∀ b k, SizeAt (.struct g) b k ↔ ∃ e a, atMeta (.struct m1) b = some (.aos e) ∧
        SizeAt (.struct f) a k ∧ SamePlace d a b ∧
        ¬ (mode = .independent ∧ TimeDependent (infoOf d.new x2 d2) a) ∧
        ¬ (mode = .independent ∧ TimeDependent (infoOf d.old x1 d1) b)) := by
  obtain ⟨link, hl, hd⟩ := describes_old G L hr hkind s1 s2 x1 x2 d1 d2
  have hone : ∀ p p' q, IsDataPath m2 p → IsDataPath m2 p' → link p = some q → link p' = some q → p = p' := by
    intro p p' q _ _ h1 h2
    obtain ⟨f1, o1, c1, rfl, rfl⟩ := (hl _ _).1 h1
    obtain ⟨f2, o2, c2, rfl, e⟩ := (hl _ _).1 h2
    exact (G.one _ _ _ _ c1.1 c2.1).2 e.symm
  have := C49_put B db C _ _ m1 m2 _ link hd f mode constant hone hm ht (fun t h => metaCtx_eq G.old.once s1 t h) hmax
    ft.path ot.path v ((hl _ _).2 ⟨ft, ot, hsame, rfl, rfl⟩)
    ((metaCtx_eq G.old.once s1 _ (G.old.names ot hsame.1.2.1).1).trans htp) hv hdyn hmode hk s hs
  simp only [Counterpart, hl] at this
  exact this

/-- **C57, writing new data.** The same for putting an IDS of an older version into a data entry of a newer one. -/
theorem C57_put_new (d : Dicts) (G : Given d) (L : Placed d) (hr : RenamedOnly d) (hkind : KeepsKind d) (C : Conf V) (m1 m2 : MFields)
    (s1 : Shows d.old m1) (s2 : Shows d.new m2) (x1 x2 : Path → Nat) (d1 d2 : LeafMeta → V → Bool)
    (f : Fields V) (mode : Mode) (constant : Bool) (hm : WFMFields m1) (ht : TypedF f m1)
    (hmax : C.mdsplus = true → WithinMaxF (infoOf d.old x1 d1) [] f)
    (ft ot : Field) (v : V) (hsame : SameNode d ft ot) (htp : relPath m2 [] ft.path = C.timePath)
    (hv : ValueAt (.struct f) (ot.path.map (·, none)) v)
    (hdyn : ¬ TimeDependent (infoOf d.old x1 d1) (ot.path.map (·, none))) (hmode : C.modeOf (some v) = mode)
    (hk : mode.known = true) (s : St (Disk V) V) (hs : s.ll.stack = []) :
    ∃ s1 g s2, alPut (disk B db) C (infoOf d.old x1 d1) (infoOf d.new x2 d2) (some (nbcToNew d)) db mode m2 false f s =
        (.ok (), s1) ∧
      (∀ o, o ≠ C.occ → s1.ll.stores o = s.ll.stores o) ∧
      alGet (disk B db) C (infoOf d.new x2 d2) none db constant .all m2 s1 = (.ok g, s2) ∧ TypedF g m2 ∧
      (∀ a v, ValueAt (.struct g) a v ↔ ∃ l b, atMeta (.struct m2) a = some (.leaf l) ∧
        ValueAt (.struct f) b v ∧ SamePlace d a b ∧ (l.ndim = 0 && d2 l v) = false ∧
        ¬ (mode = .independent ∧ TimeDependent (infoOf d.old x1 d1) b) ∧
        ¬ (mode = .independent ∧ TimeDependent (infoOf d.new x2 d2) a)) ∧
      (∀ a k, SizeAt (.struct g) a k ↔ ∃ e b, atMeta (.struct m2) a = some (.aos e) ∧
        SizeAt (.struct f) b k ∧ SamePlace d a b ∧
        ¬ (mode = .independent ∧ TimeDependent (infoOf d.old x1 d1) b) ∧
        ¬ (mode = .independent ∧ TimeDependent (infoOf d.new x2 d2) a)) := by
  obtain ⟨link, hl, hd⟩ := describes_new G L hr hkind s1 s2 x1 x2 d1 d2
  have hone : ∀ p p' q, IsDataPath m1 p → IsDataPath m1 p' → link p = some q → link p' = some q → p = p' := by
    intro p p' q _ _ h1 h2
    obtain ⟨f1, o1, c1, rfl, rfl⟩ := (hl _ _).1 h1
    obtain ⟨f2, o2, c2, rfl, e⟩ := (hl _ _).1 h2
    exact (G.one _ _ _ _ c1.1 c2.1).1 e.symm
  have hcp : ∀ a b, Counterpart link b a ↔ SamePlace d a b := by
    intro a b
    simp only [Counterpart, SamePlace, hl]
    constructor
    · rintro ⟨⟨f, o, h1, h2, h3⟩, h4⟩; exact ⟨⟨f, o, h1, h3, h2⟩, h4.symm⟩
    · rintro ⟨⟨f, o, h1, h2, h3⟩, h4⟩; exact ⟨⟨f, o, h1, h3, h2⟩, h4.symm⟩
  have := C49_put B db C _ _ m2 m1 _ link hd f mode constant hone hm ht (fun t h => metaCtx_eq G.new.once s2 t h) hmax
    ot.path ft.path v ((hl _ _).2 ⟨ft, ot, hsame, rfl, rfl⟩)
    ((metaCtx_eq G.new.once s2 _ (G.new.names ft hsame.1.1).1).trans htp) hv hdyn hmode hk s hs
  simp only [hcp] at this
  exact this

end

/-- The time bases for renamed nodes: those of the metadata, unless the node is in a dynamic array of structures or has a time
base although it is not dynamic. -/
theorem tbp_eq {l : List Field} {f : Field} (hf : field? l f.path = some f)
    (h : f.timebase ≠ [] → f.dynamic = true ∧ ∀ a r, a ≠ [] → r ≠ [] → f.path = a ++ r → isDynamicAt l a = false) :
    tbpOf l f.path = metaTimebase l f.path := by
  unfold tbpOf metaTimebase
  rw [hf]
  simp only [ctxPathOf_eq]
  split
  · rfl
  · by_cases h0 : f.timebase = []
    · simp [h0]
    · obtain ⟨h1, h2⟩ := h h0
      rw [if_neg]
      simp only [h1, Bool.not_true, Bool.false_or, Bool.and_eq_true, List.any_eq_true, not_and]
      rintro - ⟨a, ha, h3⟩
      obtain ⟨h4, r, h5, h6⟩ := mem_parents.1 ha
      rw [h2 a r h4 h5 h6] at h3
      cases h3

/-- **C57, paths and time bases.** Renamed nodes are read and written with the path, relative to the nearest array of
structures, and the time base that the other version uses for them. Time bases are those of the dictionary also inside
dynamic arrays of structures (`C57_time_base_limit`). -/
theorem C57_time_base {V : Type} (d : Dicts) (G : Given d) (m1 : MFields) (s1 : Shows d.old m1)
    (x1 : Path → Nat) (d1 : LeafMeta → V → Bool) (p c : Path) (tb : Text)
    (h : (nbcToOld d).path p = some (some (c, tb))) :
    ∃ f o, Claim d f o ∧ f.path = p ∧ c = relPath m1 [] o.path ∧
      ((o.timebase ≠ [] → o.dynamic = true ∧ ∀ g ∈ d.old, ∀ r, r ≠ [] → o.path = g.path ++ r → g.dynamic = false) →
        tb = (infoOf d.old x1 d1).timebase o.path) := by
  unfold nbcToOld nbcOf at h
  simp only at h
  split at h
  · cases h
  · cases h
  · next q hq =>
    simp only [Option.some.injEq, Prod.mk.injEq] at h
    obtain ⟨rfl, rfl⟩ := h
    obtain ⟨-, f, o, h1, h2, rfl, -⟩ := C21_linked G _ _ hq
    have ho := field?_mem G.old.once h1.2.1
    refine ⟨f, o, h1, h2, ?_, fun h => tbp_eq ho fun h0 => ⟨(h h0).1, fun a r _ hr e => ?_⟩⟩
    · rw [ctxPathOf_eq, metaCtx_eq G.old.once s1 _ (G.old.names o h1.2.1).1]
    · unfold isDynamicAt
      cases hg : field? d.old a with
      | none => rfl
      | some g =>
        obtain ⟨h3, h4⟩ := field?_some hg
        exact (h h0).2 g h3 r hr (by rw [h4, e])

/-- The same for the map to the newer version. -/
theorem C57_time_base_new {V : Type} (d : Dicts) (G : Given d) (m2 : MFields) (s2 : Shows d.new m2)
    (x2 : Path → Nat) (d2 : LeafMeta → V → Bool) (p c : Path) (tb : Text)
    (h : (nbcToNew d).path p = some (some (c, tb))) :
    ∃ f o, Claim d f o ∧ o.path = p ∧ c = relPath m2 [] f.path ∧
      ((f.timebase ≠ [] → f.dynamic = true ∧ ∀ g ∈ d.new, ∀ r, r ≠ [] → f.path = g.path ++ r → g.dynamic = false) →
        tb = (infoOf d.new x2 d2).timebase f.path) := by
  unfold nbcToNew nbcOf at h
  simp only at h
  split at h
  · cases h
  · cases h
  · next q hq =>
    simp only [Option.some.injEq, Prod.mk.injEq] at h
    obtain ⟨rfl, rfl⟩ := h
    obtain ⟨-, f, o, h1, rfl, h2, -⟩ := C21_linked G _ _ ((C21_inverse G _ _).2 hq)
    have hf := field?_mem G.new.once h1.1
    refine ⟨f, o, h1, h2, ?_, fun h => tbp_eq hf fun h0 => ⟨(h h0).1, fun a r _ hr e => ?_⟩⟩
    · rw [ctxPathOf_eq, metaCtx_eq G.new.once s2 _ (G.new.names f h1.1).1]
    · unfold isDynamicAt
      cases hg : field? d.new a with
      | none => rfl
      | some g =>
        obtain ⟨h3, h4⟩ := field?_some hg
        exact (h h0).2 g h3 r hr (by rw [h4, e])

/-! ### Two versions -/

/-- A field with `type` dynamic and a time base. -/
def dynField (path : Path) (dtype : List Char) (tb : List Char) (nbc : Option VMap.Nbc := none) : Field :=
  { vmField path dtype nbc with dynamic := true, timebase := tb }

/-- The versions of `Verif.Props.AlMap`: the array `a` is called `b`, `b/n` and the structure `s` are new, `c` has another
type, `z` was removed. -/
def pairDicts : Dicts where
  version := 38
  same a b := a = b
  old := [vmField [['h']] tInt, vmField [['a']] tArray, dynField [['a'], ['x']] tInt ['t'], vmField [['c']] tInt,
    vmField [['z']] tInt]
  new := [vmField [['h']] tInt, vmField [['b']] tArray (vmRename ['a']), dynField [['b'], ['x']] tInt ['t'],
    vmField [['b'], ['n']] tInt, vmField [['c']] tStr, vmField [['s']] tStruct, vmField [['s'], ['y']] tInt]

def pairOld : MFields :=
  .cons ['h'] (.leaf alLeaf) (.cons ['a'] (.aos (.cons ['x'] (.leaf alLeaf) .nil)) (.cons ['c'] (.leaf alLeaf)
    (.cons ['z'] (.leaf alLeaf) .nil)))

def pairNew : MFields :=
  .cons ['h'] (.leaf alLeaf) (.cons ['b'] (.aos (.cons ['x'] (.leaf alLeaf) (.cons ['n'] (.leaf alLeaf) .nil)))
    (.cons ['c'] (.leaf strLeaf) (.cons ['s'] (.struct (.cons ['y'] (.leaf alLeaf) .nil)) .nil)))

theorem pair_given : Given pairDicts := given_of_check (by decide +kernel)
theorem pair_level : Level pairDicts := level_of_check pair_given.old pair_given.new (by decide +kernel)
theorem pair_renamed : RenamedOnly pairDicts := renamedOnly_of_check pair_given (by decide +kernel)
theorem pair_old : Shows pairDicts.old pairOld := shows_of_check (by decide +kernel)
theorem pair_new : Shows pairDicts.new pairNew := shows_of_check (by decide +kernel)
theorem pair_kinds : KeepsKind pairDicts := by
  intro a b h
  have : a = b := by simpa [pairDicts] using h
  subst this
  exact ⟨Iff.rfl, Iff.rfl⟩

def pairOldIds : Fields Nat :=
  .present ['h'] (.leaf alLeaf (some 1))
    (.present ['a'] (.aos (.cons ['x'] (.leaf alLeaf) .nil)
      (.cons (.present ['x'] (.leaf alLeaf (some 4)) .nil) (.cons (.absent ['x'] (.leaf alLeaf) .nil) .nil)))
    (.present ['c'] (.leaf alLeaf (some 5)) (.present ['z'] (.leaf alLeaf (some 6)) .nil)))

def pairNewIds : Fields Nat :=
  .present ['h'] (.leaf alLeaf (some 1))
    (.present ['b'] (.aos (.cons ['x'] (.leaf alLeaf) (.cons ['n'] (.leaf alLeaf) .nil))
      (.cons (.present ['x'] (.leaf alLeaf (some 4)) (.present ['n'] (.leaf alLeaf (some 6)) .nil)) .nil))
    (.present ['c'] (.leaf strLeaf (some 7)) (.absent ['s'] (.struct (.cons ['y'] (.leaf alLeaf) .nil)) .nil)))

def noMax (_ : Path) : Nat := 0
def isNine (_ : LeafMeta) (v : Nat) : Bool := v == 9

theorem one_static {l : List Field} {n : Name} (h : isDynamicAt l [n] = false) :
    ¬ TimeDependent (infoOf l noMax isNine) ([n].map (·, none)) := by
  rintro ⟨t, ht, ⟨u, hu⟩, hd⟩
  cases t with
  | nil => exact ht rfl
  | cons k t =>
    simp [names] at hu
    obtain ⟨rfl, rfl, -⟩ := hu
    simp [infoOf, h] at hd

theorem pair_same : SameNode pairDicts (vmField [['h']] tInt) (vmField [['h']] tInt) := by
  refine ⟨pair_level.reuse _ (by simp [pairDicts]) _ (by simp [pairDicts]) rfl, fun f o r hc e hch => ?_⟩
  have h1 := claim_claimB pair_given.old pair_given.new hc
  have h2 := changed_changedB hch
  have h3 : pairDicts.new.all (fun f => pairDicts.old.all fun o => !(claimB pairDicts f o && changedB pairDicts f o &&
    f.path.isPrefixOf [['h']])) = true := by decide +kernel
  simp only [List.all_eq_true] at h3
  have h4 := h3 f hc.1 o hc.2.1
  have h5 : f.path <+: [['h']] := ⟨r, e.symm⟩
  rw [h1, h2, List.isPrefixOf_iff_prefix.2 h5] at h4
  cases h4

/-- The hypotheses of the theorems are met. -/
example (s : St (Disk Nat) Nat) (hs : s.ll.stack = []) :=
  C57_get_old plainBackend 0 pairDicts pair_given (pair_level.placed pair_given) pair_renamed pair_kinds pathConf pairOld pairNew pair_old pair_new noMax
    noMax isNine isNine pairOldIds .homogeneous false (by simp [pairOld, WFMFields, WFMeta, mnames])
    (by simp [pairOldIds, pairOld, TypedF, Typed, TypedE]) (fun h => by simp [pathConf, alConf] at h) [['h']] 1 rfl
    ⟨alLeaf, rfl, rfl⟩ (one_static (by decide +kernel)) rfl rfl s hs (by simp)

example (s : St (Disk Nat) Nat) (hs : s.ll.stack = []) :=
  C57_get_new plainBackend 0 pairDicts pair_given (pair_level.placed pair_given) pair_renamed pair_kinds pathConf pairOld pairNew pair_old pair_new noMax
    noMax isNine isNine pairNewIds .homogeneous false (by simp [pairNew, WFMFields, WFMeta, mnames])
    (by simp [pairNewIds, pairNew, TypedF, Typed, TypedE]) (fun h => by simp [pathConf, alConf] at h) [['h']] 1 rfl
    ⟨alLeaf, rfl, rfl⟩ (one_static (by decide +kernel)) rfl rfl s hs (by simp)

example (s : St (Disk Nat) Nat) (hs : s.ll.stack = []) :=
  C57_put_old plainBackend 0 pairDicts pair_given (pair_level.placed pair_given) pair_renamed pair_kinds pathConf pairOld pairNew pair_old pair_new noMax
    noMax isNine isNine pairNewIds .homogeneous false (by simp [pairNew, WFMFields, WFMeta, mnames])
    (by simp [pairNewIds, pairNew, TypedF, Typed, TypedE]) (fun h => by simp [pathConf, alConf] at h) _ _ 1 pair_same rfl
    ⟨alLeaf, rfl, rfl⟩ (one_static (by decide +kernel)) rfl rfl s hs

example (s : St (Disk Nat) Nat) (hs : s.ll.stack = []) :=
  C57_put_new plainBackend 0 pairDicts pair_given (pair_level.placed pair_given) pair_renamed pair_kinds pathConf pairOld pairNew pair_old pair_new noMax
    noMax isNine isNine pairOldIds .homogeneous false (by simp [pairOld, WFMFields, WFMeta, mnames])
    (by simp [pairOldIds, pairOld, TypedF, Typed, TypedE]) (fun h => by simp [pathConf, alConf] at h) _ _ 1 pair_same rfl
    ⟨alLeaf, rfl, rfl⟩ (one_static (by decide +kernel)) rfl rfl s hs

/-- The renamed array and its node are found. -/
example : (nbcToOld pairDicts).path [['b'], ['x']] = some (some ([['x']], ['t'])) := by decide +kernel
example :=
  C57_time_base pairDicts pair_given pairOld pair_old noMax isNine [['b'], ['x']] [['x']] ['t'] (by decide +kernel)
example :=
  C57_time_base_new pairDicts pair_given pairNew pair_new noMax isNine [['a'], ['x']] [['x']] ['t'] (by decide +kernel)
example : (nbcToOld pairDicts).path [['b']] = some (some ([['a']], [])) := by decide +kernel
example : (nbcToOld pairDicts).path [['s']] = some none := by decide +kernel
example : (nbcToOld pairDicts).path [['s'], ['y']] = none := by decide +kernel
example : (nbcToNew pairDicts).path [['z']] = some none := by decide +kernel
example : (nbcToOld pairDicts).path [['c']] = some none := by decide +kernel

/-! ### Nodes that moved to another structure -/

/-- `a/p/x` became `a/x` (`a` is an array of structures), and `r/d` became `r`, which was a structure. The structure `s` is in
both versions, `s/y` became `y`. -/
def awayDicts : Dicts where
  version := 38
  same a b := a = b
  old := [vmField [['h']] tInt, vmField [['a']] tArray, vmField [['a'], ['p']] tStruct, dynField [['a'], ['p'], ['x']] tInt ['t'],
    vmField [['r']] tStruct, vmField [['r'], ['d']] tInt, vmField [['s']] tStruct, vmField [['s'], ['y']] tInt,
    vmField [['s'], ['z']] tInt]
  new := [vmField [['h']] tInt, vmField [['a']] tArray, dynField [['a'], ['x']] tInt ['t'] (some ⟨.renamed, some [40], [[['p'], ['x']]]⟩),
    vmField [['r']] tInt (some ⟨.renamed, some [40], [[['r'], ['d']]]⟩), vmField [['s']] tStruct, vmField [['s'], ['z']] tInt,
    vmField [['y']] tInt (some ⟨.renamed, some [40], [[['s'], ['y']]]⟩)]

def awayOld : MFields :=
  .cons ['h'] (.leaf alLeaf) (.cons ['a'] (.aos (.cons ['p'] (.struct (.cons ['x'] (.leaf alLeaf) .nil)) .nil))
    (.cons ['r'] (.struct (.cons ['d'] (.leaf alLeaf) .nil))
    (.cons ['s'] (.struct (.cons ['y'] (.leaf alLeaf) (.cons ['z'] (.leaf alLeaf) .nil))) .nil)))

def awayNew : MFields :=
  .cons ['h'] (.leaf alLeaf) (.cons ['a'] (.aos (.cons ['x'] (.leaf alLeaf) .nil)) (.cons ['r'] (.leaf alLeaf)
    (.cons ['s'] (.struct (.cons ['z'] (.leaf alLeaf) .nil)) (.cons ['y'] (.leaf alLeaf) .nil))))

theorem away_given : Given awayDicts := given_of_check (by decide +kernel)
theorem away_placed : Placed awayDicts := placed_of_check away_given (by decide +kernel)
theorem away_renamed : RenamedOnly awayDicts := renamedOnly_of_check away_given (by decide +kernel)
theorem away_old : Shows awayDicts.old awayOld := shows_of_check (by decide +kernel)
theorem away_new : Shows awayDicts.new awayNew := shows_of_check (by decide +kernel)
theorem away_kinds : KeepsKind awayDicts := by
  intro a b h
  have : a = b := by simpa [awayDicts] using h
  subst this
  exact ⟨Iff.rfl, Iff.rfl⟩

example : ¬ levelB awayDicts := by decide +kernel

def awayOldIds : Fields Nat :=
  .present ['h'] (.leaf alLeaf (some 1))
    (.present ['a'] (.aos (.cons ['p'] (.struct (.cons ['x'] (.leaf alLeaf) .nil)) .nil)
      (.cons (.present ['p'] (.struct (.present ['x'] (.leaf alLeaf (some 4)) .nil)) .nil) .nil))
    (.present ['r'] (.struct (.present ['d'] (.leaf alLeaf (some 5)) .nil))
    (.present ['s'] (.struct (.present ['y'] (.leaf alLeaf (some 6)) (.present ['z'] (.leaf alLeaf (some 7)) .nil))) .nil)))

def awayNewIds : Fields Nat :=
  .present ['h'] (.leaf alLeaf (some 1))
    (.present ['a'] (.aos (.cons ['x'] (.leaf alLeaf) .nil) (.cons (.present ['x'] (.leaf alLeaf (some 4)) .nil) .nil))
    (.present ['r'] (.leaf alLeaf (some 5))
    (.present ['s'] (.struct (.present ['z'] (.leaf alLeaf (some 7)) .nil)) (.present ['y'] (.leaf alLeaf (some 6)) .nil))))

theorem away_claim {f o : Field} (hf : f ∈ awayDicts.new) (ho : o ∈ awayDicts.old) (h : claimB awayDicts f o = true) :
    Claim awayDicts f o := (claim_iff away_given.old away_given.new hf ho).2 h

theorem away_unchanged {f o : Field} (hc : Claim awayDicts f o) : SameNode awayDicts f o := by
  refine ⟨hc, fun f o r hc e hch => ?_⟩
  have h3 : awayDicts.new.all (fun f => awayDicts.old.all fun o => !(claimB awayDicts f o && changedB awayDicts f o)) = true := by
    decide +kernel
  simp only [List.all_eq_true] at h3
  have h4 := h3 f hc.1 o hc.2.1
  rw [claim_claimB away_given.old away_given.new hc, changed_changedB hch] at h4
  cases h4

/-- All hypotheses are met, and moved nodes are the same nodes. -/
example : SamePlace awayDicts [(['a'], some 0), (['x'], none)] [(['a'], some 0), (['p'], none), (['x'], none)] :=
  ⟨⟨_, _, away_unchanged (away_claim (f := dynField [['a'], ['x']] tInt ['t'] (some ⟨.renamed, some [40], [[['p'], ['x']]]⟩))
    (o := dynField [['a'], ['p'], ['x']] tInt ['t']) (by simp [awayDicts]) (by simp [awayDicts]) (by decide +kernel)), rfl, rfl⟩, rfl⟩

example : SamePlace awayDicts [(['r'], none)] [(['r'], none), (['d'], none)] :=
  ⟨⟨_, _, away_unchanged (away_claim (f := vmField [['r']] tInt (some ⟨.renamed, some [40], [[['r'], ['d']]]⟩))
    (o := vmField [['r'], ['d']] tInt) (by simp [awayDicts]) (by simp [awayDicts]) (by decide +kernel)), rfl, rfl⟩, rfl⟩

theorem away_same : SameNode awayDicts (vmField [['h']] tInt) (vmField [['h']] tInt) :=
  away_unchanged (away_claim (by simp [awayDicts]) (by simp [awayDicts]) (by decide +kernel))

example (s : St (Disk Nat) Nat) (hs : s.ll.stack = []) :=
  C57_get_old plainBackend 0 awayDicts away_given away_placed away_renamed away_kinds pathConf awayOld awayNew away_old away_new noMax
    noMax isNine isNine awayOldIds .homogeneous false (by simp [awayOld, WFMFields, WFMeta, mnames])
    (by simp [awayOldIds, awayOld, TypedF, Typed, TypedE]) (fun h => by simp [pathConf, alConf] at h) [['h']] 1 rfl
    ⟨alLeaf, rfl, rfl⟩ (one_static (by decide +kernel)) rfl rfl s hs (by simp)

example (s : St (Disk Nat) Nat) (hs : s.ll.stack = []) :=
  C57_get_new plainBackend 0 awayDicts away_given away_placed away_renamed away_kinds pathConf awayOld awayNew away_old away_new noMax
    noMax isNine isNine awayNewIds .homogeneous false (by simp [awayNew, WFMFields, WFMeta, mnames])
    (by simp [awayNewIds, awayNew, TypedF, Typed, TypedE]) (fun h => by simp [pathConf, alConf] at h) [['h']] 1 rfl
    ⟨alLeaf, rfl, rfl⟩ (one_static (by decide +kernel)) rfl rfl s hs (by simp)

example (s : St (Disk Nat) Nat) (hs : s.ll.stack = []) :=
  C57_put_old plainBackend 0 awayDicts away_given away_placed away_renamed away_kinds pathConf awayOld awayNew away_old away_new noMax
    noMax isNine isNine awayNewIds .homogeneous false (by simp [awayNew, WFMFields, WFMeta, mnames])
    (by simp [awayNewIds, awayNew, TypedF, Typed, TypedE]) (fun h => by simp [pathConf, alConf] at h) _ _ 1 away_same rfl
    ⟨alLeaf, rfl, rfl⟩ (one_static (by decide +kernel)) rfl rfl s hs

example (s : St (Disk Nat) Nat) (hs : s.ll.stack = []) :=
  C57_put_new plainBackend 0 awayDicts away_given away_placed away_renamed away_kinds pathConf awayOld awayNew away_old away_new noMax
    noMax isNine isNine awayOldIds .homogeneous false (by simp [awayOld, WFMFields, WFMeta, mnames])
    (by simp [awayOldIds, awayOld, TypedF, Typed, TypedE]) (fun h => by simp [pathConf, alConf] at h) _ _ 1 away_same rfl
    ⟨alLeaf, rfl, rfl⟩ (one_static (by decide +kernel)) rfl rfl s hs

/-! ### Limits -/

/-- A renamed node in a dynamic array of structures. -/
def sliceDicts : Dicts where
  version := 38
  same a b := a = b
  old := [dynField [['t']] tArray [], dynField [['t'], ['a']] tFlt ['t', 'i', 'm', 'e']]
  new := [dynField [['t']] tArray [], dynField [['t'], ['b']] tFlt ['t', 'i', 'm', 'e'] (vmRename ['a'])]

/-- **C57, limit.** A renamed node in a dynamic array of structures is read and written with the time base of the dictionary,
although the nodes there are not time dependent on their own and all other nodes are read and written without time base
there. -/
theorem C57_time_base_limit : Given sliceDicts ∧
    (nbcToOld sliceDicts).path [['t'], ['b']] = some (some ([['a']], ['t', 'i', 'm', 'e'])) ∧
    metaTimebase sliceDicts.old [['t'], ['a']] = [] ∧ metaTimebase sliceDicts.new [['t'], ['b']] = [] :=
  ⟨given_of_check (by decide +kernel), by decide +kernel, by decide +kernel, by decide +kernel⟩

end Verif.Props
