import Verif.Spec.AlView
import Verif.Props.AlRound
/-
C59: get, get_slice and get_sample give what the backend shows.
C60: the version of the stored data.
-/
namespace Verif.Props
open Verif.Ids Verif.Al Verif.AlSpec Verif.TreeSpec Verif.DiffSpec Verif.ConvertSpec

section
variable {V : Type} [Value V] (B : Backend V) (db : Ctx)

omit [Value V] in
theorem reached_exists {S : Store V} {Q : Pos} : Reached S [] Q ↔ AlSpec.Exists S Q := by
  unfold Reached AlSpec.Exists
  simp

theorem known_valid {m : Mode} : m.known = true ↔ ValidMode m := by cases m <;> simp [Mode.known, ValidMode]

theorem not_known {m : Mode} (h : ¬ ValidMode m) : m.known = false := by
  cases hk : m.known with
  | false => rfl
  | true => exact absurd (known_valid.1 hk) h

theorem asks_begin {occ : Text} {constant : Bool} {r : Range} {b : Begin} (h : Asks occ constant r b) :
    (if constant then Range.all else r).begin occ = b := by
  cases h with
  | whole => cases constant <;> rfl
  | constant r => rfl
  | slice a => rfl
  | sample a => rfl

/-- Keys of nodes that are not skipped. -/
theorem keyOf_stored (I : Info V) (mode : Mode) {a : Addr} (ha : ∃ b n, a = b ++ [(n, none)]) (R : Pos × Path) :
    keyOf (pathOf ⟨I, mode, none⟩) [] [] a = some R ↔
      keyOf (fun p => some (I.ctxPath p)) [] [] a = some R ∧ ¬ (mode = .independent ∧ TimeDependent I a) := by
  have mono : ∀ R, keyOf (pathOf ⟨I, mode, none⟩) [] [] a = some R →
      keyOf (fun p => some (I.ctxPath p)) [] [] a = some R := by
    intro R
    refine keyOf_mono (fun p q h => ?_) a [] [] R
    rw [pathOf_plain] at h
    split at h
    · cases h
    · exact h
  rw [← stored_iff I mode ha]
  constructor
  · intro h
    exact ⟨mono R h, by rw [h]; rfl⟩
  · rintro ⟨h1, h2⟩
    obtain ⟨R', h3⟩ := Option.isSome_iff_exists.1 h2
    rw [h3, ← h1, mono R' h3]

theorem leaf_last {m : MFields} {a : Addr} {x : Meta} (h : atMeta (.struct m) a = some x) (hx : ∀ c, x ≠ .struct c) :
    ∃ b n, a = b ++ [(n, none)] := isNode_last (m := m) ⟨x, h, hx⟩

/-- **C59.** Reading an occurrence that holds an IDS succeeds, changes nothing, and gives at every node of the Data
Dictionary exactly what the backend shows there for the requested slice, for the requested time range or (get, and
all reads of constant IDSs) for the whole IDS: values, and sizes of arrays of structures. Time-dependent nodes of an IDS
without time are not read. -/
theorem C59_read (C : Conf V) (I : Info V) (m : MFields) (constant : Bool) (r : Range) (b : Begin) (hb : Asks C.occ constant r b)
    (s : St (Disk V) V) (hs : s.ll.stack = []) (mode : Mode)
    (hmode : C.modeOf ((s.ll.stores C.occ).data [] C.timePath) = mode) (hk : ValidMode mode) :
    ∃ g s', alGet (disk B db) C I none db constant r m s = (.ok g, s') ∧ s'.ll.stores = s.ll.stores ∧
      s'.ll.stack = [] ∧ TypedF g m ∧
      (∀ a v, ValueAt (.struct g) a v ↔ ∃ l Q q, atMeta (.struct m) a = some (.leaf l) ∧
        keyOf (fun p => some (I.ctxPath p)) [] [] a = some (Q, q) ∧ ¬ (mode = .independent ∧ TimeDependent I a) ∧
        AlSpec.Exists (B.view b (s.ll.stores C.occ)) Q ∧ (B.view b (s.ll.stores C.occ)).data Q q = some v ∧
        Value.isEmpty v = false ∧ ¬ (l.ndim = 0 ∧ I.isDefault l v = true)) ∧
      (∀ a k, SizeAt (.struct g) a k ↔ ∃ d Q q, atMeta (.struct m) a = some (.aos d) ∧
        keyOf (fun p => some (I.ctxPath p)) [] [] a = some (Q, q) ∧ ¬ (mode = .independent ∧ TimeDependent I a) ∧
        AlSpec.Exists (B.view b (s.ll.stores C.occ)) Q ∧ (B.view b (s.ll.stores C.occ)).size Q q = k ∧ k ≠ 0) := by
  obtain ⟨s', g1, g2, g3⟩ := alGet_spec B db C I none constant r m hs hmode (known_valid.2 hk)
  rw [asks_begin hb] at g1
  refine ⟨_, s', g1, g2, g3.trans hs, typed_evalF _ _ _ _ _, fun a v => ?_, fun a k => ?_⟩
  · rw [eval_value]
    constructor
    · rintro ⟨l, Q, q, h1, h2, h3, h4, h5, h6⟩
      obtain ⟨h7, h8⟩ := (keyOf_stored I mode (leaf_last h1 (by simp)) _).1 h2
      refine ⟨l, Q, q, h1, h7, h8, reached_exists.1 h3, h4, h5, fun h => ?_⟩
      simp [h.1, h.2] at h6
    · rintro ⟨l, Q, q, h1, h2, h3, h4, h5, h6, h7⟩
      refine ⟨l, Q, q, h1, (keyOf_stored I mode (leaf_last h1 (by simp)) _).2 ⟨h2, h3⟩, reached_exists.2 h4, h5, h6, ?_⟩
      simpa using h7
  · rw [eval_size]
    constructor
    · rintro ⟨d, Q, q, h1, h2, h3, h4⟩
      obtain ⟨h7, h8⟩ := (keyOf_stored I mode (leaf_last h1 (by simp)) _).1 h2
      exact ⟨d, Q, q, h1, h7, h8, reached_exists.1 h3, h4⟩
    · rintro ⟨d, Q, q, h1, h2, h3, h4, h5⟩
      exact ⟨d, Q, q, h1, (keyOf_stored I mode (leaf_last h1 (by simp)) _).2 ⟨h2, h3⟩, reached_exists.2 h4, h5⟩

/-- **C59.** An occurrence that holds no IDS (or an invalid time mode) cannot be read, and nothing changes. -/
theorem C59_empty (C : Conf V) (I : Info V) (nbc : Option Nbc) (m : MFields) (constant : Bool) (r : Range)
    (s : St (Disk V) V) (hs : s.ll.stack = [])
    (hk : ¬ ValidMode (C.modeOf ((s.ll.stores C.occ).data [] C.timePath))) :
    ∃ s', alGet (disk B db) C I nbc db constant r m s = (.error .assertion, s') ∧ s'.ll.stores = s.ll.stores ∧
      s'.ll.stack = [] := by
  obtain ⟨s', h1, h2, h3⟩ := readMode_spec B db C C.uda hs
  refine ⟨s', ?_, h2, h3.trans hs⟩
  simp [alGet, M.andThen, h1, not_known hk, M.throw]

/-! ### The version -/

theorem version_spec (C : Conf V) {s : St (Disk V) V} (hs : s.ll.stack = []) :
    Gives (withAction (disk B db) db (.global C.occ false C.uda) fun c _ =>
      (llRead (disk B db) c C.timePath [] C.timeMeta).andThen fun d =>
        (llRead (disk B db) c C.versionPath [] C.versionMeta).andThen fun v => .ret (C.modeOf d, v)) s
      (C.modeOf ((s.ll.stores C.occ).data [] C.timePath), (s.ll.stores C.occ).data [] C.versionPath) := by
  refine withTop_spec B db hs rfl fun c s' h1 h2 => ?_
  have r1 := read_spec B db (s := s') (c := c) (a := .global C.occ false C.uda) (by rw [h2]; simp [isTop])
    (by rw [h2]; rfl) C.timePath [] C.timeMeta
  refine gives_andThen r1 fun s'' h3 h4 => ?_
  have r2 := read_spec B db (s := s'') (c := c) (a := .global C.occ false C.uda) (by rw [h4, h2]; simp [isTop])
    (by rw [h4, h2]; rfl) C.versionPath [] C.versionMeta
  refine gives_andThen r2 fun s3 _ _ => ?_
  rw [B.view_global, B.view_global, h4, h2, h3, h1]
  exact gives_ret s3 _

/-- **C60.** Reading the Data Dictionary version of an occurrence gives exactly the stored version if the occurrence holds an
IDS, and raises a `DataEntryException` if it does not. Nothing changes. -/
theorem C60_version (C : Conf V) (s : St (Disk V) V) (hs : s.ll.stack = []) :
    ∃ s', s'.ll.stores = s.ll.stores ∧ s'.ll.stack = [] ∧
      (ValidMode (C.modeOf ((s.ll.stores C.occ).data [] C.timePath)) →
        alReadVersion (disk B db) C db s = (.ok ((s.ll.stores C.occ).data [] C.versionPath), s')) ∧
      (¬ ValidMode (C.modeOf ((s.ll.stores C.occ).data [] C.timePath)) →
        alReadVersion (disk B db) C db s = (.error .entry, s')) := by
  obtain ⟨s', h1, h2, h3⟩ := version_spec B db C hs
  refine ⟨s', h2, h3.trans hs, fun hk => ?_, fun hk => ?_⟩
  · simp [alReadVersion, M.andThen, h1, known_valid.2 hk, M.ret]
  · simp [alReadVersion, M.andThen, h1, not_known hk, M.throw]

/-- **C60.** After a put, the version of the occurrence is the one that the IDS holds (`vp` is the path of
`ids_properties/version_put/data_dictionary`, `tp` that of `homogeneous_time`), whatever the occurrence held before. -/
theorem C60_after_put (C : Conf V) (I : Info V) (m : MFields) (f : Fields V) (mode : Mode)
    (hm : WFMFields m) (ht : TypedF f m) (hctx : ∀ t, t ≠ [] → I.ctxPath t = relPath m [] t)
    (hd : NoDefaults I f) (hmax : C.mdsplus = true → WithinMaxF I [] f)
    (tp : Path) (v : V) (htp : I.ctxPath tp = C.timePath) (hv : ValueAt (.struct f) (tp.map (·, none)) v)
    (hdyn : ¬ TimeDependent I (tp.map (·, none))) (hmode : C.modeOf (some v) = mode) (hk : ValidMode mode)
    (vp : Path) (ver : V) (hvp : I.ctxPath vp = C.versionPath) (hver : ValueAt (.struct f) (vp.map (·, none)) ver)
    (hdyn' : ¬ TimeDependent I (vp.map (·, none)))
    (s : St (Disk V) V) (hs : s.ll.stack = []) :
    ∃ s1 s2, alPut (disk B db) C I I none db mode m false f s = (.ok (), s1) ∧
      alReadVersion (disk B db) C db s1 = (.ok (some ver), s2) := by
  obtain ⟨s1, h1, h2, -, g, s2, h3, -, -, -, h4, -⟩ :=
    C36_put_get B db C I m f mode false hm ht hctx hd hmax tp v htp hv hdyn hmode (known_valid.2 hk) s hs
  have data : ∀ p w, ValueAt (.struct f) (p.map (·, none)) w → ¬ TimeDependent I (p.map (·, none)) →
      ValidMode (C.modeOf ((s1.ll.stores C.occ).data [] C.timePath)) →
      (s1.ll.stores C.occ).data [] (I.ctxPath p) = some w := by
    intro p w hw hp hk'
    obtain ⟨g', s', e1, -, -, -, e2, -⟩ := C59_read B db C I m false .all _ (.whole false) s1 h2 _ rfl hk'
    rw [h3] at e1
    cases e1
    obtain ⟨l, Q, q, -, e3, -, -, e4, -⟩ := (e2 _ w).1 ((h4 _ w).2 ⟨hw, fun h => hp h.2⟩)
    rw [B.view_global] at e4
    obtain ⟨e5, e6⟩ := keyOf_plain _ _ _ _ _ e3
    simp only [List.nil_append, Option.some.injEq] at e5 e6
    rw [e6, ← e5, e4]
  have hk' : ValidMode (C.modeOf ((s1.ll.stores C.occ).data [] C.timePath)) := by
    apply Classical.byContradiction
    intro hn
    obtain ⟨s', e1, -⟩ := C59_empty B db C I none m false .all s1 h2 hn
    rw [h3] at e1
    cases e1
  obtain ⟨s3, -, -, e1, -⟩ := C60_version B db C s1 h2
  have := e1 hk'
  rw [← hvp, data vp ver hver hdyn' hk'] at this
  exact ⟨s1, s3, h1, this⟩

end

/-! ### Examples -/

/-- A backend whose slices show every value increased by the requested time. -/
def timeBackend : Backend Nat :=
  { plainBackend with
    view := fun b S => match b with
      | .slice _ _ t => ⟨fun P q => (S.data P q).map (· + t), S.size⟩
      | _ => S
    view_global := fun _ _ _ _ => rfl }

/-- The hypotheses of `C59_read` are met, and the slice is what comes out. -/
example := C59_read timeBackend 0 pathConf (pathInfo (.cons ['a'] (.leaf alLeaf) .nil)) (.cons ['a'] (.leaf alLeaf) .nil) false
  (.slice 3) _ (.slice 3) limitDisk rfl .homogeneous rfl (.inr (.inl rfl))
example : (alGet (disk timeBackend 0) pathConf (pathInfo (.cons ['a'] (.leaf alLeaf) .nil)) none 0 false (.slice 3)
    (.cons ['a'] (.leaf alLeaf) .nil) limitDisk).1 = .ok (.present ['a'] (.leaf alLeaf (some 8)) .nil) := by
  with_unfolding_all rfl
/-- A constant IDS is read as a whole. -/
example : (alGet (disk timeBackend 0) pathConf (pathInfo (.cons ['a'] (.leaf alLeaf) .nil)) none 0 true (.slice 3)
    (.cons ['a'] (.leaf alLeaf) .nil) limitDisk).1 = .ok (.present ['a'] (.leaf alLeaf (some 5)) .nil) := by
  with_unfolding_all rfl

/-- The hypotheses of `C59_empty` are met by an entry without data. -/
example := C59_empty timeBackend 0 pathConf (pathInfo olderMeta) none olderMeta false .all
  (⟨⟨fun _ => emptyStore, [], 1⟩, []⟩ : St (Disk Nat) Nat) rfl
  (by simp [pathConf, emptyStore, ValidMode])

/-- The hypotheses of `C60_version` and `C60_after_put` are met. -/
example := C60_version plainBackend 0 { pathConf with versionPath := [['a']] } limitDisk rfl
example : (alReadVersion (disk plainBackend 0) { pathConf with versionPath := [['a']] } 0 limitDisk).1 = .ok (some 5) := by
  with_unfolding_all rfl
example (s : St (Disk Nat) Nat) (hs : s.ll.stack = []) :=
  C60_after_put plainBackend 0 { pathConf with versionPath := [['c']] } (pathInfo olderMeta) olderMeta olderIds .homogeneous
    (by simp [olderMeta, WFMFields, WFMeta, mnames]) (by simp [olderIds, olderMeta, TypedF, Typed, TypedE])
    (fun _ _ => rfl) older_no_defaults (fun h => by simp [pathConf, alConf] at h) [['h']] 1 rfl ⟨alLeaf, rfl, rfl⟩
    (homogeneous_static _) rfl (.inr (.inl rfl)) [['c']] 5 rfl ⟨alLeaf, rfl, rfl⟩
    (by
      rintro ⟨t, ht, ⟨u, hu⟩, hd⟩
      cases t with
      | nil => exact ht rfl
      | cons n t =>
        simp [Verif.Convert.names] at hu
        obtain ⟨rfl, rfl, -⟩ := hu
        simp [pathInfo] at hd) s hs

end Verif.Props
