import Verif.Lemmas.PulsePlan
import Verif.Lemmas.PulseReach
import Verif.Props.Tree
import Verif.Props.Coordinates
/-
What a pulse schedule conversion stores at the target of each node.
-/
set_option linter.unusedSectionVars false
namespace Verif.Pulse
open Verif.Ids Verif.TreeSpec Verif.DiffSpec Verif.Convert Verif.ConvertSpec Verif.PulseSpec

variable {V Y : Type} [Series V Y]

theorem timed_iff (d : Dict) (q : List Name) : timed d q = true ↔ TimeDependent d q := by
  unfold timed TimeDependent
  cases (d.node q).coords with
  | nil => simp
  | cons c r => simp

theorem mem_concatenate {l : List (Option (List Rat))} {r : List Rat} (h : concatenate l = some r)
    (t : Rat) : t ∈ r ↔ ∃ ts, some ts ∈ l ∧ t ∈ ts := by
  induction l generalizing r with
  | nil => simp [concatenate] at h; subst h; simp
  | cons o l ih =>
    cases o with
    | none => simp [concatenate] at h
    | some u =>
      simp only [concatenate, Option.map_eq_some_iff] at h
      obtain ⟨r', h1, rfl⟩ := h
      simp only [List.mem_append, ih h1, List.mem_cons, Option.some.injEq]
      constructor
      · rintro (h | ⟨ts, h2, h3⟩)
        · exact ⟨u, .inl rfl, h⟩
        · exact ⟨ts, .inr h2, h3⟩
      · rintro ⟨ts, rfl | h2, h3⟩
        · exact .inl h3
        · exact .inr ⟨ts, h2, h3⟩

theorem concatenate_all {l : List (Option (List Rat))} {r : List Rat} (h : concatenate l = some r) :
    none ∉ l := by
  induction l generalizing r with
  | nil => simp
  | cons o l ih =>
    cases o with
    | none => simp [concatenate] at h
    | some u =>
      simp only [concatenate, Option.map_eq_some_iff] at h
      obtain ⟨r', h1, rfl⟩ := h
      simp [ih h1]

theorem leaf_last [Value V] {n : Node V} {a : Addr} {l : LeafMeta} {v : Option V} (h : n.at a = some (.leaf l v))
    {m : Name} (hl : (a.getLast?.map (·.1)) = some m) : ∃ p, a = p ++ [(m, none)] := by
  induction a generalizing n with
  | nil => simp at hl
  | cons s a ih =>
    simp only [Node.at, Option.bind_eq_some_iff] at h
    obtain ⟨x, h1, h2⟩ := h
    cases a with
    | nil =>
      simp at hl
      simp [Node.at] at h2
      subst h2
      obtain ⟨c, rfl, h3⟩ := item_cases h1
      rcases h3 with ⟨h3, -⟩ | ⟨i, m', e, f, -, -, -, h3⟩
      · exact ⟨[], by obtain ⟨k, i⟩ := s; simp at hl h3; simp [hl, h3]⟩
      · simp at h3
    | cons t a =>
      obtain ⟨p, h3⟩ := ih h2 (by simpa [List.getLast?_cons_cons] using hl)
      exact ⟨s :: p, by rw [h3]; rfl⟩

/-- The common time base is the sorted union of all times. -/
theorem timeBase_spec {c : Fields V} (hw : WFFields c) {base : List Rat} (h : timeBase c = some base) :
    Base c base := by
  simp only [timeBase, Option.map_eq_some_iff] at h
  obtain ⟨r, h1, rfl⟩ := h
  refine ⟨increasing_unique r, fun t => ?_⟩
  rw [mem_unique, mem_concatenate h1]
  constructor
  · rintro ⟨ts, h2, h3⟩
    simp only [timeBases, List.mem_map, List.mem_filter, decide_eq_true_eq] at h2
    obtain ⟨a, ⟨h4, h5⟩, h6⟩ := h2
    have h7 := (Props.C07_iter_members true false false c hw a).1 h4
    simp at h7
    obtain ⟨-, x, h8, h9, h10⟩ := h7
    cases x with
    | struct => simp [IsLeaf] at h9
    | aos => simp [IsLeaf] at h9
    | leaf l v =>
      rw [h8] at h6
      cases v with
      | none => simp at h6
      | some v =>
        obtain ⟨p, rfl⟩ := leaf_last h8 h5
        refine ⟨p, timeName, v, ts, ⟨l, h8, ?_⟩, rfl, by simpa using h6, h3⟩
        rcases h10 with ⟨p', n', i', e⟩ | h10
        · have := congrArg List.getLast? e; simp at this
        · simpa [Node.hasValue, leafHasValue] using h10
  · rintro ⟨a, n, v, ts, ⟨l, h2, h3⟩, rfl, h4, h5⟩
    refine ⟨ts, ?_, h5⟩
    simp only [timeBases, List.mem_map, List.mem_filter, decide_eq_true_eq]
    refine ⟨a ++ [("time".toList, none)], ⟨?_, by simp [timeName]⟩, by rw [h2]; exact h4⟩
    rw [Props.C07_iter_members true false false c hw]
    right
    refine ⟨by simp, _, h2, by simp [IsLeaf], .inr (.inr ?_)⟩
    simp [Node.hasValue, leafHasValue, h3]

theorem sent_step {cx : Cfg V} {tm : Meta} {c : Fields V} {n : Name} {i : Option Nat} {A B : Addr}
    (h : Sent cx tm [] [] c ((n, i) :: A) B) : ∃ b, step cx tm [n] n [] = some b := by
  cases h with
  | here h hb => exact ⟨_, hb⟩
  | child h hb => exact ⟨_, hb⟩
  | element h hi hb => exact ⟨_, hb⟩
  | toArray h hb => exact ⟨_, hb⟩
  | ofArray h hb => exact ⟨_, hb⟩

theorem hasValue_of_leaf {c : Fields V} {n : Name} {i : Option Nat} {A : Addr} {y x : Node V}
    (hy : c.get? n = some y) (hx : (Node.struct c).at ((n, i) :: A) = some x) (hv : x.hasValue = true) :
    y.hasValue = true := by
  simp only [Node.at, Option.bind_eq_some_iff] at hx
  obtain ⟨z, h1, h2⟩ := hx
  have hz := hasValue_of_at h2 hv
  obtain ⟨c', e, h3⟩ := item_cases h1
  cases e
  rcases h3 with ⟨h3, h4⟩ | ⟨j, m, e, f, h3, h4, h5, h6⟩
  · simp only at h4; rw [hy] at h4; cases h4; exact hz
  · simp only at h4; rw [hy] at h4; cases h4
    simp only [Node.hasValue]
    cases e with
    | nil => simp [Elems.get?] at h5
    | cons => simp [Elems.length]

section
variable {line : Rat → Y → Rat → Y → Rat → Y} {cx : Cfg V} {x : Ctx V} {source : Fields V}

theorem ready_all (hw : WFFields source) (hb : HasBase x.dict source) {n : Name} {c : Fields V}
    {base : List Rat} (hc : source.get? n = some (.struct c)) (hr : Regular n) (hwc : WFFields c)
    (hbase : timeBase c = some base) : AllF (Ready x n base) [(n, none)] c := by
  refine allF_of _ _ c hwc fun A l v hA hv => ⟨⟨none, A, rfl⟩, fun h1 h2 => ?_⟩
  obtain ⟨t, ht⟩ := hb n c A l v hr hc hA hv h1 ((timed_iff _ _).1 (by simpa [names] using h2))
  have := ((timeBase_spec hwc hbase).2 t).2 ht
  rintro rfl
  simp at this

theorem alone_map {F : Addr → LeafMeta → V → V}
    (he : ∀ a l v, Value.isEmpty (F a l v) = Value.isEmpty v) {tm : Meta} {A B : Addr}
    (ha : Alone cx tm source A B) : Alone cx tm (mapFields F [] source) A B := by
  intro A' B' y hs hy hact
  have h1 : (mapNode F [] (.struct source)).at A' = some y := by simpa [mapNode] using hy
  rw [mapNode_at, Option.map_eq_some_iff] at h1
  obtain ⟨y0, h2, rfl⟩ := h1
  exact ha A' B' y0 (sent_of_map F hs) h2 ((acts_mapNode F he cx _ _ _).1 hact)

theorem fields_hasValue_of_get {c : Fields V} {n : Name} {y : Node V} (h : c.get? n = some y)
    (hv : y.hasValue = true) : (Node.struct c).hasValue = true :=
  hasValue_of_at (a := [(n, none)]) (by simp [Node.at, Node.item, h]) hv

theorem plan_single {tm : Meta} {n : Name} {b : Addr} {y : Node V} (hv : y.hasValue = true)
    (hb : step cx tm [n] n [] = some b) :
    planFields cx tm [] [] (.present n y .nil) = planItem cx tm [n] n b y := by
  simp [planFields, hv, hb]

theorem pulse_keeps {tm : Meta} (hp : Proper cx) (c : Fields V) (hw : WFFields c) :
    ∀ e ∈ pulsePlan line cx x source tm c, Keeps (e.op.run cx) := by
  intro e he
  obtain ⟨n, y, b, -, h1, h2, h3, h4, h5⟩ := mem_pulsePlan c he hw
  rcases h5 with h5 | h5
  · obtain ⟨c', base, -, -, -, rfl⟩ := mem_extra h5
    exact keeps_store cx (some _)
  · rw [← plan_single (by rw [hasValue_mapNode _ (newValue_empty line cx x source)]; exact h3) h4] at h5
    exact plan_keeps hp (by simp [WFFields, Fields.names, wf_mapNode _ _ _ h2]) e h5

/-- The conversion split at the writes for one node. -/
theorem pulse_split {tm : Meta} (hm : PulseMap cx x.dict) (hw : WFFields source)
    (hbase : HasBase x.dict source) {target target' : Node V} (ht : Typed target tm)
    (h : pulseFields line cx x source target = .ok target') {n : Name} {i : Option Nat} {A B : Addr}
    {y : Node V} (hy : (Node.struct source).at ((n, i) :: A) = some y) (hv : y.hasValue = true)
    (hs : Sent cx tm [] [] source ((n, i) :: A) B) :
    ∃ n1 n2 l2, Typed n1 tm ∧
      exec cx (mainOf cx (n :: names A) ((n, i) :: A) B
        (mapNode (newValue line cx x source) ((n, i) :: A) y)) n1 = .ok n2 ∧
      exec cx l2 n2 = .ok target' ∧ (∀ e ∈ l2, Keeps (e.op.run cx)) ∧
      (∀ e ∈ l2, (EntrySpec cx tm [] [] (mapFields (newValue line cx x source) [] source) e ∧
          Later ((n, i) :: A) (Open cx (n :: names A)
            (mapNode (newValue line cx x source) ((n, i) :: A) y)) e) ∨
        ∃ n', n' ≠ n ∧ IsBase cx tm source n' e) := by
  have hE := newValue_empty line cx x source
  obtain ⟨hplan, -⟩ := pulse_plan (line := line) (source := source) hm.proper
    (fun g => by rw [hm.root]; simp) (fun q hq => hm.post q ((timed_iff _ _).1 hq))
    (fun n => (hm.items n).1) (fun n => (hm.items n).2)
    (fun n c base h1 h2 h3 => ready_all hw hbase h1 h2
      (by simpa [WF] using wf_get hw h1) h3) source hw (fun _ _ => rfl) ht h
  obtain ⟨s, A', z, e1, hz⟩ := sent_head hs
  simp only [List.cons.injEq] at e1
  obtain ⟨rfl, rfl⟩ := e1
  simp only at hz
  have hzv := hasValue_of_leaf hz hy hv
  obtain ⟨b, hb⟩ := sent_step hs
  obtain ⟨L1, L2, h1, h2⟩ := pulsePlan_split (line := line) (x := x) (source := source) source hw hz hzv hb
  have hzv' : (mapNode (newValue line cx x source) [(n, none)] z).hasValue = true := by
    rw [hasValue_mapNode _ hE]; exact hzv
  have hmw : WF (mapNode (newValue line cx x source) [(n, none)] z) := wf_mapNode _ _ _ (wf_get hw hz)
  have hget : (mapFields (newValue line cx x source) [] source).get? n =
      (Fields.present n (mapNode (newValue line cx x source) [(n, none)] z) .nil).get? n := by
    rw [mapFields_get, hz]; simp [Fields.get?]
  have hs' : Sent cx tm [] [] (Fields.present n (mapNode (newValue line cx x source) [(n, none)] z) .nil)
      ((n, i) :: A) B := sent_congr (sent_map (newValue line cx x source) hs []) hget.symm
  have hy' : (Node.struct (Fields.present n (mapNode (newValue line cx x source) [(n, none)] z) .nil)).at
      ((n, i) :: A) = some (mapNode (newValue line cx x source) ((n, i) :: A) y) := by
    have h3 := mapNode_at (newValue line cx x source) [] (.struct source) ((n, i) :: A)
    rw [hy] at h3
    simp only [mapNode, List.nil_append, Option.map_some] at h3
    rw [← h3]
    simp only [Node.at]
    rw [item_congr (s := (n, i)) hget.symm]
  obtain ⟨l1, l2, h3, h4⟩ := plan_main hs' (by simp [WFFields, Fields.names, hmw]) hy'
    (by rw [hasValue_mapNode _ hE]; exact hv)
  rw [plan_single hzv' hb] at h3
  have hk := pulse_keeps (line := line) (x := x) (source := source) (tm := tm) hm.proper source hw
  rw [h1, h3] at hk
  rw [h1, h3, exec_append] at hplan
  obtain ⟨m1, h5, h6⟩ := andThen_ok.1 hplan
  rw [exec_append] at h6
  obtain ⟨m2, h7, h8⟩ := andThen_ok.1 h6
  rw [exec_append] at h7
  obtain ⟨m3, h9, h10⟩ := andThen_ok.1 h7
  rw [exec_append] at h10
  obtain ⟨m4, h11, h12⟩ := andThen_ok.1 h10
  rw [exec_append] at h12
  obtain ⟨m5, h13, h14⟩ := andThen_ok.1 h12
  refine ⟨m4, m5, l2 ++ L2, ?_, by simpa [names] using h13, ?_, fun e he => hk e ?_, ?_⟩
  · refine exec_typed l1 (fun e he => hk e (by simp [he])) ?_ h11
    refine exec_typed _ (fun e he => hk e (by simp [he])) ?_ h9
    exact exec_typed L1 (fun e he => hk e (by simp [he])) ht h5
  · rw [exec_append, h14]; exact h8
  · rcases List.mem_append.1 he with he | he <;> simp [he]
  · intro e he
    rcases List.mem_append.1 he with he | he
    · left
      refine ⟨?_, by simpa [names] using h4 e he⟩
      have h15 : e ∈ planItem cx tm [n] n b (mapNode (newValue line cx x source) [(n, none)] z) := by
        rw [h3]; simp [he]
      exact planItem_spec [] [] n b _ hmw _ (by rw [mapFields_get, hz]; rfl) hb hzv' e h15
    · obtain ⟨n', y', b', h15, h16, h17, h18, h19, h20⟩ := h2 e he
      rcases h20 with h20 | h20
      · right
        obtain ⟨c', base, rfl, h21, h22, rfl⟩ := mem_extra h20
        exact ⟨n', h15, c', b', base, h21, h16, h19, h22, rfl⟩
      · left
        refine ⟨planItem_spec [] [] n' b' _ (wf_mapNode _ _ _ h17) _
          (by rw [mapFields_get, h16]; rfl) h19 (by rw [hasValue_mapNode _ hE]; exact h18) e h20, ?_⟩
        obtain ⟨j, r, h21⟩ := planItem_src h20
        exact later_name ⟨n', j, r, h21, h15⟩

/-- The value of a data node arrives at its target, resampled if it is to be. -/
theorem pulse_value {tm : Meta} (hm : PulseMap cx x.dict) (hw : WFFields source)
    (hbase : HasBase x.dict source) {target target' : Node V} (ht : Typed target tm)
    (h : pulseFields line cx x source target = .ok target') {n : Name} {i : Option Nat} {A B : Addr}
    {l : LeafMeta} {v : V} (hy : (Node.struct source).at ((n, i) :: A) = some (.leaf l (some v)))
    (hv : Value.isEmpty v = false)
    (hs : Sent cx tm [] [] source ((n, i) :: A) B) (hc : cx.change (n :: names A) = none)
    (ha : Alone cx tm source ((n, i) :: A) B)
    (hn : NoPostAbove cx ((n, i) :: A)) (hb : BasesElsewhere cx tm source n B) :
    ∃ l' w, metaAt tm (names B) = some (.leaf l') ∧
      cx.store l' (newValue line cx x source ((n, i) :: A) l v) = .ok w ∧
      ∃ z, target'.at B = some z ∧
        match cx.post (n :: names A) with
        | none => z = .leaf l' w
        | some f => f (.leaf l' w) = .ok z := by
  obtain ⟨n1, n2, l2, h1, h2, h3, h4, h5⟩ := pulse_split hm hw hbase ht h hy
    (by simp [Node.hasValue, leafHasValue, hv]) hs
  simp only [mapNode, Option.map_some] at h2 h5
  have hfr : ∀ e ∈ l2, ¬ Contains B e.dst ∧ ¬ Contains e.dst B := by
    intro e he
    rcases h5 e he with ⟨h6, h7⟩ | ⟨n', h6, h7⟩
    · rcases later_elsewhere (alone_map (newValue_empty line cx x source) ha) hn h6 h7 with h | ⟨h, -⟩ | ⟨h, -⟩
      · exact h
      · exact absurd trivial h.1
      · exact absurd trivial h.1
    · obtain ⟨c', b', base, h8, h9, h10, h11, rfl⟩ := h7
      exact hb n' c' b' h6 h8 h9 h10
  simp only [mainOf, hc] at h2
  have e1 : ∀ (e : Entry V) (es : List (Entry V)), e :: es = [e] ++ es := fun _ _ => rfl
  rw [e1, exec_append] at h2
  obtain ⟨n3, h6, h7⟩ := andThen_ok.1 h2
  obtain ⟨z, y, h8, h9, h10⟩ := exec_one h6 (keeps_store cx (some _))
  obtain ⟨l', w0, v0, w, rfl, e2, h11, rfl⟩ := storeNode_ok
    (show storeNode cx (some (newValue line cx x source ((n, i) :: A) l v)) z = .ok y from h9)
  cases e2
  refine ⟨l', w, typed_leaf_at h1 h8, h11, ?_⟩
  simp only at h10
  rcases hq : cx.post (n :: names A) with _ | f
  · simp only [postOf, hq, exec] at h7
    cases h7
    exact ⟨_, exec_frame l2 h4 h3 h10 hfr, rfl⟩
  · simp only [postOf, hq] at h7
    obtain ⟨x2, y2, h12, h13, h14⟩ := exec_one h7 (hm.proper.2 _ _ hq)
    simp only at h12
    rw [h10] at h12; cases h12
    exact ⟨y2, exec_frame l2 h4 h3 h14 hfr, h13⟩

theorem sent_clear [Value V] {tm : Meta} {p : List Name} {t : Addr} {c : Fields V} {A B : Addr}
    (h : Sent cx tm p t c A B) (hp : Clear cx p) (hc : cx.change (p ++ names A) = none) :
    Clear cx (p ++ names A) := by
  induction h with
  | here h hb =>
    simp only [names, List.map_cons, List.map_nil] at hc ⊢
    exact clear_snoc hp (by rw [hc]; simp)
  | child h hb hq r ih =>
    have := ih (clear_snoc hp (by rw [hq]; simp)) (by simpa [names] using hc)
    simpa [names] using this
  | element h hi hb hq r ih =>
    have := ih (clear_snoc hp (by rw [hq]; simp)) (by simpa [names] using hc)
    simpa [names] using this
  | toArray h hb hq r ih =>
    have := ih (clear_snoc hp (by rw [hq]; simp)) (by simpa [names] using hc)
    simpa [names] using this
  | ofArray h hb hq r ih =>
    have := ih (clear_snoc hp (by rw [hq]; simp)) (by simpa [names] using hc)
    simpa [names] using this

theorem pulse_hyps (hm : PulseMap cx x.dict) :
    (∀ g, cx.change [] ≠ some (.custom g)) ∧ (∀ q, timed x.dict q = true → cx.post q = none) :=
  ⟨fun g => by rw [hm.root]; simp, fun q hq => hm.post q ((timed_iff _ _).1 hq)⟩

theorem pulseFields_at {tm : Meta} (hm : PulseMap cx x.dict) (hw : WFFields source)
    (hbase : HasBase x.dict source) (c : Fields V) (hwc : WFFields c)
    (hsub : ∀ k ∈ c.names, source.get? k = c.get? k) {root root' : Node V} (ht : Typed root tm)
    (h : pulseFields line cx x c root = .ok root') {n : Name} {y : Node V} {b : Addr}
    (hy : c.get? n = some y) (hv : y.hasValue = true) (hb : step cx tm [n] n [] = some b) :
    ∃ r0 r1, Typed r0 tm ∧ pulseItem line cx x n b y r0 = .ok r1 := by
  cases c with
  | nil => simp [Fields.get?] at hy
  | absent k m r =>
    simp only [pulseFields] at h
    simp only [WFFields] at hwc
    simp only [Fields.get?] at hy
    split at hy
    · cases hy; rw [fresh_hasValue] at hv; simp at hv
    · refine pulseFields_at hm hw hbase r hwc.2.2 (fun j hj => ?_) ht h hy hv hb
      rw [hsub j (by simp [Fields.names, hj])]
      have : j ≠ k := by rintro rfl; exact hwc.1 hj
      simp [Fields.get?, this]
  | present k z r =>
    simp only [pulseFields] at h
    simp only [WFFields] at hwc
    have hsub' : ∀ j ∈ r.names, source.get? j = r.get? j := by
      intro j hj
      rw [hsub j (by simp [Fields.names, hj])]
      have : j ≠ k := by rintro rfl; exact hwc.1 hj
      simp [Fields.get?, this]
    have hz : source.get? k = some z := by
      rw [hsub k (by simp [Fields.names])]; simp [Fields.get?]
    simp only [Fields.get?] at hy
    split at hy
    · next hk =>
      cases hy
      subst hk
      rw [if_pos hv] at h
      obtain ⟨r1, h1, h2⟩ := andThen_ok.1 h
      cases hg : getTarget cx root [n] n [] with
      | error e => rw [hg] at h1; simp at h1
      | ok o =>
        rw [hg] at h1
        have := getTarget_ok ht hg
        rw [hb] at this
        subst this
        exact ⟨root, r1, ht, h1⟩
    · split at h
      · next hzv =>
        obtain ⟨r1, h1, h2⟩ := andThen_ok.1 h
        refine pulseFields_at hm hw hbase r hwc.2.2 hsub' ?_ h2 hy hv hb
        cases hg : getTarget cx root [k] k [] with
        | error e => rw [hg] at h1; simp at h1
        | ok o =>
          rw [hg] at h1
          cases o with
          | none => simp only [Except.ok.injEq] at h1; subst h1; exact ht
          | some b =>
            simp only at h1
            refine (pulseItem_plan (source := source) hm.proper (pulse_hyps hm).1 (pulse_hyps hm).2
              (hm.items k).1 (hm.items k).2 hz (wf_get hw hz) ?_ ht h1).2
            rintro c base rfl hr hb'
            exact ready_all hw hbase hz hr (by simpa [WF] using wf_get hw hz) hb'
      · exact pulseFields_at hm hw hbase r hwc.2.2 hsub' ht h hy hv hb
termination_by structural c

theorem pulse_resampled {tm : Meta} (hm : PulseMap cx x.dict) (hw : WFFields source)
    (hbase : HasBase x.dict source) {target target' : Node V} (ht : Typed target tm)
    (h : pulseFields line cx x source target = .ok target') {n : Name} {c : Fields V} (hn : Regular n)
    (hc : source.get? n = some (.struct c)) {A B : Addr} {l : LeafMeta} {v : V}
    (hy : (Node.struct c).at A = some (.leaf l (some v))) (hv : Value.isEmpty v = false)
    (hs : Sent cx tm [] [] source ((n, none) :: A) B) (hch : cx.change (n :: names A) = none)
    (h1 : l.ndim = 1) (htd : TimeDependent x.dict (n :: names A)) :
    ∃ base w, timeBase c = some base ∧ resampled line x base ((n, none) :: A) l v = some w ∧
      newValue line cx x source ((n, none) :: A) l v = Series.ofSamples w := by
  have hval : (Node.leaf l (some v)).hasValue = true := by simp [Node.hasValue, leafHasValue, hv]
  obtain ⟨b, hb⟩ := sent_step hs
  obtain ⟨r0, r1, ht0, hi⟩ := pulseFields_at hm hw hbase source hw (fun _ _ => rfl) ht h hc
    (hasValue_of_at hy hval) hb
  simp only [pulseItem] at hi
  rw [if_neg (fun e => e.elim hn.1 hn.2.1), if_neg (fun e => e.elim hn.2.2.1 hn.2.2.2)] at hi
  cases hbs : timeBase c with
  | none => rw [hbs] at hi; simp at hi
  | some base =>
    rw [hbs] at hi
    simp only at hi
    obtain ⟨r2, h2, h3⟩ := andThen_ok.1 hi
    have hr := realizes line cx x source hn hc hbs (pulse_hyps hm).2
    have hP := ready_all (source := source) (x := x) hw hbase hc hn (by simpa [WF] using wf_get hw hc) hbs
    have hcl := clear_item (n := n) (pulse_hyps hm).1 (hm.items n).1
    have htm : timed x.dict (names ((n, none) :: A)) = true := by
      rw [timed_iff]; simpa [names] using htd
    have hcall : callback line cx x base ([(n, none)] ++ A) (.leaf l (some v)) = some fun y =>
        match resampled line x base ((n, none) :: A) l v with
        | some w => storeNode cx (some (Series.ofSamples w)) y
        | none => .error .custom := by
      simp only [callback, List.cons_append, List.nil_append, h1, htm, and_self, if_true]
      rfl
    have hs' : ∃ B', Sent cx tm [n] b c A B' := by
      cases hs with
      | here h' hb' => rw [hc] at h'; cases h'; simp [Node.at] at hy
      | child h' hb' _ r =>
        rw [hc] at h'; cases h'
        rw [List.nil_append] at hb' r
        rw [hb] at hb'; cases hb'
        exact ⟨_, r⟩
      | toArray h' hb' hq r => rw [List.nil_append, (hm.items n).1] at hq; simp at hq
    obtain ⟨B', hs'⟩ := hs'
    obtain ⟨y, z, h4⟩ := callback_ok hr hm.proper hs' (s := [(n, none)]) (by simp [names])
      (by simpa [names] using hcl) hP (typed_writeAt (keeps_store cx _) ht0 h2) h3 hy hv
      (by simpa using hch) hcall
    cases hrs : resampled line x base ((n, none) :: A) l v with
    | none => rw [hrs] at h4; simp at h4
    | some w =>
      refine ⟨base, w, rfl, hrs, ?_⟩
      have hne : w ≠ [] := by
        have hl := resampled_length line x hrs
        obtain ⟨t, ht⟩ := hbase n c A l v hn hc hy hv h1 htd
        have := ((timeBase_spec (by simpa [WF] using wf_get hw hc) hbs).2 t).2 ht
        rintro rfl
        simp only [List.length_nil] at hl
        rw [List.eq_nil_of_length_eq_zero hl.symm] at this
        simp at this
      have hclear : Clear cx (names ((n, none) :: A)) := by
        simpa [names] using sent_clear hs' hcl (by simpa using hch)
      simp only [newValue, hv, h1, htm, hclear, and_self, if_true, baseOf, hn, hc, hbs, hrs, hne, if_false]

theorem newValue_same {s : Addr} {l : LeafMeta} {v : V}
    (h : l.ndim ≠ 1 ∨ ¬ TimeDependent x.dict (names s) ∨ ∀ n i r, s = (n, i) :: r → ¬ Regular n) :
    newValue line cx x source s l v = v := by
  unfold newValue
  split
  · next h1 =>
    rcases h with h | h | h
    · exact absurd h1.2.1 h
    · exact absurd ((timed_iff _ _).1 h1.2.2.1) h
    · cases s with
      | nil => simp [baseOf]
      | cons k s => obtain ⟨n, i⟩ := k; simp [baseOf, h n i s rfl]
  · rfl

/-- The common time base is stored. -/
theorem pulse_base {tm : Meta} (hm : PulseMap cx x.dict) (hw : WFFields source)
    (hbase : HasBase x.dict source) {target target' : Node V} (ht : Typed target tm)
    (h : pulseFields line cx x source target = .ok target') {n : Name} {c : Fields V} (hn : Regular n)
    (hc : source.get? n = some (.struct c)) (hv : (Node.struct c).hasValue = true) {b : Addr}
    (hb : step cx tm [n] n [] = some b)
    (hr : Reserved cx tm source n (b ++ [(timeName, none)])) :
    ∃ base l w, timeBase c = some base ∧
      metaAt tm (names (b ++ [(timeName, none)])) = some (.leaf l) ∧
      cx.store l (Series.ofTimes base) = .ok w ∧
      target'.at (b ++ [(timeName, none)]) = some (.leaf l w) := by
  have hE := newValue_empty line cx x source
  obtain ⟨r0, r1, ht0, hi⟩ := pulseFields_at hm hw hbase source hw (fun _ _ => rfl) ht h hc hv hb
  simp only [pulseItem] at hi
  rw [if_neg (fun e => e.elim hn.1 hn.2.1), if_neg (fun e => e.elim hn.2.2.1 hn.2.2.2)] at hi
  cases hbs : timeBase c with
  | none => rw [hbs] at hi; simp at hi
  | some base =>
  obtain ⟨hplan, -⟩ := pulse_plan (line := line) (source := source) hm.proper
    (pulse_hyps hm).1 (pulse_hyps hm).2 (fun n => (hm.items n).1) (fun n => (hm.items n).2)
    (fun n c base h1 h2 h3 => ready_all hw hbase h1 h2
      (by simpa [WF] using wf_get hw h1) h3) source hw (fun _ _ => rfl) ht h
  obtain ⟨L1, L2, h1, h2⟩ := pulsePlan_split (line := line) (x := x) (source := source) source hw hc hv hb
  have hk := pulse_keeps (line := line) (x := x) (source := source) (tm := tm) hm.proper source hw
  rw [h1] at hk
  rw [h1, exec_append] at hplan
  obtain ⟨m1, h5, h6⟩ := andThen_ok.1 hplan
  rw [exec_append] at h6
  obtain ⟨m2, h7, h8⟩ := andThen_ok.1 h6
  rw [exec_append] at h7
  obtain ⟨m3, h9, h10⟩ := andThen_ok.1 h7
  have hm1 := exec_typed L1 (fun e he => hk e (by simp [he])) ht h5
  simp only [extra, hn, if_true, hbs] at h9
  obtain ⟨z, y, h11, h12, h13⟩ := exec_one h9 (keeps_store cx (some _))
  obtain ⟨l, w0, v0, w, rfl, e2, h14, rfl⟩ := storeNode_ok
    (show storeNode cx (some (Series.ofTimes base)) z = .ok y from h12)
  cases e2
  refine ⟨base, l, w, rfl, typed_leaf_at hm1 h11, h14, ?_⟩
  have h15 : exec cx (planItem cx tm [n] n b (mapNode (newValue line cx x source) [(n, none)] (.struct c)) ++ L2)
      m3 = .ok target' := by rw [exec_append, h10]; exact h8
  refine exec_frame _ (fun e he => hk e ?_) h15 h13 ?_
  · rcases List.mem_append.1 he with he | he <;> simp [he]
  · have spec : ∀ e, EntrySpec cx tm [] [] (mapFields (newValue line cx x source) [] source) e →
        ¬ Contains (b ++ [(timeName, none)]) e.dst ∧ ¬ Contains e.dst (b ++ [(timeName, none)]) := by
      rintro e ⟨B', y, h16, h17, h18, h19, h20⟩
      have h21 : (mapNode (newValue line cx x source) [] (.struct source)).at e.src = some y := by
        simpa [mapNode] using h17
      rw [mapNode_at, Option.map_eq_some_iff] at h21
      obtain ⟨y0, h22, rfl⟩ := h21
      have h23 := (acts_mapNode _ hE cx _ _ _).1 (opSpec_acts h20 h18)
      obtain ⟨h24, h25⟩ := hr.1 e.src B' y0 (sent_of_map _ h16) h22 h23
      constructor
      · intro h
        rcases contains_common h h19 with h | h
        · exact h24 h
        · exact h25 h
      · intro h; exact h25 (contains_trans h19 h)
    intro e he
    rcases List.mem_append.1 he with he | he
    · exact spec e (planItem_spec [] [] n b _ (wf_mapNode _ _ _ (wf_get hw hc)) _
        (by rw [mapFields_get, hc]; rfl) hb (by rw [hasValue_mapNode _ hE]; exact hv) e he)
    · obtain ⟨n', y', b', h15, h16, h17, h18, h19, h20⟩ := h2 e he
      rcases h20 with h20 | h20
      · obtain ⟨c', base, rfl, h21, h22, rfl⟩ := mem_extra h20
        exact hr.2 n' c' b' h15 h21 h16 h19
      · exact spec e (planItem_spec [] [] n' b' _ (wf_mapNode _ _ _ h17) _
          (by rw [mapFields_get, h16]; rfl) h19 (by rw [hasValue_mapNode _ hE]; exact h18) e h20)

end

end Verif.Pulse
