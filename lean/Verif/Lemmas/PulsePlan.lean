import Verif.Lemmas.PulseCopy
/-
The writes of a pulse schedule conversion.
-/
set_option linter.unusedSectionVars false
namespace Verif.Pulse
open Verif.Ids Verif.TreeSpec Verif.DiffSpec Verif.Convert Verif.ConvertSpec Verif.PulseSpec

variable {V Y : Type} [Series V Y]

theorem isEmpty_samples {w : List Y} (h : w ≠ []) : Value.isEmpty (Series.ofSamples (V := V) w) = false := by
  have h1 := Series.samples_shape (V := V) (Series.ofSamples w) w (Series.samples_of w)
  cases he : Value.isEmpty (Series.ofSamples (V := V) w) with
  | false => rfl
  | true =>
    have := (ShapedValue.isEmpty_iff (V := V) _).1 he
    rw [h1] at this
    simp at this
    cases w <;> simp at h this

section
variable (line : Rat → Y → Rat → Y → Rat → Y) (cx : Cfg V) (x : Ctx V) (source : Fields V)

open Classical in
/-- The time base of the item that the position is in. -/
noncomputable def baseOf (s : Addr) : Option (List Rat) :=
  match s with
  | [] => none
  | (n, _) :: _ =>
    if Regular n then
      match source.get? n with
      | some (.struct c) => timeBase c
      | _ => none
    else none

open Classical in
/-- The value that the target gets. -/
noncomputable def newValue (s : Addr) (l : LeafMeta) (v : V) : V :=
  if Value.isEmpty v = false ∧ l.ndim = 1 ∧ timed x.dict (names s) = true ∧ Clear cx (names s) then
    match baseOf source s with
    | none => v
    | some base =>
      match resampled line x base s l v with
      | none => v
      | some w => if w = [] then v else Series.ofSamples w
  else v

theorem newValue_empty (s : Addr) (l : LeafMeta) (v : V) :
    Value.isEmpty (newValue line cx x source s l v) = Value.isEmpty v := by
  unfold newValue
  split
  · next h =>
    cases baseOf source s with
    | none => rfl
    | some base =>
      simp only
      cases resampled line x base s l v with
      | none => rfl
      | some w =>
        simp only
        split
        · rfl
        · next hw => rw [isEmpty_samples hw, h.1]
  · rfl

theorem newValue_item {n : Name} (hn : ¬ Regular n) (s : Addr) (hs : [n] <+: names s) (l : LeafMeta)
    (v : V) : newValue line cx x source s l v = v := by
  unfold newValue
  split
  · cases s with
    | nil => simp [names] at hs
    | cons k s =>
      obtain ⟨k, i⟩ := k
      simp [names] at hs
      subst hs
      simp [baseOf, hn]
  · rfl

/-- The time base is not empty if there is something to resample. -/
def Ready (n : Name) (base : List Rat) (s : Addr) (l : LeafMeta) (_ : V) : Prop :=
  (∃ i r, s = (n, i) :: r) ∧ (l.ndim = 1 → timed x.dict (names s) = true → base ≠ [])

theorem resampled_length {base : List Rat} {s : Addr} {l : LeafMeta} {v : V} {w : List Y}
    (h : resampled line x base s l v = some w) : w.length = base.length := by
  unfold resampled at h
  split at h
  · simp at h
  · split at h
    · split at h
      · exact (resample_spec h).1
      · simp at h
    · simp at h

theorem realizes {n : Name} (hn : Regular n) {c : Fields V} (hc : source.get? n = some (.struct c))
    {base : List Rat} (hb : timeBase c = some base)
    (hpost : ∀ q, timed x.dict q = true → cx.post q = none) :
    Realizes (Ready x n base) cx (callback line cx x base) (newValue line cx x source) where
  struct s := rfl
  aos s g y z h := by
    simp only [callback] at h
    split at h
    · simp only [Option.some.injEq] at h; subst h; simp
    · simp at h
  custom q g hg s hs l v := by
    unfold newValue
    split
    · next h => exact absurd hg (h.2.2.2 q g hs)
    · rfl
  kept s l v hP hv hcb := by
    unfold newValue
    split
    · next h =>
      simp only [callback] at hcb
      rw [if_pos ⟨h.2.1, h.2.2.1⟩] at hcb
      simp at hcb
    · rfl
  stored s l v g hP hv hcl hcb := by
    simp only [callback] at hcb
    split at hcb
    · next h1 =>
      simp only [Option.some.injEq] at hcb
      subst hcb
      refine ⟨hpost _ h1.2, ?_, ?_⟩
      · intro g y hy
        simp only at hy
        cases hw : resampled line x base s l v with
        | none => rw [hw] at hy; simp at hy
        | some w => rw [hw] at hy; exact (keeps_store cx _).2 _ _ hy
      · intro y z u h2 h3
        cases hw : resampled line x base s l v with
        | none => rw [hw] at h3; simp at h3
        | some w =>
          rw [hw] at h3
          have hne : w ≠ [] := by
            have := hP.2 h1.1 h1.2
            have hl := resampled_length line x hw
            rintro rfl
            simp at hl
            exact this (List.eq_nil_of_length_eq_zero hl.symm)
          have hbase : baseOf source s = some base := by
            obtain ⟨i, r, rfl⟩ := hP.1
            simp [baseOf, hn, hc, hb]
          have : newValue line cx x source s l v = Series.ofSamples w := by
            simp [newValue, hv, h1, hcl, hbase, hw, hne]
          rw [this]
          simp only at h3
          obtain ⟨l1, w1, v1, w1', rfl, e1, h4, rfl⟩ := storeNode_ok h2
          obtain ⟨l2, w2, v2, w2', e2, e3, h5, rfl⟩ := storeNode_ok h3
          cases e2
          cases e3
          simp [storeNode, h5]
    · simp at hcb
  empty := newValue_empty line cx x source

/-- The write of the common time base. -/
noncomputable def extra (n : Name) (b : Addr) : Node V → List (Entry V)
  | .struct c =>
    open Classical in
    if Regular n then
      match timeBase c with
      | some base => [⟨[(n, none)], b ++ [(timeName, none)], .store (some (Series.ofTimes base))⟩]
      | none => []
    else []
  | _ => []

/-- All writes. -/
noncomputable def pulsePlan (tm : Meta) : Fields V → List (Entry V)
  | .nil => []
  | .absent _ _ r => pulsePlan tm r
  | .present n y r =>
    (if y.hasValue then
      match step cx tm [n] n [] with
      | none => []
      | some b =>
        extra n b y ++ planItem cx tm [n] n b (mapNode (newValue line cx x source) [(n, none)] y)
     else []) ++ pulsePlan tm r

variable {line cx x source}

theorem clear_item {n : Name} (h0 : ∀ g, cx.change [] ≠ some (.custom g))
    (h : cx.change [n] = none) : Clear cx [n] := by
  intro q g hq
  have : q = [] ∨ q = [n] := by
    cases q with
    | nil => exact .inl rfl
    | cons k q =>
      rw [List.cons_prefix_cons] at hq
      obtain ⟨rfl, hq⟩ := hq
      simp at hq; subst hq; exact .inr rfl
  rcases this with rfl | rfl
  · exact h0 g
  · rw [h]; simp

theorem special_or (n : Name) : (n = "ids_properties".toList ∨ n = "code".toList) ∨
    (n = timeName ∨ n = "event".toList) ∨ Regular n := by
  by_cases h1 : n = "ids_properties".toList
  · exact .inl (.inl h1)
  · by_cases h2 : n = "code".toList
    · exact .inl (.inr h2)
    · by_cases h3 : n = timeName
      · exact .inr (.inl (.inl h3))
      · by_cases h4 : n = "event".toList
        · exact .inr (.inl (.inr h4))
        · exact .inr (.inr ⟨h1, h2, h3, h4⟩)

theorem pulseItem_plan {tm : Meta} (hp : Proper cx) (h0 : ∀ g, cx.change [] ≠ some (.custom g))
    (hpost : ∀ q, timed x.dict q = true → cx.post q = none) {n : Name} (hch : cx.change [n] = none)
    (hpo : cx.post [n] = none) {y : Node V} (hy : source.get? n = some y) (hw : WF y) {b : Addr}
    (hbase : ∀ c base, y = .struct c → Regular n → timeBase c = some base →
      AllF (Ready x n base) [(n, none)] c)
    {root root' : Node V} (ht : Typed root tm) (h : pulseItem line cx x n b y root = .ok root') :
    exec cx (extra n b y ++
      planItem cx tm [n] n b (mapNode (newValue line cx x source) [(n, none)] y)) root = .ok root' ∧
      Typed root' tm := by
  have hpo' : ∀ a b' : Addr, postOf cx [n] a b' = [] := by intro a b'; simp [postOf, hpo]
  have hid : ¬ Regular n → mapNode (newValue line cx x source) [(n, none)] y = y := fun hn =>
    mapNode_id _ [n] (newValue_item line cx x source hn) _ (by simp [names]) y
  cases y with
  | leaf l v =>
    simp only [pulseItem] at h
    split at h
    · next hn =>
      have hreg : ¬ Regular n := fun hr => hr.2.2.1 hn
      rw [hid hreg]
      simp only [extra, planItem, hch, hpo', List.nil_append, exec, Op.run, h, andThen]
      exact ⟨trivial, typed_writeAt (keeps_store cx v) ht h⟩
    · simp at h
  | aos m e =>
    simp only [pulseItem] at h
    split at h
    · next hn =>
      have hreg : ¬ Regular n := fun hr => hr.2.2.2 hn
      rw [hid hreg]
      obtain ⟨r1, h1, h2⟩ := andThen_ok.1 h
      simp only [extra, planItem, hch, hpo', List.nil_append, List.append_nil, exec, Op.run, h1]
      have ht1 := typed_writeAt (keeps_resize e.length) ht h1
      simp only [andThen]
      exact copyElems_plan hp [n] n b 0 e ht1 h2
    · simp at h
  | struct c =>
    simp only [pulseItem] at h
    split at h
    · next hn =>
      have hreg : ¬ Regular n := fun hr => hn.elim hr.1 hr.2.1
      rw [hid hreg]
      simp only [extra, hreg, if_false, planItem, hch, hpo', List.nil_append, List.append_nil, exec_pre]
      exact copyFields_plan hp [n] b c ht h
    · next hn =>
      split at h
      · simp at h
      · next hn2 =>
        have hreg : Regular n := by
          rcases special_or n with h3 | h3 | h3
          · exact absurd h3 hn
          · exact absurd h3 hn2
          · exact h3
        split at h
        · simp at h
        · next base hb =>
          obtain ⟨r1, h1, h2⟩ := andThen_ok.1 h
          have h3 := copyFields_map (realizes line cx x source hreg hy hb hpost) [(n, none)] b
            (by simpa [names] using clear_item h0 hch) c (hbase c base rfl hreg hb) h2
          have ht1 := typed_writeAt (keeps_store cx _) ht h1
          simp only [extra, hreg, if_true, hb, mapNode, planItem, hch, hpo', List.append_nil]
          rw [exec_append]
          simp only [exec, Op.run, h1, andThen, exec_pre]
          exact copyFields_plan hp [n] b _ ht1 (by simpa [names] using h3)

theorem pulse_plan {tm : Meta} (hp : Proper cx) (h0 : ∀ g, cx.change [] ≠ some (.custom g))
    (hpost : ∀ q, timed x.dict q = true → cx.post q = none) (hch : ∀ n, cx.change [n] = none)
    (hpo : ∀ n, cx.post [n] = none)
    (hbase : ∀ n c base, source.get? n = some (.struct c) → Regular n → timeBase c = some base →
      AllF (Ready x n base) [(n, none)] c)
    (c : Fields V) (hw : WFFields c) (hsub : ∀ k ∈ c.names, source.get? k = c.get? k)
    {root root' : Node V} (ht : Typed root tm) (h : pulseFields line cx x c root = .ok root') :
    exec cx (pulsePlan line cx x source tm c) root = .ok root' ∧ Typed root' tm := by
  cases c with
  | nil => simp only [pulseFields, Except.ok.injEq] at h; subst h; simp [pulsePlan, exec, ht]
  | absent n m r =>
    simp only [pulseFields, pulsePlan] at h ⊢
    simp only [WFFields] at hw
    refine pulse_plan hp h0 hpost hch hpo hbase r hw.2.2 (fun k hk => ?_) ht h
    rw [hsub k (by simp [Fields.names, hk])]
    have : k ≠ n := by rintro rfl; exact hw.1 hk
    simp [Fields.get?, this]
  | present n y r =>
    simp only [pulseFields, pulsePlan] at h ⊢
    simp only [WFFields] at hw
    have hsub' : ∀ k ∈ r.names, source.get? k = r.get? k := by
      intro k hk
      rw [hsub k (by simp [Fields.names, hk])]
      have : k ≠ n := by rintro rfl; exact hw.1 hk
      simp [Fields.get?, this]
    have hy : source.get? n = some y := by
      rw [hsub n (by simp [Fields.names])]; simp [Fields.get?]
    split at h
    · next hv =>
      rw [if_pos hv, exec_append]
      obtain ⟨r1, h1, h2⟩ := andThen_ok.1 h
      cases hg : getTarget cx root [n] n [] with
      | error e => rw [hg] at h1; simp at h1
      | ok o =>
        rw [hg] at h1
        rw [← getTarget_ok ht hg]
        cases o with
        | none =>
          simp only [Except.ok.injEq] at h1
          subst h1
          simp only [exec, andThen]
          exact pulse_plan hp h0 hpost hch hpo hbase r hw.2.2 hsub' ht h2
        | some b =>
          simp only at h1 ⊢
          obtain ⟨h3, h4⟩ := pulseItem_plan (source := source) hp h0 hpost (hch n) (hpo n) hy hw.2.1
            (fun c base e hr hb => hbase n c base (by rw [hy, e]) hr hb) ht h1
          rw [h3]
          simp only [andThen]
          exact pulse_plan hp h0 hpost hch hpo hbase r hw.2.2 hsub' h4 h2
    · next hv =>
      rw [if_neg hv]
      exact pulse_plan hp h0 hpost hch hpo hbase r hw.2.2 hsub' ht h
termination_by structural c

/-- The time base of an item `n'`. -/
def IsBase (cx : Cfg V) (tm : Meta) (source : Fields V) (n' : Name) (e : Entry V) : Prop :=
  ∃ c b base, Regular n' ∧ source.get? n' = some (.struct c) ∧ step cx tm [n'] n' [] = some b ∧
    timeBase c = some base ∧
    e = ⟨[(n', none)], b ++ [(timeName, none)], .store (some (Series.ofTimes base))⟩

theorem mem_extra {n : Name} {b : Addr} {y : Node V} {e : Entry V} (h : e ∈ extra n b y) :
    ∃ c base, y = .struct c ∧ Regular n ∧ timeBase c = some base ∧
      e = ⟨[(n, none)], b ++ [(timeName, none)], .store (some (Series.ofTimes base))⟩ := by
  cases y with
  | leaf => simp [extra] at h
  | aos => simp [extra] at h
  | struct c =>
    simp only [extra] at h
    split at h
    · next hr =>
      cases hb : timeBase c with
      | none => rw [hb] at h; simp at h
      | some base => rw [hb] at h; exact ⟨c, base, rfl, hr, hb, by simpa using h⟩
    · simp at h

/-- The writes of an item. -/
theorem mem_pulsePlan {tm : Meta} (c : Fields V) {e : Entry V}
    (h : e ∈ pulsePlan line cx x source tm c) (hw : WFFields c) :
    ∃ n y b, n ∈ c.names ∧ c.get? n = some y ∧ WF y ∧ y.hasValue = true ∧
      step cx tm [n] n [] = some b ∧ (e ∈ extra n b y ∨
        e ∈ planItem cx tm [n] n b (mapNode (newValue line cx x source) [(n, none)] y)) := by
  cases c with
  | nil => simp [pulsePlan] at h
  | absent n m r =>
    simp only [pulsePlan] at h
    simp only [WFFields] at hw
    obtain ⟨k, y, b, h1, h2, h3⟩ := mem_pulsePlan r h hw.2.2
    have : k ≠ n := by rintro rfl; exact hw.1 h1
    exact ⟨k, y, b, by simp [Fields.names, h1], by simp [Fields.get?, this, h2], h3⟩
  | present n y r =>
    simp only [pulsePlan, List.mem_append] at h
    simp only [WFFields] at hw
    rcases h with h | h
    · split at h
      · next hv =>
        cases hb : step cx tm [n] n [] with
        | none => rw [hb] at h; simp at h
        | some b =>
          rw [hb] at h
          exact ⟨n, y, b, by simp [Fields.names], by simp [Fields.get?], hw.2.1, hv, hb,
            List.mem_append.1 h⟩
      · simp at h
    · obtain ⟨k, y', b, h1, h2, h3⟩ := mem_pulsePlan r h hw.2.2
      have : k ≠ n := by rintro rfl; exact hw.1 h1
      exact ⟨k, y', b, by simp [Fields.names, h1], by simp [Fields.get?, this, h2], h3⟩
termination_by structural c

/-- The writes split at an item. -/
theorem pulsePlan_split {tm : Meta} (c : Fields V) (hw : WFFields c) {n : Name} {y : Node V} {b : Addr}
    (hc : c.get? n = some y) (hv : y.hasValue = true) (hb : step cx tm [n] n [] = some b) :
    ∃ l1 l2, pulsePlan line cx x source tm c = l1 ++ ((extra n b y ++
        planItem cx tm [n] n b (mapNode (newValue line cx x source) [(n, none)] y)) ++ l2) ∧
      ∀ e ∈ l2, ∃ n' y' b', n' ≠ n ∧ c.get? n' = some y' ∧ WF y' ∧ y'.hasValue = true ∧
        step cx tm [n'] n' [] = some b' ∧ (e ∈ extra n' b' y' ∨
          e ∈ planItem cx tm [n'] n' b' (mapNode (newValue line cx x source) [(n', none)] y')) := by
  cases c with
  | nil => simp [Fields.get?] at hc
  | absent k m r =>
    simp only [WFFields] at hw
    simp only [Fields.get?] at hc
    split at hc
    · simp only [Option.some.injEq] at hc
      subst hc
      rw [fresh_hasValue] at hv; simp at hv
    · next hk =>
      obtain ⟨l1, l2, h1, h2⟩ := pulsePlan_split r hw.2.2 hc hv hb
      refine ⟨l1, l2, by simp only [pulsePlan]; exact h1, ?_⟩
      intro e he
      obtain ⟨n', y', b', h3, h4, h5⟩ := h2 e he
      have : n' ≠ k := by rintro rfl; exact hw.1 (Fields.mem_names_of_get h4)
      exact ⟨n', y', b', h3, by simp [Fields.get?, this, h4], h5⟩
  | present k z r =>
    simp only [WFFields] at hw
    simp only [Fields.get?] at hc
    split at hc
    · next hk =>
      simp only [Option.some.injEq] at hc
      subst hc
      subst hk
      refine ⟨[], pulsePlan line cx x source tm r, ?_, ?_⟩
      · simp only [pulsePlan, hv, if_true, hb, List.nil_append]
      · intro e he
        obtain ⟨n', y', b', h1, h2, h3⟩ := mem_pulsePlan r he hw.2.2
        have : n' ≠ n := by rintro rfl; exact hw.1 h1
        exact ⟨n', y', b', this, by simp [Fields.get?, this, h2], h3⟩
    · next hk =>
      obtain ⟨l1, l2, h1, h2⟩ := pulsePlan_split r hw.2.2 hc hv hb
      refine ⟨_ ++ l1, l2, by simp only [pulsePlan]; rw [h1, ← List.append_assoc], ?_⟩
      intro e he
      obtain ⟨n', y', b', h3, h4, h5⟩ := h2 e he
      have : n' ≠ k := by rintro rfl; exact hw.1 (Fields.mem_names_of_get h4)
      exact ⟨n', y', b', h3, by simp [Fields.get?, this, h4], h5⟩
termination_by structural c

end

end Verif.Pulse
