import Verif.Lemmas.Validate
import Verif.Lemmas.GotoPath
/-! C18, C19: validation. -/
set_option linter.unusedSectionVars false
namespace Verif.Props
open Verif.Ids
open Verif.Path (Parsed)
open Verif.Coord (Coordinate)
open Verif.ValidateSpec Verif.TreeSpec

variable {V : Type} [ShapedValue V]

theorem checkDynamic_error {x : Ctx V} {a : Addr} {y : Node V} {m : Int} (hm : Mode x m)
    {e : ValErr} (h : x.checkDynamic a y = .error e) :
    e = .invalid a none .dynamic ∧ m = 2 ∧ y.hasValue = true ∧ (x.md a).dynamic = true := by
  unfold Ctx.checkDynamic at h
  rw [timeMode_iff.mpr hm] at h
  simp only at h
  split at h
  · next hh =>
    simp only [Bool.and_eq_true] at hh
    split at h
    · next e2 => simp at h; exact ⟨h.symm, e2, hh.2, hh.1⟩
    · simp at h
  · simp at h

theorem validate_local {x : Ctx V} (hw : WF x.root) {m : Int} (hm : Mode x m)
    {c : Fields V} (hc : x.root = .struct c) :
    (x.checkFields [] c = .ok () ↔
      (m = 2 → ∀ a y, a ≠ [] → x.root.at a = some y → y.hasValue = true → (x.md a).dynamic = false) ∧
      ∀ a y, a ≠ [] → x.root.at a = some y → Filled y → CoordsFit x a y) := by
  rw [hc] at hw
  simp only [WF] at hw
  have hfit0 : ∀ a (y : Node V), ¬ dims y > 0 → CoordsFit x a y := by
    intro a y h s hs dim hd; omega
  constructor
  · intro h
    have hok := okFields x [] c h
    rw [← hc] at hok
    refine ⟨?_, ?_⟩
    · intro h2 a y ha hy hv
      have := hok a y ha hy hv
      have hd : x.checkDynamic a y = .ok () := by
        unfold Ctx.local at this
        rw [List.nil_append] at this
        cases hd : x.checkDynamic a y with
        | error e => rw [hd] at this; simp at this
        | ok u => rfl
      exact (checkDynamic_ok hm).mp hd h2 hv
    · intro a y ha hy hf
      have := hok a y ha hy (filled_hasValue hf)
      rw [List.nil_append, local_filled hf] at this
      obtain ⟨s, hs⟩ := filled_shape hf
      cases hd : x.checkDynamic a y with
      | error e => rw [hd] at this; simp at this
      | ok u =>
        rw [hd] at this
        simp only at this
        split at this
        · exact (checkCoords_ok hs).mp this
        · next h0 => exact hfit0 a y h0
  · rintro ⟨h1, h2⟩
    cases h : x.checkFields [] c with
    | ok u => rfl
    | error e =>
      obtain ⟨b, z, hb, hz, hv, hl⟩ := errFields x [] c hw h
      rw [← hc] at hz
      rw [List.nil_append] at hl
      have hd : x.checkDynamic b z = .ok () :=
        (checkDynamic_ok hm).mpr fun e2 hv => h1 e2 b z hb hz hv
      by_cases hf : Filled z
      · obtain ⟨s, hs⟩ := filled_shape hf
        rw [local_filled hf, hd] at hl
        simp only at hl
        split at hl
        · rw [(checkCoords_ok hs).mpr (h2 b z hb hz hf)] at hl; simp at hl
        · simp at hl
      · rw [local_unfilled hf, hd] at hl; simp at hl

/-- **C18, C19.** `validate()` returns normally exactly for valid IDSs: a valid time mode,
nothing time dependent filled in time independent mode, and every dimension of every filled
node as its coordinate prescribes. -/
theorem C18_validate_iff_valid (x : Ctx V) (hw : WF x.root) :
    x.validate = .ok () ↔ Valid x := by
  unfold Ctx.validate
  cases hm : x.timeMode with
  | none =>
    simp only [reduceCtorEq, false_iff]
    rintro ⟨⟨m, h, -⟩, -⟩
    rw [timeMode_iff.mpr h] at hm; simp at hm
  | some m =>
    have hmode := timeMode_iff.mp hm
    simp only
    by_cases hr : m = 0 ∨ m = 1 ∨ m = 2
    · rw [if_pos hr]
      by_cases hs : (x.dict.constant && decide (m ≠ 2)) = true
      · rw [if_pos hs]
        simp only [reduceCtorEq, false_iff]
        intro hv
        simp only [Bool.and_eq_true, decide_eq_true_eq] at hs
        exact hs.2 (mode_unique hmode (hv.static hs.1))
      · rw [if_neg hs]
        have hstat : x.dict.constant = true → Mode x 2 := by
          intro hc
          simp only [hc, Bool.true_and, decide_eq_true_eq] at hs
          exact (Decidable.not_not.mp hs) ▸ hmode
        cases hroot : x.root with
        | leaf l v =>
          simp only [reduceCtorEq, false_iff]
          intro hv; obtain ⟨c, h⟩ := hv.isStruct; rw [hroot] at h; simp at h
        | aos l v =>
          simp only [reduceCtorEq, false_iff]
          intro hv; obtain ⟨c, h⟩ := hv.isStruct; rw [hroot] at h; simp at h
        | struct c =>
          simp only
          rw [validate_local hw hmode hroot]
          constructor
          · rintro ⟨h1, h2⟩
            exact ⟨⟨m, hmode, hr⟩, hstat, ⟨c, hroot⟩, fun h => h1 (mode_unique hmode h), h2⟩
          · intro hv
            exact ⟨fun e => hv.dynamic (e ▸ hmode), hv.coords⟩
    · rw [if_neg hr]
      simp only [reduceCtorEq, false_iff]
      rintro ⟨⟨m', h, h'⟩, -⟩
      rw [mode_unique hmode h] at hr; exact hr h'

theorem range_size {x : Ctx V} {a : Addr} {dim k : Nat} (h : Lookup x a dim (.range k))
    {y : Node V} {s : List Nat} {n : Nat} (hy : x.root.at a = some y) (hs : Shape y s)
    (hn : s[dim]? = some n) : n = k := by
  cases h with
  | index hc hr hy' hs' hn' =>
    rw [hy] at hy'; simp at hy'; subst hy'
    have := shape_unique hs hs'; subst this
    rw [hn] at hn'; simpa using hn'
  | noneOf hc hr hu hcs h0 hsize hy' hs' hn' =>
    rw [hy] at hy'; simp at hy'; subst hy'
    have := shape_unique hs hs'; subst this
    rw [hn] at hn'; simpa using hn'

theorem inElements_length {x : Ctx V} {a : Addr} {p : Parsed} {i n : Nat}
    {vs : List (LeafMeta × Option V)} (h : InElements x a p i n vs) : vs.length = n := by
  induction h with
  | nil => rfl
  | cons _ _ _ ih => simp [ih]

theorem values_size {x : Ctx V} {a : Addr} {dim : Nat} {vs : List (LeafMeta × Option V)}
    (h : Lookup x a dim (.values vs))
    {y : Node V} {s : List Nat} {n : Nat} (hy : x.root.at a = some y) (hs : Shape y s)
    (hn : s[dim]? = some n) : n = vs.length := by
  cases h with
  | inside hc hr hu hi he hv hs' =>
    rw [hy] at he; simp at he; subst he
    cases hs
    rw [inElements_length hv]
    cases dim with
    | zero => simp at hn; exact hn.symm
    | succ d => simp at hn

theorem checkDim_error {x : Ctx V} {a : Addr} {y : Node V} {sh : List Nat} {dim n : Nat}
    {c : Coordinate} (hy : x.root.at a = some y) (hf : Filled y) (hs : Shape y sh)
    (hn : sh[dim]? = some n) (hc : (x.md a).coords[dim]? = some c) {e : ValErr}
    (h : x.checkDim a dim n c = .error e) :
    (∃ r, e = .invalid a (some dim) r ∧ Violates x a (some dim) r) ∨
    (e = .crash a (some dim) ∧ Defect x) := by
  unfold Ctx.checkDim at h
  by_cases hv : c.hasValidation = true
  · simp only [hv, Bool.not_true, Bool.false_eq_true, if_false] at h
    have refs : (NoSize c ∨ c.hasAlternatives = true) → (∀ s, c.size = some s → s ≠ 0 → (n : Int) ≠ s) →
        x.checkReferences a dim n c = .error e →
        (∃ r, e = .invalid a (some dim) r ∧ Violates x a (some dim) r) ∨
        (e = .crash a (some dim) ∧ Defect x) := by
      intro hsz hne h
      unfold Ctx.checkReferences at h
      split at h
      · next hr => simp at h; exact .inr ⟨h.symm, .zeroSize hy hf hc hv hr hsz⟩
      · next hr =>
        cases hco : x.coordinate a dim with
        | error err =>
          rw [hco] at h
          cases err with
          | lookup =>
            simp at h
            exact .inl ⟨.lookup, h.symm, .lookup hy hf hc hv ((C20_ambiguous x a dim).mp hco)⟩
          | index => simp at h; exact .inl ⟨.index, h.symm, .index hy hf hc hv hco⟩
          | other => simp at h
        | ok r =>
          rw [hco] at h
          have hl := coordinate_iff.mp hco
          cases r with
          | range k =>
            simp only [Ctx.compareSize] at h
            cases hfx : Coordinate.fixed c with
            | some s =>
              rw [hfx] at h
              simp at h
              obtain ⟨h1, h2⟩ := fixed_some.mp hfx
              exact .inl ⟨_, h.symm, .size hy hf hs hn hc hv h1 h2 (hne s h1 h2)
                (.inr ⟨_, hl, by simp⟩)⟩
            | none =>
              rw [hfx] at h
              simp [range_size hl hy hs hn] at h
          | values vs =>
            simp only [Ctx.compareSize] at h
            cases hfx : Coordinate.fixed c with
            | some s =>
              rw [hfx] at h
              simp at h
              obtain ⟨h1, h2⟩ := fixed_some.mp hfx
              exact .inl ⟨_, h.symm, .size hy hf hs hn hc hv h1 h2 (hne s h1 h2)
                (.inr ⟨_, hl, by simp⟩)⟩
            | none =>
              rw [hfx] at h
              simp only at h
              split at h
              · next hany =>
                simp at h
                obtain ⟨v, hv1, hv2⟩ := List.any_eq_true.mp hany
                exact .inl ⟨_, h.symm, .emptyTime hy hf hc hv hl hv1 (emptyTime_iff.mp hv2)⟩
              · rw [if_pos (values_size hl hy hs hn)] at h
                simp at h
          | node b =>
            simp only [Ctx.compareSize] at h
            cases hb : (x.root.at b).bind shapeOf with
            | none => rw [hb] at h; simp at h
            | some s =>
              rw [hb] at h
              obtain ⟨z, hz, hzs⟩ := bind_shape_some.mp hb
              cases s with
              | nil => simp at h; exact .inl ⟨_, h.symm, .scalar hy hf hc hv hl hz hzs⟩
              | cons k t =>
                simp only at h
                split at h
                · simp at h
                · next hk => simp at h; exact .inl ⟨_, h.symm, .mismatch hy hf hs hn hc hv hl hz hzs hk⟩
    cases hfx : Coordinate.fixed c with
    | none =>
      rw [hfx] at h
      have hns := fixed_none.mp hfx
      refine refs (.inl hns) ?_ h
      intro s h1 h2
      rw [fixed_some.mpr ⟨h1, h2⟩] at hfx; simp at hfx
    | some s =>
      rw [hfx] at h
      obtain ⟨h1, h2⟩ := fixed_some.mp hfx
      simp only at h
      split at h
      · simp at h
      · next hne =>
        split at h
        · next hA =>
          simp at h
          exact .inl ⟨_, h.symm, .size hy hf hs hn hc hv h1 h2 hne (.inl (by simpa using hA))⟩
        · next hA =>
          refine refs (.inr (by simpa using hA)) ?_ h
          intro s' h1' _
          rw [h1] at h1'; simp at h1'; subst h1'; exact hne
  · simp [hv] at h

theorem checkSameAs_error {x : Ctx V} {a : Addr} {y : Node V} {sh : List Nat} {dim n : Nat}
    {c : Coordinate} (hy : x.root.at a = some y) (hf : Filled y) (hs : Shape y sh)
    (hn : sh[dim]? = some n) (hc : (x.md a).sameAs[dim]? = some c) {e : ValErr}
    (h : x.checkSameAs a dim n c = .error e) :
    (∃ r, e = .invalid a (some dim) r ∧ Violates x a (some dim) r) ∨
    (e = .crash a (some dim) ∧ Defect x) := by
  unfold Ctx.checkSameAs at h
  by_cases hv : c.hasValidation = true
  · simp only [hv, Bool.not_true, Bool.false_eq_true, if_false] at h
    split at h
    · next p hp =>
      cases hl : x.locate a p with
      | error err =>
        rw [hl] at h
        cases err with
        | lookup => exact absurd hl locate_ne_lookup
        | index =>
          simp at h
          obtain ⟨e', h1, h2⟩ := locate_error.mp hl
          rw [navErr_index] at h2; subst h2
          exact .inl ⟨_, h.symm, .sameAsIndex hy hf hc hv hp h1⟩
        | other => simp at h
      | ok b =>
        rw [hl] at h
        simp only at h
        cases hd : ((x.root.at b).bind shapeOf).bind (·[dim]?) with
        | none =>
          rw [hd] at h
          simp at h
          refine .inr ⟨h.symm, .noDimension hy hf hc hv hp (locate_ok.mp hl) ?_⟩
          intro z s hz hzs
          cases hk : s[dim]? with
          | none => rfl
          | some k => rw [bind_dim.mpr ⟨z, s, hz, hzs, hk⟩] at hd; simp at hd
        | some k =>
          rw [hd] at h
          obtain ⟨z, s, hz, hzs, hk⟩ := bind_dim.mp hd
          simp only at h
          split at h
          · simp at h
          · next hne =>
            simp at h
            exact .inl ⟨_, h.symm, .sameAs hy hf hs hn hc hv hp (locate_ok.mp hl) hz hzs hk hne⟩
    · next hp => simp at h; exact .inr ⟨h.symm, .notOnePath hy hf hc hv fun p hp' => hp p hp'⟩
  · simp [hv] at h

theorem checkCoords_error {x : Ctx V} {a : Addr} {y : Node V}
    (hy : x.root.at a = some y) (hf : Filled y) {e : ValErr}
    (h : x.checkCoords a (dims y) y = .error e) :
    (∃ dim r, e = .invalid a (some dim) r ∧ Violates x a (some dim) r) ∨
    ((∃ dim, e = .crash a (some dim)) ∧ Defect x) := by
  obtain ⟨s, hs⟩ := filled_shape hf
  unfold Ctx.checkCoords at h
  rw [shapeOf_iff.mpr hs] at h
  simp only at h
  cases h1 : overDims (x.checkDim a) a s (x.md a).coords 0 (dims y) with
  | error e' =>
    rw [h1] at h; simp at h; subst h
    obtain ⟨i, -, hi, ⟨n, c, hn, hc, hk⟩ | ⟨hno, he⟩⟩ := overDims_error h1
    · rcases checkDim_error hy hf hs hn hc hk with ⟨r, h, h'⟩ | ⟨h, h'⟩
      · exact .inl ⟨i, r, h, h'⟩
      · exact .inr ⟨⟨i, h⟩, h'⟩
    · refine .inr ⟨⟨i, he⟩, .rank hy hf hs ?_⟩
      rcases hno with h | h
      · have := List.getElem?_eq_none_iff.mp h; left; omega
      · have := List.getElem?_eq_none_iff.mp h; right; left; omega
  | ok u =>
    rw [h1] at h
    obtain ⟨i, -, hi, ⟨n, c, hn, hc, hk⟩ | ⟨hno, he⟩⟩ := overDims_error h
    · rcases checkSameAs_error hy hf hs hn hc hk with ⟨r, h, h'⟩ | ⟨h, h'⟩
      · exact .inl ⟨i, r, h, h'⟩
      · exact .inr ⟨⟨i, h⟩, h'⟩
    · refine .inr ⟨⟨i, he⟩, .rank hy hf hs ?_⟩
      rcases hno with h | h
      · have := List.getElem?_eq_none_iff.mp h; left; omega
      · have := List.getElem?_eq_none_iff.mp h; right; right; omega

/-- **C19.** A `ValidationError` reports a filled node and a rule which that node violates.
Any other exception is due to a defect of the Data Dictionary or of the stored shapes. -/
theorem C19_errors_are_violations (x : Ctx V) (hw : WF x.root) (e : ValErr)
    (h : x.validate = .error e) :
    Explained x e := by
  unfold Ctx.validate at h
  cases hm : x.timeMode with
  | none =>
    rw [hm] at h; simp at h; subst h
    exact .noMode fun m hm' => by rw [timeMode_iff.mpr hm'] at hm; simp at hm
  | some m =>
    have hmode := timeMode_iff.mp hm
    rw [hm] at h
    simp only at h
    split at h
    · next hr =>
      split at h
      · next hs =>
        simp at h; subst h
        simp only [Bool.and_eq_true, decide_eq_true_eq] at hs
        exact .static hs.1 hmode hs.2
      · cases hroot : x.root with
        | leaf l v =>
          rw [hroot] at h; simp at h; subst h
          exact .noStruct fun c h => by rw [hroot] at h; simp at h
        | aos l v =>
          rw [hroot] at h; simp at h; subst h
          exact .noStruct fun c h => by rw [hroot] at h; simp at h
        | struct c =>
          rw [hroot] at h
          simp only at h
          have hw' := hw
          rw [hroot] at hw'
          simp only [WF] at hw'
          obtain ⟨b, z, hb, hz, hv, hl⟩ := errFields x [] c hw' h
          rw [← hroot] at hz
          rw [List.nil_append] at hl
          have hdyn : ∀ e', x.checkDynamic b z = .error e' → e' = e →
              Explained x e := by
            intro e' hd he
            obtain ⟨h1, h2, h3, h4⟩ := checkDynamic_error hmode hd
            rw [← he, h1]
            exact .dynamic hz h3 h4 (h2 ▸ hmode)
          by_cases hf : Filled z
          · rw [local_filled hf] at hl
            cases hd : x.checkDynamic b z with
            | error e' => rw [hd] at hl; simp at hl; exact hdyn e' hd hl
            | ok u =>
              rw [hd] at hl
              simp only at hl
              split at hl
              · rcases checkCoords_error hz hf hl with ⟨dim, r, rfl, hv⟩ | ⟨⟨dim, rfl⟩, hv⟩
                · exact hv
                · exact hv
              · simp at hl
          · rw [local_unfilled hf] at hl
            exact hdyn e hl rfl
    · next hr =>
      simp at h; subst h
      exact .timeMode hmode (by omega)

/-- **C18.** In a valid homogeneous IDS, every filled node with a time dimension has exactly
as many entries in that dimension as the root `time` (which is therefore filled). -/
theorem C18_homogeneous_time (x : Ctx V) (hw : WF x.root) (h : x.validate = .ok ())
    (stack : Nat) (hstack : x.stack = stack + 1)
    (hm : Mode x 1) (l : LeafMeta) (v : Option V) (hl : l.ndim ≠ 0)
    (ht : x.root.at [("time".toList, none)] = some (.leaf l v))
    (halt : (x.dict.node ["time".toList]).alternatives = [])
    (a : Addr) (ha : a ≠ []) (y : Node V) (hy : x.root.at a = some y) (hf : Filled y)
    (dim n : Nat) (s : List Nat) (hs : Shape y s) (hn : s[dim]? = some n) (hdim : dim < dims y)
    (c : Coordinate) (hc : (x.md a).coords[dim]? = some c) (hcv : c.hasValidation = true)
    (htime : c.isTime = true) (href : c.references ≠ []) (hsize : c.size = none) :
    ∃ t, Shape (.leaf l v : Node V) (n :: t) := by
  have hv := (C18_validate_iff_valid x hw).mp h
  obtain ⟨n', c', d, hn', hc', -, hfit, -⟩ := hv.coords a y ha hy hf s hs dim hdim
  rw [hn] at hn'; simp at hn'; subst hn'
  rw [hc] at hc'; simp at hc'; subst hc'
  have hu : Uses x c ⟨["time".toList], [none]⟩ := .inl ⟨htime, hm, rfl⟩
  have hin : ¬ Inside x a ⟨["time".toList], [none]⟩ := by
    rintro ⟨-, m, ms, e⟩
    have := congrArg List.length e
    cases a with
    | nil => exact ha rfl
    | cons q a => simp at this
  have hleads : Leads x a ⟨["time".toList], [none]⟩ [("time".toList, none)] ∨
      ∃ i b, a = ("time".toList, some i) :: b := by
    have hwalk : GotoSpec.Walk x.root [] [("time".toList, none)] [("time".toList, none)] :=
      .cons (.attr (a := []) (x := .leaf l v) (by simpa using ht)) .nil
    cases a with
    | nil => exact absurd rfl ha
    | cons q a =>
      obtain ⟨q, k⟩ := q
      by_cases e : q = "time".toList
      · subst e
        cases k with
        | some i => exact .inr ⟨i, a, rfl⟩
        | none =>
          refine .inl ?_
          unfold Leads
          rw [hstack]
          have := (goto_int_iff (asInt := x.asInt) (n := stack) (root := x.root)
            (start := ("time".toList, none) :: a) (items := [("time".toList, none)])
            (b := [("time".toList, none)]) (k := 1) (by simp [GotoSpec.common])).mpr
            (by simpa using .nil)
          simpa [intItems] using this
      · refine .inl ?_
        unfold Leads
        rw [hstack]
        have := (goto_int_iff (asInt := x.asInt) (n := stack) (root := x.root)
          (start := (q, k) :: a) (items := [("time".toList, none)])
          (b := [("time".toList, none)]) (k := 0) (by simp only [List.map_cons, List.map_nil, GotoSpec.common, if_neg e])).mpr
          (by simpa using hwalk)
        simpa [intItems] using this
  rcases hleads with hleads | ⟨i, b, rfl⟩
  · have hl' : Lookup x a dim (.node [("time".toList, none)]) :=
      .plain hc href hu hin hleads (by simpa [Ctx.md] using halt)
    rcases hfit hcv with ⟨z, hz, -⟩ | ⟨-, -, hco | ⟨r, hr, hag⟩⟩
    · rw [hsize] at hz; simp at hz
    · rw [coordinate_iff.mpr hl'] at hco; simp at hco
    · have := (coordinate_iff.mpr hl').symm.trans (coordinate_iff.mpr hr)
      have := (Except.ok.inj this).symm; subst this
      cases hag with
      | node hz hzs => rw [ht] at hz; simp at hz; subst hz; exact ⟨_, hzs⟩
      | noShape hno =>
        cases v with
        | none => exact absurd (Shape.unset hl) (hno _ _ ht)
        | some v => exact absurd (Shape.array hl) (hno _ _ ht)
  · simp only [Node.at] at hy ht
    cases hroot : x.root with
    | struct f =>
      rw [hroot] at hy ht
      simp only [Node.item] at hy ht
      cases hg : f.get? "time".toList with
      | none => rw [hg] at ht; simp at ht
      | some w =>
        rw [hg] at ht hy
        simp at ht; subst ht
        simp at hy
    | leaf _ _ => rw [hroot] at ht; simp [Node.item] at ht
    | aos _ _ => rw [hroot] at ht; simp [Node.item] at ht

/-! ### Concrete cases -/

/-- Arrays of integers, 0D values as arrays of length one. -/
structure SampleV where
  data : List Int

instance : ShapedValue SampleV where
  isEmpty v := v.data.isEmpty
  emptyArray _ := ⟨[]⟩
  isEmpty_emptyArray _ := rfl
  shape v := [v.data.length]
  strLen _ := 0
  hasEmptyFloat _ := false
  isEmpty_iff v := by cases v with | mk d => cases d <;> simp

/-- `time` of length two, `q` with coordinate `time` of length `n`. -/
def sampleValidateIds (mode : Int) (q : List Int) : Node SampleV :=
  .struct (.present "ids_properties".toList
      (.struct (.present "homogeneous_time".toList (.leaf ⟨.int, 0, false⟩ (some ⟨[mode]⟩)) .nil))
    (.present "time".toList (.leaf ⟨.flt, 1, true⟩ (some ⟨[1, 2]⟩))
      (.present "q".toList (.leaf ⟨.flt, 1, true⟩ (some ⟨q⟩)) .nil)))

def noCoordinate : Coordinate := ⟨none, [], false, false, false⟩

def sampleCtx (mode : Int) (q : List Int) : Ctx SampleV where
  asInt v := v.data.head?
  stack := 5
  root := sampleValidateIds mode q
  dict := { constant := false
            node := fun p =>
              if p = ["q".toList] then
                ⟨[⟨none, [timePath], true, false, true⟩], [noCoordinate], [], true⟩
              else ⟨[noCoordinate], [noCoordinate], [], false⟩ }

example : WF (sampleCtx 1 [3, 4]).root := by
  simp [sampleCtx, sampleValidateIds, WF, WFFields, Fields.names]
example : (sampleCtx 1 [3, 4]).validate = .ok () := by with_unfolding_all rfl
example : (sampleCtx 1 [3, 4, 5]).validate =
    .error (.invalid [("q".toList, none)] (some 0) .mismatch) := by with_unfolding_all rfl
example : (sampleCtx 2 [3, 4]).validate =
    .error (.invalid [("q".toList, none)] none .dynamic) := by with_unfolding_all rfl
example : (sampleCtx 7 [3, 4]).validate = .error (.invalid [] none .timeMode) := by
  with_unfolding_all rfl
example : (sampleCtx 1 [3, 4]).coordinate [("q".toList, none)] 0 =
    .ok (.node [("time".toList, none)]) := by with_unfolding_all rfl

end Verif.Props
