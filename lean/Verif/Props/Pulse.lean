import Verif.Lemmas.PulseValue
import Verif.Lemmas.ConvertSent
set_option linter.unusedSectionVars false
/-
C27: pulse schedules are converted to common time bases.
-/
namespace Verif.Props
open Verif.Ids Verif.TreeSpec Verif.DiffSpec Verif.Convert Verif.ConvertSpec Verif.Pulse Verif.PulseSpec
open Verif.ValidateSpec (Lookup)

section
variable {V Y : Type} [Series V Y]

/-- **C27, time base.** After a successful conversion, the `time` of the item holds the common time
base: all times of the parts of the item, in increasing order and without duplicates. -/
theorem C27_base (line : Rat → Y → Rat → Y → Rat → Y) (cx : Cfg V) (asInt : V → Option Int)
    (stack : Nat) (d : Dict) (tm : Meta) (source : Fields V) (target target' : Node V)
    (hm : PulseMap cx d) (hw : WFFields source) (hbase : HasBase d source) (ht : Typed target tm)
    (h : pulse3to4 line cx asInt stack d source target = .ok target')
    (n : Name) (c : Fields V) (b : Addr) (hn : Regular n) (hc : source.get? n = some (.struct c))
    (hv : (Node.struct c).hasValue = true) (hb : step cx tm [n] n [] = some b)
    (hr : Reserved cx tm source n (b ++ [("time".toList, none)])) :
    ∃ base l w, Base c base ∧ metaAt tm (names b ++ ["time".toList]) = some (.leaf l) ∧
      cx.store l (Series.ofTimes base) = .ok w ∧
      target'.at (b ++ [("time".toList, none)]) = some (.leaf l w) := by
  obtain ⟨base, l, w, h1, h2, h3, h4⟩ := pulse_base (x := ⟨asInt, stack, d, .struct source⟩) hm hw hbase ht h
    hn hc hv hb hr
  exact ⟨base, l, w, timeBase_spec (by simpa [WF] using wf_get hw hc) h1,
    by rw [names_snoc] at h2; exact h2, h3, h4⟩

/-- **C27, samples.** After a successful conversion, data that depend on time have as many samples as
their time coordinate, and their target holds these samples resampled to the common time base of
the item. -/
theorem C27_samples (line : Rat → Y → Rat → Y → Rat → Y) (cx : Cfg V) (asInt : V → Option Int)
    (stack : Nat) (d : Dict) (tm : Meta) (source : Fields V) (target target' : Node V)
    (hm : PulseMap cx d) (hw : WFFields source) (hbase : HasBase d source) (ht : Typed target tm)
    (h : pulse3to4 line cx asInt stack d source target = .ok target')
    (n : Name) (c : Fields V) (A B : Addr) (l : LeafMeta) (v : V) (hn : Regular n)
    (hc : source.get? n = some (.struct c))
    (hA : (Node.struct c).at A = some (.leaf l (some v))) (hv : Value.isEmpty v = false)
    (h1 : l.ndim = 1) (htd : TimeDependent d (n :: names A))
    (hs : Sent cx tm [] [] source ((n, none) :: A) B) (hch : cx.change (n :: names A) = none)
    (ha : Alone cx tm source ((n, none) :: A) B) (hp : NoPostAbove cx ((n, none) :: A))
    (hb : BasesElsewhere cx tm source n B) :
    ∃ base b lt tv ts ys ws l' w, Base c base ∧
      Lookup ⟨asInt, stack, d, .struct source⟩ ((n, none) :: A) 0 (.node b) ∧
      (Node.struct source).at b = some (.leaf lt (some tv)) ∧ Series.times tv = some ts ∧
      Series.samples v = some ys ∧ ys.length = ts.length ∧
      (Sorted ts → Resampled line (kindOf l) ts ys base ws) ∧
      metaAt tm (names B) = some (.leaf l') ∧ cx.store l' (Series.ofSamples ws) = .ok w ∧
      target'.at B = some (.leaf l' w) := by
  obtain ⟨base, ws, h2, h3, h4⟩ := pulse_resampled (x := ⟨asInt, stack, d, .struct source⟩) hm hw hbase ht
    h hn hc hA hv hs hch h1 htd
  have hA' : (Node.struct source).at ((n, none) :: A) = some (.leaf l (some v)) := by
    simpa [Node.at, Node.item, hc] using hA
  obtain ⟨l', w, h5, h6, z, h7, h8⟩ := pulse_value (x := ⟨asInt, stack, d, .struct source⟩) hm hw hbase ht
    h hA' hv hs hch ha hp hb
  rw [h4] at h6
  have hpost := hm.post _ htd
  rw [hpost] at h8
  simp only at h8
  subst h8
  unfold resampled at h3
  cases hcd : Ctx.coordinate ⟨asInt, stack, d, .struct source⟩ ((n, none) :: A) 0 with
  | error e => rw [hcd] at h3; simp at h3
  | ok r =>
    rw [hcd] at h3
    simp only at h3
    have hl := (C20_lookup _ _ _ _).1 hcd
    cases r with
    | range k => simp [timesOf] at h3
    | values vs => simp [timesOf] at h3
    | node b =>
      simp only [timesOf] at h3
      cases hat : (Node.struct source).at b with
      | none => rw [hat] at h3; simp at h3
      | some y =>
        rw [hat] at h3
        cases y with
        | struct => simp at h3
        | aos => simp at h3
        | leaf lt tv =>
          cases tv with
          | none => simp at h3
          | some tv =>
            simp only at h3
            cases hts : Series.times tv with
            | none => rw [hts] at h3; simp at h3
            | some ts =>
              cases hys : Series.samples v with
              | none => rw [hts, hys] at h3; simp at h3
              | some ys =>
                rw [hts, hys] at h3
                simp only at h3
                split at h3
                · next hlen =>
                  refine ⟨base, b, lt, tv, ts, ys, ws, l', w, timeBase_spec
                    (by simpa [WF] using wf_get hw hc) h2, hl, hat, hts, rfl, hlen, ?_, h5, h6, h7⟩
                  intro hsort
                  obtain ⟨h9, h10⟩ := resample_spec h3
                  refine ⟨h9, fun j t y hj hy => ?_⟩
                  obtain ⟨y', h11, h12⟩ := h10 j t hj
                  rw [hy] at h11
                  cases h11
                  exact evaluate_sample hsort hlen h12
                · simp at h3

/-- **C27, original samples.** Every sample of data with strictly increasing times keeps its value at
its own time, if these times are those of a node named `time` in the same item. -/
theorem C27_kept (line : Rat → Y → Rat → Y → Rat → Y) (k : Kind) (c : Fields V) (base : List Rat)
    (hb : Base c base) (ts : List Rat) (hts : Increasing ts) (a : Addr) (tv : V)
    (ha : ValueAt (.struct c) (a ++ [("time".toList, none)]) tv) (htv : Series.times tv = some ts)
    (ys : List Y) (hl : ys.length = ts.length) (ws : List Y) (hr : Resampled line k ts ys base ws)
    (j : Nat) (t : Rat) (y : Y) (ht : ts[j]? = some t) (hy : ys[j]? = some y) :
    ∃ i : Nat, base[i]? = some t ∧ ws[i]? = some y ∧
      ∀ i' : Nat, base[i']? = some t → i' = i := by
  have h1 : t ∈ base := (hb.2 t).2 ⟨a, _, tv, ts, ha, rfl, htv, List.mem_of_getElem? ht⟩
  obtain ⟨i, hi, e⟩ := List.mem_iff_getElem.1 h1
  have h2 : base[i]? = some t := by rw [List.getElem?_eq_getElem hi, e]
  have h3 : i < ws.length := by rw [hr.1]; exact hi
  have h4 := hr.2 i t ws[i] h2 (List.getElem?_eq_getElem h3)
  have h5 := sample_own hts h4 ht
  rw [hy] at h5
  cases h5
  refine ⟨i, h2, List.getElem?_eq_getElem h3, fun i' h6 => ?_⟩
  obtain ⟨hi', e'⟩ := List.getElem?_eq_some_iff.1 h6
  have h7 := List.pairwise_iff_getElem.1 hb.1
  rcases Nat.lt_trichotomy i i' with h8 | h8 | h8
  · have := h7 i i' hi hi' h8; rw [e, e'] at this; grind
  · exact h8.symm
  · have := h7 i' i hi' hi h8; rw [e, e'] at this; grind

/-- **C27, other samples.** The values at other times than those of the data: the first sample before
all times and the last one after all times; in between, data are interpolated between the
neighbouring samples and integers keep the sample before. -/
theorem C27_others (line : Rat → Y → Rat → Y → Rat → Y) (k : Kind) (ts base : List Rat)
    (ys ws : List Y) (hl : ys.length = ts.length) (hts : Sorted ts) (hr : Resampled line k ts ys base ws)
    (i : Nat) (t : Rat) (y : Y) (ht : base[i]? = some t) (hy : ws[i]? = some y) (hnot : t ∉ ts) :
    ((∀ u ∈ ts, t < u) ∧ ys.head? = some y) ∨
    ((∀ u ∈ ts, u < t) ∧ ys.getLast? = some y) ∨
    (∃ (j : Nat) (t0 t1 : Rat) (y0 y1 : Y), ts[j]? = some t0 ∧ ts[j + 1]? = some t1 ∧ ys[j]? = some y0 ∧
      ys[j + 1]? = some y1 ∧ t0 < t ∧ t < t1 ∧
      (∀ u ∈ ts, u ≤ t0 ∨ t1 ≤ u) ∧
      y = match k with
        | .linear => line t0 y0 t1 y1 t
        | .previous => y0) := by
  have near : ∀ {j : Nat} {t0 t1 : Rat}, ts[j]? = some t0 → ts[j + 1]? = some t1 →
      ∀ u ∈ ts, u ≤ t0 ∨ t1 ≤ u := by
    intro j t0 t1 h0 h1 u hu
    obtain ⟨m, hm, e⟩ := List.mem_iff_getElem.1 hu
    obtain ⟨h2, e0⟩ := List.getElem?_eq_some_iff.1 h0
    obtain ⟨h3, e1⟩ := List.getElem?_eq_some_iff.1 h1
    have hp := List.pairwise_iff_getElem.1 hts
    rcases Nat.lt_trichotomy m j with h | h | h
    · left; rw [← e, ← e0]; exact hp m j hm h2 h
    · left; subst h; rw [← e, ← e0]; exact Rat.le_refl
    · right
      rcases Nat.lt_or_eq_of_le (show j + 1 ≤ m from h) with h | h
      · rw [← e, ← e1]; exact hp _ _ h3 hm h
      · subst h; rw [← e, ← e1]; exact Rat.le_refl
  cases hr.2 i t y ht hy with
  | kept j h => exact absurd (List.mem_of_getElem? h) hnot
  | before h hy => exact .inl ⟨h, hy⟩
  | after h hy => exact .inr (.inl ⟨h, hy⟩)
  | line hk j t0 t1 y0 y1 h0 h1 hy0 hy1 hlt hgt hy =>
    subst hk
    exact .inr (.inr ⟨j, t0, t1, y0, y1, h0, h1, hy0, hy1, hlt, hgt, near h0 h1, hy⟩)
  | hold hk j t0 t1 h0 h1 hlt hgt hy0 =>
    subst hk
    have h2 : j + 1 < ys.length := by rw [hl]; exact (List.getElem?_eq_some_iff.1 h1).1
    exact .inr (.inr ⟨j, t0, t1, y, ys[j + 1], h0, h1, hy0, List.getElem?_eq_getElem h2, hlt, hgt,
      near h0 h1, rfl⟩)

/-- **C27, no overshoot.** With exact arithmetic, interpolated values lie on the straight line through
the two neighbours, so between them. -/
theorem C27_between (t0 y0 t1 y1 t : Rat) (h0 : t0 < t) (h1 : t < t1) :
    (straight t0 y0 t1 y1 t - y0) * (t1 - t0) = (y1 - y0) * (t - t0) ∧
      min y0 y1 ≤ straight t0 y0 t1 y1 t ∧ straight t0 y0 t1 y1 t ≤ max y0 y1 :=
  straight_between h0 h1

/-- **C27, everything else.** Data that do not depend on time, that have more dimensions, or that are
in `ids_properties`, `code`, `time` or `event`, arrive unchanged, as in other conversions (C22). -/
theorem C27_unchanged (line : Rat → Y → Rat → Y → Rat → Y) (cx : Cfg V) (asInt : V → Option Int)
    (stack : Nat) (d : Dict) (tm : Meta) (source : Fields V) (target target' : Node V)
    (hm : PulseMap cx d) (hw : WFFields source) (hbase : HasBase d source) (ht : Typed target tm)
    (h : pulse3to4 line cx asInt stack d source target = .ok target')
    (n : Name) (i : Option Nat) (A B : Addr) (l : LeafMeta) (v : V)
    (hA : (Node.struct source).at ((n, i) :: A) = some (.leaf l (some v)))
    (hv : Value.isEmpty v = false)
    (hother : l.ndim ≠ 1 ∨ ¬ TimeDependent d (n :: names A) ∨ ¬ Regular n)
    (hs : Sent cx tm [] [] source ((n, i) :: A) B) (hch : cx.change (n :: names A) = none)
    (ha : Alone cx tm source ((n, i) :: A) B) (hp : NoPostAbove cx ((n, i) :: A))
    (hb : BasesElsewhere cx tm source n B) :
    ∃ l' w, metaAt tm (names B) = some (.leaf l') ∧ cx.store l' v = .ok w ∧
      ∃ z, target'.at B = some z ∧
        match cx.post (n :: names A) with
        | none => z = .leaf l' w
        | some f => f (.leaf l' w) = .ok z := by
  obtain ⟨l', w, h5, h6, h7⟩ := pulse_value (x := ⟨asInt, stack, d, .struct source⟩) hm hw hbase ht
    h hA hv hs hch ha hp hb
  rw [newValue_same] at h6
  · exact ⟨l', w, h5, h6, h7⟩
  · rcases hother with h | h | h
    · exact .inl h
    · exact .inr (.inl h)
    · refine .inr (.inr fun n' i' r e => ?_)
      cases e
      exact h

end

/-! ### A concrete pulse schedule -/

/-- Values of the example: 1D arrays and the time mode. -/
inductive PulseData where
  | arr (l : List Rat)
  | int (i : Int)
  deriving DecidableEq

instance : Series PulseData Rat where
  isEmpty
    | .arr l => l.isEmpty
    | .int _ => false
  emptyArray _ := .arr []
  isEmpty_emptyArray _ := rfl
  shape
    | .arr l => [l.length]
    | .int _ => []
  strLen _ := 0
  hasEmptyFloat _ := false
  isEmpty_iff v := by cases v with
    | arr l => cases l <;> simp
    | int i => simp
  times
    | .arr l => some l
    | .int _ => none
  samples
    | .arr l => some l
    | .int _ => none
  ofTimes := .arr
  ofSamples := .arr
  times_shape v ts h := by cases v <;> simp at h; simp [h]
  samples_shape v ts h := by cases v <;> simp at h; simp [h]
  times_of _ := rfl
  samples_of _ := rfl

def ecName : Name := "ec".toList
def beamName : Name := "beam".toList
def launcherName : Name := "launcher".toList
def refName : Name := "reference".toList
def dataName : Name := "data".toList
def modeName : Name := "mode".toList

def flt1 : LeafMeta := ⟨.flt, 1, true⟩
def int1 : LeafMeta := ⟨.int, 1, true⟩

/-- The old dictionary: every reference has its own times. -/
def pulseOld : MFields :=
  .cons "ids_properties".toList (.struct (.cons "homogeneous_time".toList (.leaf ⟨.int, 0, false⟩) .nil))
  (.cons ecName (.struct
    (.cons launcherName (.aos (.cons refName (.struct (.cons dataName (.leaf flt1) (.cons timeName (.leaf flt1) .nil))) .nil))
    (.cons modeName (.struct (.cons dataName (.leaf int1) (.cons timeName (.leaf flt1) .nil))) .nil))) .nil)

/-- The new dictionary: one time base for all of `ec`. -/
def pulseNew : Meta := .struct
  (.cons "ids_properties".toList (.struct (.cons "homogeneous_time".toList (.leaf ⟨.int, 0, false⟩) .nil))
  (.cons ecName (.struct
    (.cons beamName (.aos (.cons refName (.leaf flt1) .nil))
    (.cons modeName (.leaf int1) (.cons timeName (.leaf flt1) .nil)))) .nil))

/-- The coordinate of the first dimension is the given path. -/
def timeIs (q : List Name) : NodeMD :=
  ⟨[⟨none, [⟨q, q.map fun _ => none⟩], true, false, true⟩], [], [], true⟩

def pulseDict : Dict where
  node q :=
    if q = [ecName, launcherName, refName, dataName] then timeIs [ecName, launcherName, refName, timeName]
    else if q = [ecName, modeName, dataName] then timeIs [ecName, modeName, timeName]
    else ⟨[], [], [], false⟩
  constant := false

def launcher (ys ts : List Rat) : Fields PulseData :=
  .present refName (.struct (.present dataName (.leaf flt1 (some (.arr ys)))
    (.present timeName (.leaf flt1 (some (.arr ts))) .nil))) .nil

def times1 : List Rat := [1, 2, 3]
def times2 : List Rat := [0, 2, 5]
def times3 : List Rat := [1, 3/2]
def times4 : List Rat := [1, 2, 5]

def ecData : Fields PulseData :=
  .present launcherName (.aos
      (.cons refName (.struct (.cons dataName (.leaf flt1) (.cons timeName (.leaf flt1) .nil))) .nil)
      (.cons (launcher times1 times1) (.cons (launcher times2 times2)
        (.cons (launcher times3 times3) .nil))))
  (.present modeName (.struct (.present dataName (.leaf int1 (some (.arr times4)))
    (.present timeName (.leaf flt1 (some (.arr times4))) .nil))) .nil)

def pulseSource : Fields PulseData :=
  .present "ids_properties".toList
    (.struct (.present "homogeneous_time".toList (.leaf ⟨.int, 0, false⟩ (some (.int 0))) .nil))
  (.present ecName (.struct ecData) .nil)

def pulseMap : Cfg PulseData where
  path q :=
    if q = [ecName, launcherName] then some (some [ecName, beamName])
    else if q = [ecName, launcherName, refName, dataName] then some (some [ecName, beamName, refName])
    else if q = [ecName, launcherName, refName, timeName] then some none
    else if q = [ecName, modeName, dataName] then some (some [ecName, modeName])
    else if q = [ecName, modeName, timeName] then some none
    else none
  change _ := none
  post _ := none
  store _ v := .ok (some v)

def pulseInt : PulseData → Option Int
  | .int i => some i
  | .arr _ => none

def arrAt (r : Except ConvErr (Node PulseData)) (a : Addr) : Option (List Rat) :=
  match r with
  | .ok n =>
    match n.at a with
    | some (.leaf _ (some (.arr l))) => some l
    | _ => none
  | .error _ => none

def pulseResult : Except ConvErr (Node PulseData) :=
  pulse3to4 straight pulseMap pulseInt 10 pulseDict pulseSource pulseNew.fresh

/-- The conversion succeeds, with these values. -/
example :
    arrAt pulseResult [(ecName, none), (timeName, none)] = some [0, 1, 3/2, 2, 3, 5] ∧
    arrAt pulseResult [(ecName, none), (beamName, some 0), (refName, none)] = some [1, 1, 3/2, 2, 3, 3] ∧
    arrAt pulseResult [(ecName, none), (beamName, some 1), (refName, none)] = some [0, 1, 3/2, 2, 3, 5] ∧
    arrAt pulseResult [(ecName, none), (beamName, some 2), (refName, none)] =
      some [1, 1, 3/2, 3/2, 3/2, 3/2] ∧
    arrAt pulseResult [(ecName, none), (modeName, none)] = some [1, 1, 1, 2, 2, 5] := by
  decide +kernel

theorem pulseSource_ok : ∃ r, pulseResult = .ok r := by
  have : (match pulseResult with | .ok _ => true | .error _ => false) = true := by decide +kernel
  cases h : pulseResult with
  | ok r => exact ⟨r, rfl⟩
  | error e => rw [h] at this; simp at this

theorem pulseMap_ok (d : Dict) : PulseMap pulseMap d :=
  ⟨⟨by intro q f x h; simp [pulseMap] at h, by intro q f h; simp [pulseMap] at h⟩, rfl,
    fun _ => ⟨rfl, rfl⟩, fun _ _ => rfl⟩

theorem pulseSource_wf : WFFields pulseSource := by
  simp only [pulseSource, ecData, launcher, WFFields, WF, WFElems, WFMFields, WFMeta, Fields.names, mnames,
    and_true, true_and]
  repeat' apply And.intro
  all_goals decide +kernel

example : Typed (.struct pulseSource) (.struct pulseOld) ∧
    Typed (pulseNew.fresh : Node PulseData) pulseNew := by
  constructor
  · simp [pulseSource, ecData, launcher, pulseOld, Typed, TypedF, TypedE]
  · simp [pulseNew, Meta.fresh, MFields.fresh, Typed, TypedF]

theorem pulseSource_ec : pulseSource.get? ecName = some (.struct ecData) := by
  simp [pulseSource, Fields.get?, ecName]

theorem pulseSource_base : HasBase pulseDict pulseSource := by
  intro n c A l v hn hc hA hv h1 htd
  have hn' : n = ecName := by
    simp only [pulseSource, Fields.get?] at hc
    split at hc
    · next e => exact absurd e hn.1
    · split at hc
      · next e => exact e
      · simp at hc
  subst hn'
  rw [pulseSource_ec] at hc
  cases hc
  refine ⟨1, [(modeName, none)], "time".toList, .arr times4, times4, ⟨flt1, ?_, rfl⟩, rfl, rfl, by simp [times4]⟩
  have h1 : modeName ≠ launcherName := by decide +kernel
  have h2 : "time".toList ≠ dataName := by decide +kernel
  simp only [ecData, Node.at, Node.item, Fields.get?, h1, h2, timeName, if_false, if_true, Option.bind_some,
    List.cons_append, List.nil_append]

def beamAddr : Addr := [(ecName, none), (beamName, some 2), (refName, none)]
def launcherAddr : Addr := [(launcherName, some 2), (refName, none), (dataName, none)]

/-- The data of the third launcher: they depend on time, they go to the third beam. -/
example : Regular ecName ∧ TimeDependent pulseDict (ecName :: names launcherAddr) ∧
    pulseSource.get? ecName = some (.struct ecData) ∧
    (Node.struct ecData).at launcherAddr = some (.leaf flt1 (some (.arr times3))) := by
  refine ⟨by simp [Regular, ecName], ⟨_, _, rfl, rfl⟩, pulseSource_ec, ?_⟩
  simp only [ecData, launcherAddr, Node.at, Node.item, Fields.get?, Elems.get?, launcher, if_true,
    Option.bind_some, Option.map_some]

theorem launcher_sent : Sent pulseMap pulseNew [] [] pulseSource ((ecName, none) :: launcherAddr) beamAddr := by
  refine .child (d := ecData) (b := [(ecName, none)]) pulseSource_ec (by decide +kernel) rfl ?_
  refine .element (b := [(ecName, none), (beamName, none)]) (d := launcher times3 times3)
    (by simp only [ecData, Fields.get?, if_true]; rfl) rfl (by decide +kernel) rfl ?_
  refine .child (b := beamAddr) (by simp only [launcher, Fields.get?, if_true]; rfl) (by decide +kernel) rfl ?_
  exact .here (x := .leaf flt1 (some (.arr times3))) (by simp only [Fields.get?, if_true]) (by decide +kernel)

def decContains : (a b : Addr) → Decidable (Contains a b)
  | [], _ => .isTrue trivial
  | _ :: _, [] => .isFalse (by simp [Contains])
  | [_], _ :: _ => by simp only [Contains]; infer_instance
  | _ :: s' :: a, _ :: b =>
    have := decContains (s' :: a) b
    by simp only [Contains]; infer_instance

instance (a b : Addr) : Decidable (Contains a b) := decContains a b

theorem pulse_elsewhere (B : Addr) : BasesElsewhere pulseMap pulseNew pulseSource ecName B := by
  intro n' c' b' hne hr hc
  simp only [pulseSource, Fields.get?] at hc
  split at hc
  · next e => exact absurd e hr.1
  · simp at hc

example : Alone pulseMap pulseNew pulseSource ((ecName, none) :: launcherAddr) beamAddr ∧
    NoPostAbove pulseMap ((ecName, none) :: launcherAddr) ∧
    BasesElsewhere pulseMap pulseNew pulseSource ecName beamAddr := by
  refine ⟨alone_of_list ?_, fun _ _ _ => rfl, pulse_elsewhere _⟩
  have : ∀ y ∈ sentFields pulseMap pulseNew [] [] pulseSource, y.1 ≠ (ecName, none) :: launcherAddr →
      ¬ Contains y.1 ((ecName, none) :: launcherAddr) →
      ¬ Contains beamAddr y.2 ∧ ¬ Contains y.2 beamAddr := by decide +kernel
  exact fun y hy h1 h2 => .inl (this y hy h1 h2)

/-- Nothing else goes to the common time. -/
example : Reserved pulseMap pulseNew pulseSource ecName [(ecName, none), ("time".toList, none)] := by
  refine ⟨fun A' B' y hs hy hact => ?_, pulse_elsewhere _⟩
  have h1 := sent_mem hs hy (acts_hasValue hact)
  have h2 : ∀ p ∈ sentFields pulseMap pulseNew [] [] pulseSource,
      (match (Node.struct pulseSource).at p.1 with | some (.struct _) => true | _ => false) = true ∨
      (¬ Contains [(ecName, none), ("time".toList, none)] p.2 ∧
        ¬ Contains p.2 [(ecName, none), ("time".toList, none)]) := by decide +kernel
  rcases h2 _ h1 with h3 | h3
  · simp only [hy] at h3
    cases y with
    | leaf => simp at h3
    | aos => simp at h3
    | struct c => simp [Acts, Filled, pulseMap] at hact
  · exact h3

/-! ### A limit -/

/-- Post-processing that changes the sign. -/
def flipSign : Node PulseData → Except ConvErr (Node PulseData)
  | .leaf l (some (.arr v)) => .ok (.leaf l (some (.arr (v.map (- ·)))))
  | x => .ok x

/-- The same map, but the sign of the references changes. -/
def flipMap : Cfg PulseData :=
  { pulseMap with
    post := fun q => if q = [ecName, launcherName, refName, dataName] then some flipSign else none }

def flipResult : Except ConvErr (Node PulseData) :=
  pulse3to4 straight flipMap pulseInt 10 pulseDict pulseSource pulseNew.fresh

/-- **C27, limit.** That time dependent data have no post-processing is needed: the resampled values
are those of the source and replace the post-processed ones, so that a sign change between the two
versions is lost. No error is raised. -/
theorem C27_post_limit :
    (∃ f, flipMap.post [ecName, launcherName, refName, dataName] = some f ∧
      f (.leaf flt1 (some (.arr [1, 3/2]))) = .ok (.leaf flt1 (some (.arr [-1, -3/2])))) ∧
    arrAt flipResult beamAddr = some [1, 1, 3/2, 3/2, 3/2, 3/2] ∧
    arrAt (copyIds flipMap pulseSource pulseNew.fresh) beamAddr = some [-1, -3/2] := by
  refine ⟨⟨flipSign, by simp only [flipMap, if_true], ?_⟩, by decide +kernel, by decide +kernel⟩
  have : List.map (fun a : Rat => -a) [1, 3/2] = [-1, -3/2] := by decide +kernel
  simp only [flipSign, this]

end Verif.Props
