import Verif.Lemmas.Resample
import Verif.Props.Assign
/-!
C48: resampling an IDS.
-/
set_option linter.unusedSectionVars false
namespace Verif.Props
open Verif.Ids Verif.Resample Verif.ResampleSpec Verif.TreeSpec
open Verif.Convert (names)

section C48
variable {F : Type} [FloatModel F]

/-- The node that holds the times of a homogeneous IDS. -/
def timeAddr : Addr := [(Resample.timeName, none)]

/-- The nodes that resampling changes: dynamic data nodes that are not called `time`. -/
def Changes (q : List Name) (l : LeafMeta) : Prop :=
  l.dynamic = true ∧ q.getLast? ≠ some Resample.timeName

theorem keeps_setTime (cv : Conv F) (new : List F) : KeepsStruct (assignTime cv new) := by
  intro g y h
  cases h

theorem assignTime_leaf {cv : Conv F} {new : List F} {l : LeafMeta} {v : Option (Val F)} {w : Node (Val F)}
    (h : assignTime cv new (.leaf l v) = .ok w) : ∃ v', w = .leaf l v' := by
  simp only [assignTime, Node.assign] at h
  cases hs : setValue cv false l (.val (.arr .flt [new.length] (new.map .flt))) with
  | error e => rw [hs] at h; simp [Except.map] at h
  | ok s => rw [hs] at h; simp [Except.map] at h; exact ⟨_, h.symm⟩

theorem resample_ok {P : Scipy F} {cv : Conv F} {d : Dict} {q : List Name} {top : Bool} {old new : List F}
    {given mode : Option Int} {node z : Node (Val F)}
    (h : resample P cv d q top old new given mode node = (z, none)) :
    given.or mode = some 1 ∧ ∃ y, visitNode P d old new q node = (y, none) ∧
      (top = true → setTime cv new y = .ok z) ∧ (top = false → z = y) := by
  unfold resample at h
  split at h
  · simp at h
  · next hm =>
    have hmode : given.or mode = some 1 := by
      unfold checkMode at hm
      split at hm
      · cases hm
      · next m hm' =>
        split at hm
        · next h1 => rw [hm', h1]
        · cases hm
    refine ⟨hmode, ?_⟩
    split at h
    · simp at h
    · next y hy =>
      refine ⟨y, hy, ?_, ?_⟩
      · rintro rfl
        simp only [if_true] at h
        split at h
        · simp at h
        · next z' hz => simp at h; rw [← h]; exact hz
      · rintro rfl
        simp at h; exact h.symm

/-- Apart from the time node, setting the times changes nothing. -/
theorem setTime_frame {cv : Conv F} {new : List F} {y z : Node (Val F)} (h : setTime cv new y = .ok z)
    {A : Addr} (hA : A ≠ timeAddr) (hne : A ≠ []) : z.at A = y.at A := by
  unfold setTime at h
  split at h
  · cases h
  · next r hr =>
    subst h
    obtain ⟨x, w, h1, h2, h3⟩ := modify_at (keeps_setTime cv new) hr
    cases A with
    | nil => exact absurd rfl hne
    | cons s A =>
      obtain ⟨n, i⟩ := s
      by_cases hn : n = Resample.timeName
      · subst hn
        cases x with
        | struct => cases h2
        | aos => cases h2
        | leaf l v =>
          obtain ⟨v', rfl⟩ := assignTime_leaf h2
          · 
            simp only [Node.at, Option.bind_eq_some_iff] at h1 h3
            obtain ⟨x1, hx1, hx2⟩ := h1
            obtain ⟨y1, hy1, hy2⟩ := h3
            simp at hx2 hy2; subst hx2; subst hy2
            have hz : ∀ u : Node (Val F), ∀ l v, u.item (Resample.timeName, none) = some (.leaf l v) →
                u.at ((Resample.timeName, i) :: A) = none := by
              intro u l v hu
              cases u with
              | leaf => simp [Node.item] at hu
              | aos => simp [Node.item] at hu
              | struct c =>
                simp only [Node.item] at hu
                cases hg : c.get? Resample.timeName with
                | none => rw [hg] at hu; cases hu
                | some b =>
                  rw [hg] at hu; simp at hu; subst hu
                  cases i with
                  | some i => simp [Node.at, Node.item, hg]
                  | none =>
                    cases A with
                    | nil => exact absurd rfl hA
                    | cons t A => simp [Node.at, Node.item, hg]
            rw [hz _ _ _ hx1, hz _ _ _ hy1]
      · exact modify_frame (keeps_setTime cv new) hr (by
          simp only [Apart]; exact .inl (fun h => hn h.symm))

/-- Nodes other than the time of the IDS are those of the visit. -/
theorem resample_at {P : Scipy F} {cv : Conv F} {d : Dict} {q : List Name} {top : Bool} {old new : List F}
    {given mode : Option Int} {node z : Node (Val F)}
    (h : resample P cv d q top old new given mode node = (z, none)) {A : Addr}
    (hA : top = true → A ≠ timeAddr ∧ A ≠ []) :
    (visitNode P d old new q node).2 = none ∧
      z.at A = (node.at A).map (mapNode (visited P d old new q) A) := by
  obtain ⟨_, y, hy, ht, hf⟩ := resample_ok h
  have hm := visitNode_map P d old new q [] node y (by simpa [names] using hy)
  have hat : y.at A = (node.at A).map (mapNode (visited P d old new q) A) := by
    rw [hm, mapNode_at]; simp
  refine ⟨by rw [hy], ?_⟩
  cases top with
  | true => rw [setTime_frame (ht rfl) (hA rfl).1 (hA rfl).2, hat]
  | false => rw [hf rfl, hat]

/-- **C48.** Without homogeneous time, resampling raises and changes nothing. -/
theorem C48_refused (P : Scipy F) (cv : Conv F) (d : Dict) (q : List Name) (top : Bool)
    (old new : List F) (given mode : Option Int) (node : Node (Val F)) :
    (given.or mode = none → resample P cv d q top old new given mode node = (node, some .value)) ∧
    (∀ m, given.or mode = some m → m ≠ 1 →
      resample P cv d q top old new given mode node = (node, some .notImplemented)) := by
  constructor
  · intro h; simp [resample, checkMode, h]
  · intro m h hm; simp [resample, checkMode, h, hm]

/-- **C48.** After resampling, each filled dynamic data node holds the values interpolated along its time
dimension, and each other filled data node holds what it held before. The time of an IDS is the
exception. -/
theorem C48_values {P : Scipy F} {cv : Conv F} {d : Dict} {q : List Name} {top : Bool} {old new : List F}
    {given mode : Option Int} {node z : Node (Val F)}
    (h : resample P cv d q top old new given mode node = (z, none))
    {A : Addr} {l : LeafMeta} {v : Val F} (hA : node.at A = some (.leaf l (some v)))
    (hv : Value.isEmpty v = false) (ht : top = true → A ≠ timeAddr ∧ A ≠ []) :
    (Changes (q ++ names A) l → ∃ w, z.at A = some (.leaf l (some w)) ∧
        Resampled P d old new (q ++ names A) v w) ∧
    (¬ Changes (q ++ names A) l → z.at A = some (.leaf l (some v))) := by
  obtain ⟨h1, h2⟩ := resample_at h ht
  obtain ⟨w, hw⟩ := visited_ok P d old new A h1 hA hv
  have hz : z.at A = some (.leaf l (some w)) := by
    rw [h2, hA]; simp [mapNode, visited, hv, hw]
  unfold visitor at hw
  constructor
  · rintro ⟨hd, hn⟩
    rw [if_pos (by rw [hd, Bool.true_and]; exact decide_eq_true hn)] at hw
    split at hw
    · cases hw
    · next w' hw' =>
      cases hw
      exact ⟨w, hz, interpValue_spec hw'⟩
  · intro hc
    rw [if_neg (by
      simp only [Bool.and_eq_true, decide_eq_true_eq]
      exact hc)] at hw
    cases hw; exact hz

/-- **C48.** Resampling fills no other nodes and keeps the number of elements of each array of
structures. -/
theorem C48_kept {P : Scipy F} {cv : Conv F} {d : Dict} {q : List Name} {top : Bool} {old new : List F}
    {given mode : Option Int} {node z : Node (Val F)}
    (h : resample P cv d q top old new given mode node = (z, none))
    {A : Addr} (ht : top = true → A ≠ timeAddr ∧ A ≠ []) :
    (∀ l, node.at A = some (.leaf l none) → z.at A = some (.leaf l none)) ∧
    (∀ l v, node.at A = some (.leaf l (some v)) → Value.isEmpty v = true →
      z.at A = some (.leaf l (some v))) ∧
    (∀ m e, node.at A = some (.aos m e) → ∃ e', z.at A = some (.aos m e') ∧ e'.length = e.length) ∧
    (node.at A = none → z.at A = none) := by
  obtain ⟨_, h2⟩ := resample_at h ht
  refine ⟨?_, ?_, ?_, ?_⟩
  · intro l hl; rw [h2, hl]; rfl
  · intro l v hl he; rw [h2, hl]; simp [mapNode, visited, he]
  · intro m e hl; rw [h2, hl]; exact ⟨_, rfl, mapElems_length _ _ _ _⟩
  · intro hl; rw [h2, hl]; rfl

/-- **C48.** The time of the IDS is the new time. -/
theorem C48_time {P : Scipy F} {cv : Conv F} {d : Dict} {q : List Name} {old new : List F}
    {given mode : Option Int} {node z : Node (Val F)} {l : LeafMeta} {v : Option (Val F)}
    (h : resample P cv d q true old new given mode node = (z, none))
    (ht : node.at timeAddr = some (.leaf l v)) (hl : l.type = .flt ∧ l.ndim = 1) :
    z.at timeAddr = some (.leaf l (some (.arr .flt [new.length] (new.map .flt)))) := by
  obtain ⟨_, y, hy, hz, _⟩ := resample_ok h
  have hz := hz rfl
  have hm := visitNode_map P d old new q [] node y (by simpa [names] using hy)
  have hyt : ∃ w, y.at timeAddr = some (.leaf l w) := by
    rw [hm, mapNode_at, ht]; exact ⟨_, rfl⟩
  obtain ⟨w, hw⟩ := hyt
  unfold setTime at hz
  split at hz
  · cases hz
  · next r hr =>
    subst hz
    obtain ⟨x, u, h1, h2, h3⟩ := modify_at (keeps_setTime cv new) hr
    have : x = .leaf l w := by
      have := h1.symm.trans hw
      simpa using this
    subst this
    have hfit : (Val.arr .flt [new.length] (new.map .flt) : Val F).fits l = true := by
      simp [Val.fits, hl.1, hl.2, arrSize, Scalar.type]
    simp only [assignTime, Node.assign, setValue, assigned, castValue_fits cv hfit, Bool.false_eq_true, if_false,
      hl.2, Except.map] at h2
    simp at h2
    rw [← h2] at h3
    exact h3

theorem exists_offset (s : List Nat) : ∀ o, o < arrSize s → ∃ idx, Inside idx s ∧ offset s idx = o := by
  induction s with
  | nil => intro o ho; simp [arrSize] at ho; exact ⟨[], trivial, by simp [offset, ho]⟩
  | cons n s ih =>
    intro o ho
    rw [arrSize_cons] at ho
    have hn : 0 < n := by
      rcases Nat.eq_zero_or_pos n with rfl | h
      · simp at ho
      · exact h
    obtain ⟨idx, h1, h2⟩ := ih (o / n) ((Nat.div_lt_iff_lt_mul hn).2 (by rwa [Nat.mul_comm]))
    exact ⟨o % n :: idx, ⟨Nat.mod_lt _ hn, h1⟩, by rw [offset, h2]; exact Nat.mod_add_div o n⟩

/-- **C48.** Resampling to the same times, with an interpolation that meets its samples, changes no
value. -/
theorem C48_same_times {P : Scipy F} {cv : Conv F} {d : Dict} {q : List Name} {top : Bool} {old : List F}
    {given mode : Option Int} {node z : Node (Val F)} (hP : Exact P)
    (h : resample P cv d q top old old given mode node = (z, none))
    {A : Addr} {l : LeafMeta} {v : Val F} (hA : node.at A = some (.leaf l (some v)))
    (hv : Value.isEmpty v = false) (ht : top = true → A ≠ timeAddr ∧ A ≠ [])
    (hf : v.fits l = true) (hd : old.Nodup) : z.at A = some (.leaf l (some v)) := by
  obtain ⟨h1, h2⟩ := C48_values h hA hv ht
  by_cases hc : Changes (q ++ names A) l
  · obtain ⟨w, hw, k, t, s, items, s', items', rfl, rfl, _, hal⟩ := h1 hc
    rw [hw]
    have hs : s' = s := by
      rw [hal.shape]
      exact List.ext_getElem? fun j => by
        rw [List.getElem?_set]
        split
        · next hk =>
          subst hk
          rw [hal.size]
          split
          · rfl
          · next hlt => have := hal.size; rw [List.getElem?_eq_none (by omega)] at this; cases this
        · rfl
    subst hs
    simp only [Val.fits, Bool.and_eq_true, decide_eq_true_eq, List.all_eq_true] at hf
    obtain ⟨⟨⟨⟨⟨rfl, _⟩, _⟩, _⟩, hlen⟩, hty⟩ := hf
    have : items' = items := by
      refine List.ext_getElem? fun o => ?_
      rcases Nat.lt_or_ge o (arrSize s') with ho | ho
      · obtain ⟨idx, hi, rfl⟩ := exists_offset s' o ho
        obtain ⟨j, x, ys, y, hj, hx, hyl, hys, hp, hit⟩ := hal.items idx hi
        have hjl : j < old.length := by
          rcases Nat.lt_or_ge j old.length with h | h
          · exact h
          · rw [List.getElem?_eq_none h] at hx; cases hx
        have hji := hys j hjl
        have hset : idx.set k j = idx := by
          refine List.ext_getElem? fun m => ?_
          rw [List.getElem?_set]
          split
          · next hk =>
            subst hk; rw [hj]
            split
            · rfl
            · next hlt => rw [List.getElem?_eq_none (by omega)] at hj; cases hj
          · rfl
        rw [hset] at hji
        have hyj : ys[j]? = some ys[j] := List.getElem?_eq_getElem (by omega)
        have hmem : ∀ u ∈ ys, u.type = l.type := by
          intro u hu
          obtain ⟨m, hm, rfl⟩ := List.getElem_of_mem hu
          have := hys m (by omega)
          rw [List.getElem?_eq_getElem hm] at this
          unfold item at this
          exact hty _ (List.mem_of_getElem? this)
        have := hP l.type old ys j x ys[j] y hd hx hyj hmem hp
        subst this
        unfold item at hit hji
        rw [hit, hji, hyj]
      · rw [List.getElem?_eq_none (by rw [hal.count]; omega), List.getElem?_eq_none (by omega)]
    rw [this]
  · exact h2 hc

/-- **C48.** A filled dynamic data node without time dimension makes resampling fail. -/
theorem C48_no_time_dimension (P : Scipy F) (cv : Conv F) (d : Dict) (q : List Name) (top : Bool)
    (old new : List F) (given mode : Option Int) {node : Node (Val F)}
    {A : Addr} {l : LeafMeta} {v : Val F} (hA : node.at A = some (.leaf l (some v)))
    (hv : Value.isEmpty v = false) (hc : Changes (q ++ names A) l)
    (hn : ∀ c ∈ (d.node (q ++ names A)).coords, c.isTime = false) :
    (resample P cv d q top old new given mode node).2 ≠ none := by
  intro h
  have h' : resample P cv d q top old new given mode node =
      ((resample P cv d q top old new given mode node).1, none) := by rw [← h]
  obtain ⟨_, y, hy, _⟩ := resample_ok h'
  obtain ⟨w, hw⟩ := visited_ok P d old new A (by rw [hy]) hA hv
  unfold visitor at hw
  rw [if_pos (by rw [hc.1, Bool.true_and]; exact decide_eq_true hc.2)] at hw
  have : timeIndex d (q ++ names A) = none := timeIndexFrom_none.2 hn
  rw [this] at hw
  cases v <;> simp [interpValue] at hw

/-! ### A concrete IDS

`time` is [0, 10, 20]. `flux` has two positions and three times. The static `name` and the times of the
event are not resampled. -/

/-- Interpolation by the previous sample; sample times give their own sample. Times before the first one
are out of bounds. -/
def stairs : Scipy Int where
  accepts t xs := decide (t ≠ .str) && decide (xs ≠ [])
  point t xs ys x :=
    match ((xs.zip ys).lookup x).or (((xs.zip ys).filter (·.1 ≤ x)).getLast?.map (·.2)) with
    | some s => if s.type = t then some s else none
    | none => none
  typed t xs ys x s h := by
    split at h
    · split at h
      · next h1 => cases h; exact h1
      · cases h
    · cases h

theorem lookup_zip {xs : List Int} {ys : List (Scalar Int)} {i : Nat} {x : Int} {y : Scalar Int}
    (hd : xs.Nodup) (hx : xs[i]? = some x) (hy : ys[i]? = some y) : (xs.zip ys).lookup x = some y := by
  induction xs generalizing ys i with
  | nil => simp at hx
  | cons a xs ih =>
    cases ys with
    | nil => simp at hy
    | cons b ys =>
      cases i with
      | zero => simp at hx hy; subst hx; subst hy; simp
      | succ i =>
        simp only [List.nodup_cons] at hd
        simp only [List.getElem?_cons_succ] at hx hy
        have hne : x ≠ a := by rintro rfl; exact hd.1 (List.mem_of_getElem? hx)
        have : (x == a) = false := by simpa using hne
        simp only [List.zip_cons_cons, List.lookup, this]
        exact ih hd.2 hx hy

theorem stairs_exact : Exact stairs := by
  intro t xs ys i x y s hd hx hy ht h
  simp only [stairs, lookup_zip hd hx hy, Option.some_or] at h
  split at h
  · cases h; rfl
  · cases h

def fluxName : Name := "flux".toList
def eventName : Name := "event".toList
def noConv : Conv Int := ⟨fun _ _ => none, fun _ => none, fun _ => none, fun _ _ => none⟩

def flt2d : LeafMeta := ⟨.flt, 2, true⟩
def fltTime : LeafMeta := ⟨.flt, 1, true⟩
def strStatic : LeafMeta := ⟨.str, 0, false⟩

def timeVal (l : List Int) : Val Int := .arr .flt [l.length] (l.map .flt)
def fluxVal : Val Int := .arr .flt [2, 3] ([1, 2, 3, 4, 5, 6].map .flt)

def fluxIds : Node (Val Int) :=
  .struct (.present fluxName (.leaf flt2d (some fluxVal))
    (.present eventName (.aos (.cons Resample.timeName (.leaf fltTime) .nil)
      (.cons (.present Resample.timeName (.leaf fltTime (some (timeVal [7, 8]))) .nil) .nil))
    (.present "name".toList (.leaf strStatic (some (.str "x".toList)))
    (.present Resample.timeName (.leaf fltTime (some (timeVal [0, 10, 20]))) .nil))))

def plainCoord : Coord.Coordinate := ⟨none, [], false, false, false⟩
def timeCoord : Coord.Coordinate := ⟨none, [⟨[Resample.timeName], [none]⟩], true, false, true⟩

def fluxDict : Dict where
  node q := if q = [fluxName] then ⟨[plainCoord, timeCoord], [], [], true⟩ else ⟨[timeCoord], [], [], true⟩
  constant := false

/-- The value of a data node, as a test on results. -/
def holds (x : Node (Val Int)) (A : Addr) (v : Val Int) : Bool :=
  match x.at A with
  | some (.leaf _ (some w)) => decide (w = v)
  | _ => false

/-- Resampled to the times 10, 15, 25 and 0: two positions and four times. The times of the event and
the name stay as they are. -/
example :
    let r := resample stairs noConv fluxDict [] true [0, 10, 20] [10, 15, 25, 0] none (some 1) fluxIds
    r.2 = none ∧
    holds r.1 [(fluxName, none)] (.arr .flt [2, 4] ([3, 4, 3, 4, 5, 6, 1, 2].map .flt)) = true ∧
    holds r.1 [(eventName, some 0), (Resample.timeName, none)] (timeVal [7, 8]) = true ∧
    holds r.1 [("name".toList, none)] (.str "x".toList) = true ∧
    holds r.1 timeAddr (timeVal [10, 15, 25, 0]) = true := by decide +kernel

/-- The hypotheses of `C48_values`, `C48_time` and `C48_same_times` are met. -/
example : ∃ z, resample stairs noConv fluxDict [] true [0, 10, 20] [10, 15, 25, 0] none (some 1) fluxIds =
      (z, none) ∧
    fluxIds.at [(fluxName, none)] = some (.leaf flt2d (some fluxVal)) ∧
    Value.isEmpty fluxVal = false ∧ Changes [fluxName] flt2d ∧ fluxVal.fits flt2d = true ∧
    fluxIds.at timeAddr = some (.leaf fltTime (some (timeVal [0, 10, 20]))) ∧
    ([0, 10, 20] : List Int).Nodup :=
  ⟨_, by with_unfolding_all rfl, by with_unfolding_all rfl, by decide +kernel,
    ⟨rfl, by decide +kernel⟩, by decide +kernel, by with_unfolding_all rfl, by decide +kernel⟩

/-- Time slices: an array of structures with a dynamic scalar in each element. -/
def sliceIds : Node (Val Int) :=
  .struct (.present fluxName (.leaf flt2d (some fluxVal))
    (.present "slice".toList (.aos (.cons "energy".toList (.leaf ⟨.flt, 0, true⟩) .nil)
      (.cons (.present "energy".toList (.leaf ⟨.flt, 0, true⟩ (some (.flt 4))) .nil) .nil))
    (.present Resample.timeName (.leaf fltTime (some (timeVal [0, 10, 20]))) .nil)))

def sliceDict : Dict where
  node q := if q = ["slice".toList, "energy".toList] then ⟨[], [], [], true⟩ else fluxDict.node q
  constant := false

/-- **C48, limit.** One might expect that every IDS can be resampled. IDSs with time slices are refused
(`C48_no_time_dimension`), and then an IDS that is resampled in place is left with some nodes resampled
and others not, its time unchanged. -/
theorem C48_slices_limit :
    let r := resample stairs noConv sliceDict [] true [0, 10, 20] [10] none (some 1) sliceIds
    r.2 = some .interp ∧
    holds r.1 [(fluxName, none)] (.arr .flt [2, 1] ([3, 4].map .flt)) = true ∧
    holds r.1 timeAddr (timeVal [0, 10, 20]) = true := by decide +kernel

example : ∃ v : Val Int, sliceIds.at [("slice".toList, some 0), ("energy".toList, none)] =
      some (.leaf ⟨.flt, 0, true⟩ (some v)) ∧ Value.isEmpty v = false ∧
    Changes ([] ++ names [("slice".toList, some 0), ("energy".toList, none)]) ⟨.flt, 0, true⟩ ∧
    ∀ c ∈ (sliceDict.node ([] ++ names [("slice".toList, some 0), ("energy".toList, none)])).coords,
      c.isTime = false :=
  ⟨.flt 4, by with_unfolding_all rfl, rfl, ⟨rfl, by decide +kernel⟩, by decide +kernel⟩

end C48

end Verif.Props
