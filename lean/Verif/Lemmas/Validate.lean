import Verif.Props.Coordinates
import Verif.Lemmas.Tree
import Verif.Lemmas.TreeIter
set_option linter.unusedSectionVars false
namespace Verif.Ids
open Verif.Path (Parsed isAncestorOf)
open Verif.Coord (Coordinate)
open Verif.ValidateSpec Verif.TreeSpec

variable {V : Type} [ShapedValue V]

/-- The checks of one node. -/
def Ctx.local (x : Ctx V) (a : Addr) (y : Node V) : Except ValErr Unit :=
  match x.checkDynamic a y with
  | .error e => .error e
  | .ok _ =>
    match y with
    | .leaf l v => if l.ndim > 0 && leafHasValue v then x.checkCoords a l.ndim (.leaf l v) else .ok ()
    | .struct _ => .ok ()
    | .aos m e => if e.length > 0 then x.checkCoords a 1 (.aos m e) else .ok ()

theorem elemAddr_last (a : Addr) (n : Name) (k : Option Nat) (i : Nat) :
    elemAddr (a ++ [(n, k)]) i = a ++ [(n, some i)] := by
  simp [elemAddr]

theorem below_fresh {m : Meta} {b : Addr} {z : Node V} (h : (m.fresh : Node V).at b = some z) :
    z.hasValue = false := by
  cases hx : z.hasValue with
  | false => rfl
  | true =>
    have := vis_hasValue (lo := false) (ve := false) ⟨z, h, by simp, .inr (.inr hx)⟩
    simp [fresh_hasValue] at this

theorem at_present_ne {n n' : Name} {y : Node V} {r : Fields V} {k : Option Nat} {b : Addr}
    (h : n' ≠ n) : (Node.struct (.present n y r)).at ((n', k) :: b) =
      (Node.struct r).at ((n', k) :: b) := by
  simp [Node.at, Node.item, Fields.get?, h]

theorem at_absent_ne {n n' : Name} {m : Meta} {r : Fields V} {k : Option Nat} {b : Addr}
    (h : n' ≠ n) : (Node.struct (.absent n m r)).at ((n', k) :: b) =
      (Node.struct r).at ((n', k) :: b) := by
  simp [Node.at, Node.item, Fields.get?, h]

/-- Everything below a child, as addresses. -/
theorem at_child {c : Fields V} {n : Name} {y : Node V} (hc : c.get? n = some y) {k : Option Nat}
    {b : Addr} {z : Node V} (h : (Node.struct c).at ((n, k) :: b) = some z) :
    (k = none ∧ y.at b = some z) ∨
    ∃ i m e f, k = some i ∧ y = .aos m e ∧ e.get? i = some f ∧ (Node.struct f).at b = some z := by
  simp only [Node.at] at h
  cases hi : (Node.struct c).item (n, k) with
  | none => simp [hi] at h
  | some w =>
    rw [hi, Option.bind_some] at h
    obtain ⟨c', e, h1 | ⟨i, m, el, f, h1, h2, h3, rfl⟩⟩ := item_cases hi
    · simp at e; subst e
      simp only [hc, Option.some.injEq] at h1
      obtain ⟨h1, rfl⟩ := h1
      exact .inl ⟨h1, h⟩
    · simp at e; subst e
      simp only [hc, Option.some.injEq] at h2
      exact .inr ⟨i, m, el, f, h1, h2, h3, h⟩

mutual
theorem okNode (x : Ctx V) (a : Addr) (y : Node V) (h : x.checkNode a y = .ok ()) :
    x.local a y = .ok () ∧
    (∀ b z, b ≠ [] → y.at b = some z → z.hasValue = true → x.local (a ++ b) z = .ok ()) ∧
    ∀ m e i f, y = .aos m e → e.get? i = some f → ∀ b z, (Node.struct f).at b = some z →
      z.hasValue = true → x.local (elemAddr a i ++ b) z = .ok () := by
  cases y with
  | leaf l v =>
    simp only [Ctx.checkNode] at h
    refine ⟨?_, ?_, by simp⟩
    · simp only [Ctx.local]
      cases hd : x.checkDynamic a (.leaf l v) with
      | error e => rw [hd] at h; simp at h
      | ok u => rw [hd] at h; exact h
    · intro b z hb hz
      cases b with
      | nil => exact absurd rfl hb
      | cons s b => simp [Node.at, Node.item] at hz
  | struct c =>
    simp only [Ctx.checkNode] at h
    cases hd : x.checkDynamic a (.struct c) with
    | error e => rw [hd] at h; simp at h
    | ok u =>
      rw [hd] at h
      refine ⟨by simp [Ctx.local, hd], ?_, by simp⟩
      exact okFields x a c h
  | aos m e =>
    simp only [Ctx.checkNode] at h
    cases hd : x.checkDynamic a (.aos m e) with
    | error e => rw [hd] at h; simp at h
    | ok u =>
      rw [hd] at h
      simp only at h
      split at h
      · next hlen =>
        cases hk : x.checkCoords a 1 (.aos m e) with
        | error e => rw [hk] at h; simp at h
        | ok u =>
          rw [hk] at h
          refine ⟨by simp [Ctx.local, hd, hk], ?_, ?_⟩
          · intro b z hb hz
            cases b with
            | nil => exact absurd rfl hb
            | cons s b => simp [Node.at, Node.item] at hz
          · intro m' e' i f he hf b z hz hv
            simp at he
            obtain ⟨rfl, rfl⟩ := he
            have := okElems x a 0 e h i f hf b z hz hv
            simpa using this
      · next hlen =>
        refine ⟨by simp [Ctx.local, hd, hlen], ?_, ?_⟩
        · intro b z hb hz
          cases b with
          | nil => exact absurd rfl hb
          | cons s b => simp [Node.at, Node.item] at hz
        · intro m' e' i f he hf
          simp at he
          obtain ⟨rfl, rfl⟩ := he
          have := Elems.get?_lt hf
          omega
theorem okFields (x : Ctx V) (a : Addr) (c : Fields V) (h : x.checkFields a c = .ok ()) :
    ∀ b z, b ≠ [] → (Node.struct c).at b = some z → z.hasValue = true →
      x.local (a ++ b) z = .ok () := by
  intro b z hb hz hv
  cases b with
  | nil => exact absurd rfl hb
  | cons s b =>
    obtain ⟨n', k⟩ := s
    cases c with
    | nil => simp [Node.at, Node.item, Fields.get?] at hz
    | absent n m r =>
      simp only [Ctx.checkFields] at h
      by_cases hn : n' = n
      · subst hn
        have hfr : ((Node.struct (.absent n' m r)).hasValue = true → True) := fun _ => trivial
        rcases at_child (y := m.fresh) (by simp [Fields.get?]) hz with ⟨-, h2⟩ | ⟨i, m', e, f, -, he, hf, -⟩
        · rw [below_fresh h2] at hv; simp at hv
        · have h1 := fresh_hasValue (V := V) m
          rw [he] at h1
          have := Elems.get?_lt hf
          simp [Node.hasValue] at h1
          omega
      · rw [at_absent_ne hn] at hz
        exact okFields x a r h _ z (by simp) hz hv
    | present n y r =>
      simp only [Ctx.checkFields] at h
      have hrest : x.checkFields a r = .ok () := by
        split at h
        · split at h
          · simp at h
          · exact h
        · exact h
      by_cases hn : n' = n
      · subst hn
        have hz' := at_child (y := y) (by simp [Fields.get?]) hz
        have hyv : y.hasValue = true := by
          rcases hz' with ⟨-, h2⟩ | ⟨i, m', e, f, -, rfl, hf, -⟩
          · have := vis_hasValue (lo := false) (ve := false) (x := y) ⟨z, h2, by simp, .inr (.inr hv)⟩
            simpa using this
          · have := Elems.get?_lt hf
            simp [Node.hasValue]; omega
        rw [if_pos hyv] at h
        cases hk : x.checkNode (a ++ [(n', none)]) y with
        | error e => rw [hk] at h; simp at h
        | ok u =>
          obtain ⟨h1, h2, h3⟩ := okNode x (a ++ [(n', none)]) y hk
          rcases hz' with ⟨rfl, h4⟩ | ⟨i, m', e, f, rfl, rfl, hf, h4⟩
          · by_cases hb0 : b = []
            · subst hb0
              simp [Node.at] at h4; subst h4
              exact h1
            · have := h2 b z hb0 h4 hv
              simpa using this
          · have := h3 m' e i f rfl hf b z h4 hv
            rw [elemAddr_last] at this
            simpa using this
      · rw [at_present_ne hn] at hz
        exact okFields x a r hrest _ z (by simp) hz hv
theorem okElems (x : Ctx V) (a : Addr) (i : Nat) (e : Elems V) (h : x.checkElems a i e = .ok ()) :
    ∀ j f, e.get? j = some f → ∀ b z, (Node.struct f).at b = some z → z.hasValue = true →
      x.local (elemAddr a (i + j) ++ b) z = .ok () := by
  intro j f hf b z hz hv
  cases e with
  | nil => simp [Elems.get?] at hf
  | cons c r =>
    simp only [Ctx.checkElems] at h
    cases hd : x.checkDynamic (elemAddr a i) (.struct c) with
    | error e => rw [hd] at h; simp at h
    | ok u =>
      rw [hd] at h
      simp only at h
      cases hk : x.checkFields (elemAddr a i) c with
      | error e => rw [hk] at h; simp at h
      | ok u =>
        rw [hk] at h
        simp only at h
        cases j with
        | zero =>
          simp [Elems.get?] at hf; subst hf
          by_cases hb : b = []
          · subst hb
            simp [Node.at] at hz; subst hz
            simp [Ctx.local, hd]
          · have := okFields x (elemAddr a i) c hk b z hb hz hv
            simpa using this
        | succ j =>
          have := okElems x a (i + 1) r h j f hf b z hz hv
          rw [show i + 1 + j = i + (j + 1) by omega] at this
          exact this
end

theorem at_head_mem {c : Fields V} {n : Name} {k : Option Nat} {b : Addr} {z : Node V}
    (h : (Node.struct c).at ((n, k) :: b) = some z) : n ∈ c.names := by
  simp only [Node.at] at h
  cases hi : (Node.struct c).item (n, k) with
  | none => simp [hi] at h
  | some w =>
    obtain ⟨c', e, h1 | ⟨i, m, el, f, h1, h2, h3, rfl⟩⟩ := item_cases hi
    · simp at e; subst e; exact get?_mem_names h1.2
    · simp at e; subst e; exact get?_mem_names h2

mutual
theorem errNode (x : Ctx V) (a : Addr) (y : Node V) (hw : WF y) (hv : y.hasValue = true) {e : ValErr}
    (h : x.checkNode a y = .error e) :
    (∃ b z, y.at b = some z ∧ z.hasValue = true ∧ x.local (a ++ b) z = .error e) ∨
    ∃ m el i f b z, y = .aos m el ∧ el.get? i = some f ∧ (Node.struct f).at b = some z ∧
      z.hasValue = true ∧ x.local (elemAddr a i ++ b) z = .error e := by
  cases y with
  | leaf l v =>
    refine .inl ⟨[], _, rfl, hv, ?_⟩
    simp only [Ctx.checkNode] at h
    simp only [Ctx.local, List.append_nil]
    cases hd : x.checkDynamic a (.leaf l v) with
    | error e => rw [hd] at h; exact h
    | ok u => rw [hd] at h; exact h
  | struct c =>
    simp only [Ctx.checkNode] at h
    cases hd : x.checkDynamic a (.struct c) with
    | error e =>
      rw [hd] at h
      exact .inl ⟨[], _, rfl, hv, by simp only [Ctx.local, List.append_nil, hd]; exact h⟩
    | ok u =>
      rw [hd] at h
      simp only [WF] at hw
      obtain ⟨b, z, -, hz, hzv, hl⟩ := errFields x a c hw h
      exact .inl ⟨b, z, hz, hzv, hl⟩
  | aos m el =>
    simp only [Ctx.checkNode] at h
    cases hd : x.checkDynamic a (.aos m el) with
    | error e =>
      rw [hd] at h
      exact .inl ⟨[], _, rfl, hv, by simp only [Ctx.local, List.append_nil, hd]; exact h⟩
    | ok u =>
      rw [hd] at h
      simp only at h
      split at h
      · next hlen =>
        cases hk : x.checkCoords a 1 (.aos m el) with
        | error e =>
          rw [hk] at h
          refine .inl ⟨[], _, rfl, hv, ?_⟩
          simp only [Ctx.local, List.append_nil, hd, if_pos hlen, hk]; exact h
        | ok u =>
          rw [hk] at h
          simp only [WF] at hw
          obtain ⟨j, f, b, z, hf, hz, hzv, hl⟩ := errElems x a 0 el hw.2 h
          rw [Nat.zero_add] at hl
          exact .inr ⟨m, el, j, f, b, z, rfl, hf, hz, hzv, hl⟩
      · simp at h
theorem errFields (x : Ctx V) (a : Addr) (c : Fields V) (hw : WFFields c) {e : ValErr}
    (h : x.checkFields a c = .error e) :
    ∃ b z, b ≠ [] ∧ (Node.struct c).at b = some z ∧ z.hasValue = true ∧
      x.local (a ++ b) z = .error e := by
  cases c with
  | nil => simp [Ctx.checkFields] at h
  | absent n m r =>
    simp only [Ctx.checkFields] at h
    simp only [WFFields] at hw
    obtain ⟨b, z, hb, hz, hv, hl⟩ := errFields x a r hw.2.2 h
    refine ⟨b, z, hb, ?_, hv, hl⟩
    cases b with
    | nil => exact absurd rfl hb
    | cons s b =>
      obtain ⟨n', k⟩ := s
      rw [at_absent_ne (show n' ≠ n by rintro rfl; exact hw.1 (at_head_mem hz))]
      exact hz
  | present n y r =>
    simp only [Ctx.checkFields] at h
    simp only [WFFields] at hw
    have hrest : x.checkFields a r = .error e → ∃ b z, b ≠ [] ∧
        (Node.struct (.present n y r)).at b = some z ∧ z.hasValue = true ∧
        x.local (a ++ b) z = .error e := by
      intro h
      obtain ⟨b, z, hb, hz, hv, hl⟩ := errFields x a r hw.2.2 h
      refine ⟨b, z, hb, ?_, hv, hl⟩
      cases b with
      | nil => exact absurd rfl hb
      | cons s b =>
        obtain ⟨n', k⟩ := s
        rw [at_present_ne (show n' ≠ n by rintro rfl; exact hw.1 (at_head_mem hz))]
        exact hz
    split at h
    · next hyv =>
      cases hk : x.checkNode (a ++ [(n, none)]) y with
      | ok u => rw [hk] at h; exact hrest h
      | error e' =>
        rw [hk] at h
        simp at h; subst h
        rcases errNode x _ y hw.2.1 hyv hk with ⟨b, z, hz, hzv, hl⟩ | ⟨m, el, i, f, b, z, rfl, hf, hz, hzv, hl⟩
        · refine ⟨(n, none) :: b, z, by simp, ?_, hzv, by simpa using hl⟩
          simp [Node.at, Node.item, Fields.get?, hz]
        · refine ⟨(n, some i) :: b, z, by simp, ?_, hzv, ?_⟩
          · simp [Node.at, Node.item, Fields.get?, hf, hz]
          · rw [elemAddr_last] at hl; simpa using hl
    · exact hrest h
theorem errElems (x : Ctx V) (a : Addr) (i : Nat) (e : Elems V) (hw : WFElems e) {err : ValErr}
    (h : x.checkElems a i e = .error err) :
    ∃ j f b z, e.get? j = some f ∧ (Node.struct f).at b = some z ∧ z.hasValue = true ∧
      x.local (elemAddr a (i + j) ++ b) z = .error err := by
  cases e with
  | nil => simp [Ctx.checkElems] at h
  | cons c r =>
    simp only [Ctx.checkElems] at h
    simp only [WFElems] at hw
    cases hd : x.checkDynamic (elemAddr a i) (.struct c) with
    | error e' =>
      rw [hd] at h
      simp at h; subst h
      refine ⟨0, c, [], .struct c, rfl, rfl, ?_, by simp [Ctx.local, hd]⟩
      unfold Ctx.checkDynamic at hd
      split at hd
      · next hh => simp only [Bool.and_eq_true] at hh; exact hh.2
      · simp at hd
    | ok u =>
      rw [hd] at h
      simp only at h
      cases hk : x.checkFields (elemAddr a i) c with
      | error e' =>
        rw [hk] at h
        simp at h; subst h
        obtain ⟨b, z, hb, hz, hv, hl⟩ := errFields x _ c hw.1 hk
        exact ⟨0, c, b, z, rfl, hz, hv, by simpa using hl⟩
      | ok u =>
        rw [hk] at h
        obtain ⟨j, f, b, z, hf, hz, hv, hl⟩ := errElems x a (i + 1) r hw.2 h
        refine ⟨j + 1, f, b, z, hf, hz, hv, ?_⟩
        rw [show i + (j + 1) = i + 1 + j by omega]
        exact hl
end

/-! ### One node -/

theorem fixed_some {c : Coordinate} {s : Int} :
    Coordinate.fixed c = some s ↔ c.size = some s ∧ s ≠ 0 := by
  unfold Coordinate.fixed
  split
  · next h => simp [h]; intro e; exact e.symm
  · next h =>
    constructor
    · intro e; exact ⟨e, fun e0 => h (e0 ▸ e)⟩
    · exact fun h => h.1

theorem fixed_none {c : Coordinate} : Coordinate.fixed c = none ↔ NoSize c := by
  unfold Coordinate.fixed NoSize
  split
  · next h => simp [h]
  · next h => exact ⟨fun e => .inl e, fun e => e.elim id (fun e => absurd e h)⟩

theorem emptyTime_iff {v : LeafMeta × Option V} : emptyTime v = true ↔ EmptyTime v := by
  obtain ⟨l, v⟩ := v
  cases v <;> simp [emptyTime, EmptyTime]

theorem shape_unique {y : Node V} {s t : List Nat} (h : Shape y s) (h' : Shape y t) : s = t := by
  have := (shapeOf_iff.mpr h).symm.trans (shapeOf_iff.mpr h')
  simpa using this

theorem bind_shape_none {x : Ctx V} {b : Addr} :
    (x.root.at b).bind shapeOf = none ↔ ∀ y s, x.root.at b = some y → ¬ Shape y s := by
  cases h : x.root.at b with
  | none => simp
  | some y =>
    simp only [Option.bind_some]
    constructor
    · intro hn y' s e hs
      simp at e; subst e
      rw [shapeOf_iff.mpr hs] at hn; simp at hn
    · intro hn
      cases hs : shapeOf y with
      | none => rfl
      | some s => exact absurd (shapeOf_iff.mp hs) (hn y s rfl)

theorem bind_shape_some {x : Ctx V} {b : Addr} {s : List Nat} :
    (x.root.at b).bind shapeOf = some s ↔ ∃ y, x.root.at b = some y ∧ Shape y s := by
  cases h : x.root.at b with
  | none => simp
  | some y => simp [shapeOf_iff]

theorem compareSize_ok {x : Ctx V} {a : Addr} {dim n : Nat} {c : Coordinate} {r : CoordResult V} :
    x.compareSize a dim n c r = .ok () ↔ Agrees x n c r := by
  cases r with
  | range k =>
    simp only [Ctx.compareSize]
    cases hf : Coordinate.fixed c with
    | some s =>
      simp only [reduceCtorEq, false_iff]
      intro h
      cases h with
      | range h => rw [fixed_none.mpr h] at hf; simp at hf
    | none =>
      simp only
      split
      · next e => subst e; simp only [true_iff]; exact .range (fixed_none.mp hf)
      · next e => simp only [reduceCtorEq, false_iff]; intro h; cases h; exact e rfl
  | values vs =>
    simp only [Ctx.compareSize]
    cases hf : Coordinate.fixed c with
    | some s =>
      simp only [reduceCtorEq, false_iff]
      intro h
      cases h with
      | values h => rw [fixed_none.mpr h] at hf; simp at hf
    | none =>
      simp only
      split
      · next e =>
        simp only [reduceCtorEq, false_iff]
        intro h
        cases h with
        | values h hn he =>
          obtain ⟨v, hv, hv'⟩ := List.any_eq_true.mp e
          exact he v hv (emptyTime_iff.mp hv')
      · next e =>
        split
        · next en =>
          simp only [true_iff]
          refine .values (fixed_none.mp hf) en.symm fun v hv hv' => e ?_
          exact List.any_eq_true.mpr ⟨v, hv, emptyTime_iff.mpr hv'⟩
        · next en => simp only [reduceCtorEq, false_iff]; intro h; cases h with | values h hn he => exact en hn.symm
  | node b =>
    simp only [Ctx.compareSize]
    cases hb : (x.root.at b).bind shapeOf with
    | none => simp only [true_iff]; exact .noShape (bind_shape_none.mp hb)
    | some s =>
      obtain ⟨y, hy, hs⟩ := bind_shape_some.mp hb
      have key : Agrees x n c (.node b) → ∃ t, s = n :: t := by
        intro h
        cases h with
        | node hy' hs' =>
          rw [hy] at hy'; simp at hy'; subst hy'
          exact ⟨_, shape_unique hs hs'⟩
        | noShape h => exact absurd hs (h y s hy)
      cases s with
      | nil => simp only [reduceCtorEq, false_iff]; intro h; obtain ⟨t, h⟩ := key h; simp at h
      | cons k t =>
        simp only
        split
        · next e => subst e; simp only [true_iff]; exact .node hy hs
        · next e =>
          simp only [reduceCtorEq, false_iff]; intro h
          obtain ⟨t, h⟩ := key h; simp at h; exact e h.1.symm

theorem coordinate_iff {x : Ctx V} {a : Addr} {key : Nat} {r : CoordResult V} :
    x.coordinate a key = .ok r ↔ Lookup x a key r := Props.C20_lookup x a key r

theorem checkReferences_ok {x : Ctx V} {a : Addr} {dim n : Nat} {c : Coordinate} :
    x.checkReferences a dim n c = .ok () ↔ c.references ≠ [] ∧
      (x.coordinate a dim = .error .other ∨ ∃ r, Lookup x a dim r ∧ Agrees x n c r) := by
  unfold Ctx.checkReferences
  by_cases hr : c.references = []
  · simp [hr]
  · rw [if_neg hr]
    simp only [ne_eq, hr, not_false_eq_true, true_and]
    cases hc : x.coordinate a dim with
    | error e =>
      have hno : ¬ ∃ r, Lookup x a dim r ∧ Agrees x n c r := by
        rintro ⟨r, h, -⟩
        rw [coordinate_iff.mpr h] at hc; simp at hc
      cases e <;> simp [hno]
    | ok r =>
      simp only [compareSize_ok, reduceCtorEq, false_or]
      constructor
      · exact fun h => ⟨r, coordinate_iff.mp hc, h⟩
      · rintro ⟨r', h, h'⟩
        rw [coordinate_iff.mpr h] at hc; simp at hc; subst hc; exact h'

theorem checkDim_ok {x : Ctx V} {a : Addr} {dim n : Nat} {c : Coordinate} :
    x.checkDim a dim n c = .ok () ↔ DimFits x a dim n c := by
  unfold Ctx.checkDim DimFits
  by_cases hv : c.hasValidation = true
  · simp only [hv, Bool.not_true, Bool.false_eq_true, if_false, true_imp_iff]
    cases hf : Coordinate.fixed c with
    | none =>
      have hs := fixed_none.mp hf
      simp only [checkReferences_ok]
      constructor
      · exact fun h => .inr ⟨.inl hs, h⟩
      · rintro (⟨s, h1, h2, -⟩ | ⟨-, h⟩)
        · rw [fixed_some.mpr ⟨h1, h2⟩] at hf; simp at hf
        · exact h
    | some s =>
      obtain ⟨h1, h2⟩ := fixed_some.mp hf
      simp only
      have hns : ¬ NoSize c := fun h => by rw [fixed_none.mpr h] at hf; simp at hf
      split
      · next e => simp only [true_iff]; exact .inl ⟨s, h1, h2, e⟩
      · next e =>
        have hne : ¬ ∃ s, c.size = some s ∧ s ≠ 0 ∧ (n : Int) = s := by
          rintro ⟨s', h1', -, e'⟩
          rw [h1] at h1'; simp at h1'; subst h1'; exact e e'
        cases hA : c.hasAlternatives with
        | false => simp [hne, hns]
        | true => simp [hne, checkReferences_ok]
  · simp [hv]

theorem locate_error {x : Ctx V} {a : Addr} {p : Parsed} {e : LookErr} :
    x.locate a p = .error e ↔ ∃ e', goto x.asInt x.stack x.root a true p = .error e' ∧ navErr e' = e := by
  unfold Ctx.locate
  cases goto x.asInt x.stack x.root a true p <;> simp

theorem navErr_index {e : NavErr} : navErr e = .index ↔ e = .index := by cases e <;> simp [navErr]
theorem navErr_other {e : NavErr} : navErr e = .other ↔ e ≠ .index := by cases e <;> simp [navErr]

theorem bind_dim {x : Ctx V} {b : Addr} {dim k : Nat} :
    ((x.root.at b).bind shapeOf).bind (·[dim]?) = some k ↔
      ∃ y s, x.root.at b = some y ∧ Shape y s ∧ s[dim]? = some k := by
  cases h : (x.root.at b).bind shapeOf with
  | none =>
    have := bind_shape_none.mp h
    constructor
    · intro h; simp at h
    · rintro ⟨y, s, hy, hs, -⟩; exact absurd hs (this y s hy)
  | some s =>
    obtain ⟨y, hy, hs⟩ := bind_shape_some.mp h
    simp only [Option.bind_some]
    constructor
    · exact fun h => ⟨y, s, hy, hs, h⟩
    · rintro ⟨y', s', hy', hs', h'⟩
      rw [hy] at hy'; simp at hy'; subst hy'
      rw [shape_unique hs hs']; exact h'

theorem checkSameAs_ok {x : Ctx V} {a : Addr} {dim n : Nat} {c : Coordinate} :
    x.checkSameAs a dim n c = .ok () ↔ SameFits x a dim n c := by
  unfold Ctx.checkSameAs SameFits
  by_cases hv : c.hasValidation = true
  · simp only [hv, Bool.not_true, Bool.false_eq_true, if_false, true_imp_iff]
    split
    · next p hp =>
      simp only [hp, List.cons.injEq, and_true, exists_eq_left']
      cases hl : x.locate a p with
      | error e =>
        obtain ⟨e', h1, h2⟩ := locate_error.mp hl
        have hno : ∀ b, ¬ Leads x a p b := by
          intro b hb; rw [locate_ok.mpr hb] at hl; simp at hl
        have hno' : ¬ ∃ b y s, Leads x a p b ∧ x.root.at b = some y ∧ Shape y s ∧ s[dim]? = some n := by
          rintro ⟨b, y, s, h, -⟩; exact hno b h
        simp only [h1, hno', or_false, Except.error.injEq, exists_eq_right']
        cases e with
        | lookup => exact absurd hl locate_ne_lookup
        | index => rw [navErr_index] at h2; simp [h2]
        | other => rw [navErr_other] at h2; simp [h2]
      | ok b =>
        have hb := locate_ok.mp hl
        have hno : ¬ ∃ e, e ≠ NavErr.index ∧ goto x.asInt x.stack x.root a true p = .error e := by
          rintro ⟨e, -, h⟩; unfold Leads at hb; rw [hb] at h; simp at h
        simp only [hno, false_or]
        have hex : (∃ b' y s, Leads x a p b' ∧ x.root.at b' = some y ∧ Shape y s ∧ s[dim]? = some n) ↔
            ((x.root.at b).bind shapeOf).bind (·[dim]?) = some n := by
          rw [bind_dim]
          constructor
          · rintro ⟨b', y, s, h, h'⟩
            unfold Leads at h hb; rw [hb] at h; simp at h; subst h
            exact ⟨y, s, h'⟩
          · rintro ⟨y, s, h'⟩; exact ⟨b, y, s, hb, h'⟩
        rw [hex]
        cases hd : ((x.root.at b).bind shapeOf).bind (·[dim]?) with
        | none => simp
        | some k =>
          simp only [Option.some.injEq]
          split
          · next e => simp [e]
          · next e => simp; exact fun h => e h.symm
    · next hp =>
      simp only [reduceCtorEq, false_iff]
      rintro ⟨p, h, -⟩; exact hp p h
  · simp [hv]

theorem overDims_ok {check : Nat → Nat → Coordinate → Except ValErr Unit} {a : Addr}
    {sh : List Nat} {cs : List Coordinate} {d k : Nat} :
    overDims check a sh cs d k = .ok () ↔ ∀ i, d ≤ i → i < d + k →
      ∃ n c, sh[i]? = some n ∧ cs[i]? = some c ∧ check i n c = .ok () := by
  induction k generalizing d with
  | zero => simp only [overDims, true_iff]; intro i h1 h2; omega
  | succ k ih =>
    simp only [overDims]
    constructor
    · intro h
      split at h
      · next n c hn hc =>
        cases hk : check d n c with
        | error e => rw [hk] at h; simp at h
        | ok u =>
          rw [hk] at h
          intro i h1 h2
          by_cases e : i = d
          · subst e; exact ⟨n, c, hn, hc, hk⟩
          · exact ih.mp h i (by omega) (by omega)
      · simp at h
    · intro h
      obtain ⟨n, c, hn, hc, hk⟩ := h d (by omega) (by omega)
      simp only [hn, hc, hk]
      exact ih.mpr fun i h1 h2 => h i (by omega) (by omega)

theorem overDims_error {check : Nat → Nat → Coordinate → Except ValErr Unit} {a : Addr}
    {sh : List Nat} {cs : List Coordinate} {d k : Nat} {e : ValErr}
    (h : overDims check a sh cs d k = .error e) : ∃ i, d ≤ i ∧ i < d + k ∧
      ((∃ n c, sh[i]? = some n ∧ cs[i]? = some c ∧ check i n c = .error e) ∨
       ((sh[i]? = none ∨ cs[i]? = none) ∧ e = .crash a (some i))) := by
  induction k generalizing d with
  | zero => simp [overDims] at h
  | succ k ih =>
    simp only [overDims] at h
    split at h
    · next n c hn hc =>
      cases hk : check d n c with
      | error e' =>
        rw [hk] at h; simp at h; subst h
        exact ⟨d, by omega, by omega, .inl ⟨n, c, hn, hc, hk⟩⟩
      | ok u =>
        rw [hk] at h
        obtain ⟨i, h1, h2, h3⟩ := ih h
        exact ⟨i, by omega, by omega, h3⟩
    · next hno =>
      simp at h; subst h
      refine ⟨d, by omega, by omega, .inr ⟨?_, rfl⟩⟩
      cases hs : sh[d]? with
      | none => simp
      | some n =>
        cases hc : cs[d]? with
        | none => simp
        | some c => exact absurd hc (hno n c hs)

theorem checkCoords_ok {x : Ctx V} {a : Addr} {y : Node V} {s : List Nat} (hs : Shape y s) :
    x.checkCoords a (dims y) y = .ok () ↔ CoordsFit x a y := by
  unfold Ctx.checkCoords CoordsFit
  rw [shapeOf_iff.mpr hs]
  simp only
  constructor
  · intro h s' hs' dim hdim
    have := shape_unique hs hs'; subst this
    cases h1 : overDims (x.checkDim a) a s (x.md a).coords 0 (dims y) with
    | error e => rw [h1] at h; simp at h
    | ok u =>
      rw [h1] at h
      obtain ⟨n, c, hn, hc, hk⟩ := overDims_ok.mp h1 dim (by omega) (by omega)
      obtain ⟨n', d, hn', hd, hk'⟩ := overDims_ok.mp h dim (by omega) (by omega)
      rw [hn] at hn'; simp at hn'; subst hn'
      exact ⟨n, c, d, hn, hc, hd, checkDim_ok.mp hk, checkSameAs_ok.mp hk'⟩
  · intro h
    have h1 : overDims (x.checkDim a) a s (x.md a).coords 0 (dims y) = .ok () := by
      refine overDims_ok.mpr fun i _ hi => ?_
      obtain ⟨n, c, d, hn, hc, hd, hk, -⟩ := h s hs i (by omega)
      exact ⟨n, c, hn, hc, checkDim_ok.mpr hk⟩
    rw [h1]
    refine overDims_ok.mpr fun i _ hi => ?_
    obtain ⟨n, c, d, hn, hc, hd, -, hk⟩ := h s hs i (by omega)
    exact ⟨n, d, hn, hd, checkSameAs_ok.mpr hk⟩

theorem filled_shape {y : Node V} (h : Filled y) : ∃ s, Shape y s := by
  cases y with
  | leaf l v =>
    by_cases e : l.ndim = 0
    · exact ⟨_, .scalar e⟩
    · cases v with
      | none => simp [Filled] at h
      | some v => exact ⟨_, .array e⟩
  | struct c => simp [Filled] at h
  | aos m e => exact ⟨_, .elems⟩

/-- The check of a filled node. -/
theorem local_filled {x : Ctx V} {a : Addr} {y : Node V} (h : Filled y) :
    x.local a y = (match x.checkDynamic a y with
      | .error e => .error e
      | .ok _ => if dims y > 0 then x.checkCoords a (dims y) y else .ok ()) := by
  unfold Ctx.local
  cases x.checkDynamic a y with
  | error e => rfl
  | ok u =>
    simp only
    cases y with
    | leaf l v =>
      cases v with
      | none => simp [Filled] at h
      | some v => simp only [Filled] at h; simp [leafHasValue, h, dims]
    | struct c => simp [Filled] at h
    | aos m e => simp only [Filled] at h; simp [dims]; omega

theorem local_unfilled {x : Ctx V} {a : Addr} {y : Node V} (h : ¬ Filled y) :
    x.local a y = x.checkDynamic a y := by
  unfold Ctx.local
  cases x.checkDynamic a y with
  | error e => rfl
  | ok u =>
    simp only
    cases y with
    | leaf l v =>
      cases v with
      | none => simp [leafHasValue]
      | some v => simp only [Filled] at h; simp at h; simp [leafHasValue, h]
    | struct c => rfl
    | aos m e => simp only [Filled] at h; simp at h; simp [h]

theorem checkDynamic_ok {x : Ctx V} {a : Addr} {y : Node V} {m : Int} (hm : Mode x m) :
    x.checkDynamic a y = .ok () ↔ (m = 2 → y.hasValue = true → (x.md a).dynamic = false) := by
  unfold Ctx.checkDynamic
  rw [timeMode_iff.mpr hm]
  cases (x.md a).dynamic <;> cases y.hasValue <;> simp

end Verif.Ids
