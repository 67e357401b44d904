import Verif.Spec.Validate
import Verif.Lemmas.Goto
set_option linter.unusedSectionVars false
namespace Verif.Ids
open Verif.Path (Parsed isAncestorOf)
open Verif.Coord (Coordinate)
open Verif.ValidateSpec

variable {V : Type} [ShapedValue V]

theorem err_ne {α β : Type} {y : Except LookErr α} {e : LookErr} (h : y = .error e)
    (hy : y ≠ .error .lookup) : (.error e : Except LookErr β) ≠ .error .lookup := by
  intro h'; simp at h'; subst h'; exact hy h

theorem locate_ok {x : Ctx V} {a : Addr} {p : Parsed} {b : Addr} :
    x.locate a p = .ok b ↔ Leads x a p b := by
  unfold Ctx.locate Leads
  cases goto x.asInt x.stack x.root a true p <;> simp

theorem locate_ne_lookup {x : Ctx V} {a : Addr} {p : Parsed} : x.locate a p ≠ .error .lookup := by
  unfold Ctx.locate
  cases h : goto x.asInt x.stack x.root a true p with
  | ok b => simp
  | error e => cases e <;> simp [navErr]

theorem shapeOf_iff {y : Node V} {s : List Nat} : shapeOf y = some s ↔ Shape y s := by
  constructor
  · intro h
    cases y with
    | leaf l v =>
      simp only [shapeOf] at h
      split at h
      · next e => simp at h; subst h; exact .scalar e
      · next e =>
        cases v with
        | none => simp at h; subst h; exact .unset e
        | some v => simp at h; subst h; exact .array e
    | struct c => simp [shapeOf] at h
    | aos m e => simp [shapeOf] at h; subst h; exact .elems
  · intro h
    cases h with
    | scalar e => simp [shapeOf, e]
    | unset e => simp [shapeOf, e]
    | array e => simp [shapeOf, e]
    | elems => simp [shapeOf]

theorem lenOf_ok {y : Node V} {n : Nat} : lenOf y = .ok n ↔ Length y n := by
  constructor
  · intro h
    cases y with
    | leaf l v =>
      simp only [lenOf] at h
      split at h
      · next e =>
        split at h
        · next t =>
          cases v with
          | none => simp at h; subst h; exact .noText e t
          | some v => simp at h; subst h; exact .text e t
        · simp at h
      · next e =>
        cases v with
        | none => simp at h; subst h; exact .unset e
        | some v =>
          simp only at h
          split at h
          · next k s hs => simp at h; subst h; exact .array e hs
          · simp at h
    | struct c => simp [lenOf] at h
    | aos m e => simp [lenOf] at h; subst h; exact .elems
  · intro h
    cases h with
    | unset e => simp [lenOf, e]
    | array e hs => simp [lenOf, e, hs]
    | noText e t => simp [lenOf, e, t]
    | text e t => simp [lenOf, e, t]
    | elems => simp [lenOf]

theorem lenOf_ne_lookup {y : Node V} : lenOf y ≠ .error .lookup := by
  cases y with
  | leaf l v =>
    simp only [lenOf]
    split
    · split
      · cases v <;> simp
      · simp
    · cases v with
      | none => simp
      | some v => simp only; split <;> simp
  | struct c => simp [lenOf]
  | aos m e => simp [lenOf]

theorem lenAt_ok {x : Ctx V} {b : Addr} {n : Nat} :
    x.lenAt b = .ok n ↔ ∃ y, x.root.at b = some y ∧ Length y n := by
  unfold Ctx.lenAt
  cases x.root.at b with
  | none => simp
  | some y => simp [lenOf_ok]

theorem lenAt_ne_lookup {x : Ctx V} {b : Addr} : x.lenAt b ≠ .error .lookup := by
  unfold Ctx.lenAt
  cases x.root.at b with
  | none => simp
  | some y => exact lenOf_ne_lookup

theorem range_ok {x : Ctx V} {a : Addr} {key : Nat} {r : CoordResult V} :
    x.range a key = .ok r ↔
      ∃ y s n, x.root.at a = some y ∧ Shape y s ∧ s[key]? = some n ∧ r = .range n := by
  unfold Ctx.range
  constructor
  · intro h
    cases hy : x.root.at a with
    | none => rw [hy] at h; simp at h
    | some y =>
      rw [hy] at h
      cases hs : shapeOf y with
      | none => rw [Option.bind_some, hs] at h; simp at h
      | some s =>
        rw [Option.bind_some, hs] at h
        simp only at h
        split at h
        · simp at h
        · next n hn => simp at h; exact ⟨y, s, n, rfl, shapeOf_iff.mp hs, hn, h.symm⟩
  · rintro ⟨y, s, n, hy, hs, hn, rfl⟩
    rw [hy, Option.bind_some, shapeOf_iff.mpr hs]
    simp [hn]

theorem range_ne_lookup {x : Ctx V} {a : Addr} {key : Nat} : x.range a key ≠ .error .lookup := by
  unfold Ctx.range
  split
  · simp
  · split <;> simp

theorem alternatives_ok {x : Ctx V} {b : Addr} {ps : List Parsed} {cs : List (Addr × Nat)} :
    x.alternatives b ps = .ok cs ↔ Candidates x b ps cs := by
  induction ps generalizing cs with
  | nil =>
    simp only [Ctx.alternatives, Except.ok.injEq]
    exact ⟨fun h => h ▸ .nil, fun h => by cases h; rfl⟩
  | cons p ps ih =>
    simp only [Ctx.alternatives]
    constructor
    · intro h
      split at h
      · simp at h
      · next c hc =>
        split at h
        · simp at h
        · next n hn =>
          split at h
          · simp at h
          · next r hr =>
            simp at h; subst h
            obtain ⟨y, hy, hl⟩ := lenAt_ok.mp hn
            exact .cons (locate_ok.mp hc) hy hl (ih.mp hr)
    · intro h
      cases h with
      | cons h hy hn r =>
        rw [locate_ok.mpr h]
        simp only [lenAt_ok.mpr ⟨_, hy, hn⟩, ih.mpr r]

theorem alternatives_ne_lookup {x : Ctx V} {b : Addr} {ps : List Parsed} :
    x.alternatives b ps ≠ .error .lookup := by
  induction ps with
  | nil => simp [Ctx.alternatives]
  | cons p ps ih =>
    simp only [Ctx.alternatives]
    cases h : x.locate b p with
    | error e => exact err_ne h locate_ne_lookup
    | ok c =>
      simp only
      cases h2 : x.lenAt c with
      | error e => exact err_ne h2 lenAt_ne_lookup
      | ok n =>
        simp only
        cases h3 : x.alternatives b ps with
        | error e => exact err_ne h3 ih
        | ok r => simp

/-- Lines 236 and 237 together. -/
def Ctx.refs (x : Ctx V) (a : Addr) (ps : List Parsed) : Except LookErr (List (Addr × Nat)) :=
  match x.locateAll a ps with
  | .error e => .error e
  | .ok bs => x.lenAll bs

theorem refs_ok {x : Ctx V} {a : Addr} {ps : List Parsed} {cs : List (Addr × Nat)} :
    x.refs a ps = .ok cs ↔ Candidates x a ps cs := by
  unfold Ctx.refs
  induction ps generalizing cs with
  | nil =>
    simp only [Ctx.locateAll, Ctx.lenAll, Except.ok.injEq]
    exact ⟨fun h => h ▸ .nil, fun h => by cases h; rfl⟩
  | cons p ps ih =>
    simp only [Ctx.locateAll]
    constructor
    · intro h
      cases hb : x.locate a p with
      | error e => rw [hb] at h; simp at h
      | ok b =>
        rw [hb] at h
        simp only at h
        cases hbs : x.locateAll a ps with
        | error e => rw [hbs] at h; simp at h
        | ok bs =>
          rw [hbs] at h ih
          simp only [Ctx.lenAll] at h ih
          cases hn : x.lenAt b with
          | error e => rw [hn] at h; simp at h
          | ok n =>
            rw [hn] at h
            simp only at h
            cases hr : x.lenAll bs with
            | error e => rw [hr] at h; simp at h
            | ok r =>
              rw [hr] at h
              simp at h; subst h
              obtain ⟨y, hy, hl⟩ := lenAt_ok.mp hn
              exact .cons (locate_ok.mp hb) hy hl (ih.mp hr)
    · intro h
      cases h with
      | cons h hy hn r =>
        rw [locate_ok.mpr h]
        have := ih.mpr r
        cases hbs : x.locateAll a ps with
        | error e => rw [hbs] at this; simp at this
        | ok bs =>
          rw [hbs] at this
          simp only at this
          simp only [Ctx.lenAll, lenAt_ok.mpr ⟨_, hy, hn⟩, this]

theorem refs_ne_lookup {x : Ctx V} {a : Addr} {ps : List Parsed} :
    x.refs a ps ≠ .error .lookup := by
  unfold Ctx.refs
  have h1 : x.locateAll a ps ≠ .error .lookup := by
    induction ps with
    | nil => simp [Ctx.locateAll]
    | cons p ps ih =>
      simp only [Ctx.locateAll]
      cases h : x.locate a p with
      | error e => exact err_ne h locate_ne_lookup
      | ok c =>
        simp only
        cases h3 : x.locateAll a ps with
        | error e => exact err_ne h3 ih
        | ok r => simp
  have h2 : ∀ bs : List Addr, x.lenAll bs ≠ .error .lookup := by
    intro bs
    induction bs with
    | nil => simp [Ctx.lenAll]
    | cons p ps ih =>
      simp only [Ctx.lenAll]
      cases h : x.lenAt p with
      | error e => exact err_ne h lenAt_ne_lookup
      | ok c =>
        simp only
        cases h3 : x.lenAll ps with
        | error e => exact err_ne h3 ih
        | ok r => simp
  cases h : x.locateAll a ps with
  | error e => exact err_ne h h1
  | ok bs => exact h2 bs

theorem timeMode_iff {x : Ctx V} {m : Int} : x.timeMode = some m ↔ Mode x m := by
  unfold Ctx.timeMode Mode
  constructor
  · intro h
    split at h
    · next i hi =>
      simp at h; subst h
      unfold intValue at hi
      split at hi
      · next l hl =>
        split at hi
        · next c => simp at hi; exact ⟨l, none, hl, .inr ⟨rfl, c.1, c.2, hi.symm⟩⟩
        · simp at hi
      · next l v hl =>
        split at hi
        · next i' hv => simp at hi; subst hi; exact ⟨l, some v, hl, .inl ⟨v, rfl, hv⟩⟩
        · simp at hi
      · simp at hi
      · split at hi <;> simp at hi
      · simp at hi
    · simp at h
  · rintro ⟨l, v, hl, ⟨w, rfl, hw⟩ | ⟨rfl, h1, h2, rfl⟩⟩
    · have hl' : x.root.at timeModeAddr = some (.leaf l (some w)) := hl
      simp [intValue, hl', hw]
    · have hl' : x.root.at timeModeAddr = some (.leaf l none) := hl
      simp [intValue, hl', h1, h2]

theorem mode_unique {x : Ctx V} {m n : Int} (h : Mode x m) (h' : Mode x n) : m = n := by
  have := (timeMode_iff.mpr h).symm.trans (timeMode_iff.mpr h')
  simpa using this

theorem choosePath_some {x : Ctx V} {c : Coordinate} {p : Parsed} :
    choosePath c x.timeMode = .ok (some p) ↔ Uses x c p := by
  unfold choosePath Uses
  by_cases ht : c.isTime = true
  · simp only [ht, if_true, true_and]
    cases hm : x.timeMode with
    | none =>
      constructor
      · intro h; simp at h
      · rintro (⟨h, -⟩ | ⟨h, -⟩ | ⟨h, -⟩)
        · rw [timeMode_iff.mpr h] at hm; simp at hm
        · rw [timeMode_iff.mpr h] at hm; simp at hm
        · simp at h
    | some m =>
      have hmode := timeMode_iff.mp hm
      simp only
      constructor
      · intro h
        split at h
        · next e => subst e; simp at h; exact .inl ⟨hmode, h.symm⟩
        · split at h
          · next e => subst e; simp at h; exact .inr (.inl ⟨hmode, h⟩)
          · simp at h
      · rintro (⟨h, rfl⟩ | ⟨h, hp⟩ | ⟨h, -⟩)
        · have := mode_unique hmode h; subst this; simp [timePath]
        · have := mode_unique hmode h; subst this; simp [hp]
        · simp at h
  · simp only [ht]
    cases hA : c.hasAlternatives <;> simp

theorem choosePath_none {x : Ctx V} {c : Coordinate} (hr : c.references ≠ []) :
    choosePath c x.timeMode = .ok none ↔ Chooses c := by
  unfold choosePath Chooses
  have hh : c.references.head? ≠ none := by simpa using hr
  by_cases ht : c.isTime = true
  · simp only [ht, if_true]
    cases hm : x.timeMode with
    | none => simp
    | some m =>
      simp only
      split
      · simp
      · split
        · simp [hr]
        · simp
  · simp only [ht]
    cases hA : c.hasAlternatives <;> simp [hr]

theorem choosePath_ne_lookup {x : Ctx V} {c : Coordinate} :
    choosePath c x.timeMode ≠ .error .lookup := by
  unfold choosePath
  split
  · split
    · simp
    · split
      · simp
      · split <;> simp
  · split <;> simp

theorem elemValues_ok {x : Ctx V} {a : Addr} {p : Parsed} {n i : Nat}
    {vs : List (LeafMeta × Option V)} :
    x.elemValues a p i n = .ok vs ↔ InElements x a p i n vs := by
  induction n generalizing i vs with
  | zero =>
    simp only [Ctx.elemValues, Except.ok.injEq]
    exact ⟨fun h => h ▸ .nil, fun h => by cases h; rfl⟩
  | succ n ih =>
    simp only [Ctx.elemValues]
    constructor
    · intro h
      split at h
      · simp at h
      · next b hb =>
        split at h
        · next l v hl =>
          split at h
          · simp at h
          · next r hr => simp at h; subst h; exact .cons (locate_ok.mp hb) hl (ih.mp hr)
        · simp at h
    · intro h
      cases h with
      | cons h hy r => rw [locate_ok.mpr h]; simp only [hy, ih.mpr r]

theorem elemValues_ne_lookup {x : Ctx V} {a : Addr} {p : Parsed} {n i : Nat} :
    x.elemValues a p i n ≠ .error .lookup := by
  induction n generalizing i with
  | zero => simp [Ctx.elemValues]
  | succ n ih =>
    simp only [Ctx.elemValues]
    cases h : x.locate (elemAddr a i) p with
    | error e => exact err_ne h locate_ne_lookup
    | ok b =>
      simp only
      split
      · cases h2 : x.elemValues a p (i + 1) n with
        | error e => exact err_ne h2 ih
        | ok r => simp
      · simp

theorem valueShape_iff {v : LeafMeta × Option V} {s : List Nat} :
    valueShape v = s ↔ ValueShape v s := by
  obtain ⟨l, v⟩ := v
  cases v with
  | none => exact ⟨fun h => h ▸ .unset, fun h => by cases h; rfl⟩
  | some v => exact ⟨fun h => h ▸ .set, fun h => by cases h; rfl⟩

theorem stackValues_ok {vs : List (LeafMeta × Option V)} {r : CoordResult V} :
    stackValues vs = .ok r ↔ r = .values vs ∧ ∃ s, ∀ v ∈ vs, ValueShape v s := by
  unfold stackValues
  split
  · next h =>
    simp only [Except.ok.injEq]
    constructor
    · intro e
      refine ⟨e.symm, (vs.head?.map valueShape).getD [], fun v hv => ?_⟩
      have := List.all_eq_true.mp h v hv
      exact valueShape_iff.mp (by simpa using this)
    · rintro ⟨e, -⟩; exact e.symm
  · next h =>
    simp only [reduceCtorEq, false_iff, not_and, not_exists]
    intro _ s hs
    refine h (List.all_eq_true.mpr fun v hv => ?_)
    cases vs with
    | nil => simp at hv
    | cons w ws =>
      have h1 := valueShape_iff.mpr (hs v hv)
      have h2 := valueShape_iff.mpr (hs w (by simp))
      simp [h1, h2]

theorem ancestor_iff {a : List Name} {p : Parsed} :
    isAncestorOf ⟨a, []⟩ p = true ↔ ∃ n ns, p.parts = a ++ n :: ns := by
  simp only [isAncestorOf, Bool.and_eq_true, decide_eq_true_eq, beq_iff_eq]
  constructor
  · rintro ⟨h1, h2⟩
    have := List.take_append_drop a.length p.parts
    rw [h2] at this
    cases hd : p.parts.drop a.length with
    | nil => have := congrArg List.length hd; simp at this; omega
    | cons n ns => exact ⟨n, ns, by rw [← hd]; exact this.symm⟩
  · rintro ⟨n, ns, h⟩
    rw [h]; simp

theorem filter_nil_iff {cs : List (Addr × Nat)} :
    cs.filter (fun c => c.2 > 0) = [] ↔ ∀ q ∈ cs, q.2 = 0 := by
  simp

theorem filter_cons_split {cs fs : List (Addr × Nat)} {c : Addr × Nat}
    (h : cs.filter (fun c => c.2 > 0) = c :: fs) :
    ∃ pre post, cs = pre ++ c :: post ∧ c.2 ≠ 0 ∧ (∀ q ∈ pre, q.2 = 0) ∧
      post.filter (fun c => c.2 > 0) = fs := by
  induction cs with
  | nil => simp at h
  | cons d cs ih =>
    by_cases hd : d.2 > 0
    · rw [List.filter_cons_of_pos (by simpa using hd)] at h
      simp only [List.cons.injEq] at h
      obtain ⟨rfl, h⟩ := h
      exact ⟨[], cs, rfl, by omega, by simp, h⟩
    · rw [List.filter_cons_of_neg (by simpa using hd)] at h
      obtain ⟨pre, post, e, h1, h2, h3⟩ := ih h
      refine ⟨d :: pre, post, by simp [e], h1, ?_, h3⟩
      intro q hq
      rcases List.mem_cons.mp hq with rfl | hq
      · omega
      · exact h2 q hq

theorem filter_split {pre post : List (Addr × Nat)} {c : Addr × Nat} (hc : c.2 ≠ 0)
    (h : ∀ q ∈ pre, q.2 = 0) :
    (pre ++ c :: post).filter (fun c => c.2 > 0) = c :: post.filter (fun c => c.2 > 0) := by
  rw [List.filter_append, filter_nil_iff.mpr h, List.filter_cons_of_pos (by simp; omega)]
  rfl

theorem outside_ok {x : Ctx V} {a : Addr} {p : Parsed} {r : CoordResult V} :
    x.outside a p = .ok r ↔ ∃ b, Leads x a p b ∧
      (((x.md b).alternatives = [] ∧ r = .node b) ∨
       ((x.md b).alternatives ≠ [] ∧ ∃ y n cs, x.root.at b = some y ∧ Length y n ∧
          Candidates x b (x.md b).alternatives cs ∧
          pickAlternative b ((b, n) :: cs) = .ok r)) := by
  unfold Ctx.outside
  constructor
  · intro h
    split at h
    · simp at h
    · next b hb =>
      refine ⟨b, locate_ok.mp hb, ?_⟩
      split at h
      · next ha => simp at h; exact .inl ⟨ha, h.symm⟩
      · next ha =>
        split at h
        · simp at h
        · next n hn =>
          split at h
          · simp at h
          · next cs hcs =>
            obtain ⟨y, hy, hl⟩ := lenAt_ok.mp hn
            exact .inr ⟨ha, y, n, cs, hy, hl, alternatives_ok.mp hcs, h⟩
  · rintro ⟨b, hb, ⟨ha, rfl⟩ | ⟨ha, y, n, cs, hy, hl, hcs, h⟩⟩
    · rw [locate_ok.mpr hb]; simp only [if_pos ha]
    · rw [locate_ok.mpr hb]
      simp only [if_neg ha, lenAt_ok.mpr ⟨y, hy, hl⟩, alternatives_ok.mpr hcs, h]

theorem outside_lookup {x : Ctx V} {a : Addr} {p : Parsed} :
    x.outside a p = .error .lookup ↔ ∃ b, Leads x a p b ∧
       (x.md b).alternatives ≠ [] ∧ ∃ y n cs, x.root.at b = some y ∧ Length y n ∧
          Candidates x b (x.md b).alternatives cs ∧
          (pickAlternative b ((b, n) :: cs) : Except LookErr (CoordResult V)) = .error .lookup := by
  unfold Ctx.outside
  constructor
  · intro h
    cases hb : x.locate a p with
    | error e => rw [hb] at h; exact absurd h (err_ne hb locate_ne_lookup)
    | ok b =>
      rw [hb] at h
      simp only at h
      refine ⟨b, locate_ok.mp hb, ?_⟩
      split at h
      · simp at h
      · next ha =>
        refine ⟨ha, ?_⟩
        cases hn : x.lenAt b with
        | error e => rw [hn] at h; exact absurd h (err_ne hn lenAt_ne_lookup)
        | ok n =>
          rw [hn] at h
          simp only at h
          cases hcs : x.alternatives b (x.md b).alternatives with
          | error e => rw [hcs] at h; exact absurd h (err_ne hcs alternatives_ne_lookup)
          | ok cs =>
            rw [hcs] at h
            obtain ⟨y, hy, hl⟩ := lenAt_ok.mp hn
            exact ⟨y, n, cs, hy, hl, alternatives_ok.mp hcs, h⟩
  · rintro ⟨b, hb, ha, y, n, cs, hy, hl, hcs, h⟩
    rw [locate_ok.mpr hb]
    simp only [if_neg ha, lenAt_ok.mpr ⟨y, hy, hl⟩, alternatives_ok.mpr hcs, h]

theorem alongPath_cases {x : Ctx V} {a : Addr} {p : Parsed} :
    (∃ m e, x.root.at a = some (.aos m e) ∧ Inside x a p ∧
      x.alongPath a p = (match x.elemValues a p 0 e.length with
        | .error err => .error err
        | .ok vs => stackValues vs)) ∨
    (¬ Inside x a p ∧ x.alongPath a p = x.outside a p) := by
  unfold Ctx.alongPath
  cases hx : x.root.at a with
  | none => exact .inr ⟨fun h => by obtain ⟨⟨m, e, h⟩, -⟩ := h; rw [hx] at h; simp at h, rfl⟩
  | some y =>
    cases y with
    | leaf l v => exact .inr ⟨fun h => by obtain ⟨⟨m, e, h⟩, -⟩ := h; rw [hx] at h; simp at h, rfl⟩
    | struct c => exact .inr ⟨fun h => by obtain ⟨⟨m, e, h⟩, -⟩ := h; rw [hx] at h; simp at h, rfl⟩
    | aos m e =>
      simp only
      by_cases hA : isAncestorOf ⟨a.map (·.1), []⟩ p = true
      · exact .inl ⟨m, e, rfl, ⟨⟨m, e, hx⟩, ancestor_iff.mp hA⟩, by
          rw [if_pos hA]; cases x.elemValues a p 0 e.length <;> rfl⟩
      · exact .inr ⟨fun h => hA (ancestor_iff.mpr h.2), by rw [if_neg hA]⟩

theorem pickAlternative_ok {b : Addr} {cs : List (Addr × Nat)} {r : CoordResult V} :
    pickAlternative b cs = .ok r ↔
      ((∀ d ∈ cs, d.2 = 0) ∧ r = .node b) ∨
      ∃ pre d k post, cs = pre ++ (d, k) :: post ∧ k ≠ 0 ∧ (∀ q ∈ pre, q.2 = 0) ∧
        (∀ q ∈ post, q.2 = 0 ∨ q.2 = k) ∧ r = .node d := by
  unfold pickAlternative
  constructor
  · intro h
    split at h
    · next hf => simp at h; exact .inl ⟨filter_nil_iff.mp hf, h.symm⟩
    · next c fs hf =>
      obtain ⟨pre, post, e, h1, h2, h3⟩ := filter_cons_split hf
      split at h
      · next hall =>
        simp at h
        refine .inr ⟨pre, c.1, c.2, post, e, h1, h2, ?_, h.symm⟩
        intro q hq
        by_cases h0 : q.2 = 0
        · exact .inl h0
        · have : q ∈ fs := by rw [← h3]; exact List.mem_filter.mpr ⟨hq, by simp; omega⟩
          have := List.all_eq_true.mp hall q this
          exact .inr (by simpa using this)
      · simp at h
  · rintro (⟨h, rfl⟩ | ⟨pre, d, k, post, rfl, hk, h0, h1, rfl⟩)
    · rw [filter_nil_iff.mpr h]
    · rw [filter_split hk h0]
      simp only
      rw [if_pos]
      refine List.all_eq_true.mpr fun q hq => ?_
      have hq := List.mem_filter.mp hq
      rcases h1 q hq.1 with h | h
      · simp [h] at hq
      · simp [h]

theorem pickAlternative_lookup {b : Addr} {cs : List (Addr × Nat)} :
    (pickAlternative b cs : Except LookErr (CoordResult V)) = .error .lookup ↔
      ∃ d e, d ∈ cs ∧ e ∈ cs ∧ d.2 ≠ 0 ∧ e.2 ≠ 0 ∧ d.2 ≠ e.2 := by
  unfold pickAlternative
  constructor
  · intro h
    split at h
    · simp at h
    · next c fs hf =>
      split at h
      · simp at h
      · next hall =>
        have hc : c ∈ cs.filter (fun c => c.2 > 0) := by rw [hf]; simp
        simp only [List.all_eq_true, beq_iff_eq, Classical.not_forall] at hall
        obtain ⟨d, hd, hne⟩ := hall
        have hd : d ∈ cs.filter (fun c => c.2 > 0) := by rw [hf]; simp [hd]
        have hc := List.mem_filter.mp hc
        have hd := List.mem_filter.mp hd
        simp only [decide_eq_true_eq] at hc hd
        exact ⟨c, d, hc.1, hd.1, by omega, by omega, fun h => hne h.symm⟩
  · rintro ⟨d, e, hd, he, d0, e0, hne⟩
    have hd : d ∈ cs.filter (fun c => c.2 > 0) := List.mem_filter.mpr ⟨hd, by simp; omega⟩
    have he : e ∈ cs.filter (fun c => c.2 > 0) := List.mem_filter.mpr ⟨he, by simp; omega⟩
    split
    · next hf => rw [hf] at hd; simp at hd
    · next c fs hf =>
      rw [hf] at hd he
      rw [if_neg]
      intro hall
      have key : ∀ q, q ∈ c :: fs → q.2 = c.2 := by
        intro q hq
        rcases List.mem_cons.mp hq with rfl | hq
        · rfl
        · simpa using List.all_eq_true.mp hall q hq
      exact hne ((key d hd).trans (key e he).symm)

theorem coordinate_cases {x : Ctx V} {a : Addr} {key : Nat} {c : Coordinate}
    (hc : (x.md a).coords[key]? = some c) (hr : c.references ≠ []) :
    x.coordinate a key = (match choosePath c x.timeMode with
      | .error e => .error e
      | .ok (some p) => x.alongPath a p
      | .ok none =>
        match x.refs a c.references with
        | .error e => .error e
        | .ok cands => x.pickReference a key c cands) := by
  unfold Ctx.coordinate Ctx.refs
  rw [hc]
  simp only [if_neg hr]
  cases choosePath c x.timeMode with
  | error e => rfl
  | ok o =>
    cases o with
    | some p => rfl
    | none =>
      simp only
      cases x.locateAll a c.references <;> rfl

end Verif.Ids
