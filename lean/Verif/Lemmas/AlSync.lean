import Verif.Lemmas.AlTame
import Verif.Spec.AlLazy
/-
Lazy contexts on a working low level: the cache of open contexts follows the contexts of the low level, and an open
context is always found at the element it was opened for.
-/
namespace Verif.Al
open Verif.Ids Verif.AlSpec

set_option linter.unusedSectionVars false
variable {V : Type} [Value V] (B : Backend V) (db : Ctx)

/-- The contexts that must be open, newest first, to read through a lazy context, with the element they are at. -/
def chain : Lazy → List (Begin × Nat)
  | .root _ => []
  | .action _ _ p b => (b, 0) :: chain p
  | .child p i =>
    match chain p with
    | [] => []
    | (b, _) :: r => (b, i) :: r

/-- A low-level context was opened by this call. -/
def Of (f : Frame) (b : Begin) : Prop :=
  match f with
  | .act a => b = a ∧ a.isAos = false ∧ a.writes = false
  | .aos q _ _ => ∃ tb, b = .aos q tb 0

/-- The element a low-level context is at. -/
def Frame.index : Frame → Nat
  | .act _ => 0
  | .aos _ _ i => i

def Fits : List (Ctx × Frame) → List (Begin × Nat) → Prop
  | [], [] => True
  | (_, f) :: t, (b, i) :: r => Of f b ∧ f.index = i ∧ Fits t r
  | _, _ => False

def slotPos : List (Begin × Nat) → Pos
  | [] => []
  | (.aos q _ _, i) :: r => slotPos r ++ [(q, i)]
  | _ :: _ => []

def slotAct : List (Begin × Nat) → Option Begin
  | [] => none
  | (.aos _ _ _, _) :: r => slotAct r
  | (b, _) :: _ => some b

theorem fits_spec : ∀ (st : List (Ctx × Frame)) (sl : List (Begin × Nat)), Fits st sl →
    posOf st = slotPos sl ∧ actOf st = slotAct sl
  | [], [], _ => ⟨rfl, rfl⟩
  | [], _ :: _, h => absurd h (by simp [Fits])
  | _ :: _, [], h => absurd h (by simp [Fits])
  | (_, .act a) :: t, (b, i) :: r, h => by
    obtain ⟨⟨rfl, h2, -⟩, -, -⟩ := h
    cases b <;> simp_all [Begin.isAos, posOf, slotPos, actOf, slotAct]
  | (_, .aos q n j) :: t, (b, i) :: r, h => by
    obtain ⟨⟨tb, rfl⟩, h2, h3⟩ := h
    obtain ⟨e1, e2⟩ := fits_spec t r h3
    simp only [Frame.index] at h2
    subst h2
    simp [posOf, slotPos, actOf, slotAct, e1, e2]

/-- The cache follows the low level. -/
def InStep : List CObj → List (Ctx × Frame) → Prop
  | [], [] => True
  | x :: r, (c, f) :: t => x.ctx = c ∧ x.cur = f.index ∧
      (match f with | .act _ => True | .aos _ n _ => x.size = n) ∧ InStep r t
  | _, _ => False

/-- The sizes of open arrays are those in the data, and data is only read. -/
def SizesOk (stores : Text → Store V) : List (Ctx × Frame) → Prop
  | [] => True
  | (_, .act a) :: t => a.writes = false ∧ SizesOk stores t
  | (_, .aos q n _) :: t =>
    (∃ a, actOf t = some a ∧ n = (B.view a (stores a.occ)).size (posOf t) q) ∧ SizesOk stores t

theorem sizes_ro {stores : Text → Store V} : ∀ {st : List (Ctx × Frame)}, SizesOk B stores st → ∀ a,
    actOf st = some a → a.writes = false
  | [], _, _, h => by cases h
  | (_, .act b) :: t, h, a, ha => by cases ha; exact h.1
  | (_, .aos q n i) :: t, h, a, ha => sizes_ro h.2 a ha

/-- The lazy contexts that were made so far: what they open, below which other lazy context. -/
structure Reg where
  of : Nat → Lazy × Begin
  next : Nat

/-- More lazy contexts. -/
def Ext (R R' : Reg) : Prop := R.next ≤ R'.next ∧ ∀ id, id < R.next → R'.of id = R.of id

theorem ext_refl (R : Reg) : Ext R R := ⟨Nat.le_refl _, fun _ _ => rfl⟩
theorem ext_trans {R R' R'' : Reg} (h : Ext R R') (h' : Ext R' R'') : Ext R R'' :=
  ⟨Nat.le_trans h.1 h'.1, fun id hi => (h'.2 id (Nat.lt_of_lt_of_le hi h.1)).trans (h.2 id hi)⟩

def Reg.add (R : Reg) (p : Lazy) (b : Begin) : Reg :=
  ⟨fun id => if id = R.next then (p, b) else R.of id, R.next + 1⟩

theorem ext_add (R : Reg) (p : Lazy) (b : Begin) : Ext R (R.add p b) :=
  ⟨Nat.le_succ _, fun id hi => by simp [Reg.add, Nat.ne_of_lt hi]⟩

/-- A context in the cache is the open context of the lazy contexts that refer to it. -/
def Owned (R : Reg) (weak : Nat → Option Nat) : List CObj → List (Ctx × Frame) → Prop
  | x :: r, (_, f) :: t =>
    (∀ id, weak id = some x.obj → id < R.next ∧ Of f (R.of id).2 ∧ Fits t (chain (R.of id).1)) ∧ Owned R weak r t
  | _, _ => True

/-- The invariant of an open data entry. -/
structure Inv (R : Reg) (s : LSt (Disk V) V) : Prop where
  step : InStep s.cache s.st.ll.stack
  sizes : SizesOk B s.st.ll.stores s.st.ll.stack
  owned : Owned R s.weak s.cache s.st.ll.stack
  objs : ∀ x ∈ s.cache, x.obj < s.nextObj
  weaks : ∀ id o, s.weak id = some o → id < R.next ∧ o < s.nextObj
  next : s.nextLazy = R.next
  isOpen : s.db = some db

theorem owned_ext {R R' : Reg} (hE : Ext R R') {weak : Nat → Option Nat} :
    ∀ {o : List CObj} {st : List (Ctx × Frame)}, Owned R weak o st → Owned R' weak o st
  | [], _, _ => by simp [Owned]
  | _ :: _, [], _ => by simp [Owned]
  | x :: r, (_, f) :: t, h => by
    refine ⟨fun id hi => ?_, owned_ext hE h.2⟩
    obtain ⟨h1, h2, h3⟩ := h.1 id hi
    rw [hE.2 id h1]
    exact ⟨Nat.lt_of_lt_of_le h1 hE.1, h2, h3⟩

/-- Making another lazy context. -/
theorem inv_add {R : Reg} {s : LSt (Disk V) V} (h : Inv B db R s) (p : Lazy) (b : Begin) :
    Inv B db (R.add p b) { s with nextLazy := s.nextLazy + 1 } where
  step := h.step
  sizes := h.sizes
  owned := owned_ext (ext_add R p b) h.owned
  objs := h.objs
  weaks id o hw := ⟨Nat.lt_succ_of_lt (h.weaks id o hw).1, (h.weaks id o hw).2⟩
  next := by simp [Reg.add, h.next]
  isOpen := h.isOpen

/-- Lazy contexts of IDSs of this data entry. -/
def Good (R : Reg) : Lazy → Prop
  | .root d => d = some db
  | .action id d p b => d = some db ∧ id < R.next ∧ R.of id = (p, b) ∧ Good R p ∧
    (match p with
      | .root _ => b.isAos = false ∧ b.writes = false
      | .action _ _ _ b' => b'.isAos = false ∧ ∃ q tb, b = .aos q tb 0
      | .child _ _ => ∃ q tb, b = .aos q tb 0)
  | .child p _ => Good R p ∧ ∃ id d pp q tb, p = .action id d pp (.aos q tb 0)

theorem good_ext {R R' : Reg} (hE : Ext R R') : ∀ {z : Lazy}, Good db R z → Good db R' z
  | .root _, h => h
  | .action id d p b, h => by
    obtain ⟨h1, h2, h3, h4, h5⟩ := h
    exact ⟨h1, Nat.lt_of_lt_of_le h2 hE.1, (hE.2 id h2).trans h3, good_ext hE h4, h5⟩
  | .child p i, h => ⟨good_ext hE h.1, h.2⟩

/-- Lazy contexts that data is read through. -/
def Reader : Lazy → Prop
  | .root _ => False
  | .action _ _ _ b => b.isAos = false
  | .child _ _ => True

/-! ### Closing contexts -/

theorem closeAll_stack : ∀ (o : List CObj) (st : St (Disk V) V), InStep o st.ll.stack →
    (closeAll (disk B db) o st).ll.stack = [] ∧ (closeAll (disk B db) o st).ll.stores = st.ll.stores
  | [], st, h => by
    rcases e : st.ll.stack with _ | ⟨x, t⟩
    · exact ⟨e, rfl⟩
    · rw [e] at h; simp [InStep] at h
  | x :: r, st, h => by
    rcases e : st.ll.stack with _ | ⟨⟨c, f⟩, t⟩
    · rw [e] at h; simp [InStep] at h
    · rw [e] at h
      obtain ⟨h1, -, -, h4⟩ := h
      subst h1
      obtain ⟨k1, k2⟩ := finish_spec B db e
      obtain ⟨g1, g2⟩ := closeAll_stack r (llFinish (disk B db) x.ctx st) (by rw [k2]; exact h4)
      simp only [closeAll]
      exact ⟨g1, g2.trans k1⟩

theorem inv_clear {R : Reg} {s : LSt (Disk V) V} (h : Inv B db R s) :
    Inv B db R (clearCache (disk B db) s) ∧ (clearCache (disk B db) s).st.ll.stack = [] ∧
      (clearCache (disk B db) s).st.ll.stores = s.st.ll.stores := by
  obtain ⟨h1, h2⟩ := closeAll_stack B db s.cache s.st h.step
  refine ⟨⟨?_, ?_, ?_, ?_, h.weaks, h.next, h.isOpen⟩, h1, h2⟩
  · simp only [clearCache, h1]; trivial
  · simp only [clearCache, h1]; trivial
  · simp only [clearCache, h1]; trivial
  · simp [clearCache]

theorem popTo_sync (R : Reg) (weak : Nat → Option Nat) (o : Nat) : ∀ (l : List CObj) (st : St (Disk V) V),
    InStep l st.ll.stack → SizesOk B st.ll.stores st.ll.stack → Owned R weak l st.ll.stack →
    InStep (popTo (disk B db) o l st).1 (popTo (disk B db) o l st).2.ll.stack ∧
    SizesOk B (popTo (disk B db) o l st).2.ll.stores (popTo (disk B db) o l st).2.ll.stack ∧
    Owned R weak (popTo (disk B db) o l st).1 (popTo (disk B db) o l st).2.ll.stack ∧
    (popTo (disk B db) o l st).2.ll.stores = st.ll.stores ∧
    (∀ x ∈ (popTo (disk B db) o l st).1, x ∈ l) ∧
    (∀ x r, (popTo (disk B db) o l st).1 = x :: r → x.obj = o)
  | [], st, h1, h2, h3 => by
    rw [popTo]
    exact ⟨h1, h2, h3, rfl, fun _ h => h, fun _ _ h => by cases h⟩
  | x :: l, st, h1, h2, h3 => by
    rw [popTo]
    by_cases hx : x.obj = o
    · rw [if_pos hx]
      exact ⟨h1, h2, h3, rfl, fun _ h => h, fun y r h => by cases h; exact hx⟩
    · rw [if_neg hx]
      rcases e : st.ll.stack with _ | ⟨⟨c, f⟩, t⟩
      · rw [e] at h1; simp [InStep] at h1
      · rw [e] at h1 h2 h3
        obtain ⟨g1, -, -, g4⟩ := h1
        subst g1
        obtain ⟨k1, k2⟩ := finish_spec B db e
        have hs : SizesOk B st.ll.stores t := by cases f <;> exact h2.2
        obtain ⟨p1, p2, p3, p4, p5, p6⟩ := popTo_sync R weak o l (llFinish (disk B db) x.ctx st)
          (by rw [k2]; exact g4) (by rw [k1, k2]; exact hs) (by rw [k2]; exact h3.2)
        exact ⟨p1, p2, p3, p4.trans k1, fun y hy => List.mem_cons_of_mem _ (p5 y hy), p6⟩

variable (held : LSt (Disk V) V → Nat → Bool)

theorem fromCache_sync {R : Reg} {s : LSt (Disk V) V} (h : Inv B db R s) (id : Nat) :
    ∃ r s', fromCache (disk B db) held id s = (r, s') ∧ Inv B db R s' ∧ s'.st.ll.stores = s.st.ll.stores ∧
      (∀ x, r = some x → ∃ f t, s'.st.ll.stack = (x.ctx, f) :: t ∧ id < R.next ∧ Of f (R.of id).2 ∧
        Fits t (chain (R.of id).1)) := by
  unfold fromCache
  rcases hw : s.weak id with _ | o
  · exact ⟨none, s, rfl, h, rfl, fun _ h => by cases h⟩
  · simp only
    by_cases hc : (s.cache.any (·.obj = o) || held s o) = true
    · rw [if_pos hc]
      obtain ⟨p1, p2, p3, p4, p5, p6⟩ := popTo_sync B db R s.weak o s.cache s.st h.step h.sizes h.owned
      rcases e : popTo (disk B db) o s.cache s.st with ⟨l, st⟩
      rw [e] at p1 p2 p3 p4 p5 p6
      cases l with
      | nil =>
        refine ⟨none, _, rfl, ⟨p1, p2, p3, ?_, h.weaks, h.next, h.isOpen⟩, p4, fun _ h => by cases h⟩
        simp
      | cons x r =>
        have ho : x.obj = o := p6 x r rfl
        refine ⟨some x, _, rfl, ⟨p1, p2, p3, fun y hy => h.objs y (p5 y hy), h.weaks, h.next, h.isOpen⟩, p4, ?_⟩
        intro y hy
        cases hy
        simp only at p1 p3
        rcases e' : st.ll.stack with _ | ⟨⟨c, f⟩, t⟩
        · rw [e'] at p1; simp [InStep] at p1
        · rw [e'] at p1 p3
          refine ⟨f, t, by rw [p1.1], ?_⟩
          exact p3.1 id (by rw [hw, ho])
    · rw [if_neg hc]
      exact ⟨none, s, rfl, h, rfl, fun _ h => by cases h⟩

/-! ### Opening contexts -/

theorem fits_length : ∀ {o : List CObj} {st : List (Ctx × Frame)}, InStep o st → (st = [] ↔ o = [])
  | [], [], _ => by simp
  | [], _ :: _, h => absurd h (by simp [InStep])
  | _ :: _, [], h => absurd h (by simp [InStep])
  | _ :: _, _ :: _, _ => by simp

/-- Opening a context on top of the open ones. -/
theorem open_sync {R : Reg} {s : LSt (Disk V) V} (h : Inv B db R s) {id : Nat} {c c' : Ctx} {b : Begin} {n : Nat}
    {f : Frame} {log : List (Event V)} {ll : Disk V} (hid : id < R.next)
    (hll : llBegin (disk B db) c b s.st = (.ok (c', n), ⟨ll, log⟩)) (hst : ll.stores = s.st.ll.stores)
    (hs : ll.stack = (c', f) :: s.st.ll.stack) (hf : Of f (R.of id).2) (hi : f.index = 0)
    (hn : match f with | .act _ => True | .aos _ k _ => n = k)
    (ht : Fits s.st.ll.stack (chain (R.of id).1)) (hz : SizesOk B s.st.ll.stores ((c', f) :: s.st.ll.stack)) :
    ∃ s', openContext (disk B db) id c b s = (.ok c', s') ∧ Inv B db R s' ∧
      s'.st.ll.stores = s.st.ll.stores ∧ s'.st.ll.stack = (c', f) :: s.st.ll.stack := by
  unfold openContext lift
  rw [hll]
  refine ⟨_, rfl, ⟨?_, ?_, ?_, ?_, ?_, h.next, h.isOpen⟩, hst, hs⟩
  · simp only [hs]
    refine ⟨rfl, hi.symm, ?_, h.step⟩
    cases f <;> exact hn
  · simp only [hs, hst]; exact hz
  · simp only [hs]
    refine ⟨fun k hk => ?_, ?_⟩
    · by_cases e : k = id
      · subst e; exact ⟨hid, hf, ht⟩
      · simp only [if_neg e] at hk
        exact absurd (h.weaks k _ hk).2 (Nat.lt_irrefl _)
    · have key : ∀ (o : List CObj) (st : List (Ctx × Frame)), (∀ x ∈ o, x.obj < s.nextObj) →
          Owned R s.weak o st → Owned R (fun k => if k = id then some s.nextObj else s.weak k) o st := by
        intro o
        induction o with
        | nil => intro st _ _; simp [Owned]
        | cons x r ih =>
          intro st hx ho
          rcases st with _ | ⟨⟨c, f⟩, t⟩
          · simp [Owned]
          · refine ⟨fun k hk => ?_, ih t (fun y hy => hx y (List.mem_cons_of_mem _ hy)) ho.2⟩
            by_cases e : k = id
            · simp only [if_pos e] at hk
              have := hx x (List.mem_cons_self ..)
              have := Option.some.inj hk
              omega
            · simp only [if_neg e] at hk
              exact ho.1 k hk
      exact key _ _ h.objs h.owned
  · intro x hx
    simp only [List.mem_cons] at hx ⊢
    rcases hx with rfl | hx
    · exact Nat.lt_succ_self _
    · exact Nat.lt_succ_of_lt (h.objs x hx)
  · intro k o hk
    simp only at hk ⊢
    by_cases e : k = id
    · subst e
      simp only [if_pos] at hk
      cases hk
      exact ⟨hid, Nat.lt_succ_self _⟩
    · simp only [if_neg e] at hk
      exact ⟨(h.weaks k o hk).1, Nat.lt_succ_of_lt (h.weaks k o hk).2⟩

/-- What is known after `get_context`. -/
def At (s : LSt (Disk V) V) (c : Ctx) : Lazy → Prop
  | .root _ => c = db ∧ s.st.ll.stack = []
  | .action _ _ p b => ∃ f t, s.st.ll.stack = (c, f) :: t ∧ Of f b ∧ Fits t (chain p)
  | .child p i => ∃ f t, s.st.ll.stack = (c, f) :: t ∧ Fits ((c, f) :: t) (chain (.child p i))

theorem at_reader {R : Reg} {s : LSt (Disk V) V} {c : Ctx} {z : Lazy} (hg : Good db R z) (hr : Reader z)
    (h : At db s c z) : isTop c s.st.ll.stack = true ∧ Fits s.st.ll.stack (chain z) := by
  cases z with
  | root d => exact absurd hr (by simp [Reader])
  | action id d p b =>
    obtain ⟨f, t, h1, h2, h3⟩ := h
    rw [h1]
    refine ⟨by simp [isTop], ?_⟩
    cases f with
    | act a => exact ⟨h2, rfl, h3⟩
    | aos q n i =>
      obtain ⟨tb, rfl⟩ := h2
      simp [Reader, Begin.isAos] at hr
  | child p i =>
    obtain ⟨f, t, h1, h2⟩ := h
    rw [h1]
    exact ⟨by simp [isTop], h2⟩

/-- `get_context` succeeds and gives the newest open context, below exactly the contexts that the lazy context
is made for. -/
theorem getContext_sync {R : Reg} : ∀ (z : Lazy), Good db R z → ∀ (s : LSt (Disk V) V), Inv B db R s →
    ∃ c s', getContext (disk B db) held z s = (.ok c, s') ∧ Inv B db R s' ∧
      s'.st.ll.stores = s.st.ll.stores ∧ At db s' c z
  | .root d, hg, s, h => by
    simp only [Good] at hg
    subst hg
    obtain ⟨h1, h2, h3⟩ := inv_clear B db h
    rw [getContext, if_neg (by simp [h.isOpen])]
    exact ⟨db, _, rfl, h1, h3, rfl, h2⟩
  | .action id d p b, hg, s, h => by
    obtain ⟨g1, g2, g3, g4, g5⟩ := hg
    subst g1
    rw [getContext, if_neg (by simp [h.isOpen])]
    obtain ⟨r, s1, e1, h1, k1, m1⟩ := fromCache_sync B db held h id
    rw [e1]
    cases r with
    | some x =>
      obtain ⟨f, t, m2, m3, m4, m5⟩ := m1 x rfl
      rw [g3] at m4 m5
      exact ⟨x.ctx, s1, rfl, h1, k1, f, t, m2, m4, m5⟩
    | none =>
      obtain ⟨c, s2, e2, h2, k2, m2⟩ := getContext_sync p g4 s1 h1
      simp only [e2]
      -- the call that opens the context
      have aos : ∀ q tb, b = .aos q tb 0 → Reader p → ∃ c' s', openContext (disk B db) id c b s2 = (.ok c', s') ∧
          Inv B db R s' ∧ s'.st.ll.stores = s.st.ll.stores ∧ At db s' c' (.action id (some db) p b) := by
        rintro q tb rfl hr
        obtain ⟨t1, t2⟩ := at_reader db g4 hr m2
        have ha : ∃ a, actOf s2.st.ll.stack = some a := by
          rcases e : s2.st.ll.stack with _ | ⟨⟨c', f⟩, t⟩
          · rw [e] at t1; simp [isTop] at t1
          · have hz := h2.sizes
            rw [e] at hz
            cases f with
            | act a => exact ⟨a, rfl⟩
            | aos q n i => obtain ⟨⟨a, ha, -⟩, -⟩ := hz; exact ⟨a, ha⟩
        obtain ⟨a, ha⟩ := ha
        obtain ⟨log, e⟩ := begin_read B db (s := s2.st) (c := c) (a := a)
          ⟨t1, ha, sizes_ro B h2.sizes a ha⟩ q tb
        obtain ⟨s', o1, o2, o3, o4⟩ := open_sync B db h2 (id := id) (f := .aos q _ 0) g2 e rfl rfl
          (by rw [g3]; exact ⟨tb, rfl⟩) rfl rfl (by rw [g3]; exact t2) ⟨⟨a, ha, rfl⟩, h2.sizes⟩
        exact ⟨_, s', o1, o2, o3.trans (k2.trans k1), _, _, o4, ⟨tb, rfl⟩, t2⟩
      cases p with
      | root d =>
        obtain ⟨g6, g7⟩ := g5
        obtain ⟨rfl, m3⟩ := m2
        obtain ⟨log, e⟩ := begin_top B c m3 g6
        obtain ⟨s', o1, o2, o3, o4⟩ := open_sync B c h2 (id := id) (f := .act b) g2 e rfl (by rw [m3])
          (by rw [g3]; exact ⟨rfl, g6, g7⟩) rfl trivial (by rw [g3, m3]; trivial) (by rw [m3]; exact ⟨g7, trivial⟩)
        rw [m3] at o4
        exact ⟨_, s', o1, o2, o3.trans (k2.trans k1), _, _, o4, ⟨rfl, g6, g7⟩, trivial⟩
      | action id' d' p' b' =>
        obtain ⟨g6, q, tb, g7⟩ := g5
        exact aos q tb g7 g6
      | child p' i =>
        obtain ⟨q, tb, g7⟩ := g5
        exact aos q tb g7 trivial
  | .child p i, hg, s, h => by
    obtain ⟨g1, id, d, pp, q, tb, g2⟩ := hg
    obtain ⟨c, s1, e1, h1, k1, m1⟩ := getContext_sync p g1 s h
    rw [getContext, e1]
    subst g2
    obtain ⟨f, t, m2, m3, m4⟩ := m1
    simp only
    unfold iterateTo
    rcases ec : s1.cache with _ | ⟨x, r⟩
    · have := h1.step; rw [ec, m2] at this; simp [InStep] at this
    have hstep := h1.step
    rw [ec, m2] at hstep
    obtain ⟨x1, x2, x3, x4⟩ := hstep
    subst x1
    cases f with
    | act a =>
      obtain ⟨rfl, m5, -⟩ := m3
      simp [Begin.isAos] at m5
    | aos q' n j =>
      obtain ⟨tb', m3⟩ := m3
      cases m3
      simp only [Frame.index] at x2 x3
      simp only
      by_cases hi : i = x.cur
      · rw [if_pos hi]
        refine ⟨_, s1, rfl, h1, k1, _, t, m2, ⟨tb, rfl⟩, ?_, m4⟩
        simp only [Frame.index]; omega
      · rw [if_neg hi]
        have el : llIterate (disk B db) x.ctx ((i : Int) - (x.cur : Int)) s1.st =
            (.ok (), ⟨{ s1.st.ll with stack := (x.ctx, .aos q n i) :: t },
              s1.st.log ++ [.iterate x.ctx ((i : Int) - (x.cur : Int)) true]⟩) := by
          unfold llIterate
          simp only [disk, diskIterate, m2, if_pos]
          rw [x2, show ((j : Int) + ((i : Int) - (j : Int))).toNat = i by omega]
        unfold lift
        simp only [el]
        have hz := h1.sizes
        have ho := h1.owned
        rw [m2] at hz
        rw [ec, m2] at ho
        refine ⟨_, _, rfl, ⟨⟨rfl, rfl, x3, x4⟩, hz, ⟨?_, ho.2⟩, ?_, h1.weaks, h1.next, h1.isOpen⟩, k1, _, t, rfl,
          ⟨tb, rfl⟩, rfl, m4⟩
        · exact fun k hk => ho.1 k hk
        · intro y hy
          rcases List.mem_cons.1 hy with rfl | hy
          · exact h1.objs x (by rw [ec]; exact List.mem_cons_self ..)
          · exact h1.objs y (by rw [ec]; exact List.mem_cons_of_mem _ hy)

end Verif.Al
