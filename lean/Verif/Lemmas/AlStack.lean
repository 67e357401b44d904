import Verif.Spec.AlStack
/-
Every program of the Access Layer backend keeps the stack discipline.
-/
namespace Verif.Al
open Verif.Ids Verif.AlSpec

variable {σ V : Type}

theorem calls_append (st : List Ctx) (l r : List (Event V)) :
    calls st (l ++ r) = (calls st l).bind (calls · r) := by
  induction l generalizing st with
  | nil => simp [calls]
  | cons e l ih =>
    simp only [List.cons_append, calls]
    cases call st e with
    | none => rfl
    | some st' => simp only [Option.bind_some]; exact ih st'

/-- Running the program with `c` as the newest context, it makes calls that keep the discipline and
end with the same open contexts. -/
def Disc {α : Type} (c : Ctx) (p : M σ V α) : Prop :=
  ∀ s, ∃ seg, (p s).2.log = s.log ++ seg ∧ ∀ st, calls (c :: st) seg = some (c :: st)

theorem disc_ret {α : Type} (c : Ctx) (a : α) : Disc c (M.ret a : M σ V α) :=
  fun _ => ⟨[], (List.append_nil _).symm, fun _ => rfl⟩

theorem disc_throw {α : Type} (c : Ctx) (e : Err) : Disc c (M.throw e : M σ V α) :=
  fun _ => ⟨[], (List.append_nil _).symm, fun _ => rfl⟩

theorem disc_andThen {α β : Type} {c : Ctx} {p : M σ V α} {f : α → M σ V β} (hp : Disc c p)
    (hf : ∀ a, Disc c (f a)) : Disc c (p.andThen f) := by
  intro s
  obtain ⟨g1, h1, d1⟩ := hp s
  unfold M.andThen
  rcases hr : p s with ⟨_ | a, s'⟩
  · rw [hr] at h1
    exact ⟨g1, h1, d1⟩
  · rw [hr] at h1
    obtain ⟨g2, h2, d2⟩ := hf a s'
    refine ⟨g1 ++ g2, ?_, fun st => ?_⟩
    · simp only; rw [h2, h1, List.append_assoc]
    · rw [calls_append, d1, Option.bind_some, d2]

theorem disc_times {α : Type} {c : Ctx} {p : M σ V α} (hp : Disc c p) :
    ∀ n, Disc c (M.times n p)
  | 0 => disc_ret c []
  | n + 1 => disc_andThen hp fun _ => disc_andThen (disc_times hp n) fun _ => disc_ret c _

variable (L : LL σ V)

theorem disc_iterate (c : Ctx) (i : Int) : Disc c (llIterate L c i) := by
  intro s
  unfold llIterate
  rcases L.iterate s.ll c i with ⟨_ | _, ll⟩
  · exact ⟨[.iterate c i false], rfl, fun st => by simp [calls, call]⟩
  · exact ⟨[.iterate c i true], rfl, fun st => by simp [calls, call]⟩

theorem disc_read (c : Ctx) (p : Path) (tb : Text) (l : LeafMeta) : Disc c (llRead L c p tb l) := by
  intro s
  unfold llRead
  rcases L.read s.ll c p tb l with ⟨_ | _, ll⟩
  · exact ⟨[.read c p tb], rfl, fun st => by simp [calls, call]⟩
  · exact ⟨[.read c p tb], rfl, fun st => by simp [calls, call]⟩

theorem disc_write (c : Ctx) (p : Path) (tb : Text) (v : V) : Disc c (llWrite L c p tb v) := by
  intro s
  unfold llWrite
  rcases L.write s.ll c p tb v with ⟨_ | _, ll⟩
  · exact ⟨[.write c p tb v], rfl, fun st => by simp [calls, call]⟩
  · exact ⟨[.write c p tb v], rfl, fun st => by simp [calls, call]⟩

theorem disc_delete (c : Ctx) (p : Path) : Disc c (llDelete L c p) := by
  intro s
  unfold llDelete
  rcases L.delete s.ll c p with ⟨_ | _, ll⟩
  · exact ⟨[.delete c p], rfl, fun st => by simp [calls, call]⟩
  · exact ⟨[.delete c p], rfl, fun st => by simp [calls, call]⟩

theorem begin_log (c : Ctx) (b : Begin) (s : St σ V) :
    (∃ c' size ll, llBegin L c b s = (.ok (c', size), ⟨ll, s.log ++ [.begin c b (some c')]⟩)) ∨
    (∃ ll, llBegin L c b s = (.error .lowlevel, ⟨ll, s.log ++ [.begin c b none]⟩)) := by
  unfold llBegin
  rcases L.begin s.ll c b with ⟨_ | ⟨c', size⟩, ll⟩
  · exact .inr ⟨ll, rfl⟩
  · exact .inl ⟨c', size, ll, rfl⟩

theorem disc_with {α : Type} (c : Ctx) (b : Begin) {body : Ctx → Nat → M σ V α}
    (h : ∀ c' n, Disc c' (body c' n)) : Disc c (withAction L c b body) := by
  intro s
  unfold withAction
  rcases begin_log L c b s with ⟨c', size, ll, e⟩ | ⟨ll, e⟩
  · rw [e]
    obtain ⟨g, hg, d⟩ := h c' size ⟨ll, s.log ++ [.begin c b (some c')]⟩
    refine ⟨[.begin c b (some c')] ++ g ++ [.finish c'], ?_, fun st => ?_⟩
    · simp only [llFinish]; rw [hg]; simp
    · rw [calls_append, calls_append]
      simp [calls, call, d]
  · rw [e]
    exact ⟨[.begin c b none], rfl, fun st => by simp [calls, call]⟩

section
variable (E : Env V)

mutual
theorem disc_getNode (p : Path) (c : Ctx) (m : Meta) : Disc c (getNode L E p c m) := by
  cases m with
  | leaf l =>
    unfold getNode
    split
    · exact disc_ret _ _
    · exact disc_andThen (disc_read L _ _ _ _) fun _ => disc_ret _ _
  | struct m =>
    unfold getNode
    split
    · exact disc_ret _ _
    · exact disc_andThen (disc_getFields p c m) fun _ => disc_ret _ _
  | aos m =>
    unfold getNode
    split
    · exact disc_ret _ _
    · refine disc_with L _ _ fun c' n => ?_
      split
      · exact disc_ret _ _
      · exact disc_andThen (disc_times (disc_andThen (disc_getFields p c' m) fun _ =>
          disc_andThen (disc_iterate L _ _) fun _ => disc_ret _ _) _) fun _ => disc_ret _ _
theorem disc_getFields (p : Path) (c : Ctx) (m : MFields) : Disc c (getFields L E p c m) := by
  cases m with
  | nil => unfold getFields; exact disc_ret _ _
  | cons n m r =>
    unfold getFields
    exact disc_andThen (disc_getNode _ c m) fun _ => disc_andThen (disc_getFields p c r) fun _ =>
      disc_ret _ _
end

mutual
theorem disc_deleteNode (p : Path) (c : Ctx) (m : Meta) : Disc c (deleteNode L E p c m) := by
  cases m with
  | leaf l => unfold deleteNode; exact disc_delete L _ _
  | struct m => unfold deleteNode; exact disc_deleteFields p c m
  | aos m => unfold deleteNode; exact disc_delete L _ _
theorem disc_deleteFields (p : Path) (c : Ctx) (m : MFields) : Disc c (deleteFields L E p c m) := by
  cases m with
  | nil => unfold deleteFields; exact disc_ret _ _
  | cons n m r =>
    unfold deleteFields
    exact disc_andThen (disc_deleteNode _ c m) fun _ => disc_deleteFields p c r
end

variable [Value V] (slice verify : Bool)

mutual
theorem disc_putNode (p : Path) (c : Ctx) (x : Node V) : Disc c (putNode L E slice verify p c x) := by
  cases x with
  | leaf l v =>
    unfold putNode
    split
    · exact disc_ret _ _
    · split
      · exact disc_ret _ _
      · split
        · exact disc_ret _ _
        · exact disc_write L _ _ _ _
  | struct f =>
    unfold putNode
    split
    · exact disc_ret _ _
    · exact disc_putFields p c f
  | aos m e =>
    unfold putNode
    split
    · exact disc_ret _ _
    · split
      · exact disc_throw _ _
      · exact disc_with L _ _ fun c' _ => disc_putElems p c' e
theorem disc_putFields (p : Path) (c : Ctx) (f : Fields V) :
    Disc c (putFields L E slice verify p c f) := by
  cases f with
  | nil => unfold putFields; exact disc_ret _ _
  | absent n m r => unfold putFields; exact disc_putFields p c r
  | present n x r =>
    unfold putFields
    split
    · exact disc_andThen (disc_putNode _ c x) fun _ => disc_putFields p c r
    · exact disc_putFields p c r
theorem disc_putElems (p : Path) (c : Ctx) (e : Elems V) :
    Disc c (putElems L E slice verify p c e) := by
  cases e with
  | nil => unfold putElems; exact disc_ret _ _
  | cons f r =>
    unfold putElems
    exact disc_andThen (disc_putFields p c f) fun _ => disc_andThen (disc_iterate L _ _) fun _ =>
      disc_putElems p c r
end
end

theorem disc_readMode (C : Conf V) (db : Ctx) (d : Bool) : Disc db (readMode L C db d) :=
  disc_with L _ _ fun _ _ => disc_andThen (disc_read L _ _ _ _) fun _ => disc_ret _ _

theorem disc_alGet (C : Conf V) (I : Info V) (nbc : Option Nbc) (db : Ctx) (k : Bool) (r : Range)
    (m : MFields) : Disc db (alGet L C I nbc db k r m) := by
  refine disc_andThen (disc_readMode L C db _) fun mode => ?_
  split
  · exact disc_throw _ _
  · exact disc_with L _ _ fun c _ => disc_getFields L _ _ c m

theorem disc_alReadVersion (C : Conf V) (db : Ctx) : Disc db (alReadVersion L C db) := by
  refine disc_andThen (disc_with L _ _ fun c _ => disc_andThen (disc_read L _ _ _ _) fun _ =>
    disc_andThen (disc_read L _ _ _ _) fun _ => disc_ret _ _) fun r => ?_
  split
  · exact disc_throw _ _
  · exact disc_ret _ _

theorem disc_alPut [Value V] (C : Conf V) (I ei : Info V) (nbc : Option Nbc) (db : Ctx) (mode : Mode)
    (m : MFields) (slice : Bool) (f : Fields V) : Disc db (alPut L C I ei nbc db mode m slice f) := by
  refine disc_andThen ?_ fun slice => disc_andThen ?_ fun _ =>
    disc_with L _ _ fun c _ => disc_putFields L _ _ _ _ c f
  · split
    · refine disc_andThen (disc_readMode L C db _) fun mode => ?_
      split
      · exact disc_ret _ _
      · split
        · exact disc_throw _ _
        · exact disc_ret _ _
    · exact disc_ret _ _
  · split
    · exact disc_ret _ _
    · exact disc_with L _ _ fun c _ => disc_deleteFields L _ _ c m

theorem disc_alDelete (C : Conf V) (db : Ctx) : Disc db (alDelete L C db) :=
  disc_with L _ _ fun _ _ => disc_throw _ _

/-! ### Lazy contexts -/

/-- The calls so far left open exactly the contexts in the cache, and the data entry. -/
def Stacked (db0 : Ctx) (s : LSt σ V) : Prop :=
  calls [db0] s.st.log = some (s.cache.map (·.ctx) ++ s.db.toList) ∧ (s.db = none → s.cache = [])

theorem calls_closeAll (st : List Ctx) (l : List (Event V)) (o : List CObj) (r : List Ctx) (s : St σ V)
    (hs : s.log = l) (h : calls st l = some (o.map (·.ctx) ++ r)) :
    calls st (closeAll L o s).log = some r := by
  induction o generalizing s l with
  | nil => simp only [closeAll, hs]; simpa using h
  | cons x o ih =>
    simp only [closeAll]
    refine ih (l ++ [.finish x.ctx]) _ (by simp [llFinish, hs]) ?_
    rw [calls_append, h]
    simp [calls, call]

theorem stacked_clear {db0 : Ctx} {s : LSt σ V} (h : Stacked db0 s) : Stacked db0 (clearCache L s) :=
  ⟨by
    simp only [clearCache, List.map_nil, List.nil_append]
    exact calls_closeAll L _ _ _ _ _ rfl h.1, fun _ => rfl⟩

theorem clear_db (s : LSt σ V) : (clearCache L s).db = s.db := rfl
theorem clear_cache (s : LSt σ V) : (clearCache L s).cache = [] := rfl

theorem lift_fst {α : Type} (p : M σ V α) (s : LSt σ V) : (lift p s).1 = (p s.st).1 := rfl
theorem lift_snd {α : Type} (p : M σ V α) (s : LSt σ V) :
    (lift p s).2 = { s with st := (p s.st).2 } := rfl

/-- The newest open context. -/
def topOf (s : LSt σ V) : Option Ctx := (s.cache.map (·.ctx) ++ s.db.toList).head?

theorem stacked_lift {α : Type} {db0 c : Ctx} {s : LSt σ V} (h : Stacked db0 s) (hc : topOf s = some c)
    {p : M σ V α} (hp : Disc c p) : Stacked db0 (lift p s).2 := by
  obtain ⟨g, hg, d⟩ := hp s.st
  rw [lift_snd]
  refine ⟨?_, h.2⟩
  simp only
  rw [hg, calls_append, h.1]
  unfold topOf at hc
  cases hx : s.cache.map (·.ctx) ++ s.db.toList with
  | nil => rw [hx] at hc; cases hc
  | cons t r =>
    rw [hx] at hc
    cases hc
    simp [d]

theorem stacked_onEntry {α : Type} {db0 : Ctx} {s : LSt σ V} (h : Stacked db0 s) {p : Ctx → M σ V α}
    (hp : ∀ c, Disc c (p c)) : Stacked db0 (onEntry L p s).2 ∧
      (onEntry L p s).2.db = s.db ∧ (s.db ≠ none → (onEntry L p s).2.cache = []) := by
  unfold onEntry
  cases hd : s.db with
  | none => exact ⟨h, hd, fun e => absurd rfl e⟩
  | some db =>
    refine ⟨stacked_lift (stacked_clear L h) (c := db) ?_ (hp db), hd, fun _ => rfl⟩
    simp [topOf, clear_cache, clear_db, hd]

theorem popTo_spec (o : Nat) (x : List CObj) (s : St σ V) {st r : List Ctx}
    (h : calls st s.log = some (x.map (·.ctx) ++ r)) :
    calls st (popTo L o x s).2.log = some ((popTo L o x s).1.map (·.ctx) ++ r) ∧
    (∀ y l, (popTo L o x s).1 = y :: l → y.obj = o) := by
  induction x generalizing s with
  | nil => exact ⟨by simpa [popTo] using h, fun y l e => by simp [popTo] at e⟩
  | cons y x ih =>
    unfold popTo
    split
    · next e => exact ⟨h, fun z l e' => by cases e'; exact e⟩
    · refine ih _ ?_
      simp only [llFinish]
      rw [calls_append, h]
      simp [calls, call]

variable (held : LSt σ V → Nat → Bool)

theorem fromCache_spec {db0 : Ctx} {id : Nat} {s : LSt σ V} (h : Stacked db0 s) :
    Stacked db0 (fromCache L held id s).2 ∧ (fromCache L held id s).2.db = s.db ∧
    ∀ x, (fromCache L held id s).1 = some x → ∃ r, (fromCache L held id s).2.cache = x :: r := by
  unfold fromCache
  cases s.weak id with
  | none => exact ⟨h, rfl, fun x e => by cases e⟩
  | some o =>
    simp only
    split
    · have hp := popTo_spec L o s.cache s.st h.1
      rcases hq : popTo L o s.cache s.st with ⟨_ | ⟨x, r⟩, st⟩
      · rw [hq] at hp
        exact ⟨⟨hp.1, fun _ => rfl⟩, rfl, fun x e => by cases e⟩
      · rw [hq] at hp
        refine ⟨⟨hp.1, fun hn => ?_⟩, rfl, fun y e => ?_⟩
        · simp only at hn
          have he := h.2 hn
          rw [he] at hq
          simp [popTo] at hq
        · cases e; exact ⟨r, rfl⟩
    · exact ⟨h, rfl, fun x e => by cases e⟩

theorem open_spec {db0 c : Ctx} {id : Nat} {b : Begin} {s : LSt σ V} (h : Stacked db0 s)
    (hc : topOf s = some c) (hd : s.db ≠ none) :
    Stacked db0 (openContext L id c b s).2 ∧ (openContext L id c b s).2.db = s.db ∧
    ∀ c', (openContext L id c b s).1 = .ok c' →
      topOf (openContext L id c b s).2 = some c' ∧ (openContext L id c b s).2.cache ≠ [] := by
  unfold openContext lift
  unfold topOf at hc
  obtain ⟨t, r, hx⟩ : ∃ t r, s.cache.map (·.ctx) ++ s.db.toList = t :: r := by
    cases hx : s.cache.map (·.ctx) ++ s.db.toList with
    | nil => rw [hx] at hc; cases hc
    | cons t r => exact ⟨t, r, rfl⟩
  rw [hx] at hc
  cases hc
  rcases begin_log L c b s.st with ⟨c', size, ll, e⟩ | ⟨ll, e⟩
  · simp only [e]
    refine ⟨⟨?_, fun hn => absurd hn hd⟩, trivial, fun c'' e' => ?_⟩
    · simp only [calls_append, h.1, hx, Option.bind_some]
      simp [calls, call, hx]
    · cases e'; exact ⟨by simp [topOf], by simp⟩
  · simp only [e]
    refine ⟨⟨?_, fun hn => absurd hn hd⟩, trivial, fun c'' e' => by cases e'⟩
    simp only [calls_append, h.1, hx, Option.bind_some]
    simp [calls, call]

theorem iterateTo_spec {db0 : Ctx} {i : Nat} {s : LSt σ V} (h : Stacked db0 s) :
    Stacked db0 (iterateTo L i s).2 ∧ (iterateTo L i s).2.db = s.db ∧
    ∀ c', (iterateTo L i s).1 = .ok c' →
      topOf (iterateTo L i s).2 = some c' ∧ (iterateTo L i s).2.cache ≠ [] := by
  unfold iterateTo
  cases hx : s.cache with
  | nil => exact ⟨h, rfl, fun c' e => by cases e⟩
  | cons x r =>
    simp only
    split
    · exact ⟨h, rfl, fun c' e => by cases e; exact ⟨by simp [topOf, hx], by simp [hx]⟩⟩
    · have hl := stacked_lift (p := llIterate L x.ctx ((i : Int) - (x.cur : Int))) h
        (c := x.ctx) (by simp [topOf, hx]) (disc_iterate L _ _)
      have hcache : (lift (llIterate L x.ctx ((i : Int) - (x.cur : Int))) s).2.cache = s.cache := rfl
      have hdb : (lift (llIterate L x.ctx ((i : Int) - (x.cur : Int))) s).2.db = s.db := rfl
      rcases hq : lift (llIterate L x.ctx ((i : Int) - (x.cur : Int))) s with ⟨_ | u, s'⟩
      · rw [hq] at hl hdb
        exact ⟨hl, hdb, fun c' e => by cases e⟩
      · rw [hq] at hl hcache hdb
        simp only at hl hcache hdb
        refine ⟨⟨?_, fun hn => ?_⟩, hdb, fun c' e => by cases e; exact ⟨by simp [topOf], by simp⟩⟩
        · have := hl.1
          rw [hcache, hx] at this
          simpa using this
        · have := hl.2 hn
          rw [hcache, hx] at this
          cases this

/-- A lazy context below which the contexts of arrays of structures are. -/
def Lazy.isRoot : Lazy → Bool
  | .root _ => true
  | _ => false

theorem getContext_spec {db0 : Ctx} (z : Lazy) {s : LSt σ V} (h : Stacked db0 s) :
    Stacked db0 (getContext L held z s).2 ∧ (getContext L held z s).2.db = s.db ∧
    ∀ c', (getContext L held z s).1 = .ok c' →
      topOf (getContext L held z s).2 = some c' ∧
      ((getContext L held z s).2.cache = [] → (getContext L held z s).2.db = some c') ∧
      (s.db ≠ none) := by
  induction z generalizing s with
  | root db =>
    unfold getContext
    split
    · exact ⟨h, rfl, fun c' e => by cases e⟩
    · next hd =>
      have hd : s.db = db := Decidable.of_not_not hd
      cases db with
      | none => exact ⟨h, rfl, fun c' e => by cases e⟩
      | some c =>
        refine ⟨stacked_clear L h, rfl, fun c' e => ?_⟩
        cases e
        refine ⟨by simp [topOf, clear_cache, clear_db, hd], fun _ => by simp [clear_db, hd], ?_⟩
        rw [hd]; simp
  | action id db parent b ih =>
    unfold getContext
    split
    · exact ⟨h, rfl, fun c' e => by cases e⟩
    · have hf := fromCache_spec L held (id := id) h
      rcases hq : fromCache L held id s with ⟨_ | x, s1⟩
      · rw [hq] at hf
        simp only at hf
        simp only
        have hg := ih hf.1
        rcases hq2 : getContext L held parent s1 with ⟨_ | c, s2⟩
        · rw [hq2] at hg
          exact ⟨hg.1, hg.2.1.trans hf.2.1, fun c' e => by cases e⟩
        · rw [hq2] at hg
          simp only at hg
          obtain ⟨g1, g2, g3⟩ := hg
          have g4 := g3 c rfl
          have hn : s2.db ≠ none := by rw [g2]; exact g4.2.2
          obtain ⟨o1, o2, o3⟩ := open_spec L (id := id) (b := b) g1 g4.1 hn
          refine ⟨o1, o2.trans (g2.trans hf.2.1), fun c' e => ⟨(o3 c' e).1, fun e0 => absurd e0 (o3 c' e).2, ?_⟩⟩
          rw [← hf.2.1]; exact g4.2.2
      · rw [hq] at hf
        simp only at hf
        obtain ⟨r, hr⟩ := hf.2.2 x rfl
        refine ⟨hf.1, hf.2.1, fun c' e => ?_⟩
        cases e
        refine ⟨?_, ?_, fun hn => ?_⟩
        · simp [topOf, hr]
        · intro e0; rw [hr] at e0; cases e0
        have := hf.1.2 (hf.2.1.trans hn)
        rw [hr] at this; cases this
  | child parent i ih =>
    unfold getContext
    have hg := ih h
    rcases hq2 : getContext L held parent s with ⟨_ | c, s2⟩
    · rw [hq2] at hg
      exact ⟨hg.1, hg.2.1, fun c' e => by cases e⟩
    · rw [hq2] at hg
      simp only at hg
      obtain ⟨i1, i2, i3⟩ := iterateTo_spec L (i := i) hg.1
      refine ⟨i1, i2.trans hg.2.1, fun c' e => ⟨(i3 c' e).1, fun e0 => absurd e0 (i3 c' e).2, ?_⟩⟩
      exact (hg.2.2 c rfl).2.2

variable (E : Env V)

theorem newChild_spec {db0 : Ctx} (p : Path) (c : Option Lazy) (m : Meta) {s : LSt σ V}
    (h : Stacked db0 s) : Stacked db0 (newChild L held E p c m s).2.2 ∧
      (newChild L held E p c m s).2.2.db = s.db := by
  unfold newChild
  split
  · split <;> exact ⟨h, rfl⟩
  · next c =>
    split
    · exact ⟨h, rfl⟩
    · exact ⟨h, rfl⟩
    · exact ⟨h, rfl⟩
    · exact ⟨h, rfl⟩
    · exact ⟨h, rfl⟩
    · next l q tb _ =>
      have hg := getContext_spec L held c h
      rcases hq : getContext L held c s with ⟨_ | ctx, s1⟩
      · rw [hq] at hg
        exact ⟨hg.1, hg.2.1⟩
      · rw [hq] at hg
        simp only at hg
        have hl := stacked_lift (p := llRead L ctx q tb l) hg.1 (hg.2.2 ctx rfl).1 (disc_read L _ _ _ _)
        have hdb : (lift (llRead L ctx q tb l) s1).2.db = s1.db := rfl
        rcases hq2 : lift (llRead L ctx q tb l) s1 with ⟨_ | d, s2⟩
        · rw [hq2] at hl hdb
          simp only [hq2]
          exact ⟨hl, hdb.trans hg.2.1⟩
        · rw [hq2] at hl hdb
          simp only [hq2]
          exact ⟨hl, hdb.trans hg.2.1⟩

theorem loadSize_spec {db0 : Ctx} (x : LNode V) {s : LSt σ V}
    (h : Stacked db0 s) : Stacked db0 (loadSize L held x s).2.2 ∧
      (loadSize L held x s).2.2.db = s.db := by
  unfold loadSize
  split
  · exact ⟨h, rfl⟩
  · next c m =>
    have hg := getContext_spec L held c h
    rcases hq : getContext L held c s with ⟨_ | ctx, s1⟩
    · rw [hq] at hg
      exact ⟨hg.1, hg.2.1⟩
    · rw [hq] at hg
      simp only
      cases hcache : s1.cache with
      | nil => exact ⟨hg.1, hg.2.1⟩
      | cons o r => exact ⟨hg.1, hg.2.1⟩
  · exact ⟨h, rfl⟩

theorem observe_spec {db0 : Ctx} (x : LNode V) {s : LSt σ V}
    (h : Stacked db0 s) : Stacked db0 (observe L held x s).2.2 ∧
      (observe L held x s).2.2.db = s.db := by
  have hl := loadSize_spec L held x h
  unfold observe
  split
  · exact ⟨h, rfl⟩
  · exact ⟨h, rfl⟩
  · split
    · next e => rw [e] at hl; exact hl
    · next e => rw [e] at hl; exact hl
    · next e => rw [e] at hl; exact hl

theorem access_spec {db0 : Ctx} (a : Addr) : ∀ (p : Path) (x : LNode V) (s : LSt σ V),
    Stacked db0 s → Stacked db0 (access L held E p x a s).2.2 ∧
      (access L held E p x a s).2.2.db = s.db := by
  induction a with
  | nil =>
    intro p x s h
    unfold access
    exact observe_spec L held x h
  | cons k a ih =>
    obtain ⟨n, i⟩ := k
    intro p x s h
    cases x with
    | leaf l v => unfold access; exact ⟨h, rfl⟩
    | aosNew c m => unfold access; exact ⟨h, rfl⟩
    | aos c m e => unfold access; exact ⟨h, rfl⟩
    | struct c f =>
      unfold access
      cases hf : f.find n with
      | none => exact ⟨h, rfl⟩
      | some ch =>
        simp only
        have h0 : Stacked db0 (getChild L held E (p ++ [n]) c ch s).2.2 ∧
            (getChild L held E (p ++ [n]) c ch s).2.2.db = s.db := by
          cases ch with
          | inl m => exact newChild_spec L held E _ c m h
          | inr x => exact ⟨h, rfl⟩
        rcases ht : getChild L held E (p ++ [n]) c ch s with ⟨_ | u, y, s1⟩
        all_goals rw [ht] at h0
        · exact h0
        · simp only at h0 ⊢
          cases i with
          | none =>
            simp only
            have h1 := ih (p ++ [n]) y s1 h0.1
            exact ⟨h1.1, h1.2.trans h0.2⟩
          | some i =>
            simp only
            have h1 := loadSize_spec L held y h0.1
            rcases hq : loadSize L held y s1 with ⟨_ | u, y1, s2⟩
            · rw [hq] at h1
              exact ⟨h1.1, h1.2.trans h0.2⟩
            · rw [hq] at h1
              simp only at h1
              cases y1 with
              | leaf l v => exact ⟨h1.1, h1.2.trans h0.2⟩
              | struct c f => exact ⟨h1.1, h1.2.trans h0.2⟩
              | aosNew c m => exact ⟨h1.1, h1.2.trans h0.2⟩
              | aos ac m e =>
                simp only
                cases hi : loadItem ac m e i with
                | none => exact ⟨h1.1, h1.2.trans h0.2⟩
                | some ef =>
                  simp only
                  have h2 := ih (p ++ [n]) (.struct ef.1 ef.2) s2 h1.1
                  split
                  · next e => rw [e] at h2; exact ⟨h2.1, h2.2.trans (h1.2.trans h0.2)⟩
                  · next e => rw [e] at h2; exact ⟨h2.1, h2.2.trans (h1.2.trans h0.2)⟩

theorem step_spec [Value V] {db0 : Ctx} (w : World σ V) (o : Op V) (h : Stacked db0 w.s) :
    Stacked db0 (step L held w o).2.s := by
  cases o with
  | get C I nbc k r m =>
    exact (stacked_onEntry L h fun c => disc_alGet L C I nbc c k r m).1
  | lazyGet C I nbc k r m =>
    have hs := (stacked_onEntry L h (p := fun db => (readMode L C db C.uda).andThen fun mode =>
      if !mode.known then .throw .assertion else .ret mode) fun c =>
        disc_andThen (disc_readMode L C c _) fun mode => by
          split
          · exact disc_throw _ _
          · exact disc_ret _ _).1
    unfold step
    simp only
    split
    · next e => rw [e] at hs; exact hs
    · next e => rw [e] at hs; exact hs
  | access k a =>
    unfold step
    simp only
    cases w.ids[k]? with
    | none => exact h
    | some x =>
      simp only
      have ha := (access_spec L held x.env a [] x.node w.s h).1
      split
      · next e => rw [e] at ha; exact ha
      · next e => rw [e] at ha; exact ha
  | version C => exact (stacked_onEntry L h fun c => disc_alReadVersion L C c).1
  | put C I ei nbc mode m slice f =>
    exact (stacked_onEntry L h fun c => disc_alPut L C I ei nbc c mode m slice f).1
  | delete C => exact (stacked_onEntry L h fun c => disc_alDelete L C c).1
  | close ok =>
    unfold step
    simp only
    cases hd : w.s.db with
    | none => exact h
    | some db =>
      simp only
      have hc := stacked_clear L h
      cases ok with
      | false => exact hc
      | true =>
        refine ⟨?_, fun _ => rfl⟩
        have := hc.1
        rw [clear_cache, clear_db, hd] at this
        simp only [llFinish, if_pos, calls_append, this, Option.bind_some]
        simp [calls, call, clear_cache]

theorem steps_spec [Value V] {db0 : Ctx} (ops : List (Op V)) (w : World σ V) (h : Stacked db0 w.s) :
    Stacked db0 (steps L held w ops).s := by
  induction ops generalizing w with
  | nil => exact h
  | cons o r ih => exact ih _ (step_spec L held w o h)

theorem step_cache [Value V] {db0 : Ctx} (w : World σ V) (o : Op V) (h : Stacked db0 w.s)
    (ho : OnEntry o) (hd : w.s.db ≠ none) :
    (step L held w o).2.s.db = w.s.db ∧ (step L held w o).2.s.cache = [] := by
  cases o with
  | get C I nbc k r m =>
    have := stacked_onEntry L h fun c => disc_alGet L C I nbc c k r m
    exact ⟨this.2.1, this.2.2 hd⟩
  | lazyGet C I nbc k r m =>
    have hs := (stacked_onEntry L h (p := fun db => (readMode L C db C.uda).andThen fun mode =>
      if !mode.known then .throw .assertion else .ret mode) fun c =>
        disc_andThen (disc_readMode L C c _) fun mode => by
          split
          · exact disc_throw _ _
          · exact disc_ret _ _)
    unfold step
    simp only
    split
    · next e => rw [e] at hs; exact ⟨hs.2.1, hs.2.2 hd⟩
    · next e => rw [e] at hs; exact ⟨hs.2.1, hs.2.2 hd⟩
  | access k a => exact absurd ho id
  | version C =>
    have := stacked_onEntry L h fun c => disc_alReadVersion L C c
    exact ⟨this.2.1, this.2.2 hd⟩
  | put C I ei nbc mode m slice f =>
    have := stacked_onEntry L h fun c => disc_alPut L C I ei nbc c mode m slice f
    exact ⟨this.2.1, this.2.2 hd⟩
  | delete C =>
    have := stacked_onEntry L h fun c => disc_alDelete L C c
    exact ⟨this.2.1, this.2.2 hd⟩
  | close ok => exact absurd ho id

/-! ### Counting -/

theorem call_count {st st' : List Ctx} {e : Event V} (h : call st e = some st') (c : Ctx) :
    begun c [e] + st.count c = ended c [e] + st'.count c := by
  cases st with
  | nil => simp [call] at h
  | cons t st =>
    cases e with
    | begin parent b res =>
      cases res with
      | none => simp only [call] at h; split at h <;> cases h; simp [begun, ended]
      | some d =>
        simp only [call] at h
        split at h <;> cases h
        simp only [begun, ended, List.countP_cons, List.countP_nil, List.count_cons]
        simp; omega
    | finish d =>
      simp only [call] at h
      split at h
      · next e =>
        cases h; subst e
        simp only [begun, ended, List.countP_cons, List.countP_nil, List.count_cons]
        simp; omega
      · cases h
    | iterate c' i ok => simp only [call] at h; split at h <;> cases h; simp [begun, ended]
    | read c' p => simp only [call] at h; split at h <;> cases h; simp [begun, ended]
    | write c' p tb v => simp only [call] at h; split at h <;> cases h; simp [begun, ended]
    | delete c' p => simp only [call] at h; split at h <;> cases h; simp [begun, ended]

theorem begun_cons (c : Ctx) (e : Event V) (l : List (Event V)) : begun c (e :: l) = begun c [e] + begun c l := by
  simp only [begun, List.countP_cons, List.countP_nil]; omega

theorem ended_cons (c : Ctx) (e : Event V) (l : List (Event V)) : ended c (e :: l) = ended c [e] + ended c l := by
  simp only [ended, List.countP_cons, List.countP_nil]; omega

theorem calls_count (c : Ctx) (l : List (Event V)) : ∀ st st' : List Ctx, calls st l = some st' →
    begun c l + st.count c = ended c l + st'.count c := by
  induction l with
  | nil => intro st st' h; simp only [calls] at h; cases h; rfl
  | cons e l ih =>
    intro st st' h
    simp only [calls] at h
    cases he : call st e with
    | none => rw [he] at h; cases h
    | some s1 =>
      rw [he] at h
      simp only [Option.bind_some] at h
      have h1 := call_count he c
      have h2 := ih s1 st' h
      rw [begun_cons, ended_cons]
      omega

end Verif.Al
