import Verif.Model.Al
import Verif.Spec.Convert
import Verif.Lemmas.DiffAddr
/-
Which calls the programs of the Access Layer backend make.
-/
namespace Verif.Al
open Verif.Ids Verif.DiffSpec Verif.TreeSpec
open Verif.Convert (names)

set_option linter.unusedSectionVars false
variable {σ V : Type}

/-- All calls the program makes have a property. -/
def Emits {α : Type} (P : Event V → Prop) (p : M σ V α) : Prop :=
  ∀ s, ∃ seg, (p s).2.log = s.log ++ seg ∧ ∀ e ∈ seg, P e

theorem emits_mono {α : Type} {P Q : Event V → Prop} {p : M σ V α} (h : Emits P p) (hpq : ∀ e, P e → Q e) :
    Emits Q p := fun s => (h s).imp fun _ h => ⟨h.1, fun e he => hpq e (h.2 e he)⟩

variable {P : Event V → Prop}

theorem emits_ret {α : Type} (a : α) : Emits P (M.ret a : M σ V α) :=
  fun _ => ⟨[], (List.append_nil _).symm, fun _ h => by cases h⟩

theorem emits_throw {α : Type} (e : Err) : Emits P (M.throw e : M σ V α) :=
  fun _ => ⟨[], (List.append_nil _).symm, fun _ h => by cases h⟩

theorem emits_andThen {α β : Type} {p : M σ V α} {f : α → M σ V β} (hp : Emits P p)
    (hf : ∀ a, Emits P (f a)) : Emits P (p.andThen f) := by
  intro s
  obtain ⟨g1, h1, d1⟩ := hp s
  unfold M.andThen
  rcases hr : p s with ⟨_ | a, s'⟩
  · rw [hr] at h1
    exact ⟨g1, h1, d1⟩
  · rw [hr] at h1
    obtain ⟨g2, h2, d2⟩ := hf a s'
    refine ⟨g1 ++ g2, ?_, fun e he => ?_⟩
    · simp only; rw [h2, h1, List.append_assoc]
    · rcases List.mem_append.1 he with h | h
      · exact d1 e h
      · exact d2 e h

theorem emits_times {α : Type} {p : M σ V α} (hp : Emits P p) : ∀ n, Emits P (M.times n p)
  | 0 => emits_ret []
  | n + 1 => emits_andThen hp fun _ => emits_andThen (emits_times hp n) fun _ => emits_ret _

variable (L : LL σ V)

theorem emits_iterate (c : Ctx) (i : Int) (h : ∀ b, P (.iterate c i b)) : Emits P (llIterate L c i) := by
  intro s
  unfold llIterate
  rcases L.iterate s.ll c i with ⟨_ | _, ll⟩
  · exact ⟨_, rfl, fun e he => by simp at he; subst he; exact h _⟩
  · exact ⟨_, rfl, fun e he => by simp at he; subst he; exact h _⟩

theorem emits_read (c : Ctx) (p : Path) (tb : Text) (l : LeafMeta) (h : P (.read c p tb)) :
    Emits P (llRead L c p tb l) := by
  intro s
  unfold llRead
  rcases L.read s.ll c p tb l with ⟨_ | _, ll⟩
  · exact ⟨_, rfl, fun e he => by simp at he; subst he; exact h⟩
  · exact ⟨_, rfl, fun e he => by simp at he; subst he; exact h⟩

theorem emits_write (c : Ctx) (p : Path) (tb : Text) (v : V) (h : P (.write c p tb v)) :
    Emits P (llWrite L c p tb v) := by
  intro s
  unfold llWrite
  rcases L.write s.ll c p tb v with ⟨_ | _, ll⟩
  · exact ⟨_, rfl, fun e he => by simp at he; subst he; exact h⟩
  · exact ⟨_, rfl, fun e he => by simp at he; subst he; exact h⟩

theorem emits_delete (c : Ctx) (p : Path) (h : P (.delete c p)) : Emits P (llDelete L c p) := by
  intro s
  unfold llDelete
  rcases L.delete s.ll c p with ⟨_ | _, ll⟩
  · exact ⟨_, rfl, fun e he => by simp at he; subst he; exact h⟩
  · exact ⟨_, rfl, fun e he => by simp at he; subst he; exact h⟩

theorem emits_with {α : Type} (c : Ctx) (b : Begin) {body : Ctx → Nat → M σ V α}
    (hb : ∀ r, P (.begin c b r)) (hf : ∀ c', P (.finish c')) (h : ∀ c' n, Emits P (body c' n)) :
    Emits P (withAction L c b body) := by
  intro s
  unfold withAction llBegin
  rcases L.begin s.ll c b with ⟨_ | ⟨c', size⟩, ll⟩
  · exact ⟨[.begin c b none], rfl, fun e he => by simp at he; subst he; exact hb _⟩
  · obtain ⟨g, hg, d⟩ := h c' size ⟨ll, s.log ++ [.begin c b (some c')]⟩
    refine ⟨[.begin c b (some c')] ++ g ++ [.finish c'], ?_, fun e he => ?_⟩
    · simp only [llFinish]; rw [hg]; simp
    · simp only [List.mem_append, List.mem_singleton] at he
      rcases he with (he | he) | he
      · subst he; exact hb _
      · exact d e he
      · subst he; exact hf _

/-- Calls that do not change what is stored. -/
def Reading : Event V → Prop
  | .begin _ b _ =>
    match b with
    | .global _ w _ => w = false
    | .slice _ w _ => w = false
    | .timerange _ _ => True
    | .aos _ _ n => n = 0
  | .iterate _ _ _ => True
  | .read _ _ _ => True
  | .write _ _ _ _ => False
  | .delete _ _ => False
  | .finish _ => True

section
variable (E : Env V)

mutual
theorem reading_getNode (p : Path) (c : Ctx) (m : Meta) : Emits Reading (getNode L E p c m) := by
  cases m with
  | leaf l =>
    unfold getNode
    split
    · exact emits_ret _
    · exact emits_andThen (emits_read L _ _ _ _ trivial) fun _ => emits_ret _
  | struct m =>
    unfold getNode
    split
    · exact emits_ret _
    · exact emits_andThen (reading_getFields p c m) fun _ => emits_ret _
  | aos m =>
    unfold getNode
    split
    · exact emits_ret _
    · refine emits_with L _ _ (fun _ => rfl) (fun _ => trivial) fun c' n => ?_
      split
      · exact emits_ret _
      · exact emits_andThen (emits_times (emits_andThen (reading_getFields p c' m) fun _ =>
          emits_andThen (emits_iterate L _ _ fun _ => trivial) fun _ => emits_ret _) _) fun _ => emits_ret _
theorem reading_getFields (p : Path) (c : Ctx) (m : MFields) : Emits Reading (getFields L E p c m) := by
  cases m with
  | nil => unfold getFields; exact emits_ret _
  | cons n m r =>
    unfold getFields
    exact emits_andThen (reading_getNode _ c m) fun _ => emits_andThen (reading_getFields p c r) fun _ =>
      emits_ret _
end
end

theorem reading_readMode (C : Conf V) (db : Ctx) (d : Bool) : Emits Reading (readMode L C db d) :=
  emits_with L _ _ (fun _ => rfl) (fun _ => trivial) fun _ _ =>
    emits_andThen (emits_read L _ _ _ _ trivial) fun _ => emits_ret _

theorem reading_alGet (C : Conf V) (I : Info V) (nbc : Option Nbc) (db : Ctx) (k : Bool) (r : Range)
    (m : MFields) : Emits Reading (alGet L C I nbc db k r m) := by
  refine emits_andThen (reading_readMode L C db _) fun mode => ?_
  split
  · exact emits_throw _
  · refine emits_with L _ _ (fun _ => ?_) (fun _ => trivial) fun c _ => reading_getFields L _ _ c m
    cases k <;> cases r <;> trivial

theorem reading_alReadVersion (C : Conf V) (db : Ctx) : Emits Reading (alReadVersion L C db) := by
  refine emits_andThen (emits_with L _ _ (fun _ => rfl) (fun _ => trivial) fun c _ =>
    emits_andThen (emits_read L _ _ _ _ trivial) fun _ =>
    emits_andThen (emits_read L _ _ _ _ trivial) fun _ => emits_ret _) fun r => ?_
  split
  · exact emits_throw _
  · exact emits_ret _

/-! ### What put writes -/

section
variable [Value V] (E : Env V) (slice verify : Bool)

/-- The call does not delete, and writes only what `W` allows. -/
def Writing (W : Path → Text → V → Prop) : Event V → Prop
  | .write _ q tb v => W q tb v
  | .delete _ _ => False
  | _ => True

/-- A filled data node of the node `x` with path `p` has this low-level path. -/
def Sends (E : Env V) (slice : Bool) (p : Path) (x : Node V) (q : Path) (tb : Text) (v : V) : Prop :=
  ∃ a, ValueAt x a v ∧ target E (p ++ names a) = some (q, tb) ∧
    (slice = true → E.info.dynamic (p ++ names a) = true)

theorem names_cons (n : Name) (i : Option Nat) (a : Addr) : names ((n, i) :: a) = n :: names a := rfl

theorem get?_present_rest {n k : Name} {x y : Node V} {r : Fields V} (hw : n ∉ r.names)
    (h : r.get? k = some y) : (Fields.present n x r).get? k = some y := by
  have : k ≠ n := fun e => hw (e ▸ get?_mem_names h)
  simp [Fields.get?, this, h]

theorem get?_absent_rest {n k : Name} {m : Meta} {y : Node V} {r : Fields V} (hw : n ∉ r.names)
    (h : r.get? k = some y) : (Fields.absent n m r).get? k = some y := by
  have : k ≠ n := fun e => hw (e ▸ get?_mem_names h)
  simp [Fields.get?, this, h]

/-- Children of the rest are children of the whole. -/
def Sub (r f : Fields V) : Prop := ∀ k y, r.get? k = some y → f.get? k = some y

theorem sends_sub {p : Path} {r f : Fields V} (h : Sub r f) {q : Path}
    {tb : Text} {v : V} (hs : Sends E slice p (.struct r) q tb v) :
    Sends E slice p (.struct f) q tb v := by
  obtain ⟨a, ⟨l, h1, h2⟩, h3, h4⟩ := hs
  refine ⟨a, ⟨l, ?_, h2⟩, h3, h4⟩
  cases a with
  | nil => simp [Node.at] at h1
  | cons s a =>
    obtain ⟨n, i⟩ := s
    simp only [Node.at, Node.item] at h1 ⊢
    cases hg : r.get? n with
    | none => simp [hg] at h1
    | some y => rw [hg] at h1; rw [h n y hg]; exact h1

/-- A data node in one of the elements. -/
def SendsE (E : Env V) (slice : Bool) (p : Path) (e : Elems V) (q : Path) (tb : Text) (v : V) : Prop :=
  ∃ i f, e.get? i = some f ∧ Sends E slice p (.struct f) q tb v

theorem sends_struct {p : Path} {n : Name} {f : Fields V} {q : Path} {tb : Text} {v : V}
    (hs : Sends E slice (p ++ [n]) (.struct f) q tb v) :
    Sends E slice p (.struct (.present n (.struct f) .nil)) q tb v := by
  obtain ⟨a, ⟨l, h1, h2⟩, h3, h4⟩ := hs
  refine ⟨(n, none) :: a, ⟨l, ?_, h2⟩, ?_, ?_⟩
  · simp [Node.at, Node.item, Fields.get?, h1]
  · rw [names_cons]; simpa using h3
  · rw [names_cons]; simpa using h4

theorem sends_elem {p : Path} {n : Name} {m : MFields} {e : Elems V} {q : Path} {tb : Text} {v : V}
    (hs : SendsE E slice (p ++ [n]) e q tb v) :
    Sends E slice p (.struct (.present n (.aos m e) .nil)) q tb v := by
  obtain ⟨i, f, hi, a, ⟨l, h1, h2⟩, h3, h4⟩ := hs
  refine ⟨(n, some i) :: a, ⟨l, ?_, h2⟩, ?_, ?_⟩
  · simp [Node.at, Node.item, Fields.get?, hi, h1]
  · rw [names_cons]; simpa using h3
  · rw [names_cons]; simpa using h4

theorem writing_mono {W W' : Path → Text → V → Prop} (h : ∀ q tb v, W q tb v → W' q tb v) (e : Event V) :
    Writing W e → Writing W' e := by
  cases e <;> simp only [Writing] <;> first | exact id | exact h _ _ _

mutual
theorem writing_putNode (p : Path) (n : Name) (c : Ctx) (x : Node V) (hw : WF x) (hv : x.hasValue = true) :
    Emits (Writing (Sends E slice p (.struct (.present n x .nil)))) (putNode L E slice verify (p ++ [n]) c x) := by
  cases x with
  | leaf l v =>
    unfold putNode
    split
    · exact emits_ret _
    · next q tb ht =>
      split
      · exact emits_ret _
      · next hd =>
        split
        · exact emits_ret _
        · next v =>
          refine emits_write L _ _ _ _ ⟨[(n, none)], ⟨l, by simp [Node.at, Node.item, Fields.get?], ?_⟩, ht,
            fun hs => ?_⟩
          · simpa [Node.hasValue, leafHasValue] using hv
          · cases hdy : E.info.dynamic (p ++ [n])
            · simp [hs, hdy] at hd
            · simpa [names] using hdy
  | struct f =>
    unfold putNode
    split
    · exact emits_ret _
    · exact emits_mono (writing_putFields (p ++ [n]) c f (by simpa [WF] using hw))
        (writing_mono fun q tb v => sends_struct E slice)
  | aos m e =>
    unfold putNode
    split
    · exact emits_ret _
    · split
      · exact emits_throw _
      · refine emits_with L _ _ (fun _ => trivial) (fun _ => trivial) fun c' _ => ?_
        exact emits_mono (writing_putElems (p ++ [n]) c' e hw.2)
          (writing_mono fun q tb v => sends_elem E slice)
theorem writing_putFields (p : Path) (c : Ctx) (f : Fields V) (hw : WFFields f) :
    Emits (Writing (Sends E slice p (.struct f))) (putFields L E slice verify p c f) := by
  cases f with
  | nil => unfold putFields; exact emits_ret _
  | absent n m r =>
    unfold putFields
    exact emits_mono (writing_putFields p c r hw.2.2)
      (writing_mono fun q tb v => sends_sub E slice fun k y h => get?_absent_rest hw.1 h)
  | present n x r =>
    have hr : Emits (Writing (Sends E slice p (.struct (.present n x r)))) (putFields L E slice verify p c r) :=
      emits_mono (writing_putFields p c r hw.2.2)
        (writing_mono fun q tb v => sends_sub E slice fun k y h => get?_present_rest hw.1 h)
    unfold putFields
    split
    · next hv =>
      refine emits_andThen (emits_mono (writing_putNode p n c x hw.2.1 hv)
        (writing_mono fun q tb v => sends_sub E slice fun k y h => ?_)) fun _ => hr
      simp only [Fields.get?] at h ⊢
      split
      · next e => rw [if_pos e] at h; exact h
      · next e => rw [if_neg e] at h; cases h
    · exact hr
theorem writing_putElems (p : Path) (c : Ctx) (e : Elems V) (hw : WFElems e) :
    Emits (Writing (SendsE E slice p e)) (putElems L E slice verify p c e) := by
  cases e with
  | nil => unfold putElems; exact emits_ret _
  | cons f r =>
    unfold putElems
    exact emits_andThen (emits_mono (writing_putFields p c f hw.1)
        (writing_mono fun q tb v h => ⟨0, f, rfl, h⟩)) fun _ =>
      emits_andThen (emits_iterate L _ _ fun _ => trivial) fun _ =>
      emits_mono (writing_putElems p c r hw.2)
        (writing_mono fun q tb v ⟨i, g, hi, h⟩ => ⟨i + 1, g, hi, h⟩)
end
/-! ### Nothing is left out -/

theorem at_of_single {n : Name} {x y : Node V} {f : Fields V} {a : Addr}
    (h : (Node.struct (.present n x .nil)).at a = some y) (hf : f.get? n = some x) {l : LeafMeta} {w : V}
    (hy : y = .leaf l (some w) := by rfl) : (Node.struct f).at a = some y := by
  cases a with
  | nil => subst hy; simp [Node.at] at h
  | cons s a =>
    obtain ⟨k, i⟩ := s
    by_cases hk : k = n
    · subst hk
      simp only [Node.at, Node.item, Fields.get?, if_pos] at h
      simpa only [Node.at, Node.item, hf] using h
    · simp [Node.at, Node.item, Fields.get?, hk] at h


/-- If the program succeeds, it made all these writes. -/
def Covers {α : Type} (R : Path → Text → V → Prop) (p : M σ V α) : Prop :=
  ∀ s a s', p s = (.ok a, s') →
    ∃ seg, s'.log = s.log ++ seg ∧ ∀ q tb v, R q tb v → ∃ c, .write c q tb v ∈ seg

theorem covers_none {α : Type} {R : Path → Text → V → Prop} {p : M σ V α} (h : Emits (fun _ => True) p)
    (hr : ∀ q tb v, ¬ R q tb v) : Covers R p := fun s a s' e => by
  obtain ⟨seg, h1, _⟩ := h s
  rw [e] at h1
  exact ⟨seg, h1, fun q tb v r => absurd r (hr q tb v)⟩

theorem covers_mono {α : Type} {R R' : Path → Text → V → Prop} {p : M σ V α} (h : Covers R p)
    (hr : ∀ q tb v, R' q tb v → R q tb v) : Covers R' p := fun s a s' e => by
  obtain ⟨seg, h1, h2⟩ := h s a s' e
  exact ⟨seg, h1, fun q tb v r => h2 q tb v (hr q tb v r)⟩

theorem covers_andThen {α β : Type} {R R' : Path → Text → V → Prop} {p : M σ V α} {f : α → M σ V β}
    (hp : Covers R p) (hf : ∀ a, Covers R' (f a)) :
    Covers (fun q tb v => R q tb v ∨ R' q tb v) (p.andThen f) := by
  intro s b s' e
  unfold M.andThen at e
  rcases hr : p s with ⟨_ | a, s1⟩
  · rw [hr] at e; cases e
  · rw [hr] at e
    simp only at e
    obtain ⟨g1, h1, d1⟩ := hp s a s1 hr
    obtain ⟨g2, h2, d2⟩ := hf a s1 b s' e
    refine ⟨g1 ++ g2, by rw [h2, h1, List.append_assoc], fun q tb v r => ?_⟩
    rcases r with r | r
    · obtain ⟨c, hc⟩ := d1 q tb v r; exact ⟨c, List.mem_append_left _ hc⟩
    · obtain ⟨c, hc⟩ := d2 q tb v r; exact ⟨c, List.mem_append_right _ hc⟩

theorem covers_write (c : Ctx) (q : Path) (tb : Text) (v : V) :
    Covers (fun q' tb' v' => q' = q ∧ tb' = tb ∧ v' = v) (llWrite L c q tb v) := by
  intro s a s' e
  unfold llWrite at e
  rcases hq : L.write s.ll c q tb v with ⟨_ | _, ll⟩ <;> rw [hq] at e
  · cases e
  · cases e
    exact ⟨[.write c q tb v], rfl, fun q' tb' v' ⟨h1, h2, h3⟩ => ⟨c, by simp [h1, h2, h3]⟩⟩

theorem covers_with {α : Type} {R : Path → Text → V → Prop} (c : Ctx) (b : Begin)
    {body : Ctx → Nat → M σ V α} (h : ∀ c' n, Covers R (body c' n)) : Covers R (withAction L c b body) := by
  intro s a s' e
  unfold withAction llBegin at e
  rcases hq : L.begin s.ll c b with ⟨_ | ⟨c', size⟩, ll⟩ <;> rw [hq] at e
  · cases e
  · simp only at e
    rcases hb : body c' size ⟨ll, s.log ++ [.begin c b (some c')]⟩ with ⟨r, s1⟩
    rw [hb] at e
    simp only [llFinish] at e
    cases e
    obtain ⟨g, hg, d⟩ := h c' size _ _ _ hb
    refine ⟨[.begin c b (some c')] ++ g ++ [.finish c'], by rw [hg]; simp, fun q tb v r => ?_⟩
    obtain ⟨k, hk⟩ := d q tb v r
    exact ⟨k, by simp [hk]⟩

/-- A filled data node all of whose ancestors are transferred. -/
def Due (E : Env V) (slice : Bool) (p : Path) (x : Node V) (q : Path) (tb : Text) (v : V) : Prop :=
  ∃ a, ValueAt x a v ∧ (∀ k, 0 < k → k ≤ a.length → target E (p ++ names (a.take k)) ≠ none) ∧
    target E (p ++ names a) = some (q, tb) ∧ (slice = true → E.info.dynamic (p ++ names a) = true)

def DueE (E : Env V) (slice : Bool) (p : Path) (e : Elems V) (q : Path) (tb : Text) (v : V) : Prop :=
  ∃ i f, e.get? i = some f ∧ Due E slice p (.struct f) q tb v

theorem due_split {p : Path} {f : Fields V} {q : Path} {tb : Text} {v : V}
    (h : Due E slice p (.struct f) q tb v) :
    ∃ n x, f.get? n = some x ∧ Due E slice p (.struct (.present n x .nil)) q tb v := by
  obtain ⟨a, ⟨l, h1, h2⟩, h3⟩ := h
  cases a with
  | nil => simp [Node.at] at h1
  | cons s a =>
    obtain ⟨n, i⟩ := s
    cases hg : f.get? n with
    | none => simp [Node.at, Node.item, hg] at h1
    | some x =>
      refine ⟨n, x, hg, (n, i) :: a, ⟨l, ?_, h2⟩, h3⟩
      simp only [Node.at, Node.item, hg] at h1
      simpa [Node.at, Node.item, Fields.get?] using h1

theorem due_hasValue {p : Path} {n : Name} {x : Node V} {q : Path} {tb : Text} {v : V}
    (h : Due E slice p (.struct (.present n x .nil)) q tb v) : x.hasValue = true := by
  obtain ⟨a, h1, _⟩ := h
  have := valueAt_hasValue h1
  simpa [Node.hasValue, Fields.hasValue] using this

theorem due_target {p : Path} {n : Name} {x : Node V} {q : Path} {tb : Text} {v : V}
    (h : Due E slice p (.struct (.present n x .nil)) q tb v) : target E (p ++ [n]) ≠ none := by
  obtain ⟨a, ⟨l, h1, h2⟩, h3, h4⟩ := h
  cases a with
  | nil => simp [Node.at] at h1
  | cons s a =>
    obtain ⟨k, i⟩ := s
    have : k = n := by
      simp only [Node.at, Node.item, Fields.get?] at h1
      split at h1 <;> simp_all
    subst this
    have := h3 1 (by omega) (by simp)
    simpa [names] using this

theorem due_tail {p : Path} {n : Name} {i : Option Nat} {a : Addr}
    (h : ∀ k, 0 < k → k ≤ ((n, i) :: a).length → target E (p ++ names (((n, i) :: a).take k)) ≠ none) :
    ∀ k, 0 < k → k ≤ a.length → target E (p ++ [n] ++ names (a.take k)) ≠ none := by
  intro k hk hl
  have := h (k + 1) (by omega) (by simp; omega)
  simpa [names] using this

theorem due_struct {p : Path} {n : Name} {f : Fields V} {q : Path} {tb : Text} {v : V}
    (h : Due E slice p (.struct (.present n (.struct f) .nil)) q tb v) :
    Due E slice (p ++ [n]) (.struct f) q tb v := by
  obtain ⟨a, ⟨l, h1, h2⟩, h3, h4, h5⟩ := h
  cases a with
  | nil => simp [Node.at] at h1
  | cons s a =>
    obtain ⟨k, i⟩ := s
    by_cases hk : k = n
    · subst hk
      cases i with
      | none =>
        simp [Node.at, Node.item, Fields.get?] at h1
        refine ⟨a, ⟨l, h1, h2⟩, due_tail E h3, ?_, fun hs => ?_⟩
        · rw [names_cons] at h4; simpa using h4
        · have := h5 hs; rw [names_cons] at this; simpa using this
      | some i => simp [Node.at, Node.item, Fields.get?] at h1
    · simp [Node.at, Node.item, Fields.get?, hk] at h1

theorem due_elem {p : Path} {n : Name} {m : MFields} {e : Elems V} {q : Path} {tb : Text} {v : V}
    (h : Due E slice p (.struct (.present n (.aos m e) .nil)) q tb v) :
    DueE E slice (p ++ [n]) e q tb v := by
  obtain ⟨a, ⟨l, h1, h2⟩, h3, h4, h5⟩ := h
  cases a with
  | nil => simp [Node.at] at h1
  | cons s a =>
    obtain ⟨k, i⟩ := s
    by_cases hk : k = n
    · subst hk
      cases i with
      | none => cases a <;> simp [Node.at, Node.item, Fields.get?] at h1
      | some i =>
        cases hi : e.get? i with
        | none => simp [Node.at, Node.item, Fields.get?, hi] at h1
        | some f =>
          simp [Node.at, Node.item, Fields.get?, hi] at h1
          refine ⟨i, f, hi, a, ⟨l, h1, h2⟩, due_tail E h3, ?_, fun hs => ?_⟩
          · rw [names_cons] at h4; simpa using h4
          · have := h5 hs; rw [names_cons] at this; simpa using this
    · simp [Node.at, Node.item, Fields.get?, hk] at h1

theorem emits_true {α : Type} {p : M σ V α} (h : Emits P p) : Emits (fun _ => True) p :=
  emits_mono h fun _ _ => trivial

theorem due_leaf {p : Path} {n : Name} {l : LeafMeta} {w : Option V} {q : Path} {tb : Text} {v : V}
    (h : Due E slice p (.struct (.present n (.leaf l w) .nil)) q tb v) :
    w = some v ∧ target E (p ++ [n]) = some (q, tb) ∧ (slice = true → E.info.dynamic (p ++ [n]) = true) := by
  obtain ⟨a, ⟨l', h1, h2⟩, h3, h4, h5⟩ := h
  cases a with
  | nil => simp [Node.at] at h1
  | cons s a =>
    obtain ⟨k, i⟩ := s
    by_cases hk : k = n
    · subst hk
      cases i with
      | none =>
        cases a with
        | nil =>
          simp [Node.at, Node.item, Fields.get?] at h1
          exact ⟨h1.2, by simpa [names] using h4, by simpa [names] using h5⟩
        | cons s a => simp [Node.at, Node.item, Fields.get?] at h1
      | some i => simp [Node.at, Node.item, Fields.get?] at h1
    · simp [Node.at, Node.item, Fields.get?, hk] at h1

mutual
theorem covers_putNode (p : Path) (n : Name) (c : Ctx) (x : Node V) (hw : WF x) :
    Covers (Due E slice p (.struct (.present n x .nil))) (putNode L E slice verify (p ++ [n]) c x) := by
  cases x with
  | leaf l v =>
    unfold putNode
    split
    · next ht => exact covers_none (emits_ret _) fun q tb v h => due_target E slice h ht
    · next q tb ht =>
      split
      · next hd =>
        refine covers_none (emits_ret _) fun q tb v h => ?_
        have := due_leaf E slice h
        simp only [Bool.and_eq_true, Bool.not_eq_true'] at hd
        rw [this.2.2 hd.1] at hd
        cases hd.2
      · split
        · exact covers_none (emits_ret _) fun q tb v h => by cases (due_leaf E slice h).1
        · refine covers_mono (covers_write L _ _ _ _) fun q' tb' v' h => ?_
          have := due_leaf E slice h
          rw [ht] at this
          cases this.1
          cases this.2.1
          exact ⟨rfl, rfl, rfl⟩
  | struct f =>
    unfold putNode
    split
    · next ht => exact covers_none (emits_ret _) fun q tb v h => due_target E slice h ht
    · exact covers_mono (covers_putFields (p ++ [n]) c f (by simpa [WF] using hw))
        fun q tb v => due_struct E slice
  | aos m e =>
    unfold putNode
    split
    · next ht => exact covers_none (emits_ret _) fun q tb v h => due_target E slice h ht
    · split
      · intro s a s' e; cases e
      · exact covers_with L _ _ fun c' _ => covers_mono (covers_putElems (p ++ [n]) c' e hw.2)
          fun q tb v => due_elem E slice
theorem covers_putFields (p : Path) (c : Ctx) (f : Fields V) (hw : WFFields f) :
    Covers (Due E slice p (.struct f)) (putFields L E slice verify p c f) := by
  cases f with
  | nil =>
    unfold putFields
    refine covers_none (emits_ret _) fun q tb v h => ?_
    obtain ⟨n, x, h, _⟩ := due_split E slice h
    cases h
  | absent n m r =>
    unfold putFields
    refine covers_mono (covers_putFields p c r hw.2.2) fun q tb v h => ?_
    obtain ⟨k, x, hk, h⟩ := due_split E slice h
    simp only [Fields.get?] at hk
    split at hk
    · cases hk
      have := due_hasValue E slice h
      rw [fresh_hasValue] at this; cases this
    · obtain ⟨a, ⟨l, h1, h2⟩, h3⟩ := h
      refine ⟨a, ⟨l, ?_, h2⟩, h3⟩
      exact at_of_single h1 hk
  | present n x r =>
    have hrest : ∀ q tb v, Due E slice p (.struct (.present n x r)) q tb v →
        Due E slice p (.struct (.present n x .nil)) q tb v ∨ Due E slice p (.struct r) q tb v := by
      intro q tb v h
      obtain ⟨k, y, hk, hd⟩ := due_split E slice h
      simp only [Fields.get?] at hk
      split at hk
      · next e => cases hk; subst e; exact .inl hd
      · obtain ⟨a, ⟨l, h1, h2⟩, h3⟩ := hd
        exact .inr ⟨a, ⟨l, at_of_single h1 hk, h2⟩, h3⟩
    unfold putFields
    split
    · exact covers_mono (covers_andThen (covers_putNode p n c x hw.2.1) fun _ =>
        covers_putFields p c r hw.2.2) hrest
    · next hv =>
      refine covers_mono (covers_putFields p c r hw.2.2) fun q tb v h => ?_
      rcases hrest q tb v h with h | h
      · exact absurd (due_hasValue E slice h) hv
      · exact h
theorem covers_putElems (p : Path) (c : Ctx) (e : Elems V) (hw : WFElems e) :
    Covers (DueE E slice p e) (putElems L E slice verify p c e) := by
  cases e with
  | nil => unfold putElems; exact covers_none (emits_ret _) fun q tb v ⟨i, f, h, _⟩ => by cases h
  | cons f r =>
    unfold putElems
    refine covers_mono (covers_andThen (covers_putFields p c f hw.1) fun _ =>
      covers_andThen (covers_none (R := fun _ _ _ => False)
        (emits_iterate L _ _ fun _ => trivial) fun _ _ _ => id) fun _ =>
      covers_putElems p c r hw.2) fun q tb v ⟨i, g, hi, h⟩ => ?_
    cases i with
    | zero => cases hi; exact .inl h
    | succ i => exact .inr (.inr ⟨i, g, hi, h⟩)
end
end

theorem andThen_ok {α β : Type} {p : M σ V α} {f : α → M σ V β} {s s' : St σ V} {a : α}
    (h : p s = (.ok a, s')) : p.andThen f s = f a s' := by
  unfold M.andThen; rw [h]

theorem andThen_error {α β : Type} {p : M σ V α} {f : α → M σ V β} {s s' : St σ V} {e : Err}
    (h : p s = (.error e, s')) : p.andThen f s = (.error e, s') := by
  unfold M.andThen; rw [h]

section
variable [Value V] (C : Conf V) (I ei : Info V) (nbc : Option Nbc) (db : Ctx) (mode : Mode) (m : MFields)
  (f : Fields V)

theorem alPut_slice_same {s s1 : St σ V} (hm : readMode L C db false s = (.ok mode, s1))
    (hu : mode ≠ .unknown) : alPut L C I ei nbc db mode m true f s =
      withAction L db (.slice C.occ true 0)
        (fun c _ => putFields L ⟨I, mode, nbc⟩ true C.mdsplus [] c f) s1 := by
  unfold alPut
  rw [andThen_ok (a := true) (s' := s1)]
  · rfl
  · rw [if_pos rfl, andThen_ok hm, if_neg hu, if_neg (fun h => h rfl)]; rfl

theorem alPut_slice_other {s s1 : St σ V} {stored : Mode}
    (hm : readMode L C db false s = (.ok stored, s1)) (hu : stored ≠ .unknown) (hne : stored ≠ mode) :
    alPut L C I ei nbc db mode m true f s = (.error .entry, s1) := by
  unfold alPut
  rw [andThen_error]
  rw [if_pos rfl, andThen_ok hm, if_neg hu, if_pos hne]; rfl

theorem alPut_slice_error {s s1 : St σ V} {e : Err}
    (hm : readMode L C db false s = (.error e, s1)) :
    alPut L C I ei nbc db mode m true f s = (.error e, s1) := by
  unfold alPut
  rw [andThen_error]
  rw [if_pos rfl, andThen_error hm]

theorem alPut_slice_empty {s s1 : St σ V} (hm : readMode L C db false s = (.ok .unknown, s1)) :
    alPut L C I ei nbc db mode m true f s = alPut L C I ei nbc db mode m false f s1 := by
  unfold alPut
  rw [andThen_ok (a := false) (s' := s1), andThen_ok (a := false) (s' := s1)]
  · rfl
  · rw [if_pos rfl, andThen_ok hm, if_pos rfl]; rfl
end

end Verif.Al
