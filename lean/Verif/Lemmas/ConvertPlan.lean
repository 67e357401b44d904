import Verif.Spec.Convert
import Verif.Lemmas.Goto
import Verif.Lemmas.Update
import Verif.Lemmas.DiffAddr
/-
A successful conversion performs a fixed list of writes, the plan.
-/
set_option linter.unusedSectionVars false
namespace Verif.Convert
open Verif.Ids Verif.TreeSpec Verif.ConvertSpec Verif.GotoSpec
open Verif.Path (Idx Parsed)

variable {V : Type} [Value V]

/-! ### The target dictionary -/

theorem mchild_eq (m : MFields) (k : Name) : mchild m k = mget k m := by
  induction m using MFields.rec (motive_1 := fun _ => True) with
  | leaf => trivial
  | struct => trivial
  | aos => trivial
  | nil => rfl
  | cons n m r _ ih => simp only [mchild, mget, ih]

theorem typedAt_struct {c : Fields V} {m : Meta} (h : TypedAt (.struct c) m) :
    ∃ mf, TypedF c mf ∧ ∀ n, child m n = mget n mf := by
  rcases h with h | ⟨f, mf, h1, h2, h3⟩
  · cases m with
    | leaf => simp [Typed] at h
    | aos => simp [Typed] at h
    | struct mf => exact ⟨mf, by simpa [Typed] using h, fun n => by simp [child, mchild_eq]⟩
  · cases h1; subst h2
    exact ⟨mf, h3, fun n => by simp [child, mchild_eq]⟩

theorem typedAt_item {x y : Node V} {m : Meta} {s : Name × Option Nat} (h : TypedAt x m)
    (hs : x.item s = some y) : ∃ m', child m s.1 = some m' ∧ TypedAt y m' := by
  obtain ⟨c, rfl, hc⟩ := item_cases hs
  obtain ⟨mf, ht, hch⟩ := typedAt_struct h
  have h1 := typed_get ht s.1
  rw [hch]
  cases hm : mget s.1 mf with
  | none =>
    rw [hm] at h1
    simp only at h1
    rcases hc with ⟨-, hg⟩ | ⟨i, m', e, f, -, hg, -⟩ <;> simp [h1] at hg
  | some m' =>
    rw [hm] at h1
    obtain ⟨z, hz, tz⟩ := h1
    refine ⟨m', rfl, ?_⟩
    rcases hc with ⟨-, hg⟩ | ⟨i, m1, e, f, -, hg, hf, rfl⟩
    · rw [hz] at hg; cases hg; exact .inl tz
    · rw [hz] at hg; cases hg
      cases m' with
      | leaf => simp [Typed] at tz
      | struct => simp [Typed] at tz
      | aos mf' =>
        simp only [Typed] at tz
        exact .inr ⟨f, mf', rfl, rfl, typed_elem tz.2 hf⟩

theorem typedAt_at {t : Addr} {root x : Node V} {tm : Meta} (h : TypedAt root tm)
    (hx : root.at t = some x) : ∃ m, metaAt tm (names t) = some m ∧ TypedAt x m := by
  induction t generalizing root tm with
  | nil => simp [Node.at] at hx; subst hx; exact ⟨tm, rfl, h⟩
  | cons s t ih =>
    simp only [Node.at, Option.bind_eq_some_iff] at hx
    obtain ⟨y, hy, hx⟩ := hx
    obtain ⟨m', h1, h2⟩ := typedAt_item h hy
    obtain ⟨m, h3, h4⟩ := ih h2 hx
    refine ⟨m, ?_, h4⟩
    simp only [names, List.map_cons, metaAt, h1, Option.bind_some]
    exact h3

theorem metaAt_append (m : Meta) (p q : List Name) :
    metaAt m (p ++ q) = (metaAt m p).bind (metaAt · q) := by
  induction p generalizing m with
  | nil => simp [metaAt]
  | cons n p ih =>
    simp only [List.cons_append, metaAt]
    cases child m n <;> simp [ih]

/-! ### Looking up targets -/

theorem evals_none {nested : Parsed → Except NavErr Int} {q : List Name}
    {items : List (Name × Option Int)}
    (h : Evals nested (q.zip (q.map fun _ => (none : Option Idx))) items) :
    items = q.map (·, none) := by
  induction q generalizing items with
  | nil => cases h; rfl
  | cons n q ih =>
    simp only [List.map_cons, List.zip_cons_cons] at h
    cases h with
    | none h => simp [ih h]

theorem walk_names {root : Node V} {q : List Name} {a b : Addr}
    (h : Walk root a (q.map (·, none)) b) : b = a ++ q.map (·, none) := by
  induction q generalizing a with
  | nil => cases h; simp
  | cons n q ih =>
    simp only [List.map_cons] at h
    cases h with
    | cons h1 h2 =>
      cases h1
      rw [ih h2]; simp

theorem gotoTarget_ok {root : Node V} {t : Addr} {q : List Name} {o : Option Addr}
    (h : gotoTarget root t q = .ok o) : o = some (relocate t q) := by
  unfold gotoTarget at h
  split at h
  · simp at h
  · next b hb =>
    simp only [Except.ok.injEq] at h
    subst h
    rw [goto_iff_aux (by simp) rfl] at hb
    obtain ⟨-, items, h1, h2⟩ := hb
    rw [← List.map_drop] at h1
    have := evals_none h1
    subst this
    rw [walk_names h2]; rfl

theorem getTarget_ok {cx : Cfg V} {root : Node V} {tm : Meta} (ht : Typed root tm) {q : List Name}
    {n : Name} {t : Addr} {o : Option Addr} (h : getTarget cx root q n t = .ok o) :
    o = step cx tm q n t := by
  unfold getTarget at h
  unfold step
  split at h
  · next h1 => simp only [h1]; simpa using h.symm
  · next r h1 => simp only [h1]; exact gotoTarget_ok h
  · next h1 =>
    simp only [h1]
    unfold sameName at h
    split at h
    · next c hc =>
      obtain ⟨m, h2, h3⟩ := typedAt_at (.inl ht) hc
      obtain ⟨mf, h4, h5⟩ := typedAt_struct h3
      have h6 := typed_get h4 n
      have h7 : metaAt tm (names t ++ [n]) = mget n mf := by
        rw [metaAt_append, h2]
        simp only [Option.bind_some, metaAt, h5]
        cases mget n mf <;> rfl
      rw [h7]
      cases hm : mget n mf with
      | none => rw [hm] at h6; simp only at h6; rw [h6] at h; simpa using h.symm
      | some m' =>
        rw [hm] at h6; obtain ⟨x, hx, -⟩ := h6
        rw [hx] at h; simpa using h.symm
    · simp at h

/-! ### Writes keep types -/

theorem typed_put {c : Fields V} {m : MFields} (h : TypedF c m) {k : Name} {y : Node V} {m' : Meta}
    (hm : mget k m = some m') (hy : Typed y m') : TypedF (c.put k y) m := by
  cases c with
  | nil => cases m <;> simp_all [TypedF, Fields.put]
  | absent n m1 r =>
    cases m with
    | nil => simp [TypedF] at h
    | cons n' m2 r' =>
      simp only [TypedF] at h
      obtain ⟨rfl, rfl, h⟩ := h
      simp only [mget] at hm
      simp only [Fields.put]
      split at hm
      · next e => cases hm; simp [e, TypedF, hy, h]
      · next e => simp [e, TypedF, typed_put h hm hy]
  | present n x r =>
    cases m with
    | nil => simp [TypedF] at h
    | cons n' m2 r' =>
      simp only [TypedF] at h
      obtain ⟨rfl, hx, h⟩ := h
      simp only [mget] at hm
      simp only [Fields.put]
      split at hm
      · next e => cases hm; simp [e, TypedF, hy, h]
      · next e => simp [e, TypedF, hx, typed_put h hm hy]

theorem typed_set {e : Elems V} {m : MFields} (h : TypedE e m) {i : Nat} {f : Fields V}
    (hf : TypedF f m) : TypedE (e.set i f) m := by
  cases e with
  | nil => simp [Elems.set, TypedE]
  | cons c r =>
    simp only [TypedE] at h
    cases i with
    | zero => simp [Elems.set, TypedE, hf, h.2]
    | succ i => simp [Elems.set, TypedE, h.1, typed_set h.2 hf]

theorem keepsStruct {f : Node V → Except ConvErr (Node V)} (h : Keeps f) : KeepsStruct f := h.2

theorem typed_modify {f : Node V → Except ConvErr (Node V)} (hk : Keeps f) {a : Addr}
    {n n' : Node V} {m : Meta} (ht : Typed n m) (h : n.modify f a = some (.ok n')) : Typed n' m := by
  induction a generalizing n n' m with
  | nil => simp [Node.modify] at h; exact hk.1 _ _ _ ht h
  | cons s a ih =>
    obtain ⟨k, i⟩ := s
    cases n with
    | leaf => simp [Node.modify] at h
    | aos => simp [Node.modify] at h
    | struct c =>
      cases m with
      | leaf => simp [Typed] at ht
      | aos => simp [Typed] at ht
      | struct mf =>
      simp only [Typed] at ht
      simp only [Node.modify] at h
      have hg := typed_get ht k
      split at h
      · simp at h
      · next x hx =>
        cases hm : mget k mf with
        | none => rw [hm] at hg; simp only at hg; rw [hg] at hx; simp at hx
        | some m' =>
        rw [hm] at hg
        obtain ⟨z, hz, tz⟩ := hg
        rw [hx] at hz; cases hz
        cases i with
        | none =>
          simp only [Option.map_eq_some_iff] at h
          obtain ⟨r, hr, h⟩ := h
          cases r with
          | error => simp [Except.map] at h
          | ok z =>
            simp [Except.map] at h; subst h
            simp only [Typed]
            exact typed_put ht hm (ih tz hr)
        | some i =>
          simp only at h
          split at h
          · next m1 e =>
            split at h
            · simp at h
            · next g hgi =>
              simp only [Option.map_eq_some_iff] at h
              obtain ⟨r, hr, h⟩ := h
              cases r with
              | error => simp [Except.map] at h
              | ok z =>
                obtain ⟨g', rfl⟩ := modify_struct hk.2 hr
                simp only [Except.map, Except.ok.injEq] at h
                subst h
                cases m' with
                | leaf => simp [Typed] at tz
                | struct => simp [Typed] at tz
                | aos mf' =>
                  simp only [Typed] at tz
                  have t2 := ih (m := .struct mf') (by simpa only [Typed] using typed_elem tz.2 hgi) hr
                  simp only [Typed] at t2 ⊢
                  refine typed_put ht hm ?_
                  simp only [Typed]
                  exact ⟨tz.1, typed_set tz.2 t2⟩
          · simp at h

theorem typedE_ofList {l : List (Fields V)} {m : MFields} (h : ∀ c ∈ l, TypedF c m) :
    TypedE (Elems.ofList l) m := by
  induction l with
  | nil => simp [Elems.ofList, TypedE]
  | cons c r ih =>
    simp only [Elems.ofList, TypedE]
    exact ⟨h c (by simp), ih fun d hd => h d (by simp [hd])⟩

/-- `resize` without `keep` gives new elements. -/
theorem resizeNode_ok {k : Nat} {x y : Node V} (h : resizeNode k x = .ok y) :
    ∃ m e, x = .aos m e ∧ y = .aos m (.ofList (List.replicate k m.fresh)) := by
  unfold resizeNode at h
  split at h
  · next m e =>
    refine ⟨m, e, rfl, ?_⟩
    have : aosResize false m e.toList (k : Int) false = .ok (List.replicate k m.fresh) := by
      unfold aosResize
      cases k with
      | zero => simp [pure, Except.pure]
      | succ k =>
        have h1 : ¬ ((k : Int) + 1 < 0) := by omega
        have h2 : ((k : Int) + 1) > 0 := by omega
        simp [pure, Except.pure, h1, h2]
    rw [this] at h
    simp at h
    exact h.symm
  · simp at h

theorem keeps_store (cx : Cfg V) (v : Option V) : Keeps (storeNode cx v) := by
  constructor
  · intro x y m ht h
    unfold storeNode at h
    split at h
    · split at h
      · simp at h
      · split at h
        · simp at h
        · simp at h; subst h
          cases m <;> simp_all [Typed]
    · simp at h
  · intro g y h; simp [storeNode] at h

theorem keeps_resize (k : Nat) : Keeps (resizeNode (V := V) k) := by
  constructor
  · intro x y m ht h
    obtain ⟨m1, e, rfl, rfl⟩ := resizeNode_ok h
    cases m with
    | leaf => simp [Typed] at ht
    | struct => simp [Typed] at ht
    | aos mf =>
      simp only [Typed] at ht ⊢
      refine ⟨ht.1, typedE_ofList ?_⟩
      intro c hc
      rw [List.eq_of_mem_replicate hc, ht.1]
      exact typed_freshF mf
  · intro g y h; simp [resizeNode] at h

/-! ### The plan -/

/-- What is done to the target node. -/
inductive Op (V : Type) where
  | store (v : Option V)
  | resize (k : Nat)
  | apply (f : Node V → Except ConvErr (Node V))
  | post (f : Node V → Except ConvErr (Node V))

/-- A write: the source node (relative to the structure copied), the target, and the operation. -/
structure Entry (V : Type) where
  src : Addr
  dst : Addr
  op : Op V

def Op.run (cx : Cfg V) : Op V → Node V → Except ConvErr (Node V)
  | .store v => storeNode cx v
  | .resize k => resizeNode k
  | .apply f => f
  | .post f => f

def Entry.pre (s : Name × Option Nat) (e : Entry V) : Entry V := { e with src := s :: e.src }

def exec (cx : Cfg V) : List (Entry V) → Node V → Except ConvErr (Node V)
  | [], root => .ok root
  | e :: es, root => andThen (writeAt root e.dst (e.op.run cx)) (exec cx es)

def postOf (cx : Cfg V) (q : List Name) (a b : Addr) : List (Entry V) :=
  match cx.post q with
  | none => []
  | some f => [⟨a, b, .post f⟩]

section

mutual
def planFields (cx : Cfg V) (tm : Meta) (p : List Name) (t : Addr) : Fields V → List (Entry V)
  | .nil => []
  | .absent _ _ r => planFields cx tm p t r
  | .present n x r =>
    (if x.hasValue then
      match step cx tm (p ++ [n]) n t with
      | none => []
      | some b => planItem cx tm (p ++ [n]) n b x
     else []) ++ planFields cx tm p t r
def planItem (cx : Cfg V) (tm : Meta) (q : List Name) (n : Name) (b : Addr) :
    Node V → List (Entry V)
  | .leaf l v =>
    match cx.change q with
    | none => ⟨[(n, none)], b, .store v⟩ :: postOf cx q [(n, none)] b
    | some (.custom f) => [⟨[(n, none)], b, .apply (f (.leaf l v))⟩]
    | some .structAos => []
  | .struct c =>
    match cx.change q with
    | none => (planFields cx tm q b c).map (Entry.pre (n, none)) ++ postOf cx q [(n, none)] b
    | some (.custom f) => [⟨[(n, none)], b, .apply (f (.struct c))⟩]
    | some .structAos =>
      ⟨[(n, none)], b, .resize 1⟩ ::
        ((planFields cx tm q (elemOf b 0) c).map (Entry.pre (n, none)) ++
          postOf cx q [(n, none)] (elemOf b 0))
  | .aos m e =>
    match cx.change q with
    | none =>
      ⟨[(n, none)], b, .resize e.length⟩ :: (planElems cx tm q n b 0 e ++ postOf cx q [(n, none)] b)
    | some (.custom f) => [⟨[(n, none)], b, .apply (f (.aos m e))⟩]
    | some .structAos => planSingle cx tm q n b e
def planSingle (cx : Cfg V) (tm : Meta) (q : List Name) (n : Name) (b : Addr) :
    Elems V → List (Entry V)
  | .nil => []
  | .cons c r =>
    match r with
    | .nil => (planFields cx tm q b c).map (Entry.pre (n, some 0)) ++ postOf cx q [(n, none)] b
    | .cons _ _ => []
def planElems (cx : Cfg V) (tm : Meta) (q : List Name) (n : Name) (b : Addr) (i : Nat) :
    Elems V → List (Entry V)
  | .nil => []
  | .cons c r =>
    (planFields cx tm q (elemOf b i) c).map (Entry.pre (n, some i)) ++
      planElems cx tm q n b (i + 1) r
end
end

theorem andThen_ok {r : Except ConvErr (Node V)} {f : Node V → Except ConvErr (Node V)} {y : Node V} :
    andThen r f = .ok y ↔ ∃ x, r = .ok x ∧ f x = .ok y := by
  unfold andThen
  cases r <;> simp

theorem exec_append (cx : Cfg V) (l1 l2 : List (Entry V)) (root : Node V) :
    exec cx (l1 ++ l2) root = andThen (exec cx l1 root) (exec cx l2) := by
  induction l1 generalizing root with
  | nil => simp [exec, andThen]
  | cons e l ih =>
    simp only [List.cons_append, exec]
    cases writeAt root e.dst (e.op.run cx) with
    | error => rfl
    | ok x => simp only [andThen]; rw [ih]; rfl

theorem exec_pre (cx : Cfg V) (s : Name × Option Nat) (l : List (Entry V)) (root : Node V) :
    exec cx (l.map (Entry.pre s)) root = exec cx l root := by
  induction l generalizing root with
  | nil => rfl
  | cons e l ih =>
    simp only [List.map_cons, exec]
    have : exec cx (l.map (Entry.pre s)) = exec cx l := funext ih
    rw [this]; rfl

theorem writeAt_ok {root root' : Node V} {a : Addr} {f : Node V → Except ConvErr (Node V)}
    (h : writeAt root a f = .ok root') : root.modify f a = some (.ok root') := by
  unfold writeAt at h
  split at h
  · simp at h
  · next r hr => rw [hr, h]

theorem typed_writeAt {root root' : Node V} {a : Addr} {f : Node V → Except ConvErr (Node V)}
    {tm : Meta} (hk : Keeps f) (ht : Typed root tm) (h : writeAt root a f = .ok root') :
    Typed root' tm := typed_modify hk ht (writeAt_ok h)

theorem postProcess_plan {cx : Cfg V} (hp : Proper cx) {tm : Meta} {q : List Name} (a b : Addr)
    {root root' : Node V} (ht : Typed root tm) (h : postProcess cx q b root = .ok root') :
    exec cx (postOf cx q a b) root = .ok root' ∧ Typed root' tm := by
  unfold postProcess at h
  unfold postOf
  cases hq : cx.post q with
  | none => rw [hq] at h; simp at h; subst h; exact ⟨rfl, ht⟩
  | some f =>
    rw [hq] at h
    simp only [exec, Op.run]
    simp only at h
    rw [h]
    exact ⟨rfl, typed_writeAt (hp.2 q f hq) ht h⟩

section

mutual
theorem copyFields_plan {cx : Cfg V} (hp : Proper cx) {tm : Meta} (p : List Name) (t : Addr)
    (c : Fields V) {root root' : Node V} (ht : Typed root tm)
    (h : copyFields cx p t c root = .ok root') :
    exec cx (planFields cx tm p t c) root = .ok root' ∧ Typed root' tm := by
  cases c with
  | nil => simp only [copyFields, Except.ok.injEq] at h; subst h; simp [planFields, exec, ht]
  | absent n m r =>
    simp only [copyFields] at h
    simp only [planFields]
    exact copyFields_plan hp p t r ht h
  | present n x r =>
    simp only [copyFields] at h
    simp only [planFields]
    split at h
    · next hv =>
      simp only [hv, if_true]
      obtain ⟨r1, h1, h2⟩ := andThen_ok.1 h
      rw [exec_append]
      have h3 : exec cx (match step cx tm (p ++ [n]) n t with
          | none => []
          | some b => planItem cx tm (p ++ [n]) n b x) root = .ok r1 ∧ Typed r1 tm := by
        split at h1
        · simp at h1
        · next e =>
          rw [← getTarget_ok ht e]
          simp at h1; subst h1
          exact ⟨rfl, ht⟩
        · next b e =>
          rw [← getTarget_ok ht e]
          exact copyItem_plan hp (p ++ [n]) n b x ht h1
      rw [h3.1]
      exact copyFields_plan hp p t r h3.2 h2
    · next hv =>
      simp only [hv]
      exact copyFields_plan hp p t r ht h
termination_by structural c
theorem copyItem_plan {cx : Cfg V} (hp : Proper cx) {tm : Meta} (q : List Name) (n : Name) (b : Addr)
    (x : Node V) {root root' : Node V} (ht : Typed root tm)
    (h : copyItem cx q b x root = .ok root') :
    exec cx (planItem cx tm q n b x) root = .ok root' ∧ Typed root' tm := by
  have hcust : ∀ f y, cx.change q = some (.custom f) → writeAt root b (f y) = .ok root' →
      exec cx [⟨[(n, none)], b, .apply (f y)⟩] root = .ok root' ∧ Typed root' tm := by
    intro f y e h
    simp only [exec, Op.run, h]
    exact ⟨rfl, typed_writeAt (hp.1 q f _ e) ht h⟩
  cases x with
  | leaf l v =>
    simp only [copyItem] at h
    simp only [planItem]
    rcases hq : cx.change q with _ | (_ | f)
    · simp only [hq] at h
      obtain ⟨r1, h1, h2⟩ := andThen_ok.1 h
      simp only [exec, Op.run, h1]
      exact postProcess_plan hp _ b (typed_writeAt (keeps_store cx v) ht h1) h2
    · simp only [hq] at h; simp at h
    · simp only [hq] at h
      exact hcust f _ hq h
  | struct c =>
    simp only [copyItem] at h
    simp only [planItem]
    rcases hq : cx.change q with _ | (_ | f)
    · simp only [hq] at h
      obtain ⟨r1, h1, h2⟩ := andThen_ok.1 h
      have h3 := copyFields_plan hp q b c ht h1
      show exec cx (_ ++ _) root = _ ∧ _
      rw [exec_append, exec_pre, h3.1]
      exact postProcess_plan hp _ b h3.2 h2
    · simp only [hq] at h
      split at h
      · obtain ⟨r1, h1, h2⟩ := andThen_ok.1 h
        obtain ⟨r2, h3, h4⟩ := andThen_ok.1 h1
        have t2 := typed_writeAt (keeps_resize 1) ht h3
        have h5 := copyFields_plan hp q (elemOf b 0) c t2 h4
        simp only [exec, Op.run, h3]
        show exec cx _ r2 = _ ∧ _
        rw [exec_append, exec_pre, h5.1]
        exact postProcess_plan hp _ _ h5.2 h2
      · simp at h
    · simp only [hq] at h
      exact hcust f _ hq h
  | aos m e =>
    simp only [copyItem] at h
    simp only [planItem]
    rcases hq : cx.change q with _ | (_ | f)
    · simp only [hq] at h
      obtain ⟨r1, h1, h2⟩ := andThen_ok.1 h
      obtain ⟨r2, h3, h4⟩ := andThen_ok.1 h1
      have t2 := typed_writeAt (keeps_resize e.length) ht h3
      have h5 := copyElems_plan hp q n b 0 e t2 h4
      simp only [exec, Op.run, h3]
      show exec cx _ r2 = _ ∧ _
      rw [exec_append, h5.1]
      exact postProcess_plan hp _ _ h5.2 h2
    · simp only [hq] at h
      split at h
      · exact copySingle_plan hp q n b e ht h
      · simp at h
    · simp only [hq] at h
      exact hcust f _ hq h
termination_by structural x
theorem copySingle_plan {cx : Cfg V} (hp : Proper cx) {tm : Meta} (q : List Name) (n : Name) (b : Addr)
    (e : Elems V) {root root' : Node V} (ht : Typed root tm)
    (h : copySingle cx q b e root = .ok root') :
    exec cx (planSingle cx tm q n b e) root = .ok root' ∧ Typed root' tm := by
  cases e with
  | nil => simp only [copySingle, Except.ok.injEq] at h; subst h; simp [planSingle, exec, ht]
  | cons c r =>
    cases r with
    | nil =>
      simp only [copySingle] at h
      simp only [planSingle]
      obtain ⟨r1, h1, h2⟩ := andThen_ok.1 h
      have h3 := copyFields_plan hp q b c ht h1
      rw [exec_append, exec_pre, h3.1]
      exact postProcess_plan hp _ b h3.2 h2
    | cons c' r' =>
      simp only [copySingle, Except.ok.injEq] at h; subst h; simp [planSingle, exec, ht]
termination_by structural e
theorem copyElems_plan {cx : Cfg V} (hp : Proper cx) {tm : Meta} (q : List Name) (n : Name) (b : Addr)
    (i : Nat) (e : Elems V) {root root' : Node V} (ht : Typed root tm)
    (h : copyElems cx q b i e root = .ok root') :
    exec cx (planElems cx tm q n b i e) root = .ok root' ∧ Typed root' tm := by
  cases e with
  | nil => simp only [copyElems, Except.ok.injEq] at h; subst h; simp [planElems, exec, ht]
  | cons c r =>
    simp only [copyElems] at h
    simp only [planElems]
    obtain ⟨r1, h1, h2⟩ := andThen_ok.1 h
    have h3 := copyFields_plan hp q (elemOf b i) c ht h1
    rw [exec_append, exec_pre, h3.1]
    exact copyElems_plan hp q n b (i + 1) r h3.2 h2
termination_by structural e
end

end

end Verif.Convert
