import Verif.Spec.AlStore
import Verif.Lemmas.AlCalls
/-
What the programs do on a working low level, as functions on stored data.
-/
namespace Verif.Al
open Verif.Ids Verif.AlSpec

set_option linter.unusedSectionVars false
variable {V : Type}

mutual
/-- Result of a get: what is stored below position `P` for a node with path `p`. -/
def evalNode (S : Store V) (E : Env V) (p : Path) (P : Pos) : Meta → Option (Node V)
  | .leaf l =>
    match target E p with
    | none => none
    | some (q, _) => keepValue E l (S.data P q)
  | .struct m =>
    match target E p with
    | none => none
    | some _ => some (.struct (evalFields S E p P m))
  | .aos m =>
    match target E p with
    | none => none
    | some (q, _) =>
      if S.size P q = 0 then none
      else some (.aos m (elemsOf ((List.range' 0 (S.size P q)).map fun i =>
        evalFields S E p (P ++ [(q, i)]) m)))
def evalFields (S : Store V) (E : Env V) (p : Path) (P : Pos) : MFields → Fields V
  | .nil => .nil
  | .cons n m r => fieldOf n m (evalNode S E (p ++ [n]) P m) (evalFields S E p P r)
end

variable (B : Backend V) (db : Ctx)

/-- The program succeeds with this result, and changes nothing of what is stored, nor of the open contexts. -/
def Gives {α : Type} (p : M (Disk V) V α) (s : St (Disk V) V) (x : α) : Prop :=
  ∃ s', p s = (.ok x, s') ∧ s'.ll.stores = s.ll.stores ∧ s'.ll.stack = s.ll.stack

theorem gives_ret {α : Type} (s : St (Disk V) V) (x : α) : Gives (M.ret x) s x := ⟨s, rfl, rfl, rfl⟩

theorem read_spec {s : St (Disk V) V} {c : Ctx} {a : Begin} (hc : isTop c s.ll.stack = true)
    (ha : actOf s.ll.stack = some a) (q : Path) (tb : Text) (l : LeafMeta) :
    Gives (llRead (disk B db) c q tb l) s ((B.view a (s.ll.stores a.occ)).data (posOf s.ll.stack) q) := by
  unfold Gives llRead
  simp only [disk, diskRead, ha, hc, if_pos]
  exact ⟨_, rfl, rfl, rfl⟩

section
variable (E : Env V)

/-- The low level is reading through the action `a`, and `c` is the newest context. -/
structure Reads (a : Begin) (c : Ctx) (d : Disk V) : Prop where
  top : isTop c d.stack = true
  act : actOf d.stack = some a
  ro : a.writes = false

theorem reads_of {a : Begin} {c : Ctx} {d d' : Disk V} (h : Reads a c d) (hs : d'.stack = d.stack) :
    Reads a c d' := ⟨by rw [hs]; exact h.1, by rw [hs]; exact h.2, h.3⟩

theorem gives_andThen {α β : Type} {p : M (Disk V) V α} {f : α → M (Disk V) V β} {s : St (Disk V) V} {x : α}
    {y : β} (hp : Gives p s x)
    (hf : ∀ s', s'.ll.stores = s.ll.stores → s'.ll.stack = s.ll.stack → Gives (f x) s' y) :
    Gives (p.andThen f) s y := by
  obtain ⟨s', h1, h2, h3⟩ := hp
  obtain ⟨s'', h4, h5, h6⟩ := hf s' h2 h3
  exact ⟨s'', by rw [andThen_ok h1, h4], h5.trans h2, h6.trans h3⟩

theorem times_spec {α : Type} (p : M (Disk V) V α) (c : Ctx) (q : Path) (size : Nat)
    (r : List (Ctx × Frame)) (st : Text → Store V) (g : Nat → α)
    (h : ∀ i s, s.ll.stores = st → s.ll.stack = (c, .aos q size i) :: r →
      ∃ s', p s = (.ok (g i), s') ∧ s'.ll.stores = st ∧ s'.ll.stack = (c, .aos q size (i + 1)) :: r) :
    ∀ k i s, s.ll.stores = st → s.ll.stack = (c, .aos q size i) :: r →
      ∃ s', M.times k p s = (.ok ((List.range' i k).map g), s') ∧ s'.ll.stores = st ∧
        s'.ll.stack = (c, .aos q size (i + k)) :: r := by
  intro k
  induction k with
  | zero => intro i s h1 h2; exact ⟨s, rfl, h1, h2⟩
  | succ k ih =>
    intro i s h1 h2
    obtain ⟨s1, a1, a2, a3⟩ := h i s h1 h2
    obtain ⟨s2, b1, b2, b3⟩ := ih (i + 1) s1 a2 a3
    refine ⟨s2, ?_, b2, by rw [b3]; congr 3; omega⟩
    unfold M.times
    rw [andThen_ok a1, andThen_ok b1]
    rfl

theorem iterate_spec {s : St (Disk V) V} {c : Ctx} {q : Path} {size i : Nat} {r : List (Ctx × Frame)}
    (h : s.ll.stack = (c, .aos q size i) :: r) :
    ∃ s', llIterate (disk B db) c 1 s = (.ok (), s') ∧ s'.ll.stores = s.ll.stores ∧
      s'.ll.stack = (c, .aos q size (i + 1)) :: r := by
  unfold llIterate
  simp only [disk, diskIterate, h, if_pos]
  refine ⟨_, rfl, rfl, ?_⟩
  simp only
  congr 3

theorem withAction_ok {α : Type} {σ : Type} {L : LL σ V} {c c' : Ctx} {b : Begin} {n : Nat} {s s' : St σ V}
    (h : llBegin L c b s = (.ok (c', n), s')) (body : Ctx → Nat → M σ V α) :
    withAction L c b body s = ((body c' n s').1, llFinish L c' (body c' n s').2) := by
  unfold withAction; rw [h]

theorem begin_read {s : St (Disk V) V} {c : Ctx} {a : Begin} (hr : Reads a c s.ll) (q : Path) (tb : Text) :
    ∃ log, llBegin (disk B db) c (.aos q tb 0) s =
      (.ok (s.ll.next, (B.view a (s.ll.stores a.occ)).size (posOf s.ll.stack) q),
       ⟨{ s.ll with stack := (s.ll.next, .aos q ((B.view a (s.ll.stores a.occ)).size (posOf s.ll.stack) q) 0) :: s.ll.stack
                    next := s.ll.next + 1 }, log⟩) := by
  refine ⟨s.log ++ [.begin c (.aos q tb 0) (some s.ll.next)], ?_⟩
  have e : (disk B db).begin s.ll c (.aos q tb 0) =
      (some (s.ll.next, (B.view a (s.ll.stores a.occ)).size (posOf s.ll.stack) q),
       { s.ll with stack := (s.ll.next, .aos q ((B.view a (s.ll.stores a.occ)).size (posOf s.ll.stack) q) 0) :: s.ll.stack
                   next := s.ll.next + 1 }) := by
    simp [disk, diskBegin, hr.act, hr.top, hr.ro]
  unfold llBegin
  rw [e]

theorem finish_spec {s : St (Disk V) V} {c : Ctx} {f : Frame} {r : List (Ctx × Frame)}
    (h : s.ll.stack = (c, f) :: r) : (llFinish (disk B db) c s).ll.stores = s.ll.stores ∧
      (llFinish (disk B db) c s).ll.stack = r := by
  simp [llFinish, disk, diskFinish, h]

/-- Opening the context of an array of structures for reading, and closing it again. -/
theorem withAos_spec {α : Type} {s : St (Disk V) V} {c : Ctx} {a : Begin} (hr : Reads a c s.ll) (q : Path)
    (tb : Text) {body : Ctx → Nat → M (Disk V) V α} {x : α}
    (hb : ∀ c' s', s'.ll.stores = s.ll.stores →
      s'.ll.stack = (c', .aos q ((B.view a (s.ll.stores a.occ)).size (posOf s.ll.stack) q) 0) :: s.ll.stack →
      ∃ s'' i, body c' ((B.view a (s.ll.stores a.occ)).size (posOf s.ll.stack) q) s' = (.ok x, s'') ∧
        s''.ll.stores = s'.ll.stores ∧
        s''.ll.stack = (c', .aos q ((B.view a (s.ll.stores a.occ)).size (posOf s.ll.stack) q) i) :: s.ll.stack) :
    Gives (withAction (disk B db) c (.aos q tb 0) body) s x := by
  obtain ⟨log, e⟩ := begin_read B db hr q tb
  obtain ⟨s'', i, h1, h2, h3⟩ := hb s.ll.next ⟨{ s.ll with stack := (s.ll.next, .aos q ((B.view a (s.ll.stores a.occ)).size (posOf s.ll.stack) q) 0) :: s.ll.stack, next := s.ll.next + 1 }, log⟩ rfl rfl
  unfold Gives
  rw [withAction_ok e, h1]
  obtain ⟨f1, f2⟩ := finish_spec B db h3
  exact ⟨_, rfl, f1.trans h2, f2⟩

mutual
theorem getNode_spec (p : Path) (c : Ctx) (m : Meta) {s : St (Disk V) V} {a : Begin} (hr : Reads a c s.ll) :
    Gives (getNode (disk B db) E p c m) s
      (evalNode (B.view a (s.ll.stores a.occ)) E p (posOf s.ll.stack) m) := by
  cases m with
  | leaf l =>
    unfold getNode evalNode
    cases ht : target E p with
    | none => exact gives_ret s none
    | some t =>
      obtain ⟨q, tb⟩ := t
      exact gives_andThen (read_spec B db hr.top hr.act q tb l) fun s' _ _ => gives_ret s' _
  | struct m =>
    unfold getNode evalNode
    cases ht : target E p with
    | none => exact gives_ret s none
    | some t => exact gives_andThen (getFields_spec p c m hr) fun s' _ _ => gives_ret s' _
  | aos m =>
    unfold getNode evalNode
    cases ht : target E p with
    | none => exact gives_ret s none
    | some t =>
      obtain ⟨q, tb⟩ := t
      simp only
      refine withAos_spec B db hr q tb fun c' s' h1 h2 => ?_
      split
      · next hz => exact ⟨s', 0, rfl, rfl, h2⟩
      · next hz =>
        obtain ⟨s'', b1, b2, b3⟩ := times_spec
          ((getFields (disk B db) E p c' m).andThen fun f =>
            (llIterate (disk B db) c' 1).andThen fun _ => .ret f) c' q _ s.ll.stack s.ll.stores
          (fun i => evalFields (B.view a (s.ll.stores a.occ)) E p (posOf s.ll.stack ++ [(q, i)]) m)
          (fun i s0 e1 e2 => by
            have hr' : Reads a c' s0.ll := ⟨by rw [e2]; simp [isTop], by rw [e2]; exact hr.act, hr.ro⟩
            obtain ⟨s1, x1, x2, x3⟩ := getFields_spec p c' m hr'
            rw [e2] at x3
            obtain ⟨s2, y1, y2, y3⟩ := iterate_spec B db x3
            refine ⟨s2, ?_, by rw [y2, x2, e1], y3⟩
            rw [andThen_ok x1, andThen_ok y1]
            simp only [M.ret, e1, e2, posOf])
          _ 0 s' h1 h2
        exact ⟨s'', _, by rw [andThen_ok b1]; rfl, by rw [b2, h1], b3⟩
theorem getFields_spec (p : Path) (c : Ctx) (m : MFields) {s : St (Disk V) V} {a : Begin}
    (hr : Reads a c s.ll) :
    Gives (getFields (disk B db) E p c m) s
      (evalFields (B.view a (s.ll.stores a.occ)) E p (posOf s.ll.stack) m) := by
  cases m with
  | nil => unfold getFields evalFields; exact gives_ret s _
  | cons n m r =>
    unfold getFields evalFields
    refine gives_andThen (getNode_spec (p ++ [n]) c m hr) fun s' h1 h2 => ?_
    refine gives_andThen (x := evalFields (B.view a (s.ll.stores a.occ)) E p (posOf s.ll.stack) r) ?_
      fun s' _ _ => gives_ret s' _
    have := getFields_spec p c r (reads_of hr h2)
    rwa [h1, h2] at this
end

end

/-! ### Put -/

section
variable [Value V] (E : Env V)

mutual
/-- What put does to the stored data. -/
def storeNode (p : Path) (P : Pos) : Node V → Store V → Store V
  | .leaf _ v, S =>
    match target E p, v with
    | some (q, _), some v => S.setData P q v
    | _, _ => S
  | .struct f, S =>
    match target E p with
    | none => S
    | some _ => storeFields p P f S
  | .aos _ e, S =>
    match target E p with
    | none => S
    | some (q, _) => storeElems p P q 0 e (S.setSize P q e.length)
def storeFields (p : Path) (P : Pos) : Fields V → Store V → Store V
  | .nil, S => S
  | .absent _ _ r, S => storeFields p P r S
  | .present n x r, S => storeFields p P r (if x.hasValue then storeNode (p ++ [n]) P x S else S)
def storeElems (p : Path) (P : Pos) (q : Path) (i : Nat) : Elems V → Store V → Store V
  | .nil, S => S
  | .cons f r, S => storeElems p P q (i + 1) r (storeFields p (P ++ [(q, i)]) f S)
end

/-- The low level is writing an occurrence, and `c` is the newest context. -/
structure Puts (occ : Text) (c : Ctx) (d : Disk V) : Prop where
  top : isTop c d.stack = true
  act : ∃ k, actOf d.stack = some (.global occ true k)

/-- The program succeeds, changes the stored data of the occurrence like this, and keeps the open contexts. -/
def Stores {α : Type} (occ : Text) (p : M (Disk V) V α) (s : St (Disk V) V) (x : α) (S : Store V) : Prop :=
  ∃ s', p s = (.ok x, s') ∧ s'.ll.stores = setStore s.ll.stores occ S ∧ s'.ll.stack = s.ll.stack

theorem setStore_same (f : Text → Store V) (o : Text) : setStore f o (f o) = f := by
  funext o'; unfold setStore; split
  · next h => rw [h]
  · rfl

theorem setStore_set (f : Text → Store V) (o : Text) (S S' : Store V) :
    setStore (setStore f o S) o S' = setStore f o S' := by
  funext o'; unfold setStore; split <;> rfl

theorem setStore_get (f : Text → Store V) (o : Text) (S : Store V) : setStore f o S o = S := by
  simp [setStore]

theorem stores_ret {α : Type} (occ : Text) (s : St (Disk V) V) (x : α) :
    Stores occ (M.ret x) s x (s.ll.stores occ) := ⟨s, rfl, (setStore_same _ _).symm, rfl⟩

theorem stores_andThen {α β : Type} {occ : Text} {p : M (Disk V) V α} {f : α → M (Disk V) V β}
    {s : St (Disk V) V} {x : α} {y : β} {S S' : Store V} (hp : Stores occ p s x S)
    (hf : ∀ s', s'.ll.stores occ = S → s'.ll.stack = s.ll.stack → Stores occ (f x) s' y S') :
    Stores occ (p.andThen f) s y S' := by
  obtain ⟨s', h1, h2, h3⟩ := hp
  obtain ⟨s'', h4, h5, h6⟩ := hf s' (by rw [h2, setStore_get]) h3
  exact ⟨s'', by rw [andThen_ok h1, h4], by rw [h5, h2, setStore_set], h6.trans h3⟩

theorem puts_of {occ : Text} {c : Ctx} {d d' : Disk V} (h : Puts occ c d) (hs : d'.stack = d.stack) :
    Puts occ c d' := ⟨by rw [hs]; exact h.1, by rw [hs]; exact h.2⟩

theorem write_spec {occ : Text} {s : St (Disk V) V} {c : Ctx} (h : Puts occ c s.ll) (q : Path) (tb : Text)
    (v : V) : Stores occ (llWrite (disk B db) c q tb v) s ()
      ((s.ll.stores occ).setData (posOf s.ll.stack) q v) := by
  obtain ⟨k, hk⟩ := h.act
  have e : (disk B db).write s.ll c q tb v = (true, { s.ll with
      stores := setStore s.ll.stores occ ((s.ll.stores occ).setData (posOf s.ll.stack) q v) }) := by
    simp [disk, diskWrite, hk, h.top, Begin.writes, Begin.occ]
  unfold Stores llWrite
  rw [e]
  exact ⟨_, rfl, rfl, rfl⟩

theorem begin_put {occ : Text} {s : St (Disk V) V} {c : Ctx} (h : Puts occ c s.ll) (q : Path) (tb : Text)
    (n : Nat) :
    ∃ log, llBegin (disk B db) c (.aos q tb n) s =
      (.ok (s.ll.next, n),
       ⟨{ stores := setStore s.ll.stores occ ((s.ll.stores occ).setSize (posOf s.ll.stack) q n)
          stack := (s.ll.next, .aos q n 0) :: s.ll.stack, next := s.ll.next + 1 }, log⟩) := by
  obtain ⟨k, hk⟩ := h.act
  refine ⟨s.log ++ [.begin c (.aos q tb n) (some s.ll.next)], ?_⟩
  have e : (disk B db).begin s.ll c (.aos q tb n) =
      (some (s.ll.next, n),
       { stores := setStore s.ll.stores occ ((s.ll.stores occ).setSize (posOf s.ll.stack) q n)
         stack := (s.ll.next, .aos q n 0) :: s.ll.stack, next := s.ll.next + 1 }) := by
    simp [disk, diskBegin, hk, h.top, Begin.writes, Begin.occ]
  unfold llBegin
  rw [e]

variable (verify : Bool)

mutual
theorem putNode_spec (occ : Text) (p : Path) (c : Ctx) (x : Node V) {s : St (Disk V) V} (h : Puts occ c s.ll)
    (hf : verify = true → WithinMax E.info p x) :
    Stores occ (putNode (disk B db) E false verify p c x) s ()
      (storeNode E p (posOf s.ll.stack) x (s.ll.stores occ)) := by
  cases x with
  | leaf l v =>
    unfold putNode storeNode
    cases ht : target E p with
    | none => exact stores_ret occ s _
    | some t =>
      obtain ⟨q, tb⟩ := t
      cases v with
      | none => exact stores_ret occ s _
      | some v => exact write_spec B db h q tb v
  | struct f =>
    unfold putNode storeNode
    cases ht : target E p with
    | none => exact stores_ret occ s _
    | some t => exact putFields_spec occ p c f h (fun hv => by have := hf hv; simpa [WithinMax] using this)
  | aos m e =>
    unfold putNode storeNode
    cases ht : target E p with
    | none => exact stores_ret occ s _
    | some t =>
      obtain ⟨q, tb⟩ := t
      simp only
      rw [if_neg]
      · obtain ⟨log, eb⟩ := begin_put B db h q tb e.length
        have he := putElems_spec occ p s.ll.next q e.length s.ll.stack e 0
          (s := ⟨{ stores := setStore s.ll.stores occ ((s.ll.stores occ).setSize (posOf s.ll.stack) q e.length)
                   stack := (s.ll.next, .aos q e.length 0) :: s.ll.stack, next := s.ll.next + 1 }, log⟩) rfl
          h.act (fun hv => by have := hf hv; simp only [WithinMax] at this; exact this.2)
        obtain ⟨s', i, h1, h2, h3⟩ := he
        unfold Stores
        rw [withAction_ok eb, h1]
        obtain ⟨f1, f2⟩ := finish_spec B db h3
        refine ⟨_, rfl, ?_, f2⟩
        rw [f1, h2, setStore_set]
        simp only [setStore_get]
      · intro hc
        simp only [Bool.and_eq_true, decide_eq_true_eq] at hc
        have := (hf hc.1.1)
        simp only [WithinMax] at this
        omega
theorem putFields_spec (occ : Text) (p : Path) (c : Ctx) (f : Fields V) {s : St (Disk V) V}
    (h : Puts occ c s.ll) (hf : verify = true → WithinMaxF E.info p f) :
    Stores occ (putFields (disk B db) E false verify p c f) s ()
      (storeFields E p (posOf s.ll.stack) f (s.ll.stores occ)) := by
  cases f with
  | nil => unfold putFields storeFields; exact stores_ret occ s _
  | absent n m r =>
    unfold putFields storeFields
    exact putFields_spec occ p c r h (fun hv => by have := hf hv; simpa [WithinMaxF] using this)
  | present n x r =>
    unfold putFields storeFields
    split
    · refine stores_andThen (putNode_spec occ (p ++ [n]) c x h
        (fun hv => by have := hf hv; simp only [WithinMaxF] at this; exact this.1)) fun s' h1 h2 => ?_
      have := putFields_spec occ p c r (puts_of h h2)
        (fun hv => by have := hf hv; simp only [WithinMaxF] at this; exact this.2)
      rwa [h1, h2] at this
    · exact putFields_spec occ p c r h (fun hv => by have := hf hv; simp only [WithinMaxF] at this; exact this.2)
theorem putElems_spec (occ : Text) (p : Path) (c : Ctx) (q : Path) (n : Nat) (st : List (Ctx × Frame))
    (e : Elems V) (i : Nat) {s : St (Disk V) V} (h : s.ll.stack = (c, .aos q n i) :: st)
    (ha : ∃ k, actOf st = some (.global occ true k)) (hf : verify = true → WithinMaxE E.info p e) :
    ∃ s' j, putElems (disk B db) E false verify p c e s = (.ok (), s') ∧
      s'.ll.stores = setStore s.ll.stores occ (storeElems E p (posOf st) q i e (s.ll.stores occ)) ∧
      s'.ll.stack = (c, .aos q n j) :: st := by
  cases e with
  | nil => unfold putElems storeElems; exact ⟨s, i, rfl, (setStore_same _ _).symm, h⟩
  | cons f r =>
    unfold putElems storeElems
    have hp : Puts occ c s.ll := ⟨by rw [h]; simp [isTop], by rw [h]; exact ha⟩
    obtain ⟨s1, a1, a2, a3⟩ := putFields_spec occ p c f hp
      (fun hv => by have := hf hv; simp only [WithinMaxE] at this; exact this.1)
    rw [h] at a3
    obtain ⟨s2, b1, b2, b3⟩ := iterate_spec B db a3
    obtain ⟨s3, j, c1, c2, c3⟩ := putElems_spec occ p c q n st r (i + 1) b3 ha
      (fun hv => by have := hf hv; simp only [WithinMaxE] at this; exact this.2)
    refine ⟨s3, j, by rw [andThen_ok a1, andThen_ok b1, c1], ?_, c3⟩
    rw [c2, b2, a2, setStore_set, setStore_get, h]
    rfl
end

mutual
def deleteNodeS (E : Env V) (p : Path) : Meta → Store V → Store V
  | .struct m, S => deleteFieldsS E p m S
  | .leaf _, S => S.delete (E.info.ctxPath p)
  | .aos _, S => S.delete (E.info.ctxPath p)
def deleteFieldsS (E : Env V) (p : Path) : MFields → Store V → Store V
  | .nil, S => S
  | .cons n m r, S => deleteFieldsS E p r (deleteNodeS E (p ++ [n]) m S)
end

theorem delete_spec {occ : Text} {s : St (Disk V) V} {c : Ctx} {k : Bool}
    (h : s.ll.stack = [(c, .act (.global occ true k))]) (q : Path) :
    Stores occ (llDelete (disk B db) c q) s () ((s.ll.stores occ).delete q) := by
  have e : (disk B db).delete s.ll c q = (true, { s.ll with
      stores := setStore s.ll.stores occ ((s.ll.stores occ).delete q) }) := by
    simp [disk, diskDelete, h, Begin.writes, Begin.occ]
  unfold Stores llDelete
  rw [e]
  exact ⟨_, rfl, rfl, rfl⟩

mutual
theorem deleteNode_spec (occ : Text) (p : Path) (c : Ctx) (m : Meta) {s : St (Disk V) V} {k : Bool}
    (h : s.ll.stack = [(c, .act (.global occ true k))]) :
    Stores occ (deleteNode (disk B db) E p c m) s () (deleteNodeS E p m (s.ll.stores occ)) := by
  cases m with
  | leaf l => unfold deleteNode deleteNodeS; exact delete_spec B db h _
  | aos l => unfold deleteNode deleteNodeS; exact delete_spec B db h _
  | struct m => unfold deleteNode deleteNodeS; exact deleteFields_spec occ p c m h
theorem deleteFields_spec (occ : Text) (p : Path) (c : Ctx) (m : MFields) {s : St (Disk V) V} {k : Bool}
    (h : s.ll.stack = [(c, .act (.global occ true k))]) :
    Stores occ (deleteFields (disk B db) E p c m) s () (deleteFieldsS E p m (s.ll.stores occ)) := by
  cases m with
  | nil => unfold deleteFields deleteFieldsS; exact stores_ret occ s _
  | cons n m r =>
    unfold deleteFields deleteFieldsS
    refine stores_andThen (deleteNode_spec occ (p ++ [n]) c m h) fun s' h1 h2 => ?_
    have := deleteFields_spec occ p c r (h2.trans h)
    rwa [h1] at this
end
end

end Verif.Al
