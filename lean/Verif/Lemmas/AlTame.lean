import Verif.Lemmas.AlRound
/-
On a working low level, every operation leaves the open contexts as they were, also if it raises, and changes only
the occurrences it writes to.
-/
namespace Verif.Al
open Verif.Ids Verif.AlSpec

set_option linter.unusedSectionVars false
variable {V : Type} [Value V] (B : Backend V) (db0 : Ctx) (W : Text → Prop)

/-- The same open contexts, with the newest one perhaps at another element. -/
def Moved (st st' : List (Ctx × Frame)) : Prop :=
  st' = st ∨ ∃ c q n i j r, st = (c, .aos q n i) :: r ∧ st' = (c, .aos q n j) :: r

theorem moved_refl (st : List (Ctx × Frame)) : Moved st st := .inl rfl

theorem moved_trans {a b c : List (Ctx × Frame)} (h : Moved a b) (h' : Moved b c) : Moved a c := by
  rcases h with rfl | ⟨x, q, n, i, j, r, h1, h2⟩
  · exact h'
  · rcases h' with rfl | ⟨x', q', n', i', j', r', h3, h4⟩
    · exact .inr ⟨x, q, n, i, j, r, h1, h2⟩
    · rw [h2] at h3
      cases h3
      exact .inr ⟨x, q, n, i, j', r, h1, h4⟩

theorem moved_act {st st' : List (Ctx × Frame)} (h : Moved st st') : actOf st' = actOf st := by
  rcases h with rfl | ⟨x, q, n, i, j, r, rfl, rfl⟩ <;> rfl

theorem moved_nil {st' : List (Ctx × Frame)} (h : Moved [] st') : st' = [] := by
  rcases h with rfl | ⟨x, q, n, i, j, r, h1, h2⟩
  · rfl
  · cases h1

/-- Data is written to the occurrences in `W` only. -/
def Writable (W : Text → Prop) (st : List (Ctx × Frame)) : Prop :=
  ∀ a, actOf st = some a → a.writes = true → W a.occ

theorem writable_moved {st st' : List (Ctx × Frame)} (h : Moved st st') (hw : Writable W st) : Writable W st' := by
  intro a ha
  rw [moved_act h] at ha
  exact hw a ha

def Tame {α : Type} (p : M (Disk V) V α) : Prop :=
  ∀ s, Writable W s.ll.stack → Moved s.ll.stack (p s).2.ll.stack ∧
    ∀ o, ¬ W o → (p s).2.ll.stores o = s.ll.stores o

theorem tame_ret {α : Type} (a : α) : Tame W (M.ret a : M (Disk V) V α) :=
  fun _ _ => ⟨moved_refl _, fun _ _ => rfl⟩

theorem tame_throw {α : Type} (e : Err) : Tame W (M.throw e : M (Disk V) V α) :=
  fun _ _ => ⟨moved_refl _, fun _ _ => rfl⟩

variable {W} in
theorem tame_andThen {α β : Type} {p : M (Disk V) V α} {f : α → M (Disk V) V β} (hp : Tame W p)
    (hf : ∀ a, Tame W (f a)) : Tame W (p.andThen f) := by
  intro s hs
  have h := hp s hs
  unfold M.andThen
  rcases e : p s with ⟨r, s'⟩
  rw [e] at h
  cases r with
  | error x => exact h
  | ok x =>
    have h' := hf x s' (writable_moved W h.1 hs)
    exact ⟨moved_trans h.1 h'.1, fun o ho => (h'.2 o ho).trans (h.2 o ho)⟩

variable {W} in
theorem tame_times {α : Type} {p : M (Disk V) V α} (hp : Tame W p) : ∀ n, Tame W (M.times n p)
  | 0 => tame_ret W _
  | n + 1 => tame_andThen hp fun _ => tame_andThen (tame_times hp n) fun _ => tame_ret W _

theorem tame_iterate (c : Ctx) (i : Int) : Tame W (llIterate (disk B db0) c i) := by
  intro s hs
  unfold llIterate
  rcases e : (disk B db0).iterate s.ll c i with ⟨r, ll⟩
  have h : Moved s.ll.stack ll.stack ∧ ll.stores = s.ll.stores := by
    simp only [disk, diskIterate] at e
    split at e
    · split at e
      · cases e
        rename_i h _
        exact ⟨.inr ⟨_, _, _, _, _, _, h, rfl⟩, rfl⟩
      · cases e; exact ⟨moved_refl _, rfl⟩
    · cases e; exact ⟨moved_refl _, rfl⟩
  cases r <;> exact ⟨h.1, fun o _ => congrFun h.2 o⟩

theorem tame_read (c : Ctx) (p : Path) (tb : Text) (l : LeafMeta) : Tame W (llRead (disk B db0) c p tb l) := by
  intro s hs
  unfold llRead
  rcases e : (disk B db0).read s.ll c p tb l with ⟨r, ll⟩
  have h : ll = s.ll := by
    simp only [disk, diskRead] at e
    split at e
    · cases e; rfl
    · split at e <;> cases e <;> rfl
  subst h
  cases r <;> exact ⟨moved_refl _, fun _ _ => rfl⟩

theorem setStore_ne {f : Text → Store V} {o o' : Text} {S : Store V} (h : o ≠ o') : setStore f o' S o = f o := by
  simp [setStore, h]

theorem tame_write (c : Ctx) (p : Path) (tb : Text) (v : V) : Tame W (llWrite (disk B db0) c p tb v) := by
  intro s hs
  unfold llWrite
  rcases e : (disk B db0).write s.ll c p tb v with ⟨r, ll⟩
  have h : ll.stack = s.ll.stack ∧ ∀ o, ¬ W o → ll.stores o = s.ll.stores o := by
    simp only [disk, diskWrite] at e
    split at e
    · cases e; exact ⟨rfl, fun _ _ => rfl⟩
    · split at e
      · rename_i a ha hc
        cases e
        simp only [Bool.and_eq_true] at hc
        refine ⟨rfl, fun o ho => setStore_ne ?_⟩
        rintro rfl
        exact ho (hs a ha hc.2)
      · cases e; exact ⟨rfl, fun _ _ => rfl⟩
  cases r <;> exact ⟨.inl h.1, h.2⟩

theorem tame_delete (c : Ctx) (p : Path) : Tame W (llDelete (disk B db0) c p) := by
  intro s hs
  unfold llDelete
  rcases e : (disk B db0).delete s.ll c p with ⟨r, ll⟩
  have h : ll.stack = s.ll.stack ∧ ∀ o, ¬ W o → ll.stores o = s.ll.stores o := by
    simp only [disk, diskDelete] at e
    split at e
    · rename_i c' a ha
      split at e
      · rename_i hc
        cases e
        simp only [Bool.and_eq_true] at hc
        refine ⟨rfl, fun o ho => setStore_ne ?_⟩
        rintro rfl
        exact ho (hs a (by rw [ha]; rfl) hc.2)
      · cases e; exact ⟨rfl, fun _ _ => rfl⟩
    · cases e; exact ⟨rfl, fun _ _ => rfl⟩
  cases r <;> exact ⟨.inl h.1, h.2⟩

/-- Opening a context: nothing happens, or there is one more open context. -/
theorem diskBegin_stack {d : Disk V} (c : Ctx) (b : Begin) (hw : Writable W d.stack) (hb : b.writes = true → W b.occ) :
    ((diskBegin B db0 d c b).1 = none ∧ (diskBegin B db0 d c b).2 = d) ∨
    ∃ n f, (diskBegin B db0 d c b).1 = some (d.next, n) ∧
      (diskBegin B db0 d c b).2.stack = (d.next, f) :: d.stack ∧ Writable W ((d.next, f) :: d.stack) ∧
      ∀ o, ¬ W o → (diskBegin B db0 d c b).2.stores o = d.stores o := by
  have top : ∀ b : Begin, b.isAos = false → (b.writes = true → W b.occ) → Writable W [(d.next, Frame.act b)] := by
    intro b _ h a ha
    cases ha
    exact h
  have plain : ∀ b : Begin, b.isAos = false → (b.writes = true → W b.occ) →
      diskBegin B db0 d c b = (match d.stack with
        | [] => if c = db0 then (some (d.next, 0), { d with stack := [(d.next, .act b)], next := d.next + 1 })
                else (none, d)
        | _ => (none, d)) → ((diskBegin B db0 d c b).1 = none ∧ (diskBegin B db0 d c b).2 = d) ∨
    ∃ n f, (diskBegin B db0 d c b).1 = some (d.next, n) ∧
      (diskBegin B db0 d c b).2.stack = (d.next, f) :: d.stack ∧ Writable W ((d.next, f) :: d.stack) ∧
      ∀ o, ¬ W o → (diskBegin B db0 d c b).2.stores o = d.stores o := by
    intro b h1 h2 e
    rw [e]
    rcases hs : d.stack with _ | ⟨x, r⟩
    · simp only
      split
      · exact .inr ⟨0, .act b, rfl, rfl, top b h1 h2, fun _ _ => rfl⟩
      · exact .inl ⟨rfl, rfl⟩
    · exact .inl ⟨rfl, rfl⟩
  cases b with
  | aos q tb n =>
    simp only [diskBegin]
    rcases ha : actOf d.stack with _ | a
    · exact .inl ⟨rfl, rfl⟩
    · simp only
      split
      · exact .inl ⟨rfl, rfl⟩
      · split
        · rename_i hwr
          refine .inr ⟨n, .aos q n 0, rfl, rfl, ?_, fun o ho => setStore_ne ?_⟩
          · intro a' ha'
            exact hw a' ha'
          · rintro rfl
            exact ho (hw a ha hwr)
        · refine .inr ⟨_, _, rfl, rfl, ?_, fun _ _ => rfl⟩
          intro a' ha'
          exact hw a' ha'
  | global o w d => exact plain _ rfl hb rfl
  | slice o w d => exact plain _ rfl hb rfl
  | timerange o d => exact plain _ rfl hb rfl

theorem tame_with {α : Type} (c : Ctx) (b : Begin) (hb : b.writes = true → W b.occ) {body : Ctx → Nat → M (Disk V) V α}
    (h : ∀ c' n, Tame W (body c' n)) : Tame W (withAction (disk B db0) c b body) := by
  intro s hs
  rcases diskBegin_stack B db0 W (d := s.ll) c b hs hb with ⟨h1, h2⟩ | ⟨n, f, h1, h2, h3, h4⟩
  · have e : llBegin (disk B db0) c b s = (.error .lowlevel, ⟨s.ll, s.log ++ [.begin c b none]⟩) := by
      unfold llBegin
      rw [show (disk B db0).begin s.ll c b = (none, s.ll) from Prod.ext h1 h2]
    unfold withAction
    rw [e]
    exact ⟨moved_refl _, fun _ _ => rfl⟩
  · have e : llBegin (disk B db0) c b s = (.ok (s.ll.next, n),
        ⟨(diskBegin B db0 s.ll c b).2, s.log ++ [.begin c b (some s.ll.next)]⟩) := by
      unfold llBegin
      rw [show (disk B db0).begin s.ll c b = (some (s.ll.next, n), (diskBegin B db0 s.ll c b).2) from Prod.ext h1 rfl]
    rw [withAction_ok e]
    have hbody := h s.ll.next n ⟨(diskBegin B db0 s.ll c b).2, s.log ++ [.begin c b (some s.ll.next)]⟩
      (by rw [h2]; exact h3)
    revert hbody
    generalize body s.ll.next n ⟨(diskBegin B db0 s.ll c b).2, s.log ++ [.begin c b (some s.ll.next)]⟩ = res
    rintro ⟨g1, g2⟩
    simp only at g1 g2
    rw [h2] at g1
    have : ∃ f', res.2.ll.stack = (s.ll.next, f') :: s.ll.stack := by
      rcases g1 with g1 | ⟨x, q, k, i, j, r, g3, g4⟩
      · exact ⟨_, g1⟩
      · cases g3; exact ⟨_, g4⟩
    obtain ⟨f', g5⟩ := this
    obtain ⟨k1, k2⟩ := finish_spec B db0 g5
    exact ⟨.inl k2, fun o ho => by rw [k1, g2 o ho, h4 o ho]⟩

section
variable (E : Env V)

mutual
theorem tame_getNode (p : Path) (c : Ctx) (m : Meta) : Tame W (getNode (disk B db0) E p c m) := by
  cases m with
  | leaf l =>
    unfold getNode
    split
    · exact tame_ret _ _
    · exact tame_andThen (tame_read B db0 W _ _ _ _) fun _ => tame_ret _ _
  | struct m =>
    unfold getNode
    split
    · exact tame_ret _ _
    · exact tame_andThen (tame_getFields p c m) fun _ => tame_ret _ _
  | aos m =>
    unfold getNode
    split
    · exact tame_ret _ _
    · refine tame_with B db0 W _ _ (by simp [Begin.writes]) fun c' n => ?_
      split
      · exact tame_ret _ _
      · exact tame_andThen (tame_times (tame_andThen (tame_getFields p c' m) fun _ =>
          tame_andThen (tame_iterate B db0 W _ _) fun _ => tame_ret _ _) _) fun _ => tame_ret _ _
theorem tame_getFields (p : Path) (c : Ctx) (m : MFields) : Tame W (getFields (disk B db0) E p c m) := by
  cases m with
  | nil => unfold getFields; exact tame_ret _ _
  | cons n m r =>
    unfold getFields
    exact tame_andThen (tame_getNode _ c m) fun _ => tame_andThen (tame_getFields p c r) fun _ =>
      tame_ret _ _
end

mutual
theorem tame_deleteNode (p : Path) (c : Ctx) (m : Meta) : Tame W (deleteNode (disk B db0) E p c m) := by
  cases m with
  | leaf l => unfold deleteNode; exact tame_delete B db0 W _ _
  | struct m => unfold deleteNode; exact tame_deleteFields p c m
  | aos m => unfold deleteNode; exact tame_delete B db0 W _ _
theorem tame_deleteFields (p : Path) (c : Ctx) (m : MFields) : Tame W (deleteFields (disk B db0) E p c m) := by
  cases m with
  | nil => unfold deleteFields; exact tame_ret _ _
  | cons n m r =>
    unfold deleteFields
    exact tame_andThen (tame_deleteNode _ c m) fun _ => tame_deleteFields p c r
end

variable (slice verify : Bool)

mutual
theorem tame_putNode (p : Path) (c : Ctx) (x : Node V) : Tame W (putNode (disk B db0) E slice verify p c x) := by
  cases x with
  | leaf l v =>
    unfold putNode
    split
    · exact tame_ret _ _
    · split
      · exact tame_ret _ _
      · split
        · exact tame_ret _ _
        · exact tame_write B db0 W _ _ _ _
  | struct f =>
    unfold putNode
    split
    · exact tame_ret _ _
    · exact tame_putFields p c f
  | aos m e =>
    unfold putNode
    split
    · exact tame_ret _ _
    · split
      · exact tame_throw _ _
      · exact tame_with B db0 W _ _ (by simp [Begin.writes]) fun c' _ => tame_putElems p c' e
theorem tame_putFields (p : Path) (c : Ctx) (f : Fields V) :
    Tame W (putFields (disk B db0) E slice verify p c f) := by
  cases f with
  | nil => unfold putFields; exact tame_ret _ _
  | absent n m r => unfold putFields; exact tame_putFields p c r
  | present n x r =>
    unfold putFields
    split
    · exact tame_andThen (tame_putNode _ c x) fun _ => tame_putFields p c r
    · exact tame_putFields p c r
theorem tame_putElems (p : Path) (c : Ctx) (e : Elems V) :
    Tame W (putElems (disk B db0) E slice verify p c e) := by
  cases e with
  | nil => unfold putElems; exact tame_ret _ _
  | cons f r =>
    unfold putElems
    exact tame_andThen (tame_putFields p c f) fun _ => tame_andThen (tame_iterate B db0 W _ _) fun _ =>
      tame_putElems p c r
end
end

theorem tame_readMode (C : Conf V) (db : Ctx) (d : Bool) : Tame W (readMode (disk B db0) C db d) :=
  tame_with B db0 W _ _ (by simp [Begin.writes]) fun _ _ => tame_andThen (tame_read B db0 W _ _ _ _) fun _ => tame_ret _ _

theorem tame_alGet (C : Conf V) (I : Info V) (nbc : Option Nbc) (db : Ctx) (k : Bool) (r : Range)
    (m : MFields) : Tame W (alGet (disk B db0) C I nbc db k r m) := by
  refine tame_andThen (tame_readMode B db0 W C db _) fun mode => ?_
  split
  · exact tame_throw _ _
  · exact tame_with B db0 W _ _ (by cases k <;> cases r <;> simp [Range.begin, Begin.writes])
      fun c _ => tame_getFields B db0 W _ _ c m

theorem tame_alReadVersion (C : Conf V) (db : Ctx) : Tame W (alReadVersion (disk B db0) C db) := by
  refine tame_andThen (tame_with B db0 W _ _ (by simp [Begin.writes]) fun c _ =>
    tame_andThen (tame_read B db0 W _ _ _ _) fun _ =>
    tame_andThen (tame_read B db0 W _ _ _ _) fun _ => tame_ret _ _) fun r => ?_
  split
  · exact tame_throw _ _
  · exact tame_ret _ _

theorem tame_alPut (C : Conf V) (I ei : Info V) (nbc : Option Nbc) (db : Ctx) (mode : Mode)
    (m : MFields) (slice : Bool) (f : Fields V) :
    Tame (· = C.occ) (alPut (disk B db0) C I ei nbc db mode m slice f) := by
  refine tame_andThen ?_ fun slice => tame_andThen ?_ fun _ =>
    tame_with B db0 _ _ _ (by split <;> intro _ <;> rfl) fun c _ => tame_putFields B db0 _ _ _ _ _ c f
  · split
    · refine tame_andThen (tame_readMode B db0 _ C db _) fun mode => ?_
      split
      · exact tame_ret _ _
      · split
        · exact tame_throw _ _
        · exact tame_ret _ _
    · exact tame_ret _ _
  · split
    · exact tame_ret _ _
    · exact tame_with B db0 (· = C.occ) _ _ (by intro _; rfl) fun c _ => tame_deleteFields B db0 _ _ _ c m

theorem tame_alDelete (C : Conf V) (db : Ctx) : Tame (· = C.occ) (alDelete (disk B db0) C db) :=
  tame_with B db0 (· = C.occ) _ _ (by intro _; rfl) fun _ _ => tame_throw _ _

end Verif.Al
