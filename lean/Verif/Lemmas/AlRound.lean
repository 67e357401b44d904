import Verif.Lemmas.AlKeys
import Verif.Lemmas.ConvertIdentity
/-
Whole operations on a working low level: get, put, and put followed by get.
-/
namespace Verif.Al
open Verif.Ids Verif.AlSpec Verif.TreeSpec Verif.DiffSpec Verif.ConvertSpec

set_option linter.unusedSectionVars false
variable {V : Type} [Value V] (B : Backend V) (db : Ctx)

/-! ### Get -/

/-- Opening an action on an occurrence. -/
theorem begin_top {s : St (Disk V) V} (hs : s.ll.stack = []) {b : Begin} (hb : b.isAos = false) :
    ∃ log, llBegin (disk B db) db b s =
      (.ok (s.ll.next, 0), ⟨{ s.ll with stack := [(s.ll.next, .act b)], next := s.ll.next + 1 }, log⟩) := by
  refine ⟨s.log ++ [.begin db b (some s.ll.next)], ?_⟩
  have e : (disk B db).begin s.ll db b =
      (some (s.ll.next, 0), { s.ll with stack := [(s.ll.next, .act b)], next := s.ll.next + 1 }) := by
    cases b <;> simp [disk, diskBegin, hs, Begin.isAos] at hb ⊢
  unfold llBegin
  rw [e]

theorem withTop_spec {α : Type} {s : St (Disk V) V} (hs : s.ll.stack = []) {b : Begin} (hb : b.isAos = false)
    {body : Ctx → Nat → M (Disk V) V α} {x : α}
    (h : ∀ c s', s'.ll.stores = s.ll.stores → s'.ll.stack = [(c, .act b)] → Gives (body c 0) s' x) :
    Gives (withAction (disk B db) db b body) s x := by
  obtain ⟨log, e⟩ := begin_top B db hs hb
  obtain ⟨s'', h1, h2, h3⟩ := h s.ll.next
    ⟨{ s.ll with stack := [(s.ll.next, .act b)], next := s.ll.next + 1 }, log⟩ rfl rfl
  unfold Gives
  rw [withAction_ok e, h1]
  obtain ⟨f1, f2⟩ := finish_spec B db h3
  exact ⟨_, rfl, f1.trans h2, f2.trans hs.symm⟩

theorem readMode_spec (C : Conf V) (d : Bool) {s : St (Disk V) V} (hs : s.ll.stack = []) :
    Gives (readMode (disk B db) C db d) s (C.modeOf ((s.ll.stores C.occ).data [] C.timePath)) := by
  refine withTop_spec B db hs rfl fun c s' h1 h2 => ?_
  have := read_spec B db (s := s') (c := c) (a := .global C.occ false d) (by rw [h2]; simp [isTop])
    (by rw [h2]; rfl) C.timePath [] C.timeMeta
  refine gives_andThen this fun s'' _ _ => ?_
  rw [B.view_global, h2, h1]
  exact gives_ret s'' _

theorem begin_occ (o : Text) (r : Range) : (r.begin o).occ = o := by cases r <;> rfl

theorem alGet_spec (C : Conf V) (I : Info V) (nbc : Option Nbc) (constant : Bool) (r : Range) (m : MFields)
    {s : St (Disk V) V} (hs : s.ll.stack = []) {mode : Mode}
    (hm : C.modeOf ((s.ll.stores C.occ).data [] C.timePath) = mode) (hk : mode.known = true) :
    Gives (alGet (disk B db) C I nbc db constant r m) s
      (evalFields (B.view ((if constant then Range.all else r).begin C.occ) (s.ll.stores C.occ))
        ⟨I, mode, nbc⟩ [] [] m) := by
  unfold alGet
  refine gives_andThen (readMode_spec B db C C.uda hs) fun s' h1 h2 => ?_
  rw [hm, hk, if_neg (by simp)]
  have hb : ((if constant then Range.all else r).begin C.occ).isAos = false := by
    cases constant <;> cases r <;> rfl
  refine withTop_spec B db (h2.trans hs) hb fun c s'' h3 h4 => ?_
  have hw : ((if constant then Range.all else r).begin C.occ).writes = false := by
    cases constant <;> cases r <;> rfl
  have := getFields_spec B db ⟨I, mode, nbc⟩ [] c m (s := s'')
    (a := (if constant then Range.all else r).begin C.occ)
    ⟨by rw [h4]; simp [isTop], by rw [h4]; rfl, hw⟩
  rw [begin_occ, h3, h1, h4] at this
  exact this

/-! ### Put -/

theorem withTop_stores {s : St (Disk V) V} (hs : s.ll.stack = []) (occ : Text)
    {body : Ctx → Nat → M (Disk V) V Unit} {S : Store V}
    (h : ∀ c s', s'.ll.stores = s.ll.stores → s'.ll.stack = [(c, .act (.global occ true false))] →
      Stores occ (body c 0) s' () S) :
    Stores occ (withAction (disk B db) db (.global occ true false) body) s () S := by
  obtain ⟨log, e⟩ := begin_top B db hs (b := .global occ true false) rfl
  obtain ⟨s'', h1, h2, h3⟩ := h s.ll.next
    ⟨{ s.ll with stack := [(s.ll.next, .act (.global occ true false))], next := s.ll.next + 1 }, log⟩ rfl rfl
  unfold Stores
  rw [withAction_ok e, h1]
  obtain ⟨f1, f2⟩ := finish_spec B db h3
  exact ⟨_, rfl, f1.trans h2, f2.trans hs.symm⟩

theorem alPut_spec (C : Conf V) (I J : Info V) (nbc : Option Nbc) (mode : Mode) (m : MFields) (f : Fields V)
    {s : St (Disk V) V} (hs : s.ll.stack = []) (hf : C.mdsplus = true → WithinMaxF I [] f) :
    Stores C.occ (alPut (disk B db) C I J nbc db mode m false f) s ()
      (storeFields ⟨I, mode, nbc⟩ [] [] f (deleteFieldsS ⟨J, mode, none⟩ [] m (s.ll.stores C.occ))) := by
  unfold alPut
  simp only [Bool.false_eq_true, if_false]
  refine stores_andThen (stores_ret C.occ s false) fun s0 h1 h2 => ?_
  simp only [Bool.false_eq_true, if_false]
  refine stores_andThen (S := deleteFieldsS ⟨J, mode, none⟩ [] m (s.ll.stores C.occ)) (x := ()) ?_ fun s1 h3 h4 => ?_
  · refine withTop_stores B db (h2.trans hs) C.occ fun c s' h5 h6 => ?_
    have := deleteFields_spec B db ⟨J, mode, none⟩ C.occ [] c m (s := s') h6
    rwa [h5, h1] at this
  · refine withTop_stores B db (h4.trans (h2.trans hs)) C.occ fun c s' h5 h6 => ?_
    have := putFields_spec B db ⟨I, mode, nbc⟩ C.mdsplus C.occ [] c f (s := s')
      ⟨by rw [h6]; simp [isTop], by rw [h6]; exact ⟨false, rfl⟩⟩ hf
    rwa [h5, h3, h6] at this

/-! ### Delete -/

theorem delete_data_none {S : Store V} {Q : Pos} {q r : Path} (h : S.data Q q = none) :
    (S.delete r).data Q q = none := by
  simp only [Store.delete]; split
  · rfl
  · exact h

theorem delete_size_zero {S : Store V} {Q : Pos} {q r : Path} (h : S.size Q q = 0) :
    (S.delete r).size Q q = 0 := by
  simp only [Store.delete]; split
  · rfl
  · exact h

/-- Nothing is stored for the given key. -/
def Clear (S : Store V) (Q : Pos) (q : Path) : Prop := S.data Q q = none ∧ S.size Q q = 0

theorem clear_delete {S : Store V} {Q : Pos} {q r : Path} (h : Clear S Q q) : Clear (S.delete r) Q q :=
  ⟨delete_data_none h.1, delete_size_zero h.2⟩

mutual
theorem clear_deleteNode (E : Env V) (p : Path) (m : Meta) {S : Store V} {Q : Pos} {q : Path}
    (h : Clear S Q q) : Clear (deleteNodeS E p m S) Q q := by
  cases m with
  | leaf l => exact clear_delete h
  | aos d => exact clear_delete h
  | struct d => exact clear_deleteFields E p d h
theorem clear_deleteFields (E : Env V) (p : Path) (m : MFields) {S : Store V} {Q : Pos} {q : Path}
    (h : Clear S Q q) : Clear (deleteFieldsS E p m S) Q q := by
  cases m with
  | nil => exact h
  | cons n x r => exact clear_deleteFields E p r (clear_deleteNode E (p ++ [n]) x h)
end

/-- Data nodes and arrays of structures that are not inside another array of structures. -/
inductive TopNode : MFields → Path → Prop
  | leaf {c n l} : mchild c n = some (.leaf l) → TopNode c [n]
  | aos {c n d} : mchild c n = some (.aos d) → TopNode c [n]
  | struct {c n d p} : mchild c n = some (.struct d) → TopNode d p → TopNode c (n :: p)

theorem delete_clears {S : Store V} {Q : Pos} {q : Path} : Clear (S.delete (topPath Q q)) Q q := by
  simp [Clear, Store.delete]

theorem deleteFields_cons (E : Env V) (p : Path) (c : MFields) {n : Name} {x : Meta} (hx : mchild c n = some x)
    {Q : Pos} {q : Path} (hc : ∀ S : Store V, Clear (deleteNodeS E (p ++ [n]) x S) Q q) (S : Store V) :
    Clear (deleteFieldsS E p c S) Q q := by
  match c with
  | .nil => simp [mchild] at hx
  | .cons k y r =>
    rw [mchild] at hx
    rw [deleteFieldsS]
    split at hx
    · next h => subst h; cases hx; exact clear_deleteFields E p r (hc S)
    · exact deleteFields_cons E p r hx hc _

/-- Deleting removes everything stored for the nodes in the metadata. -/
theorem delete_top (E : Env V) {c : MFields} {t : Path} (ht : TopNode c t) : ∀ (p : Path) {Q : Pos} {q : Path},
    topPath Q q = E.info.ctxPath (p ++ t) → ∀ S : Store V, Clear (deleteFieldsS E p c S) Q q := by
  induction ht with
  | leaf h =>
    intro p Q q e S
    exact deleteFields_cons E p _ h (fun S => by rw [deleteNodeS, ← e]; exact delete_clears) S
  | aos h =>
    intro p Q q e S
    exact deleteFields_cons E p _ h (fun S => by rw [deleteNodeS, ← e]; exact delete_clears) S
  | @struct c n d t h _ ih =>
    intro p Q q e S
    exact deleteFields_cons E p _ h (fun S => ih (p ++ [n]) (by simpa using e) S) S

/-- Every key of a data node or array of structures starts at a node not inside another array. -/
theorem key_top (T : Path → Option Path) (ctx : Path → Path) (hT : ∀ p q, T p = some q → q = ctx p) (a : Addr) :
    ∀ (m : MFields) (p : Path) (x : Meta) (Q : Pos) (q : Path), atMeta (.struct m) a = some x →
      (∀ d, x ≠ .struct d) → keyOf T p [] a = some (Q, q) → ∃ t, TopNode m t ∧ topPath Q q = ctx (p ++ t) := by
  induction a with
  | nil => intro m p x Q q _ _ h; simp [keyOf] at h
  | cons s a ih =>
    intro m p x Q q hm hx hk
    obtain ⟨n, i⟩ := s
    rw [atMeta_cons] at hm
    cases hc : mchild m n with
    | none => simp [hc] at hm
    | some y =>
      rw [hc] at hm
      cases i with
      | none =>
        simp only at hm
        cases a with
        | nil =>
          rw [atMeta] at hm; cases hm
          rw [keyOf] at hk
          obtain ⟨r, hr, hk⟩ := Option.map_eq_some_iff.1 hk
          cases hk
          refine ⟨[n], ?_, hT _ _ hr⟩
          cases x with
          | leaf l => exact .leaf hc
          | aos d => exact .aos hc
          | struct d => exact absurd rfl (hx d)
        | cons b a =>
          rw [keyOf] at hk
          obtain ⟨r, hr, hk⟩ := Option.bind_eq_some_iff.1 hk
          cases y with
          | leaf l => simp [atMeta] at hm
          | aos d => simp [atMeta] at hm
          | struct d =>
            obtain ⟨t, h1, h2⟩ := ih d (p ++ [n]) x Q q hm hx hk
            exact ⟨n :: t, .struct hc h1, by simpa using h2⟩
      | some i =>
        cases y with
        | leaf l => simp at hm
        | struct d => simp at hm
        | aos d =>
          rw [keyOf] at hk
          obtain ⟨r, hr, hk⟩ := Option.bind_eq_some_iff.1 hk
          obtain ⟨R, hR⟩ := keyOf_ext _ _ _ _ _ _ hk
          refine ⟨[n], .aos hc, ?_⟩
          rw [hR]
          exact hT _ _ hr

/-! ### Put, then get -/

theorem elems_get_lt {e : Elems V} {i : Nat} {c : Fields V} (h : e.get? i = some c) : i < e.length := by
  match e, i with
  | .nil, _ => simp [Elems.get?] at h
  | .cons _ r, 0 => simp [Elems.length]
  | .cons _ r, i + 1 =>
    have := elems_get_lt (e := r) (i := i) h
    simp only [Elems.length]
    omega

/-- The arrays of structures above a node have the element that leads to it. -/
theorem above_size (E : Env V) (f : Fields V) {a : Addr} {y : Node V}
    (ha : (Node.struct f).at a = some y) {Q : Pos} {q : Path} (hk : keyOf (pathOf E) [] [] a = some (Q, q))
    {Q1 : Pos} {r : Path} {i : Nat} {Q2 : Pos} (e : Q = [] ++ Q1 ++ (r, i) :: Q2) :
    ∃ b k, SizeAt (.struct f) b k ∧ keyOf (pathOf E) [] [] b = some ([] ++ Q1, r) ∧ i < k := by
  -- the array whose element is on the way
  have key : ∀ (a : Addr) (p : Path) (P : Pos) (Q : Pos) (q : Path), keyOf (pathOf E) p P a = some (Q, q) →
      ∀ Q1 r i Q2, Q = P ++ Q1 ++ (r, i) :: Q2 → ∃ b n c, a = b ++ (n, some i) :: c ∧
        keyOf (pathOf E) p P (b ++ [(n, none)]) = some (P ++ Q1, r) := by
    intro a
    induction a with
    | nil => intro p P Q q h; simp [keyOf] at h
    | cons s a ih =>
      intro p P Q q h Q1 r i Q2 e
      obtain ⟨n, j⟩ := s
      cases j with
      | some j =>
        rw [keyOf] at h
        obtain ⟨t, ht, h⟩ := Option.bind_eq_some_iff.1 h
        obtain ⟨R, hR⟩ := keyOf_ext _ _ _ _ _ _ h
        cases Q1 with
        | nil =>
          rw [hR] at e
          simp at e
          obtain ⟨⟨rfl, rfl⟩, -⟩ := e
          exact ⟨[], n, a, rfl, by simp [keyOf, ht]⟩
        | cons x Q1 =>
          have hx : x = (t, j) := by rw [hR] at e; simp at e; exact e.1.symm
          subst hx
          obtain ⟨b, n', c, rfl, h2⟩ := ih _ _ _ _ h Q1 r i Q2 (by rw [e]; simp)
          refine ⟨(n, some j) :: b, n', c, rfl, ?_⟩
          rw [List.cons_append, keyOf, ht]
          simpa using h2
      | none =>
        cases a with
        | nil =>
          rw [keyOf] at h
          obtain ⟨t, ht, h⟩ := Option.map_eq_some_iff.1 h
          exfalso
          simp only [Prod.mk.injEq] at h
          rw [← h.1] at e
          have := congrArg List.length e
          simp at this
        | cons b a =>
          rw [keyOf] at h
          obtain ⟨t, ht, h⟩ := Option.bind_eq_some_iff.1 h
          obtain ⟨b', n', c, hc, h2⟩ := ih _ _ _ _ h Q1 r i Q2 e
          refine ⟨(n, none) :: b', n', c, by rw [hc]; rfl, ?_⟩
          cases b' with
          | nil => rw [List.cons_append, List.nil_append, keyOf, ht]; exact h2
          | cons b'' b' => rw [List.cons_append, List.cons_append, keyOf, ht]; exact h2
  obtain ⟨b, n, c, rfl, h2⟩ := key a [] [] Q q hk Q1 r i Q2 e
  -- it has that element
  have hsize : ∃ k, SizeAt (.struct f) (b ++ [(n, none)]) k ∧ i < k := by
    rw [at_append] at ha
    obtain ⟨z, hz, ha⟩ := Option.bind_eq_some_iff.1 ha
    rw [Node.at] at ha
    obtain ⟨u, hu, -⟩ := Option.bind_eq_some_iff.1 ha
    cases z with
    | leaf l v => simp [Node.item] at hu
    | aos m e => simp [Node.item] at hu
    | struct d =>
      simp only [Node.item] at hu
      cases hg : d.get? n with
      | none => simp [hg] at hu
      | some t =>
        cases t with
        | leaf l v => simp [hg] at hu
        | struct m => simp [hg] at hu
        | aos m el =>
          simp only [hg] at hu
          obtain ⟨fc, hf, -⟩ := Option.map_eq_some_iff.1 hu
          have := elems_get_lt hf
          refine ⟨el.length, ⟨m, el, ?_, rfl, by omega⟩, this⟩
          rw [at_append, hz]
          simp [Node.at, Node.item, hg]
  obtain ⟨k, hk1, hk2⟩ := hsize
  exact ⟨_, k, hk1, h2, hk2⟩

/-- A filled node that is stored: the elements above it are stored too. -/
theorem put_reached (E : Env V) (f : Fields V) (hw : WFFields f) (S : Store V) {a : Addr} {y : Node V}
    (ha : (Node.struct f).at a = some y) {Q : Pos} {q : Path} (hk : keyOf (pathOf E) [] [] a = some (Q, q))
    (inj : ∀ b c k l R, SizeAt (.struct f) b k → SizeAt (.struct f) c l → keyOf (pathOf E) [] [] b = some R →
      keyOf (pathOf E) [] [] c = some R → b = c) :
    Reached (storeFields E [] [] f S) [] Q := by
  intro Q1 r i Q2 e
  obtain ⟨b, k, hk1, h2, hk2⟩ := above_size E f ha hk e
  rcases store_size E f hw [] [] S ([] ++ Q1) r with ⟨a', k', h3, h4, h5⟩ | ⟨h3, -⟩
  · have := inj _ _ _ _ _ hk1 h3 h2 h4
    subst this
    obtain ⟨m1, e1, g1, g2, -⟩ := hk1
    obtain ⟨m2, e2, g3, g4, -⟩ := h3
    rw [g1] at g3
    cases g3
    rw [h5]
    omega
  · exact absurd h2 (h3 _ _ hk1)

end Verif.Al

namespace Verif.Al
open Verif.Ids Verif.AlSpec Verif.TreeSpec Verif.DiffSpec Verif.ConvertSpec
set_option linter.unusedSectionVars false
variable {V : Type} [Value V]

/-- Data nodes and arrays of structures of the metadata. -/
def IsNode (m : MFields) (a : Addr) : Prop := ∃ x, atMeta (.struct m) a = some x ∧ ∀ d, x ≠ .struct d

theorem valueAt_filled {x : Node V} {a : Addr} {v : V} (h : ValueAt x a v) : ∃ y, x.at a = some y ∧ Filled y := by
  obtain ⟨l, h1, h2⟩ := h
  exact ⟨_, h1, by simpa [Filled] using h2⟩

theorem sizeAt_filled {x : Node V} {a : Addr} {k : Nat} (h : SizeAt x a k) : ∃ y, x.at a = some y ∧ Filled y := by
  obtain ⟨m, e, h1, h2, h3⟩ := h
  exact ⟨_, h1, by simpa [Filled, h2] using h3⟩

variable (E1 E2 : Env V) (f : Fields V) (m : MFields) (S : Store V)

/-- Data written by a put and read back by a get, possibly with other metadata and maps: a node has the value
that was written at its key. -/
theorem transfer_value (hw : WFFields f)
    (inj : ∀ b c y z R, (Node.struct f).at b = some y → Filled y → (Node.struct f).at c = some z → Filled z →
      keyOf (pathOf E1) [] [] b = some R → keyOf (pathOf E1) [] [] c = some R → b = c)
    (clear : ∀ a Q q, IsNode m a → keyOf (pathOf E2) [] [] a = some (Q, q) → Clear S Q q) (a : Addr) (v : V) :
    ValueAt (.struct (evalFields (storeFields E1 [] [] f S) E2 [] [] m)) a v ↔
      ∃ l b, atMeta (.struct m) a = some (.leaf l) ∧ ValueAt (.struct f) b v ∧
        keyOf (pathOf E1) [] [] b = keyOf (pathOf E2) [] [] a ∧ (keyOf (pathOf E2) [] [] a).isSome ∧
        (l.ndim = 0 && E2.info.isDefault l v) = false := by
  rw [eval_value]
  constructor
  · rintro ⟨l, Q, q, h1, h2, -, h4, h5, h6⟩
    rcases store_data E1 f hw [] [] S Q q with ⟨b, w, g1, g2, g3⟩ | ⟨-, g3⟩
    · rw [h4] at g3
      cases g3
      exact ⟨l, b, h1, g1, by rw [g2, h2], by rw [h2]; rfl, h6⟩
    · rw [h4, (clear a Q q ⟨_, h1, by simp⟩ h2).1] at g3
      cases g3
  · rintro ⟨l, b, h1, h2, h3, h4, h5⟩
    obtain ⟨⟨Q, q⟩, hk⟩ := Option.isSome_iff_exists.1 h4
    rw [hk] at h3
    obtain ⟨y, hy, hf⟩ := valueAt_filled h2
    refine ⟨l, Q, q, h1, hk, ?_, ?_, by obtain ⟨_, _, h⟩ := h2; exact h, h5⟩
    · refine put_reached E1 f hw S hy h3 fun b c k l R hb hc => ?_
      obtain ⟨y1, g1, g2⟩ := sizeAt_filled hb
      obtain ⟨y2, g3, g4⟩ := sizeAt_filled hc
      exact inj b c _ _ R g1 g2 g3 g4
    · rcases store_data E1 f hw [] [] S Q q with ⟨c, w, g1, g2, g3⟩ | ⟨g1, -⟩
      · obtain ⟨z, hz, hzf⟩ := valueAt_filled g1
        have := inj b c _ _ _ hy hf hz hzf h3 g2
        subst this
        obtain ⟨l1, e1, -⟩ := g1
        obtain ⟨l2, e2, -⟩ := h2
        rw [e1] at e2
        cases e2
        exact g3
      · exact absurd h3 (g1 _ _ h2)

/-- The same for sizes of arrays of structures. -/
theorem transfer_size (hw : WFFields f)
    (inj : ∀ b c y z R, (Node.struct f).at b = some y → Filled y → (Node.struct f).at c = some z → Filled z →
      keyOf (pathOf E1) [] [] b = some R → keyOf (pathOf E1) [] [] c = some R → b = c)
    (clear : ∀ a Q q, IsNode m a → keyOf (pathOf E2) [] [] a = some (Q, q) → Clear S Q q) (a : Addr) (k : Nat) :
    SizeAt (.struct (evalFields (storeFields E1 [] [] f S) E2 [] [] m)) a k ↔
      ∃ d b, atMeta (.struct m) a = some (.aos d) ∧ SizeAt (.struct f) b k ∧
        keyOf (pathOf E1) [] [] b = keyOf (pathOf E2) [] [] a ∧ (keyOf (pathOf E2) [] [] a).isSome := by
  rw [eval_size]
  constructor
  · rintro ⟨d, Q, q, h1, h2, -, h4, h5⟩
    rcases store_size E1 f hw [] [] S Q q with ⟨b, w, g1, g2, g3⟩ | ⟨-, g3⟩
    · rw [h4] at g3
      subst g3
      exact ⟨d, b, h1, g1, by rw [g2, h2], by rw [h2]; rfl⟩
    · rw [h4, (clear a Q q ⟨_, h1, by simp⟩ h2).2] at g3
      exact absurd g3 h5
  · rintro ⟨d, b, h1, h2, h3, h4⟩
    obtain ⟨⟨Q, q⟩, hk⟩ := Option.isSome_iff_exists.1 h4
    rw [hk] at h3
    obtain ⟨y, hy, hf⟩ := sizeAt_filled h2
    refine ⟨d, Q, q, h1, hk, ?_, ?_, ?_⟩
    · refine put_reached E1 f hw S hy h3 fun b c k l R hb hc => ?_
      obtain ⟨y1, g1, g2⟩ := sizeAt_filled hb
      obtain ⟨y2, g3, g4⟩ := sizeAt_filled hc
      exact inj b c _ _ R g1 g2 g3 g4
    · rcases store_size E1 f hw [] [] S Q q with ⟨c, w, g1, g2, g3⟩ | ⟨g1, -⟩
      · obtain ⟨z, hz, hzf⟩ := sizeAt_filled g1
        have := inj b c _ _ _ hy hf hz hzf h3 g2
        subst this
        obtain ⟨m1, e1, g4, g5, -⟩ := g1
        obtain ⟨m2, e2, g6, g7, -⟩ := h2
        rw [g4] at g6
        cases g6
        rw [g3]
        omega
      · exact absurd h3 (g1 _ _ h2)
    · obtain ⟨_, _, _, _, h⟩ := h2; exact h

/-! ### The result of a get has the shape of its metadata -/

mutual
theorem typed_eval (S : Store V) (E : Env V) (p : Path) (P : Pos) (m : Meta) (x : Node V)
    (h : evalNode S E p P m = some x) : Typed x m := by
  cases m with
  | leaf l =>
    rw [evalNode] at h
    rcases ht : target E p with _ | ⟨q, tb⟩ <;> rw [ht] at h
    · cases h
    · simp only at h
      unfold keepValue at h
      split at h
      · cases h
      · split at h
        · cases h
        · cases h; rfl
  | struct c =>
    rw [evalNode] at h
    rcases ht : target E p with _ | ⟨q, tb⟩ <;> rw [ht] at h
    · cases h
    · cases h; simp only [Typed]; exact typed_evalF S E p P c
  | aos c =>
    rw [evalNode] at h
    rcases ht : target E p with _ | ⟨q, tb⟩ <;> rw [ht] at h
    · cases h
    · simp only at h
      split at h
      · cases h
      · cases h
        simp only [Typed, true_and]
        have : ∀ l : List Nat, TypedE (elemsOf (l.map fun i => evalFields S E p (P ++ [(q, i)]) c)) c := by
          intro l
          induction l with
          | nil => simp [elemsOf, TypedE]
          | cons i l ih => simp only [List.map_cons, elemsOf, TypedE]; exact ⟨typed_evalF S E p _ c, ih⟩
        exact this _
theorem typed_evalF (S : Store V) (E : Env V) (p : Path) (P : Pos) (m : MFields) :
    TypedF (evalFields S E p P m) m := by
  cases m with
  | nil => simp [evalFields, TypedF]
  | cons n x r =>
    rw [evalFields]
    have ih := typed_evalF S E p P r
    unfold fieldOf
    cases he : evalNode S E (p ++ [n]) P x with
    | none => simp only [TypedF, true_and]; exact ih
    | some y => simp only [TypedF, true_and]; exact ⟨typed_eval S E (p ++ [n]) P x y he, ih⟩
end

/-- The metadata of a node of a tree. -/
theorem mchild_of_typed {c : Fields V} {m : MFields} (h : TypedF c m) {n : Name} {x : Node V}
    (hg : c.get? n = some x) : ∃ y, mchild m n = some y ∧ Typed x y := by
  match c, m with
  | .nil, _ => simp [Fields.get?] at hg
  | .absent _ _ _, .nil => simp [TypedF] at h
  | .present _ _ _, .nil => simp [TypedF] at h
  | .absent k y r, .cons k' y' r' =>
    simp only [TypedF] at h
    obtain ⟨rfl, rfl, h⟩ := h
    rw [Fields.get?] at hg
    rw [mchild]
    split at hg
    · next e => rw [if_pos e]; cases hg; exact ⟨y, rfl, typed_fresh y⟩
    · next e => rw [if_neg e]; exact mchild_of_typed h hg
  | .present k y r, .cons k' y' r' =>
    simp only [TypedF] at h
    obtain ⟨rfl, h1, h⟩ := h
    rw [Fields.get?] at hg
    rw [mchild]
    split at hg
    · next e => rw [if_pos e]; cases hg; exact ⟨y', rfl, h1⟩
    · next e => rw [if_neg e]; exact mchild_of_typed h hg

theorem atMeta_of_typed (a : Addr) : ∀ (x : Node V) (m : Meta) (y : Node V), Typed x m → x.at a = some y →
    ∃ d, atMeta m a = some d ∧ Typed y d := by
  induction a with
  | nil => intro x m y h e; simp only [Node.at, Option.some.injEq] at e; subst e; exact ⟨m, by simp [atMeta], h⟩
  | cons s a ih =>
    intro x m y h e
    obtain ⟨n, i⟩ := s
    rw [Node.at] at e
    obtain ⟨z, hz, e⟩ := Option.bind_eq_some_iff.1 e
    cases x with
    | leaf l v => simp [Node.item] at hz
    | aos d e => simp [Node.item] at hz
    | struct c =>
      cases m with
      | leaf l => simp [Typed] at h
      | aos l => simp [Typed] at h
      | struct d =>
        simp only [Typed] at h
        simp only [Node.item] at hz
        rw [atMeta_cons]
        cases hg : c.get? n with
        | none => simp [hg] at hz
        | some t =>
          obtain ⟨u, h1, h2⟩ := mchild_of_typed h hg
          rw [h1]
          cases i with
          | none =>
            simp only [hg, Option.some.injEq] at hz
            subst hz
            exact ih t u y h2 e
          | some i =>
            cases t with
            | leaf l v => simp [hg] at hz
            | struct l => simp [hg] at hz
            | aos k el =>
              simp only [hg] at hz
              obtain ⟨fc, h3, rfl⟩ := Option.map_eq_some_iff.1 hz
              cases u with
              | leaf l => simp [Typed] at h2
              | struct l => simp [Typed] at h2
              | aos k' =>
                simp only [Typed] at h2
                exact ih (.struct fc) (.struct k') y (by simp only [Typed]; exact typed_elem h2.2 h3) e

/-! ### Keys are one-to-one -/

theorem keyOf_last (T : Path → Option Path) (p : Path) (P : Pos) (n : Name) :
    keyOf T p P [(n, none)] = (T (p ++ [n])).map (P, ·) := by rw [keyOf]

theorem keyOf_elem (T : Path → Option Path) (p : Path) (P : Pos) (n : Name) (i : Nat) (a : Addr) :
    keyOf T p P ((n, some i) :: a) = (T (p ++ [n])).bind fun q => keyOf T (p ++ [n]) (P ++ [(q, i)]) a := by
  rw [keyOf]

/-- If low-level paths are relative to the nearest array of structures, different nodes have different keys. -/
theorem key_inj (T : Path → Option Path) (a : Addr) : ∀ (m : MFields) (p acc : Path) (P : Pos) (b : Addr) (R : Pos × Path),
    (∀ t q, t ≠ [] → T (p ++ t) = some q → q = relPath m acc t) →
    IsNode m a → IsNode m b → keyOf T p P a = some R → keyOf T p P b = some R → a = b := by
  -- the first low-level path of a key starts with the first name
  have first : ∀ (a : Addr) (m : MFields) (p acc : Path) (P : Pos) (n : Name) (i : Option Nat) (Q : Pos) (q : Path),
      (∀ t q, t ≠ [] → T (p ++ t) = some q → q = relPath m acc t) → IsNode m ((n, i) :: a) →
      keyOf T p P ((n, i) :: a) = some (P ++ Q, q) → acc ++ [n] <+: topPath Q q := by
    intro a
    induction a with
    | nil =>
      intro m p acc P n i Q q hT ⟨x, hx, hs⟩ hk
      cases i with
      | some i => simp [keyOf] at hk
      | none =>
        rw [keyOf] at hk
        obtain ⟨r, hr, hk⟩ := Option.map_eq_some_iff.1 hk
        simp only [Prod.mk.injEq] at hk
        have hq : Q = [] := by simpa using hk.1
        subst hq
        rw [hT [n] r (by simp) hr] at hk
        rw [topPath, ← hk.2, relPath]
        rw [atMeta_cons] at hx
        cases hc : mchild m n with
        | none => simp [hc] at hx
        | some y => cases y <;> simp [relPath]
    | cons s a ih =>
      intro m p acc P n i Q q hT ⟨x, hx, hs⟩ hk
      rw [atMeta_cons] at hx
      cases hc : mchild m n with
      | none => simp [hc] at hx
      | some y =>
        rw [hc] at hx
        cases i with
        | none =>
          rw [keyOf] at hk
          obtain ⟨r, hr, hk⟩ := Option.bind_eq_some_iff.1 hk
          cases y with
          | leaf l => simp [atMeta] at hx
          | aos d => simp [atMeta] at hx
          | struct d =>
            have := ih d (p ++ [n]) (acc ++ [n]) P s.1 s.2 Q q (fun t q ht h => by
              have := hT (n :: t) q (by simp) (by simpa using h)
              rw [this, relPath, hc]) ⟨x, hx, hs⟩ hk
            exact (List.prefix_append _ _).trans this
        | some i =>
          rw [keyOf] at hk
          obtain ⟨r, hr, hk⟩ := Option.bind_eq_some_iff.1 hk
          obtain ⟨R, hR⟩ := keyOf_ext _ _ _ _ _ _ hk
          have hQ : Q = (r, i) :: R := by simpa using hR
          rw [hQ, topPath, hT [n] r (by simp) hr, relPath, hc]
          cases y <;> simp [relPath]
  induction a with
  | nil => intro m p acc P b R _ _ _ h; simp [keyOf] at h
  | cons s a ih =>
    intro m p acc P b R hT ha hb hka hkb
    obtain ⟨n, i⟩ := s
    cases b with
    | nil => simp [keyOf] at hkb
    | cons s' b =>
      obtain ⟨n', i'⟩ := s'
      obtain ⟨K, q⟩ := R
      obtain ⟨Q, rfl⟩ := keyOf_ext _ _ _ _ _ _ hka
      have hn : n = n' := by
        have h1 := first a m p acc P n i Q q hT ha hka
        have h2 := first b m p acc P n' i' Q q hT hb hkb
        obtain ⟨u, hu⟩ := h1
        obtain ⟨w, hw⟩ := h2
        rw [← hw, List.append_assoc, List.append_assoc] at hu
        have := List.append_cancel_left hu
        simp at this
        exact this.1
      subst hn
      obtain ⟨x, hx, hsx⟩ := ha
      obtain ⟨z, hz, hsz⟩ := hb
      rw [atMeta_cons] at hx hz
      cases hc : mchild m n with
      | none => simp [hc] at hx
      | some y =>
        rw [hc] at hx hz
        cases y with
        | leaf l =>
          cases i with
          | some i => simp at hx
          | none =>
            cases i' with
            | some i => simp at hz
            | none =>
              cases a with
              | cons _ _ => simp [atMeta] at hx
              | nil =>
                cases b with
                | cons _ _ => simp [atMeta] at hz
                | nil => rfl
        | struct d =>
          cases i with
          | some i => simp at hx
          | none =>
            cases i' with
            | some i => simp at hz
            | none =>
              cases a with
              | nil => simp [atMeta] at hx; exact absurd hx.symm (hsx d)
              | cons s a =>
                cases b with
                | nil => simp [atMeta] at hz; exact absurd hz.symm (hsz d)
                | cons t b =>
                  rw [keyOf] at hka hkb
                  obtain ⟨r, hr, hka⟩ := Option.bind_eq_some_iff.1 hka
                  obtain ⟨r', hr', hkb⟩ := Option.bind_eq_some_iff.1 hkb
                  rw [ih d (p ++ [n]) (acc ++ [n]) P (t :: b) _ (fun t q ht h => by
                    have := hT (n :: t) q (by simp) (by simpa using h)
                    rw [this, relPath, hc]) ⟨x, hx, hsx⟩ ⟨z, hz, hsz⟩ hka hkb]
        | aos d =>
          cases i with
          | none =>
            cases a with
            | cons _ _ => simp [atMeta] at hx
            | nil =>
              cases i' with
              | none =>
                cases b with
                | cons _ _ => simp [atMeta] at hz
                | nil => rfl
              | some i' =>
                exfalso
                rw [keyOf_last] at hka
                rw [keyOf_elem] at hkb
                obtain ⟨r, hr, hka⟩ := Option.map_eq_some_iff.1 hka
                obtain ⟨r', hr', hkb⟩ := Option.bind_eq_some_iff.1 hkb
                obtain ⟨R, hR⟩ := keyOf_ext _ _ _ _ _ _ hkb
                simp only [Prod.mk.injEq] at hka
                have hQ : Q = [] := by simpa using hka.1
                subst hQ
                have := congrArg List.length hR
                simp at this
          | some i =>
            cases i' with
            | none =>
              exfalso
              cases b with
              | cons _ _ => simp [atMeta] at hz
              | nil =>
                rw [keyOf_last] at hkb
                rw [keyOf_elem] at hka
                obtain ⟨r, hr, hkb⟩ := Option.map_eq_some_iff.1 hkb
                obtain ⟨r', hr', hka⟩ := Option.bind_eq_some_iff.1 hka
                obtain ⟨R, hR⟩ := keyOf_ext _ _ _ _ _ _ hka
                simp only [Prod.mk.injEq] at hkb
                have hQ : Q = [] := by simpa using hkb.1
                subst hQ
                have := congrArg List.length hR
                simp at this
            | some i' =>
              rw [keyOf] at hka hkb
              obtain ⟨r, hr, hka⟩ := Option.bind_eq_some_iff.1 hka
              obtain ⟨r', hr', hkb⟩ := Option.bind_eq_some_iff.1 hkb
              rw [hr] at hr'
              cases hr'
              obtain ⟨R, hR⟩ := keyOf_ext _ _ _ _ _ _ hka
              obtain ⟨R', hR'⟩ := keyOf_ext _ _ _ _ _ _ hkb
              have hi : i = i' := by
                rw [hR] at hR'
                simp at hR'
                exact hR'.1
              subst hi
              have hx' : atMeta (.struct d) a = some x := hx
              have hz' : atMeta (.struct d) b = some z := hz
              rw [ih d (p ++ [n]) [] (P ++ [(r, i)]) b _ (fun t q ht h => by
                have := hT (n :: t) q (by simp) (by simpa using h)
                rw [this, relPath, hc]
                simp only [if_neg ht]) ⟨x, hx', hsx⟩ ⟨z, hz', hsz⟩ hka hkb]

/-- A node has a key if neither the node nor anything above it is skipped. -/
theorem keyOf_isSome (T : Path → Option Path) (a : Addr) : ∀ (p : Path) (P : Pos), (∃ b n, a = b ++ [(n, none)]) →
    ((keyOf T p P a).isSome ↔ ∀ t, t ≠ [] → t <+: Verif.Convert.names a → (T (p ++ t)).isSome) := by
  have pre : ∀ (n : Name) (l : Path) (Q : Path → Prop), (∀ t, t ≠ [] → t <+: n :: l → Q t) ↔
      Q [n] ∧ ∀ t, t ≠ [] → t <+: l → Q (n :: t) := by
    intro n l Q
    constructor
    · intro h
      exact ⟨h [n] (by simp) ⟨l, rfl⟩, fun t _ ⟨u, hu⟩ => h (n :: t) (by simp) ⟨u, by rw [← hu]; rfl⟩⟩
    · rintro ⟨h1, h2⟩ t ht ⟨u, hu⟩
      cases t with
      | nil => exact absurd rfl ht
      | cons k t =>
        simp at hu
        obtain ⟨rfl, hu⟩ := hu
        cases t with
        | nil => exact h1
        | cons k' t => exact h2 _ (by simp) ⟨u, by simpa using hu⟩
  induction a with
  | nil => rintro p P ⟨b, n, h⟩; simp at h
  | cons s a ih =>
    rintro p P ⟨b, k, h⟩
    obtain ⟨n, i⟩ := s
    have hnames : Verif.Convert.names ((n, i) :: a) = n :: Verif.Convert.names a := by simp [Verif.Convert.names]
    rw [hnames, pre]
    cases a with
    | nil =>
      have hi : i = none := by
        cases b with
        | nil => simp at h; exact h.2
        | cons _ b => simp at h
      subst hi
      rw [keyOf_last]
      have : ∀ t, t ≠ [] → t <+: Verif.Convert.names [] → (T (p ++ n :: t)).isSome := by
        rintro t ht ⟨u, hu⟩
        simp [Verif.Convert.names] at hu
        exact absurd hu.1 ht
      rw [Option.isSome_map]
      exact ⟨fun h => ⟨h, this⟩, fun h => h.1⟩
    | cons s' a =>
      have hlast : ∃ b n, s' :: a = b ++ [(n, none)] := by
        cases b with
        | nil => simp at h
        | cons _ b => simp at h; exact ⟨b, k, h.2⟩
      cases i with
      | none =>
        rw [keyOf]
        cases hT : T (p ++ [n]) with
        | none => simp
        | some q =>
          rw [Option.bind_some, ih (p ++ [n]) P hlast]
          simp
      | some i =>
        rw [keyOf_elem]
        cases hT : T (p ++ [n]) with
        | none => simp
        | some q =>
          rw [Option.bind_some, ih (p ++ [n]) _ hlast]
          simp

theorem keyOf_plain (T : Path → Option Path) (t : Path) : ∀ (p : Path) (P : Pos) (R : Pos × Path),
    keyOf T p P (t.map (·, none)) = some R → R.1 = P ∧ T (p ++ t) = some R.2 := by
  induction t with
  | nil => intro p P R h; simp [keyOf] at h
  | cons n t ih =>
    intro p P R h
    cases t with
    | nil =>
      simp only [List.map_cons, List.map_nil] at h
      rw [keyOf_last] at h
      obtain ⟨r, hr, h⟩ := Option.map_eq_some_iff.1 h
      subst h
      exact ⟨rfl, hr⟩
    | cons k t =>
      simp only [List.map_cons] at h
      rw [keyOf] at h
      obtain ⟨r, hr, h⟩ := Option.bind_eq_some_iff.1 h
      have := ih (p ++ [n]) P R (by simpa using h)
      simpa using this

/-- The address of a data node or array of structures ends with a name. -/
theorem isNode_last {m : MFields} {a : Addr} (h : IsNode m a) : ∃ b n, a = b ++ [(n, none)] := by
  obtain ⟨x, hx, hs⟩ := h
  induction a generalizing m with
  | nil => simp [atMeta] at hx; exact absurd hx.symm (hs m)
  | cons s a ih =>
    obtain ⟨n, i⟩ := s
    rw [atMeta_cons] at hx
    cases hc : mchild m n with
    | none => simp [hc] at hx
    | some y =>
      rw [hc] at hx
      cases i with
      | some i =>
        cases y with
        | leaf l => simp at hx
        | struct d => simp at hx
        | aos d => obtain ⟨b, k, e⟩ := ih (m := d) hx; exact ⟨(n, some i) :: b, k, by rw [e]; rfl⟩
      | none =>
        cases y with
        | struct d =>
          cases a with
          | nil => simp [atMeta] at hx; exact absurd hx.symm (hs d)
          | cons s a => obtain ⟨b, k, e⟩ := ih (m := d) hx; exact ⟨(n, none) :: b, k, by rw [e]; rfl⟩
        | leaf l =>
          cases a with
          | nil => exact ⟨[], n, rfl⟩
          | cons s a => simp [atMeta] at hx
        | aos l =>
          cases a with
          | nil => exact ⟨[], n, rfl⟩
          | cons s a => simp [atMeta] at hx

/-- Without a version map, a node is stored unless it is time dependent in an IDS without time. -/
theorem pathOf_plain (I : Info V) (mode : Mode) (p : Path) :
    pathOf ⟨I, mode, none⟩ p = if mode = .independent ∧ I.dynamic p = true then none else some (I.ctxPath p) := by
  unfold pathOf target
  by_cases h : mode = .independent ∧ I.dynamic p = true
  · rw [if_pos h, if_pos (by simp [h.1, h.2])]; rfl
  · rw [if_neg h, if_neg (by simpa using h)]; rfl

theorem stored_iff (I : Info V) (mode : Mode) {a : Addr} (h : ∃ b n, a = b ++ [(n, none)]) :
    (keyOf (pathOf ⟨I, mode, none⟩) [] [] a).isSome ↔ ¬ (mode = .independent ∧ TimeDependent I a) := by
  rw [keyOf_isSome _ a [] [] h]
  simp only [List.nil_append, pathOf_plain]
  constructor
  · rintro h ⟨h1, t, h2, h3, h4⟩
    have := h t h2 h3
    simp [h1, h4] at this
  · intro h t ht hp
    rw [if_neg]
    · rfl
    · rintro ⟨h1, h2⟩
      exact h ⟨h1, t, ht, hp, h2⟩

theorem isNode_of_filled {f : Fields V} {m : MFields} (ht : TypedF f m) {a : Addr} {y : Node V}
    (h : (Node.struct f).at a = some y) (hf : Filled y) : IsNode m a := by
  obtain ⟨d, h1, h2⟩ := atMeta_of_typed a _ (.struct m) y (by simpa only [Typed] using ht) h
  refine ⟨d, h1, ?_⟩
  rintro k rfl
  cases y <;> simp [Typed, Filled] at h2 hf

end Verif.Al
