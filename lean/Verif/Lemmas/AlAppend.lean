import Verif.Spec.AlAppend
import Verif.Lemmas.AlRound
/-
What put_slice does to the stored data.
-/
namespace Verif.Al
open Verif.Ids Verif.AlSpec Verif.TreeSpec Verif.DiffSpec Verif.ConvertSpec
open Verif.Convert (names)

set_option linter.unusedSectionVars false
variable {V : Type} [Value V] (B : Backend V) (db : Ctx)

section
variable (E : Env V)

mutual
/-- What put_slice does to the stored data. -/
def addNode (p : Path) (P : Pos) : Node V → Store V → Store V
  | .leaf _ v, S =>
    match target E p with
    | none => S
    | some (q, tb) =>
      if !E.info.dynamic p then S
      else
        match v with
        | none => S
        | some v => B.appendData S P q tb v
  | .struct f, S =>
    match target E p with
    | none => S
    | some _ => addFields p P f S
  | .aos _ e, S =>
    match target E p with
    | none => S
    | some (q, tb) => addElems p P q 0 e (B.appendSize S P q tb e.length)
def addFields (p : Path) (P : Pos) : Fields V → Store V → Store V
  | .nil, S => S
  | .absent _ _ r, S => addFields p P r S
  | .present n x r, S => addFields p P r (if x.hasValue then addNode (p ++ [n]) P x S else S)
def addElems (p : Path) (P : Pos) (q : Path) (i : Nat) : Elems V → Store V → Store V
  | .nil, S => S
  | .cons f r, S => addElems p P q (i + 1) r (addFields p (P ++ [(q, i)]) f S)
end

/-- The low level is appending to an occurrence, and `c` is the newest context. -/
structure Adding (occ : Text) (c : Ctx) (d : Disk V) : Prop where
  top : isTop c d.stack = true
  act : ∃ k, actOf d.stack = some (.slice occ true k)

theorem adding_of {occ : Text} {c : Ctx} {d d' : Disk V} (h : Adding occ c d) (hs : d'.stack = d.stack) :
    Adding occ c d' := ⟨by rw [hs]; exact h.1, by rw [hs]; exact h.2⟩

theorem write_add {occ : Text} {s : St (Disk V) V} {c : Ctx} (h : Adding occ c s.ll) (q : Path) (tb : Text)
    (v : V) : Stores occ (llWrite (disk B db) c q tb v) s ()
      (B.appendData (s.ll.stores occ) (posOf s.ll.stack) q tb v) := by
  obtain ⟨k, hk⟩ := h.act
  have e : (disk B db).write s.ll c q tb v = (true, { s.ll with
      stores := setStore s.ll.stores occ (B.appendData (s.ll.stores occ) (posOf s.ll.stack) q tb v) }) := by
    simp [disk, diskWrite, hk, h.top, Begin.writes, Begin.occ]
  unfold Stores llWrite
  rw [e]
  exact ⟨_, rfl, rfl, rfl⟩

theorem begin_add {occ : Text} {s : St (Disk V) V} {c : Ctx} (h : Adding occ c s.ll) (q : Path) (tb : Text)
    (n : Nat) :
    ∃ log, llBegin (disk B db) c (.aos q tb n) s =
      (.ok (s.ll.next, n),
       ⟨{ stores := setStore s.ll.stores occ (B.appendSize (s.ll.stores occ) (posOf s.ll.stack) q tb n)
          stack := (s.ll.next, .aos q n 0) :: s.ll.stack, next := s.ll.next + 1 }, log⟩) := by
  obtain ⟨k, hk⟩ := h.act
  refine ⟨s.log ++ [.begin c (.aos q tb n) (some s.ll.next)], ?_⟩
  have e : (disk B db).begin s.ll c (.aos q tb n) =
      (some (s.ll.next, n),
       { stores := setStore s.ll.stores occ (B.appendSize (s.ll.stores occ) (posOf s.ll.stack) q tb n)
         stack := (s.ll.next, .aos q n 0) :: s.ll.stack, next := s.ll.next + 1 }) := by
    simp [disk, diskBegin, hk, h.top, Begin.writes, Begin.occ]
  unfold llBegin
  rw [e]

variable (verify : Bool)

mutual
theorem addNode_spec (occ : Text) (p : Path) (c : Ctx) (x : Node V) {s : St (Disk V) V} (h : Adding occ c s.ll)
    (hf : verify = true → WithinMax E.info p x) :
    Stores occ (putNode (disk B db) E true verify p c x) s ()
      (addNode B E p (posOf s.ll.stack) x (s.ll.stores occ)) := by
  cases x with
  | leaf l v =>
    unfold putNode addNode
    cases ht : target E p with
    | none => exact stores_ret occ s _
    | some t =>
      obtain ⟨q, tb⟩ := t
      simp only [Bool.true_and]
      split
      · exact stores_ret occ s _
      · cases v with
        | none => exact stores_ret occ s _
        | some v => exact write_add B db h q tb v
  | struct f =>
    unfold putNode addNode
    cases ht : target E p with
    | none => exact stores_ret occ s _
    | some t => exact addFields_spec occ p c f h (fun hv => by have := hf hv; simpa [WithinMax] using this)
  | aos m e =>
    unfold putNode addNode
    cases ht : target E p with
    | none => exact stores_ret occ s _
    | some t =>
      obtain ⟨q, tb⟩ := t
      simp only
      rw [if_neg]
      · obtain ⟨log, eb⟩ := begin_add B db h q tb e.length
        have he := addElems_spec occ p s.ll.next q e.length s.ll.stack e 0
          (s := ⟨{ stores := setStore s.ll.stores occ (B.appendSize (s.ll.stores occ) (posOf s.ll.stack) q tb e.length)
                   stack := (s.ll.next, .aos q e.length 0) :: s.ll.stack, next := s.ll.next + 1 }, log⟩) rfl
          h.act (fun hv => by have := hf hv; simp only [WithinMax] at this; exact this.2)
        obtain ⟨s', i, h1, h2, h3⟩ := he
        unfold Stores
        rw [withAction_ok eb, h1]
        obtain ⟨f1, f2⟩ := finish_spec B db h3
        refine ⟨_, rfl, ?_, f2⟩
        rw [f1, h2, setStore_set]
        simp only [setStore_get]
      · intro hc
        simp only [Bool.and_eq_true, decide_eq_true_eq] at hc
        have := (hf hc.1.1)
        simp only [WithinMax] at this
        omega
theorem addFields_spec (occ : Text) (p : Path) (c : Ctx) (f : Fields V) {s : St (Disk V) V}
    (h : Adding occ c s.ll) (hf : verify = true → WithinMaxF E.info p f) :
    Stores occ (putFields (disk B db) E true verify p c f) s ()
      (addFields B E p (posOf s.ll.stack) f (s.ll.stores occ)) := by
  cases f with
  | nil => unfold putFields addFields; exact stores_ret occ s _
  | absent n m r =>
    unfold putFields addFields
    exact addFields_spec occ p c r h (fun hv => by have := hf hv; simpa [WithinMaxF] using this)
  | present n x r =>
    unfold putFields addFields
    split
    · refine stores_andThen (addNode_spec occ (p ++ [n]) c x h
        (fun hv => by have := hf hv; simp only [WithinMaxF] at this; exact this.1)) fun s' h1 h2 => ?_
      have := addFields_spec occ p c r (adding_of h h2)
        (fun hv => by have := hf hv; simp only [WithinMaxF] at this; exact this.2)
      rwa [h1, h2] at this
    · exact addFields_spec occ p c r h (fun hv => by have := hf hv; simp only [WithinMaxF] at this; exact this.2)
theorem addElems_spec (occ : Text) (p : Path) (c : Ctx) (q : Path) (n : Nat) (st : List (Ctx × Frame))
    (e : Elems V) (i : Nat) {s : St (Disk V) V} (h : s.ll.stack = (c, .aos q n i) :: st)
    (ha : ∃ k, actOf st = some (.slice occ true k)) (hf : verify = true → WithinMaxE E.info p e) :
    ∃ s' j, putElems (disk B db) E true verify p c e s = (.ok (), s') ∧
      s'.ll.stores = setStore s.ll.stores occ (addElems B E p (posOf st) q i e (s.ll.stores occ)) ∧
      s'.ll.stack = (c, .aos q n j) :: st := by
  cases e with
  | nil => unfold putElems addElems; exact ⟨s, i, rfl, (setStore_same _ _).symm, h⟩
  | cons f r =>
    unfold putElems addElems
    have hp : Adding occ c s.ll := ⟨by rw [h]; simp [isTop], by rw [h]; exact ha⟩
    obtain ⟨s1, a1, a2, a3⟩ := addFields_spec occ p c f hp
      (fun hv => by have := hf hv; simp only [WithinMaxE] at this; exact this.1)
    rw [h] at a3
    obtain ⟨s2, b1, b2, b3⟩ := iterate_spec B db a3
    obtain ⟨s3, j, c1, c2, c3⟩ := addElems_spec occ p c q n st r (i + 1) b3 ha
      (fun hv => by have := hf hv; simp only [WithinMaxE] at this; exact this.2)
    refine ⟨s3, j, by rw [andThen_ok a1, andThen_ok b1, c1], ?_, c3⟩
    rw [c2, b2, a2, setStore_set, setStore_get, h]
    rfl
end

end

/-! ### The data that is appended -/

section
variable (E : Env V)

/-- Time-dependent data to be appended at this key. -/
def Asked (p : Path) (P : Pos) (f : Fields V) (Q : Pos) (q : Path) (w : V) : Prop :=
  ∃ a, ValueAt (.struct f) a w ∧ E.info.dynamic (p ++ names a) = true ∧ keyOf (pathOf E) p P a = some (Q, q)

theorem valueAt_cons {f : Fields V} {a : Addr} {w : V} (h : ValueAt (.struct f) a w) :
    ∃ n i b, a = (n, i) :: b := by
  obtain ⟨l, h, -⟩ := h
  cases a with
  | nil => simp [Node.at] at h
  | cons s b => exact ⟨s.1, s.2, b, rfl⟩

theorem at_head {k : Name} {x : Node V} {r : Fields V} {i : Option Nat} {a : Addr} :
    (Node.struct (.present k x r)).at ((k, i) :: a) = (Node.struct (.present k x .nil)).at ((k, i) :: a) := by
  simp only [Node.at, Node.item, Fields.get?, if_pos]

theorem at_tail {k : Name} {x : Node V} {r : Fields V} {n : Name} (hn : n ≠ k) {i : Option Nat} {a : Addr} :
    (Node.struct (.present k x r)).at ((n, i) :: a) = (Node.struct r).at ((n, i) :: a) := by
  simp only [Node.at, Node.item, Fields.get?, if_neg hn]

theorem at_absent {k : Name} {m : Meta} {r : Fields V} {n : Name} (hn : n ≠ k) {i : Option Nat} {a : Addr} :
    (Node.struct (.absent k m r)).at ((n, i) :: a) = (Node.struct r).at ((n, i) :: a) := by
  simp only [Node.at, Node.item, Fields.get?, if_neg hn]

theorem at_single {k n : Name} {x : Node V} {i : Option Nat} {a : Addr} {y : Node V}
    (h : (Node.struct (.present k x .nil)).at ((n, i) :: a) = some y) : n = k := by
  by_cases e : n = k
  · exact e
  · simp [Node.at, Node.item, Fields.get?, if_neg e] at h

theorem at_name {r : Fields V} {n : Name} {i : Option Nat} {a : Addr} {y : Node V}
    (h : (Node.struct r).at ((n, i) :: a) = some y) : n ∈ r.names := by
  rw [atF_cons] at h
  cases hg : r.get? n with
  | none => simp [Node.item, hg] at h
  | some z => exact get?_mem_names hg

theorem at_struct {k : Name} {f : Fields V} {a : Addr} :
    (Node.struct (.present k (.struct f) .nil)).at ((k, none) :: a) = (Node.struct f).at a := by
  rw [atF_cons]
  simp only [Node.item, Fields.get?, if_pos, Option.bind_some]

theorem at_elem {k : Name} {m : MFields} {e : Elems V} {j : Nat} {c : Fields V} (hc : e.get? j = some c)
    {a : Addr} :
    (Node.struct (.present k (.aos m e) .nil)).at ((k, some j) :: a) = (Node.struct c).at a := by
  rw [atF_cons]
  simp only [Node.item, Fields.get?, if_pos, hc, Option.map_some, Option.bind_some]

theorem absent_filled {k : Name} {m : Meta} {r : Fields V} {n : Name} {i : Option Nat} {a : Addr} {y : Node V}
    (h : (Node.struct (.absent k m r)).at ((n, i) :: a) = some y) (hy : Filled y) : n ≠ k := by
  rintro rfl
  have : (Node.struct (.present n (m.fresh : Node V) .nil)).at ((n, i) :: a) = some y := by
    simp only [Node.at, Node.item, Fields.get?, if_pos] at h ⊢
    exact h
  exact fresh_at (by simp [Node.hasValue, Fields.hasValue, fresh_hasValue]) this hy

theorem asked_absent {p : Path} {P : Pos} {k : Name} {m : Meta} {r : Fields V} (hk : k ∉ r.names) {Q : Pos}
    {q : Path} {w : V} : Asked E p P (.absent k m r) Q q w ↔ Asked E p P r Q q w := by
  constructor
  · rintro ⟨a, hv, hd, hq⟩
    obtain ⟨n, i, b, rfl⟩ := valueAt_cons hv
    obtain ⟨y, hy, hf⟩ := valueAt_filled hv
    obtain ⟨l, h, he⟩ := hv
    rw [at_absent (absent_filled hy hf)] at h
    exact ⟨_, ⟨l, h, he⟩, hd, hq⟩
  · rintro ⟨a, hv, hd, hq⟩
    obtain ⟨n, i, b, rfl⟩ := valueAt_cons hv
    obtain ⟨l, h, he⟩ := hv
    refine ⟨_, ⟨l, ?_, he⟩, hd, hq⟩
    rw [at_absent (n := n) (k := k) (by rintro rfl; exact hk (at_name h))]
    exact h

theorem asked_present {p : Path} {P : Pos} {k : Name} {x : Node V} {r : Fields V} (hk : k ∉ r.names) {Q : Pos}
    {q : Path} {w : V} :
    Asked E p P (.present k x r) Q q w ↔ Asked E p P (.present k x .nil) Q q w ∨ Asked E p P r Q q w := by
  constructor
  · rintro ⟨a, hv, hd, hq⟩
    obtain ⟨n, i, b, rfl⟩ := valueAt_cons hv
    obtain ⟨l, h, he⟩ := hv
    rcases at_present h with ⟨-, h⟩ | ⟨-, h⟩
    · exact .inl ⟨_, ⟨l, h, he⟩, hd, hq⟩
    · exact .inr ⟨_, ⟨l, h, he⟩, hd, hq⟩
  · rintro (⟨a, hv, hd, hq⟩ | ⟨a, hv, hd, hq⟩)
    · obtain ⟨n, i, b, rfl⟩ := valueAt_cons hv
      obtain ⟨l, h, he⟩ := hv
      refine ⟨_, ⟨l, ?_, he⟩, hd, hq⟩
      obtain rfl := at_single h
      rw [at_head]; exact h
    · obtain ⟨n, i, b, rfl⟩ := valueAt_cons hv
      obtain ⟨l, h, he⟩ := hv
      refine ⟨_, ⟨l, ?_, he⟩, hd, hq⟩
      rw [at_tail (n := n) (k := k) (by rintro rfl; exact hk (at_name h))]
      exact h

theorem key_none {p : Path} {P : Pos} {k : Name} {i : Option Nat} {a : Addr} (h : pathOf E (p ++ [k]) = none) :
    keyOf (pathOf E) p P ((k, i) :: a) = none := by
  cases i with
  | some i => simp [keyOf, h]
  | none => cases a <;> simp [keyOf, h]

theorem asked_skipped {p : Path} {P : Pos} {k : Name} {x : Node V} (h : pathOf E (p ++ [k]) = none) {Q : Pos}
    {q : Path} {w : V} : ¬ Asked E p P (.present k x .nil) Q q w := by
  rintro ⟨a, hv, hd, hq⟩
  obtain ⟨n, i, b, rfl⟩ := valueAt_cons hv
  obtain ⟨l, g, he⟩ := hv
  obtain rfl := at_single g
  rw [key_none E h] at hq
  cases hq

theorem asked_leaf {p : Path} {P : Pos} {k : Name} {l : LeafMeta} {v : Option V} {r : Path}
    (h : pathOf E (p ++ [k]) = some r) {Q : Pos} {q : Path} {w : V} :
    Asked E p P (.present k (.leaf l v) .nil) Q q w ↔
      (v = some w ∧ Value.isEmpty w = false) ∧ E.info.dynamic (p ++ [k]) = true ∧ Q = P ∧ q = r := by
  constructor
  · rintro ⟨a, hv, hd, hq⟩
    obtain ⟨n, i, b, rfl⟩ := valueAt_cons hv
    obtain ⟨l', g, he⟩ := hv
    obtain rfl := at_single g
    rw [atF_cons] at g
    cases i with
    | some i => simp [Node.item, Fields.get?] at g
    | none =>
      cases b with
      | cons s b => simp [Node.item, Node.at, Fields.get?] at g
      | nil =>
        simp [Node.item, Node.at, Fields.get?] at g
        simp only [keyOf, h, Option.map_some, Option.some.injEq, Prod.mk.injEq] at hq
        exact ⟨⟨g.2, he⟩, hd, hq.1.symm, hq.2.symm⟩
  · rintro ⟨⟨rfl, he⟩, hd, rfl, rfl⟩
    refine ⟨[(k, none)], ⟨l, by simp only [Node.at, Node.item, Fields.get?, if_pos]; rfl, he⟩, hd, ?_⟩
    simp [keyOf, h]

theorem key_struct {p : Path} {P : Pos} {k : Name} {r : Path} (h : pathOf E (p ++ [k]) = some r) {a : Addr}
    (ha : a ≠ []) : keyOf (pathOf E) p P ((k, none) :: a) = keyOf (pathOf E) (p ++ [k]) P a := by
  cases a with
  | nil => exact absurd rfl ha
  | cons s a => rw [keyOf, h]; rfl

theorem key_elem {p : Path} {P : Pos} {k : Name} {r : Path} (h : pathOf E (p ++ [k]) = some r) {j : Nat} {a : Addr} :
    keyOf (pathOf E) p P ((k, some j) :: a) = keyOf (pathOf E) (p ++ [k]) (P ++ [(r, j)]) a := by
  rw [keyOf, h]; rfl

theorem names_step (p : Path) (k : Name) (i : Option Nat) (a : Addr) :
    p ++ names ((k, i) :: a) = p ++ [k] ++ names a := by simp [names]

theorem asked_struct {p : Path} {P : Pos} {k : Name} {f : Fields V} {r : Path}
    (h : pathOf E (p ++ [k]) = some r) {Q : Pos} {q : Path} {w : V} :
    Asked E p P (.present k (.struct f) .nil) Q q w ↔ Asked E (p ++ [k]) P f Q q w := by
  constructor
  · rintro ⟨a, hv, hd, hq⟩
    obtain ⟨n, i, b, rfl⟩ := valueAt_cons hv
    obtain ⟨l', g, he⟩ := hv
    obtain rfl := at_single g
    cases i with
    | some i => rw [atF_cons] at g; simp [Node.item, Fields.get?] at g
    | none =>
      rw [at_struct] at g
      obtain ⟨n', i', b', rfl⟩ := valueAt_cons ⟨l', g, he⟩
      rw [key_struct E h (by simp)] at hq
      rw [names_step] at hd
      exact ⟨_, ⟨l', g, he⟩, hd, hq⟩
  · rintro ⟨a, hv, hd, hq⟩
    obtain ⟨n', i', b', rfl⟩ := valueAt_cons hv
    obtain ⟨l', g, he⟩ := hv
    refine ⟨(k, none) :: _, ⟨l', by rw [at_struct]; exact g, he⟩, by rw [names_step]; exact hd, ?_⟩
    rw [key_struct E h (by simp)]
    exact hq

theorem asked_aos {p : Path} {P : Pos} {k : Name} {m : MFields} {e : Elems V} {r : Path}
    (h : pathOf E (p ++ [k]) = some r) {Q : Pos} {q : Path} {w : V} :
    Asked E p P (.present k (.aos m e) .nil) Q q w ↔
      ∃ j c, e.get? j = some c ∧ Asked E (p ++ [k]) (P ++ [(r, j)]) c Q q w := by
  constructor
  · rintro ⟨a, hv, hd, hq⟩
    obtain ⟨n, i, b, rfl⟩ := valueAt_cons hv
    obtain ⟨l', g, he⟩ := hv
    obtain rfl := at_single g
    cases i with
    | none =>
      rw [atF_cons] at g
      cases b <;> simp [Node.item, Fields.get?, Node.at] at g
    | some j =>
      cases hc : e.get? j with
      | none => rw [atF_cons] at g; simp [Node.item, Fields.get?, hc] at g
      | some c =>
        rw [at_elem hc] at g
        rw [key_elem E h] at hq
        rw [names_step] at hd
        exact ⟨j, c, hc, _, ⟨l', g, he⟩, hd, hq⟩
  · rintro ⟨j, c, hc, a, hv, hd, hq⟩
    obtain ⟨l', g, he⟩ := hv
    refine ⟨(k, some j) :: a, ⟨l', by rw [at_elem hc]; exact g, he⟩, by rw [names_step]; exact hd, ?_⟩
    rw [key_elem E h]
    exact hq

/-- What holds of a structure before a slice of it is appended: no two nodes are stored at the same place, and its arrays of
structures have no time base and are stored with as many elements. -/
structure AddFits (S : Store V) (p : Path) (P : Pos) (f : Fields V) : Prop where
  inj : ∀ b c y z R, (Node.struct f).at b = some y → Filled y → (Node.struct f).at c = some z → Filled z →
    keyOf (pathOf E) p P b = some R → keyOf (pathOf E) p P c = some R → b = c
  size : ∀ a k Q q, SizeAt (.struct f) a k → keyOf (pathOf E) p P a = some (Q, q) → S.size Q q = k
  base : ∀ a k q tb, SizeAt (.struct f) a k → target E (p ++ names a) = some (q, tb) → tb = []

/-- A filled node of a part of a structure is a node of the whole. -/
theorem fits_of {S : Store V} {p p' : Path} {P P' : Pos} {f f' : Fields V} (g : Addr → Addr)
    (hg : ∀ a b, g a = g b → a = b)
    (h1 : ∀ a y, (Node.struct f').at a = some y → Filled y → (Node.struct f).at (g a) = some y)
    (h2 : ∀ a y, (Node.struct f').at a = some y → Filled y →
      keyOf (pathOf E) p P (g a) = keyOf (pathOf E) p' P' a ∧ p ++ names (g a) = p' ++ names a)
    (h : AddFits E S p P f) : AddFits E S p' P' f' where
  inj b c y z R hb hy hc hz k1 k2 := by
    refine hg _ _ (h.inj (g b) (g c) y z R (h1 _ _ hb hy) hy (h1 _ _ hc hz) hz ?_ ?_)
    · rw [(h2 _ _ hb hy).1]; exact k1
    · rw [(h2 _ _ hc hz).1]; exact k2
  size a k Q q hs hk := by
    obtain ⟨y, hy, hf⟩ := sizeAt_filled hs
    obtain ⟨m, e, h3, h4⟩ := hs
    refine h.size (g a) k Q q ⟨m, e, h1 _ _ h3 (by rw [h3] at hy; cases hy; exact hf), h4⟩ ?_
    rw [(h2 _ _ hy hf).1]; exact hk
  base a k q tb hs ht := by
    obtain ⟨y, hy, hf⟩ := sizeAt_filled hs
    obtain ⟨m, e, h3, h4⟩ := hs
    refine h.base (g a) k q tb ⟨m, e, h1 _ _ h3 (by rw [h3] at hy; cases hy; exact hf), h4⟩ ?_
    rw [(h2 _ _ hy hf).2]; exact ht

theorem filled_cons {f : Fields V} {a : Addr} {y : Node V} (h : (Node.struct f).at a = some y) (hy : Filled y) :
    ∃ n i b, a = (n, i) :: b := by
  cases a with
  | nil => simp only [Node.at, Option.some.injEq] at h; subst h; simp [Filled] at hy
  | cons s b => exact ⟨s.1, s.2, b, rfl⟩

theorem fits_absent {S : Store V} {p : Path} {P : Pos} {k : Name} {m : Meta} {r : Fields V} (hk : k ∉ r.names)
    (h : AddFits E S p P (.absent k m r)) : AddFits E S p P r := by
  refine fits_of E id (fun _ _ e => e) ?_ (fun _ _ _ _ => ⟨rfl, rfl⟩) h
  intro a y ha hy
  obtain ⟨n, i, b, rfl⟩ := filled_cons ha hy
  rw [id, at_absent (n := n) (k := k) (by rintro rfl; exact hk (at_name ha))]
  exact ha

theorem fits_head {S : Store V} {p : Path} {P : Pos} {k : Name} {x : Node V} {r : Fields V}
    (h : AddFits E S p P (.present k x r)) : AddFits E S p P (.present k x .nil) := by
  refine fits_of E id (fun _ _ e => e) ?_ (fun _ _ _ _ => ⟨rfl, rfl⟩) h
  intro a y ha hy
  obtain ⟨n, i, b, rfl⟩ := filled_cons ha hy
  obtain rfl := at_single ha
  rw [id, at_head]
  exact ha

theorem fits_tail {S : Store V} {p : Path} {P : Pos} {k : Name} {x : Node V} {r : Fields V} (hk : k ∉ r.names)
    (h : AddFits E S p P (.present k x r)) : AddFits E S p P r := by
  refine fits_of E id (fun _ _ e => e) ?_ (fun _ _ _ _ => ⟨rfl, rfl⟩) h
  intro a y ha hy
  obtain ⟨n, i, b, rfl⟩ := filled_cons ha hy
  rw [id, at_tail (n := n) (k := k) (by rintro rfl; exact hk (at_name ha))]
  exact ha

theorem fits_struct {S : Store V} {p : Path} {P : Pos} {k : Name} {f : Fields V} {r : Path}
    (hr : pathOf E (p ++ [k]) = some r) (h : AddFits E S p P (.present k (.struct f) .nil)) :
    AddFits E S (p ++ [k]) P f := by
  refine fits_of E ((k, none) :: ·) (fun _ _ e => (List.cons.inj e).2) ?_ ?_ h
  · intro a y ha _
    rw [at_struct]; exact ha
  · intro a y ha hy
    obtain ⟨n, i, b, rfl⟩ := filled_cons ha hy
    exact ⟨key_struct E hr (by simp), names_step _ _ _ _⟩

theorem fits_elem {S : Store V} {p : Path} {P : Pos} {k : Name} {m : MFields} {e : Elems V} {r : Path}
    (hr : pathOf E (p ++ [k]) = some r) {j : Nat} {c : Fields V} (hc : e.get? j = some c)
    (h : AddFits E S p P (.present k (.aos m e) .nil)) : AddFits E S (p ++ [k]) (P ++ [(r, j)]) c := by
  refine fits_of E ((k, some j) :: ·) (fun _ _ e => (List.cons.inj e).2) ?_ ?_ h
  · intro a y ha _
    rw [at_elem hc]; exact ha
  · intro a y ha hy
    exact ⟨key_elem E hr, names_step _ _ _ _⟩

theorem fits_store {S S' : Store V} (hs : S'.size = S.size) {p : Path} {P : Pos} {f : Fields V}
    (h : AddFits E S p P f) : AddFits E S' p P f :=
  ⟨h.inj, fun a k Q q h1 h2 => by rw [hs]; exact h.size a k Q q h1 h2, h.base⟩

end

/-- Appending exactly this data. -/
structure Adds (add : Option V → V → V) (S S' : Store V) (W : Pos → Path → V → Prop) : Prop where
  size : S'.size = S.size
  same : ∀ Q q, (∀ w, ¬ W Q q w) → S'.data Q q = S.data Q q
  data : ∀ Q q w, W Q q w → S'.data Q q = some (add (S.data Q q) w)

theorem adds_none {add : Option V → V → V} {S : Store V} {W : Pos → Path → V → Prop} (h : ∀ Q q w, ¬ W Q q w) :
    Adds add S S W := ⟨rfl, fun _ _ _ => rfl, fun Q q w hw => absurd hw (h Q q w)⟩

theorem adds_iff {add : Option V → V → V} {S S' : Store V} {W W' : Pos → Path → V → Prop}
    (h : ∀ Q q w, W' Q q w ↔ W Q q w) (ha : Adds add S S' W) : Adds add S S' W' :=
  ⟨ha.size, fun Q q hn => ha.same Q q fun w hw => hn w ((h Q q w).2 hw), fun Q q w hw => ha.data Q q w ((h Q q w).1 hw)⟩

theorem adds_trans {add : Option V → V → V} {S S1 S2 : Store V} {W1 W2 : Pos → Path → V → Prop}
    (h1 : Adds add S S1 W1) (h2 : Adds add S1 S2 W2) (hd : ∀ Q q v w, W1 Q q v → W2 Q q w → False) :
    Adds add S S2 fun Q q w => W1 Q q w ∨ W2 Q q w where
  size := h2.size.trans h1.size
  same Q q hn := by
    rw [h2.same Q q fun w hw => hn w (.inr hw), h1.same Q q fun w hw => hn w (.inl hw)]
  data Q q w hw := by
    rcases hw with hw | hw
    · rw [h2.same Q q fun v hv => hd Q q w v hw hv, h1.data Q q w hw]
    · rw [h2.data Q q w hw, h1.same Q q fun v hv => hd Q q v w hv hw]

section
variable (E : Env V) {add : Option V → V → V} (hB : AppendsLocally B add)
include hB

mutual
theorem addNode_adds (k : Name) (p : Path) (P : Pos) (x : Node V) (hw : WF x) (S : Store V)
    (h : AddFits E S p P (.present k x .nil)) (hv : x.hasValue = true) :
    Adds add S (addNode B E (p ++ [k]) P x S) (Asked E p P (.present k x .nil)) := by
  cases ht : target E (p ++ [k]) with
  | none =>
    have hp : pathOf E (p ++ [k]) = none := by simp [pathOf, ht]
    have : addNode B E (p ++ [k]) P x S = S := by cases x <;> simp [addNode, ht]
    rw [this]
    exact adds_none fun Q q w => asked_skipped E hp
  | some t =>
    obtain ⟨r, tb⟩ := t
    have hp : pathOf E (p ++ [k]) = some r := by simp [pathOf, ht]
    cases x with
    | leaf l v =>
      refine adds_iff (fun Q q w => asked_leaf E hp) ?_
      unfold addNode
      simp only [ht]
      cases hd : E.info.dynamic (p ++ [k]) with
      | false => exact adds_none fun Q q w hw => by simp at hw
      | true =>
        cases v with
        | none => exact adds_none fun Q q w hw => by simp at hw
        | some v =>
          have hne : Value.isEmpty v = false := by simpa [Node.hasValue, leafHasValue] using hv
          simp only [Bool.not_true, Bool.false_eq_true, if_false]
          rw [hB.data]
          refine ⟨rfl, fun Q q hn => ?_, fun Q q w hw => ?_⟩
          · simp only [Store.setData]
            rw [if_neg]
            rintro ⟨rfl, rfl⟩
            exact hn v ⟨⟨rfl, hne⟩, by simp⟩
          · obtain ⟨⟨h1, -⟩, -, rfl, rfl⟩ := hw
            cases h1
            simp [Store.setData]
    | struct f =>
      refine adds_iff (fun Q q w => asked_struct E hp) ?_
      unfold addNode
      simp only [ht]
      exact addFields_adds (p ++ [k]) P f (by simpa [WF] using hw) S (fits_struct E hp h)
    | aos m e =>
      refine adds_iff (fun Q q w => asked_aos E hp) ?_
      unfold addNode
      simp only [ht]
      have hs : SizeAt (.struct (.present k (.aos m e) .nil)) [(k, none)] e.length := by
        refine ⟨m, e, by simp only [Node.at, Node.item, Fields.get?, if_pos]; rfl, rfl, ?_⟩
        simp [Node.hasValue] at hv
        omega
      have h1 : tb = [] := h.base _ _ r tb hs (by simpa [names] using ht)
      have h2 : S.size P r = e.length := h.size _ _ P r hs (by simp [keyOf, hp])
      rw [h1, ← h2, hB.size]
      refine adds_iff (fun Q q w => ?_) (addElems_adds (p ++ [k]) P r 0 e (by simp only [WF] at hw; exact hw.2) S
        (fun j c hc => by simpa using fits_elem E hp hc h) ?_)
      · simp
      · intro i j c d Q q v w hc hd hne hv' hw'
        obtain ⟨a, g1, -, g2⟩ := hv'
        obtain ⟨b, g3, -, g4⟩ := hw'
        obtain ⟨y, hy, hyf⟩ := valueAt_filled g1
        obtain ⟨z, hz, hzf⟩ := valueAt_filled g3
        have := h.inj ((k, some i) :: a) ((k, some j) :: b) y z (Q, q) (by rw [at_elem hc]; exact hy) hyf
          (by rw [at_elem hd]; exact hz) hzf (by rw [key_elem E hp]; simpa using g2)
          (by rw [key_elem E hp]; simpa using g4)
        simp only [List.cons.injEq, Prod.mk.injEq, Option.some.injEq] at this
        exact hne this.1.2
theorem addFields_adds (p : Path) (P : Pos) (f : Fields V) (hw : WFFields f) (S : Store V)
    (h : AddFits E S p P f) : Adds add S (addFields B E p P f S) (Asked E p P f) := by
  cases f with
  | nil =>
    refine adds_none fun Q q w => ?_
    rintro ⟨a, hv, -⟩
    obtain ⟨n, i, b, rfl⟩ := valueAt_cons hv
    obtain ⟨l, g, -⟩ := hv
    simp [Node.at, Node.item, Fields.get?] at g
  | absent k m r =>
    simp only [WFFields] at hw
    unfold addFields
    exact adds_iff (fun Q q w => asked_absent E hw.1) (addFields_adds p P r hw.2.2 S (fits_absent E hw.1 h))
  | present k x r =>
    simp only [WFFields] at hw
    unfold addFields
    refine adds_iff (fun Q q w => asked_present E hw.1) ?_
    have h1 : Adds add S (if x.hasValue then addNode B E (p ++ [k]) P x S else S)
        (Asked E p P (.present k x .nil)) := by
      split
      · next hv => exact addNode_adds k p P x hw.2.1 S (fits_head E h) hv
      · next hv =>
        refine adds_none fun Q q w => ?_
        rintro ⟨a, g, -⟩
        obtain ⟨y, hy, hyf⟩ := valueAt_filled g
        have := hasValue_of_filled _ _ _ hy hyf
        exact hv (by simpa [Node.hasValue, Fields.hasValue] using this)
    refine adds_trans h1 (addFields_adds p P r hw.2.2 _ (fits_store E h1.size (fits_tail E hw.1 h))) ?_
    rintro Q q v w ⟨a, g1, -, g2⟩ ⟨b, g3, -, g4⟩
    obtain ⟨y, hy, hyf⟩ := valueAt_filled g1
    obtain ⟨z, hz, hzf⟩ := valueAt_filled g3
    obtain ⟨n, i, a, rfl⟩ := filled_cons hy hyf
    obtain ⟨n', i', b, rfl⟩ := filled_cons hz hzf
    obtain rfl := at_single hy
    have hne : n' ≠ n := fun e => hw.1 (e ▸ at_name hz)
    have := h.inj _ _ y z (Q, q) (by rw [at_head]; exact hy) hyf (by rw [at_tail hne]; exact hz) hzf g2 g4
    simp only [List.cons.injEq, Prod.mk.injEq] at this
    exact hne this.1.1.symm
theorem addElems_adds (p : Path) (P : Pos) (r : Path) (i : Nat) (e : Elems V) (hw : WFElems e) (S : Store V)
    (h : ∀ j c, e.get? j = some c → AddFits E S p (P ++ [(r, i + j)]) c)
    (hd : ∀ j k c d Q q v w, e.get? j = some c → e.get? k = some d → j ≠ k →
      Asked E p (P ++ [(r, i + j)]) c Q q v → Asked E p (P ++ [(r, i + k)]) d Q q w → False) :
    Adds add S (addElems B E p P r i e S)
      (fun Q q w => ∃ j c, e.get? j = some c ∧ Asked E p (P ++ [(r, i + j)]) c Q q w) := by
  cases e with
  | nil => exact adds_none fun Q q w => by simp [Elems.get?]
  | cons f e =>
    simp only [WFElems] at hw
    unfold addElems
    have h1 := addFields_adds p (P ++ [(r, i)]) f hw.1 S (by simpa using h 0 f rfl)
    have h2 := addElems_adds p P r (i + 1) e hw.2 (addFields B E p (P ++ [(r, i)]) f S)
      (fun j c hc => fits_store E h1.size (by
        have := h (j + 1) c hc
        rwa [show i + (j + 1) = i + 1 + j by omega] at this))
      (fun j k c d Q q v w hc hd' hne g1 g2 => hd (j + 1) (k + 1) c d Q q v w hc hd' (by omega)
        (by rw [show i + (j + 1) = i + 1 + j by omega]; exact g1)
        (by rw [show i + (k + 1) = i + 1 + k by omega]; exact g2))
    refine adds_iff (fun Q q w => ?_) (adds_trans h1 h2 ?_)
    · constructor
      · rintro ⟨j, c, hc, g⟩
        cases j with
        | zero => simp only [Elems.get?, Option.some.injEq] at hc; subst hc; exact .inl (by simpa using g)
        | succ j => exact .inr ⟨j, c, hc, by rw [show i + 1 + j = i + (j + 1) by omega]; exact g⟩
      · rintro (g | ⟨j, c, hc, g⟩)
        · exact ⟨0, f, rfl, by simpa using g⟩
        · exact ⟨j + 1, c, hc, by rw [show i + (j + 1) = i + 1 + j by omega]; exact g⟩
    · rintro Q q v w g ⟨j, c, hc, g'⟩
      exact hd 0 (j + 1) f c Q q v w rfl hc (by omega) (by simpa using g)
        (by rw [show i + (j + 1) = i + 1 + j by omega]; exact g')
end
end

/-- put_slice to an occurrence with the same time mode. -/
theorem alPutSlice_spec (C : Conf V) (I J : Info V) (nbc : Option Nbc) (mode : Mode) (m : MFields) (f : Fields V)
    {s : St (Disk V) V} (hs : s.ll.stack = [])
    (hm : C.modeOf ((s.ll.stores C.occ).data [] C.timePath) = mode) (hu : mode ≠ .unknown)
    (hf : C.mdsplus = true → WithinMaxF I [] f) :
    Stores C.occ (alPut (disk B db) C I J nbc db mode m true f) s ()
      (addFields B ⟨I, mode, nbc⟩ [] [] f (s.ll.stores C.occ)) := by
  obtain ⟨s1, h1, h2, h3⟩ := readMode_spec B db C false hs
  rw [hm] at h1
  obtain ⟨log, e⟩ := begin_top B db (h3.trans hs) (b := .slice C.occ true 0) rfl
  have := addFields_spec B db ⟨I, mode, nbc⟩ C.mdsplus C.occ [] s1.ll.next f
    (s := ⟨{ s1.ll with stack := [(s1.ll.next, .act (.slice C.occ true 0))], next := s1.ll.next + 1 }, log⟩)
    ⟨by simp [isTop], ⟨0, rfl⟩⟩ hf
  obtain ⟨s2, g1, g2, g3⟩ := this
  unfold Stores
  rw [alPut_slice_same (disk B db) C I J nbc db mode m f h1 hu, withAction_ok e, g1]
  obtain ⟨f1, f2⟩ := finish_spec B db g3
  refine ⟨_, rfl, ?_, f2.trans hs.symm⟩
  rw [f1, g2]
  show setStore s1.ll.stores C.occ (addFields B ⟨I, mode, nbc⟩ [] [] f (s1.ll.stores C.occ)) = _
  rw [h2]

end Verif.Al
