import Verif.Lemmas.HeapLazyRead
import Verif.Props.Heap
import Verif.Model.Entry
import Verif.Model.Serialize
/-
C15: lazy-loaded data is read only.

The operations that look whether a node belongs to a lazy-loaded IDS refuse to change it. Some operations
do not look (`Checked` excludes them, the theorems with `_limit` show what they do), so that the
theorems about histories are about programs without those.
-/
namespace Verif.Props
open Verif.Ids Verif.Heap Verif.HeapSpec

section
variable {V B W C : Type} {E : Env V B W C} {h h' : Heap V B W C} {env : List Ref} {r : Ref} {m : MFields} {x : C}

theorem lazyIds_inv (hl : LazyIds E m x r h env) : Inv E h ∧ (∀ r ∈ env, r < h.next) ∧
    ∃ q d p t, h.get r = some (.struct q m d p t true (some x)) := by
  obtain ⟨h0, env0, acts, hp, rfl, hc, he⟩ := hl
  obtain ⟨inv0, henv0⟩ := possible_inv hp
  obtain ⟨st, inv1⟩ := newLazyIds_keep inv0 m x
  have hr : (newLazyIds h0 m x).1.get (newLazyIds h0 m x).2 = some (.struct [] m (fun _ => none) h0.next true true (some x)) :=
    alloc_get ..
  obtain ⟨st2, inv2, henv2⟩ := exec1_keep inv1 (env := env0 ++ [(newLazyIds h0 m x).2]) (by
    intro r hr
    rcases List.mem_append.1 hr with hr | hr
    · exact Nat.lt_of_lt_of_le (henv0 r hr) st.next
    · rw [List.mem_singleton] at hr; subst hr; exact Nat.lt_succ_self _) acts hc
  rw [he] at st2 inv2 henv2
  obtain ⟨x', hx', d', p', rfl⟩ := st2.keeps _ _ hr
  exact ⟨inv2, henv2, _, _, _, _, hx'⟩

/-- **C15.** Whatever a program reads, tries to modify, copies and creates (with the operations that check
whether nodes are lazy-loaded), in whatever order: every value read from a lazy-loaded IDS is the one in
the file. -/
theorem C15_unchanged (hl : LazyIds E m x r h env) (path : List (Name × Option Nat)) {v : V}
    (hv : content E m (some x) path = some v) :
    ∃ h' a, readPath E h r path = (h', .ok [a]) ∧ h'.val E.mem a = some v := by
  obtain ⟨inv, _, q, d, p, t, hx⟩ := lazyIds_inv hl
  exact read_content inv hx path hv

/-- **C15.** The same for a data node that a program has got from a lazy-loaded IDS: its value stays what
it was. -/
theorem C15_node_unchanged (hl : LazyIds E m x r h env) {path : List (Name × Option Nat)} {c a : Ref} {h1 : Heap V B W C}
    {v : V} (hw : walk E h r path = (h1, .ok [c])) (hg : getValue E h1 c = (h', .ok [a])) (hv : h'.val E.mem a = some v)
    (env' : List Ref) (henv' : ∀ r ∈ env', r < h'.next) (acts : List (Act V B W C)) (hc : AllChecked E h' env' acts) :
    ∃ h3 b, getValue E (exec1 E h' env' acts).1 c = (h3, .ok [b]) ∧ h3.val E.mem b = some v := by
  obtain ⟨inv, _, q, d, p, t, hx⟩ := lazyIds_inv hl
  have k1 := walk_keep (E := E) inv (get_lt inv.sound hx) path
  rw [hw] at k1
  have k2 := getValue_keep (E := E) k1.2 c
  rw [hg] at k2
  obtain ⟨st, inv3, _⟩ := exec1_keep k2.2 henv' acts hc
  have fnd := walk_found inv hx path hw
  rcases fnd with ⟨l, w, p', hcx, hz⟩ | ⟨_, _, _, _, _, _, hcx⟩ | ⟨_, _, _, _, _, hcx⟩
  · -- what the node shows after reading
    have hcx1 : ∃ w', h'.get c = some (.leaf l w' p') ∧ shown E h' l w' = some v := by
      have hg' := hg
      unfold getValue at hg'
      rw [hcx] at hg'
      cases w with
      | some b =>
        simp only [Prod.mk.injEq, Except.ok.injEq, List.cons.injEq, and_true] at hg'
        obtain ⟨rfl, rfl⟩ := hg'
        exact ⟨some b, hcx, hv⟩
      | none =>
        obtain ⟨n1, n2, n3, n4, n5⟩ := newValue_new (C := C) E.mem k1.2.sound.above l (E.default l)
        have hlt := get_lt k1.2.sound hcx
        simp only at hg'
        split at hg'
        · simp only [Prod.mk.injEq, Except.ok.injEq, List.cons.injEq, and_true] at hg'
          obtain ⟨rfl, rfl⟩ := hg'
          rw [n3] at hv
          exact ⟨none, (n2 c hlt).trans hcx, hv⟩
        · simp only [Prod.mk.injEq, Except.ok.injEq, List.cons.injEq, and_true] at hg'
          obtain ⟨rfl, rfl⟩ := hg'
          exact ⟨_, set_get .., hv⟩
    obtain ⟨w', hcx', hs⟩ := hcx1
    have hz' : h'.isLazy p' = true := by
      rw [k2.1.isLazy (parent_lt k1.2.sound hcx rfl)]; exact hz
    obtain ⟨x', hx', v3, p3, rfl, hk⟩ := st.keeps c _ hcx'
    exact getValue_shown inv3.sound hx' ((hk hz').2 v hs)
  · exfalso
    unfold getValue at hg
    rw [hcx] at hg; cases hg
  · exfalso
    unfold getValue at hg
    rw [hcx] at hg; cases hg

/-- **C15.** Everything found in a lazy-loaded IDS refuses to be modified, without an effect:
assigning the value of a data node; replacing elements of, appending to and resizing an array of
structures. Structures cannot be copied. -/
theorem C15_refused (hl : LazyIds E m x r h env) {path : List (Name × Option Nat)} {c : Ref}
    (hw : walk E h r path = (h', .ok [c])) (s : Ref) (i n : Nat) (keep : Bool) :
    ((∃ l v p, h'.get c = some (.leaf l v p)) ∧ Heap.setValue E h' c s = (h', .error .readOnly)) ∨
    ((∃ q m v p z x, h'.get c = some (.aos q m v p z x)) ∧ setItem h' c i s = (h', .error .readOnly) ∧
      append h' c s = (h', .error .readOnly) ∧ resize h' c n keep = (h', .error .readOnly)) ∨
    ((∃ q m d p t z x, h'.get c = some (.struct q m d p t z x)) ∧
      deepcopyOp E.mem h' (n + 1) c = (h', .error .notImplemented)) := by
  obtain ⟨inv, _, q, d, p, t, hx⟩ := lazyIds_inv hl
  rcases walk_found inv hx path hw with ⟨l, v, p', hcx, hz⟩ | ⟨q', m', d', p', t', x', hcx⟩ | ⟨q', m', i', p', x', hcx⟩
  · refine .inl ⟨⟨_, _, _, hcx⟩, ?_⟩
    unfold Heap.setValue
    rw [hcx]
    simp only [hz, if_true]
  · refine .inr (.inr ⟨⟨_, _, _, _, _, _, _, hcx⟩, ?_⟩)
    unfold deepcopyOp deepcopy
    simp only [List.lookup_nil, hcx, if_true]
  · refine .inr (.inl ⟨⟨_, _, _, _, _, _, hcx⟩, ?_, ?_, ?_⟩)
    · unfold setItem; rw [hcx]; rfl
    · unfold append; rw [hcx]; rfl
    · unfold resize; rw [hcx]; rfl

/-- **C15.** Assigning to an attribute of a structure found in a lazy-loaded IDS that is a data node is
refused; it is only loaded. -/
theorem C15_attribute_refused (hl : LazyIds E m x r h env) {path : List (Name × Option Nat)} {c : Ref}
    (hw : walk E h r path = (h', .ok [c])) {q' m' d' p' t' z' x'} (hcx : h'.get c = some (.struct q' m' d' p' t' z' x'))
    {n : Name} {l : LeafMeta} (hm : lookupMeta m' n = some (.leaf l)) {w : V} (hf : fileLeaf E x' n l = some w) (s : Ref) :
    (setAttr E h' c n s).2 = .error .readOnly ∧ (setAttr E h' c n s).1 = (getAttr E h' c n).1 := by
  obtain ⟨inv, _, q, d, p, t, hx⟩ := lazyIds_inv hl
  have k := walk_keep (E := E) inv (get_lt inv.sound hx) path
  rw [hw] at k
  rcases walk_found inv hx path hw with ⟨_, _, _, h1, _⟩ | ⟨_, _, _, _, _, _, h1⟩ | ⟨_, _, _, _, _, h1⟩
  · rw [hcx] at h1; cases h1
  · rw [hcx] at h1; cases h1
    exact setAttr_refused k.2 hcx hm ⟨w, hf⟩ s
  · rw [hcx] at h1; cases h1

/-- **C15.** `ids["a/b"] = s` for a data node is refused; the nodes on the way are only loaded. -/
theorem C15_path_refused (hl : LazyIds E m x r h env) {path : List (Name × Option Nat)} {c : Ref} {l v p}
    (hw : walk E h r path = (h', .ok [c])) (hcx : h'.get c = some (.leaf l v p)) (s : Ref) :
    setPath E h r path s = (h', .error .readOnly) := by
  rcases C15_refused (n := 0) hl hw s 0 true with ⟨_, h1⟩ | ⟨⟨_, _, _, _, _, _, h1⟩, _⟩ | ⟨⟨_, _, _, _, _, _, _, h1⟩, _⟩
  · unfold setPath
    rw [hw]
    simp only [hcx]
    exact h1
  · rw [hcx] at h1; cases h1
  · rw [hcx] at h1; cases h1

end

/-- **C15.** `put` and `put_slice` refuse lazy-loaded IDSs, and nothing changes. -/
theorem C15_put_refused (w : Entry.World) (dis : Option Entry.Text) (e : Entry.Entry) (d : Entry.Doc) (occ : Int) (slice : Bool)
    (hd : d.isLazy = true) : ∃ x, Entry.put w dis e d occ slice = (e, d, .error x) := by
  unfold Entry.put
  cases e.impl with
  | none => exact ⟨_, rfl⟩
  | some h => simp only [hd, if_true]; exact ⟨_, rfl⟩

/-- **C15.** Serializing puts the IDS in a new entry, and fails if that fails. -/
theorem C15_serialize_refused {D : Type} (w : Serialize.World D) (d : D) (hput : ∀ f, ∃ f' e, w.put d f = (f', .error e))
    (hflex : ∃ e, w.flexWrite d = .error e) (protocol : Option Nat) :
    ∃ e, (Serialize.serialize w protocol d).2 = .error e := by
  unfold Serialize.serialize
  simp only
  split
  · exact ⟨_, rfl⟩
  · split
    · unfold Serialize.serializeAscii
      split
      · exact ⟨_, rfl⟩
      · next f _ _ =>
        obtain ⟨f', e, he⟩ := hput f
        rw [he]
        exact ⟨e, rfl⟩
    · split
      · obtain ⟨e, he⟩ := hflex
        exact ⟨e, by simp only [he]⟩
      · exact ⟨_, rfl⟩

/-! ### Examples and limits -/

namespace HeapLazyExample
open HeapExample (mem l1 fields)

/-- A file in which every array is `[1, 2]` and every array of structures has three elements. -/
def env : Env (List Int) (List Int) Unit Nat where
  mem := mem
  loader := ⟨fun _ _ _ => some (some [1, 2]), fun x _ => some (some (x + 1)), fun _ => some 3, fun x i => some (10 * x + i)⟩
  cast := fun _ _ => .same
  isDefault := fun _ _ => false
  default := fun _ => []

abbrev A := Act (List Int) (List Int) Unit Nat

/-- Make an IDS. -/
def before : Heap (List Int) (List Int) Unit Nat × List Ref := exec1 env Heap.empty [] [.op (.newIds fields)]

/-- Load another one, read some of it, try to change it, use its values elsewhere. -/
def acts : List A :=
  [.op (.array [7]), .op (.getAttr 1 ['t']), .op (.getItem 3 1), .op (.setAttr 4 ['c'] 2),
    .op (.getAttr 1 ['a']), .op (.getValue 5), .op (.resize 3 0 true), .op (.setAttr 0 ['a'] 5)]

def state : Heap (List Int) (List Int) Unit Nat × List Ref :=
  exec1 env (newLazyIds before.1 fields 0).1 (before.2 ++ [(newLazyIds before.1 fields 0).2]) acts

/-- A test for `Checked` of `structure.name = s`. -/
def leafOnly (h : Heap (List Int) (List Int) Unit Nat) (env : List Ref) (r : Nat) (n : Name) : Bool :=
  match env[r]? with
  | none => true
  | some a =>
    match h.get a with
    | some (.struct _ m _ _ _ true _) =>
      match lookupMeta m n with
      | some (.leaf _) => true
      | none => true
      | _ => false
    | _ => true

theorem leafOnly_checked {h : Heap (List Int) (List Int) Unit Nat} {en : List Ref} {r : Nat} {n : Name} {s : Nat}
    (hl : leafOnly h en r n = true) : Checked env h en (.setAttr r n s) := by
  intro a q m d p t x ha hx cm hm
  unfold leafOnly at hl
  rw [ha] at hl
  simp only [hx, hm] at hl
  cases cm with
  | leaf l => exact ⟨l, rfl⟩
  | struct => simp at hl
  | aos => simp at hl

theorem lazy : LazyIds env fields 0 3 state.1 state.2 := by
  refine ⟨before.1, before.2, acts, ⟨[.op (.newIds fields)], ⟨fun op h => by cases h; trivial, trivial⟩, rfl⟩, rfl, ?_, rfl⟩
  refine ⟨?_, ?_, ?_, ?_, ?_, ?_, ?_, ?_, trivial⟩
  all_goals intro op h; cases h
  · trivial
  · trivial
  · trivial
  · exact leafOnly_checked (by decide +kernel)
  · trivial
  · trivial
  · trivial
  · exact leafOnly_checked (by decide +kernel)

/-- The hypotheses of `C15_unchanged`. -/
example : LazyIds env fields 0 3 state.1 state.2 ∧
    content env fields (some 0) [(['t'], some 1), (['c'], none)] = some [1, 2] := ⟨lazy, by decide +kernel⟩

/-- The values of the objects that an operation returns. -/
def result (o : Out (List Int) (List Int) Unit Nat) : Option (List (Option (List Int))) :=
  match o.2 with
  | .ok l => some (l.map (o.1.val mem))
  | .error _ => none

def isReadOnly (o : Out (List Int) (List Int) Unit Nat) : Bool :=
  match o.2 with
  | .error .readOnly => true
  | _ => false

/-- The value is read. -/
example : result (readPath env state.1 3 [(['t'], some 1), (['c'], none)]) = some [some [1, 2]] := by decide +kernel

/-- The kind of node that is found. -/
def kind (o : Out (List Int) (List Int) Unit Nat) : Nat :=
  match o.2 with
  | .ok [c] =>
    match o.1.get c with
    | some (.leaf _ _ _) => 1
    | some (.struct _ _ _ _ _ _ _) => 2
    | some (.aos _ _ _ _ _ _) => 3
    | _ => 0
  | _ => 0

/-- Nodes of all kinds are found, as in `C15_refused`, `C15_attribute_refused` and
`C15_node_unchanged`. -/
example : [[(['t'], some 1), (['c'], none)], [(['t'], some 2)], [(['t'], none)]].map (fun p => kind (walk env state.1 3 p)) =
    [1, 2, 3] := by decide +kernel

/-- The path assignment of `C15_path_refused`. -/
example : isReadOnly (setPath env state.1 3 [(['t'], some 2), (['c'], none)] 5) = true := by decide +kernel

/-- A lazy-loaded IDS in `C15_put_refused`. -/
example : ∃ d : Entry.Doc, d.isLazy = true ∧ d.mode = 1 := ⟨⟨[], [], true, false, 1, none, 0⟩, rfl, rfl⟩

/-- An outside world in which putting fails, as in `C15_serialize_refused`. -/
example : ∃ w : Serialize.World Unit, (∀ f, ∃ f' e, w.put () f = (f', .error e)) ∧ (∃ e, w.flexWrite () = .error e) ∧
    w.flex = true ∧ w.isUnset () = false :=
  ⟨⟨true, fun _ => false, fun f => (f, .ok ()), fun _ f => (f, .error .value), fun _ f => (f, .ok ()), fun b => .ok b,
    fun _ f => (f, .ok ()), fun f => (f, .ok ()), fun f => (f, .ok ()), fun _ => .error .value, fun _ => .ok ()⟩,
    fun f => ⟨f, .value, rfl⟩, ⟨.value, rfl⟩, rfl, rfl⟩

/-- The state after some operations on the two IDSs. -/
def after (acts : List A) : Heap (List Int) (List Int) Unit Nat × List Ref :=
  exec1 env (newLazyIds before.1 fields 0).1 (before.2 ++ [(newLazyIds before.1 fields 0).2]) acts

theorem lazy_after (acts : List A)
    (hc : AllChecked env (newLazyIds before.1 fields 0).1 (before.2 ++ [(newLazyIds before.1 fields 0).2]) acts) :
    LazyIds env fields 0 3 (after acts).1 (after acts).2 :=
  ⟨before.1, before.2, acts, ⟨[.op (.newIds fields)], ⟨fun op h => by cases h; trivial, trivial⟩, rfl⟩, rfl, hc, rfl⟩

end HeapLazyExample

open HeapLazyExample HeapExample

/-- **C15, limit.** Replacing a structure (or array of structures) of a lazy-loaded IDS by one of another IDS is not
refused. What is read afterwards is not what the file has. -/
theorem C15_replace_limit : ∃ h en, LazyIds HeapLazyExample.env fields 0 3 h en ∧
    content HeapLazyExample.env fields (some 0) [(['s'], none), (['b'], none)] = some [1, 2] ∧
    result (exec HeapLazyExample.env h en (.setAttr 1 ['s'] 2)) = some [] ∧
    result (readPath HeapLazyExample.env (exec HeapLazyExample.env h en (.setAttr 1 ['s'] 2)).1 3 [(['s'], none), (['b'], none)]) =
      some [some []] := by
  refine ⟨_, _, lazy_after [.op (.getAttr 0 ['s'])] ⟨?_, trivial⟩, by decide +kernel, by decide +kernel, by decide +kernel⟩
  intro op h; cases h; trivial

/-- **C15, limit.** The array of a data node can be changed in place. -/
theorem C15_inplace_limit : ∃ h en, LazyIds HeapLazyExample.env fields 0 3 h en ∧
    content HeapLazyExample.env fields (some 0) [(['a'], none)] = some [1, 2] ∧
    result (exec HeapLazyExample.env h en (.write 3 [9] ())) = some [] ∧
    result (readPath HeapLazyExample.env (exec HeapLazyExample.env h en (.write 3 [9] ())).1 3 [(['a'], none)]) =
      some [some [9]] := by
  refine ⟨_, _, lazy_after [.op (.getAttr 1 ['a']), .op (.getValue 2)] ⟨?_, ?_, trivial⟩, by decide +kernel, by decide +kernel,
    by decide +kernel⟩
  all_goals intro op h; cases h; trivial

/-- **C15, limit.** Appending a data node of a lazy-loaded IDS to an array of structures of another IDS makes that
its parent. Then it can be assigned to. -/
theorem C15_moved_limit : ∃ h en, LazyIds HeapLazyExample.env fields 0 3 h en ∧
    content HeapLazyExample.env fields (some 0) [(['a'], none)] = some [1, 2] ∧
    isReadOnly (exec HeapLazyExample.env h en (.setValue 3 4)) = true ∧
    result (exec HeapLazyExample.env h en (.append 2 3)) = some [] ∧
    result (readPath HeapLazyExample.env (exec1 HeapLazyExample.env h en [.op (.append 2 3), .op (.setValue 3 4)]).1 3 [(['a'], none)]) =
      some [some [9]] := by
  refine ⟨_, _, lazy_after [.op (.getAttr 0 ['t']), .op (.getAttr 1 ['a']), .op (.array [9])] ⟨?_, ?_, ?_, trivial⟩,
    by decide +kernel, by decide +kernel, by decide +kernel, by decide +kernel⟩
  all_goals intro op h; cases h; trivial

end Verif.Props
