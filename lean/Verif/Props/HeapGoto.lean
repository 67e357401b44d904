import Verif.Lemmas.HeapGoto
import Verif.Props.Goto
/-!
C78: paths lead to objects.
-/
namespace Verif.Props
open Verif.Ids Verif.Heap Verif.HeapSpec Verif.TreeSpec Verif.GotoSpec
open Verif.Path (Idx Parsed parsePath)

variable {V B W C : Type} {E : Env V B W C} {h : Heap V B W C} {r s c : Ref}

theorem made_linked (hm : Made E h) : Linked h := by
  obtain ⟨lz, h0, env, ops, hw, he, hc, rfl⟩ := hm
  obtain ⟨a1, a2, a3⟩ := opened_linked (V := V) (B := B) (W := W) hw
  rw [he] at a1 a2 a3
  exact prog_linked a1 a2 a3 hc

/-- **C78.** Going to a path from the IDS itself, or from any of its nodes with `from_root=False`, does exactly what accessing the
attributes and items one after the other does: the same object or exception, and the same children are created and loaded. -/
theorem C78_steps (asInt : V → Option Int) (hm : Made E h) (r : Ref) (hr : IsIds h r) (hu : Unshared h r) (a : Addr) (s : Ref)
    (hs : Place h r a s) (items : List (Name × Option Nat)) (stack : Nat) :
    Heap.goto asInt E (stack + 1) h r true (intItems (addrItems items)) = walk E h r items ∧
    Heap.goto asInt E (stack + 1) h s false (intItems (addrItems items)) = walk E h s items := by
  have L := made_linked hm
  constructor
  · rw [goto_place L hr hu (A := []) .nil _ _ (by simp [common, addrItems])]
    exact follow_walk items h r
  · rw [goto_false (by rw [metaPath_place L hr hu hs]; rfl)]
    exact follow_walk items h s

/-- **C78.** Going to a path from any node of an IDS does the same as going there from the IDS itself, if the items written for the shared
leading names are those of the node (see `C05_prefix_index_ignored`). -/
theorem C78_from_element (asInt : V → Option Int) (hm : Made E h) (r : Ref) (hr : IsIds h r) (hu : Unshared h r) (a : Addr) (s : Ref)
    (hs : Place h r a s) (items : List (Name × Option Int)) (stack : Nat)
    (hagree : items.take (common (a.map (·.1)) (items.map (·.1))) =
      (a.take (common (a.map (·.1)) (items.map (·.1)))).map fun x => (x.1, x.2.map Int.ofNat)) :
    Heap.goto asInt E (stack + 1) h s true (intItems items) = Heap.goto asInt E (stack + 1) h r true (intItems items) := by
  have L := made_linked hm
  rw [goto_place L hr hu hs _ _ hagree, goto_place L hr hu (A := []) .nil _ _ (by simp [common, addrItems])]

theorem heap_set_set (h : Heap V B W C) (r : Ref) (o o' : Obj V B W C) : (h.set r o).set r o' = h.set r o' := by
  unfold Heap.set
  congr 1
  funext s
  by_cases e : s = r <;> simp [e]

/-- An array of structures with `n` elements: it holds them, or it is lazy-loaded and the file has them. -/
inductive Elements (E : Env V B W C) (h : Heap V B W C) (r : Ref) (n : Nat) : Prop
  | held {q m items p z x} (hg : h.get r = some (.aos q m (some items) p z x)) (hn : items.length = n) : Elements E h r n
  | file {q m p x} (hg : h.get r = some (.aos q m none p true (some x))) (hn : E.loader.size x = some n) : Elements E h r n
  | missing {q m p} (hg : h.get r = some (.aos q m none p true none)) (hn : n = 0) : Elements E h r n

/-- Loading the size first changes nothing for the access to an element. -/
theorem getItem_loaded {q : List Name} {m : MFields} {v : Option (List (Option Ref))} {p : Ref} {x : Option C} {items : List (Option Ref)}
    (hg : h.get r = some (.aos q m v p true x)) (hl : loadItems E v x = some items) (i : Nat) :
    getItem E (h.set r (.aos q m (some items) p true x)) r i = getItem E h r i := by
  unfold Heap.getItem
  rw [set_get, hg]
  have : loadItems E (some items) x = some items := rfl
  simp only [this, hl, heap_set_set]

/-- **C78.** Negative items of arrays of structures count from the end, also in lazy-loaded IDSs: `array[i - n]` is `array[i]` with
all its effects for an array with `n` elements, and other integers than those from `-n` to `n - 1` raise `IndexError`. -/
theorem C78_negative (n : Nat) (hn : Elements E h r n) :
    (∀ i : Nat, i < n → getItemInt E h r ((i : Int) - n) = getItem E h r i) ∧
    ∀ k : Int, k < -(n : Int) ∨ (n : Int) ≤ k → (getItemInt E h r k).2 = .error .index := by
  have main : ∀ {q m v p z x} {items : List (Option Ref)}, h.get r = some (.aos q m v p z x) →
      (if z then loadItems E v x else v) = some items → items.length = n →
      (∀ i : Nat, i < n → getItemInt E h r ((i : Int) - n) = getItem E h r i) ∧
      ∀ k : Int, k < -(n : Int) ∨ (n : Int) ≤ k → (getItemInt E h r k).2 = .error .index := by
    intro q m v p z x items hg hl hlen
    constructor
    · intro i hi
      unfold getItemInt
      rw [if_neg (by omega), hg]
      simp only [hl]
      rw [if_pos (by omega), show ((i : Int) - n + items.length).toNat = i by omega]
      cases z with
      | false => rfl
      | true => exact getItem_loaded hg hl i
    · intro k hk
      unfold getItemInt
      by_cases h0 : 0 ≤ k
      · have hnone : items[k.toNat]? = none := List.getElem?_eq_none (by omega)
        rw [if_pos h0]
        unfold Heap.getItem
        rw [hg]
        cases z with
        | false =>
          cases hl
          simp only [hnone]
        | true =>
          simp only [if_true] at hl
          cases v <;> simp only [hl, hnone]
      · rw [if_neg h0, hg]
        simp only [hl]
        rw [if_neg (by omega)]
  cases hn with
  | @held q m items p z x hg hlen => exact main hg (items := items) (by cases z <;> rfl) hlen
  | @file q m p x hg hs => exact main hg (items := List.replicate n none) (by simp [loadItems, hs]) (by simp)
  | missing hg h0 => exact main hg (items := []) rfl (by simp [h0])

theorem slot_names {A : Addr} (p : Place h r A s) {P : Name → Prop} (hP : ∀ c n s, Slot h c (.field n) s → P n) : ∀ x ∈ A, P x.1 := by
  induction A generalizing r with
  | nil => intro x hx; cases hx
  | cons y A ih =>
    obtain ⟨n, i⟩ := y
    obtain ⟨d, h1, h2⟩ := place_cons p
    intro x hx
    rcases List.mem_cons.1 hx with rfl | hx
    · cases i with
      | none => exact hP _ _ _ (place_one h1)
      | some i => obtain ⟨a, h3, _⟩ := place_item h1; exact hP _ _ _ h3
    · exact ih h2 x hx

/-- **C78.** `ids[get_full_path(node)] is node` for every node of an IDS except the IDS itself, and this creates and loads nothing, also in
a lazy-loaded IDS. Going to this path from the IDS gives the node as well. -/
theorem C78_reported (asInt : V → Option Int) (hm : Made E h) (r : Ref) (hr : IsIds h r) (K : List Key) (s : Ref) (hs : Path h r K s)
    (hne : s ≠ r) (hm' : ∀ c q m d p t z x, h.get c = some (.struct q m d p t z x) → ∀ n ∈ mnames m, PathSpec.FieldName n) :
    ∃ text, (∀ n, fullPath (K.length + n + 1) h s = .ok text) ∧ ∀ stack, text.length < stack →
      structItem asInt E stack h r text = (h, .ok [s]) ∧
      ∃ p, parsePath stack text = .ok p ∧ Heap.goto asInt E stack h r false p = (h, .ok [s]) := by
  have L := made_linked hm
  have hn : ∀ c n s, Slot h c (.field n) s → PathSpec.FieldName n := by
    intro c n s hsl
    cases hsl with
    | field hg hmem _ => exact hm' _ _ _ _ _ _ _ _ hg n hmem
  have hn0 : ∀ c n s, Slot h c (.field n) s → n ≠ [] := fun c n s hsl e => by
    have := hn c n s hsl
    rw [e] at this
    obtain ⟨⟨_, _, h1, _⟩, _⟩ := this
    cases h1
  obtain ⟨A, hA, _, htx, _⟩ := fullPath_climb L hr hn0 K.length K s rfl hs
  have hA0 : A ≠ [] := by rintro rfl; cases hA; exact hne rfl
  have hfn := slot_names hA hn
  refine ⟨pathText A, htx, fun stack hst => ?_⟩
  have hparse : parsePath stack (pathText A) = .ok (intItems (addrItems A)) := by
    rw [pathText_eq] at hst ⊢
    rw [Verif.Path.parsePath_complete stack hst (Verif.Path.PathItems.text (toItems A) (toItems_wf hfn) (by simp))]
    simp [intItems, addrItems, toItems_names, toItems_indices, Function.comp_def]
  obtain ⟨q, m, d, p, z, x, hg⟩ := hr
  obtain ⟨st, rfl⟩ : ∃ st, stack = st + 1 := ⟨stack - 1, by omega⟩
  have hgo : Heap.goto asInt E (st + 1) h r false (intItems (addrItems A)) = (h, .ok [s]) := by
    rw [goto_false (by unfold metaPath; rw [hg]; rfl)]
    have := follow_place (E := E) hA []
    rw [List.append_nil] at this
    rw [this]; rfl
  refine ⟨?_, _, hparse, hgo⟩
  unfold structItem
  rw [hg]
  dsimp only
  by_cases hk : (lookupMeta m (pathText A)).isSome
  · rw [if_pos hk]
    obtain ⟨cm, hcm⟩ := Option.isSome_iff_exists.1 hk
    have hkn := hm' _ _ _ _ _ _ _ _ hg _ (lookupMeta_mem hcm)
    have : A = [(pathText A, none)] := C06_reported_paths_distinct A _ hfn (by
      intro x hx; cases List.mem_singleton.1 hx; exact hkn) (by simp [pathText, pathText.go, pathText.suffix])
    rw [this] at hA
    exact getAttr_there (place_one hA)
  · rw [if_neg hk, hparse]
    dsimp only
    split
    · next e =>
      exfalso
      cases A with
      | nil => exact hA0 rfl
      | cons y A =>
        obtain ⟨n, i⟩ := y
        cases A with
        | cons => simp [intItems, addrItems] at e
        | nil =>
          cases i with
          | some => simp [intItems, addrItems] at e
          | none =>
            cases place_one hA with
            | field hg' hmem _ =>
              rw [hg] at hg'; cases hg'
              obtain ⟨cm, hcm⟩ := lookupMeta_some hmem
              exact hk (by rw [show pathText [(n, none)] = n by simp [pathText, pathText.go, pathText.suffix], hcm]; rfl)
    · exact hgo

/-- **C78.** A path as an index stands for the integer stored there, counted from one: going to `array(path)/rest` from a node with
`from_root=False` does the same as going to `array[value - 1]/rest`. The path in the index starts at the IDS; the items written for the
names it shares with the place of the node are those of the node. -/
theorem C78_nested (asInt : V → Option Int) (hm : Made E h) (r : Ref) (hr : IsIds h r) (hu : Unshared h r) (a : Addr) (s : Ref)
    (hs : Place h r a s) (n : Name) (array : Ref) (ha : Slot h s (.field n) array) (index : Addr) (leaf : Ref)
    (hi : Place h r index leaf)
    (hagree : index.take (common (a.map (·.1)) (index.map (·.1))) = a.take (common (a.map (·.1)) (index.map (·.1))))
    (l : LeafMeta) (v : Ref) (p : Ref) (hl : h.get leaf = some (.leaf l (some v) p)) (x : V) (hv : h.val E.mem v = some x) (k : Int)
    (hk : asInt x = some k) (rest : List (Name × Option Int)) (stack : Nat) :
    Heap.goto asInt E (stack + 2) h s false
      ⟨n :: rest.map (·.1), some (.path (index.map (·.1)) (index.map fun y => y.2.map fun j => .num (Int.ofNat j))) ::
        rest.map fun y => y.2.map .num⟩ =
    Heap.goto asInt E (stack + 2) h s false (intItems ((n, some (k - 1)) :: rest)) := by
  have L := made_linked hm
  have hin : (⟨index.map (·.1), index.map fun y => y.2.map fun j => .num (Int.ofNat j)⟩ : Parsed) = intItems (addrItems index) := by
    simp [intItems, addrItems, Function.comp_def]
  have hn : nestedInt asInt E (Heap.goto asInt E (stack + 1) h s true (intItems (addrItems index))) = (h, .ok k) := by
    have hnames : (addrItems index).map (·.1) = index.map (·.1) := by simp [addrItems, Function.comp_def]
    rw [goto_place L hr hu hs (addrItems index) stack (by
      rw [hnames]
      unfold addrItems
      rw [← List.map_take, hagree])]
    have := follow_place (E := E) hi []
    rw [List.append_nil] at this
    rw [this]
    unfold follow Heap.nestedInt
    simp only [hl, Heap.getValue, hv, Option.bind_some, hk]
  unfold Heap.goto
  rw [metaPath_place L hr hu hs]
  simp only [intItems, List.map_cons, List.zip_cons_cons, Option.map_some, Bool.false_eq_true, if_false, List.length_cons]
  have e : Heap.gotoLoop E (fun h q => nestedInt asInt E (Heap.goto asInt E (stack + 1) h s true q)) s (a.map (·.1)) 0 (some s)
      ((n, some (.path (index.map (·.1)) (index.map fun y => y.2.map fun j => .num (Int.ofNat j)))) ::
        (rest.map (·.1)).zip (rest.map fun y => y.2.map .num)) h =
      Heap.gotoLoop E (fun h q => nestedInt asInt E (Heap.goto asInt E (stack + 1) h s true q)) s (a.map (·.1)) 0 (some s)
      ((n, some (.num (k - 1))) :: (rest.map (·.1)).zip (rest.map fun y => y.2.map .num)) h := by
    rw [Heap.gotoLoop, Heap.gotoLoop]
    · simp only [getAttr_there ha, hin, hn]
    all_goals (intro _ _ e; cases e)
  rw [e]

/-- **C78, limit.** An index path whose value is zero, which is no index counted from one, raises nothing: it leads to the last
element. -/
theorem C78_zero_limit (asInt : V → Option Int) (hm : Made E h) (r : Ref) (hr : IsIds h r) (hu : Unshared h r) (n : Name) (array : Ref)
    (ha : Slot h r (.field n) array) (index : Addr) (leaf : Ref) (hi : Place h r index leaf) (l : LeafMeta) (v : Ref) (p : Ref)
    (hl : h.get leaf = some (.leaf l (some v) p)) (x : V) (hv : h.val E.mem v = some x) (hk : asInt x = some 0) (m : Nat)
    (hsize : Elements E h array (m + 1)) (last : Ref) (hlast : Slot h array (.index m) last) (stack : Nat) :
    Heap.goto asInt E (stack + 2) h r false
      ⟨[n], [some (.path (index.map (·.1)) (index.map fun y => y.2.map fun j => .num (Int.ofNat j)))]⟩ = (h, .ok [last]) := by
  have e := C78_nested asInt hm r hr hu [] r .nil n array ha index leaf hi (by simp [common]) l v p hl x hv 0 hk [] stack
  refine Eq.trans e ?_
  rw [goto_false (by rw [metaPath_place (made_linked hm) hr hu (A := []) .nil]; rfl)]
  have e' := (C78_negative (m + 1) hsize).1 m (by omega)
  rw [getItem_there hlast, show ((m : Nat) : Int) - ((m + 1 : Nat) : Int) = 0 - 1 by omega] at e'
  unfold follow
  rw [getAttr_there ha]
  dsimp only
  rw [e']
  rfl

/-- **C78, limit.** After `a.t[0] = b.t[1]` (`a` is the object 1, `b` the object 5), going to the path `a` from the node at `t[0]` of `a`
leads to the child `a` of `b` (see `C77_item_limit`). -/
theorem C78_item_limit (asInt : List Int → Option Int) :
    ∃ (ops : List (Op (List Int) (List Int) Unit)) (s x : Ref) (h' : Heap (List Int) (List Int) Unit Unit),
      IsIds (prog HeapExample.env (C := Unit) Heap.empty [] ops).1 1 ∧
      Place (prog HeapExample.env (C := Unit) Heap.empty [] ops).1 1 [(['t'], some 0)] s ∧
      Heap.goto asInt HeapExample.env 1 (prog HeapExample.env (C := Unit) Heap.empty [] ops).1 s true (intItems [(['a'], none)]) =
        (h', .ok [x]) ∧ Slot h' 5 (.field ['a']) x :=
  ⟨[.newIds HeapExample.fields, .getAttr 0 ['t'], .resize 1 1 true, .newIds HeapExample.fields, .getAttr 2 ['t'], .resize 3 2 true,
    .getItem 3 1, .setItem 1 0 4], 8, 9, _, ⟨_, _, _, _, _, _, rfl⟩,
    .cons (.field rfl (by decide +kernel : _ ∈ mnames HeapExample.fields) rfl) (.cons (.index rfl rfl) .nil),
    by with_unfolding_all rfl, .field rfl (by decide +kernel : _ ∈ mnames HeapExample.fields) rfl⟩

/-! ### Example -/

/-- An array with two elements. -/
example := C78_negative (E := HeapExample.env)
  (h := (prog HeapExample.env (C := Unit) Heap.empty [] [.newIds HeapExample.fields, .getAttr 0 ['t'], .resize 1 2 true]).1) (r := 2) 2
  (.held rfl rfl)

/-- If no node holds another one twice, no node of an IDS is at two places. -/
theorem unshared_of (L : Linked h) (hr : IsIds h r) (hk : ∀ c k k' s, Slot h c k s → Slot h c k' s → k = k') : Unshared h r := by
  have hroot : ∀ K k, ¬ Path h r (K ++ [k]) r := by
    intro K k p
    obtain ⟨c, _, p2⟩ := p.split
    cases p2 with
    | cons hs p2 =>
    cases p2
    obtain ⟨o, ho, _, _, ht⟩ := slot_up L hs
    obtain ⟨q, m, d, p, z, x, hg⟩ := hr
    rw [ho] at hg
    exact ht _ _ _ _ _ _ (Option.some.inj hg)
  have main : ∀ n s K K', K.length = n → Path h r K s → Path h r K' s → K = K' := by
    intro n
    induction n with
    | zero =>
      intro s K K' hK p p'
      cases K with
      | cons => cases hK
      | nil =>
        cases p
        rcases List.eq_nil_or_concat K' with rfl | ⟨M, k, rfl⟩
        · rfl
        · rw [List.concat_eq_append] at p'; exact absurd p' (hroot _ _)
    | succ n ih =>
      intro s K K' hK p p'
      rcases List.eq_nil_or_concat K with rfl | ⟨M, k, rfl⟩
      · cases hK
      · rw [List.concat_eq_append] at p hK ⊢
        rcases List.eq_nil_or_concat K' with rfl | ⟨M', k', rfl⟩
        · cases p'; exact absurd p (hroot _ _)
        · rw [List.concat_eq_append] at p' ⊢
          obtain ⟨c, p1, p2⟩ := p.split
          obtain ⟨c', p1', p2'⟩ := p'.split
          cases p2 with
          | cons hs p2 =>
          cases p2
          cases p2' with
          | cons hs' p2' =>
          cases p2'
          obtain ⟨o, ho, hp, _⟩ := slot_up L hs
          obtain ⟨o', ho', hp', _⟩ := slot_up L hs'
          rw [ho] at ho'; cases ho'
          rw [hp] at hp'; cases hp'
          rw [ih c M M' (by simpa using hK) p1 p1', hk _ _ _ _ hs hs']
  intro s K K' p p'
  exact main _ s K K' rfl p p'

namespace HeapGotoExample
open HeapNodeExample
open HeapExample (env fields l1)

theorem made : Made env after := ⟨[], Heap.empty, [], ops, (by intro x hx; cases hx), rfl, careful, rfl⟩

theorem small {c : Ref} {o : Heap.Obj (List Int) (List Int) Unit Unit} (hg : after.get c = some o) : c < 10 :=
  (made_linked made).lt hg

def names : List Name := [['a'], ['b'], ['c'], ['s'], ['t']]

theorem fieldName {n : Name} (hn : n ∈ names) : PathSpec.FieldName n := by
  have : ∃ x, n = [x] ∧ 'a' ≤ x ∧ x ≤ 'z' := by
    simp only [names, List.mem_cons, List.not_mem_nil, or_false] at hn
    rcases hn with rfl | rfl | rfl | rfl | rfl <;> exact ⟨_, rfl, by decide, by decide⟩
  obtain ⟨x, rfl, h1, h2⟩ := this
  refine ⟨⟨x, [], rfl, ⟨h1, h2⟩, by intro y hy; cases hy⟩, ?_⟩
  rintro ⟨l, r, e⟩
  have := congrArg List.length e
  simp at this
  omega

theorem known : ∀ c q m d p t z x, after.get c = some (.struct q m d p t z x) → ∀ n ∈ mnames m, PathSpec.FieldName n := by
  intro c q m d p t z x hg n hn
  have : ∀ c : Fin 10, (match after.get c.1 with
      | some (.struct _ m _ _ _ _ _) => (mnames m).all (names.contains ·)
      | _ => true) = true := by decide +kernel
  have := this ⟨c, small hg⟩
  rw [hg] at this
  have := List.all_eq_true.1 this n hn
  exact fieldName (by simpa using this)

/-- The child `c` of the third element of the array of structures. -/
example (asInt : List Int → Option Int) : structItem asInt env 7 after 1 "t[2]/c".toList = (after, .ok [9]) := by
  obtain ⟨text, h1, h2⟩ := C78_reported (E := env) asInt made 1 isIds _ 9 path (by decide) known
  have h3 : fullPath 4 after 9 = .ok "t[2]/c".toList := by with_unfolding_all rfl
  have h4 := h1 0
  have h5 : text = "t[2]/c".toList := Except.ok.inj (h4.symm.trans h3)
  subst h5
  exact (h2 7 (by decide +kernel)).1

theorem unshared : Unshared after 1 := by
  refine unshared_of (made_linked made) isIds ?_
  have hstr : ∀ c : Fin 10, (match after.get c.1 with
      | some (.struct _ m d _ _ _ _) => (mnames m).all fun n => (mnames m).all fun n' => n = n' || d n = none || d n != d n'
      | some (.aos _ _ (some l) _ _ _) =>
        (List.range l.length).all fun i => (List.range l.length).all fun j => i = j || l[i]? != l[j]?
      | _ => true) = true := by decide +kernel
  intro c k k' s h1 h2
  cases h1 with
  | field hg hm hd =>
    cases h2 with
    | field hg' hm' hd' =>
      rw [hg] at hg'; cases hg'
      have := hstr ⟨c, small hg⟩
      rw [hg] at this
      have := List.all_eq_true.1 (List.all_eq_true.1 this _ hm) _ hm'
      rw [hd, hd'] at this
      simp at this
      rw [this]
    | index hg' => rw [hg] at hg'; cases hg'
  | index hg hi =>
    cases h2 with
    | field hg' => rw [hg] at hg'; cases hg'
    | index hg' hi' =>
      rw [hg] at hg'; cases hg'
      have := hstr ⟨c, small hg⟩
      rw [hg] at this
      have h3 := List.mem_range.2 (List.getElem?_eq_some_iff.1 hi).1
      have h4 := List.mem_range.2 (List.getElem?_eq_some_iff.1 hi').1
      have := List.all_eq_true.1 (List.all_eq_true.1 this _ h3) _ h4
      rw [hi, hi'] at this
      simp at this
      rw [this]

theorem index_place : Place after 1 [(['t'], some 1), (['c'], none)] 5 :=
  .cons (.field rfl (by decide +kernel : _ ∈ mnames HeapExample.fields) rfl) (.cons (.index rfl rfl) (.cons (.field rfl
    (by decide +kernel : ['c'] ∈ mnames (.cons ['c'] (.leaf l1) .nil)) rfl) .nil))

/-- `t(t[1]/c)/c` leads to `t[0]/c`, and to `t[2]` (the last element) if the value counts as zero. -/
example := C78_nested (E := env) (fun v => some v.length) made 1 isIds unshared [] 1 .nil ['t'] 2
  (.field rfl (by decide +kernel : _ ∈ mnames HeapExample.fields) rfl) _ 5 index_place rfl _ _ _ rfl _ rfl 1 rfl [(['c'], none)] 0

example := C78_zero_limit (E := env) (fun v => some (v.length - 1)) made 1 isIds unshared ['t'] 2
  (.field rfl (by decide +kernel : _ ∈ mnames HeapExample.fields) rfl) _ 5 index_place _ _ _ rfl _ rfl rfl 2 (.held rfl rfl) 8
  (.index rfl rfl) 0

/-- From the child `c` of the third element to the child `b` of the structure `s`, which is created. -/
example (asInt : List Int → Option Int) :
    Heap.goto asInt env 1 after 9 true (intItems [(['s'], none), (['b'], none)]) = walk env after 1 [(['s'], none), (['b'], none)] := by
  rw [C78_from_element (E := env) asInt made 1 isIds unshared [(['t'], some 2), (['c'], none)] 9 path _ 0 (by
    with_unfolding_all rfl)]
  exact (C78_steps (E := env) asInt made 1 isIds unshared [(['t'], some 2), (['c'], none)] 9 path [(['s'], none), (['b'], none)] 0).1

end HeapGotoExample

end Verif.Props
