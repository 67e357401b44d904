import Verif.Model.HeapNode
import Verif.Lemmas.HeapNodeCopy
import Verif.Props.HeapPlace
import Verif.Props.Heap
/-!
C77: nodes tell where they are.
-/
namespace Verif.Props
open Verif.Ids Verif.Heap Verif.HeapSpec Verif.TreeSpec

variable {V B W C : Type} {E : Env V B W C} {h : Heap V B W C} {r s c : Ref}

theorem sound_alloc (snd : Sound true h) {o : Obj V B W C} (ho : ∀ e, Refers true o e → e < h.next) : Sound true (h.alloc o).1 := by
  refine ⟨fun x hx => ?_, fun x ox hx e he => ?_⟩
  · have hx' : h.next + 1 ≤ x := hx
    rw [show (h.alloc o).1.get x = h.get x by simp [Heap.alloc, ref_ne hx' (Nat.lt_succ_self _)]]
    exact snd.above x (ref_le hx')
  · by_cases e' : x = h.next
    · subst e'; rw [show (h.alloc o).1.get h.next = some o by simp [Heap.alloc]] at hx; cases hx
      exact Nat.lt_succ_of_lt (ho e he)
    · rw [show (h.alloc o).1.get x = h.get x by simp [Heap.alloc, e']] at hx
      exact Nat.lt_succ_of_lt (snd.refs x ox hx e he)

theorem opened_linked {L : List (MFields × C)} (hw : ∀ x ∈ L, WFMFields x.1) :
    Linked (opened L : Heap V B W C × List Ref).1 ∧ Sound true (opened L : Heap V B W C × List Ref).1 ∧
      ∀ a ∈ (opened L : Heap V B W C × List Ref).2, a < (opened L : Heap V B W C × List Ref).1.next := by
  induction L with
  | nil => exact ⟨⟨fun _ _ => rfl, fun _ _ _ _ hx => (by cases hx), fun _ _ hx => (by cases hx)⟩,
      ⟨fun _ _ => rfl, fun _ _ hx => (by cases hx)⟩, fun a ha => (by cases ha)⟩
  | cons x rest ih =>
    obtain ⟨a1, a2, a3⟩ := ih fun y hy => hw y (List.mem_cons_of_mem _ hy)
    refine ⟨newLazyIds_linked a1 (hw x (List.mem_cons_self ..)) _, ?_, ?_⟩
    · have b := sound_alloc a2 (o := .factory) (by intro e he; cases he)
      refine sound_alloc b ?_
      rintro e (⟨n, hn⟩ | ⟨_, rfl⟩)
      · cases hn
      · exact Nat.lt_succ_self _
    · intro a ha
      have hnx : (opened (x :: rest) : Heap V B W C × List Ref).1.next = (opened rest : Heap V B W C × List Ref).1.next + 1 + 1 := rfl
      rw [hnx]
      rcases List.mem_cons.1 ha with rfl | ha
      · exact Nat.lt_succ_self _
      · exact Nat.lt_succ_of_lt (Nat.lt_succ_of_lt (a3 a ha))

theorem slot_up (L : Linked h) {k : Key} (hs : Slot h r k s) : ∃ o, h.get s = some o ∧ parentOf o = some r ∧
    o ≠ .factory ∧ ∀ q m d p z x, o ≠ .struct q m d p true z x := by
  obtain ⟨ox, hx, hs⟩ := hs.slotO
  obtain ⟨o, ho, hf⟩ := L.fits _ _ _ _ hx hs
  refine ⟨o, ho, ?_⟩
  have : ∃ a q, head o = some (a, q, r, false) := by
    cases k
    · rcases hf with h | h | h <;> exact ⟨_, _, h⟩
    · exact ⟨_, _, hf⟩
  obtain ⟨a, q, this⟩ := this
  cases o <;> simp [head] at this <;> simp [parentOf, this]

theorem toplevel_climb (L : Linked h) {K : List Key} (p : Path h r K s) (n : Nat) :
    toplevelOf (K.length + n) h s = toplevelOf n h r := by
  induction p generalizing n with
  | nil => simp
  | @cons r k c K s hs _ ih =>
    rw [show (k :: K).length + n = K.length + (n + 1) by simp; omega, ih]
    obtain ⟨o, ho, hp, _, ht⟩ := slot_up L hs
    conv => lhs; unfold toplevelOf
    rw [ho]
    split
    · next e => exact absurd (Option.some.inj e) (ht _ _ _ _ _ _)
    · next e => cases e; rw [hp]
    · next e => cases e

theorem factory_climb (L : Linked h) {K : List Key} (p : Path h r K s) (n : Nat) :
    factoryOf (K.length + n) h s = factoryOf n h r := by
  induction p generalizing n with
  | nil => simp
  | @cons r k c K s hs _ ih =>
    rw [show (k :: K).length + n = K.length + (n + 1) by simp; omega, ih]
    obtain ⟨o, ho, hp, hf, ht⟩ := slot_up L hs
    conv => lhs; unfold factoryOf
    rw [ho]
    split
    · next e => exact absurd (Option.some.inj e) hf
    · next e => cases e; rw [hp]
    · next e => cases e

theorem timeMode_climb (L : Linked h) {K : List Key} (p : Path h r K s) (n : Nat) :
    timeModeOf E (K.length + n) h s = timeModeOf E n h r := by
  induction p generalizing n with
  | nil => simp
  | @cons r k c K s hs _ ih =>
    rw [show (k :: K).length + n = K.length + (n + 1) by simp; omega, ih]
    obtain ⟨o, ho, hp, _, ht⟩ := slot_up L hs
    conv => lhs; unfold timeModeOf
    rw [ho]
    split
    · next e => exact absurd (Option.some.inj e) (ht _ _ _ _ _ _)
    · next e => cases e; rw [hp]
    · next e => cases e

theorem pathGo_snoc (p : List Char) (A : Addr) (n : Name) (i : Option Nat) :
    pathText.go p (A ++ [(n, i)]) = pathText.go p A ++ '/' :: (n ++ pathText.suffix i) := by
  induction A generalizing p with
  | nil => rfl
  | cons x A ih => obtain ⟨m, j⟩ := x; exact ih _

theorem pathText_snoc (A : Addr) (n : Name) (i : Option Nat) :
    pathText (A ++ [(n, i)]) = (if A = [] then n else pathText A ++ '/' :: n) ++ pathText.suffix i := by
  cases A with
  | nil => rfl
  | cons x A =>
    obtain ⟨m, j⟩ := x
    simp only [List.cons_append, pathText, pathGo_snoc]
    simp

theorem keyOf_some {d : Name → Option Ref} {m : MFields} {n : Name} (hn : n ∈ mnames m) (hd : d n = some s) :
    ∃ n', keyOf d s m = some n' ∧ n' ∈ mnames m ∧ d n' = some s := by
  induction m using MFields.rec (motive_1 := fun _ => True) with
  | leaf => trivial
  | struct => trivial
  | aos => trivial
  | nil => simp [mnames] at hn
  | cons k x rest _ ih =>
    unfold keyOf
    by_cases e : d k = some s
    · exact ⟨k, by rw [if_pos e], by simp [mnames], e⟩
    · rw [if_neg e]
      have : n ∈ mnames rest := by
        rcases List.mem_cons.1 (by simpa [mnames] using hn : n ∈ k :: mnames rest) with rfl | h1
        · exact absurd hd e
        · exact h1
      obtain ⟨n', h1, h2, h3⟩ := ih this
      exact ⟨n', h1, by simp [mnames, h2], h3⟩

/-- The path that a node reports. -/
theorem fullPath_climb (L : Linked h) (hr : IsIds h r) (hne : ∀ c n s, Slot h c (.field n) s → n ≠ []) (l : Nat) :
    ∀ K s, K.length = l → Path h r K s → ∃ A, Place h r A s ∧ (A = [] ∨ pathText A ≠ []) ∧
      (∀ n, fullPath (l + n + 1) h s = .ok (pathText A)) ∧
      ∀ q m i p z x, h.get s = some (.aos q m i p z x) → ∃ A0 nm, A = A0 ++ [(nm, none)] := by
  obtain ⟨q0, m0, d0, p0, z0, x0, hr⟩ := hr
  induction l with
  | zero =>
    intro K s hK p
    cases K with
    | cons => cases hK
    | nil =>
      cases p
      refine ⟨[], .nil, .inl rfl, fun n => ?_, ?_⟩
      · unfold fullPath; rw [hr]; rfl
      · intro q m i p z x hg; rw [hr] at hg; cases hg
  | succ l ih =>
    intro K s hK p
    have hK0 : K ≠ [] := by intro e; subst e; cases hK
    have hsp := List.dropLast_concat_getLast hK0
    generalize K.dropLast = K' at hsp
    generalize K.getLast hK0 = k at hsp
    subst hsp
    obtain ⟨c, pc, ps⟩ := p.split
    cases ps with
    | cons hs hnil =>
    cases hnil
    obtain ⟨A, hA, hA0, htxt, haos⟩ := ih K' c (by simpa using hK) pc
    obtain ⟨o, ho, hp, _, ht⟩ := slot_up L hs
    have hful : ∀ n, fullPath (l + 1 + n + 1) h s =
        match h.get c with
        | some (.aos _ _ items _ _ _) =>
          .ok (pathText A ++ '[' :: (match (items.getD []).findIdx? (· = some s) with | some i => idxText i | none => ['?']) ++ [']'])
        | _ =>
          match nameOf h s with
          | none => .error .attribute
          | some name => .ok (if pathText A = [] then name else pathText A ++ '/' :: name) := by
      intro n
      conv => lhs; unfold fullPath
      rw [ho]
      split
      · next e => exact absurd (Option.some.inj e) (ht _ _ _ _ _ _)
      · next e =>
        cases e
        rw [hp]
        have := htxt n
        rw [show l + n + 1 = l + 1 + n by omega] at this
        simp only [this]
        cases h.get c with
        | none => rfl
        | some oc => cases oc <;> rfl
      · next e => cases e
    have hfld : ∀ q m d p t z x nm, h.get c = some (.struct q m d p t z x) → nameOf h s = some nm → nm ∈ mnames m → d nm = some s →
        (∀ q m i p z x, h.get s = some (.aos q m i p z x) → True) →
        ∃ A, Place h r A s ∧ (A = [] ∨ pathText A ≠ []) ∧
      (∀ n, fullPath (l + 1 + n + 1) h s = .ok (pathText A)) ∧
      ∀ q m i p z x, h.get s = some (.aos q m i p z x) → ∃ A0 nm, A = A0 ++ [(nm, none)] := by
      intro q m d p t z x nm hc hnm hmem hd _
      have hsl : Slot h c (.field nm) s := .field hc hmem hd
      have hn0 := hne _ _ _ hsl
      have htx : pathText (A ++ [(nm, none)]) = if pathText A = [] then nm else pathText A ++ '/' :: nm := by
        rw [pathText_snoc]
        simp only [pathText.suffix, List.append_nil]
        rcases hA0 with rfl | hA0
        · rfl
        · rw [if_neg hA0, if_neg]
          rintro rfl; exact hA0 rfl
      refine ⟨A ++ [(nm, none)], ?_, ?_, ?_, ?_⟩
      · unfold Place
        rw [keys_append]
        exact Path.append hA (.cons hsl .nil)
      · right
        rw [htx]
        split
        · exact hn0
        · simp
      · intro n
        rw [hful n, hc]
        dsimp only
        rw [hnm, htx]
      · intro _ _ _ _ _ _ _; exact ⟨A, nm, rfl⟩
    cases hs with
    | field hc hmem hd =>
      obtain ⟨o', ho', hf⟩ := L.fits _ _ _ _ hc (.field hd)
      rw [ho] at ho'; cases ho'
      cases o with
      | leaf lm v p =>
        cases hp
        obtain ⟨n', h1, h2, h3⟩ := keyOf_some hmem hd
        refine hfld _ _ _ _ _ _ _ n' hc ?_ h2 h3 (fun _ _ _ _ _ _ _ => trivial)
        unfold nameOf
        rw [ho]
        dsimp only
        rw [hc]
        exact h1
      | struct q m d p t z x =>
        refine hfld _ _ _ _ _ _ _ _ hc ?_ hmem hd (fun _ _ _ _ _ _ _ => trivial)
        unfold nameOf
        rw [ho]
        simp [Fits, head, qOf] at hf
        simp [hf.1]
      | aos q m i p z x =>
        refine hfld _ _ _ _ _ _ _ _ hc ?_ hmem hd (fun _ _ _ _ _ _ _ => trivial)
        unfold nameOf
        rw [ho]
        simp [Fits, head, qOf] at hf
        simp [hf.1]
      | _ => cases hp
    | @index q m items p z x i _ hc hi =>
      obtain ⟨A0, nm, rfl⟩ := haos _ _ _ _ _ _ hc
      obtain ⟨i', hi'⟩ : ∃ i', items.findIdx? (fun y => decide (y = some s)) = some i' := by
        cases e : items.findIdx? (fun y => decide (y = some s)) with
        | some i' => exact ⟨i', rfl⟩
        | none =>
          rw [List.findIdx?_eq_none_iff] at e
          have := e _ (List.mem_of_getElem? hi)
          simp at this
      have hi2 : items[i']? = some (some s) := by
        obtain ⟨hlt, h1, _⟩ := List.findIdx?_eq_some_iff_getElem.1 hi'
        rw [List.getElem?_eq_getElem hlt]
        simpa using h1
      have htx : pathText (A0 ++ [(nm, some i')]) = pathText (A0 ++ [(nm, none)]) ++ '[' :: idxText i' ++ [']'] := by
        rw [pathText_snoc, pathText_snoc]
        simp [pathText.suffix]
      refine ⟨A0 ++ [(nm, some i')], ?_, ?_, ?_, ?_⟩
      · unfold Place at hA ⊢
        rw [keys_append] at hA ⊢
        have := Path.append hA (.cons (.index hc hi2) .nil)
        simpa [keys] using this
      · right; rw [htx]; simp
      · intro n
        rw [hful n, hc]
        dsimp only
        rw [htx]
        simp only [Option.getD_some]
        rw [hi']
      · intro q m i p z x hg
        obtain ⟨o', ho', hf⟩ := L.fits _ _ _ _ hc (.index hi)
        rw [hg] at ho'; cases ho'
        cases hf

/-- **C77.** Take any program that does not put nodes at several places (`CarefulProg`), and any node `s` of an IDS `r` after it. The
parent of `s` is the node that holds it, its toplevel is `r`, its time mode and its Data Dictionary version are those of `r`, and its
full path names a place of `r` where `s` is. No other IDS contains `s`. -/
theorem C77_nodes (lazies : List (MFields × C)) (hw : ∀ x ∈ lazies, WFMFields x.1) (h0 : Heap V B W C)
    (env : List Ref) (h0e : opened lazies = (h0, env)) (ops : List (Op V B W)) (hc : CarefulProg E h0 env ops) (h : Heap V B W C)
    (hh : h = (prog E h0 env ops).1) (r s : Ref) (hr : IsIds h r) (K : List Key) (hp : Path h r K s) :
    (K = [] → getParent h s = .ok none) ∧
    (∀ K' k p, K = K' ++ [k] → Path h r K' p → getParent h s = .ok (some p)) ∧
    (∀ n, toplevelOf (K.length + n + 1) h s = .ok r) ∧
    (∀ n, timeModeOf E (K.length + n + 1) h s = walk E h r [(idsProperties, none), (homogeneousTime, none)]) ∧
    (∀ n, factoryOf (K.length + n) h s = factoryOf n h r) ∧
    ((∀ c n s, Slot h c (.field n) s → n ≠ []) →
      ∃ A, Place h r A s ∧ ∀ n, fullPath (K.length + n + 1) h s = .ok (pathText A)) ∧
    (∀ r' K', IsIds h r' → Path h r' K' s → r' = r) := by
  obtain ⟨a1, a2, a3⟩ := opened_linked (V := V) (B := B) (W := W) hw
  rw [h0e] at a1 a2 a3
  have L : Linked h := hh ▸ prog_linked a1 a2 a3 hc
  have htop : ∀ r n, IsIds h r → toplevelOf (n + 1) h r = .ok r := by
    rintro r n ⟨q, m, d, p, z, x, hg⟩
    unfold toplevelOf; rw [hg]
  have htl : ∀ n, toplevelOf (K.length + n + 1) h s = .ok r := by
    intro n
    rw [Nat.add_assoc, toplevel_climb L hp]; exact htop r n hr
  refine ⟨?_, ?_, htl, ?_, factory_climb L hp, ?_, ?_⟩
  · rintro rfl
    cases hp
    obtain ⟨q, m, d, p, z, x, hg⟩ := hr
    unfold getParent; rw [hg]
  · rintro K' k p rfl hp'
    obtain ⟨c, h1, h2⟩ := hp.split
    cases h1.fun hp'
    cases h2 with
    | cons hs hnil =>
    cases hnil
    obtain ⟨o, ho, hpo, _, ht⟩ := slot_up L hs
    unfold getParent
    rw [ho]
    split
    · next e => exact absurd (Option.some.inj e) (ht _ _ _ _ _ _)
    · next e => cases e; rw [hpo]
    · next e => cases e
  · intro n
    rw [Nat.add_assoc, timeMode_climb L hp]
    obtain ⟨q, m, d, p, z, x, hg⟩ := hr
    unfold timeModeOf; rw [hg]
  · intro hne
    obtain ⟨A, h1, _, h2, _⟩ := fullPath_climb L hr hne K.length K s rfl hp
    exact ⟨A, h1, h2⟩
  · intro r' K' hr' hp'
    have h1 := htl K'.length
    have h2 : toplevelOf (K'.length + K.length + 1) h s = .ok r' := by
      rw [Nat.add_assoc, toplevel_climb L hp']; exact htop r' _ hr'
    rw [Nat.add_comm K'.length, h1] at h2
    cases h2; rfl

/-! ### Example -/

namespace HeapNodeExample
open HeapExample (env fields l1)

/-- Create an IDS, make its array of structures longer, assign to a child of an element. -/
def before : List (Op (List Int) (List Int) Unit) :=
  [.newIds fields, .getAttr 0 ['t'], .resize 1 2 true, .getItem 1 1, .getAttr 2 ['c'], .array [5], .setValue 3 4, .newElement 1]

/-- Append a new structure, get its child. -/
def ops : List (Op (List Int) (List Int) Unit) := before ++ [.append 1 5, .getAttr 5 ['c']]

def after : Heap (List Int) (List Int) Unit Unit := (prog env Heap.empty [] ops).1

theorem wf : WFMFields fields := by
  simp [WFMFields, WFMeta, fields, mnames]

theorem unheld : Unheld (prog env (C := Unit) Heap.empty [] before).1 8 := by
  obtain ⟨a1, a2, a3⟩ := opened_linked (V := List Int) (B := List Int) (W := Unit) (C := Unit) (L := []) (by intro x hx; cases hx)
  have L : Linked (prog env (C := Unit) Heap.empty [] (before.take 7)).1 :=
    prog_linked a1 a2 a3 ⟨wf, trivial, trivial, trivial, trivial, trivial, trivial, trivial⟩
  exact alloc_unheld (o := .struct [['t']] (.cons ['c'] (.leaf l1) .nil) (fun _ => none) 2 false false none) L (by
    intro k s hs
    cases hs with
    | field hd => cases hd)

theorem careful : CarefulProg env (C := Unit) Heap.empty [] ops := by
  refine ⟨wf, trivial, trivial, trivial, trivial, trivial, trivial, trivial, ?_, trivial, trivial⟩
  intro a b ha hb
  have ha' : a = 2 := (Option.some.inj ha).symm
  have hb' : b = 8 := (Option.some.inj hb).symm
  subst ha' hb'
  refine ⟨?_, unheld⟩
  intro q m i p z x hg
  cases hg
  exact ⟨_, _, _, _, _, rfl⟩

/-- The new child is the only one of the third element of the array of structures. -/
theorem path : Path after 1 [.field ['t'], .index 2, .field ['c']] 9 :=
  .cons (.field rfl (by decide +kernel : _ ∈ mnames HeapExample.fields) rfl) (.cons (.index rfl rfl) (.cons (.field rfl
    (by decide +kernel : ['c'] ∈ mnames (.cons ['c'] (.leaf l1) .nil)) rfl) .nil))

theorem isIds : IsIds after 1 := ⟨_, _, _, _, _, _, rfl⟩

example : getParent after 9 = .ok (some 8) ∧ toplevelOf 4 after 9 = .ok 1 := by
  obtain ⟨_, h1, h2, _⟩ := C77_nodes [] (by intro x hx; cases hx) Heap.empty [] rfl ops careful after rfl 1 9 isIds _ path
  refine ⟨h1 [.field ['t'], .index 2] (.field ['c']) 8 rfl ?_, h2 0⟩
  exact .cons (.field rfl (by decide +kernel : _ ∈ mnames HeapExample.fields) rfl) (.cons (.index rfl rfl) .nil)

example : fullPath 4 after 9 = .ok "t[2]/c".toList := by with_unfolding_all rfl

end HeapNodeExample

/-- **C77, limit.** `aos[i] = s` stores the structure `s` without making `aos` its parent. After `a.t[0] = b.t[1]` (`a` is the object 1, `b`
the object 5), the node at `t[0]` of `a` reports `b` as its toplevel, and `"t[1]"` as its path. -/
theorem C77_item_limit :
    ∃ ops : List (Op (List Int) (List Int) Unit), ∃ s,
      IsIds (prog HeapExample.env (C := Unit) Heap.empty [] ops).1 1 ∧
      Place (prog HeapExample.env (C := Unit) Heap.empty [] ops).1 1 [(['t'], some 0)] s ∧
      toplevelOf 3 (prog HeapExample.env (C := Unit) Heap.empty [] ops).1 s = .ok 5 ∧
      fullPath 3 (prog HeapExample.env (C := Unit) Heap.empty [] ops).1 s = .ok "t[1]".toList :=
  ⟨[.newIds HeapExample.fields, .getAttr 0 ['t'], .resize 1 1 true, .newIds HeapExample.fields, .getAttr 2 ['t'], .resize 3 2 true,
    .getItem 3 1, .setItem 1 0 4], 8, ⟨_, _, _, _, _, _, rfl⟩,
    .cons (.field rfl (by decide +kernel : _ ∈ mnames HeapExample.fields) rfl) (.cons (.index rfl rfl) .nil), by with_unfolding_all rfl, by with_unfolding_all rfl⟩

/-- **C77, limit.** An element that is removed by `resize` still reports the array of structures as its parent, and no index. -/
theorem C77_removed_limit :
    ∃ ops : List (Op (List Int) (List Int) Unit), ∃ s,
      Unheld (prog HeapExample.env (C := Unit) Heap.empty [] ops).1 s ∧
      getParent (prog HeapExample.env (C := Unit) Heap.empty [] ops).1 s = .ok (some 2) ∧
      toplevelOf 3 (prog HeapExample.env (C := Unit) Heap.empty [] ops).1 s = .ok 1 ∧
      fullPath 3 (prog HeapExample.env (C := Unit) Heap.empty [] ops).1 s = .ok "t[?]".toList := by
  refine ⟨[.newIds HeapExample.fields, .getAttr 0 ['t'], .resize 1 1 true, .getItem 1 0, .resize 1 0 true], 3, ?_, by with_unfolding_all rfl,
    by with_unfolding_all rfl, by with_unfolding_all rfl⟩
  obtain ⟨a1, a2, a3⟩ := opened_linked (V := List Int) (B := List Int) (W := Unit) (C := Unit) (L := []) (by intro x hx; cases hx)
  intro r k hs
  have L := prog_linked (E := HeapExample.env) (ops := [.newIds HeapExample.fields, .getAttr 0 ['t'], .resize 1 1 true, .getItem 1 0,
    .resize 1 0 true]) a1 a2 a3 ⟨HeapNodeExample.wf, trivial, trivial, trivial, trivial, trivial⟩
  obtain ⟨o, ho, hp, _⟩ := slot_up L hs
  cases ho
  cases hp
  cases hs with
  | field hg => cases hg
  | index hg hi => cases hg; simp at hi

end Verif.Props
