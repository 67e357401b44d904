import Verif.Lemmas.HeapEnds
import Verif.Props.Diff
import Verif.Model.Hash
/-
C11: deep copies of IDSs are equal to the original and independent of it.
-/
namespace Verif.Props
open Verif.Ids Verif.Heap Verif.HeapSpec Verif.TreeSpec

section
variable {V B W C : Type} {M : Memory V B W} {h h' : Heap V B W C} {r y : Ref} {stack : Nat}

/-- Every heap that a program can make has no references to objects that do not exist: the hypothesis
`Sound` below holds in all states that can be reached. -/
theorem C11_sound (E : Env V B W C) (l : List (Bool × Op V B W)) :
    let w := run E ⟨HeapSpec.Heap.empty, [], []⟩ l
    Sound true w.heap ∧ (∀ a ∈ w.left, a < w.heap.next) ∧ (∀ a ∈ w.right, a < w.heap.next) := by
  have key : ∀ (l : List (Bool × Op V B W)) (w : World V B W C), Sound true w.heap →
      (∀ a ∈ w.left, a < w.heap.next) → (∀ a ∈ w.right, a < w.heap.next) →
      Sound true (run E w l).heap ∧ (∀ a ∈ (run E w l).left, a < (run E w l).heap.next) ∧
      (∀ a ∈ (run E w l).right, a < (run E w l).heap.next) := by
    intro l
    induction l with
    | nil => intro w h1 h2 h3; exact ⟨h1, h2, h3⟩
    | cons p rest ih =>
      obtain ⟨s, op⟩ := p
      intro w h1 h2 h3
      have st : ∀ A : List Ref, (∀ a ∈ A, a < w.heap.next) → Sound true (step E w.heap A op).1 ∧
          (∀ a ∈ (step E w.heap A op).2, a < (step E w.heap A op).1.next) ∧
          w.heap.next ≤ (step E w.heap A op).1.next := by
        intro A hA
        have o := exec_in (E := E) (all_good h1) (env := A) (fun r hr => ⟨trivial, hA r hr⟩) op (fun _ => rfl)
        have snd : Sound true (exec E w.heap A op).1 :=
          ⟨o.inside.good.above, fun a x hx e he => (o.inside.good.closed a x trivial hx e he).2⟩
        unfold step
        split
        · next h' new he =>
          rw [he] at snd o
          refine ⟨snd, ?_, o.inside.frame.next⟩
          intro a ha
          rcases List.mem_append.1 ha with ha | ha
          · exact Nat.lt_of_lt_of_le (hA a ha) o.inside.frame.next
          · exact (o.refs new rfl a ha).2
        · next h' e he =>
          rw [he] at snd o
          exact ⟨snd, fun a ha => Nat.lt_of_lt_of_le (hA a ha) o.inside.frame.next, o.inside.frame.next⟩
      cases s with
      | true =>
        obtain ⟨a, b, c⟩ := st w.left h2
        exact ih _ a b (fun x hx => Nat.lt_of_lt_of_le (h3 x hx) c)
      | false =>
        obtain ⟨a, b, c⟩ := st w.right h3
        exact ih _ a (fun x hx => Nat.lt_of_lt_of_le (h2 x hx) c) b
  exact key l _ ⟨fun _ _ => rfl, fun _ _ hx => nomatch hx⟩ (fun _ h => nomatch h) (fun _ h => nomatch h)

theorem deepcopyOp_ok (he : deepcopyOp M h stack r = (h', .ok [y])) :
    ∃ s', deepcopy M stack ⟨h, []⟩ r = .ok (s', y) ∧ s'.heap = h' := by
  unfold deepcopyOp at he
  split at he
  · next s z hd =>
    simp only [Prod.mk.injEq, Except.ok.injEq, List.cons.injEq, and_true] at he
    obtain ⟨rfl, rfl⟩ := he
    exact ⟨s, hd, rfl⟩
  · simp at he

theorem start (snd : Sound true h) : CopyState M h (⟨h, []⟩ : St V B W C) :=
  ⟨snd.above, (fresh_refl true h snd.above).weaken fun _ h => h.elim,
    (fun _ h => nomatch h), (fun _ h => nomatch h),
    fun o ho => by simp only [isLazy_eq, snd.above o ho]⟩

theorem shows_lt {n : Node V} (snd : Sound true h) (hn : Shows M h r n) : r < h.next := by
  refine Nat.lt_of_not_le fun hle => ?_
  have := snd.above r hle
  cases hn with | _ h => rw [this] at h; cases h

/-- **C11.** A deep copy shows the same tree as the original: the same nodes are filled, with the
same values. Nothing that existed before has changed, in particular not the original. -/
theorem C11_copy_same {n : Node V} (snd : Sound true h) (hp : Plain h [r]) (hn : Shows M h r n)
    (he : deepcopyOp M h stack r = (h', .ok [y])) :
    Shows M h' y n ∧ Shows M h' r n ∧ ∀ o, o < h.next → h'.get o = h.get o := by
  obtain ⟨s', hd, rfl⟩ := deepcopyOp_ok he
  obtain ⟨a, b, c⟩ := deepcopy_shows snd stack _ r s' y (start snd) hp (shows_lt snd hn) hd
  exact ⟨c.shows n hn, shows_mono a.kept hn, b.fresh.old⟩

/-- The tree an object shows is determined by the object, so "the same tree" in `C11_copy_same` is a
statement about all values below it. -/
theorem C11_shows_one_tree {n n' : Node V} (h1 : Shows M h r n) (h2 : Shows M h r n') : n = n' :=
  shows_unique h1 h2

/-- **C11.** Copying succeeds if the stack is large enough: for every IDS that is not lazy-loaded and
in which nodes are not below themselves. -/
theorem C11_succeeds {n : Node V} (snd : Sound true h) (hp : Plain h [r]) (hn : Shows M h r n) :
    ∃ k, ∀ stack, k ≤ stack → ∃ h' y, deepcopyOp M h stack r = (h', .ok [y]) := by
  obtain ⟨k, hk⟩ := deepcopy_ends (C := C) snd n
  refine ⟨k, ?_⟩
  intro stack hs
  obtain ⟨s', y, he⟩ := hk stack hs r hp (shows_lt snd hn) hn _ (start snd)
  exact ⟨s'.heap, y, by unfold deepcopyOp; rw [he]⟩

/-- **C11.** Nothing in the copy is lazy-loaded: the copy can be modified. -/
theorem C11_usable {n : Node V} (snd : Sound true h) (hp : Plain h [r]) (hn : Shows M h r n)
    (he : deepcopyOp M h stack r = (h', .ok [y])) : Plain h' [y] := by
  obtain ⟨s', hd, rfl⟩ := deepcopyOp_ok he
  obtain ⟨_, b, _⟩ := deepcopy_shows snd stack _ r s' y (start snd) hp (shows_lt snd hn) hd
  obtain ⟨f, hy, _⟩ := deepcopy_new (up := true) M h stack (fun _ => False) ⟨h, []⟩ r s' y
    (fresh_refl true h snd.above) (fun _ h => nomatch h) hd
  obtain ⟨x, p, hx, hxp⟩ : ∃ x p, h.get r = some x ∧ parentOf x = some p := by
    cases hn with | _ h => exact ⟨_, _, h, rfl⟩
  obtain ⟨x', hx', hp'⟩ := deepcopy_parent hx hxp hd
  have key : ∀ o, Reach true s'.heap [y] o → New h o ∨ Reach true h [r] o := by
    intro o ho
    induction ho with
    | here hm => cases List.mem_singleton.1 hm; exact .inl hy
    | @next o z e ho hz hr ih =>
      have old : ∀ x, o < h.next → h.get o = some x → x = z := by
        intro x hlt hx
        have := f.old o hlt
        rw [hx, hz] at this
        cases this; rfl
      have lt : ∀ x, h.get o = some x → o < h.next := by
        intro x hx
        refine Nat.lt_of_not_le fun hn => ?_
        rw [snd.above o hn] at hx; cases hx
      rcases ih with (hn | ⟨w, hw, hwi⟩) | hro
      · rcases refers_split.1 hr with hr | ⟨hu, hr⟩
        · exact .inl (f.refs o z hn hz e hr)
        · by_cases hoy : o = y
          · subst hoy
            rw [hx'] at hz; cases hz
            rw [hp'] at hr; cases hr
            exact .inr (.next (.here (List.mem_singleton.2 rfl)) hx (refers_split.2 (.inr ⟨rfl, hxp⟩)))
          · exact .inl (f.parents o z hn hz hu (fun h => h.elim id hoy) e hr)
      · cases old w (lt w hw) hw
        cases z <;> simp [Immutable, Refers] at hwi hr
      · have hlt : o < h.next := reach_lt snd (fun a ha => by
          cases List.mem_singleton.1 ha; exact shows_lt snd hn) hro
        exact .inr (hro.next ((f.old o hlt).symm.trans hz) hr)
  intro o ho
  rcases key o ho with (hn | ⟨w, hw, hwi⟩) | hro
  · exact b.plain o hn
  · have hlt : o < h.next := by
      refine Nat.lt_of_not_le fun hn => ?_
      rw [snd.above o hn] at hw; cases hw
    rw [isLazy_eq, f.old o hlt, hw]
    cases w <;> simp [Immutable] at hwi <;> rfl
  · have hlt : o < h.next := reach_lt snd (fun a ha => by
      cases List.mem_singleton.1 ha; exact shows_lt snd hn) hro
    rw [isLazy_eq, f.old o hlt, ← isLazy_eq]
    exact hp o hro

/-- **C11.** Deep copies of lazy-loaded structures are refused. -/
theorem C11_lazy_refused {q m d p t x} (hx : h.get r = some (.struct q m d p t true x)) :
    deepcopyOp M h (stack + 1) r = (h, .error .notImplemented) := by
  unfold deepcopyOp deepcopy
  simp only [List.lookup_nil, hx, if_true]

/-! ### Independence -/

variable {E : Env V B W C}

theorem act_apart {up : Bool} {w : World V B W C} (a : Apart up w.heap w.left w.right) (s : Bool) (op : Op V B W)
    (hu : op.climbs = true → up = true) :
    Apart up (act E w s op).heap (act E w s op).left (act E w s op).right ∧
    Agree up w.heap (act E w s op).heap (w.side (!s)) ∧ (act E w s op).side (!s) = w.side (!s) := by
  cases s with
  | true =>
    obtain ⟨h1, h2⟩ := step_apart (E := E) a op hu
    exact ⟨h1, h2, rfl⟩
  | false =>
    obtain ⟨h1, h2⟩ := step_apart (E := E) a.symm op hu
    exact ⟨h1.symm, h2, rfl⟩

theorem run_apart {up : Bool} {w : World V B W C} (a : Apart up w.heap w.left w.right) (l : List (Bool × Op V B W))
    (hu : ∀ p ∈ l, p.2.climbs = true → up = true) :
    Apart up (run E w l).heap (run E w l).left (run E w l).right := by
  induction l generalizing w with
  | nil => exact a
  | cons p rest ih =>
    obtain ⟨s, op⟩ := p
    exact ih (act_apart a s op (hu (s, op) (List.mem_cons_self ..))).1
      (fun p hp => hu p (List.mem_cons_of_mem _ hp))

theorem run_side {up : Bool} {w : World V B W C} (a : Apart up w.heap w.left w.right) (s : Bool)
    (l : List (Bool × Op V B W)) (hu : ∀ p ∈ l, p.2.climbs = true → up = true) (hs : ∀ p ∈ l, p.1 = s) :
    Agree up w.heap (run E w l).heap (w.side (!s)) ∧ (run E w l).side (!s) = w.side (!s) := by
  induction l generalizing w with
  | nil => exact ⟨fun _ _ => rfl, rfl⟩
  | cons p rest ih =>
    obtain ⟨s', op⟩ := p
    obtain rfl : s' = s := hs (s', op) (List.mem_cons_self ..)
    obtain ⟨h1, h2, h3⟩ := act_apart (E := E) a s' op (hu (s', op) (List.mem_cons_self ..))
    obtain ⟨h4, h5⟩ := ih h1 (fun p hp => hu p (List.mem_cons_of_mem _ hp))
      (fun p hp => hs p (List.mem_cons_of_mem _ hp))
    rw [h3] at h4 h5
    exact ⟨h2.trans h4, h5⟩

/-- **C11.** A deep copy of an IDS is independent of the original, and of everything else. One side starts
with the copy, the other with any objects that existed before (the original, nodes of it, arrays in
it, other IDSs). Both sides work on what they have, in any order: read, assign values, structures and
elements, resize, append, write to arrays in place, make views, load lazily, make further copies. At every
moment of such a history (`l`), whatever one side does next (`l'`), the other side sees no difference:
everything that it can reach is the same, and shows the same trees. -/
theorem C11_independent {q m d p z x} {A : List Ref} (snd : Sound true h) (hA : ∀ a ∈ A, a < h.next)
    (hx : h.get r = some (.struct q m d p true z x)) (hf : h.get p = some .factory)
    (he : deepcopyOp M h stack r = (h', .ok [y]))
    (l l' : List (Bool × Op V B W)) (s : Bool) (hs : ∀ p ∈ l', p.1 = s) :
    let w := run E ⟨h', A, [y]⟩ l
    let w' := run E w l'
    ∀ o, Reach true w.heap (w.side (!s)) o →
      Reach true w'.heap (w'.side (!s)) o ∧ w'.heap.get o = w.heap.get o ∧
      (∀ n, Shows M w'.heap o n ↔ Shows M w.heap o n) ∧ w'.heap.val M o = w.heap.val M o := by
  intro w w' o ho
  obtain ⟨s', hd, rfl⟩ := deepcopyOp_ok he
  have a := (deepcopy_apart (up := true) snd hA hx rfl (fun _ => ⟨_, hf, trivial⟩) hd).1
  have a2 : Apart true w.heap w.left w.right := run_apart (E := E) (w := ⟨s'.heap, A, [y]⟩) a l (fun _ _ _ => rfl)
  obtain ⟨h1, h2⟩ := run_side (E := E) a2 s l' (fun _ _ _ => rfl) hs
  refine ⟨?_, h1 o ho, fun n => shows_agree_iff h1 ho, val_agree h1 ho⟩
  show Reach true (run E w l').heap ((run E w l').side (!s)) o
  rw [h2]
  exact (reach_agree h1).2 ho

/-- **C11.** In particular: whatever is done to the original and the other objects, the copy shows what
the original showed when it was copied. -/
theorem C11_copy_keeps {q m d p z x} {A : List Ref} {n : Node V} (snd : Sound true h) (hA : ∀ a ∈ A, a < h.next)
    (hx : h.get r = some (.struct q m d p true z x)) (hf : h.get p = some .factory)
    (hp : Plain h [r]) (hn : Shows M h r n) (he : deepcopyOp M h stack r = (h', .ok [y]))
    (l : List (Op V B W)) :
    Shows M (run E ⟨h', A, [y]⟩ (l.map (true, ·))).heap y n := by
  have := C11_independent (E := E) (A := A) snd hA hx hf he [] (l.map (true, ·)) true (by
    intro p hp; obtain ⟨_, _, rfl⟩ := List.mem_map.1 hp; rfl) y (.here (List.mem_singleton.2 rfl))
  exact (this.2.2.1 n).2 (C11_copy_same snd hp hn he).1

/-- **C11.** And whatever is done to the copy, the original and all other objects show what they
showed when the copy was made. -/
theorem C11_original_keeps {q m d p z x} {A : List Ref} {o : Ref} {n : Node V} (snd : Sound true h)
    (hA : ∀ a ∈ A, a < h.next)
    (hx : h.get r = some (.struct q m d p true z x)) (hf : h.get p = some .factory)
    (ho : o ∈ A) (hn : Shows M h o n) (he : deepcopyOp M h stack r = (h', .ok [y]))
    (l : List (Op V B W)) :
    Shows M (run E ⟨h', A, [y]⟩ (l.map (false, ·))).heap o n := by
  have := C11_independent (E := E) (A := A) snd hA hx hf he [] (l.map (false, ·)) false (by
    intro p hp; obtain ⟨_, _, rfl⟩ := List.mem_map.1 hp; rfl) o (.here ho)
  refine (this.2.2.1 n).2 ?_
  obtain ⟨s', hd, rfl⟩ := deepcopyOp_ok he
  have old := (deepcopy_apart (up := true) snd hA hx rfl (fun _ => ⟨_, hf, trivial⟩) hd).2
  exact shows_agree (A := [o]) (up := true) (fun a ha => old a (reach_lt snd (fun b hb => by
    cases List.mem_singleton.1 hb; exact shows_lt snd hn) ha)) (.here (List.mem_singleton.2 rfl)) hn

/-- **C11.** Copies of structures and arrays of structures inside an IDS are independent as well, as long
as nobody follows references to parents: assignments to paths do (see the next theorem). -/
theorem C11_inner_independent {xo : Obj V B W C} {p : Ref} {A : List Ref} (snd : Sound true h) (hA : ∀ a ∈ A, a < h.next)
    (hx : h.get r = some xo) (hp : parentOf xo = some p)
    (he : deepcopyOp M h stack r = (h', .ok [y]))
    (l l' : List (Bool × Op V B W)) (hl : ∀ p ∈ l ++ l', p.2.climbs = false) (s : Bool) (hs : ∀ p ∈ l', p.1 = s) :
    let w := run E ⟨h', A, [y]⟩ l
    let w' := run E w l'
    ∀ o, Reach false w.heap (w.side (!s)) o →
      Reach false w'.heap (w'.side (!s)) o ∧ w'.heap.get o = w.heap.get o ∧
      (∀ n, Shows M w'.heap o n ↔ Shows M w.heap o n) ∧ w'.heap.val M o = w.heap.val M o := by
  intro w w' o ho
  obtain ⟨s', hd, rfl⟩ := deepcopyOp_ok he
  have hc : ∀ p ∈ l, p.2.climbs = true → false = true := by
    intro p hp h
    rw [hl p (List.mem_append_left _ hp)] at h; exact h
  have hc' : ∀ p ∈ l', p.2.climbs = true → false = true := by
    intro p hp h
    rw [hl p (List.mem_append_right _ hp)] at h; exact h
  have a := (deepcopy_apart (up := false) snd hA hx hp (fun h => nomatch h) hd).1
  have a2 : Apart false w.heap w.left w.right := run_apart (E := E) (w := ⟨s'.heap, A, [y]⟩) a l hc
  obtain ⟨h1, h2⟩ := run_side (E := E) a2 s l' hc' hs
  refine ⟨?_, h1 o ho, fun n => shows_agree_iff h1 ho, val_agree h1 ho⟩
  show Reach false (run E w l').heap ((run E w l').side (!s)) o
  rw [h2]
  exact (reach_agree h1).2 ho

/-- The copy of a node inside an IDS has the parent of the original: from it one can get to the
original IDS (its path, its coordinates and its time mode are those in the original IDS). -/
theorem C11_inner_parent_limit {xo : Obj V B W C} {p : Ref} (hx : h.get r = some xo) (hp : parentOf xo = some p)
    (he : deepcopyOp M h stack r = (h', .ok [y])) : Reach true h' [y] p := by
  obtain ⟨s', hd, rfl⟩ := deepcopyOp_ok he
  obtain ⟨x', hx', hp'⟩ := deepcopy_parent hx hp hd
  exact .next (.here (List.mem_singleton.2 rfl)) hx' (refers_split.2 (.inr ⟨rfl, hp'⟩))

end

/-! ### Example -/

namespace HeapExample

/-- Values are lists of integers, and every array looks at all of its memory. -/
def mem : Memory (List Int) (List Int) Unit := ⟨fun b _ => b, fun v => (v, ()), fun _ => rfl⟩

def env : Env (List Int) (List Int) Unit Unit where
  mem := mem
  loader := ⟨fun _ _ _ => none, fun _ _ => none, fun _ => none, fun _ _ => none⟩
  cast := fun _ _ => .same
  isDefault := fun _ _ => false
  default := fun _ => []

def l1 : LeafMeta := ⟨.flt, 1, false⟩

/-- An IDS with an array `a` and an array of structures `t` with an array `c`. -/
def fields : MFields :=
  .cons ['a'] (.leaf l1) (.cons ['s'] (.struct (.cons ['b'] (.leaf l1) .nil))
    (.cons ['t'] (.aos (.cons ['c'] (.leaf l1) .nil)) .nil))

/-- Create an IDS, assign one array object to two of its nodes. -/
def prog : List (Bool × Op (List Int) (List Int) Unit) :=
  [.newIds fields, .array [1, 2], .setAttr 0 ['a'] 1, .getAttr 0 ['t'], .resize 2 2 true, .getItem 2 0,
    .setAttr 3 ['c'] 1].map (true, ·)

def world : World (List Int) (List Int) Unit Unit := run env ⟨HeapSpec.Heap.empty, [], []⟩ prog

def tree : Node (List Int) :=
  .struct (.present ['a'] (.leaf l1 (some [1, 2])) (.absent ['s'] (.struct (.cons ['b'] (.leaf l1) .nil))
    (.present ['t'] (.aos (.cons ['c'] (.leaf l1) .nil)
      (.cons (.present ['c'] (.leaf l1 (some [1, 2])) .nil)
        (.cons (.absent ['c'] (.leaf l1) .nil) .nil))) .nil)))

theorem next_eq : world.heap.next = 9 := by rfl

theorem plain : Plain world.heap [1] := by
  intro o _
  have snd := (C11_sound env prog).1
  by_cases ho : o < 9
  · have : ∀ o : Fin 9, world.heap.isLazy o.1 = false := by decide +kernel
    exact this ⟨o, ho⟩
  · have := snd.above o (Nat.le_trans (Nat.le_of_eq next_eq) (Nat.le_of_not_lt ho))
    rw [isLazy_eq]
    have e : world.heap.get o = none := this
    rw [e]

theorem shows : Shows mem world.heap 1 tree :=
  .struct rfl (.present rfl (.leaf rfl rfl) (.absent rfl (.present rfl (.aos rfl
    (.cons (.struct rfl (.present rfl (.leaf rfl rfl) .nil))
      (.cons (.struct rfl (.absent rfl .nil)) .nil))) .nil)))

/-- The hypotheses of `C11_copy_same`, `C11_succeeds`, `C11_usable`, `C11_independent`,
`C11_copy_keeps` and `C11_original_keeps` are met. -/
example : ∃ q m d p z x, Sound true world.heap ∧ Plain world.heap [1] ∧ Shows mem world.heap 1 tree ∧
    world.heap.get 1 = some (.struct q m d p true z x) ∧ world.heap.get p = some .factory ∧
    (1 ∈ world.left ∧ ∀ a ∈ world.left, a < world.heap.next) ∧
    ∃ h' y, deepcopyOp mem world.heap 10 1 = (h', .ok [y]) :=
  ⟨_, _, _, _, _, _, (C11_sound env prog).1, plain, shows, rfl, rfl,
    ⟨by decide +kernel, (C11_sound env prog).2.1⟩, _, _, rfl⟩

/-- Writing to the array in place changes both nodes of the original, and no node of the copy. Here the
copy has the array once, too. -/
example :
    let w := run env ⟨(deepcopyOp mem world.heap 10 1).1, world.left, [9]⟩ [(true, .write 1 [5] ())]
    ((w.heap.val mem 3, w.heap.val mem 11) : Option (List Int) × Option (List Int)) = (some [5], some [1, 2]) := by
  decide +kernel

/-- Copies of inner nodes: the hypotheses of `C11_inner_independent` and `C11_inner_parent_limit`. -/
example : ∃ r x p, world.heap.get r = some x ∧ parentOf x = some p ∧
    ∃ h' y, deepcopyOp mem world.heap 10 r = (h', .ok [y]) :=
  ⟨5, _, _, rfl, rfl, _, _, rfl⟩

/-- A lazy-loaded structure, as in `C11_lazy_refused`. -/
example : (deepcopyOp mem ⟨2, fun o => if o = 0 then some .factory else if o = 1 then
    some (.struct [] fields (fun _ => none) 0 true true (some ())) else none⟩ 1 1).2 =
    (.error .notImplemented : Except Err (List Ref)) := rfl

end HeapExample

/-! ### Equality and hashes -/

section
variable {F B W C : Type} [FloatModel F] {M : Memory (Val F) B W} {h h' : Heap (Val F) B W C} {r y : Ref} {stack : Nat}

/-- **C11.** The copy compares equal to the original, and has the same hash. -/
theorem C11_equal {c : Fields (Val F)} (snd : Sound true h) (hp : Plain h [r]) (hn : Shows M h r (.struct c))
    (hc : WFFields c) (he : deepcopyOp M h stack r = (h', .ok [y])) (p : Position) (H : Hasher F) (name : Name) :
    ∃ c', Shows M h' y (.struct c') ∧ structEq valEq p p c c' = true ∧ structEq valEq p p c' c = true ∧
      calcHash H name c' = calcHash H name c := by
  refine ⟨c, (C11_copy_same snd hp hn he).1, C12_reflexive p c hc, C12_reflexive p c hc, rfl⟩

/-- An IDS with one node that holds an integer meets the hypotheses of `C11_equal`. -/
example : ∃ (M : Memory (Val F) (Val F) Unit) (h h' : Heap (Val F) (Val F) Unit Unit) (y : Ref) (c : Fields (Val F)),
    Sound true h ∧ Plain h [1] ∧ Shows M h 1 (.struct c) ∧ WFFields c ∧ c ≠ .nil ∧
      deepcopyOp M h 10 1 = (h', .ok [y]) := by
  let M : Memory (Val F) (Val F) Unit := ⟨fun b _ => b, fun v => (v, ()), fun _ => rfl⟩
  let l : LeafMeta := ⟨.int, 0, false⟩
  let v : Val F := .int 3
  let objs : List (Obj (Val F) (Val F) Unit Unit) :=
    [.factory, .struct [] (.cons ['a'] (.leaf l) .nil) (fun n => if n = ['a'] then some 2 else none) 0 true false none,
      .leaf l (some 3) 1, .const v]
  let h : Heap (Val F) (Val F) Unit Unit := ⟨4, fun o => objs[o]?⟩
  have get4 : ∀ o x, h.get o = some x → o < 4 := by
    intro o x hx
    obtain ⟨hlt, _⟩ := List.getElem?_eq_some_iff.1 hx
    exact hlt
  refine ⟨M, h, _, _, .present ['a'] (.leaf l (some v)) .nil, ⟨?_, ?_⟩, ?_, ?_, ?_, ?_, rfl⟩
  · intro o ho
    exact List.getElem?_eq_none ho
  · intro o x hx e he
    have := get4 o x hx
    show e < 4
    rcases o with _ | _ | _ | _ | o
    · cases hx; cases he
    · cases hx
      rcases he with ⟨n, hn⟩ | ⟨_, rfl⟩
      · simp only at hn
        split at hn
        · cases hn; decide
        · cases hn
      · decide
    · cases hx
      rcases he with hn | ⟨_, rfl⟩
      · cases hn; decide
      · decide
    · cases hx; cases he
    · exact absurd this (by simp)
  · intro o _
    cases hx : h.get o with
    | none => simp only [isLazy_eq, hx]
    | some x =>
      have := get4 o x hx
      rcases o with _ | _ | _ | _ | o
      · rfl
      · rfl
      · rfl
      · rfl
      · exact absurd this (by simp)
  · exact .struct (rfl : h.get 1 = _) (.present rfl (.leaf (rfl : h.get 2 = _) rfl) .nil)
  · simp [WFFields, WF, Fields.names]
  · exact fun h => nomatch h

end

end Verif.Props
