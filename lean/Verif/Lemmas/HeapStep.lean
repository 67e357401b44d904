import Verif.Lemmas.HeapShows
namespace Verif.Heap
open Verif.Ids Verif.HeapSpec

variable {V B W C : Type} {up : Bool} {M : Memory V B W} {E : Env V B W C} {h0 h h' h'' : Heap V B W C}

/-! ### An object shows one tree -/

mutual
theorem shows_unique {r : Ref} {n n' : Node V} : Shows M h r n → Shows M h r n' → n = n'
  | .unset hx, h2 => by
    cases h2 with
    | unset h => rw [hx] at h; cases h; rfl
    | leaf h => rw [hx] at h; cases h
    | struct h => rw [hx] at h; cases h
    | aos h => rw [hx] at h; cases h
  | .leaf hx hv, h2 => by
    cases h2 with
    | unset h => rw [hx] at h; cases h
    | leaf h hv' => rw [hx] at h; cases h; rw [hv] at hv'; cases hv'; rfl
    | struct h => rw [hx] at h; cases h
    | aos h => rw [hx] at h; cases h
  | .struct hx hc, h2 => by
    cases h2 with
    | unset h => rw [hx] at h; cases h
    | leaf h => rw [hx] at h; cases h
    | struct h hc' => rw [hx] at h; cases h; rw [showsFields_unique hc hc']
    | aos h => rw [hx] at h; cases h
  | .aos hx hc, h2 => by
    cases h2 with
    | unset h => rw [hx] at h; cases h
    | leaf h => rw [hx] at h; cases h
    | struct h => rw [hx] at h; cases h
    | aos h hc' => rw [hx] at h; cases h; rw [showsElems_unique hc hc']
theorem showsFields_unique {d : Name → Option Ref} {m : MFields} {c c' : Fields V} :
    ShowsFields M h d m c → ShowsFields M h d m c' → c = c'
  | .nil, h2 => by cases h2; rfl
  | .absent hd hc, h2 => by
    cases h2 with
    | absent _ hc' => rw [showsFields_unique hc hc']
    | present hd' => rw [hd] at hd'; cases hd'
  | .present hd hx hc, h2 => by
    cases h2 with
    | absent hd' => rw [hd] at hd'; cases hd'
    | present hd' hx' hc' =>
      rw [hd] at hd'; cases hd'
      rw [showsFields_unique hc hc', shows_unique hx hx']
theorem showsElems_unique {l : List (Option Ref)} {e e' : Elems V} :
    ShowsElems M h l e → ShowsElems M h l e' → e = e'
  | .nil, h2 => by cases h2; rfl
  | .cons hx hc, h2 => by
    cases h2 with
    | cons hx' hc' =>
      have := shows_unique hx hx'
      cases this
      rw [showsElems_unique hc hc']
end

/-! ### Objects that cannot be reached do not matter -/

/-- Heaps agree about what can be reached from `A`. -/
def Agree (up : Bool) (h h' : Heap V B W C) (A : List Ref) : Prop :=
  ∀ o, Reach up h A o → h'.get o = h.get o

theorem refers_up {x : Obj V B W C} {e : Ref} (hr : Refers false x e) : Refers up x e := by
  rw [refers_split]; exact .inl hr

theorem val_agree {A : List Ref} (a : Agree up h h' A) {r : Ref} (hr : Reach up h A r) :
    h'.val M r = h.val M r := by
  unfold Heap.val
  rw [a r hr]
  split
  · rfl
  · next b w hx => rw [a b (hr.next hx (by simp [Refers]))]
  · rfl

mutual
theorem shows_agree {A : List Ref} (a : Agree up h h' A) {r : Ref} (hr : Reach up h A r) {n : Node V} :
    Shows M h r n → Shows M h' r n
  | .unset hx => .unset ((a r hr).trans hx)
  | .leaf hx hv => by
    refine .leaf ((a r hr).trans hx) ?_
    rw [val_agree a (hr.next hx (.inl rfl))]
    exact hv
  | .struct hx hc => .struct ((a r hr).trans hx)
      (showsFields_agree a (fun n e he => hr.next hx (.inl ⟨n, he⟩)) hc)
  | .aos hx hc => .aos ((a r hr).trans hx)
      (showsElems_agree a (fun e he => hr.next hx (.inl ⟨_, rfl, he⟩)) hc)
theorem showsFields_agree {A : List Ref} (a : Agree up h h' A) {d : Name → Option Ref}
    (hd : ∀ n e, d n = some e → Reach up h A e) {m : MFields} {c : Fields V} :
    ShowsFields M h d m c → ShowsFields M h' d m c
  | .nil => .nil
  | .absent hn hc => .absent hn (showsFields_agree a hd hc)
  | .present hn hx hc => .present hn (shows_agree a (hd _ _ hn) hx) (showsFields_agree a hd hc)
theorem showsElems_agree {A : List Ref} (a : Agree up h h' A) {l : List (Option Ref)}
    (hd : ∀ e, some e ∈ l → Reach up h A e) {c : Elems V} : ShowsElems M h l c → ShowsElems M h' l c
  | .nil => .nil
  | .cons hx hc => .cons (shows_agree a (hd _ (List.mem_cons_self ..)) hx)
      (showsElems_agree a (fun e he => hd e (List.mem_cons_of_mem _ he)) hc)
end

/-- The same objects can be reached. -/
theorem reach_agree {A : List Ref} (a : Agree up h h' A) {o : Ref} : Reach up h' A o ↔ Reach up h A o := by
  constructor
  · intro r
    induction r with
    | here hm => exact .here hm
    | next _ hx hr ih => exact ih.next ((a _ ih).symm.trans hx) hr
  · intro r
    induction r with
    | here hm => exact .here hm
    | next hprev hx hr ih => exact ih.next ((a _ hprev).trans hx) hr

theorem Agree.symm {A : List Ref} (a : Agree up h h' A) : Agree up h' h A :=
  fun o ho => (a o ((reach_agree a).1 ho)).symm

theorem Agree.trans {A : List Ref} (a : Agree up h h' A) (b : Agree up h' h'' A) : Agree up h h'' A :=
  fun o ho => (b o ((reach_agree a).2 ho)).trans (a o ho)

theorem shows_agree_iff {A : List Ref} (a : Agree up h h' A) {r : Ref} (hr : Reach up h A r) {n : Node V} :
    Shows M h' r n ↔ Shows M h r n :=
  ⟨shows_agree a.symm ((reach_agree a).2 hr), shows_agree a hr⟩

/-! ### One step of a program -/

theorem _root_.Verif.HeapSpec.Sound.weaken (s : Sound true h) (up : Bool) : Sound up h :=
  ⟨s.above, fun o x hx e he => s.refs o x hx e (by
    rcases refers_split.1 he with h | ⟨_, h⟩
    · exact refers_up h
    · exact refers_split.2 (.inr ⟨rfl, h⟩))⟩

theorem reach_lt (s : Sound up h) {A : List Ref} (hA : ∀ a ∈ A, a < h.next) {o : Ref} (r : Reach up h A o) :
    o < h.next := by
  induction r with
  | here hm => exact hA _ hm
  | next _ hx hr _ => exact s.refs _ _ hx _ hr

/-- What a program can get at, now and later. -/
def Scope (up : Bool) (h : Heap V B W C) (A : List Ref) (o : Ref) : Prop := Reach up h A o ∨ h.next ≤ o

theorem scope_good (s : Sound up h) {A : List Ref} (hA : ∀ a ∈ A, a < h.next) : Good up (Scope up h A) h := by
  refine ⟨s.above, fun _ => .inr, ?_⟩
  rintro o x (hr | hn) hx e he
  · exact ⟨.inl (hr.next hx he), s.refs o x hx e he⟩
  · rw [s.above o hn] at hx; cases hx

theorem all_good (s : Sound up h) : Good up (fun _ => True) h :=
  ⟨s.above, fun _ _ => trivial, fun o x _ hx e he => ⟨trivial, s.refs o x hx e he⟩⟩

/-- The objects of a program exist, and what it can get at is not what another program can get at. -/
structure Apart (up : Bool) (h : Heap V B W C) (A A' : List Ref) : Prop where
  sound : Sound up h
  left : ∀ a ∈ A, a < h.next
  right : ∀ a ∈ A', a < h.next
  sep : Separate up h A A'

theorem Apart.symm {A A' : List Ref} (a : Apart up h A A') : Apart up h A' A :=
  ⟨a.sound, a.right, a.left, fun o x h1 h2 hx => a.sep o x h2 h1 hx⟩

theorem step_apart {A A' : List Ref} (a : Apart up h A A') (op : Op V B W) (hu : op.climbs = true → up = true) :
    Apart up (step E h A op).1 (step E h A op).2 A' ∧ Agree up h (step E h A op).1 A' := by
  have o1 := exec_in (E := E) (scope_good a.sound a.left) (env := A)
    (fun r hr => ⟨.inl (.here hr), a.left r hr⟩) op hu
  have o2 := exec_in (E := E) (all_good a.sound) (env := A) (fun r hr => ⟨trivial, a.left r hr⟩) op hu
  have key : ∀ h' new, (∀ r ∈ new, Has (Scope up h A) h' r) → Inside up (Scope up h A) h h' →
      Inside up (fun _ => True) h h' → Apart up h' (A ++ new) A' ∧ Agree up h h' A' := by
    intro h' new hnew i1 i2
    have agree : Agree up h h' A' := by
      intro o ho
      have hlt := reach_lt a.sound a.right ho
      by_cases hs : Scope up h A o
      · rcases hs with hs | hs
        · cases hx : h.get o with
          | none => rw [i1.frame.hole o hlt hx]
          | some x => rw [i1.frame.fixed o x hx (a.sep o x hs ho hx)]
        · exact absurd hlt (Nat.not_lt.2 hs)
      · exact i1.frame.same o hs
    have hreach : ∀ o, Reach up h' (A ++ new) o → Scope up h A o := by
      intro o ho
      induction ho with
      | here hm =>
        rcases List.mem_append.1 hm with hm | hm
        · exact .inl (.here hm)
        · exact (hnew _ hm).1
      | next _ hx hr ih => exact (i1.good.closed _ _ ih hx _ hr).1
    refine ⟨⟨⟨i2.good.above, fun o x hx e he => (i2.good.closed o x trivial hx e he).2⟩, ?_, ?_, ?_⟩, agree⟩
    · intro r hr
      rcases List.mem_append.1 hr with hr | hr
      · exact Nat.lt_of_lt_of_le (a.left r hr) i1.frame.next
      · exact (hnew r hr).2
    · intro r hr
      exact Nat.lt_of_lt_of_le (a.right r hr) i1.frame.next
    · intro o x h1 h2 hx
      have h2' := (reach_agree agree).1 h2
      rw [agree o h2'] at hx
      rcases hreach o h1 with h1 | h1
      · exact a.sep o x h1 h2' hx
      · exact absurd (reach_lt a.sound a.right h2') (Nat.not_lt.2 h1)
  unfold step
  split
  · next h' new he =>
    have := o1.refs new (by rw [he])
    rw [he] at o1 o2 this
    exact key h' new this o1.inside o2.inside
  · next h' e he =>
    rw [he] at o1 o2
    have := key h' [] (by intro r hr; cases hr) o1.inside o2.inside
    rw [List.append_nil] at this
    exact this

/-! ### A copy is apart from everything else -/

/-- The copy of a node has the parent of the original. -/
theorem deepcopy_parent {fuel : Nat} {r y p : Ref} {x : Obj V B W C} {s' : St V B W C}
    (hx : h.get r = some x) (hp : parentOf x = some p) (he : deepcopy M fuel ⟨h, []⟩ r = .ok (s', y)) :
    ∃ x', s'.heap.get y = some x' ∧ parentOf x' = some p := by
  cases fuel with
  | zero => cases he
  | succ fuel =>
    unfold deepcopy at he
    simp only [List.lookup_nil, hx] at he
    split at he
    · next v hv => cases hv; cases hp
    · next b w hv => cases hv; cases hp
    · next l p hv =>
      cases hv
      simp only [Except.ok.injEq] at he
      have := congrArg Prod.fst he; have h2 := congrArg Prod.snd he
      simp only at this h2
      subst this; subst h2
      exact ⟨_, alloc_get _ _, hp⟩
    · next l v p hv =>
      cases hv
      obtain ⟨⟨s1, b⟩, h1, he⟩ := bind_ok he
      simp only [Except.ok.injEq] at he
      have := congrArg Prod.fst he; have h2 := congrArg Prod.snd he
      simp only at this h2
      subst this; subst h2
      exact ⟨_, alloc_get _ _, hp⟩
    · next hv =>
      cases hv
      split at he
      · cases he
      · obtain ⟨⟨s1, k⟩, h1, he⟩ := bind_ok he
        simp only [Except.ok.injEq] at he
        have := congrArg Prod.fst he; have h2 := congrArg Prod.snd he
        simp only at this h2
        subst this; subst h2
        exact ⟨_, set_get .., hp⟩
    · cases he
    · next hv =>
      cases hv
      split at he
      · split at he
        · simp only [Except.ok.injEq] at he
          have := congrArg Prod.fst he; have h2 := congrArg Prod.snd he
          simp only at this h2
          subst this; subst h2
          exact ⟨_, alloc_get _ _, hp⟩
        · cases he
        · obtain ⟨_, _, he⟩ := bind_ok he; cases he
      · obtain ⟨⟨s1, k⟩, h1, he⟩ := bind_ok he
        simp only [Except.ok.injEq] at he
        have := congrArg Prod.fst he; have h2 := congrArg Prod.snd he
        simp only at this h2
        subst this; subst h2
        exact ⟨_, set_get .., hp⟩
    · cases he
    · cases he
    · cases he

theorem fresh_refl (up : Bool) (h : Heap V B W C) (ha : ∀ o, h.next ≤ o → h.get o = none) :
    Fresh up h (fun _ => False) h := by
  refine ⟨Nat.le_refl _, fun _ _ => rfl, ?_, ?_⟩
  · intro o x ho hx; rw [ha o ho] at hx; cases hx
  · intro o x ho hx; rw [ha o ho] at hx; cases hx

/-- If the parent does not count or is immutable, the copy reaches new and immutable objects only. -/
theorem deepcopy_apart {fuel : Nat} {r y p : Ref} {x : Obj V B W C} {s' : St V B W C} {A : List Ref}
    (snd : Sound true h) (hA : ∀ a ∈ A, a < h.next) (hx : h.get r = some x) (hp : parentOf x = some p)
    (hi : up = true → ∃ o, h.get p = some o ∧ Immutable o)
    (he : deepcopy M fuel ⟨h, []⟩ r = .ok (s', y)) :
    Apart up s'.heap A [y] ∧ ∀ o, o < h.next → s'.heap.get o = h.get o := by
  obtain ⟨f, hy, _⟩ := deepcopy_new (up := up) M h fuel (fun _ => False) ⟨h, []⟩ r s' y
    (fresh_refl up h snd.above) (fun _ h => nomatch h) he
  have hr : r < h.next := by
    refine Nat.lt_of_not_le fun hn => ?_
    rw [snd.above r hn] at hx; cases hx
  obtain ⟨i, hy', _⟩ := deepcopy_in (C := C) (up := up) (U := fun _ => True) M fuel ⟨h, []⟩ r s' y
    (all_good (snd.weaken up)) ⟨trivial, hr⟩ (fun _ h => nomatch h) he
  obtain ⟨x', hx', hp'⟩ := deepcopy_parent hx hp he
  have snd' : Sound up s'.heap := ⟨i.good.above, fun o x hx e he => (i.good.closed o x trivial hx e he).2⟩
  have hA' : ∀ a ∈ A, a < s'.heap.next := fun a ha => Nat.lt_of_lt_of_le (hA a ha) f.next
  have agree : Agree up h s'.heap A := fun o ho => f.old o (reach_lt (snd.weaken up) hA ho)
  have reach : ∀ o, Reach up s'.heap [y] o → New h o := by
    intro o ho
    induction ho with
    | here hm => cases List.mem_singleton.1 hm; exact hy
    | @next o z e ho hz hr ih =>
      rcases ih with hn | ⟨w, hw, hwi⟩
      · rcases refers_split.1 hr with hr | ⟨hu, hr⟩
        · exact f.refs o z hn hz e hr
        · by_cases hoy : o = y
          · subst hoy
            rw [hx'] at hz; cases hz
            rw [hp'] at hr; cases hr
            obtain ⟨o', ho', hi'⟩ := hi hu
            exact .inr ⟨o', ho', hi'⟩
          · exact f.parents o z hn hz hu (fun h => h.elim id hoy) e hr
      · have : o < h.next := by
          refine Nat.lt_of_not_le fun hn => ?_
          rw [snd.above o hn] at hw; cases hw
        rw [f.old o this, hw] at hz
        cases hz
        cases z <;> simp [Immutable, Refers] at hwi hr
  refine ⟨⟨snd', hA', ?_, ?_⟩, f.old⟩
  · intro a ha; cases List.mem_singleton.1 ha; exact hy'.2
  · intro o z h1 h2 hz
    have h1' := reach_lt (snd.weaken up) hA ((reach_agree agree).1 h1)
    rcases reach o h2 with hn | ⟨w, hw, hwi⟩
    · exact absurd h1' (Nat.not_lt.2 hn)
    · rw [f.old o h1', hw] at hz; cases hz; exact hwi

end Verif.Heap
