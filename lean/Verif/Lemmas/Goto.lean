import Verif.Spec.Goto
namespace Verif.Ids
open Verif.Path (Idx Parsed) 
open Verif.GotoSpec

variable {V : Type}

theorem Node.at_append (n : Node V) (a b : Addr) : n.at (a ++ b) = (n.at a).bind (·.at b) := by
  induction a generalizing n with
  | nil => simp [Node.at]
  | cons s a ih =>
    simp only [List.cons_append, Node.at]
    cases n.item s with
    | none => simp
    | some x => simp [ih]

theorem climb_eq (a : Addr) (n : Nat) : climb a n = a.take (a.length - n) := by
  induction n generalizing a with
  | zero => simp [climb]
  | succ n ih =>
    simp only [climb, ih, List.dropLast_eq_take, List.length_take, List.take_take]
    congr 1; omega

theorem pyIndex_iff {len : Nat} {i : Int} {k : Nat} :
    pyIndex len i = some k ↔ Position len i k := by
  unfold pyIndex Position
  split
  · split
    · simp; omega
    · simp; omega
  · split
    · simp; omega
    · simp; omega

theorem at_single (root : Node V) (a : Addr) (s : Name × Option Nat) :
    root.at (a ++ [s]) = (root.at a).bind (·.item s) := by
  rw [Node.at_append]
  congr 1
  funext x
  simp [Node.at]

/-- One step of the loop, with an evaluated index. -/
def stepInt (root : Node V) (a : Addr) (n : Name) (i : Option Int) : Except NavErr Addr :=
  match getAttr root a n with
  | .error e => .error e
  | .ok b =>
    match i with
    | none => .ok b
    | some i => getItem root b i

theorem getAttr_iff {root : Node V} {a b : Addr} {n : Name} :
    getAttr root a n = .ok b ↔ b = a ++ [(n, none)] ∧ ∃ x, root.at b = some x := by
  unfold getAttr
  constructor
  · intro h
    split at h
    · next c hc =>
      split at h
      · next x hx =>
        simp at h; subst h
        refine ⟨rfl, x, ?_⟩
        rw [at_single, hc]
        simp [Node.item, hx]
      · simp at h
    · simp at h
  · rintro ⟨rfl, x, hx⟩
    rw [at_single] at hx
    cases hr : root.at a with
    | none => rw [hr] at hx; simp at hx
    | some y =>
      rw [hr] at hx
      simp only [Option.bind_some, Node.item] at hx
      split at hx
      · next c =>
        split at hx
        · simp at hx
        · next hg _ => simp [hg]
        · simp_all
        · simp_all
      · simp at hx

theorem getItem_iff {root : Node V} {a b : Addr} {n : Name} {i : Int} :
    getItem root (a ++ [(n, none)]) i = .ok b ↔
      ∃ m e k, root.at (a ++ [(n, none)]) = some (.aos m e) ∧ Position e.length i k ∧
        b = a ++ [(n, some k)] := by
  unfold getItem
  simp only [List.getLast?_append, List.getLast?_singleton, Option.some_or,
    List.dropLast_concat]
  cases hr : root.at (a ++ [(n, none)]) with
  | none => simp
  | some x =>
    cases x with
    | leaf l v => simp
    | struct c => simp
    | aos m e =>
      simp only []
      constructor
      · intro h
        split at h
        · next k hk => simp at h; exact ⟨m, e, k, rfl, pyIndex_iff.mp hk, h.symm⟩
        · simp at h
      · rintro ⟨m', e', k, h1, h2, rfl⟩
        simp at h1
        obtain ⟨rfl, rfl⟩ := h1
        rw [pyIndex_iff.mpr h2]

theorem stepInt_iff {root : Node V} {a b : Addr} {n : Name} {i : Option Int} :
    stepInt root a n i = .ok b ↔ Access root a n i b := by
  unfold stepInt
  constructor
  · intro h
    split at h
    · simp at h
    · next c hc =>
      obtain ⟨rfl, x, hx⟩ := getAttr_iff.mp hc
      cases i with
      | none => simp at h; subst h; exact .attr hx
      | some i =>
        obtain ⟨m, e, k, h1, h2, rfl⟩ := getItem_iff.mp h
        exact .item h1 h2
  · intro h
    cases h with
    | attr hx => rw [getAttr_iff.mpr ⟨rfl, _, hx⟩]
    | item hx hk =>
      rw [getAttr_iff.mpr ⟨rfl, _, hx⟩]
      exact getItem_iff.mpr ⟨_, _, _, hx, hk, rfl⟩

/-- Index evaluation of the loop, given the evaluation of nested paths. -/
inductive Evals (nested : Parsed → Except NavErr Int) :
    List (Name × Option Idx) → List (Name × Option Int) → Prop
  | nil : Evals nested [] []
  | none {n : Name} {r : List (Name × Option Idx)} {items : List (Name × Option Int)} :
      Evals nested r items → Evals nested ((n, none) :: r) ((n, none) :: items)
  | num {n : Name} {i : Int} {r : List (Name × Option Idx)} {items : List (Name × Option Int)} :
      Evals nested r items → Evals nested ((n, some (.num i)) :: r) ((n, some i) :: items)
  | path {n : Name} {ps : List Name} {is : List (Option Idx)} {v : Int}
      {r : List (Name × Option Idx)} {items : List (Name × Option Int)} :
      nested ⟨ps, is⟩ = .ok v → Evals nested r items →
      Evals nested ((n, some (.path ps is)) :: r) ((n, some (v - 1)) :: items)

theorem loop_some {nested : Parsed → Except NavErr Int} {root : Node V} {start : Addr}
    {fp : List Name} (items : List (Name × Option Idx)) (i : Nat) (a : Addr) (r : Option Addr) :
    gotoLoop nested root start fp i (some a) items = .ok r ↔
      ∃ b items', r = some b ∧ Evals nested items items' ∧ Walk root a items' b := by
  induction items generalizing i a with
  | nil =>
    simp only [gotoLoop]
    constructor
    · intro h; simp at h; exact ⟨a, [], h.symm, .nil, .nil⟩
    · rintro ⟨b, items', rfl, he, hw⟩
      cases he; cases hw; rfl
  | cons it rest ih =>
    obtain ⟨n, idx⟩ := it
    cases idx with
    | none =>
      simp only [gotoLoop]
      constructor
      · intro h
        split at h
        · simp at h
        · next b hb =>
          obtain ⟨c, items', hr, he, hw⟩ := (ih _ _).mp h
          have := stepInt_iff.mp (show stepInt root a n none = .ok b by simp [stepInt, hb])
          exact ⟨c, _, hr, .none he, .cons this hw⟩
      · rintro ⟨c, items', hr, he, hw⟩
        cases he with
        | none he =>
          cases hw with
          | cons h1 h2 =>
            have := stepInt_iff.mpr h1
            unfold stepInt at this
            split at this
            · simp at this
            · next b hb =>
              simp at this; subst this
              simp only [hb]
              exact (ih _ _).mpr ⟨c, _, hr, he, h2⟩
    | some idx =>
      cases idx with
      | generic s =>
        simp only [gotoLoop]
        constructor
        · intro h; split at h <;> simp at h
        · rintro ⟨c, items', hr, he, hw⟩; cases he
      | slice x y =>
        simp only [gotoLoop]
        constructor
        · intro h; simp at h
        · rintro ⟨c, items', hr, he, hw⟩; cases he
      | num k =>
        simp only [gotoLoop]
        constructor
        · intro h
          split at h
          · simp at h
          · next b hb =>
            split at h
            · simp at h
            · next c hc =>
              obtain ⟨d, items', hr, he, hw⟩ := (ih _ _).mp h
              have := stepInt_iff.mp (show stepInt root a n (some k) = .ok c by simp [stepInt, hb, hc])
              exact ⟨d, _, hr, .num he, .cons this hw⟩
        · rintro ⟨d, items', hr, he, hw⟩
          cases he with
          | num he =>
            cases hw with
            | cons h1 h2 =>
              have := stepInt_iff.mpr h1
              unfold stepInt at this
              split at this
              · simp at this
              · next b hb =>
                simp only [] at this
                simp only [hb, this]
                exact (ih _ _).mpr ⟨d, _, hr, he, h2⟩
      | path ps is =>
        simp only [gotoLoop]
        constructor
        · intro h
          split at h
          · simp at h
          · next b hb =>
            split at h
            · simp at h
            · next v hv =>
              split at h
              · simp at h
              · next c hc =>
                obtain ⟨d, items', hr, he, hw⟩ := (ih _ _).mp h
                have := stepInt_iff.mp
                  (show stepInt root a n (some (v - 1)) = .ok c by simp [stepInt, hb, hc])
                exact ⟨d, _, hr, .path hv he, .cons this hw⟩
        · rintro ⟨d, items', hr, he, hw⟩
          cases he with
          | path hv he =>
            cases hw with
            | cons h1 h2 =>
              have := stepInt_iff.mpr h1
              unfold stepInt at this
              split at this
              · simp at this
              · next b hb =>
                simp only [] at this
                simp only [hb, hv, this]
                exact (ih _ _).mpr ⟨d, _, hr, he, h2⟩

/-- The result of the loop once the trailing case of `goto` is taken into account. -/
def finishGoto (start : Addr) (j : Nat) : Except NavErr (Option Addr) → Except NavErr Addr
  | .error e => .error e
  | .ok (some b) => .ok b
  | .ok none => .ok (climb start (start.length - j))

theorem loop_none {nested : Parsed → Except NavErr Int} {root : Node V} {start : Addr}
    (items : List (Name × Option Idx)) (i : Nat) (hi : i ≤ start.length) (b : Addr)
    {k : Nat} (hk : k = common ((start.map (·.1)).drop i) (items.map (·.1))) :
    finishGoto start (i + items.length)
        (gotoLoop nested root start (start.map (·.1)) i none items) = .ok b ↔
      (∀ x y n, (n, some (Idx.slice x y)) ∉ items.take k) ∧
      ∃ items', Evals nested (items.drop k) items' ∧ Walk root (start.take (i + k)) items' b := by
  induction items generalizing i k with
  | nil =>
    have : k = 0 := by
      subst hk; cases hd : (start.map (·.1)).drop i <;> simp [common]
    subst this
    simp only [gotoLoop, finishGoto, climb_eq]
    constructor
    · intro h
      simp at h
      refine ⟨by simp, [], .nil, ?_⟩
      have e : start.length - (start.length - i) = i := by omega
      rw [e] at h; subst h; exact .nil
    · rintro ⟨-, items', he, hw⟩
      cases he; cases hw
      have e : start.length - (start.length - i) = i := by omega
      simp only [List.length_nil, e, Nat.add_zero]
  | cons it rest ih =>
    obtain ⟨n, idx⟩ := it
    by_cases hm : (start.map (·.1))[i]? = some n
    · -- still on the common prefix
      have hlt : i < start.length := by
        rcases Nat.lt_or_ge i start.length with h | h
        · exact h
        · rw [List.getElem?_eq_none (by simpa using h)] at hm; simp at hm
      have hd : (start.map (·.1)).drop i = n :: (start.map (·.1)).drop (i + 1) := by
        rw [List.drop_eq_getElem_cons (by simpa using hlt)]
        congr 1
        rw [List.getElem?_eq_getElem (by simpa using hlt)] at hm
        simpa using hm
      have hk' : k = common ((start.map (·.1)).drop (i + 1)) (rest.map (·.1)) + 1 := by
        rw [hk, hd]; simp [common]
      have key := ih (i + 1) (by omega) (k := k - 1) (by omega)
      have e1 : i + 1 + rest.length = i + (rest.length + 1) := by omega
      have e2 : i + 1 + (k - 1) = i + k := by omega
      obtain ⟨j, rfl⟩ : ∃ j, k = j + 1 := ⟨k - 1, by omega⟩
      rw [e1, e2] at key
      simp only [Nat.add_sub_cancel] at key
      simp only [List.length_cons, List.drop_succ_cons, List.take_succ_cons, List.mem_cons]
      have nonslice : (∀ x y, idx ≠ some (Idx.slice x y)) →
          gotoLoop nested root start (start.map (·.1)) i none ((n, idx) :: rest) =
            gotoLoop nested root start (start.map (·.1)) (i + 1) none rest := by
        intro hns
        cases idx with
        | none => simp only [gotoLoop, hm, if_true]
        | some idx =>
          cases idx with
          | slice x y => exact absurd rfl (hns x y)
          | _ => simp only [gotoLoop, hm, if_true]
      by_cases hns : ∀ x y, idx ≠ some (Idx.slice x y)
      · rw [nonslice hns, key]
        constructor
        · rintro ⟨h1, h2⟩
          refine ⟨?_, h2⟩
          intro x y m hmm
          rcases hmm with hmm | hmm
          · simp at hmm; exact hns x y hmm.2.symm
          · exact h1 x y m hmm
        · rintro ⟨h1, h2⟩
          exact ⟨fun x y m hmm => h1 x y m (.inr hmm), h2⟩
      · obtain ⟨x, y, rfl⟩ : ∃ x y, idx = some (Idx.slice x y) := by
          apply Classical.byContradiction
          intro hc; exact hns fun x y e => hc ⟨x, y, e⟩
        constructor
        · intro h; simp [gotoLoop, finishGoto] at h
        · rintro ⟨h1, -⟩; exact absurd (.inl rfl) (h1 x y n)
    · -- the paths part here
      have hk0 : k = 0 := by
        subst hk
        cases hd : (start.map (·.1)).drop i with
        | nil => simp [common]
        | cons m ms =>
          have hlt : i < (start.map (·.1)).length := by
            rcases Nat.lt_or_ge i (start.map (·.1)).length with h | h
            · exact h
            · rw [List.drop_of_length_le h] at hd; simp at hd
          rw [List.drop_eq_getElem_cons hlt] at hd
          simp only [List.cons.injEq] at hd
          rw [List.getElem?_eq_getElem hlt, hd.1] at hm
          simp only [List.map_cons, common]
          rw [if_neg]
          intro e; exact hm (by rw [e])
      subst hk0
      have hsw : gotoLoop nested root start (start.map (·.1)) i none ((n, idx) :: rest) =
          gotoLoop nested root start (start.map (·.1)) i (some (start.take i)) ((n, idx) :: rest) := by
        have e : climb start ((start.map (·.1)).length - i) = start.take i := by
          rw [climb_eq]; congr 1; simp; omega
        cases idx with
        | none => simp only [gotoLoop, hm, if_false, e]
        | some idx => cases idx <;> simp only [gotoLoop, hm, if_false, e]
      rw [hsw]
      have hs := loop_some (nested := nested) (root := root) (start := start)
        (fp := start.map (·.1)) ((n, idx) :: rest) i (start.take i)
      simp only [List.take_zero, List.not_mem_nil, not_false_eq_true, implies_true, true_and,
        Nat.add_zero, List.drop_zero]
      constructor
      · intro h
        cases hl : gotoLoop nested root start (start.map (·.1)) i (some (start.take i)) ((n, idx) :: rest) with
        | error e => rw [hl] at h; simp [finishGoto] at h
        | ok r =>
          rw [hl] at h
          obtain ⟨c, items', rfl, he, hw⟩ := (hs r).mp hl
          simp [finishGoto] at h; subst h
          exact ⟨items', he, hw⟩
      · rintro ⟨items', he, hw⟩
        rw [(hs (some b)).mpr ⟨b, items', rfl, he, hw⟩]
        rfl

theorem intValue_iff {asInt : V → Option Int} {root : Node V} {a : Addr} {v : Int} :
    intValue asInt root a = .ok v ↔ IntAt asInt root a v := by
  unfold intValue IntAt
  cases hr : root.at a with
  | none => simp
  | some x =>
    cases x with
    | struct c => simp; split <;> simp
    | aos m e => simp
    | leaf l o =>
      cases o with
      | none =>
        simp
        split
        · next h => simp [h]; exact eq_comm
        · next h => simp; intro h1 h2; exact absurd ⟨h1, h2⟩ h
      | some x =>
        constructor
        · intro h
          cases hx : asInt x with
          | none => simp [hx] at h
          | some i => simp [hx] at h; exact .inl ⟨l, x, rfl, by rw [hx, h]⟩
        · rintro (⟨l', x', h, hx⟩ | ⟨l', h, -⟩)
          · simp at h; obtain ⟨-, rfl⟩ := h; simp [hx]
          · simp at h

/-- Evaluation of a nested index path with a given stack. -/
def nestedGoto (asInt : V → Option Int) (n : Nat) (root : Node V) (start : Addr) (q : Parsed) :
    Except NavErr Int :=
  nestedInt asInt root (goto asInt n root start true q)

theorem goto_succ (asInt : V → Option Int) (n : Nat) (root : Node V) (start : Addr) (p : Parsed)
    (hl : p.indices.length = p.parts.length) :
    goto asInt (n + 1) root start true p =
      finishGoto start (0 + (p.parts.zip p.indices).length)
        (gotoLoop (nestedGoto asInt n root start) root start (start.map (·.1)) 0 none
          (p.parts.zip p.indices)) := by
  have e : (p.parts.zip p.indices).length = p.parts.length := by simp [hl]
  simp only [goto, e, Nat.zero_add, if_true]
  change _ = finishGoto start p.parts.length (gotoLoop (fun q => nestedInt asInt root _) _ _ _ _ _ _)
  split
  · next h => rw [h]; rfl
  · next h => rw [h]; rfl
  · next h => rw [h]; simp [finishGoto]

/-- Nested paths have as many indices as names. -/
inductive Balanced : List (Option Idx) → Prop
  | nil : Balanced []
  | none {r : List (Option Idx)} : Balanced r → Balanced (none :: r)
  | generic {s : List Char} {r : List (Option Idx)} : Balanced r → Balanced (some (.generic s) :: r)
  | num {i : Int} {r : List (Option Idx)} : Balanced r → Balanced (some (.num i) :: r)
  | slice {x y : Option Int} {r : List (Option Idx)} : Balanced r → Balanced (some (.slice x y) :: r)
  | path {ps : List Name} {is : List (Option Idx)} {r : List (Option Idx)} :
      is.length = ps.length → Balanced is → Balanced r → Balanced (some (.path ps is) :: r)

theorem Balanced.drop {l : List (Option Idx)} (h : Balanced l) (k : Nat) : Balanced (l.drop k) := by
  induction k generalizing l with
  | zero => exact h
  | succ k ih => cases h <;> simp <;> first | exact .nil | (apply ih; assumption)

theorem zip_take {α β : Type} (l : List α) (m : List β) (k : Nat) :
    (l.zip m).take k = (l.take k).zip (m.take k) := by
  induction l generalizing m k with
  | nil => simp
  | cons x l ih => cases m <;> cases k <;> simp_all

theorem zip_drop {α β : Type} (l : List α) (m : List β) (k : Nat) :
    (l.zip m).drop k = (l.drop k).zip (m.drop k) := by
  induction l generalizing m k with
  | nil => simp
  | cons x l ih => cases m <;> cases k <;> simp_all

theorem mem_zip_snd {α β : Type} {l : List α} {m : List β} (h : l.length = m.length) {y : β} :
    y ∈ m ↔ ∃ x, (x, y) ∈ l.zip m := by
  induction l generalizing m with
  | nil => cases m <;> simp_all
  | cons x l ih =>
    cases m with
    | nil => simp at h
    | cons z m =>
      simp only [List.length_cons, Nat.add_right_cancel_iff] at h
      simp only [List.mem_cons, List.zip_cons_cons, Prod.mk.injEq, ih h]
      constructor
      · rintro (rfl | ⟨x', hx⟩)
        · exact ⟨x, .inl ⟨rfl, rfl⟩⟩
        · exact ⟨x', .inr hx⟩
      · rintro ⟨x', (⟨-, rfl⟩ | hx)⟩
        · exact .inl rfl
        · exact .inr ⟨x', hx⟩

theorem goto_iff_aux {asInt : V → Option Int} {n : Nat} {root : Node V} {start : Addr} {p : Parsed}
    (hl : p.indices.length = p.parts.length) {b : Addr} {k : Nat}
    (hk : k = common (start.map (·.1)) p.parts) :
    goto asInt (n + 1) root start true p = .ok b ↔
      (∀ x y, some (Idx.slice x y) ∉ p.indices.take k) ∧
      ∃ items', Evals (nestedGoto asInt n root start)
          ((p.parts.drop k).zip (p.indices.drop k)) items' ∧
        Walk root (start.take k) items' b := by
  have e : (p.parts.zip p.indices).map (·.1) = p.parts := by
    rw [List.map_fst_zip]; omega
  rw [goto_succ _ _ _ _ _ hl, loop_none _ 0 (by omega) b (k := k) (by rw [e]; simpa using hk)]
  simp only [zip_take, zip_drop, Nat.zero_add]
  constructor
  · rintro ⟨h1, h2⟩
    refine ⟨fun x y hm => ?_, h2⟩
    obtain ⟨nm, hnm⟩ := (mem_zip_snd (l := p.parts.take k) (by simp [hl])).mp hm
    exact h1 x y nm hnm
  · rintro ⟨h1, h2⟩
    exact ⟨fun x y nm hnm => h1 x y ((mem_zip_snd (l := p.parts.take k) (by simp [hl])).mpr ⟨nm, hnm⟩), h2⟩

theorem goto_sound {asInt : V → Option Int} (n : Nat) {root : Node V} {start : Addr} {p : Parsed}
    (hl : p.indices.length = p.parts.length) (hb : Balanced p.indices) {b : Addr}
    (h : goto asInt n root start true p = .ok b) :
    Goes asInt root start p.parts p.indices b := by
  induction n generalizing p b with
  | zero => simp [goto] at h
  | succ n ih =>
    obtain ⟨h1, items', he, hw⟩ := (goto_iff_aux hl rfl).mp h
    refine .mk rfl h1 ?_ hw
    have hbal := hb.drop (common (start.map (·.1)) p.parts)
    have hl' : (p.indices.drop (common (start.map (·.1)) p.parts)).length =
        (p.parts.drop (common (start.map (·.1)) p.parts)).length := by simp [hl]
    generalize hps : p.parts.drop (common (start.map (·.1)) p.parts) = ps at he hl'
    generalize his : p.indices.drop (common (start.map (·.1)) p.parts) = is at he hl' hbal
    clear hps his h1 hw h hb hl
    induction ps generalizing is items' with
    | nil => cases is <;> simp at hl'; cases he; exact .nil
    | cons m ps ihp =>
      cases is with
      | nil => simp at hl'
      | cons i is =>
        simp only [List.length_cons, Nat.add_right_cancel_iff] at hl'
        simp only [List.zip_cons_cons] at he
        cases he with
        | none he => cases hbal with | none hb => exact .none (ihp _ _ he hl' hb)
        | num he => cases hbal with | num hb => exact .num (ihp _ _ he hl' hb)
        | path hv he =>
          cases hbal with
          | path hq hbq hb =>
            unfold nestedGoto nestedInt at hv
            split at hv
            · simp at hv
            · next c hc =>
              exact .path (ih hq hbq hc) (intValue_iff.mp hv) (ihp _ _ he hl' hb)

theorem Goes.complete {asInt : V → Option Int} {root : Node V} {start : Addr} {ps : List Name}
    {is : List (Option Idx)} {b : Addr} (h : Goes asInt root start ps is b)
    (hl : is.length = ps.length) (hb : Balanced is) :
    ∃ N, ∀ n, N ≤ n → goto asInt n root start true ⟨ps, is⟩ = .ok b := by
  revert hl hb
  refine Goes.rec
    (motive_1 := fun ps is b _ => is.length = ps.length → Balanced is →
      ∃ N, ∀ n, N ≤ n → goto asInt n root start true ⟨ps, is⟩ = .ok b)
    (motive_2 := fun ps is items _ => Balanced is →
      ∃ N, ∀ n, N ≤ n → Evals (nestedGoto asInt n root start) (ps.zip is) items)
    ?_ ?_ ?_ ?_ ?_ h
  · intro ps is b k items hk hs hi hw ih hl hb
    obtain ⟨N, hN⟩ := ih (hb.drop _)
    refine ⟨N + 1, fun n hn => ?_⟩
    obtain ⟨m, rfl⟩ : ∃ m, n = m + 1 := ⟨n - 1, by omega⟩
    exact (goto_iff_aux (p := ⟨ps, is⟩) hl hk).mpr ⟨hs, _, hN m (by omega), hw⟩
  · exact fun _ => ⟨0, fun _ _ => .nil⟩
  · intro n ns is items r ih hb
    cases hb with
    | none hb =>
      obtain ⟨N, hN⟩ := ih hb
      exact ⟨N, fun n hn => .none (hN n hn)⟩
  · intro n i ns is items r ih hb
    cases hb with
    | num hb =>
      obtain ⟨N, hN⟩ := ih hb
      exact ⟨N, fun n hn => .num (hN n hn)⟩
  · intro n qs js c v ns is items g hv r ihg ih hb
    cases hb with
    | path hq hbq hb =>
      obtain ⟨N, hN⟩ := ih hb
      obtain ⟨M, hM⟩ := ihg hq hbq
      refine ⟨max N M, fun n hn => .path ?_ (hN n (by omega))⟩
      unfold nestedGoto nestedInt
      rw [hM n (by omega)]
      exact intValue_iff.mpr hv

/-! ### Determinism and prefixes of walks -/

theorem Access.det {root : Node V} {a b c : Addr} {n : Name} {i : Option Int}
    (h1 : Access root a n i b) (h2 : Access root a n i c) : b = c := by
  have := stepInt_iff.mpr h1
  rw [stepInt_iff.mpr h2] at this
  simpa using this.symm

theorem Walk.det {root : Node V} {items : List (Name × Option Int)} {a b c : Addr}
    (h1 : Walk root a items b) (h2 : Walk root a items c) : b = c := by
  induction items generalizing a with
  | nil => cases h1; cases h2; rfl
  | cons it r ih =>
    cases h1 with
    | cons x1 t1 =>
      cases h2 with
      | cons x2 t2 =>
        have := Access.det x1 x2
        subst this
        exact ih t1 t2

theorem Walk.append {root : Node V} {p q : List (Name × Option Int)} {a b c : Addr}
    (h1 : Walk root a p b) (h2 : Walk root b q c) : Walk root a (p ++ q) c := by
  induction p generalizing a with
  | nil => cases h1; exact h2
  | cons it r ih =>
    cases h1 with
    | cons x t => exact .cons x (ih t)

theorem Walk.split {root : Node V} {p q : List (Name × Option Int)} {a c : Addr}
    (h : Walk root a (p ++ q) c) : ∃ b, Walk root a p b ∧ Walk root b q c := by
  induction p generalizing a with
  | nil => exact ⟨a, .nil, h⟩
  | cons it r ih =>
    cases h with
    | cons x t =>
      obtain ⟨b, h1, h2⟩ := ih t
      exact ⟨b, .cons x h1, h2⟩

/-- The items of an address as integer indices. -/
def addrItems (a : Addr) : List (Name × Option Int) := a.map fun s => (s.1, s.2.map Int.ofNat)

theorem Elems.get?_lt {e : Elems V} {i : Nat} {c : Fields V} (h : e.get? i = some c) :
    i < e.length := by
  induction i generalizing e with
  | zero => cases e <;> simp [Elems.get?] at h; simp [Elems.length]
  | succ i ih =>
    cases e with
    | nil => simp [Elems.get?] at h
    | cons x r => simp [Elems.get?] at h; have := ih h; simp [Elems.length]; omega

theorem Elems.get?_some {e : Elems V} {i : Nat} (h : i < e.length) : ∃ c, e.get? i = some c := by
  induction i generalizing e with
  | zero => cases e with
    | nil => simp [Elems.length] at h
    | cons x r => exact ⟨x, rfl⟩
  | succ i ih => cases e with
    | nil => simp [Elems.length] at h
    | cons x r => simp [Elems.length] at h; exact ih h

/-- Every valid address is reached by walking its own items. -/
theorem walk_addr {root : Node V} (a : Addr) {b : Addr} {x : Node V}
    (h : root.at (b ++ a) = some x) : Walk root b (addrItems a) (b ++ a) := by
  induction a generalizing b with
  | nil => simp [addrItems]; exact .nil
  | cons s a ih =>
    have hb : root.at ((b ++ [s]) ++ a) = some x := by simpa using h
    have h1 := ih hb
    have hs : ∃ y, root.at (b ++ [s]) = some y := by
      rw [Node.at_append] at hb
      cases hy : root.at (b ++ [s]) with
      | none => rw [hy] at hb; simp at hb
      | some y => exact ⟨y, rfl⟩
    obtain ⟨y, hy⟩ := hs
    obtain ⟨n, i⟩ := s
    simp only [List.append_assoc, List.cons_append, List.nil_append] at h1
    simp only [addrItems, List.map_cons] at *
    refine .cons ?_ h1
    cases i with
    | none => exact .attr hy
    | some k =>
      have hy' := hy
      rw [at_single] at hy'
      cases hr : root.at b with
      | none => rw [hr] at hy'; simp at hy'
      | some z =>
        rw [hr] at hy'
        simp only [Option.bind_some, Node.item] at hy'
        split at hy'
        · next c =>
          split at hy'
          · simp at hy'
          · simp_all
          · next m e k' hg hk =>
            simp at hk; subst hk
            cases hek : e.get? k with
            | none => rw [hek] at hy'; simp at hy'
            | some f =>
              refine .item (m := m) (e := e) ?_ ⟨Elems.get?_lt hek, .inl rfl⟩
              rw [at_single, hr]
              simp [Node.item, hg]
          · simp at hy'
        · simp at hy'

end Verif.Ids
