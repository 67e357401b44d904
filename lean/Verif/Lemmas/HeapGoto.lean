import Verif.Model.HeapGoto
import Verif.Props.HeapNode
import Verif.Lemmas.GotoPath
namespace Verif.Heap
open Verif.Ids Verif.HeapSpec Verif.TreeSpec Verif.GotoSpec Verif.Props
open Verif.Path (Idx Parsed)

variable {V B W C : Type} {E : Env V B W C} {h : Heap V B W C} {r s c : Ref}

/-- One item of an address. -/
theorem place_cons {A : Addr} {n : Name} {i : Option Nat} (p : Place h c ((n, i) :: A) s) :
    ∃ d, Place h c [(n, i)] d ∧ Place h d A s := by
  have : keys ((n, i) :: A) = keys [(n, i)] ++ keys A := keys_append [(n, i)] A
  unfold Place at p
  rw [this] at p
  exact p.split

theorem place_snoc {A : Addr} {n : Name} {i : Option Nat} (p : Place h c (A ++ [(n, i)]) s) :
    ∃ d, Place h c A d ∧ Place h d [(n, i)] s := by
  unfold Place at p
  rw [keys_append] at p
  exact p.split

theorem place_append {A A' : Addr} (p : Place h r A c) (q : Place h c A' s) : Place h r (A ++ A') s := by
  unfold Place at *
  rw [keys_append]
  exact p.append q

theorem place_one {n : Name} (p : Place h c [(n, none)] s) : Slot h c (.field n) s := by
  cases p with
  | cons hs p => cases p; exact hs

theorem place_item {n : Name} {i : Nat} (p : Place h c [(n, some i)] s) :
    ∃ a, Slot h c (.field n) a ∧ Slot h a (.index i) s := by
  cases p with
  | cons hs p =>
    cases p with
    | cons hs' p => cases p; exact ⟨_, hs, hs'⟩

theorem getAttr_there {n : Name} (hs : Slot h c (.field n) s) : getAttr E h c n = (h, .ok [s]) := by
  cases hs with
  | field hg _ hd => unfold getAttr; rw [hg]; dsimp only; rw [hd]

theorem set_back {o : Obj V B W C} (hg : h.get c = some o) : h.set c o = h := by
  cases h with
  | mk next get =>
    simp only [Heap.set, Heap.mk.injEq, true_and]
    funext s
    by_cases e : s = c
    · subst e; rw [if_pos rfl]; exact hg.symm
    · rw [if_neg e]

theorem getItem_there {i : Nat} (hs : Slot h c (.index i) s) : getItem E h c i = (h, .ok [s]) := by
  cases hs with
  | @index q m l p z x _ _ hg hi =>
    unfold getItem
    rw [hg]
    cases z with
    | false => dsimp only; rw [hi]
    | true =>
      simp only [loadItems]
      rw [hi, set_back hg]

theorem getItemInt_there {i : Nat} (hs : Slot h c (.index i) s) : getItemInt E h c (i : Int) = (h, .ok [s]) := by
  unfold getItemInt
  rw [if_pos (Int.natCast_nonneg i)]
  exact getItem_there hs

theorem ddParent_one (L : Linked h) {n : Name} {i : Option Nat} (p : Place h c [(n, i)] s) : ddParent h s = .ok c := by
  cases i with
  | none =>
    have hs := place_one p
    obtain ⟨o, ho, hp, _⟩ := slot_up L hs
    unfold ddParent
    rw [ho]
    cases hs with
    | field hg _ _ =>
      cases o <;> simp [parentOf] at hp <;> subst hp <;> simp [parentOf, hg]
  | some i =>
    obtain ⟨a, h1, h2⟩ := place_item p
    obtain ⟨o, ho, hp, _⟩ := slot_up L h1
    obtain ⟨ox, hx, hs⟩ := h2.slotO
    obtain ⟨e, he, hf⟩ := L.fits _ _ _ _ hx hs
    cases h2 with
    | index hg _ =>
      rw [hg] at ho; cases ho
      simp [parentOf] at hp; subst hp
      unfold ddParent
      rw [he]
      cases e <;> simp [Fits, head] at hf
      obtain ⟨_, rfl, _⟩ := hf
      simp [hg]

theorem ddClimb_place (L : Linked h) (n : Nat) : ∀ (A : Addr) (s : Ref), A.length = n → Place h c A s → ddClimb h s n = .ok c := by
  induction n with
  | zero =>
    intro A s hA p
    cases A with
    | cons => cases hA
    | nil => cases p; rfl
  | succ n ih =>
    intro A s hA p
    rcases List.eq_nil_or_concat A with rfl | ⟨A', ⟨m, i⟩, rfl⟩
    · cases hA
    · rw [List.concat_eq_append] at hA p
      obtain ⟨d, h1, h2⟩ := place_snoc p
      unfold ddClimb
      rw [ddParent_one L h2]
      exact ih A' d (by simpa using hA) h1

theorem branch_path (L : Linked h) (hr : IsIds h r) (n : Nat) : ∀ (A : Addr) (s : Ref), A.length = n → Place h r A s →
    ∀ o, h.get s = some o → (∀ l v p, o ≠ .leaf l v p) → qOf o = A.map (·.1) := by
  induction n with
  | zero =>
    intro A s hA p o ho hl
    cases A with
    | cons => cases hA
    | nil =>
      cases p
      obtain ⟨q, m, d, p, z, x, hg⟩ := hr
      have := L.ok _ _ hg
      rw [ho] at hg; cases hg
      exact this.1 rfl
  | succ n ih =>
    intro A s hA p o ho hl
    rcases List.eq_nil_or_concat A with rfl | ⟨A', ⟨m, i⟩, rfl⟩
    · cases hA
    · rw [List.concat_eq_append] at hA p ⊢
      obtain ⟨d, h1, h2⟩ := place_snoc p
      have key : ∀ e oe, Slot h d (.field m) e → h.get e = some oe → (∀ l v p, oe ≠ .leaf l v p) → qOf oe = (A' ++ [(m, i)]).map (·.1) := by
        intro e oe hs he hl
        obtain ⟨od, hd, hso⟩ := hs.slotO
        have hq := ih A' d (by simpa using hA) h1 od hd (by rintro l v p rfl; cases hso)
        obtain ⟨x, hx, hf⟩ := L.fits _ _ _ _ hd hso
        rw [he] at hx; cases hx
        rw [hq] at hf
        cases oe <;> simp [Fits, head] at hf
        · exact absurd rfl (hl _ _ _)
        · simp [qOf, hf]
        · simp [qOf, hf]
      cases i with
      | none => exact key s o (place_one h2) ho hl
      | some i =>
        obtain ⟨a, h3, h4⟩ := place_item h2
        obtain ⟨oa, ha, hso⟩ := h4.slotO
        have := key a oa h3 ha (by rintro l v p rfl; cases hso)
        obtain ⟨x, hx, hf⟩ := L.fits _ _ _ _ ha hso
        rw [ho] at hx; cases hx
        rw [← this]
        cases o <;> simp [Fits, head] at hf
        simp [qOf, hf]

theorem keys_inj {A B : Addr} (e : keys A = keys B) : A = B := by
  induction A generalizing B with
  | nil =>
    cases B with
    | nil => rfl
    | cons x B => obtain ⟨n, i⟩ := x; cases i <;> simp [keys] at e
  | cons x A ih =>
    obtain ⟨n, i⟩ := x
    cases B with
    | nil => cases i <;> simp [keys] at e
    | cons y B =>
      obtain ⟨m, j⟩ := y
      cases i <;> cases j <;> simp [keys] at e
      · rw [e.1, ih e.2]
      · cases A with
        | nil => simp [keys] at e
        | cons z A => obtain ⟨k, l⟩ := z; cases l <;> simp [keys] at e
      · cases B with
        | nil => simp [keys] at e
        | cons z A => obtain ⟨k, l⟩ := z; cases l <;> simp [keys] at e
      · rw [e.1, e.2.1, ih e.2.2]

theorem metaPath_place (L : Linked h) (hr : IsIds h r) (hu : Unshared h r) {A : Addr} (p : Place h r A s) :
    metaPath h s = some (A.map (·.1)) := by
  have hb := branch_path L hr A.length A s rfl p
  rcases List.eq_nil_or_concat A with rfl | ⟨A', ⟨m, i⟩, rfl⟩
  · cases p
    obtain ⟨q, m, d, p, z, x, hg⟩ := hr
    have := hb _ hg (by rintro l v p e; cases e)
    unfold metaPath; rw [hg]
    simp only [qOf] at this
    rw [this]
  · rw [List.concat_eq_append] at p hb ⊢
    obtain ⟨d, h1, h2⟩ := place_snoc p
    have hs : ∃ x k, Slot h x k s := by
      cases i with
      | none => exact ⟨_, _, place_one h2⟩
      | some i => obtain ⟨a, _, h3⟩ := place_item h2; exact ⟨_, _, h3⟩
    obtain ⟨x, k, hs⟩ := hs
    obtain ⟨o, ho, hp, _⟩ := slot_up L hs
    unfold metaPath
    rw [ho]
    cases o with
    | struct => dsimp only; exact congrArg some (hb _ ho (by rintro l v p e; cases e))
    | aos => dsimp only; exact congrArg some (hb _ ho (by rintro l v p e; cases e))
    | leaf l v p0 =>
      cases hp
      cases i with
      | some i =>
        obtain ⟨a, _, h3⟩ := place_item h2
        obtain ⟨oa, ha, hso⟩ := h3.slotO
        obtain ⟨x, hx, hf⟩ := L.fits _ _ _ _ ha hso
        rw [ho] at hx; cases hx; cases hf
      | none =>
        have h3 := place_one h2
        obtain ⟨o', ho', hp', _⟩ := slot_up L h3
        rw [ho] at ho'; cases ho'; cases hp'
        cases h3 with
        | @field q mm dd pp tt zz xx _ _ hg hmem hd =>
          obtain ⟨n', k1, k2, k3⟩ := keyOf_some hmem hd
          dsimp only
          rw [hg]
          dsimp only
          rw [k1]
          have hq := branch_path L hr A'.length A' _ rfl h1 _ hg (by rintro l v p e; cases e)
          have h4 : Place h r (A' ++ [(n', none)]) s := place_append h1 (.cons (.field hg k2 k3) .nil)
          have h5 : Place h r (A' ++ [(m, none)]) s := p
          have := keys_inj (hu _ _ _ h4 h5)
          have hn : n' = m := by
            have := List.append_cancel_left this
            simpa using this
          subst hn
          simp only [qOf] at hq
          simp [hq]
    | _ => cases hp

/-- Items one after the other, from `a`. -/
def follow (E : Env V B W C) : Heap V B W C → Ref → List (Name × Option Int) → Out V B W C
  | h, a, [] => (h, .ok [a])
  | h, a, (n, k) :: rest =>
    match getAttr E h a n with
    | (h, .ok [b]) =>
      match k with
      | none => follow E h b rest
      | some k =>
        match getItemInt E h b k with
        | (h, .ok [c]) => follow E h c rest
        | (h, .ok _) => (h, .error .broken)
        | (h, .error e) => (h, .error e)
    | (h, .ok _) => (h, .error .broken)
    | (h, .error e) => (h, .error e)

/-- What `goto` does after its loop. -/
def finish (start : Ref) (n : Nat) : Heap V B W C × Except Err (Option Ref) → Out V B W C
  | (h, .error e) => (h, .error e)
  | (h, .ok (some b)) => (h, .ok [b])
  | (h, .ok none) =>
    match ddClimb h start n with
    | .ok b => (h, .ok [b])
    | .error e => (h, .error e)

def enc (items : List (Name × Option Int)) : List (Name × Option Idx) := items.map fun x => (x.1, x.2.map .num)

theorem enc_zip (items : List (Name × Option Int)) : (intItems items).parts.zip (intItems items).indices = enc items := by
  simp only [intItems, enc]
  induction items with
  | nil => rfl
  | cons x rest ih => simp [ih]

theorem loop_some {nested : Heap V B W C → Parsed → Heap V B W C × Except Err Int} {fp : List Name} {k : Nat}
    (items : List (Name × Option Int)) (i : Nat) (a : Ref) (h : Heap V B W C) :
    finish s k (gotoLoop E nested s fp i (some a) (enc items) h) = follow E h a items := by
  induction items generalizing i a h with
  | nil => rfl
  | cons x rest ih =>
    obtain ⟨n, j⟩ := x
    have he : enc ((n, j) :: rest) = (n, j.map .num) :: enc rest := rfl
    rw [he]
    unfold gotoLoop follow
    cases j with
    | none =>
      dsimp only [Option.map]
      rcases getAttr E h a n with ⟨h', e | l⟩
      · rfl
      · rcases l with _ | ⟨b, _ | _⟩
        · rfl
        · exact ih _ _ _
        · rfl
    | some j =>
      dsimp only [Option.map]
      rcases getAttr E h a n with ⟨h', e | l⟩
      · rfl
      · rcases l with _ | ⟨b, _ | _⟩
        · rfl
        · dsimp only
          rcases getItemInt E h' b j with ⟨h'', e | l⟩
          · rfl
          · rcases l with _ | ⟨b, _ | _⟩
            · rfl
            · exact ih _ _ _
            · rfl
        · rfl

theorem follow_there {n : Name} {i : Option Nat} (p : Place h c [(n, i)] s) (rest : List (Name × Option Int)) :
    follow E h c ((n, i.map Int.ofNat) :: rest) = follow E h s rest := by
  cases i with
  | none =>
    conv => lhs; unfold follow
    rw [getAttr_there (place_one p)]
    rfl
  | some i =>
    obtain ⟨a, h1, h2⟩ := place_item p
    conv => lhs; unfold follow
    rw [getAttr_there h1]
    have := getItemInt_there (E := E) h2
    dsimp only [Option.map]
    rw [show (Int.ofNat i) = (i : Int) from rfl, this]

theorem follow_place {A : Addr} (p : Place h c A s) (rest : List (Name × Option Int)) :
    follow E h c (addrItems A ++ rest) = follow E h s rest := by
  induction A generalizing c with
  | nil => cases p; rfl
  | cons x A ih =>
    obtain ⟨n, i⟩ := x
    obtain ⟨d, h1, h2⟩ := place_cons p
    have : addrItems ((n, i) :: A) ++ rest = (n, i.map Int.ofNat) :: (addrItems A ++ rest) := rfl
    rw [this, follow_there h1, ih h2]

/-- As long as the names are those of the start, nothing happens; then the last common ancestor is taken. -/
theorem loop_none (L : Linked h) {nested : Heap V B W C → Parsed → Heap V B W C × Except Err Int} {P : Addr}
    (items : List (Name × Option Int)) (Q : Addr) (c : Ref) (p : Place h c Q s)
    (hag : items.take (common (Q.map (·.1)) (items.map (·.1))) = addrItems (Q.take (common (Q.map (·.1)) (items.map (·.1))))) :
    finish s ((P ++ Q).length - (P.length + items.length))
      (gotoLoop E nested s ((P ++ Q).map (·.1)) P.length none (enc items) h) = follow E h c items := by
  induction items generalizing P Q c with
  | nil =>
    have : (P ++ Q).length - (P.length + ([] : List (Name × Option Int)).length) = Q.length := by simp
    rw [this]
    simp only [enc, List.map, gotoLoop, finish, follow]
    rw [ddClimb_place L Q.length Q s rfl p]
  | cons x rest ih =>
    obtain ⟨n, j⟩ := x
    by_cases e : ((P ++ Q).map (·.1))[P.length]? = some n
    · cases Q with
      | nil => simp at e
      | cons y Q =>
        obtain ⟨m, i⟩ := y
        have hm : m = n := by simpa using e
        subst hm
        obtain ⟨d, h1, h2⟩ := place_cons p
        simp only [List.map_cons, common, if_true, List.take_succ_cons, addrItems, List.cons.injEq, Prod.mk.injEq, true_and] at hag
        obtain ⟨hj, hag⟩ := hag
        subst hj
        rw [follow_there h1]
        have := ih (P := P ++ [(m, i)]) Q d h2 hag
        rw [← this]
        have hl : (P ++ (m, i) :: Q).length - (P.length + ((m, i.map Int.ofNat) :: rest).length) =
            ((P ++ [(m, i)]) ++ Q).length - ((P ++ [(m, i)]).length + rest.length) := by
          simp; omega
        rw [hl]
        have he : enc ((m, i.map Int.ofNat) :: rest) = (m, (i.map Int.ofNat).map .num) :: enc rest := rfl
        rw [he]
        have hl2 : (P ++ [(m, i)]).length = P.length + 1 := by simp
        have hl3 : (P ++ [(m, i)]) ++ Q = P ++ (m, i) :: Q := by simp
        rw [hl2, hl3]
        congr 1
        conv => lhs; unfold gotoLoop
        cases i <;> dsimp only [Option.map] <;> rw [if_pos e]
    · have he : enc ((n, j) :: rest) = (n, j.map .num) :: enc rest := rfl
      rw [he]
      rw [← loop_some (s := s) (nested := nested) (fp := (P ++ Q).map (·.1))
        (k := (P ++ Q).length - (P.length + ((n, j) :: rest).length)) ((n, j) :: rest) P.length c h, he]
      congr 1
      have hc : ddClimb h s (((P ++ Q).map (·.1)).length - P.length) = .ok c := by
        rw [show ((P ++ Q).map (·.1)).length - P.length = Q.length by simp]
        exact ddClimb_place L Q.length Q s rfl p
      conv => lhs; unfold gotoLoop
      conv => rhs; unfold gotoLoop
      cases j <;> dsimp only [Option.map] <;> rw [if_neg e, hc] <;> rfl

theorem goto_place {asInt : V → Option Int} (L : Linked h) (hr : IsIds h r) (hu : Unshared h r) {A : Addr} (p : Place h r A s)
    (items : List (Name × Option Int)) (stack : Nat)
    (hag : items.take (common (A.map (·.1)) (items.map (·.1))) = addrItems (A.take (common (A.map (·.1)) (items.map (·.1))))) :
    goto asInt E (stack + 1) h s true (intItems items) = follow E h r items := by
  unfold goto
  rw [metaPath_place L hr hu p, enc_zip]
  generalize (fun h q => nestedInt asInt E (goto asInt E stack h s _ q)) = nested
  have := loop_none (E := E) (P := []) (nested := nested) L items A r p hag
  rw [← this]
  dsimp only [List.nil_append, if_true]
  rw [show (intItems items).parts.length = items.length by simp [intItems],
    show (A.map (·.1)).length - items.length = A.length - (([] : Addr).length + items.length) by simp]
  unfold finish
  dsimp only [List.length_nil, if_true]
  split <;> simp_all <;> (split <;> simp_all)

theorem goto_false {asInt : V → Option Int} (hq : (metaPath h s).isSome) (items : List (Name × Option Int)) (stack : Nat) :
    goto asInt E (stack + 1) h s false (intItems items) = follow E h s items := by
  unfold goto
  obtain ⟨q, hq⟩ := Option.isSome_iff_exists.1 hq
  rw [hq, enc_zip]
  generalize (fun h q => nestedInt asInt E (goto asInt E stack h s _ q)) = nested
  rw [← loop_some (s := s) (nested := nested) (fp := q)
    (k := q.length - (intItems items).parts.length) items 0 s h]
  unfold finish
  dsimp only
  split <;> simp_all <;> (split <;> simp_all)

theorem follow_walk (items : List (Name × Option Nat)) (h : Heap V B W C) (a : Ref) :
    follow E h a (items.map fun x => (x.1, x.2.map Int.ofNat)) = walk E h a items := by
  induction items generalizing h a with
  | nil => rfl
  | cons x rest ih =>
    obtain ⟨n, j⟩ := x
    rw [List.map_cons]
    unfold follow walk
    dsimp only
    rcases getAttr E h a n with ⟨h', e | l⟩
    · rfl
    · rcases l with _ | ⟨b, _ | _⟩
      · rfl
      · cases j with
        | none => exact ih _ _
        | some j =>
          dsimp only [Option.map]
          unfold getItemInt
          rw [if_pos (show (0 : Int) ≤ Int.ofNat j from Int.natCast_nonneg j)]
          rw [show (Int.ofNat j).toNat = j from rfl]
          rcases getItem E h' b j with ⟨h'', e | l⟩
          · rfl
          · rcases l with _ | ⟨b, _ | _⟩
            · rfl
            · exact ih _ _
            · rfl
      · rfl

end Verif.Heap
