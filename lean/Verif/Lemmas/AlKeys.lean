import Verif.Lemmas.AlExec
import Verif.Lemmas.DiffAddr
/-
Where data goes and where it is read from: get and put in terms of storage keys.
-/
namespace Verif.Al
open Verif.Ids Verif.AlSpec Verif.TreeSpec Verif.DiffSpec Verif.ConvertSpec

set_option linter.unusedSectionVars false
variable {V : Type} [Value V]

/-! ### Get -/

/-- All elements on the way from `P` to `Q` are stored. -/
def Reached (S : Store V) (P Q : Pos) : Prop :=
  ∀ Q1 q i Q2, Q = P ++ Q1 ++ (q, i) :: Q2 → i < S.size (P ++ Q1) q

theorem reached_self (S : Store V) (P : Pos) : Reached S P P := by
  intro Q1 q i Q2 h
  have := congrArg List.length h
  simp at this

theorem atMeta_cons (m : MFields) (n : Name) (i : Option Nat) (a : Addr) :
    atMeta (.struct m) ((n, i) :: a) =
      match mchild m n with
      | none => none
      | some x =>
        match i with
        | none => atMeta x a
        | some _ =>
          match x with
          | .aos d => atMeta (.struct d) a
          | _ => none := by
  cases hm : mchild m n with
  | none => simp [atMeta, hm]
  | some x => cases i <;> cases x <;> simp [atMeta, hm]

theorem reached_step {S : Store V} {P Q : Pos} {q : Path} {i : Nat} (hi : i < S.size P q)
    (h : Reached S (P ++ [(q, i)]) Q) (hq : ∃ R, Q = P ++ [(q, i)] ++ R) : Reached S P Q := by
  intro Q1 r j Q2 e
  obtain ⟨R, hq⟩ := hq
  cases Q1 with
  | nil =>
    rw [hq] at e
    simp at e
    rw [← e.1.1, ← e.1.2]
    simpa using hi
  | cons x Q1 =>
    have hx : x = (q, i) := by
      rw [hq] at e; simp at e; exact e.1.symm
    subst hx
    have := h Q1 r j Q2 (by rw [e]; simp)
    simpa using this

theorem keyOf_ext (T : Path → Option Path) (a : Addr) : ∀ p P Q q, keyOf T p P a = some (Q, q) →
    ∃ R, Q = P ++ R := by
  induction a with
  | nil => intro p P Q q h; simp [keyOf] at h
  | cons s a ih =>
    intro p P Q q h
    obtain ⟨n, i⟩ := s
    cases i with
    | some i =>
      rw [keyOf] at h
      obtain ⟨r, -, h⟩ := Option.bind_eq_some_iff.1 h
      obtain ⟨R, e⟩ := ih _ _ _ _ h
      exact ⟨(r, i) :: R, by rw [e]; simp⟩
    | none =>
      cases a with
      | nil =>
        rw [keyOf] at h
        obtain ⟨r, -, h⟩ := Option.map_eq_some_iff.1 h
        exact ⟨[], by simp at h; simp [h.1]⟩
      | cons b a =>
        rw [keyOf] at h
        obtain ⟨r, -, h⟩ := Option.bind_eq_some_iff.1 h
        exact ih _ _ _ _ h

theorem eval_get? (S : Store V) (E : Env V) (p : Path) (P : Pos) (m : MFields) (n : Name) :
    (evalFields S E p P m).get? n =
      (mchild m n).map fun x => (evalNode S E (p ++ [n]) P x).getD x.fresh := by
  match m with
  | .nil => rw [evalFields]; rfl
  | .cons k x r =>
    rw [evalFields, mchild]
    have ih := eval_get? S E p P r n
    unfold fieldOf
    by_cases h : n = k
    · subst h
      rw [if_pos rfl]
      cases he : evalNode S E (p ++ [n]) P x <;> simp [Fields.get?, he]
    · rw [if_neg h, ← ih]
      cases evalNode S E (p ++ [k]) P x <;> simp [Fields.get?, h]

theorem elemsOf_get? (l : List (Fields V)) (i : Nat) : (elemsOf l).get? i = l[i]? := by
  induction l generalizing i with
  | nil => rfl
  | cons c l ih => cases i <;> simp [elemsOf, Elems.get?, ih]

theorem elemsOf_length (l : List (Fields V)) : (elemsOf l).length = l.length := by
  induction l with
  | nil => rfl
  | cons c l ih => simp [elemsOf, Elems.length, ih]

/-- A node whose elements are all stored is what is stored at its key. -/
theorem eval_at (S : Store V) (E : Env V) (a : Addr) : ∀ (m : MFields) (p : Path) (P Q : Pos) (q : Path) (x : Meta),
    atMeta (.struct m) a = some x → keyOf (pathOf E) p P a = some (Q, q) → Reached S P Q →
    ∃ p' tb, target E p' = some (q, tb) ∧
      (Node.struct (evalFields S E p P m)).at a = some ((evalNode S E p' Q x).getD x.fresh) := by
  induction a with
  | nil => intro m p P Q q x _ h; simp [keyOf] at h
  | cons s a ih =>
    intro m p P Q q x hm hk hr
    obtain ⟨n, i⟩ := s
    rw [atMeta_cons] at hm
    simp only [Node.at, Node.item, eval_get?]
    cases hc : mchild m n with
    | none => simp [hc] at hm
    | some y =>
      rw [hc] at hm
      cases i with
      | none =>
        simp only at hm
        cases a with
        | nil =>
          rw [atMeta] at hm; cases hm
          rw [keyOf] at hk
          obtain ⟨r, hr', hk⟩ := Option.map_eq_some_iff.1 hk
          cases hk
          obtain ⟨⟨r', tb⟩, h1, h2⟩ := Option.map_eq_some_iff.1 hr'
          cases h2
          exact ⟨p ++ [n], tb, h1, by simp [Node.at]⟩
        | cons b a =>
          rw [keyOf] at hk
          obtain ⟨r, hr', hk⟩ := Option.bind_eq_some_iff.1 hk
          obtain ⟨⟨r', tb⟩, h1, h2⟩ := Option.map_eq_some_iff.1 hr'
          cases y with
          | leaf l => simp [atMeta] at hm
          | aos d => simp [atMeta] at hm
          | struct d =>
            obtain ⟨p', tb', h3, h4⟩ := ih d (p ++ [n]) P Q q x hm hk hr
            refine ⟨p', tb', h3, ?_⟩
            simp only [Option.map_some, evalNode, h1, Option.getD_some, Option.bind_some]
            exact h4
      | some i =>
        cases y with
        | leaf l => simp at hm
        | struct d => simp at hm
        | aos d =>
          simp only at hm
          rw [keyOf] at hk
          obtain ⟨r, hr', hk⟩ := Option.bind_eq_some_iff.1 hk
          obtain ⟨⟨r', tb⟩, h1, h2⟩ := Option.map_eq_some_iff.1 hr'
          cases h2
          obtain ⟨R, hR⟩ := keyOf_ext _ _ _ _ _ _ hk
          have hi : i < S.size P r' := by
            have := hr [] r' i R (by rw [hR]; simp)
            simpa using this
          have hr2 : Reached S (P ++ [(r', i)]) Q := by
            intro Q1 q' j Q2 e
            have := hr ((r', i) :: Q1) q' j Q2 (by rw [e]; simp)
            simpa using this
          obtain ⟨p', tb', h3, h4⟩ := ih d (p ++ [n]) (P ++ [(r', i)]) Q q x hm hk hr2
          refine ⟨p', tb', h3, ?_⟩
          have hz : S.size P r' ≠ 0 := by omega
          simp only [Option.map_some, evalNode, h1, if_neg hz, Option.getD_some, elemsOf_get?]
          simp only [List.getElem?_map, List.getElem?_range' hi, Option.map_some, Option.bind_some]
          rw [show 0 + 1 * i = i by omega]
          exact h4

theorem fresh_at {x y : Node V} {a : Addr} (hx : x.hasValue = false) (h : x.at a = some y) (hs : Filled y) : False := by
  have := hasValue_of_filled x a y h hs
  simp [hx] at this

/-- A filled data node or array has a key, and its elements are stored. -/
theorem eval_key (S : Store V) (E : Env V) (a : Addr) : ∀ (m : MFields) (p : Path) (P : Pos) (y : Node V),
    (Node.struct (evalFields S E p P m)).at a = some y → Filled y →
    ∃ Q q x, atMeta (.struct m) a = some x ∧ keyOf (pathOf E) p P a = some (Q, q) ∧ Reached S P Q := by
  induction a with
  | nil =>
    intro m p P y h hf
    simp [Node.at] at h
    subst h
    simp [Filled] at hf
  | cons s a ih =>
    intro m p P y h hf
    obtain ⟨n, i⟩ := s
    simp only [Node.at, Node.item, eval_get?] at h
    rw [atMeta_cons]
    cases hc : mchild m n with
    | none => simp [hc] at h
    | some x =>
      simp only [hc, Option.map_some] at h
      cases ht : target E (p ++ [n]) with
      | none =>
        exfalso
        have he : evalNode S E (p ++ [n]) P x = none := by cases x <;> simp [evalNode, ht]
        rw [he] at h
        simp only [Option.getD_none] at h
        have hb : (x.fresh : Node V).hasValue = false := fresh_hasValue x
        have : (Node.struct (.present n (x.fresh : Node V) .nil)).at ((n, i) :: a) = some y := by
          simp only [Node.at, Node.item, Fields.get?, if_pos]
          exact h
        exact fresh_at (by simp [Node.hasValue, Fields.hasValue, hb]) this hf
      | some t =>
        obtain ⟨q, tb⟩ := t
        have hp : pathOf E (p ++ [n]) = some q := by simp [pathOf, ht]
        cases i with
        | none =>
          simp only [Option.bind_some] at h
          cases a with
          | nil => exact ⟨P, q, x, rfl, by simp [keyOf, hp], reached_self S P⟩
          | cons b a =>
            cases x with
            | leaf l =>
              exfalso
              simp only [evalNode, ht] at h
              unfold keepValue at h
              split at h <;> try split at h
              all_goals simp [Meta.fresh, Node.at, Node.item] at h
            | aos d =>
              exfalso
              simp only [evalNode, ht] at h
              split at h
              all_goals simp [Meta.fresh, Node.at, Node.item] at h
            | struct d =>
              simp only [evalNode, ht, Option.getD_some] at h
              obtain ⟨Q, r, x, h1, h2, h3⟩ := ih d (p ++ [n]) P y h hf
              exact ⟨Q, r, x, h1, by rw [keyOf, hp]; exact h2, h3⟩
        | some i =>
          cases x with
          | leaf l =>
            exfalso
            simp only [evalNode, ht] at h
            obtain ⟨u, hu⟩ : ∃ u, (keepValue E l (S.data P q)).getD (Meta.leaf l).fresh = .leaf l u := by
              unfold keepValue
              (split <;> try split) <;> simp [Meta.fresh]
            rw [hu] at h
            simp at h
          | struct d => exfalso; simp [evalNode, ht] at h
          | aos d =>
            simp only [evalNode, ht] at h
            by_cases hz : S.size P q = 0
            · exfalso; simp [hz, Meta.fresh, Elems.get?] at h
            · simp only [if_neg hz, Option.getD_some, elemsOf_get?, List.getElem?_map] at h
              by_cases hi : i < S.size P q
              · rw [List.getElem?_range' hi, show 0 + 1 * i = i by omega] at h
                simp only [Option.map_some, Option.bind_some] at h
                obtain ⟨Q, r, x, h1, h2, h3⟩ := ih d (p ++ [n]) (P ++ [(q, i)]) y h hf
                exact ⟨Q, r, x, h1, by rw [keyOf, hp]; exact h2,
                  reached_step hi h3 (keyOf_ext _ _ _ _ _ _ h2)⟩
              · exfalso
                rw [List.getElem?_eq_none (by simpa using hi)] at h
                simp at h

/-- The value of a data node after a get. -/
theorem eval_value (S : Store V) (E : Env V) (m : MFields) (p : Path) (P : Pos) (a : Addr) (v : V) :
    ValueAt (.struct (evalFields S E p P m)) a v ↔
      ∃ l Q q, atMeta (.struct m) a = some (.leaf l) ∧ keyOf (pathOf E) p P a = some (Q, q) ∧ Reached S P Q ∧
        S.data Q q = some v ∧ Value.isEmpty v = false ∧ (l.ndim = 0 && E.info.isDefault l v) = false := by
  constructor
  · rintro ⟨l, h, hv⟩
    obtain ⟨Q, q, x, h1, h2, h3⟩ := eval_key S E a m p P _ h (by simpa [Filled] using hv)
    obtain ⟨p', tb, h4, h5⟩ := eval_at S E a m p P Q q x h1 h2 h3
    rw [h5] at h
    simp only [Option.some.injEq] at h
    cases x with
    | struct d => simp [evalNode, h4] at h
    | aos d => simp only [evalNode, h4] at h; split at h <;> simp [Meta.fresh] at h
    | leaf l' =>
      simp only [evalNode, h4] at h
      cases hd : S.data Q q with
      | none => simp [hd, keepValue, Meta.fresh] at h
      | some w =>
        rw [hd] at h
        unfold keepValue at h
        simp only at h
        split at h
        · simp [Meta.fresh] at h
        · next hk =>
          simp at h
          obtain ⟨rfl, rfl⟩ := h
          exact ⟨l', Q, q, h1, h2, h3, hd, hv, by simpa using hk⟩
  · rintro ⟨l, Q, q, h1, h2, h3, h4, h5, h6⟩
    obtain ⟨p', tb, h7, h8⟩ := eval_at S E a m p P Q q _ h1 h2 h3
    refine ⟨l, ?_, h5⟩
    rw [h8]
    simp [evalNode, h7, h4, keepValue, h6]

/-- The size of an array of structures after a get. -/
theorem eval_size (S : Store V) (E : Env V) (m : MFields) (p : Path) (P : Pos) (a : Addr) (k : Nat) :
    SizeAt (.struct (evalFields S E p P m)) a k ↔
      ∃ d Q q, atMeta (.struct m) a = some (.aos d) ∧ keyOf (pathOf E) p P a = some (Q, q) ∧ Reached S P Q ∧
        S.size Q q = k ∧ k ≠ 0 := by
  constructor
  · rintro ⟨d, e, h, hl, hk⟩
    obtain ⟨Q, q, x, h1, h2, h3⟩ := eval_key S E a m p P _ h (by simp [Filled, hl, hk])
    obtain ⟨p', tb, h4, h5⟩ := eval_at S E a m p P Q q x h1 h2 h3
    rw [h5] at h
    simp only [Option.some.injEq] at h
    cases x with
    | struct d => simp [evalNode, h4] at h
    | leaf l => simp only [evalNode, h4] at h; unfold keepValue at h; (split at h <;> try split at h) <;> simp [Meta.fresh] at h
    | aos d' =>
      simp only [evalNode, h4] at h
      split at h
      · simp only [Meta.fresh, Option.getD_none, Node.aos.injEq] at h
        rw [← h.2] at hl; simp [Elems.length] at hl; omega
      · next hz =>
        simp only [Option.getD_some, Node.aos.injEq] at h
        rw [← h.2, elemsOf_length] at hl
        simp at hl
        exact ⟨d', Q, q, h1, h2, h3, hl, hk⟩
  · rintro ⟨d, Q, q, h1, h2, h3, h4, h5⟩
    obtain ⟨p', tb, h7, h8⟩ := eval_at S E a m p P Q q _ h1 h2 h3
    subst h4
    refine ⟨d, elemsOf ((List.range' 0 (S.size Q q)).map fun i => evalFields S E p' (Q ++ [(q, i)]) d),
      by rw [h8]; simp only [evalNode, h7, if_neg h5, Option.getD_some], ?_, h5⟩
    simp [elemsOf_length]

/-! ### Put -/

inductive Write (V : Type) where
  | data (P : Pos) (q : Path) (v : V)
  | size (P : Pos) (q : Path) (n : Nat)

def Store.apply (S : Store V) : Write V → Store V
  | .data P q v => S.setData P q v
  | .size P q n => S.setSize P q n

mutual
def writesN (E : Env V) (p : Path) (P : Pos) : Node V → List (Write V)
  | .leaf _ v =>
    match target E p, v with
    | some (q, _), some v => [.data P q v]
    | _, _ => []
  | .struct f =>
    match target E p with
    | none => []
    | some _ => writesF E p P f
  | .aos _ e =>
    match target E p with
    | none => []
    | some (q, _) => .size P q e.length :: writesE E p P q 0 e
def writesF (E : Env V) (p : Path) (P : Pos) : Fields V → List (Write V)
  | .nil => []
  | .absent _ _ r => writesF E p P r
  | .present n x r => (if x.hasValue then writesN E (p ++ [n]) P x else []) ++ writesF E p P r
def writesE (E : Env V) (p : Path) (P : Pos) (q : Path) (i : Nat) : Elems V → List (Write V)
  | .nil => []
  | .cons f r => writesF E p (P ++ [(q, i)]) f ++ writesE E p P q (i + 1) r
end

mutual
theorem storeNode_eq (E : Env V) (p : Path) (P : Pos) (x : Node V) (S : Store V) :
    storeNode E p P x S = (writesN E p P x).foldl Store.apply S := by
  cases x with
  | leaf l v =>
    rcases ht : target E p with _ | ⟨q, tb⟩ <;> cases v <;> simp [storeNode, writesN, ht, Store.apply]
  | struct f =>
    rw [storeNode, writesN]
    rcases target E p with _ | ⟨q, tb⟩
    · rfl
    · exact storeFields_eq E p P f S
  | aos m e =>
    rw [storeNode, writesN]
    rcases target E p with _ | ⟨q, tb⟩
    · rfl
    · exact storeElems_eq E p P q 0 e _
theorem storeFields_eq (E : Env V) (p : Path) (P : Pos) (f : Fields V) (S : Store V) :
    storeFields E p P f S = (writesF E p P f).foldl Store.apply S := by
  cases f with
  | nil => rw [storeFields, writesF]; rfl
  | absent n m r => rw [storeFields, writesF]; exact storeFields_eq E p P r S
  | present n x r =>
    rw [storeFields, writesF, List.foldl_append, storeFields_eq E p P r]
    split
    · rw [storeNode_eq E (p ++ [n]) P x]
    · rfl
theorem storeElems_eq (E : Env V) (p : Path) (P : Pos) (q : Path) (i : Nat) (e : Elems V) (S : Store V) :
    storeElems E p P q i e S = (writesE E p P q i e).foldl Store.apply S := by
  cases e with
  | nil => rw [storeElems, writesE]; rfl
  | cons f r => rw [storeElems, writesE, List.foldl_append, storeElems_eq E p P q (i + 1) r, storeFields_eq E p _ f]
end

theorem apply_data (ws : List (Write V)) : ∀ (S : Store V) (Q : Pos) (q : Path),
    (∃ v, .data Q q v ∈ ws ∧ (ws.foldl Store.apply S).data Q q = some v) ∨
    ((∀ v, .data Q q v ∉ ws) ∧ (ws.foldl Store.apply S).data Q q = S.data Q q) := by
  induction ws with
  | nil => intro S Q q; right; simp
  | cons w ws ih =>
    intro S Q q
    rw [List.foldl_cons]
    rcases ih (S.apply w) Q q with ⟨v, h1, h2⟩ | ⟨h1, h2⟩
    · exact .inl ⟨v, List.mem_cons_of_mem _ h1, h2⟩
    · rw [h2]
      cases w with
      | size P r n =>
        right
        refine ⟨fun v => by simp [h1 v], ?_⟩
        simp [Store.apply, Store.setSize]
      | data P r v =>
        by_cases he : Q = P ∧ r = q
        · obtain ⟨rfl, rfl⟩ := he
          left; exact ⟨v, by simp, by simp [Store.apply, Store.setData]⟩
        · right
          refine ⟨fun w => ?_, ?_⟩
          · simp only [List.mem_cons, Write.data.injEq, not_or]
            refine ⟨fun ⟨h, h', _⟩ => he ⟨h, h'.symm⟩, h1 w⟩
          · simp only [Store.apply, Store.setData]
            rw [if_neg (fun ⟨h, h'⟩ => he ⟨h, h'.symm⟩)]

theorem apply_size (ws : List (Write V)) : ∀ (S : Store V) (Q : Pos) (q : Path),
    (∃ n, .size Q q n ∈ ws ∧ (ws.foldl Store.apply S).size Q q = n) ∨
    ((∀ n, .size Q q n ∉ ws) ∧ (ws.foldl Store.apply S).size Q q = S.size Q q) := by
  induction ws with
  | nil => intro S Q q; right; simp
  | cons w ws ih =>
    intro S Q q
    rw [List.foldl_cons]
    rcases ih (S.apply w) Q q with ⟨v, h1, h2⟩ | ⟨h1, h2⟩
    · exact .inl ⟨v, List.mem_cons_of_mem _ h1, h2⟩
    · rw [h2]
      cases w with
      | data P r n =>
        right
        refine ⟨fun v => by simp [h1 v], ?_⟩
        simp [Store.apply, Store.setData]
      | size P r v =>
        by_cases he : Q = P ∧ r = q
        · obtain ⟨rfl, rfl⟩ := he
          left; exact ⟨v, by simp, by simp [Store.apply, Store.setSize]⟩
        · right
          refine ⟨fun w => ?_, ?_⟩
          · simp only [List.mem_cons, Write.size.injEq, not_or]
            refine ⟨fun ⟨h, h', _⟩ => he ⟨h, h'.symm⟩, h1 w⟩
          · simp only [Store.apply, Store.setSize]
            rw [if_neg (fun ⟨h, h'⟩ => he ⟨h, h'.symm⟩)]

/-- The write a filled node asks for at its key. -/
def Asks : Node V → Pos → Path → Write V → Prop
  | .leaf _ (some v), Q, q, w => Value.isEmpty v = false ∧ w = .data Q q v
  | .leaf _ none, _, _, _ => False
  | .struct _, _, _, _ => False
  | .aos _ e, Q, q, w => e.length ≠ 0 ∧ w = .size Q q e.length

theorem asks_filled {x : Node V} {Q : Pos} {q : Path} {w : Write V} (h : Asks x Q q w) : Filled x := by
  unfold Asks at h
  split at h <;> simp_all [Filled]

theorem atF_cons (n : Name) (i : Option Nat) (a : Addr) (c : Fields V) :
    (Node.struct c).at ((n, i) :: a) = ((Node.struct c).item (n, i)).bind (·.at a) := rfl

/-- A child of a structure with distinct names: the first one, or one of the others. -/
theorem at_present {k : Name} {x : Node V} {r : Fields V} {n : Name} {i : Option Nat} {a : Addr} {y : Node V}
    (h : (Node.struct (.present k x r)).at ((n, i) :: a) = some y) :
    (n = k ∧ (Node.struct (.present k x .nil)).at ((n, i) :: a) = some y) ∨
    (n ≠ k ∧ (Node.struct r).at ((n, i) :: a) = some y) := by
  by_cases e : n = k
  · left
    refine ⟨e, ?_⟩
    simp only [Node.at, Node.item, Fields.get?, if_pos e] at h ⊢
    exact h
  · right
    refine ⟨e, ?_⟩
    simp only [Node.at, Node.item, Fields.get?, if_neg e] at h ⊢
    exact h

mutual
theorem mem_writesN (E : Env V) (k : Name) (p : Path) (P : Pos) (x : Node V) (hw : WF x) (w : Write V) :
    (x.hasValue = true ∧ w ∈ writesN E (p ++ [k]) P x) ↔
      ∃ i a y Q q, (Node.struct (.present k x .nil)).at ((k, i) :: a) = some y ∧
        keyOf (pathOf E) p P ((k, i) :: a) = some (Q, q) ∧ Asks y Q q w := by
  have filled : (∃ i a y Q q, (Node.struct (.present k x .nil)).at ((k, i) :: a) = some y ∧
        keyOf (pathOf E) p P ((k, i) :: a) = some (Q, q) ∧ Asks y Q q w) → x.hasValue = true := by
    rintro ⟨i, a, y, Q, q, h, -, ha⟩
    have := hasValue_of_filled _ _ _ h (asks_filled ha)
    simpa [Node.hasValue, Fields.hasValue] using this
  constructor
  · rintro ⟨hv, hm⟩
    cases ht : target E (p ++ [k]) with
    | none => cases x <;> simp [writesN, ht] at hm
    | some t =>
      obtain ⟨q, tb⟩ := t
      have hp : pathOf E (p ++ [k]) = some q := by simp [pathOf, ht]
      cases x with
      | leaf l v =>
        cases v with
        | none => simp [writesN, ht] at hm
        | some v =>
          simp [writesN, ht] at hm
          refine ⟨none, [], .leaf l (some v), P, q, by simp only [Node.at, Node.item, Fields.get?, if_pos]; rfl, by simp [keyOf, hp], ?_⟩
          refine ⟨?_, hm⟩
          simpa [Node.hasValue, leafHasValue] using hv
      | struct f =>
        simp only [writesN, ht] at hm
        obtain ⟨a, y, Q, r, h1, h2, h3⟩ := (mem_writesF E (p ++ [k]) P f (by simpa [WF] using hw) w).1 hm
        cases a with
        | nil => simp [keyOf] at h2
        | cons b a =>
          refine ⟨none, b :: a, y, Q, r, ?_, by rw [keyOf, hp]; exact h2, h3⟩
          rw [atF_cons]
          simp only [Node.item, Fields.get?, if_pos, Option.bind_some]
          exact h1
      | aos m e =>
        simp only [writesN, ht, List.mem_cons] at hm
        rcases hm with hm | hm
        · refine ⟨none, [], .aos m e, P, q, by simp only [Node.at, Node.item, Fields.get?, if_pos]; rfl, by simp [keyOf, hp], ?_⟩
          refine ⟨?_, hm⟩
          simp [Node.hasValue] at hv
          omega
        · obtain ⟨j, c, h0, a, y, Q, r, h1, h2, h3⟩ := (mem_writesE E (p ++ [k]) P q 0 e
            (by simp only [WF] at hw; exact hw.2) w).1 hm
          refine ⟨some j, a, y, Q, r, ?_, by rw [keyOf, hp]; simpa using h2, h3⟩
          rw [atF_cons]
          simp only [Node.item, Fields.get?, if_pos, h0, Option.map_some, Option.bind_some]
          exact h1
  · intro hx
    refine ⟨filled hx, ?_⟩
    obtain ⟨i, a, y, Q, q, h1, h2, h3⟩ := hx
    rw [atF_cons] at h1
    simp only [Node.item, Fields.get?, if_pos] at h1
    cases ht : target E (p ++ [k]) with
    | none =>
      exfalso
      have hp : pathOf E (p ++ [k]) = none := by simp [pathOf, ht]
      cases i with
      | some i => simp [keyOf, hp] at h2
      | none => cases a <;> simp [keyOf, hp] at h2
    | some t =>
      obtain ⟨r, tb⟩ := t
      have hp : pathOf E (p ++ [k]) = some r := by simp [pathOf, ht]
      cases i with
      | none =>
        simp only [Option.bind_some] at h1
        cases a with
        | nil =>
          simp only [Node.at, Option.some.injEq] at h1
          subst h1
          simp only [keyOf, hp, Option.map_some, Option.some.injEq, Prod.mk.injEq] at h2
          obtain ⟨rfl, rfl⟩ := h2
          cases x with
          | leaf l v =>
            cases v with
            | none => simp [Asks] at h3
            | some v => simp only [Asks] at h3; simp [writesN, ht, h3.2]
          | struct f => simp [Asks] at h3
          | aos m e => simp only [Asks] at h3; simp [writesN, ht, h3.2]
        | cons b a =>
          cases x with
          | leaf l v => simp [Node.at, Node.item] at h1
          | aos m e => simp [Node.at, Node.item] at h1
          | struct f =>
            simp only [writesN, ht]
            rw [keyOf, hp] at h2
            exact (mem_writesF E (p ++ [k]) P f (by simpa [WF] using hw) w).2 ⟨b :: a, y, Q, q, h1, h2, h3⟩
      | some i =>
        cases x with
        | leaf l v => simp at h1
        | struct f => simp at h1
        | aos m e =>
          cases hg : e.get? i with
          | none => simp [hg] at h1
          | some c =>
            simp only [hg, Option.map_some, Option.bind_some] at h1
            simp only [writesN, ht, List.mem_cons]
            right
            rw [keyOf, hp] at h2
            exact (mem_writesE E (p ++ [k]) P r 0 e (by simp only [WF] at hw; exact hw.2) w).2
              ⟨i, c, hg, a, y, Q, q, h1, by simpa using h2, h3⟩
theorem mem_writesF (E : Env V) (p : Path) (P : Pos) (f : Fields V) (hw : WFFields f) (w : Write V) :
    w ∈ writesF E p P f ↔
      ∃ a y Q q, (Node.struct f).at a = some y ∧ keyOf (pathOf E) p P a = some (Q, q) ∧ Asks y Q q w := by
  cases f with
  | nil =>
    simp only [writesF, List.not_mem_nil, false_iff]
    rintro ⟨a, y, Q, q, h1, h2, h3⟩
    cases a with
    | nil => simp [keyOf] at h2
    | cons s a => simp [Node.at, Node.item, Fields.get?] at h1
  | absent k m r =>
    rw [writesF, mem_writesF E p P r (by simp only [WFFields] at hw; exact hw.2.2) w]
    constructor
    · rintro ⟨a, y, Q, q, h1, h2, h3⟩
      refine ⟨a, y, Q, q, ?_, h2, h3⟩
      cases a with
      | nil => simp [keyOf] at h2
      | cons s a =>
        obtain ⟨n, i⟩ := s
        have hn : n ≠ k := by
          rintro rfl
          simp only [WFFields] at hw
          refine hw.1 ?_
          rw [atF_cons] at h1
          cases hg : r.get? n with
          | none => simp [Node.item, hg] at h1
          | some z => exact get?_mem_names hg
        simp only [Node.at, Node.item, Fields.get?, if_neg hn] at h1 ⊢
        exact h1
    · rintro ⟨a, y, Q, q, h1, h2, h3⟩
      refine ⟨a, y, Q, q, ?_, h2, h3⟩
      cases a with
      | nil => simp [keyOf] at h2
      | cons s a =>
        obtain ⟨n, i⟩ := s
        by_cases hn : n = k
        · exfalso
          have : (Node.struct (.present k (m.fresh : Node V) .nil)).at ((n, i) :: a) = some y := by
            simp only [Node.at, Node.item, Fields.get?, if_pos hn] at h1 ⊢
            exact h1
          exact fresh_at (by simp [Node.hasValue, Fields.hasValue, fresh_hasValue]) this (asks_filled h3)
        · simp only [Node.at, Node.item, Fields.get?, if_neg hn] at h1 ⊢
          exact h1
  | present k x r =>
    simp only [WFFields] at hw
    have hN := mem_writesN E k p P x hw.2.1 w
    have hF := mem_writesF E p P r hw.2.2 w
    rw [writesF, List.mem_append, hF]
    have : w ∈ (if x.hasValue then writesN E (p ++ [k]) P x else []) ↔
        (x.hasValue = true ∧ w ∈ writesN E (p ++ [k]) P x) := by
      split
      · next h => simp [h]
      · next h => simp [h]
    rw [this, hN]
    constructor
    · rintro (⟨i, a, y, Q, q, h1, h2, h3⟩ | ⟨a, y, Q, q, h1, h2, h3⟩)
      · refine ⟨(k, i) :: a, y, Q, q, ?_, h2, h3⟩
        simp only [Node.at, Node.item, Fields.get?, if_pos] at h1 ⊢
        exact h1
      · refine ⟨a, y, Q, q, ?_, h2, h3⟩
        cases a with
        | nil => simp [keyOf] at h2
        | cons s a =>
          obtain ⟨n, i⟩ := s
          have hn : n ≠ k := by
            rintro rfl
            refine hw.1 ?_
            rw [atF_cons] at h1
            cases hg : r.get? n with
            | none => simp [Node.item, hg] at h1
            | some z => exact get?_mem_names hg
          simp only [Node.at, Node.item, Fields.get?, if_neg hn] at h1 ⊢
          exact h1
    · rintro ⟨a, y, Q, q, h1, h2, h3⟩
      cases a with
      | nil => simp [keyOf] at h2
      | cons s a =>
        obtain ⟨n, i⟩ := s
        rcases at_present h1 with ⟨rfl, h⟩ | ⟨-, h⟩
        · exact .inl ⟨i, a, y, Q, q, h, h2, h3⟩
        · exact .inr ⟨(n, i) :: a, y, Q, q, h, h2, h3⟩
theorem mem_writesE (E : Env V) (p : Path) (P : Pos) (q : Path) (i : Nat) (e : Elems V) (hw : WFElems e)
    (w : Write V) :
    w ∈ writesE E p P q i e ↔
      ∃ j c, e.get? j = some c ∧ ∃ a y Q r, (Node.struct c).at a = some y ∧
        keyOf (pathOf E) p (P ++ [(q, i + j)]) a = some (Q, r) ∧ Asks y Q r w := by
  cases e with
  | nil => simp [writesE, Elems.get?]
  | cons f r =>
    simp only [WFElems] at hw
    rw [writesE, List.mem_append, mem_writesF E p _ f hw.1 w, mem_writesE E p P q (i + 1) r hw.2 w]
    constructor
    · rintro (h | ⟨j, c, h0, h⟩)
      · exact ⟨0, f, rfl, by simpa using h⟩
      · refine ⟨j + 1, c, h0, ?_⟩
        rw [show i + (j + 1) = i + 1 + j by omega]
        exact h
    · rintro ⟨j, c, h0, h⟩
      cases j with
      | zero => simp only [Elems.get?, Option.some.injEq] at h0; subst h0; exact .inl (by simpa using h)
      | succ j =>
        refine .inr ⟨j, c, h0, ?_⟩
        rw [show i + (j + 1) = i + 1 + j by omega] at h
        exact h
end

/-- What is stored as a value after a put. -/
theorem store_data (E : Env V) (f : Fields V) (hw : WFFields f) (p : Path) (P : Pos) (S : Store V) (Q : Pos) (q : Path) :
    (∃ a v, ValueAt (.struct f) a v ∧ keyOf (pathOf E) p P a = some (Q, q) ∧
      (storeFields E p P f S).data Q q = some v) ∨
    ((∀ a v, ValueAt (.struct f) a v → keyOf (pathOf E) p P a ≠ some (Q, q)) ∧
      (storeFields E p P f S).data Q q = S.data Q q) := by
  rw [storeFields_eq]
  rcases apply_data (writesF E p P f) S Q q with ⟨v, h1, h2⟩ | ⟨h1, h2⟩
  · left
    obtain ⟨a, y, Q', q', h3, h4, h5⟩ := (mem_writesF E p P f hw _).1 h1
    unfold Asks at h5
    split at h5
    · next l v' => 
      obtain ⟨h6, h7⟩ := h5
      cases h7
      exact ⟨a, v, ⟨l, h3, h6⟩, h4, h2⟩
    · exact h5.elim
    · exact h5.elim
    · exact absurd h5.2 (by simp)
  · right
    refine ⟨fun a v ⟨l, h3, h6⟩ hk => h1 v ?_, h2⟩
    exact (mem_writesF E p P f hw _).2 ⟨a, _, Q, q, h3, hk, by simp [Asks, h6]⟩

/-- What is stored as a size after a put. -/
theorem store_size (E : Env V) (f : Fields V) (hw : WFFields f) (p : Path) (P : Pos) (S : Store V) (Q : Pos) (q : Path) :
    (∃ a k, SizeAt (.struct f) a k ∧ keyOf (pathOf E) p P a = some (Q, q) ∧
      (storeFields E p P f S).size Q q = k) ∨
    ((∀ a k, SizeAt (.struct f) a k → keyOf (pathOf E) p P a ≠ some (Q, q)) ∧
      (storeFields E p P f S).size Q q = S.size Q q) := by
  rw [storeFields_eq]
  rcases apply_size (writesF E p P f) S Q q with ⟨v, h1, h2⟩ | ⟨h1, h2⟩
  · left
    obtain ⟨a, y, Q', q', h3, h4, h5⟩ := (mem_writesF E p P f hw _).1 h1
    unfold Asks at h5
    split at h5
    · exact absurd h5.2 (by simp)
    · exact h5.elim
    · exact h5.elim
    · next m e =>
      obtain ⟨h6, h7⟩ := h5
      cases h7
      exact ⟨a, _, ⟨m, e, h3, rfl, h6⟩, h4, h2⟩
  · right
    refine ⟨fun a k ⟨m, e, h3, h6, h7⟩ hk => h1 k ?_, h2⟩
    exact (mem_writesF E p P f hw _).2 ⟨a, _, Q, q, h3, hk, by subst h6; simp [Asks, h7]⟩

end Verif.Al
