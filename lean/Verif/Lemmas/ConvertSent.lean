import Verif.Lemmas.ConvertMain
/-
The nodes of a given structure and where they go, as a list. Used to check concrete cases.
-/
set_option linter.unusedSectionVars false
namespace Verif.Convert
open Verif.Ids Verif.TreeSpec Verif.ConvertSpec Verif.DiffSpec

variable {V : Type} [Value V]

def preSent (s : Name × Option Nat) (x : Addr × Addr) : Addr × Addr := (s :: x.1, x.2)

mutual
def sentFields (cx : Cfg V) (tm : Meta) (p : List Name) (t : Addr) : Fields V → List (Addr × Addr)
  | .nil => []
  | .absent _ _ r => sentFields cx tm p t r
  | .present n x r =>
    (match step cx tm (p ++ [n]) n t with
     | none => []
     | some b => ([(n, none)], b) :: sentItem cx tm (p ++ [n]) n b x) ++ sentFields cx tm p t r
termination_by structural x => x
def sentItem (cx : Cfg V) (tm : Meta) (q : List Name) (n : Name) (b : Addr) :
    Node V → List (Addr × Addr)
  | .leaf _ _ => []
  | .struct c =>
    match cx.change q with
    | none => (sentFields cx tm q b c).map (preSent (n, none))
    | some .structAos => (sentFields cx tm q (elemOf b 0) c).map (preSent (n, none))
    | some (.custom _) => []
  | .aos _ e =>
    match cx.change q with
    | none => sentElems cx tm q n b 0 e
    | some .structAos => sentSingle cx tm q n b e
    | some (.custom _) => []
termination_by structural x => x
def sentSingle (cx : Cfg V) (tm : Meta) (q : List Name) (n : Name) (b : Addr) :
    Elems V → List (Addr × Addr)
  | .nil => []
  | .cons c _ => (sentFields cx tm q b c).map (preSent (n, some 0))
termination_by structural x => x
def sentElems (cx : Cfg V) (tm : Meta) (q : List Name) (n : Name) (b : Addr) (i : Nat) :
    Elems V → List (Addr × Addr)
  | .nil => []
  | .cons c r => (sentFields cx tm q (elemOf b i) c).map (preSent (n, some i)) ++
      sentElems cx tm q n b (i + 1) r
termination_by structural x => x
end

theorem sentFields_get {cx : Cfg V} {tm : Meta} {p : List Name} {t : Addr} {c : Fields V} {n : Name}
    {x : Node V} (h : c.get? n = some x) (hv : x.hasValue = true) {b : Addr}
    (hb : step cx tm (p ++ [n]) n t = some b) :
    ∀ y ∈ ([(n, none)], b) :: sentItem cx tm (p ++ [n]) n b x, y ∈ sentFields cx tm p t c := by
  cases c with
  | nil => simp [Fields.get?] at h
  | absent k m r =>
    simp only [Fields.get?] at h
    simp only [sentFields]
    split at h
    · cases h
      have : (m.fresh : Node V).hasValue = false := by
        rw [← content_hasValue, content_fresh, contentM_hasValue]
      rw [this] at hv; simp at hv
    · exact sentFields_get h hv hb
  | present k z r =>
    simp only [Fields.get?] at h
    simp only [sentFields]
    intro y hy
    split at h
    · next e =>
      subst e; cases h
      simp only [hb]
      exact List.mem_append_left _ hy
    · exact List.mem_append_right _ (sentFields_get h hv hb y hy)

theorem sentElems_get {cx : Cfg V} {tm : Meta} {q : List Name} {n : Name} {b : Addr} (k : Nat)
    (es : Elems V) {i : Nat} {d : Fields V} (h : es.get? i = some d) :
    ∀ y ∈ (sentFields cx tm q (elemOf b (k + i)) d).map (preSent (n, some (k + i))),
      y ∈ sentElems cx tm q n b k es := by
  induction i generalizing k es with
  | zero =>
    cases es with
    | nil => simp [Elems.get?] at h
    | cons c r =>
      simp [Elems.get?] at h; subst h
      intro y hy
      simp only [sentElems]
      exact List.mem_append_left _ hy
  | succ i ih =>
    cases es with
    | nil => simp [Elems.get?] at h
    | cons c r =>
      simp only [Elems.get?] at h
      intro y hy
      simp only [sentElems]
      refine List.mem_append_right _ (ih (k + 1) r h y ?_)
      have e : k + 1 + i = k + (i + 1) := by omega
      rw [e]; exact hy

theorem sent_mem {cx : Cfg V} {tm : Meta} {p : List Name} {t : Addr} {c : Fields V} {A B : Addr}
    (hs : Sent cx tm p t c A B) {y : Node V} (hy : (Node.struct c).at A = some y)
    (hv : y.hasValue = true) : (A, B) ∈ sentFields cx tm p t c := by
  induction hs with
  | @here p t c n x b h hb =>
    have : y = x := by simpa [Node.at, Node.item, h] using hy.symm
    subst this
    exact sentFields_get h hv hb _ (by simp)
  | @child p t c d n b A B h hb hq r ih =>
    have hi : (Node.struct c).item (n, none) = some (.struct d) := by simp [Node.item, h]
    have hyd : (Node.struct d).at A = some y := by simpa [Node.at, hi] using hy
    refine sentFields_get h (hasValue_of_at hyd hv) hb _ (List.mem_cons_of_mem _ ?_)
    simp only [sentItem, hq]
    exact List.mem_map.2 ⟨_, ih hyd, rfl⟩
  | @element p t c d n b A B m es i h hi hb hq r ih =>
    have hit : (Node.struct c).item (n, some i) = some (.struct d) := by simp [Node.item, h, hi]
    have hyd : (Node.struct d).at A = some y := by simpa [Node.at, hit] using hy
    have hve : (Node.aos m es).hasValue = true := by
      simp only [Node.hasValue, decide_eq_true_eq]
      have := Elems.get?_lt hi
      omega
    refine sentFields_get h hve hb _ (List.mem_cons_of_mem _ ?_)
    simp only [sentItem, hq]
    have := sentElems_get (cx := cx) (tm := tm) (q := p ++ [n]) (n := n) (b := b) 0 es hi
    rw [Nat.zero_add] at this
    exact this _ (List.mem_map.2 ⟨_, ih hyd, rfl⟩)
  | @toArray p t c d n b A B h hb hq r ih =>
    have hi : (Node.struct c).item (n, none) = some (.struct d) := by simp [Node.item, h]
    have hyd : (Node.struct d).at A = some y := by simpa [Node.at, hi] using hy
    refine sentFields_get h (hasValue_of_at hyd hv) hb _ (List.mem_cons_of_mem _ ?_)
    simp only [sentItem, hq]
    exact List.mem_map.2 ⟨_, ih hyd, rfl⟩
  | @ofArray p t c d n b A B m h hb hq r ih =>
    have hit : (Node.struct c).item (n, some 0) = some (.struct d) := by simp [Node.item, h, Elems.get?]
    have hyd : (Node.struct d).at A = some y := by simpa [Node.at, hit] using hy
    have hve : (Node.aos m (.cons d .nil)).hasValue = true := by simp [Node.hasValue, Elems.length]
    refine sentFields_get h hve hb _ (List.mem_cons_of_mem _ ?_)
    simp only [sentItem, sentSingle, hq]
    exact List.mem_map.2 ⟨_, ih hyd, rfl⟩

theorem acts_hasValue {cx : Cfg V} {q : List Name} {x : Node V} (h : Acts cx q x) :
    x.hasValue = true := by
  rcases h with h | h
  · cases x with
    | leaf l v => cases v <;> simp_all [Filled, Node.hasValue, leafHasValue]
    | struct => simp [Filled] at h
    | aos m e => simp only [Filled] at h; simp only [Node.hasValue, decide_eq_true_eq]; omega
  · exact h.1

/-- `Alone` can be checked with the list. -/
theorem alone_of_list {cx : Cfg V} {tm : Meta} {c : Fields V} {A B : Addr}
    (h : ∀ y ∈ sentFields cx tm [] [] c, y.1 ≠ A → ¬ Contains y.1 A →
      (¬ Contains B y.2 ∧ ¬ Contains y.2 B) ∨ (Contains A y.1 ∧ Inside B y.2)) :
    Alone cx tm c A B := by
  intro A' B' x hs hx hacts hne hnc
  exact h (A', B') (sent_mem hs hx (acts_hasValue hacts)) hne hnc

end Verif.Convert
