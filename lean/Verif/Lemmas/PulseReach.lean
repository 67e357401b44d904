import Verif.Lemmas.PulseCopy
/-
A successful conversion has called the callback for every value that goes somewhere.
-/
set_option linter.unusedSectionVars false
namespace Verif.Pulse
open Verif.Ids Verif.TreeSpec Verif.DiffSpec Verif.Convert Verif.ConvertSpec

variable {V : Type} [Value V] {P : Addr → LeafMeta → V → Prop} {cx : Cfg V} {cb : Callback V}
  {f : Addr → LeafMeta → V → V} {tm : Meta}

theorem copyFields_at (hr : Realizes P cx cb f) (hp : Proper cx) {s t : Addr}
    (hs : Clear cx (names s)) (c : Fields V) (hP : AllF P s c) {root root' : Node V}
    (ht : Typed root tm) (h : copyFields cx cb s t c root = .ok root') {n : Name} {x : Node V} {b : Addr}
    (hc : c.get? n = some x) (hv : x.hasValue = true) (hb : step cx tm (names s ++ [n]) n t = some b) :
    ∃ r0 r1, Typed r0 tm ∧ AllN P (s ++ [(n, none)]) x ∧ copyItem cx cb s n b x r0 = .ok r1 := by
  cases c with
  | nil => simp [Fields.get?] at hc
  | absent k m r =>
    simp only [copyFields] at h
    simp only [AllF] at hP
    simp only [Fields.get?] at hc
    split at hc
    · cases hc; rw [fresh_hasValue] at hv; simp at hv
    · exact copyFields_at hr hp hs r hP ht h hc hv hb
  | present k y r =>
    simp only [copyFields] at h
    simp only [AllF] at hP
    simp only [Fields.get?] at hc
    split at hc
    · next hk =>
      cases hc
      subst hk
      rw [if_pos hv] at h
      obtain ⟨r1, h1, h2⟩ := andThen_ok.1 h
      cases hg : getTarget cx root (names s ++ [n]) n t with
      | error e => rw [hg] at h1; simp at h1
      | ok o =>
        rw [hg] at h1
        have := getTarget_ok ht hg
        rw [hb] at this
        subst this
        exact ⟨root, r1, ht, hP.1, h1⟩
    · split at h
      · next hy =>
        obtain ⟨r1, h1, h2⟩ := andThen_ok.1 h
        refine copyFields_at hr hp hs r hP.2 ?_ h2 hc hv hb
        cases hg : getTarget cx root (names s ++ [k]) k t with
        | error e => rw [hg] at h1; simp at h1
        | ok o =>
          rw [hg] at h1
          cases o with
          | none => simp only [Except.ok.injEq] at h1; subst h1; exact ht
          | some b =>
            simp only at h1
            exact (copyItem_plan hp _ k b _ ht (copyItem_map hr s k b hs y hy hP.1 h1)).2
      · exact copyFields_at hr hp hs r hP.2 ht h hc hv hb
termination_by structural c

theorem copyElems_at (hr : Realizes P cx cb f) (hp : Proper cx) {s : Addr} {n : Name} {b : Addr}
    (i : Nat) (hs : Clear cx (names s ++ [n])) (e : Elems V) (hP : AllE P (s ++ [(n, none)]) i e)
    {root root' : Node V} (ht : Typed root tm) (h : copyElems cx cb s n b i e root = .ok root')
    {j : Nat} {d : Fields V} (hj : e.get? j = some d) :
    ∃ r0 r1, Typed r0 tm ∧ AllF P (s ++ [(n, some (i + j))]) d ∧
      copyFields cx cb (s ++ [(n, some (i + j))]) (elemOf b (i + j)) d r0 = .ok r1 := by
  induction j generalizing i e root with
  | zero =>
    cases e with
    | nil => simp [Elems.get?] at hj
    | cons c r =>
      simp only [Elems.get?, Option.some.injEq] at hj
      subst hj
      simp only [copyElems] at h
      simp only [AllE, elemOf_snoc] at hP
      obtain ⟨r1, h1, -⟩ := andThen_ok.1 h
      exact ⟨root, r1, ht, hP.1, h1⟩
  | succ j ih =>
    cases e with
    | nil => simp [Elems.get?] at hj
    | cons c r =>
      simp only [Elems.get?] at hj
      simp only [copyElems] at h
      simp only [AllE, elemOf_snoc] at hP
      obtain ⟨r1, h1, h2⟩ := andThen_ok.1 h
      have h3 := (copyFields_plan hp _ _ _ ht (copyFields_map hr (s ++ [(n, some i)]) (elemOf b i)
        (by rw [names_snoc]; exact hs) c hP.1 h1)).2
      obtain ⟨r0, r2, h4⟩ := ih (i + 1) r hP.2 h3 h2 hj
      rw [show i + 1 + j = i + (j + 1) by omega] at h4
      exact ⟨r0, r2, h4⟩

/-- The callback did not fail. -/
theorem callback_ok (hr : Realizes P cx cb f) (hp : Proper cx) {p : List Name} {t : Addr} {c : Fields V}
    {A B : Addr} (hsent : Sent cx tm p t c A B) {s : Addr} (hps : p = names s)
    (hs : Clear cx (names s)) (hP : AllF P s c) {root root' : Node V} (ht : Typed root tm)
    (h : copyFields cx cb s t c root = .ok root') {l : LeafMeta} {v : V}
    (hA : (Node.struct c).at A = some (.leaf l (some v))) (hv : Value.isEmpty v = false)
    (hch : cx.change (p ++ names A) = none) {g : Node V → Except ConvErr (Node V)}
    (hg : cb (s ++ A) (.leaf l (some v)) = some g) : ∃ y z, g y = .ok z := by
  have hval : (Node.leaf l (some v)).hasValue = true := by simp [Node.hasValue, leafHasValue, hv]
  induction hsent generalizing s root root' with
  | @here p t c n x b h' hb =>
    subst hps
    have : x = .leaf l (some v) := by simpa [Node.at, Node.item, h'] using hA
    subst this
    obtain ⟨r0, r1, h1, h2, h3⟩ := copyFields_at hr hp hs c hP ht h h' hval hb
    have hch' : cx.change (names s ++ [n]) = none := by simpa [names] using hch
    simp only [copyItem, hch'] at h3
    obtain ⟨r2, h4, h5⟩ := andThen_ok.1 h3
    simp only [AllN] at h2
    obtain ⟨-, h6, -⟩ := hr.stored _ l v g (h2 v rfl hv) hv
      (by rw [names_snoc]; exact clear_snoc hs (by rw [hch']; simp)) hg
    unfold after at h5
    obtain ⟨r3, -, h7⟩ := andThen_ok.1 h5
    rw [hg] at h7
    obtain ⟨y, z, -, h8, -⟩ := modify_at h6 (writeAt_ok h7)
    exact ⟨y, z, h8⟩
  | @child p t c d n b A B h' hb hc r ih =>
    subst hps
    have hA' : (Node.struct d).at A = some (.leaf l (some v)) := by
      simpa [Node.at, Node.item, h'] using hA
    obtain ⟨r0, r1, h1, h2, h3⟩ := copyFields_at hr hp hs c hP ht h h' (hasValue_of_at hA' hval) hb
    simp only [copyItem, hc] at h3
    obtain ⟨r2, h4, -⟩ := andThen_ok.1 h3
    exact ih (s := s ++ [(n, none)]) (names_snoc s n none).symm
      (by rw [names_snoc]; exact clear_snoc hs (by rw [hc]; simp)) (by simpa only [AllN] using h2) h1 h4 hA'
      (by simpa [names] using hch) (by simpa using hg)
  | @element p t c d n b A B m e i h' hi hb hc r ih =>
    subst hps
    have hA' : (Node.struct d).at A = some (.leaf l (some v)) := by
      simpa [Node.at, Node.item, h', hi] using hA
    have hval' : (Node.aos m e).hasValue = true := by
      simp only [Node.hasValue]
      cases e with
      | nil => simp [Elems.get?] at hi
      | cons => simp [Elems.length]
    obtain ⟨r0, r1, h1, h2, h3⟩ := copyFields_at hr hp hs c hP ht h h' hval' hb
    simp only [copyItem, hc] at h3
    obtain ⟨r2, h4, -⟩ := andThen_ok.1 h3
    obtain ⟨r3, h5, h6⟩ := andThen_ok.1 h4
    obtain ⟨r4, r5, h7, h8, h9⟩ := copyElems_at hr hp 0 (clear_snoc hs (by rw [hc]; simp)) e
      (by simpa only [AllN] using h2) (typed_writeAt (keeps_resize e.length) h1 h5) h6 hi
    rw [Nat.zero_add] at h8 h9
    exact ih (s := s ++ [(n, some i)]) (names_snoc s n _).symm
      (by rw [names_snoc]; exact clear_snoc hs (by rw [hc]; simp)) h8 h7 h9 hA'
      (by simpa [names] using hch) (by simpa using hg)
  | @toArray p t c d n b A B h' hb hc r ih =>
    subst hps
    have hA' : (Node.struct d).at A = some (.leaf l (some v)) := by
      simpa [Node.at, Node.item, h'] using hA
    obtain ⟨r0, r1, h1, h2, h3⟩ := copyFields_at hr hp hs c hP ht h h' (hasValue_of_at hA' hval) hb
    simp only [copyItem, hc] at h3
    split at h3
    · obtain ⟨r2, h4, -⟩ := andThen_ok.1 h3
      obtain ⟨r3, h5, h6⟩ := andThen_ok.1 h4
      exact ih (s := s ++ [(n, none)]) (names_snoc s n none).symm
        (by rw [names_snoc]; exact clear_snoc hs (by rw [hc]; simp)) (by simpa only [AllN] using h2)
        (typed_writeAt (keeps_resize 1) h1 h5) h6 hA'
        (by simpa [names] using hch) (by simpa using hg)
    · simp at h3
  | @ofArray p t c d n b A B m h' hb hc r ih =>
    subst hps
    have hA' : (Node.struct d).at A = some (.leaf l (some v)) := by
      simpa [Node.at, Node.item, h', Elems.get?] using hA
    obtain ⟨r0, r1, h1, h2, h3⟩ := copyFields_at hr hp hs c hP ht h h'
      (by simp [Node.hasValue, Elems.length]) hb
    simp only [copyItem, hc] at h3
    split at h3
    · simp only [copySingle] at h3
      obtain ⟨r2, h4, -⟩ := andThen_ok.1 h3
      simp only [AllN, AllE, elemOf_snoc] at h2
      exact ih (s := s ++ [(n, some 0)]) (names_snoc s n _).symm
        (by rw [names_snoc]; exact clear_snoc hs (by rw [hc]; simp)) h2.1
        h1 h4 hA' (by simpa [names] using hch) (by simpa using hg)
    · simp at h3

end Verif.Pulse
