import Verif.Lemmas.PulseTimes
import Verif.Lemmas.MapLeaves
import Verif.Lemmas.ConvertMain
/-
Copying with a callback is copying a source in which the values are replaced by those that the callback
stores.
-/
set_option linter.unusedSectionVars false
namespace Verif.Pulse
open Verif.Ids Verif.TreeSpec Verif.DiffSpec Verif.Convert Verif.ConvertSpec

variable {V : Type}

theorem put_put (c : Fields V) (k : Name) (y z : Node V) : (c.put k y).put k z = c.put k z := by
  cases c with
  | nil => rfl
  | absent n m r =>
    simp only [Fields.put]
    split
    · next h => simp [Fields.put, h]
    · next h => simp [Fields.put, h, put_put r k y z]
  | present n x r =>
    simp only [Fields.put]
    split
    · next h => simp [Fields.put, h]
    · next h => simp [Fields.put, h, put_put r k y z]

theorem set_set (e : Elems V) (i : Nat) (c d : Fields V) : (e.set i c).set i d = e.set i d := by
  induction i generalizing e with
  | zero => cases e <;> simp [Elems.set]
  | succ i ih => cases e <;> simp [Elems.set, ih]

/-- Two operations at one place are one operation. -/
theorem modify_twice {f g h : Node V → Except ConvErr (Node V)} (hf : KeepsStruct f) (hg : KeepsStruct g)
    (hh : ∀ x y z, f x = .ok y → g y = .ok z → h x = .ok z) {b : Addr} {n n1 n2 : Node V}
    (h1 : n.modify f b = some (.ok n1)) (h2 : n1.modify g b = some (.ok n2)) :
    n.modify h b = some (.ok n2) := by
  induction b generalizing n n1 n2 with
  | nil =>
    simp only [Node.modify, Option.some.injEq] at h1 h2 ⊢
    exact hh _ _ _ h1 h2
  | cons s b ih =>
    obtain ⟨k, i⟩ := s
    cases n with
    | leaf => simp [Node.modify] at h1
    | aos => simp [Node.modify] at h1
    | struct c =>
      simp only [Node.modify] at h1 ⊢
      cases hx : c.get? k with
      | none => rw [hx] at h1; simp at h1
      | some x =>
        rw [hx] at h1
        cases i with
        | none =>
          simp only [Option.map_eq_some_iff] at h1 ⊢
          obtain ⟨r, hr, e1⟩ := h1
          cases r with
          | error => simp [Except.map] at e1
          | ok y =>
            simp [Except.map] at e1; subst e1
            simp only [Node.modify, Fields.get?_put_same hx, Option.map_eq_some_iff] at h2
            obtain ⟨r, hr2, e2⟩ := h2
            cases r with
            | error => simp [Except.map] at e2
            | ok z =>
              simp [Except.map] at e2; subst e2
              exact ⟨_, ih hr hr2, by simp [Except.map, put_put]⟩
        | some i =>
          simp only at h1 ⊢
          cases x with
          | leaf => simp at h1
          | struct => simp at h1
          | aos m e =>
            simp only at h1 ⊢
            cases hg' : e.get? i with
            | none => rw [hg'] at h1; simp at h1
            | some d =>
              rw [hg'] at h1
              simp only [Option.map_eq_some_iff] at h1 ⊢
              obtain ⟨r, hr, e1⟩ := h1
              cases r with
              | error => simp [Except.map] at e1
              | ok y =>
                obtain ⟨d', rfl⟩ := modify_struct hf hr
                simp only [Except.map, Except.ok.injEq] at e1
                subst e1
                simp only [Node.modify, Fields.get?_put_same hx, Elems.get?_set_same hg',
                  Option.map_eq_some_iff] at h2
                obtain ⟨r, hr2, e2⟩ := h2
                cases r with
                | error => simp [Except.map] at e2
                | ok z =>
                  obtain ⟨d2, rfl⟩ := modify_struct hg hr2
                  simp only [Except.map, Except.ok.injEq] at e2
                  subst e2
                  exact ⟨_, ih hr hr2, by simp [Except.map, put_put, set_set]⟩

theorem writeAt_of {root root' : Node V} {b : Addr} {f : Node V → Except ConvErr (Node V)}
    (h : root.modify f b = some (.ok root')) : writeAt root b f = .ok root' := by
  simp [writeAt, h]

/-- No part of the path is handled by a conversion function. -/
def Clear (cx : Cfg V) (q : List Name) : Prop :=
  ∀ q' g, q' <+: q → cx.change q' ≠ some (.custom g)

variable [Value V]

section
variable (P : Addr → LeafMeta → V → Prop)

mutual
/-- All values below the node at `a` satisfy `P`. -/
def AllN (a : Addr) : Node V → Prop
  | .leaf l v => ∀ w, v = some w → Value.isEmpty w = false → P a l w
  | .struct c => AllF a c
  | .aos _ e => AllE a 0 e
def AllF (a : Addr) : Fields V → Prop
  | .nil => True
  | .absent _ _ r => AllF a r
  | .present n x r => AllN (a ++ [(n, none)]) x ∧ AllF a r
def AllE (a : Addr) (i : Nat) : Elems V → Prop
  | .nil => True
  | .cons c r => AllF (elemOf a i) c ∧ AllE a (i + 1) r
end

mutual
theorem allN_of (a : Addr) (n : Name) (x : Node V) (hw : WF x)
    (h0 : ∀ l v, x = .leaf l (some v) → Value.isEmpty v = false → P (a ++ [(n, none)]) l v)
    (h1 : ∀ c A l v, x = .struct c → (Node.struct c).at A = some (.leaf l (some v)) →
      Value.isEmpty v = false → P (a ++ (n, none) :: A) l v)
    (h2 : ∀ m e i g A l v, x = .aos m e → e.get? i = some g →
      (Node.struct g).at A = some (.leaf l (some v)) → Value.isEmpty v = false →
      P (a ++ (n, some i) :: A) l v) : AllN P (a ++ [(n, none)]) x := by
  cases x with
  | leaf l v => simp only [AllN]; rintro w rfl hw'; exact h0 l w rfl hw'
  | struct c =>
    simp only [AllN]
    simp only [WF] at hw
    exact allF_of _ c hw fun A l v h h' => by simpa using h1 c A l v rfl h h'
  | aos m e =>
    simp only [AllN]
    simp only [WF] at hw
    exact allE_of a n 0 e hw.2 fun i g A l v hg h h' => by
      simpa using h2 m e i g A l v rfl hg h h'
theorem allF_of (a : Addr) (c : Fields V) (hw : WFFields c)
    (h : ∀ A l v, (Node.struct c).at A = some (.leaf l (some v)) → Value.isEmpty v = false →
      P (a ++ A) l v) : AllF P a c := by
  cases c with
  | nil => simp [AllF]
  | absent n m r =>
    simp only [AllF]
    simp only [WFFields] at hw
    refine allF_of a r hw.2.2 fun A l v hA hv => h A l v ?_ hv
    cases A with
    | nil => simp [Node.at] at hA
    | cons s A =>
      simp only [Node.at, Option.bind_eq_some_iff] at hA ⊢
      obtain ⟨y, h1, h2⟩ := hA
      have hs : s.1 ≠ n := by
        rintro rfl
        obtain ⟨c', e, hc⟩ := item_cases h1
        cases e
        apply hw.1
        rcases hc with ⟨-, hc⟩ | ⟨i, m, e, f, -, hc, -⟩
        · exact Fields.mem_names_of_get hc
        · exact Fields.mem_names_of_get hc
      exact ⟨y, by rw [← h1]; exact item_congr (by simp [Fields.get?, hs]), h2⟩
  | present n x r =>
    simp only [AllF]
    simp only [WFFields] at hw
    constructor
    · refine allN_of a n x hw.2.1 ?_ ?_ ?_
      · rintro l v rfl hv
        exact h [(n, none)] l v (by simp [Node.at, Node.item, Fields.get?]) hv
      · rintro c A l v rfl hA hv
        exact h _ l v (by simpa [Node.at, Node.item, Fields.get?] using hA) hv
      · rintro m e i g A l v rfl hg hA hv
        exact h _ l v (by simpa [Node.at, Node.item, Fields.get?, hg] using hA) hv
    · refine allF_of a r hw.2.2 fun A l v hA hv => h A l v ?_ hv
      cases A with
      | nil => simp [Node.at] at hA
      | cons s A =>
        simp only [Node.at, Option.bind_eq_some_iff] at hA ⊢
        obtain ⟨y, h1, h2⟩ := hA
        have hs : s.1 ≠ n := by
          rintro rfl
          obtain ⟨c', e, hc⟩ := item_cases h1
          cases e
          apply hw.1
          rcases hc with ⟨-, hc⟩ | ⟨i, m, e, f, -, hc, -⟩
          · exact Fields.mem_names_of_get hc
          · exact Fields.mem_names_of_get hc
        exact ⟨y, by rw [← h1]; exact item_congr (by simp [Fields.get?, hs]), h2⟩
theorem allE_of (a : Addr) (n : Name) (i : Nat) (e : Elems V) (hw : WFElems e)
    (h : ∀ j g A l v, e.get? j = some g → (Node.struct g).at A = some (.leaf l (some v)) →
      Value.isEmpty v = false → P (a ++ (n, some (i + j)) :: A) l v) :
    AllE P (a ++ [(n, none)]) i e := by
  cases e with
  | nil => simp [AllE]
  | cons c r =>
    simp only [WFElems] at hw
    simp only [AllE, elemOf_snoc]
    refine ⟨allF_of _ c hw.1 fun A l v hA hv => ?_, allE_of a n (i + 1) r hw.2 ?_⟩
    · have := h 0 c A l v (by simp [Elems.get?]) hA hv
      simpa using this
    · intro j g A l v hg hA hv
      have := h (j + 1) g A l v (by simpa [Elems.get?] using hg) hA hv
      rwa [show i + (j + 1) = i + 1 + j by omega] at this
end
end

/-- The values that the callback stores, for values that satisfy `P`. -/
structure Realizes (P : Addr → LeafMeta → V → Prop) (cx : Cfg V) (cb : Callback V)
    (f : Addr → LeafMeta → V → V) : Prop where
  struct : ∀ s, cb s .struct = none
  aos : ∀ s g y z, cb s .aos = some g → g y ≠ .ok z
  custom : ∀ q g, cx.change q = some (.custom g) → ∀ s, q <+: names s → ∀ l v, f s l v = v
  kept : ∀ s l v, P s l v → Value.isEmpty v = false → cb s (.leaf l (some v)) = none → f s l v = v
  stored : ∀ s l v g, P s l v → Value.isEmpty v = false → Clear cx (names s) → cb s (.leaf l (some v)) = some g →
    cx.post (names s) = none ∧ KeepsStruct g ∧
      ∀ x y z, storeNode cx (some v) x = .ok y → g y = .ok z → storeNode cx (some (f s l v)) x = .ok z
  empty : ∀ s l v, Value.isEmpty (f s l v) = Value.isEmpty v

theorem names_snoc (s : Addr) (n : Name) (i : Option Nat) : names (s ++ [(n, i)]) = names s ++ [n] := by
  simp [names]

theorem clear_snoc {cx : Cfg V} {q : List Name} {n : Name} (h : Clear cx q)
    (hc : ∀ g, cx.change (q ++ [n]) ≠ some (.custom g)) : Clear cx (q ++ [n]) := by
  intro q' g hq
  rcases List.prefix_concat_iff.1 hq with rfl | hq
  · exact hc g
  · exact h q' g hq

section
variable (f : Addr → LeafMeta → V → V)

mutual
theorem mapNode_id (q : List Name) (hf : ∀ s, q <+: names s → ∀ l v, f s l v = v) (a : Addr)
    (ha : q <+: names a) (x : Node V) : mapNode f a x = x := by
  cases x with
  | leaf l v => cases v <;> simp [mapNode, hf a ha]
  | struct c => simp only [mapNode, mapFields_id q hf a ha c]
  | aos m e => simp only [mapNode, mapElems_id q hf a ha 0 e]
theorem mapFields_id (q : List Name) (hf : ∀ s, q <+: names s → ∀ l v, f s l v = v) (a : Addr)
    (ha : q <+: names a) (c : Fields V) : mapFields f a c = c := by
  cases c with
  | nil => rfl
  | absent n m r => simp only [mapFields, mapFields_id q hf a ha r]
  | present n x r =>
    have : q <+: names (a ++ [(n, none)]) := by
      rw [names_snoc]; exact ha.trans (List.prefix_append _ _)
    simp only [mapFields, mapFields_id q hf a ha r, mapNode_id q hf _ this x]
theorem mapElems_id (q : List Name) (hf : ∀ s, q <+: names s → ∀ l v, f s l v = v) (a : Addr)
    (ha : q <+: names a) (i : Nat) (e : Elems V) : mapElems f a i e = e := by
  cases e with
  | nil => rfl
  | cons c r =>
    have : names (elemOf a i) = names a := by
      rcases elemOf_cases a i with h | ⟨p, n, h1, h2⟩
      · rw [h]
      · rw [h2, h1, names_snoc, names_snoc]
    simp only [mapElems, mapElems_id q hf a ha (i + 1) r, mapFields_id q hf _ (this ▸ ha) c]
end
end

theorem after_none {cx : Cfg V} {cb : Callback V} {s : Addr} {x : Item V} {b : Addr} {n n' : Node V}
    (hcb : ∀ g, cb s x = some g → ∀ y z, g y ≠ .ok z) (hk : ∀ g, cb s x = some g → KeepsStruct g)
    (h : after cx cb s x b n = .ok n') : postProcess cx (names s) b n = .ok n' := by
  unfold after at h
  obtain ⟨r, h1, h2⟩ := andThen_ok.1 h
  cases hc : cb s x with
  | none => simp only [hc, Except.ok.injEq] at h2; subst h2; exact h1
  | some g =>
    simp only [hc] at h2
    obtain ⟨y, z, h3, h4, h5⟩ := modify_at (hk g hc) (writeAt_ok h2)
    exact absurd h4 (hcb g hc y z)

theorem never_keeps {g : Node V → Except ConvErr (Node V)} (h : ∀ y z, g y ≠ .ok z) : KeepsStruct g :=
  fun _ _ hy => absurd hy (h _ _)

mutual
theorem copyFields_map {P : Addr → LeafMeta → V → Prop} {cx : Cfg V} {cb : Callback V} {f : Addr → LeafMeta → V → V}
    (hr : Realizes P cx cb f) (s t : Addr) (hs : Clear cx (names s)) (c : Fields V) (hP : AllF P s c)
    {root root' : Node V}
    (h : copyFields cx cb s t c root = .ok root') :
    Convert.copyFields cx (names s) t (mapFields f s c) root = .ok root' := by
  cases c with
  | nil => simpa [copyFields, mapFields, Convert.copyFields] using h
  | absent n m r =>
    simp only [copyFields, mapFields, Convert.copyFields] at h ⊢
    simp only [AllF] at hP
    exact copyFields_map hr s t hs r hP h
  | present n x r =>
    simp only [copyFields, mapFields, Convert.copyFields, hasValue_mapNode f hr.empty] at h ⊢
    simp only [AllF] at hP
    split at h
    · next hv =>
      rw [if_pos hv]
      obtain ⟨r1, h1, h2⟩ := andThen_ok.1 h
      refine andThen_ok.2 ⟨r1, ?_, copyFields_map hr s t hs r hP.2 h2⟩
      cases hg : getTarget cx root (names s ++ [n]) n t with
      | error e => rw [hg] at h1; simp at h1
      | ok o =>
        rw [hg] at h1
        cases o with
        | none => simpa using h1
        | some b => simp only at h1 ⊢; exact copyItem_map hr s n b hs x hv hP.1 h1
    · next hv => rw [if_neg hv]; exact copyFields_map hr s t hs r hP.2 h
termination_by structural c
theorem copyItem_map {P : Addr → LeafMeta → V → Prop} {cx : Cfg V} {cb : Callback V} {f : Addr → LeafMeta → V → V}
    (hr : Realizes P cx cb f) (s : Addr) (n : Name) (b : Addr) (hs : Clear cx (names s)) (x : Node V)
    (hv : x.hasValue = true) (hP : AllN P (s ++ [(n, none)]) x) {root root' : Node V} (h : copyItem cx cb s n b x root = .ok root') :
    Convert.copyItem cx (names s ++ [n]) b (mapNode f (s ++ [(n, none)]) x) root = .ok root' := by
  have hn := names_snoc s n none
  have hid : ∀ g, cx.change (names s ++ [n]) = some (.custom g) → mapNode f (s ++ [(n, none)]) x = x := by
    intro g hg
    exact mapNode_id f _ (hr.custom _ g hg) _ (by rw [hn]; exact List.prefix_refl _) x
  have hno : ∀ i b' r1 r2, after cx cb (s ++ [(n, i)]) .struct b' r1 = .ok r2 →
      postProcess cx (names s ++ [n]) b' r1 = .ok r2 := by
    intro i b' r1 r2 h'
    rw [← names_snoc s n i]
    exact after_none (fun g hg => by rw [hr.struct] at hg; simp at hg)
      (fun g hg => by rw [hr.struct] at hg; simp at hg) h'
  have hna : ∀ i b' r1 r2, after cx cb (s ++ [(n, i)]) .aos b' r1 = .ok r2 →
      postProcess cx (names s ++ [n]) b' r1 = .ok r2 := by
    intro i b' r1 r2 h'
    rw [← names_snoc s n i]
    exact after_none (fun g hg y z => hr.aos _ g y z hg) (fun g hg => never_keeps fun y z => hr.aos _ g y z hg) h'
  cases x with
  | leaf l v =>
    cases hc : cx.change (names s ++ [n]) with
    | none =>
      simp only [copyItem, mapNode, Convert.copyItem, hc] at h ⊢
      obtain ⟨r1, h1, h2⟩ := andThen_ok.1 h
      cases v with
      | none => simp [Node.hasValue, leafHasValue] at hv
      | some v =>
        have hne : Value.isEmpty v = false := by simpa [Node.hasValue, leafHasValue] using hv
        simp only [AllN] at hP
        have hPv := hP v rfl hne
        cases hcb : cb (s ++ [(n, none)]) (.leaf l (some v)) with
        | none =>
          simp only [Option.map_some, hr.kept _ l v hPv hne hcb]
          refine andThen_ok.2 ⟨r1, h1, ?_⟩
          rw [← hn]
          exact after_none (fun g hg => by rw [hcb] at hg; simp at hg)
            (fun g hg => by rw [hcb] at hg; simp at hg) h2
        | some g =>
          have hcl : Clear cx (names (s ++ [(n, none)])) := by
            rw [hn]; exact clear_snoc hs (by intro g hg; rw [hc] at hg; simp at hg)
          obtain ⟨h3, h4, h5⟩ := hr.stored _ l v g hPv hne hcl hcb
          unfold after at h2
          obtain ⟨r2, h6, h7⟩ := andThen_ok.1 h2
          simp only [hcb] at h7
          rw [postProcess, h3] at h6
          simp only [Except.ok.injEq] at h6
          subst h6
          refine andThen_ok.2 ⟨root', ?_, by rw [← hn, postProcess, h3]⟩
          exact writeAt_of (modify_twice (keeps_store cx (some v)).2 h4 h5 (writeAt_ok h1) (writeAt_ok h7))
    | some ch =>
      cases ch with
      | custom g =>
        rw [hid g hc]
        simp only [copyItem, Convert.copyItem, hc] at h ⊢
        exact h
      | structAos => simp only [copyItem, hc] at h; simp at h
  | struct c =>
    cases hc : cx.change (names s ++ [n]) with
    | none =>
      have hcl : Clear cx (names (s ++ [(n, none)])) := by
        rw [hn]; exact clear_snoc hs (by intro g hg; rw [hc] at hg; simp at hg)
      simp only [copyItem, mapNode, Convert.copyItem, hc] at h ⊢
      obtain ⟨r1, h1, h2⟩ := andThen_ok.1 h
      refine andThen_ok.2 ⟨r1, ?_, hno none b r1 root' h2⟩
      have := copyFields_map hr _ b hcl c (by simpa only [AllN] using hP) h1
      rwa [hn] at this
    | some ch =>
      cases ch with
      | custom g =>
        rw [hid g hc]
        simp only [copyItem, Convert.copyItem, hc] at h ⊢
        exact h
      | structAos =>
        have hcl : Clear cx (names (s ++ [(n, none)])) := by
          rw [hn]; exact clear_snoc hs (by intro g hg; rw [hc] at hg; simp at hg)
        simp only [copyItem, mapNode, Convert.copyItem, hc] at h ⊢
        split at h
        · next ha =>
          rw [if_pos ha]
          obtain ⟨r1, h1, h2⟩ := andThen_ok.1 h
          obtain ⟨r2, h3, h4⟩ := andThen_ok.1 h1
          refine andThen_ok.2 ⟨r1, andThen_ok.2 ⟨r2, h3, ?_⟩, hno none _ r1 root' h2⟩
          have := copyFields_map hr _ (elemOf b 0) hcl c (by simpa only [AllN] using hP) h4
          rwa [hn] at this
        · simp at h
  | aos m e =>
    cases hc : cx.change (names s ++ [n]) with
    | none =>
      simp only [copyItem, mapNode, Convert.copyItem, hc, mapElems_length] at h ⊢
      obtain ⟨r1, h1, h2⟩ := andThen_ok.1 h
      obtain ⟨r2, h3, h4⟩ := andThen_ok.1 h1
      refine andThen_ok.2 ⟨r1, andThen_ok.2 ⟨r2, h3, ?_⟩, hna none _ r1 root' h2⟩
      exact copyElems_map hr s n b 0
        (clear_snoc hs (by intro g hg; rw [hc] at hg; simp at hg)) e
        (by simpa only [AllN] using hP) h4
    | some ch =>
      cases ch with
      | custom g =>
        rw [hid g hc]
        simp only [copyItem, Convert.copyItem, hc] at h ⊢
        exact h
      | structAos =>
        simp only [copyItem, mapNode, Convert.copyItem, hc] at h ⊢
        split at h
        · next ha =>
          rw [if_pos ha]
          exact copySingle_map hr s n b
            (clear_snoc hs (by intro g hg; rw [hc] at hg; simp at hg)) e
            (by simpa only [AllN] using hP) h
        · simp at h
termination_by structural x
theorem copySingle_map {P : Addr → LeafMeta → V → Prop} {cx : Cfg V} {cb : Callback V} {f : Addr → LeafMeta → V → V}
    (hr : Realizes P cx cb f) (s : Addr) (n : Name) (b : Addr) (hs : Clear cx (names s ++ [n]))
    (e : Elems V) (hP : AllE P (s ++ [(n, none)]) 0 e) {root root' : Node V} (h : copySingle cx cb s n b e root = .ok root') :
    Convert.copySingle cx (names s ++ [n]) b (mapElems f (s ++ [(n, none)]) 0 e) root = .ok root' := by
  cases e with
  | nil => simpa [copySingle, mapElems, Convert.copySingle] using h
  | cons c r =>
    cases r with
    | nil =>
      simp only [copySingle, mapElems, Convert.copySingle, elemOf_snoc] at h ⊢
      obtain ⟨r1, h1, h2⟩ := andThen_ok.1 h
      refine andThen_ok.2 ⟨r1, ?_, ?_⟩
      · have := copyFields_map hr (s ++ [(n, some 0)]) b (by rw [names_snoc]; exact hs) c
          (by simp only [AllE, elemOf_snoc] at hP; exact hP.1) h1
        rwa [names_snoc] at this
      · rw [← names_snoc s n (some 0)]
        exact after_none (fun g hg y z => hr.aos _ g y z hg)
          (fun g hg => never_keeps fun y z => hr.aos _ g y z hg) h2
    | cons d r => simpa [copySingle, mapElems, Convert.copySingle] using h
termination_by structural e
theorem copyElems_map {P : Addr → LeafMeta → V → Prop} {cx : Cfg V} {cb : Callback V} {f : Addr → LeafMeta → V → V}
    (hr : Realizes P cx cb f) (s : Addr) (n : Name) (b : Addr) (i : Nat) (hs : Clear cx (names s ++ [n]))
    (e : Elems V) (hP : AllE P (s ++ [(n, none)]) i e) {root root' : Node V} (h : copyElems cx cb s n b i e root = .ok root') :
    Convert.copyElems cx (names s ++ [n]) b i (mapElems f (s ++ [(n, none)]) i e) root = .ok root' := by
  cases e with
  | nil => simpa [copyElems, mapElems, Convert.copyElems] using h
  | cons c r =>
    simp only [copyElems, mapElems, Convert.copyElems, elemOf_snoc] at h ⊢
    obtain ⟨r1, h1, h2⟩ := andThen_ok.1 h
    refine andThen_ok.2 ⟨r1, ?_, copyElems_map hr s n b (i + 1) hs r
      (by simp only [AllE] at hP; exact hP.2) h2⟩
    have := copyFields_map hr (s ++ [(n, some i)]) (elemOf b i) (by rw [names_snoc]; exact hs) c
          (by simp only [AllE, elemOf_snoc] at hP; exact hP.1) h1
    rwa [names_snoc] at this
termination_by structural e
end

end Verif.Pulse
