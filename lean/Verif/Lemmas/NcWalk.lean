import Verif.Spec.NcMeta
import Verif.Spec.Tree
/-
The nodes visited by `NCMetadata._parse`.
-/
namespace Verif.Nc
open Verif.Ids Verif.NcSpec Verif.ConvertSpec Verif.TreeSpec Verif.AlSpec

/-- What an entry says about the node `x` at the path `q` below `p`. -/
def EntryOk (p : Path) (a : Option Path) (l : Nat) (m : MFields) (e : Entry) (q : Path) (x : Meta) : Prop :=
  q ≠ [] ∧ e.path = p ++ q ∧ metaAt (.struct m) q = some x ∧ e.ndim = rank x ∧ (e.kind = .struct ↔ IsStruct x) ∧
    (e.kind = .aos ↔ ∃ c, x = .aos c) ∧ e.parent = ((arraysOf m p q).getLast?).or a ∧ e.level = l + (arraysOf m p q).length

theorem mchild_names {m : MFields} {n : Name} {x : Meta} (h : mchild m n = some x) : n ∈ mnames m := by
  induction m using MFields.rec (motive_1 := fun _ => True) with
  | leaf => trivial
  | struct => trivial
  | aos => trivial
  | nil => simp [mchild] at h
  | cons k y r _ ih =>
    unfold mchild at h
    split at h
    · rename_i e; subst e; simp [mnames]
    · simp [mnames, ih h]

/-- Look up in the rest of the children. -/
theorem meta_cons {k : Name} {y : Meta} {r : MFields} (hk : k ∉ mnames r) {q : Path} {x : Meta}
    (h : metaAt (.struct r) q = some x) (hq : q ≠ []) : metaAt (.struct (.cons k y r)) q = some x := by
  cases q with
  | nil => exact absurd rfl hq
  | cons n t =>
    simp only [metaAt, child, mchild] at h ⊢
    cases hc : mchild r n with
    | none => rw [hc] at h; simp at h
    | some z =>
      have hn : n ≠ k := fun e => hk (e ▸ mchild_names hc)
      rw [hc] at h
      rw [if_neg hn]
      exact h

theorem arrays_cons {k : Name} {y : Meta} {r : MFields} (hk : k ∉ mnames r) {q : Path} {x : Meta}
    (h : metaAt (.struct r) q = some x) (p : Path) : arraysOf (.cons k y r) p q = arraysOf r p q := by
  cases q with
  | nil => simp [arraysOf]
  | cons n t =>
    simp only [metaAt, child] at h
    cases hc : mchild r n with
    | none => rw [hc] at h; simp at h
    | some z =>
      have hn : n ≠ k := fun e => hk (e ▸ mchild_names hc)
      cases t with
      | nil => simp [arraysOf]
      | cons n' t => simp only [arraysOf, mchild, if_neg hn]

theorem or_assoc' (a b c : Option Path) : (a.or b).or c = a.or (b.or c) := by cases a <;> rfl

theorem getLast?_cons_or (x : Path) (l : List Path) (a : Option Path) :
    ((x :: l).getLast?).or a = (l.getLast?).or (some x) := by
  cases l with
  | nil => rfl
  | cons y r =>
    rw [List.getLast?_cons_cons]
    cases h : (y :: r).getLast? with
    | none => simp at h
    | some z => rfl

theorem walk_ok (m : MFields) : ∀ (p : Path) (a : Option Path) (l : Nat) (e : Entry), WFMFields m →
    e ∈ walkFields p a l m → ∃ q x, EntryOk p a l m e q x := by
  induction m using MFields.rec (motive_1 := fun m => ∀ (p : Path) (a : Option Path) (l : Nat) (e : Entry), WFMeta m →
      e ∈ walkNode p a l m → (e.path = p ∧ e.ndim = rank m ∧ (e.kind = .struct ↔ IsStruct m) ∧
        (e.kind = .aos ↔ ∃ c, m = .aos c) ∧ e.parent = a ∧ e.level = l) ∨
        ∃ c, (m = .struct c ∧ ∃ q x, EntryOk p a l c e q x) ∨
          (m = .aos c ∧ ∃ q x, EntryOk p (some p) (l + 1) c e q x)) with
  | leaf lm =>
    rename_i p a l e hw he
    simp [walkNode] at he
    subst he
    exact .inl ⟨rfl, rfl, by simp [IsStruct], by simp, rfl, rfl⟩
  | struct c ih =>
    rename_i p a l e hw he
    simp only [walkNode, List.mem_cons] at he
    rcases he with rfl | he
    · exact .inl ⟨rfl, rfl, by simp [IsStruct], by simp, rfl, rfl⟩
    · exact .inr ⟨c, .inl ⟨rfl, ih p a l e hw he⟩⟩
  | aos c ih =>
    rename_i p a l e hw he
    simp only [walkNode, List.mem_cons] at he
    rcases he with rfl | he
    · exact .inl ⟨rfl, rfl, by simp [IsStruct], by simp, rfl, rfl⟩
    · exact .inr ⟨c, .inr ⟨rfl, ih p (some p) (l + 1) e hw he⟩⟩
  | nil => intro p a l e _ he; simp [walkFields] at he
  | cons n y r ih1 ih2 =>
    intro p a l e hw he
    obtain ⟨hn, hy, hr⟩ := hw
    simp only [walkFields, List.mem_append] at he
    rcases he with he | he
    · rcases ih1 (p ++ [n]) a l e hy he with ⟨h1, h2, h3, h4, h5, h6⟩ | ⟨c, ⟨rfl, q, x, h⟩ | ⟨rfl, q, x, h⟩⟩
      · exact ⟨[n], y, by simp, h1, by simp [metaAt, child, mchild], h2, h3, h4, by simp [arraysOf, h5], by simp [arraysOf, h6]⟩
      · obtain ⟨g1, g2, g3, g4, g5, g6, g7, g8⟩ := h
        obtain ⟨k, t, rfl⟩ : ∃ k t, q = k :: t := by cases q with
          | nil => exact absurd rfl g1
          | cons k t => exact ⟨k, t, rfl⟩
        refine ⟨n :: k :: t, x, by simp, by simp [g2], ?_, g4, g5, g6, ?_, ?_⟩
        · rw [metaAt]; simp [child, mchild]; exact g3
        · rw [arraysOf]; simp [mchild]; exact g7
        · rw [arraysOf]; simp [mchild]; exact g8
      · obtain ⟨g1, g2, g3, g4, g5, g6, g7, g8⟩ := h
        obtain ⟨k, t, rfl⟩ : ∃ k t, q = k :: t := by cases q with
          | nil => exact absurd rfl g1
          | cons k t => exact ⟨k, t, rfl⟩
        refine ⟨n :: k :: t, x, by simp, by simp [g2], ?_, g4, g5, g6, ?_, ?_⟩
        · rw [metaAt]; simp [child, mchild]
          rw [metaAt] at g3 ⊢; exact g3
        · rw [arraysOf]; simp only [mchild, if_pos]; rw [getLast?_cons_or]; exact g7
        · rw [arraysOf]; simp only [mchild, if_pos, List.length_cons]; omega
    · obtain ⟨q, x, g1, g2, g3, g4, g5, g6, g7, g8⟩ := ih2 p a l e hr he
      refine ⟨q, x, g1, g2, meta_cons hn g3 g1, g4, g5, g6, ?_, ?_⟩
      · rw [arrays_cons hn g3]; exact g7
      · rw [arrays_cons hn g3]; exact g8

theorem walk_complete (m : MFields) : ∀ (p : Path) (a : Option Path) (l : Nat) (q : Path) (x : Meta), q ≠ [] →
    metaAt (.struct m) q = some x → ∃ e ∈ walkFields p a l m, e.path = p ++ q := by
  induction m using MFields.rec (motive_1 := fun m => ∀ (p : Path) (a : Option Path) (l : Nat) (q : Path) (x : Meta),
      metaAt m q = some x → ∃ e ∈ walkNode p a l m, e.path = p ++ q) with
  | leaf lm =>
    rename_i p a l q x h
    cases q with
    | nil => exact ⟨_, by simp [walkNode]; rfl, by simp⟩
    | cons n r => simp [metaAt, child] at h
  | struct c ih =>
    rename_i p a l q x h
    cases q with
    | nil => exact ⟨_, by simp only [walkNode]; exact List.mem_cons_self, by simp⟩
    | cons n r =>
      obtain ⟨e, he, hp⟩ := ih p a l (n :: r) x (by simp) h
      exact ⟨e, by simp [walkNode, he], hp⟩
  | aos c ih =>
    rename_i p a l q x h
    cases q with
    | nil => exact ⟨_, by simp only [walkNode]; exact List.mem_cons_self, by simp⟩
    | cons n r =>
      obtain ⟨e, he, hp⟩ := ih p (some p) (l + 1) (n :: r) x (by simp) (by simpa [metaAt, child] using h)
      exact ⟨e, by simp [walkNode, he], hp⟩
  | nil =>
    intro p a l q x hq h
    cases q with
    | nil => exact absurd rfl hq
    | cons n r => simp [metaAt, child, mchild] at h
  | cons n y r ih1 ih2 =>
    intro p a l q x hq h
    cases q with
    | nil => exact absurd rfl hq
    | cons k t =>
      by_cases hk : k = n
      · subst hk
        simp only [metaAt, child, mchild, if_pos, Option.bind_some] at h
        obtain ⟨e, he, hp⟩ := ih1 (p ++ [k]) a l t x h
        exact ⟨e, by simp [walkFields, he], by simp [hp]⟩
      · simp only [metaAt, child, mchild, if_neg hk] at h
        obtain ⟨e, he, hp⟩ := ih2 p a l (k :: t) x (by simp) h
        exact ⟨e, by simp [walkFields, he], hp⟩

/-- The visited paths are different. -/
theorem walk_nodup (m : MFields) : ∀ (p : Path) (a : Option Path) (l : Nat), WFMFields m →
    ((walkFields p a l m).map (·.path)).Nodup := by
  induction m using MFields.rec (motive_1 := fun m => ∀ (p : Path) (a : Option Path) (l : Nat), WFMeta m →
      ((walkNode p a l m).map (·.path)).Nodup) with
  | leaf lm => rename_i p a l hw; simp [walkNode]
  | struct c ih =>
    rename_i p a l hw
    simp only [walkNode, List.map_cons, List.nodup_cons]
    refine ⟨?_, ih p a l hw⟩
    intro h
    obtain ⟨e, he, hp⟩ := List.mem_map.1 h
    obtain ⟨q, x, g1, g2, -⟩ := walk_ok c p a l e hw he
    rw [g2] at hp
    simp at hp
    exact g1 hp
  | aos c ih =>
    rename_i p a l hw
    simp only [walkNode, List.map_cons, List.nodup_cons]
    refine ⟨?_, ih p _ _ hw⟩
    intro h
    obtain ⟨e, he, hp⟩ := List.mem_map.1 h
    obtain ⟨q, x, g1, g2, -⟩ := walk_ok c p _ _ e hw he
    rw [g2] at hp
    simp at hp
    exact g1 hp
  | nil => intro p a l _; simp [walkFields]
  | cons n y r ih1 ih2 =>
    intro p a l hw
    obtain ⟨hn, hy, hr⟩ := hw
    simp only [walkFields, List.map_append]
    rw [List.nodup_append]
    refine ⟨ih1 _ a l hy, ih2 p a l hr, ?_⟩
    intro u hu v hv e
    subst e
    obtain ⟨e1, he1, hp1⟩ := List.mem_map.1 hu
    obtain ⟨e2, he2, hp2⟩ := List.mem_map.1 hv
    obtain ⟨q, x, g1, g2, g3, -⟩ := walk_ok r p a l e2 hr he2
    have : ∃ t, e1.path = p ++ n :: t := by
      have hw1 : WFMFields (.cons n y .nil) := ⟨by simp [mnames], hy, trivial⟩
      obtain ⟨q', x', f1, f2, f3, -⟩ := walk_ok (.cons n y .nil) p a l e1 hw1 (by simp [walkFields, he1])
      cases q' with
      | nil => exact absurd rfl f1
      | cons k t =>
        simp only [metaAt, child, mchild] at f3
        split at f3
        · rename_i e; subst e; exact ⟨t, f2⟩
        · simp at f3
    obtain ⟨t, ht⟩ := this
    rw [← hp2, g2] at hp1
    rw [ht] at hp1
    have hq : q = n :: t := (List.append_cancel_left hp1).symm
    subst hq
    simp only [metaAt, child] at g3
    cases hc : mchild r n with
    | none => rw [hc] at g3; simp at g3
    | some z => exact hn (mchild_names hc)

/-- Arrays of structures are visited before what is in them. -/
def Ordered : List Path → List Entry → Prop
  | _, [] => True
  | D, e :: r => (∀ a, e.parent = some a → a ∈ D) ∧ Ordered (if e.kind = .aos then e.path :: D else D) r

theorem ordered_mono {l : List Entry} : ∀ {D D' : List Path}, (∀ a ∈ D, a ∈ D') → Ordered D l → Ordered D' l := by
  induction l with
  | nil => intros; trivial
  | cons e r ih =>
    intro D D' h ho
    refine ⟨fun a ha => h a (ho.1 a ha), ih ?_ ho.2⟩
    intro a ha
    split at ha
    · rename_i hk
      rw [if_pos hk]
      rcases List.mem_cons.1 ha with rfl | ha
      · simp
      · exact List.mem_cons_of_mem _ (h a ha)
    · rename_i hk
      rw [if_neg hk]
      exact h a ha

theorem ordered_append {l l' : List Entry} : ∀ {D : List Path}, Ordered D l → Ordered D l' → Ordered D (l ++ l') := by
  induction l with
  | nil => intro D _ h; exact h
  | cons e r ih =>
    intro D h h'
    refine ⟨h.1, ih h.2 (ordered_mono ?_ h')⟩
    intro a ha
    split
    · exact List.mem_cons_of_mem _ ha
    · exact ha

theorem walk_ordered (m : MFields) : ∀ (p : Path) (a : Option Path) (l : Nat) (D : List Path),
    (∀ b, a = some b → b ∈ D) → Ordered D (walkFields p a l m) := by
  induction m using MFields.rec (motive_1 := fun m => ∀ (p : Path) (a : Option Path) (l : Nat) (D : List Path),
      (∀ b, a = some b → b ∈ D) → Ordered D (walkNode p a l m)) with
  | leaf lm => rename_i p a l D h; exact ⟨h, trivial⟩
  | struct c ih => rename_i p a l D h; exact ⟨h, ih p a l D h⟩
  | aos c ih =>
    rename_i p a l D h
    refine ⟨h, ih p (some p) (l + 1) _ ?_⟩
    intro b hb
    cases hb
    simp
  | nil => intros; trivial
  | cons n y r ih1 ih2 =>
    intro p a l D h
    exact ordered_append (ih1 _ a l D h) (ih2 p a l D h)

/-- The nearest array of structures and those around it. -/
theorem arrays_last (m : MFields) (q : Path) : ∀ (p : Path) (a : Path), (arraysOf m p q).getLast? = some a →
    ∃ t, a = p ++ t ∧ arraysOf m p q = arraysOf m p t ++ [a] ∧ t ≠ [] ∧ ∃ c, metaAt (.struct m) t = some (.aos c) := by
  induction q generalizing m with
  | nil => intro p a h; simp [arraysOf] at h
  | cons n q ih =>
    intro p a h
    cases q with
    | nil => simp [arraysOf] at h
    | cons k r =>
      cases hc : mchild m n with
      | none => rw [arraysOf, hc] at h; simp at h
      | some y =>
        cases y with
        | leaf lm => rw [arraysOf, hc] at h; simp at h
        | struct d =>
          rw [arraysOf, hc] at h
          simp only at h
          obtain ⟨t, h1, h2, h3, c, h4⟩ := ih d (p ++ [n]) a h
          obtain ⟨k', t', rfl⟩ : ∃ k t', t = k :: t' := by cases t with
            | nil => exact absurd rfl h3
            | cons k t' => exact ⟨k, t', rfl⟩
          refine ⟨n :: k' :: t', by simp [h1], ?_, by simp, c, ?_⟩
          · rw [arraysOf, hc, arraysOf, hc]; exact h2
          · rw [metaAt]; simp only [child, hc, Option.bind_some]; exact h4
        | aos d =>
          rw [arraysOf, hc] at h
          simp only at h
          cases hl : (arraysOf d (p ++ [n]) (k :: r)).getLast? with
          | none =>
            have hnil := List.getLast?_eq_none_iff.1 hl
            rw [hnil] at h
            simp at h
            subst h
            refine ⟨[n], rfl, ?_, by simp, d, by simp [metaAt, child, hc]⟩
            rw [arraysOf, hc]
            simp [hnil, arraysOf]
          | some b =>
            have : b = a := by
              have e := getLast?_cons_or (p ++ [n]) (arraysOf d (p ++ [n]) (k :: r)) none
              rw [h, hl] at e
              simpa using e.symm
            subst this
            obtain ⟨t, h1, h2, h3, c, h4⟩ := ih d (p ++ [n]) b hl
            obtain ⟨k', t', rfl⟩ : ∃ k t', t = k :: t' := by cases t with
              | nil => exact absurd rfl h3
              | cons k t' => exact ⟨k, t', rfl⟩
            refine ⟨n :: k' :: t', by simp [h1], ?_, by simp, c, ?_⟩
            · rw [arraysOf, hc, arraysOf, hc]; simp only [h2, List.cons_append]
            · rw [metaAt]; simp only [child, hc, Option.bind_some]
              rw [metaAt] at h4 ⊢; exact h4

end Verif.Nc
