import Verif.Spec.Usage
import Verif.Spec.Tree
/-!
The tree of `imas process-db-analysis`.
-/
namespace Verif.Usage
open Verif.Ids Verif.UsageSpec Verif.TreeSpec

mutual
/-- The data nodes in order. -/
def dataPaths : MFields → List Path
  | .nil => []
  | .cons n m r => (dataNode m).map (n :: ·) ++ dataPaths r
def dataNode : Meta → List Path
  | .leaf _ => [[]]
  | .struct .nil => [[]]
  | .aos .nil => [[]]
  | .struct (.cons n m r) => dataPaths (.cons n m r)
  | .aos (.cons n m r) => dataPaths (.cons n m r)
end

mutual
theorem mem_dataPaths : ∀ (f : MFields) (q : Path), q ∈ dataPaths f ↔ DataNode f q
  | .nil, q => by
    rw [dataPaths]
    constructor
    · intro h; cases h
    · intro h; cases h
  | .cons n m r, q => by
    rw [dataPaths, List.mem_append, List.mem_map]
    have ih := mem_dataPaths r q
    have im := mem_dataNode m
    constructor
    · rintro (⟨p, hp, rfl⟩ | h)
      · rcases (im p).1 hp with ⟨l, rfl, rfl⟩ | ⟨rfl | rfl, rfl⟩ | ⟨c, rfl | rfl, h⟩
        · exact .leaf
        · exact .noFields
        · exact .noElems
        · exact .field h
        · exact .elem h
      · exact .rest (ih.1 h)
    · intro h
      cases h with
      | leaf => exact .inl ⟨[], (im []).2 (.inl ⟨_, rfl, rfl⟩), rfl⟩
      | noFields => exact .inl ⟨[], (im []).2 (.inr (.inl ⟨.inl rfl, rfl⟩)), rfl⟩
      | noElems => exact .inl ⟨[], (im []).2 (.inr (.inl ⟨.inr rfl, rfl⟩)), rfl⟩
      | field h => exact .inl ⟨_, (im _).2 (.inr (.inr ⟨_, .inl rfl, h⟩)), rfl⟩
      | elem h => exact .inl ⟨_, (im _).2 (.inr (.inr ⟨_, .inr rfl, h⟩)), rfl⟩
      | rest h => exact .inr (ih.2 h)
theorem mem_dataNode : ∀ (m : Meta) (q : Path), q ∈ dataNode m ↔
    (∃ l, m = .leaf l ∧ q = []) ∨ ((m = .struct .nil ∨ m = .aos .nil) ∧ q = []) ∨
      ∃ c, (m = .struct c ∨ m = .aos c) ∧ DataNode c q
  | .leaf l, q => by
    rw [dataNode, List.mem_singleton]
    constructor
    · intro h; exact .inl ⟨l, rfl, h⟩
    · rintro (⟨_, _, h⟩ | ⟨h | h, _⟩ | ⟨_, h | h, _⟩)
      · exact h
      all_goals cases h
  | .struct .nil, q => by
    rw [dataNode, List.mem_singleton]
    constructor
    · intro h; exact .inr (.inl ⟨.inl rfl, h⟩)
    · rintro (⟨_, h, _⟩ | ⟨_, h⟩ | ⟨_, h | h, h'⟩)
      · cases h
      · exact h
      · cases h; cases h'
      · cases h
  | .aos .nil, q => by
    rw [dataNode, List.mem_singleton]
    constructor
    · intro h; exact .inr (.inl ⟨.inr rfl, h⟩)
    · rintro (⟨_, h, _⟩ | ⟨_, h⟩ | ⟨_, h | h, h'⟩)
      · cases h
      · exact h
      · cases h
      · cases h; cases h'
  | .struct (.cons n m r), q => by
    rw [dataNode, mem_dataPaths (.cons n m r) q]
    constructor
    · intro h; exact .inr (.inr ⟨_, .inl rfl, h⟩)
    · rintro (⟨_, h, _⟩ | ⟨h | h, _⟩ | ⟨_, h | h, h'⟩)
      · cases h
      · cases h
      · cases h
      · cases h; exact h'
      · cases h
  | .aos (.cons n m r), q => by
    rw [dataNode, mem_dataPaths (.cons n m r) q]
    constructor
    · intro h; exact .inr (.inr ⟨_, .inr rfl, h⟩)
    · rintro (⟨_, h, _⟩ | ⟨h | h, _⟩ | ⟨_, h | h, h'⟩)
      · cases h
      · cases h
      · cases h
      · cases h
      · cases h; exact h'
end

theorem head_dataNode {n : Name} : ∀ {f : MFields} {p : Path}, DataNode f (n :: p) → n ∈ mnames f
  | _, _, .leaf => by simp [mnames]
  | _, _, .noFields => by simp [mnames]
  | _, _, .noElems => by simp [mnames]
  | _, _, .field _ => by simp [mnames]
  | _, _, .elem _ => by simp [mnames]
  | _, _, .rest h => by
    rw [mnames]
    exact List.mem_cons_of_mem _ (head_dataNode h)

mutual
theorem nodup_dataPaths : ∀ (f : MFields), WFMFields f → (dataPaths f).Nodup
  | .nil, _ => by rw [dataPaths]; exact List.nodup_nil
  | .cons n m r, h => by
    rw [WFMFields] at h
    rw [dataPaths, List.nodup_append]
    refine ⟨?_, nodup_dataPaths r h.2.2, ?_⟩
    · have := nodup_dataNode m h.2.1
      rw [List.Nodup, List.pairwise_map]
      exact List.Pairwise.imp (fun hne e => hne (List.cons.inj e).2) this
    · intro a ha b hb e
      subst e
      obtain ⟨p, _, rfl⟩ := List.mem_map.1 ha
      exact h.1 (head_dataNode ((mem_dataPaths r _).1 hb))
theorem nodup_dataNode : ∀ (m : Meta), WFMeta m → (dataNode m).Nodup
  | .leaf _, _ => by rw [dataNode]; simp
  | .struct .nil, _ => by rw [dataNode]; simp
  | .aos .nil, _ => by rw [dataNode]; simp
  | .struct (.cons n m r), h => by
    rw [dataNode]; exact nodup_dataPaths (.cons n m r) (by rw [WFMeta] at h; exact h)
  | .aos (.cons n m r), h => by
    rw [dataNode]; exact nodup_dataPaths (.cons n m r) (by rw [WFMeta] at h; exact h)
end

/-! ### Numbers -/

def full (filled : List Text) (p : Path) (L : List Path) : Nat := L.countP fun q => decide (pathString (p ++ q) ∈ filled)

theorem full_map (filled : List Text) (p : Path) (n : Name) (L : List Path) :
    full filled p (L.map (n :: ·)) = full filled (p ++ [n]) L := by
  unfold full
  rw [List.countP_map]
  congr 1
  funext q
  simp

theorem full_single (filled : List Text) (p : Path) :
    full filled p [[]] = if decide (pathString p ∈ filled) = true then 1 else 0 := by
  simp [full, List.countP_cons]

mutual
theorem walk_counts (filled : List Text) : ∀ (f : MFields) (p : Path),
    (walk filled p f).2 = ((dataPaths f).length, full filled p (dataPaths f))
  | .nil, p => by rw [walk, dataPaths]; rfl
  | .cons n m r, p => by
    rw [walk, dataPaths]
    have h1 := walkNode_counts filled m (p ++ [n])
    have h2 := walk_counts filled r p
    rw [h1, h2]
    have : full filled p ((dataNode m).map (n :: ·) ++ dataPaths r) =
        full filled (p ++ [n]) (dataNode m) + full filled p (dataPaths r) := by
      rw [← full_map]; exact List.countP_append
    rw [this]
    simp
theorem walkNode_counts (filled : List Text) : ∀ (m : Meta) (p : Path),
    (walkNode filled p m).2 = ((dataNode m).length, full filled p (dataNode m))
  | .leaf _, p => by rw [walkNode, dataNode, full_single]; rfl
  | .struct .nil, p => by rw [walkNode, dataNode, full_single]; rfl
  | .aos .nil, p => by rw [walkNode, dataNode, full_single]; rfl
  | .struct (.cons n m r), p => by
    rw [walkNode, dataNode]
    have := walk_counts filled (.cons n m r) p
    rw [this]
  | .aos (.cons n m r), p => by
    rw [walkNode, dataNode]
    have := walk_counts filled (.cons n m r) p
    rw [this]
end

theorem counts_walk {filled : List Text} {p : Path} {f : MFields} (h : WFMFields f) :
    Counts filled p f (walk filled p f).2.1 (walk filled p f).2.2 := by
  rw [walk_counts]
  exact ⟨dataPaths f, nodup_dataPaths f h, mem_dataPaths f, rfl, rfl⟩

theorem full_pos {filled : List Text} {p : Path} {f : MFields} :
    (walk filled p f).2.2 > 0 ↔ ∃ q, DataNode f q ∧ pathString (p ++ q) ∈ filled := by
  rw [walk_counts]
  show full filled p (dataPaths f) > 0 ↔ _
  unfold full
  rw [gt_iff_lt, List.countP_pos_iff]
  constructor
  · rintro ⟨q, hq, h⟩
    exact ⟨q, (mem_dataPaths f q).1 hq, of_decide_eq_true h⟩
  · rintro ⟨q, hq, h⟩
    exact ⟨q, (mem_dataPaths f q).2 hq, decide_eq_true h⟩

/-! ### Lines -/

theorem walk_ne_nil {filled : List Text} {p : Path} {n : Name} {m : Meta} {r : MFields} :
    ∃ x y, (walk filled p (.cons n m r)).1 = .cons x y := by
  rw [walk]; exact ⟨_, _, rfl⟩

/-- A structure with children. -/
def IsInner (m : Meta) (c : MFields) : Prop := c ≠ .nil ∧ (m = .struct c ∨ m = .aos c)

theorem isInner_cases (m : Meta) :
    (∃ c, IsInner m c) ∨ ((∃ l, m = .leaf l) ∨ m = .struct .nil ∨ m = .aos .nil) := by
  match m with
  | .leaf l => exact .inr (.inl ⟨l, rfl⟩)
  | .struct .nil => exact .inr (.inr (.inl rfl))
  | .aos .nil => exact .inr (.inr (.inr rfl))
  | .struct (.cons a b c) => exact .inl ⟨_, by simp, .inl rfl⟩
  | .aos (.cons a b c) => exact .inl ⟨_, by simp, .inr rfl⟩

theorem lines_data {filled : List Text} {m : Meta} (h : (∃ l, m = .leaf l) ∨ m = .struct .nil ∨ m = .aos .nil) (d : Nat) (p : Path) :
    fillTree d (walkNode filled p m).1 = if pathString p ∈ filled then [.used d (pathString p)] else [] := by
  rcases h with ⟨l, rfl⟩ | rfl | rfl
  all_goals
    rw [walkNode, fillTree]
    by_cases h : pathString p ∈ filled <;> simp [h]

theorem lines_inner {filled : List Text} {m : Meta} {c : MFields} (h : IsInner m c) (d : Nat) (p : Path) :
    fillTree d (walkNode filled p m).1 =
      .inner d (pathString p) (walk filled p c).2.2 (walk filled p c).2.1 ::
        if (walk filled p c).2.2 > 0 then fillTrees (d + 1) (walk filled p c).1 else [] := by
  obtain ⟨hne, rfl | rfl⟩ := h
  all_goals
    match c, hne with
    | .cons n x r, _ =>
      rw [walkNode]
      obtain ⟨y, z, e⟩ := walk_ne_nil (filled := filled) (p := p) (n := n) (m := x) (r := r)
      dsimp only
      rw [e, fillTree]
      by_cases h : (walk filled p (.cons n x r)).2.2 > 0
      · rw [if_pos h, if_pos (decide_eq_true h)]
      · rw [if_neg h, if_neg (by simpa using h)]

theorem child_cons {n : Name} {m : Meta} {r : MFields} {k : Name} {c : MFields} :
    Child (.cons n m r) k c ↔ (n = k ∧ IsInner m c) ∨ Child r k c := by
  constructor
  · intro h
    cases h with
    | struct h => exact .inl ⟨rfl, h, .inl rfl⟩
    | aos h => exact .inl ⟨rfl, h, .inr rfl⟩
    | rest h => exact .inr h
  · rintro (⟨rfl, h, rfl | rfl⟩ | h)
    · exact .struct h
    · exact .aos h
    · exact .rest h

theorem shown_cons {filled : List Text} {pre : Path} {n : Name} {m : Meta} {r : MFields} {p : Path} {c : MFields} :
    Shown filled pre (.cons n m r) p c ↔
      (∃ g, IsInner m g ∧ ((p = [n] ∧ g = c) ∨
        ∃ p', p = n :: p' ∧ (walk filled (pre ++ [n]) g).2.2 > 0 ∧ Shown filled (pre ++ [n]) g p' c)) ∨
      Shown filled pre r p c := by
  constructor
  · intro h
    cases h with
    | top h =>
      rcases child_cons.1 h with ⟨rfl, h'⟩ | h'
      · exact .inl ⟨_, h', .inl ⟨rfl, rfl⟩⟩
      · exact .inr (.top h')
    | inside h hq hs =>
      rcases child_cons.1 h with ⟨rfl, h'⟩ | h'
      · refine .inl ⟨_, h', .inr ⟨_, rfl, full_pos.2 ?_, hs⟩⟩
        obtain ⟨q, h1, h2⟩ := hq
        exact ⟨q, h1, by rw [List.append_assoc]; exact h2⟩
      · exact .inr (.inside h' hq hs)
  · rintro (⟨g, hg, ⟨rfl, rfl⟩ | ⟨p', rfl, hf, hs⟩⟩ | h)
    · exact .top (child_cons.2 (.inl ⟨rfl, hg⟩))
    · obtain ⟨q, h1, h2⟩ := full_pos.1 hf
      refine .inside (child_cons.2 (.inl ⟨rfl, hg⟩)) ⟨q, h1, ?_⟩ hs
      rw [List.append_assoc] at h2; exact h2
    · cases h with
      | top h => exact .top (.rest h)
      | inside h hq hs => exact .inside (.rest h) hq hs

mutual
theorem lines_used (filled : List Text) : ∀ (f : MFields) (pre : Path) (d e : Nat) (t : Text),
    Line.used e t ∈ fillTrees d (walk filled pre f).1 ↔
      ∃ p, DataNode f p ∧ pathString (pre ++ p) ∈ filled ∧ e + 1 = d + p.length ∧ t = pathString (pre ++ p)
  | .nil, pre, d, e, t => by
    rw [walk, fillTrees]
    constructor
    · intro h; cases h
    · rintro ⟨p, h, _⟩; cases h
  | .cons n m r, pre, d, e, t => by
    rw [walk, fillTrees, List.mem_append, lines_used filled r pre d e t, node_used filled m (pre ++ [n]) d e t]
    constructor
    · rintro (⟨p, h, h1, h2, h3⟩ | ⟨p, h, h1⟩)
      · refine ⟨n :: p, (mem_dataPaths _ _).1 ?_, ?_, ?_, ?_⟩
        · rw [dataPaths, List.mem_append, List.mem_map]; exact .inl ⟨p, h, rfl⟩
        · rw [List.append_assoc] at h1; exact h1
        · simp only [List.length_cons]; omega
        · rw [List.append_assoc] at h3; exact h3
      · exact ⟨p, .rest h, h1⟩
    · rintro ⟨p, h, h1, h2, h3⟩
      have h' := (mem_dataPaths _ _).2 h
      rw [dataPaths, List.mem_append, List.mem_map] at h'
      rcases h' with ⟨q, h', rfl⟩ | h'
      · refine .inl ⟨q, h', ?_, ?_, ?_⟩
        · rw [List.append_assoc]; exact h1
        · simp only [List.length_cons] at h2; omega
        · rw [List.append_assoc]; exact h3
      · exact .inr ⟨p, (mem_dataPaths _ _).1 h', h1, h2, h3⟩
theorem node_used (filled : List Text) : ∀ (m : Meta) (p : Path) (d e : Nat) (t : Text),
    Line.used e t ∈ fillTree d (walkNode filled p m).1 ↔
      ∃ q ∈ dataNode m, pathString (p ++ q) ∈ filled ∧ e = d + q.length ∧ t = pathString (p ++ q)
  | .leaf l, p, d, e, t => by
    rw [lines_data (.inl ⟨l, rfl⟩), dataNode]
    by_cases h : pathString p ∈ filled
    · simp [h]
    · simp [h]
  | .struct .nil, p, d, e, t => by
    rw [lines_data (.inr (.inl rfl)), dataNode]
    by_cases h : pathString p ∈ filled
    · simp [h]
    · simp [h]
  | .aos .nil, p, d, e, t => by
    rw [lines_data (.inr (.inr rfl)), dataNode]
    by_cases h : pathString p ∈ filled
    · simp [h]
    · simp [h]
  | .struct (.cons n m r), p, d, e, t => by
    rw [lines_inner (c := .cons n m r) ⟨by simp, .inl rfl⟩, dataNode]
    have ih := lines_used filled (.cons n m r) p (d + 1) e t
    by_cases h : (walk filled p (.cons n m r)).2.2 > 0
    · rw [if_pos h]
      simp only [List.mem_cons, reduceCtorEq, false_or, ih]
      constructor
      · rintro ⟨q, h1, h2, h3, h4⟩; exact ⟨q, (mem_dataPaths _ _).2 h1, h2, by omega, h4⟩
      · rintro ⟨q, h1, h2, h3, h4⟩; exact ⟨q, (mem_dataPaths _ _).1 h1, h2, by omega, h4⟩
    · rw [if_neg h]
      simp only [List.mem_cons, reduceCtorEq, false_or, List.not_mem_nil, false_iff]
      rintro ⟨q, h1, h2, _⟩
      exact h (full_pos.2 ⟨q, (mem_dataPaths _ _).1 h1, h2⟩)
  | .aos (.cons n m r), p, d, e, t => by
    rw [lines_inner (c := .cons n m r) ⟨by simp, .inr rfl⟩, dataNode]
    have ih := lines_used filled (.cons n m r) p (d + 1) e t
    by_cases h : (walk filled p (.cons n m r)).2.2 > 0
    · rw [if_pos h]
      simp only [List.mem_cons, reduceCtorEq, false_or, ih]
      constructor
      · rintro ⟨q, h1, h2, h3, h4⟩; exact ⟨q, (mem_dataPaths _ _).2 h1, h2, by omega, h4⟩
      · rintro ⟨q, h1, h2, h3, h4⟩; exact ⟨q, (mem_dataPaths _ _).1 h1, h2, by omega, h4⟩
    · rw [if_neg h]
      simp only [List.mem_cons, reduceCtorEq, false_or, List.not_mem_nil, false_iff]
      rintro ⟨q, h1, h2, _⟩
      exact h (full_pos.2 ⟨q, (mem_dataPaths _ _).1 h1, h2⟩)
end

theorem node_step {filled : List Text} {m : Meta} {g : MFields} {p : Path} {d e : Nat} {t : Text} {a b : Nat} (hi : IsInner m g)
    (ih : Line.inner e t a b ∈ fillTrees (d + 1) (walk filled p g).1 ↔
      ∃ q c, Shown filled p g q c ∧ e + 1 = d + 1 + q.length ∧ t = pathString (p ++ q) ∧ (b, a) = (walk filled (p ++ q) c).2)
    (hu : ∀ g', IsInner m g' → g' = g) :
    Line.inner e t a b ∈ fillTree d (walkNode filled p m).1 ↔
      ∃ g, IsInner m g ∧ ((e = d ∧ t = pathString p ∧ (b, a) = (walk filled p g).2) ∨
        ((walk filled p g).2.2 > 0 ∧ ∃ q c, Shown filled p g q c ∧ e = d + q.length ∧ t = pathString (p ++ q) ∧
          (b, a) = (walk filled (p ++ q) c).2)) := by
  rw [lines_inner hi, List.mem_cons]
  constructor
  · rintro (h | h)
    · cases h
      exact ⟨g, hi, .inl ⟨rfl, rfl, rfl⟩⟩
    · by_cases hf : (walk filled p g).2.2 > 0
      · rw [if_pos hf, ih] at h
        obtain ⟨q, c, h1, h2, h3⟩ := h
        exact ⟨g, hi, .inr ⟨hf, q, c, h1, by omega, h3⟩⟩
      · rw [if_neg hf] at h; cases h
  · rintro ⟨g', hg, h⟩
    rw [hu g' hg] at h
    rcases h with ⟨rfl, rfl, h⟩ | ⟨hf, q, c, h1, h2, h3⟩
    · rw [← h]; exact .inl rfl
    · rw [if_pos hf, ih]
      exact .inr ⟨q, c, h1, by omega, h3⟩

mutual
theorem lines_shown (filled : List Text) : ∀ (f : MFields) (pre : Path) (d e : Nat) (t : Text) (a b : Nat),
    Line.inner e t a b ∈ fillTrees d (walk filled pre f).1 ↔
      ∃ p c, Shown filled pre f p c ∧ e + 1 = d + p.length ∧ t = pathString (pre ++ p) ∧
        (b, a) = (walk filled (pre ++ p) c).2
  | .nil, pre, d, e, t, a, b => by
    rw [walk, fillTrees]
    constructor
    · intro h; cases h
    · rintro ⟨p, c, h, _⟩
      cases h with
      | top h => cases h
      | inside h _ _ => cases h
  | .cons n m r, pre, d, e, t, a, b => by
    rw [walk, fillTrees, List.mem_append, lines_shown filled r pre d e t a b, node_shown filled m (pre ++ [n]) d e t a b]
    constructor
    · rintro (⟨g, hg, ⟨h1, h2, h3⟩ | ⟨hf, p, c, hs, h1, h2, h3⟩⟩ | ⟨p, c, h, h1⟩)
      · exact ⟨[n], g, shown_cons.2 (.inl ⟨g, hg, .inl ⟨rfl, rfl⟩⟩), by simp [h1], h2, h3⟩
      · refine ⟨n :: p, c, shown_cons.2 (.inl ⟨g, hg, .inr ⟨p, rfl, hf, hs⟩⟩), ?_, ?_, ?_⟩
        · simp only [List.length_cons]; omega
        · rw [List.append_assoc] at h2; exact h2
        · rw [List.append_assoc] at h3; exact h3
      · exact ⟨p, c, shown_cons.2 (.inr h), h1⟩
    · rintro ⟨p, c, h, h1, h2, h3⟩
      rcases shown_cons.1 h with ⟨g, hg, ⟨rfl, rfl⟩ | ⟨p', rfl, hf, hs⟩⟩ | h
      · exact .inl ⟨g, hg, .inl ⟨by simpa using h1, h2, h3⟩⟩
      · refine .inl ⟨g, hg, .inr ⟨hf, p', c, hs, ?_, ?_, ?_⟩⟩
        · simp only [List.length_cons] at h1; omega
        · rw [List.append_assoc]; exact h2
        · rw [List.append_assoc]; exact h3
      · exact .inr ⟨p, c, h, h1, h2, h3⟩
theorem node_shown (filled : List Text) : ∀ (m : Meta) (p : Path) (d e : Nat) (t : Text) (a b : Nat),
    Line.inner e t a b ∈ fillTree d (walkNode filled p m).1 ↔
      ∃ g, IsInner m g ∧ ((e = d ∧ t = pathString p ∧ (b, a) = (walk filled p g).2) ∨
        ((walk filled p g).2.2 > 0 ∧ ∃ q c, Shown filled p g q c ∧ e = d + q.length ∧ t = pathString (p ++ q) ∧
          (b, a) = (walk filled (p ++ q) c).2))
  | .leaf l, p, d, e, t, a, b => by
    rw [lines_data (.inl ⟨l, rfl⟩)]
    constructor
    · intro h; split at h <;> simp at h
    · rintro ⟨g, ⟨_, h | h⟩, _⟩ <;> cases h
  | .struct .nil, p, d, e, t, a, b => by
    rw [lines_data (.inr (.inl rfl))]
    constructor
    · intro h; split at h <;> simp at h
    · rintro ⟨g, ⟨hn, h | h⟩, _⟩
      · cases h; exact absurd rfl hn
      · cases h
  | .aos .nil, p, d, e, t, a, b => by
    rw [lines_data (.inr (.inr rfl))]
    constructor
    · intro h; split at h <;> simp at h
    · rintro ⟨g, ⟨hn, h | h⟩, _⟩
      · cases h
      · cases h; exact absurd rfl hn
  | .struct (.cons n m r), p, d, e, t, a, b => by
    have hi : IsInner (.struct (.cons n m r)) (.cons n m r) := ⟨by simp, .inl rfl⟩
    have ih := lines_shown filled (.cons n m r) p (d + 1) e t a b
    exact node_step hi ih (by rintro g ⟨_, h | h⟩ <;> cases h; rfl)
  | .aos (.cons n m r), p, d, e, t, a, b => by
    have hi : IsInner (.aos (.cons n m r)) (.cons n m r) := ⟨by simp, .inr rfl⟩
    have ih := lines_shown filled (.cons n m r) p (d + 1) e t a b
    exact node_step hi ih (by rintro g ⟨_, h | h⟩ <;> cases h; rfl)
end

theorem node_count {filled : List Text} {m : Meta} {c : MFields} {d : Nat} {p : Path} (h : IsInner m c)
    (ih : (fillTrees (d + 1) (walk filled p c).1).countP isUsed = (walk filled p c).2.2) :
    (fillTree d (walkNode filled p m).1).countP isUsed = (walk filled p c).2.2 := by
  rw [lines_inner h, List.countP_cons_of_neg (by simp [isUsed])]
  split
  · exact ih
  · next h => rw [List.countP_nil]; omega

mutual
theorem lines_count (filled : List Text) : ∀ (f : MFields) (p : Path) (d : Nat),
    (fillTrees d (walk filled p f).1).countP isUsed = (walk filled p f).2.2
  | .nil, p, d => by rw [walk, fillTrees]; rfl
  | .cons n m r, p, d => by
    rw [walk, fillTrees, List.countP_append, lines_count filled r p d, lines_node filled m (p ++ [n]) d]
theorem lines_node (filled : List Text) : ∀ (m : Meta) (p : Path) (d : Nat),
    (fillTree d (walkNode filled p m).1).countP isUsed = (walkNode filled p m).2.2
  | .leaf l, p, d => by
    rw [lines_data (.inl ⟨l, rfl⟩), walkNode]
    by_cases h : pathString p ∈ filled <;> simp [h, isUsed]
  | .struct .nil, p, d => by
    rw [lines_data (.inr (.inl rfl)), walkNode]
    by_cases h : pathString p ∈ filled <;> simp [h, isUsed]
  | .aos .nil, p, d => by
    rw [lines_data (.inr (.inr rfl)), walkNode]
    by_cases h : pathString p ∈ filled <;> simp [h, isUsed]
  | .struct (.cons n m r), p, d => by
    have ih := lines_count filled (.cons n m r) p (d + 1)
    rw [node_count ⟨by simp, .inl rfl⟩ ih, walkNode]
  | .aos (.cons n m r), p, d => by
    have ih := lines_count filled (.cons n m r) p (d + 1)
    rw [node_count ⟨by simp, .inr rfl⟩ ih, walkNode]
end

end Verif.Usage
