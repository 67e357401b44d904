import Verif.Lemmas.AlSync
/-
Lazily loaded nodes agree with the nodes of an eager get.
-/
namespace Verif.Al
open Verif.Ids Verif.AlSpec Verif.ConvertSpec

set_option linter.unusedSectionVars false
variable {V : Type} [Value V] (B : Backend V) (db : Ctx)

/-- What lazily loaded nodes are compared with: the data `S`, seen through the action `b`. The values are compared
only if `live` holds (that is, if nothing was written since). -/
structure Src (V : Type) where
  E : Env V
  S : Store V
  b : Begin
  live : Prop

variable (K : Src V) (R : Reg)

def zpos (z : Lazy) : Pos := slotPos (chain z)

/-- A context that data is read through, if there is one. -/
def COk (c : Option Lazy) : Prop := ∀ z, c = some z → Good db R z ∧ Reader z ∧ slotAct (chain z) = some K.b

/-- The context of a node that may be skipped. -/
def eff (p : Path) (c : Option Lazy) : Option Lazy := if (target K.E p).isSome then c else none

/-- The value of a data node. -/
def leafVal (p : Path) (c : Option Lazy) (l : LeafMeta) : Option V :=
  match c, target K.E p with
  | some z, some (q, _) =>
    (match keepValue K.E l (K.S.data (zpos z) q) with
      | some (.leaf _ v) => v
      | _ => none)
  | _, _ => none

def aosSize (p : Path) (c : Option Lazy) : Nat :=
  match c, target K.E p with
  | some z, some (q, _) => K.S.size (zpos z) q
  | _, _ => 0

/-- The lazy context of an array of structures. -/
def AosCtx (p : Path) (c c' : Option Lazy) : Prop :=
  match c, target K.E p with
  | some z, some (q, tb) => ∃ id, c' = some (.action id (some db) z (.aos q tb 0)) ∧ id < R.next ∧
      R.of id = (z, .aos q tb 0)
  | _, _ => c' = none

mutual
/-- A node with path `p` that is read through the context `c`. -/
def AgreeX (p : Path) (c : Option Lazy) (m : Meta) (x : LNode V) : Prop :=
  match m, x with
  | .leaf l, .leaf l' v => l' = l ∧ (K.live → v = leafVal K p c l)
  | .struct m, .struct c' f => c' = c ∧ AgreeF p c m f
  | .aos m, .aosNew c' m' => m' = m ∧ AosCtx db K R p c c'
  | .aos m, .aos c' m' e => m' = m ∧ AosCtx db K R p c c' ∧ (K.live → e.length = aosSize K p c) ∧ AgreeE p c' m 0 e
  | _, _ => False
termination_by structural x
def AgreeF (p : Path) (c : Option Lazy) (m : MFields) (f : LFields V) : Prop :=
  match m, f with
  | .nil, .nil => True
  | .cons n m r, .absent n' m' r' => n' = n ∧ m' = m ∧ AgreeF p c r r'
  | .cons n m r, .present n' x r' => n' = n ∧ AgreeX (p ++ [n]) (eff K (p ++ [n]) c) m x ∧ AgreeF p c r r'
  | _, _ => False
termination_by structural f
def AgreeE (p : Path) (c : Option Lazy) (m : MFields) (i : Nat) (e : LElems V) : Prop :=
  match e with
  | .nil => True
  | .unread r => AgreeE p c m (i + 1) r
  | .read ec f r => ec = c.map (.child · i) ∧ AgreeF p ec m f ∧ AgreeE p c m (i + 1) r
termination_by structural e
end

/-- The node of an eager get. -/
def evX (p : Path) (c : Option Lazy) (m : Meta) : Node V :=
  match c with
  | none => m.fresh
  | some z =>
    match m with
    | .struct m => .struct (evalFields K.S K.E p (zpos z) m)
    | m => (evalNode K.S K.E p (zpos z) m).getD m.fresh

def evF (p : Path) (c : Option Lazy) (m : MFields) : Fields V :=
  match c with
  | none => m.fresh
  | some z => evalFields K.S K.E p (zpos z) m

theorem evX_struct (p : Path) (c : Option Lazy) (m : MFields) : evX K p c (.struct m) = .struct (evF K p c m) := by
  cases c <;> simp [evX, evF, Meta.fresh]

theorem fresh_get? (n : Name) : ∀ m : MFields, (m.fresh : Fields V).get? n = (mchild m n).map Meta.fresh
  | .nil => rfl
  | .cons k m r => by
    simp only [MFields.fresh, Fields.get?, mchild]
    split
    · rfl
    · exact fresh_get? n r

theorem evF_get? (p : Path) (c : Option Lazy) (n : Name) : ∀ m : MFields,
    (evF K p c m).get? n = (mchild m n).map (evX K (p ++ [n]) (eff K (p ++ [n]) c)) := by
  cases c with
  | none =>
    intro m
    have : eff K (p ++ [n]) none = none := by simp [eff]
    rw [this]
    exact fresh_get? n m
  | some z =>
    intro m
    simp only [evF]
    induction m using MFields.rec (motive_1 := fun _ => True) with
    | leaf => trivial
    | struct => trivial
    | aos => trivial
    | nil => rfl
    | cons k m r _ ih =>
      simp only [evalFields, mchild]
      by_cases hk : n = k
      · subst hk
        simp only [if_pos, Option.map_some]
        unfold eff
        cases ht : target K.E (p ++ [n]) with
        | none =>
          have : evalNode K.S K.E (p ++ [n]) (zpos z) m = none := by cases m <;> simp [evalNode, ht]
          rw [this]
          simp [fieldOf, Fields.get?, evX]
        | some t =>
          simp only [Option.isSome_some, if_pos, evX]
          cases m with
          | struct m => simp [evalNode, ht, fieldOf, Fields.get?]
          | leaf l => rcases e : evalNode K.S K.E (p ++ [n]) (zpos z) (.leaf l) <;> simp [e, fieldOf, Fields.get?]
          | aos m => rcases e : evalNode K.S K.E (p ++ [n]) (zpos z) (.aos m) <;> simp [e, fieldOf, Fields.get?]
      · rw [if_neg hk]
        rcases evalNode K.S K.E (p ++ [k]) (zpos z) m <;> simp only [fieldOf, Fields.get?, if_neg hk, ih]

/-! ### Later states -/

section
variable {R}
theorem aosCtx_ext {R' : Reg} (hE : Ext R R') {p : Path} {c c' : Option Lazy} (h : AosCtx db K R p c c') :
    AosCtx db K R' p c c' := by
  unfold AosCtx at h ⊢
  split
  · rename_i z q tb ht
    simp only [ht] at h
    obtain ⟨id, h1, h2, h3⟩ := h
    exact ⟨id, h1, Nat.lt_of_lt_of_le h2 hE.1, (hE.2 id h2).trans h3⟩
  · rename_i h1
    split at h
    · rename_i z q tb ht
      exact absurd ht (h1 z q tb rfl)
    · exact h

mutual
theorem agreeX_ext {R' : Reg} (hE : Ext R R') {p : Path} {c : Option Lazy} {m : Meta} (x : LNode V)
    (h : AgreeX db K R p c m x) : AgreeX db K R' p c m x := by
  cases x with
  | leaf l v => cases m <;> exact h
  | struct c' f =>
    cases m with
    | struct m => exact ⟨h.1, agreeF_ext hE f h.2⟩
    | leaf l => exact h
    | aos m => exact h
  | aosNew c' m' =>
    cases m with
    | aos m => exact ⟨h.1, aosCtx_ext db K hE h.2⟩
    | leaf l => exact h
    | struct m => exact h
  | aos c' m' e =>
    cases m with
    | aos m => exact ⟨h.1, aosCtx_ext db K hE h.2.1, h.2.2.1, agreeE_ext hE e h.2.2.2⟩
    | leaf l => exact h
    | struct m => exact h
termination_by structural x
theorem agreeF_ext {R' : Reg} (hE : Ext R R') {p : Path} {c : Option Lazy} {m : MFields} (f : LFields V)
    (h : AgreeF db K R p c m f) : AgreeF db K R' p c m f := by
  cases f with
  | nil => cases m <;> exact h
  | absent n x r =>
    cases m with
    | nil => exact h
    | cons k m s => exact ⟨h.1, h.2.1, agreeF_ext hE r h.2.2⟩
  | present n x r =>
    cases m with
    | nil => exact h
    | cons k m s => exact ⟨h.1, agreeX_ext hE x h.2.1, agreeF_ext hE r h.2.2⟩
termination_by structural f
theorem agreeE_ext {R' : Reg} (hE : Ext R R') {p : Path} {c : Option Lazy} {m : MFields} {i : Nat} (e : LElems V)
    (h : AgreeE db K R p c m i e) : AgreeE db K R' p c m i e := by
  cases e with
  | nil => exact h
  | unread r => exact agreeE_ext hE r h
  | read ec f r => exact ⟨h.1, agreeF_ext hE f h.2.1, agreeE_ext hE r h.2.2⟩
termination_by structural e
end

/-- Forget the values. -/
def Src.dead (K : Src V) : Src V := { K with live := False }

mutual
theorem agreeX_dead {p : Path} {c : Option Lazy} {m : Meta} (x : LNode V)
    (h : AgreeX db K R p c m x) : AgreeX db K.dead R p c m x := by
  cases x with
  | leaf l v =>
    cases m with
    | leaf l => exact ⟨h.1, fun h => h.elim⟩
    | struct m => exact h
    | aos m => exact h
  | struct c' f =>
    cases m with
    | struct m => exact ⟨h.1, agreeF_dead f h.2⟩
    | leaf l => exact h
    | aos m => exact h
  | aosNew c' m' => cases m <;> exact h
  | aos c' m' e =>
    cases m with
    | aos m => exact ⟨h.1, h.2.1, fun h => h.elim, agreeE_dead e h.2.2.2⟩
    | leaf l => exact h
    | struct m => exact h
termination_by structural x
theorem agreeF_dead {p : Path} {c : Option Lazy} {m : MFields} (f : LFields V)
    (h : AgreeF db K R p c m f) : AgreeF db K.dead R p c m f := by
  cases f with
  | nil => cases m <;> exact h
  | absent n x r =>
    cases m with
    | nil => exact h
    | cons k m s => exact ⟨h.1, h.2.1, agreeF_dead r h.2.2⟩
  | present n x r =>
    cases m with
    | nil => exact h
    | cons k m s => exact ⟨h.1, agreeX_dead x h.2.1, agreeF_dead r h.2.2⟩
termination_by structural f
theorem agreeE_dead {p : Path} {c : Option Lazy} {m : MFields} {i : Nat} (e : LElems V)
    (h : AgreeE db K R p c m i e) : AgreeE db K.dead R p c m i e := by
  cases e with
  | nil => exact h
  | unread r => exact agreeE_dead r h
  | read ec f r => exact ⟨h.1, agreeF_dead f h.2.1, agreeE_dead r h.2.2⟩
termination_by structural e
end

theorem cok_ext {R' : Reg} (hE : Ext R R') {c : Option Lazy} (h : COk db K R c) : COk db K R' c :=
  fun z hz => ⟨good_ext db hE (h z hz).1, (h z hz).2⟩

theorem cok_eff {p : Path} {c : Option Lazy} (h : COk db K R c) : COk db K R (eff K p c) := by
  intro z hz
  unfold eff at hz
  split at hz
  · exact h z hz
  · cases hz

/-! ### Children and elements -/

theorem agreeF_fresh (p : Path) (c : Option Lazy) : ∀ m : MFields, AgreeF db K R p c m (lazyFresh m)
  | .nil => trivial
  | .cons n m r => ⟨rfl, rfl, agreeF_fresh p c r⟩

theorem agreeF_find {p : Path} {c : Option Lazy} {n : Name} : ∀ {m : MFields} {f : LFields V},
    AgreeF db K R p c m f →
    (f.find n = none ∧ mchild m n = none) ∨
    (∃ m', f.find n = some (.inl m') ∧ mchild m n = some m') ∨
    (∃ m' x, f.find n = some (.inr x) ∧ mchild m n = some m' ∧ AgreeX db K R (p ++ [n]) (eff K (p ++ [n]) c) m' x)
  | .nil, .nil, _ => .inl ⟨rfl, rfl⟩
  | .nil, .absent _ _ _, h => by simp [AgreeF] at h
  | .nil, .present _ _ _, h => by simp [AgreeF] at h
  | .cons _ _ _, .nil, h => by simp [AgreeF] at h
  | .cons k m r, .absent k' m' r', h => by
    simp only [AgreeF] at h
    obtain ⟨rfl, rfl, h3⟩ := h
    simp only [LFields.find, mchild]
    by_cases hk : n = k'
    · simp only [if_pos hk]; exact .inr (.inl ⟨_, rfl, rfl⟩)
    · simp only [if_neg hk]; exact agreeF_find h3
  | .cons k m r, .present k' x r', h => by
    simp only [AgreeF] at h
    obtain ⟨rfl, h2, h3⟩ := h
    simp only [LFields.find, mchild]
    by_cases hk : n = k'
    · subst hk; simp only [if_pos]; exact .inr (.inr ⟨_, _, rfl, rfl, h2⟩)
    · simp only [if_neg hk]; exact agreeF_find h3

theorem agreeF_put {p : Path} {c : Option Lazy} {n : Name} {m' : Meta} {y : LNode V} : ∀ {m : MFields}
    {f : LFields V}, AgreeF db K R p c m f → mchild m n = some m' →
    AgreeX db K R (p ++ [n]) (eff K (p ++ [n]) c) m' y → AgreeF db K R p c m (f.put n y)
  | .nil, .nil, _, _, _ => trivial
  | .nil, .absent _ _ _, h, _, _ => by simp [AgreeF] at h
  | .nil, .present _ _ _, h, _, _ => by simp [AgreeF] at h
  | .cons _ _ _, .nil, h, _, _ => by simp [AgreeF] at h
  | .cons k m r, .absent k' m'' r', h, hm, hy => by
    simp only [AgreeF] at h
    obtain ⟨rfl, rfl, h3⟩ := h
    simp only [LFields.put]
    simp only [mchild] at hm
    by_cases hk : n = k'
    · subst hk
      simp only [if_pos] at hm ⊢
      cases hm
      exact ⟨rfl, hy, h3⟩
    · simp only [if_neg hk] at hm ⊢
      exact ⟨rfl, rfl, agreeF_put h3 hm hy⟩
  | .cons k m r, .present k' x r', h, hm, hy => by
    simp only [AgreeF] at h
    obtain ⟨rfl, h2, h3⟩ := h
    simp only [LFields.put]
    simp only [mchild] at hm
    by_cases hk : n = k'
    · subst hk
      simp only [if_pos] at hm ⊢
      cases hm
      exact ⟨rfl, hy, h3⟩
    · simp only [if_neg hk] at hm ⊢
      exact ⟨rfl, h2, agreeF_put h3 hm hy⟩

theorem unreads_length : ∀ n : Nat, (LElems.unreads n : LElems V).length = n
  | 0 => rfl
  | n + 1 => by simp [LElems.unreads, LElems.length, unreads_length n]

theorem agreeE_unreads {p : Path} {c : Option Lazy} {m : MFields} : ∀ (n i : Nat),
    AgreeE db K R p c m i (LElems.unreads n)
  | 0, _ => trivial
  | n + 1, i => by simp only [LElems.unreads, AgreeE]; exact agreeE_unreads n (i + 1)

theorem agreeE_find {p : Path} {c : Option Lazy} {m : MFields} : ∀ {e : LElems V} {i k : Nat},
    AgreeE db K R p c m i e →
    (e.find k = none ∧ e.length ≤ k) ∨ (e.find k = some none ∧ k < e.length) ∨
    (∃ ec f, e.find k = some (some (ec, f)) ∧ k < e.length ∧ ec = c.map (.child · (i + k)) ∧ AgreeF db K R p ec m f)
  | .nil, _, _, _ => .inl ⟨rfl, Nat.zero_le _⟩
  | .unread r, i, 0, _ => .inr (.inl ⟨rfl, Nat.succ_pos _⟩)
  | .read ec f r, i, 0, h => .inr (.inr ⟨ec, f, rfl, Nat.succ_pos _, h.1, h.2.1⟩)
  | .unread r, i, k + 1, h => by
    simp only [AgreeE] at h
    rcases agreeE_find (k := k) h with ⟨h1, h2⟩ | ⟨h1, h2⟩ | ⟨ec, f, h1, h2, h3, h4⟩
    · exact .inl ⟨h1, Nat.succ_le_succ h2⟩
    · exact .inr (.inl ⟨h1, Nat.succ_lt_succ h2⟩)
    · exact .inr (.inr ⟨ec, f, h1, Nat.succ_lt_succ h2, by rw [h3, show i + 1 + k = i + (k + 1) by omega], h4⟩)
  | .read _ _ r, i, k + 1, h => by
    simp only [AgreeE] at h
    rcases agreeE_find (k := k) h.2.2 with ⟨h1, h2⟩ | ⟨h1, h2⟩ | ⟨ec, f, h1, h2, h3, h4⟩
    · exact .inl ⟨h1, Nat.succ_le_succ h2⟩
    · exact .inr (.inl ⟨h1, Nat.succ_lt_succ h2⟩)
    · exact .inr (.inr ⟨ec, f, h1, Nat.succ_lt_succ h2, by rw [h3, show i + 1 + k = i + (k + 1) by omega], h4⟩)

theorem agreeE_put {p : Path} {c : Option Lazy} {m : MFields} {f : LFields V} : ∀ {e : LElems V} {i k : Nat},
    AgreeE db K R p c m i e → AgreeF db K R p (c.map (.child · (i + k))) m f →
    AgreeE db K R p c m i (e.put k (c.map (.child · (i + k))) f) ∧
      (e.put k (c.map (.child · (i + k))) f).length = e.length
  | .nil, _, _, _, _ => ⟨trivial, rfl⟩
  | .unread r, i, 0, h, hf => ⟨⟨rfl, hf, h⟩, rfl⟩
  | .read ec g r, i, 0, h, hf => ⟨⟨rfl, hf, h.2.2⟩, rfl⟩
  | .unread r, i, k + 1, h, hf => by
    have e : i + (k + 1) = i + 1 + k := by omega
    rw [e] at hf ⊢
    obtain ⟨h1, h2⟩ := agreeE_put (k := k) (i := i + 1) h hf
    exact ⟨h1, by simp only [LElems.put, LElems.length, h2]⟩
  | .read _ _ r, i, k + 1, h, hf => by
    have e : i + (k + 1) = i + 1 + k := by omega
    rw [e] at hf ⊢
    obtain ⟨h1, h2⟩ := agreeE_put (k := k) (i := i + 1) h.2.2 hf
    exact ⟨⟨h.1, h.2.1, h1⟩, by simp only [LElems.put, LElems.length, h2]⟩

/-- The context of an element. -/
theorem cok_elem {p : Path} {c c' : Option Lazy} (hc : COk db K R c) (h : AosCtx db K R p c c') (i : Nat) :
    COk db K R (c'.map (.child · i)) := by
  intro z hz
  unfold AosCtx at h
  split at h
  · rename_i y q tb ht
    obtain ⟨id, rfl, h2, h3⟩ := h
    simp only [Option.map_some, Option.some.injEq] at hz
    subst hz
    obtain ⟨g1, g2, g3⟩ := hc y rfl
    refine ⟨⟨⟨rfl, h2, h3, g1, ?_⟩, id, _, _, q, tb, rfl⟩, trivial, ?_⟩
    · cases y with
      | root d => exact absurd g2 (by simp [Reader])
      | action id' d' p' b' => exact ⟨g2, q, tb, rfl⟩
      | child p' j => exact ⟨q, tb, rfl⟩
    · simp only [chain, slotAct]; exact g3
  · subst h; simp at hz

end

end Verif.Al
