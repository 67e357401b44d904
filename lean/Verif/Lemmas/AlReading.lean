import Verif.Lemmas.AlCalls
import Verif.Model.AlLazy
/-
Which calls lazy loading makes.
-/
namespace Verif.Al
open Verif.Ids

set_option linter.unusedSectionVars false
variable {σ V : Type} (L : LL σ V) (held : LSt σ V → Nat → Bool)

/-- Calls that go to another element or end a context have the property. -/
structure Neutral (P : Event V → Prop) : Prop where
  finish : ∀ c, P (.finish c)
  iterate : ∀ c i b, P (.iterate c i b)

/-- Calls that read nodes in this environment have the property. -/
structure ReadsBy (E : Env V) (P : Event V → Prop) : Prop where
  read : ∀ c p q tb, target E p = some (q, tb) → P (.read c q tb)
  aos : ∀ c p q tb r, target E p = some (q, tb) → P (.begin c (.aos q tb 0) r)

theorem neutral_reading : Neutral (Reading : Event V → Prop) := ⟨fun _ => trivial, fun _ _ _ => trivial⟩
theorem reads_reading (E : Env V) : ReadsBy E Reading := ⟨fun _ _ _ _ _ => trivial, fun _ _ _ _ _ _ => rfl⟩

variable {P : Event V → Prop}

/-- The calls between two states have a property. -/
def OnlyReads (P : Event V → Prop) (s s' : LSt σ V) : Prop := ∃ seg, s'.st.log = s.st.log ++ seg ∧ ∀ e ∈ seg, P e

theorem onlyReads_refl (s : LSt σ V) : OnlyReads P s s := ⟨[], (List.append_nil _).symm, fun _ h => by cases h⟩

theorem onlyReads_trans {a b c : LSt σ V} (h : OnlyReads P a b) (h' : OnlyReads P b c) : OnlyReads P a c := by
  obtain ⟨g, h1, h2⟩ := h
  obtain ⟨g', h3, h4⟩ := h'
  refine ⟨g ++ g', by rw [h3, h1, List.append_assoc], fun e he => ?_⟩
  rcases List.mem_append.1 he with h | h
  · exact h2 e h
  · exact h4 e h

theorem onlyReads_of_log {s s' : LSt σ V} (h : s'.st.log = s.st.log) : OnlyReads P s s' :=
  ⟨[], by simp [h], fun _ h => by cases h⟩

theorem onlyReads_lift {α : Type} {p : M σ V α} (h : Emits P p) (s : LSt σ V) : OnlyReads P s (lift p s).2 := h s.st

theorem closeAll_log (hP : Neutral P) : ∀ (o : List CObj) (s : St σ V),
    ∃ seg, (closeAll L o s).log = s.log ++ seg ∧ ∀ e ∈ seg, P e
  | [], s => ⟨[], (List.append_nil _).symm, fun _ h => by cases h⟩
  | x :: r, s => by
    obtain ⟨g, h1, h2⟩ := closeAll_log hP r (llFinish L x.ctx s)
    refine ⟨.finish x.ctx :: g, ?_, ?_⟩
    · rw [closeAll, h1]; simp [llFinish]
    · intro e he
      rcases List.mem_cons.1 he with rfl | he
      · exact hP.finish _
      · exact h2 e he

theorem onlyReads_clear (hP : Neutral P) (s : LSt σ V) : OnlyReads P s (clearCache L s) := closeAll_log L hP s.cache s.st

theorem popTo_log (hP : Neutral P) (o : Nat) : ∀ (c : List CObj) (s : St σ V),
    ∃ seg, (popTo L o c s).2.log = s.log ++ seg ∧ ∀ e ∈ seg, P e
  | [], s => ⟨[], (List.append_nil _).symm, fun _ h => by cases h⟩
  | x :: r, s => by
    rw [popTo]
    split
    · exact ⟨[], (List.append_nil _).symm, fun _ h => by cases h⟩
    · obtain ⟨g, h1, h2⟩ := popTo_log hP o r (llFinish L x.ctx s)
      refine ⟨.finish x.ctx :: g, ?_, ?_⟩
      · rw [h1]; simp [llFinish]
      · intro e he
        rcases List.mem_cons.1 he with rfl | he
        · exact hP.finish _
        · exact h2 e he

theorem onlyReads_fromCache (hP : Neutral P) (id : Nat) (s : LSt σ V) : OnlyReads P s (fromCache L held id s).2 := by
  unfold fromCache
  split
  · exact onlyReads_refl s
  · rename_i o _
    split
    · have h := popTo_log L hP o s.cache s.st
      split <;> rename_i e <;> rw [e] at h <;> exact h
    · exact onlyReads_refl s

/-- A begin that does not allow writing. -/
def ReadBegin (P : Event V → Prop) (b : Begin) : Prop := ∀ c r, P (.begin c b r)

theorem emits_begin {P : Event V → Prop} (c : Ctx) {b : Begin} (h : ReadBegin P b) : Emits P (llBegin L c b) := by
  intro s
  unfold llBegin
  rcases L.begin s.ll c b with ⟨_ | _, ll⟩
  · exact ⟨_, rfl, fun e he => by simp at he; subst he; exact h _ _⟩
  · exact ⟨_, rfl, fun e he => by simp at he; subst he; exact h _ _⟩

theorem onlyReads_open (id : Nat) (c : Ctx) {b : Begin} (h : ReadBegin P b) (s : LSt σ V) :
    OnlyReads P s (openContext L id c b s).2 := by
  have g := onlyReads_lift (emits_begin L c h) s
  unfold openContext
  split <;> rename_i e <;> rw [e] at g <;> exact g

theorem onlyReads_iterate (hP : Neutral P) (i : Nat) (s : LSt σ V) : OnlyReads P s (iterateTo L i s).2 := by
  unfold iterateTo
  split
  · exact onlyReads_refl s
  · rename_i x r _
    split
    · exact onlyReads_refl s
    · have g := onlyReads_lift (emits_iterate L x.ctx ((i : Int) - (x.cur : Int)) fun b => hP.iterate _ _ b) s
      split <;> rename_i e <;> rw [e] at g <;> exact g

/-- A lazy context that does not allow writing. -/
def ReadLazy (P : Event V → Prop) : Lazy → Prop
  | .root _ => True
  | .action _ _ p b => ReadLazy P p ∧ ReadBegin P b
  | .child p _ => ReadLazy P p

theorem onlyReads_context (hP : Neutral P) : ∀ (z : Lazy), ReadLazy P z → ∀ s : LSt σ V, OnlyReads P s (getContext L held z s).2
  | .root db, _, s => by
    unfold getContext
    split
    · exact onlyReads_refl s
    · split
      · exact onlyReads_refl s
      · exact onlyReads_clear L hP s
  | .action id db p b, h, s => by
    have hf := onlyReads_fromCache L held hP id s
    unfold getContext
    split
    · exact onlyReads_refl s
    · split
      · rename_i e; rw [e] at hf; exact hf
      · rename_i s1 e
        rw [e] at hf
        have hp := onlyReads_context hP p h.1 s1
        split
        · rename_i e'; rw [e'] at hp; exact onlyReads_trans hf hp
        · rename_i c s2 e'
          rw [e'] at hp
          exact onlyReads_trans hf (onlyReads_trans hp (onlyReads_open L id c h.2 s2))
  | .child p i, h, s => by
    have hp := onlyReads_context hP p h s
    unfold getContext
    split
    · rename_i e'; rw [e'] at hp; exact hp
    · rename_i c s2 e'
      rw [e'] at hp
      exact onlyReads_trans hp (onlyReads_iterate L hP i s2)

def ReadCtx (P : Event V → Prop) : Option Lazy → Prop
  | none => True
  | some z => ReadLazy P z

mutual
/-- All lazy contexts in a lazily loaded IDS do not allow writing. -/
def ReadNode (P : Event V → Prop) : LNode V → Prop
  | .leaf _ _ => True
  | .struct c f => ReadCtx P c ∧ ReadFields P f
  | .aosNew c _ => ReadCtx P c
  | .aos c _ e => ReadCtx P c ∧ ReadElems P e
def ReadFields (P : Event V → Prop) : LFields V → Prop
  | .nil => True
  | .absent _ _ r => ReadFields P r
  | .present _ x r => ReadNode P x ∧ ReadFields P r
def ReadElems (P : Event V → Prop) : LElems V → Prop
  | .nil => True
  | .unread r => ReadElems P r
  | .read c f r => ReadCtx P c ∧ ReadFields P f ∧ ReadElems P r
end

theorem readFields_fresh : ∀ m : MFields, ReadFields P (lazyFresh m : LFields V)
  | .nil => trivial
  | .cons _ _ r => readFields_fresh r

theorem readFields_find : ∀ (f : LFields V) (n : Name) {x : LNode V}, ReadFields P f → f.find n = some (.inr x) → ReadNode P x
  | .nil, _, _, _, h => by simp [LFields.find] at h
  | .absent k m r, n, x, hf, h => by
    unfold LFields.find at h
    split at h
    · simp at h
    · exact readFields_find r n hf h
  | .present k y r, n, x, hf, h => by
    unfold LFields.find at h
    split at h
    · cases h; exact hf.1
    · exact readFields_find r n hf.2 h

theorem readFields_put : ∀ (f : LFields V) (n : Name) {x : LNode V}, ReadFields P f → ReadNode P x → ReadFields P (f.put n x)
  | .nil, _, _, _, _ => trivial
  | .absent k m r, n, x, hf, h => by
    unfold LFields.put
    split
    · exact ⟨h, hf⟩
    · exact readFields_put r n hf h
  | .present k y r, n, x, hf, h => by
    unfold LFields.put
    split
    · exact ⟨h, hf.2⟩
    · exact ⟨hf.1, readFields_put r n hf.2 h⟩

theorem readElems_unreads : ∀ n, ReadElems P (.unreads n : LElems V)
  | 0 => trivial
  | n + 1 => readElems_unreads n

theorem readElems_find : ∀ (e : LElems V) (i : Nat) {c : Option Lazy} {f : LFields V}, ReadElems P e →
    e.find i = some (some (c, f)) → ReadCtx P c ∧ ReadFields P f
  | .nil, _, _, _, _, h => by simp [LElems.find] at h
  | .unread r, 0, _, _, _, h => by simp [LElems.find] at h
  | .unread r, i + 1, _, _, he, h => readElems_find r i he h
  | .read c f r, 0, _, _, he, h => by simp [LElems.find] at h; obtain ⟨rfl, rfl⟩ := h; exact ⟨he.1, he.2.1⟩
  | .read c f r, i + 1, _, _, he, h => readElems_find r i he.2.2 h

theorem readElems_put : ∀ (e : LElems V) (i : Nat) {c : Option Lazy} {f : LFields V}, ReadElems P e →
    ReadCtx P c → ReadFields P f → ReadElems P (e.put i c f)
  | .nil, _, _, _, _, _, _ => trivial
  | .unread r, 0, _, _, he, hc, hf => ⟨hc, hf, he⟩
  | .unread r, i + 1, _, _, he, hc, hf => readElems_put r i he hc hf
  | .read c f r, 0, _, _, he, hc, hf => ⟨hc, hf, he.2.2⟩
  | .read c f r, i + 1, _, _, he, hc, hf => ⟨he.1, he.2.1, readElems_put r i he.2.2 hc hf⟩

variable (E : Env V)

theorem onlyReads_newChild (hP : Neutral P) (hE : ReadsBy E P) (p : Path) {c : Option Lazy} (hc : ReadCtx P c) (m : Meta) (s : LSt σ V) :
    ReadNode P (newChild L held E p c m s).2.1 ∧ OnlyReads P s (newChild L held E p c m s).2.2 := by
  unfold newChild
  split
  · split
    · exact ⟨trivial, onlyReads_refl s⟩
    · exact ⟨⟨trivial, readFields_fresh _⟩, onlyReads_refl s⟩
    · exact ⟨trivial, onlyReads_refl s⟩
  · rename_i c
    split
    · exact ⟨trivial, onlyReads_refl s⟩
    · exact ⟨⟨trivial, readFields_fresh _⟩, onlyReads_refl s⟩
    · exact ⟨trivial, onlyReads_refl s⟩
    · exact ⟨⟨hc, fun c r => hE.aos c p _ _ r ‹_›⟩, onlyReads_of_log rfl⟩
    · exact ⟨⟨hc, readFields_fresh _⟩, onlyReads_refl s⟩
    · rename_i l q tb _
      have hg := onlyReads_context L held hP c hc s
      split
      · rename_i e; rw [e] at hg; exact ⟨trivial, hg⟩
      · rename_i ctx s1 e
        rw [e] at hg
        have hr := onlyReads_lift (emits_read L ctx q tb l (hE.read ctx p q tb ‹_›)) s1
        split
        · rename_i e'; rw [e'] at hr; exact ⟨trivial, onlyReads_trans hg hr⟩
        · rename_i e'; rw [e'] at hr; exact ⟨trivial, onlyReads_trans hg hr⟩

theorem onlyReads_getChild (hP : Neutral P) (hE : ReadsBy E P) (p : Path) {c : Option Lazy} (hc : ReadCtx P c) {f : LFields V} (hf : ReadFields P f)
    {n : Name} {ch : Meta ⊕ LNode V} (hch : f.find n = some ch) (s : LSt σ V) :
    ReadNode P (getChild L held E p c ch s).2.1 ∧ OnlyReads P s (getChild L held E p c ch s).2.2 := by
  cases ch with
  | inr x => exact ⟨readFields_find f n hf hch, onlyReads_refl s⟩
  | inl m => exact onlyReads_newChild L held E hP hE p hc m s

theorem onlyReads_loadSize (hP : Neutral P) {x : LNode V} (hx : ReadNode P x) (s : LSt σ V) :
    ReadNode P (loadSize L held x s).2.1 ∧ OnlyReads P s (loadSize L held x s).2.2 := by
  unfold loadSize
  split
  · exact ⟨⟨trivial, trivial⟩, onlyReads_refl s⟩
  · rename_i c m
    have hg := onlyReads_context L held hP c hx s
    split
    · rename_i e; rw [e] at hg; exact ⟨hx, hg⟩
    · rename_i ctx s1 e
      rw [e] at hg
      split
      · exact ⟨hx, hg⟩
      · exact ⟨⟨hx, readElems_unreads _⟩, hg⟩
  · exact ⟨hx, onlyReads_refl s⟩

theorem onlyReads_observe (hP : Neutral P) {x : LNode V} (hx : ReadNode P x) (s : LSt σ V) :
    ReadNode P (observe L held x s).2.1 ∧ OnlyReads P s (observe L held x s).2.2 := by
  unfold observe
  split
  · exact ⟨trivial, onlyReads_refl s⟩
  · exact ⟨hx, onlyReads_refl s⟩
  · have h := onlyReads_loadSize L held hP hx s
    split <;> rename_i e <;> rw [e] at h <;> exact h

theorem readItem {c : Option Lazy} (hc : ReadCtx P c) (m : MFields) {e : LElems V} (he : ReadElems P e) (i : Nat)
    {x : Option Lazy × LFields V} (h : loadItem c m e i = some x) : ReadCtx P x.1 ∧ ReadFields P x.2 := by
  unfold loadItem at h
  split at h
  · simp at h
  · rename_i h'
    cases h
    exact readElems_find e i he h'
  · cases h
    refine ⟨?_, readFields_fresh m⟩
    cases c with
    | none => trivial
    | some z => exact hc

theorem onlyReads_access (hP : Neutral P) (hE : ReadsBy E P) (a : Addr) : ∀ (p : Path) (x : LNode V) (s : LSt σ V), ReadNode P x →
    ReadNode P (access L held E p x a s).2.1 ∧ OnlyReads P s (access L held E p x a s).2.2 := by
  induction a with
  | nil =>
    intro p x s hx
    have : access L held E p x [] s = observe L held x s := by cases x <;> rfl
    rw [this]
    exact onlyReads_observe L held hP hx s
  | cons st a ih =>
    intro p x s hx
    obtain ⟨n, i⟩ := st
    cases x with
    | leaf l v => exact ⟨hx, onlyReads_refl s⟩
    | aosNew c m => exact ⟨hx, onlyReads_refl s⟩
    | aos c m e => exact ⟨hx, onlyReads_refl s⟩
    | struct c f =>
      simp only [access]
      split
      · exact ⟨hx, onlyReads_refl s⟩
      · rename_i ch hch
        have hg := onlyReads_getChild L held E hP hE (p ++ [n]) hx.1 hx.2 hch s
        split
        · rename_i e
          rw [e] at hg
          exact ⟨⟨hx.1, readFields_put f n hx.2 hg.1⟩, hg.2⟩
        · rename_i y s1 e
          rw [e] at hg
          split
          · rcases e' : access L held E (p ++ [n]) y a s1 with ⟨r, y', s2⟩
            have h := ih (p ++ [n]) y s1 hg.1
            rw [e'] at h
            exact ⟨⟨hx.1, readFields_put f n hx.2 h.1⟩, onlyReads_trans hg.2 h.2⟩
          · rename_i i
            have hl := onlyReads_loadSize L held hP hg.1 s1
            split
            · rename_i e'
              rw [e'] at hl
              exact ⟨⟨hx.1, readFields_put f n hx.2 hl.1⟩, onlyReads_trans hg.2 hl.2⟩
            · rename_i ac m el s2 e'
              rw [e'] at hl
              split
              · exact ⟨⟨hx.1, readFields_put f n hx.2 hl.1⟩, onlyReads_trans hg.2 hl.2⟩
              · rename_i ec ef hi
                have hr := readItem hl.1.1 m hl.1.2 i hi
                have h := ih (p ++ [n]) (.struct ec ef) s2 hr
                split
                · rename_i e''
                  rw [e''] at h
                  exact ⟨⟨hx.1, readFields_put f n hx.2 ⟨hl.1.1, readElems_put el i hl.1.2 h.1.1 h.1.2⟩⟩,
                    onlyReads_trans hg.2 (onlyReads_trans hl.2 h.2)⟩
                · rename_i e''
                  rw [e''] at h
                  exact ⟨⟨hx.1, readFields_put f n hx.2 hl.1⟩, onlyReads_trans hg.2 (onlyReads_trans hl.2 h.2)⟩
            · rename_i e'
              rw [e'] at hl
              exact ⟨⟨hx.1, readFields_put f n hx.2 hl.1⟩, onlyReads_trans hg.2 hl.2⟩

theorem onlyReads_onEntry (hP : Neutral P) {α : Type} {p : Ctx → M σ V α} (h : ∀ c, Emits P (p c)) (s : LSt σ V) :
    OnlyReads P s (onEntry L p s).2 := by
  unfold onEntry
  split
  · exact onlyReads_refl s
  · exact onlyReads_trans (onlyReads_clear L hP s) (onlyReads_lift (h _) _)

end Verif.Al
