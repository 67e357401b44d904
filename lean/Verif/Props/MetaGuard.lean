import Verif.Model.MetaGuard
/-
C80: metadata is read-only.
-/
namespace Verif.Props
open Verif.MetaGuard

/-- The objects of `w` are in `w'`, with the same attributes. -/
def SameObjs (w w' : World) : Prop := ∀ o, o < w.objs.length → w'.objs[o]? = w.objs[o]?

/-- The attributes that the constructor gives to the toplevel node, the last ones first. -/
def given (l : List Step) : Attrs :=
  (l.filterMap fun
    | .set 0 n v => some (n, v)
    | .dict 0 n v => some (n, v)
    | _ => none).reverse

namespace MetaGuardLemmas

theorem kept_len {w w' : World} (h : SameObjs w w') : w.objs.length ≤ w'.objs.length := by
  apply Classical.byContradiction
  intro hn
  have hlt : w'.objs.length < w.objs.length := by omega
  have := h w'.objs.length hlt
  rw [List.getElem?_eq_none (Nat.le_refl _), List.getElem?_eq_getElem hlt] at this
  cases this

theorem kept_trans {a b c : World} (h1 : SameObjs a b) (h2 : SameObjs b c) : SameObjs a c :=
  fun o ho => (h2 o (Nat.lt_of_lt_of_le ho (kept_len h1))).trans (h1 o ho)

theorem kept_eq {a b : World} (h : b.objs = a.objs) : SameObjs a b := fun o _ => by rw [h]

/-- Old objects are not touched by the constructor of another one. -/
theorem construct_old (base : Nat) (l : List Step) : ∀ (w : World), base ≤ w.objs.length →
    (∀ o, o < base → (construct base l w).2.objs[o]? = w.objs[o]?) ∧ (construct base l w).2.slot = w.slot ∧
    (construct base l w).2.cache = w.cache := by
  induction l with
  | nil => intro w _; exact ⟨fun _ _ => rfl, rfl, rfl⟩
  | cons s l ih =>
    intro w hw
    have hput : ∀ k n v, (∀ o, o < base → (w.put (base + k) n v).objs[o]? = w.objs[o]?) ∧
        base ≤ (w.put (base + k) n v).objs.length := by
      intro k n v
      refine ⟨fun o ho => ?_, by simpa [World.put] using hw⟩
      simp only [World.put, List.getElem?_modify]
      have : ¬ base + k = o := by omega
      cases w.objs[o]? <;> simp [this]
    cases s with
    | new =>
      obtain ⟨h1, h2, h3⟩ := ih { w with objs := w.objs ++ [[]] } (by simp; omega)
      refine ⟨fun o ho => (h1 o ho).trans ?_, h2, h3⟩
      exact List.getElem?_append_left (Nat.lt_of_lt_of_le ho hw)
    | raise => exact ⟨fun _ _ => rfl, rfl, rfl⟩
    | dict k n v =>
      obtain ⟨h1, h2, h3⟩ := ih (w.put (base + k) n v) (hput k n v).2
      exact ⟨fun o ho => (h1 o ho).trans ((hput k n v).1 o ho), h2, h3⟩
    | set k n v =>
      simp only [construct, setAttr]
      cases hs : w.slot with
      | guard => exact ⟨fun _ _ => rfl, hs, rfl⟩
      | plain =>
        obtain ⟨h1, h2, h3⟩ := ih (w.put (base + k) n v) (hput k n v).2
        exact ⟨fun o ho => (h1 o ho).trans ((hput k n v).1 o ho), h2.trans hs, h3⟩
      | absent =>
        obtain ⟨h1, h2, h3⟩ := ih (w.put (base + k) n v) (hput k n v).2
        exact ⟨fun o ho => (h1 o ho).trans ((hput k n v).1 o ho), h2.trans hs, h3⟩

theorem build_old (l : List Step) (w : World) : SameObjs w (build l w).2 ∧ (build l w).2.slot = w.slot ∧
    (build l w).2.cache = w.cache ∧ ∀ o, (build l w).1 = .ok o → o = w.objs.length := by
  obtain ⟨h1, h2, h3⟩ := construct_old w.objs.length l { w with objs := w.objs ++ [[]] } (by simp)
  unfold build
  have hk : SameObjs w (construct w.objs.length l { w with objs := w.objs ++ [[]] }).2 := fun o ho => by
    rw [h1 o ho]
    exact List.getElem?_append_left ho
  rcases hc : construct w.objs.length l { w with objs := w.objs ++ [[]] } with ⟨r, w'⟩
  rw [hc] at h2 h3 hk
  cases r with
  | error e => exact ⟨hk, h2, h3, fun o h => by cases h⟩
  | ok u => exact ⟨hk, h2, h3, fun o h => by cases h; rfl⟩

/-- Calls keep what the class was, and old objects. -/
theorem get_old (cap : Nat) (script : Nat → List Step) (x : Nat) (w : World) (hs : w.slot ≠ .absent) :
    SameObjs w (getMeta cap script x w).2 ∧ (getMeta cap script x w).2.slot = w.slot := by
  unfold getMeta
  cases hr : recall x w with
  | some r =>
    unfold recall at hr
    cases hl : w.cache.lookup x with
    | none => rw [hl] at hr; cases hr
    | some o => rw [hl] at hr; cases hr; exact ⟨kept_eq rfl, rfl⟩
  | none =>
    simp only [delSlot, if_neg hs]
    have ho : readSlot w = w.slot := by
      unfold readSlot
      cases h : w.slot with
      | guard => rfl
      | plain => rfl
      | absent => exact absurd h hs
    obtain ⟨h1, -, h3, -⟩ := build_old (script x) { w with slot := .absent }
    rcases hb : build (script x) { w with slot := .absent } with ⟨r, w'⟩
    rw [hb] at h1
    cases r with
    | error e => exact ⟨fun o h => h1 o h, ho⟩
    | ok o => exact ⟨fun o h => h1 o h, ho⟩

theorem step_old (cap : Nat) (script : Nat → List Step) (w : World) (hs : w.slot = .guard) (op : Op) :
    SameObjs w (step cap script w op) ∧ (step cap script w op).slot = .guard := by
  cases op with
  | get x =>
    obtain ⟨h1, h2⟩ := get_old cap script x w (by rw [hs]; simp)
    exact ⟨h1, h2.trans hs⟩
  | set o n v => simp only [step, setAttr, hs]; exact ⟨kept_eq rfl, trivial⟩
  | del o n => exact ⟨kept_eq rfl, hs⟩
  | copy o => exact ⟨kept_eq rfl, hs⟩

theorem run_old (cap : Nat) (script : Nat → List Step) (ops : List Op) : ∀ w : World, w.slot = .guard →
    SameObjs w (run cap script w ops) ∧ (run cap script w ops).slot = .guard := by
  induction ops with
  | nil => exact fun w hs => ⟨kept_eq rfl, hs⟩
  | cons op ops ih =>
    intro w hs
    obtain ⟨h1, h2⟩ := step_old cap script w hs op
    obtain ⟨h3, h4⟩ := ih _ h2
    exact ⟨kept_trans h1 h3, h4⟩

/-! ### The cache -/

theorem nodup_le {l s : List Nat} (hn : l.Nodup) (h : ∀ x ∈ l, x ∈ s) : l.length ≤ s.length := by
  induction l generalizing s with
  | nil => simp
  | cons a l ih =>
    rw [List.nodup_cons] at hn
    have ha := h a (by simp)
    have := ih (s := s.erase a) hn.2 (fun x hx =>
      (List.mem_erase_of_ne (by rintro rfl; exact hn.1 hx)).2 (h x (by simp [hx])))
    rw [List.length_erase_of_mem ha] at this
    have := List.length_pos_of_mem ha
    simp only [List.length_cons]
    omega

def keys (c : List (Nat × Nat)) : List Nat := c.map (·.1)

theorem lookup_none {c : List (Nat × Nat)} {x : Nat} (h : c.lookup x = none) : x ∉ keys c := by
  induction c with
  | nil => simp [keys]
  | cons e c ih =>
    obtain ⟨k, o⟩ := e
    rw [List.lookup_cons] at h
    split at h
    · cases h
    · next hk =>
      have : x ≠ k := by rintro rfl; simp at hk
      have h2 := ih h
      simp only [keys, List.map_cons, List.mem_cons, not_or] at h2 ⊢
      exact ⟨this, h2⟩

theorem lookup_mid {pre post : List (Nat × Nat)} {x o : Nat} (h : x ∉ keys pre) :
    (pre ++ (x, o) :: post).lookup x = some o := by
  induction pre with
  | nil => simp
  | cons e pre ih =>
    obtain ⟨k, o'⟩ := e
    simp only [keys, List.map_cons, List.mem_cons, not_or] at h
    rw [List.cons_append, List.lookup_cons]
    have : (x == k) = false := by simpa using h.1
    rw [this]
    exact ih h.2

theorem keys_filter {c : List (Nat × Nat)} (y : Nat) : y ∉ keys (c.filter (fun e => !(e.1 == y))) := by
  simp [keys]

theorem nodup_filter {c : List (Nat × Nat)} (y : Nat) (h : (keys c).Nodup) :
    (keys (c.filter (fun e => !(e.1 == y)))).Nodup :=
  List.Nodup.sublist (List.Sublist.map _ List.filter_sublist) h

/-- Where `x` is in the cache: behind elements of `S` only. -/
def Front (x o : Nat) (S : List Nat) (w : World) : Prop :=
  ∃ pre post, w.cache = pre ++ (x, o) :: post ∧ ∀ k ∈ keys pre, k ∈ S

theorem recall_cache {x : Nat} {w w' : World} {o : Nat} (h : recall x w = some (o, w')) :
    w.cache.lookup x = some o ∧ w' = { w with cache := (x, o) :: w.cache.filter (fun e => !(e.1 == x)) } := by
  unfold recall at h
  cases hl : w.cache.lookup x with
  | none => rw [hl] at h; cases h
  | some o' => rw [hl] at h; cases h; exact ⟨rfl, rfl⟩

theorem recall_none {x : Nat} {w : World} (h : recall x w = none) : x ∉ keys w.cache := by
  unfold recall at h
  cases hl : w.cache.lookup x with
  | none => exact lookup_none hl
  | some o' => rw [hl] at h; cases h

/-- What a call does with the cache. -/
theorem get_cache (cap : Nat) (script : Nat → List Step) (y : Nat) (w : World) (hs : w.slot ≠ .absent) :
    (∃ o, w.cache.lookup y = some o ∧ (getMeta cap script y w).1 = .ok o ∧ (getMeta cap script y w).2.objs = w.objs ∧
      (getMeta cap script y w).2.cache = (y, o) :: w.cache.filter (fun e => !(e.1 == y))) ∨
    (y ∉ keys w.cache ∧ ∃ o, (getMeta cap script y w).1 = .ok o ∧ o = w.objs.length ∧
      (getMeta cap script y w).2.cache = ((y, o) :: w.cache).take cap) ∨
    (y ∉ keys w.cache ∧ (∃ e, (getMeta cap script y w).1 = .error e) ∧ (getMeta cap script y w).2.cache = w.cache) := by
  unfold getMeta
  cases hr : recall y w with
  | some r =>
    obtain ⟨o, w'⟩ := r
    obtain ⟨h1, rfl⟩ := recall_cache hr
    exact .inl ⟨o, h1, rfl, rfl, rfl⟩
  | none =>
    have hy := recall_none hr
    simp only [delSlot, if_neg hs]
    obtain ⟨h1, -, h3, h4⟩ := build_old (script y) { w with slot := .absent }
    rcases hb : build (script y) { w with slot := .absent } with ⟨r, w'⟩
    rw [hb] at h3 h4
    cases r with
    | error e => exact .inr (.inr ⟨hy, ⟨e, rfl⟩, h3⟩)
    | ok o =>
      refine .inr (.inl ⟨hy, o, rfl, h4 o rfl, ?_⟩)
      show ((y, o) :: w'.cache).take cap = _
      rw [show w'.cache = w.cache from h3]

theorem get_nodup (cap : Nat) (script : Nat → List Step) (y : Nat) (w : World) (hs : w.slot ≠ .absent)
    (hn : (keys w.cache).Nodup) : (keys (getMeta cap script y w).2.cache).Nodup := by
  rcases get_cache cap script y w hs with ⟨o, -, -, -, h⟩ | ⟨hy, o, -, -, h⟩ | ⟨-, -, h⟩
  · rw [h]
    exact List.nodup_cons.2 ⟨keys_filter y, nodup_filter y hn⟩
  · rw [h]
    exact List.Nodup.sublist (List.Sublist.map _ (List.take_sublist _ _)) (List.nodup_cons.2 ⟨hy, hn⟩)
  · rw [h]; exact hn

theorem step_nodup (cap : Nat) (script : Nat → List Step) (w : World) (hs : w.slot = .guard) (hn : (keys w.cache).Nodup) (op : Op) :
    (keys (step cap script w op).cache).Nodup := by
  cases op with
  | get y => exact get_nodup cap script y w (by rw [hs]; simp) hn
  | set o n v => simp only [step, setAttr, hs]; exact hn
  | del o n => exact hn
  | copy o => exact hn

theorem run_nodup (cap : Nat) (script : Nat → List Step) (ops : List Op) : ∀ w : World, w.slot = .guard → (keys w.cache).Nodup →
    (keys (run cap script w ops).cache).Nodup := by
  induction ops with
  | nil => exact fun w _ hn => hn
  | cons op ops ih =>
    intro w hs hn
    exact ih _ (step_old cap script w hs op).2 (step_nodup cap script w hs hn op)

/-- Elements of `S` do not drive `x` out of the cache. -/
theorem get_front (cap : Nat) (script : Nat → List Step) (x o : Nat) (S : List Nat) (hS : S.length < cap) (y : Nat) (w : World)
    (hs : w.slot ≠ .absent) (hn : (keys w.cache).Nodup) (hy : y = x ∨ y ∈ S) (h : Front x o S w) :
    Front x o S (getMeta cap script y w).2 := by
  have hn' := get_nodup cap script y w hs hn
  obtain ⟨pre, post, hc, hp⟩ := h
  have hx : x ∉ keys pre := by
    rw [hc] at hn
    simp only [keys, List.map_append, List.map_cons] at hn
    rw [List.nodup_append] at hn
    intro hx
    exact hn.2.2 x hx x (by simp) rfl
  have hlx : w.cache.lookup x = some o := by rw [hc]; exact lookup_mid hx
  rcases get_cache cap script y w hs with ⟨o', hl, -, -, h⟩ | ⟨hk, o', -, -, h⟩ | ⟨-, -, h⟩
  · by_cases e : y = x
    · subst e
      rw [hlx] at hl
      cases hl
      exact ⟨[], _, h, by simp [keys]⟩
    · refine ⟨(y, o') :: pre.filter (fun e => !(e.1 == y)), post.filter (fun e => !(e.1 == y)), ?_, fun k hk => ?_⟩
      · rw [h, hc, List.filter_append, List.filter_cons]
        have : (!(x == y)) = true := by
          have : x ≠ y := fun h => e h.symm
          simpa using this
        simp [this]
      · simp only [keys, List.map_cons, List.mem_cons] at hk
        rcases hk with rfl | hk
        · exact hy.resolve_left e
        · obtain ⟨e1, h1, rfl⟩ := List.mem_map.1 hk
          exact hp _ (List.mem_map_of_mem (List.mem_filter.1 h1).1)
  · have e : y ≠ x := by
      rintro rfl
      exact hk (by rw [hc]; simp [keys])
    have hyS := hy.resolve_left e
    have hlen : (keys ((y, o') :: pre)).length ≤ S.length := by
      refine nodup_le ?_ (fun k hk => ?_)
      · rw [hc] at hn hk
        simp only [keys, List.map_append, List.map_cons] at hn hk ⊢
        rw [List.nodup_append] at hn
        exact List.nodup_cons.2 ⟨fun h => hk (by simp [h]), hn.1⟩
      · simp only [keys, List.map_cons, List.mem_cons] at hk
        rcases hk with rfl | hk
        · exact hyS
        · exact hp _ hk
    refine ⟨(y, o') :: pre, post.take (cap - ((y, o') :: pre).length - 1), ?_, fun k hk => ?_⟩
    · rw [h, hc]
      have hl : ((y, o') :: pre).length < cap := by
        simp only [keys, List.length_map] at hlen
        omega
      rw [← List.cons_append, List.take_append]
      rw [List.take_of_length_le (by omega)]
      congr 1
      obtain ⟨k, hk⟩ : ∃ k, cap - ((y, o') :: pre).length = k + 1 := ⟨cap - ((y, o') :: pre).length - 1, by omega⟩
      rw [hk]
      simp
    · simp only [keys, List.map_cons, List.mem_cons] at hk
      rcases hk with rfl | hk
      · exact hyS
      · exact hp _ hk
  · exact ⟨pre, post, h.trans hc, hp⟩

theorem run_front (cap : Nat) (script : Nat → List Step) (x o : Nat) (S : List Nat) (hS : S.length < cap) (ops : List Op) :
    ∀ w : World, w.slot = .guard → (keys w.cache).Nodup → (∀ y, Op.get y ∈ ops → y = x ∨ y ∈ S) → Front x o S w →
    Front x o S (run cap script w ops) := by
  induction ops with
  | nil => exact fun w _ _ _ h => h
  | cons op ops ih =>
    intro w hs hn hy h
    refine ih _ (step_old cap script w hs op).2 (step_nodup cap script w hs hn op) (fun y hm => hy y (by simp [hm])) ?_
    cases op with
    | get y => exact get_front cap script x o S hS y w (by rw [hs]; simp) hn (hy y (by simp)) h
    | set o n v => simp only [step, setAttr, hs]; exact h
    | del o n => exact h
    | copy o => exact h

/-! ### What metadata tells -/

theorem construct_root (base : Nat) (l : List Step) : ∀ (w : World) (a : Attrs), w.objs[base]? = some a →
    (construct base l w).1 = .ok () → (construct base l w).2.objs[base]? = some (given l ++ a) := by
  induction l with
  | nil => exact fun w a ha _ => ha
  | cons s l ih =>
    intro w a ha hok
    have hput : ∀ k n v, (w.put (base + k) n v).objs[base]? = some (if k = 0 then (n, v) :: a else a) := by
      intro k n v
      simp only [World.put, List.getElem?_modify, ha]
      by_cases hk : k = 0
      · simp [hk]
      · have : ¬ base + k = base := by omega
        simp [hk, this]
    have hgiven : ∀ k n v, given l ++ (if k = 0 then (n, v) :: a else a) = given (.set k n v :: l) ++ a ∧
        given l ++ (if k = 0 then (n, v) :: a else a) = given (.dict k n v :: l) ++ a := by
      intro k n v
      cases k <;> simp [given]
    cases s with
    | new =>
      refine ih { w with objs := w.objs ++ [[]] } a ?_ hok
      show (w.objs ++ [[]])[base]? = some a
      rw [List.getElem?_append_left (List.getElem?_eq_some_iff.1 ha).1, ha]
    | raise => cases hok
    | dict k n v =>
      rw [← (hgiven k n v).2]
      exact ih _ _ (hput k n v) hok
    | set k n v =>
      rw [← (hgiven k n v).1]
      simp only [construct, setAttr] at hok ⊢
      cases hs : w.slot with
      | guard => rw [hs] at hok; cases hok
      | plain => rw [hs] at hok; exact ih _ _ (hput k n v) hok
      | absent => rw [hs] at hok; exact ih _ _ (hput k n v) hok

theorem build_root (l : List Step) (w : World) (o : Nat) (h : (build l w).1 = .ok o) :
    (build l w).2.objs[o]? = some (given l) := by
  have hr := construct_root w.objs.length l { w with objs := w.objs ++ [[]] } [] (by simp)
  unfold build at h ⊢
  rcases hc : construct w.objs.length l { w with objs := w.objs ++ [[]] } with ⟨r, w'⟩
  rw [hc] at h hr
  cases r with
  | error e => cases h
  | ok u => cases h; simpa using hr rfl

theorem construct_ok (base : Nat) (l : List Step) (hl : Step.raise ∉ l) : ∀ w : World, w.slot ≠ .guard →
    (construct base l w).1 = .ok () := by
  induction l with
  | nil => exact fun _ _ => rfl
  | cons s l ih =>
    intro w hw
    have hl' : Step.raise ∉ l := fun h => hl (List.mem_cons_of_mem _ h)
    cases s with
    | new => exact ih hl' _ hw
    | raise => simp at hl
    | dict k n v => exact ih hl' _ hw
    | set k n v =>
      simp only [construct, setAttr]
      cases hs : w.slot with
      | guard => exact absurd hs hw
      | plain => exact ih hl' (w.put _ n v) hw
      | absent => exact ih hl' (w.put _ n v) hw

theorem build_ok (l : List Step) (hl : Step.raise ∉ l) (w : World) (hw : w.slot ≠ .guard) : ∃ o, (build l w).1 = .ok o := by
  have := construct_ok w.objs.length l hl { w with objs := w.objs ++ [[]] } hw
  unfold build
  rcases hc : construct w.objs.length l { w with objs := w.objs ++ [[]] } with ⟨r, w'⟩
  rw [hc] at this
  cases this
  exact ⟨_, rfl⟩

theorem lookup_mem {c : List (Nat × Nat)} {x o : Nat} (h : c.lookup x = some o) : (x, o) ∈ c := by
  induction c with
  | nil => cases h
  | cons e c ih =>
    obtain ⟨k, o'⟩ := e
    rw [List.lookup_cons] at h
    split at h
    · next hk =>
      cases h
      have : x = k := by simpa using hk
      simp [this]
    · exact List.mem_cons_of_mem _ (ih h)

/-- What is in the cache has the attributes of its element. -/
def Content (script : Nat → List Step) (w : World) : Prop := ∀ e ∈ w.cache, w.objs[e.2]? = some (given (script e.1))

theorem content_kept {script : Nat → List Step} {w w' : World} (h : SameObjs w w') (hc : Content script w) :
    ∀ e ∈ w.cache, w'.objs[e.2]? = some (given (script e.1)) :=
  fun e he => (h e.2 (List.getElem?_eq_some_iff.1 (hc e he)).1).trans (hc e he)

theorem get_content (cap : Nat) (script : Nat → List Step) (x : Nat) (w : World) (hs : w.slot ≠ .absent) (hc : Content script w) :
    Content script (getMeta cap script x w).2 ∧
    ∀ o, (getMeta cap script x w).1 = .ok o → (getMeta cap script x w).2.objs[o]? = some (given (script x)) := by
  have hk := content_kept (get_old cap script x w hs).1 hc
  have hnew : x ∉ keys w.cache → ∀ o, (getMeta cap script x w).1 = .ok o →
      (getMeta cap script x w).2.objs[o]? = some (given (script x)) := by
    intro hx o
    unfold getMeta
    cases hr : recall x w with
    | some r => exact absurd (List.mem_map_of_mem (lookup_mem (recall_cache hr).1)) hx
    | none =>
      simp only [delSlot, if_neg hs]
      have := build_root (script x) { w with slot := .absent }
      rcases hb : build (script x) { w with slot := .absent } with ⟨r, w'⟩
      rw [hb] at this
      cases r with
      | error e => intro h; cases h
      | ok o' => intro h; cases h; exact this _ rfl
  rcases get_cache cap script x w hs with ⟨o, h1, h2, h3, h4⟩ | ⟨h1, o, h2, h3, h4⟩ | ⟨h1, ⟨e, h2⟩, h4⟩
  · have hx := hk _ (lookup_mem h1)
    refine ⟨fun e he => ?_, fun o' h => ?_⟩
    · rw [h4, List.mem_cons] at he
      rcases he with rfl | he
      · exact hx
      · exact hk e (List.mem_filter.1 he).1
    · rw [h2] at h; cases h; exact hx
  · refine ⟨fun e he => ?_, hnew h1⟩
    rw [h4] at he
    rcases List.mem_cons.1 (List.mem_of_mem_take he) with rfl | he
    · exact hnew h1 o h2
    · exact hk e he
  · refine ⟨fun e he => ?_, hnew h1⟩
    rw [h4] at he
    exact hk e he

theorem run_content (cap : Nat) (script : Nat → List Step) (ops : List Op) : ∀ w : World, w.slot = .guard → Content script w →
    Content script (run cap script w ops) := by
  induction ops with
  | nil => exact fun w _ h => h
  | cons op ops ih =>
    intro w hs h
    refine ih _ (step_old cap script w hs op).2 ?_
    cases op with
    | get y => exact (get_content cap script y w (by rw [hs]; simp) h).1
    | set o n v => simp only [step, setAttr, hs]; exact h
    | del o n => exact h
    | copy o => exact h

end MetaGuardLemmas

open MetaGuardLemmas

variable (cap : Nat) (script : Nat → List Step)

/-- **C80, read-only.** Whatever one thread did before (successful and failed calls of `get_toplevel_metadata`, attempts to change
metadata), assigning and deleting attributes raises `RuntimeError` and changes nothing, and whatever it does afterwards, all
objects of metadata keep their attributes. -/
theorem C80_read_only (before after : List Op) (o n v : Nat) :
    let w := run cap script World.init before
    setAttr o n v w = (.error .runtime, w) ∧ delAttr o n w = (.error .runtime, w) ∧ SameObjs w (run cap script w after) := by
  obtain ⟨-, hs⟩ := run_old cap script before World.init rfl
  refine ⟨?_, rfl, (run_old cap script after _ hs).1⟩
  simp only [setAttr, hs]

/-- **C80, the same object.** Metadata of the same XML element is the same object, and nothing is created, as long as metadata of
fewer other elements was asked for in between than the cache has places. -/
theorem C80_same_object (before between : List Op) (x o : Nat) (S : List Nat) (hS : S.length < cap)
    (hb : ∀ y, Op.get y ∈ between → y = x ∨ y ∈ S) (w1 : World)
    (h : getMeta cap script x (run cap script World.init before) = (.ok o, w1)) :
    (getMeta cap script x (run cap script w1 between)).1 = .ok o ∧
    (getMeta cap script x (run cap script w1 between)).2.objs = (run cap script w1 between).objs := by
  obtain ⟨-, hs⟩ := run_old cap script before World.init rfl
  have hn := run_nodup cap script before World.init rfl (by simp [World.init, keys])
  have hs' : (run cap script World.init before).slot ≠ .absent := by rw [hs]; simp
  have g1 := get_old cap script x _ hs'
  have g2 := get_nodup cap script x _ hs' hn
  have g3 := get_cache cap script x _ hs'
  rw [h] at g1 g2 g3
  have hf : Front x o S w1 := by
    rcases g3 with ⟨o', -, h2, -, h3⟩ | ⟨-, o', h2, -, h3⟩ | ⟨-, ⟨e, h2⟩, -⟩
    · cases h2; exact ⟨[], _, h3, by simp [keys]⟩
    · cases h2
      obtain ⟨c, rfl⟩ : ∃ c, cap = c + 1 := ⟨cap - 1, by omega⟩
      exact ⟨[], _, h3.trans (List.take_succ_cons ..), by simp [keys]⟩
    · cases h2
  have hs1 : w1.slot = .guard := g1.2.trans hs
  obtain ⟨-, hs2⟩ := run_old cap script between w1 hs1
  have hn2 := run_nodup cap script between w1 hs1 g2
  obtain ⟨pre, post, hc, -⟩ := run_front cap script x o S hS between w1 hs1 g2 hb hf
  have hx : x ∉ keys pre := by
    rw [hc] at hn2
    simp only [keys, List.map_append, List.map_cons] at hn2
    rw [List.nodup_append] at hn2
    intro hx
    exact hn2.2.2 x hx x (by simp) rfl
  have hl : (run cap script w1 between).cache.lookup x = some o := by rw [hc]; exact lookup_mid hx
  rcases get_cache cap script x (run cap script w1 between) (by rw [hs2]; simp) with
    ⟨o', h1, h2, h3, -⟩ | ⟨h1, -⟩ | ⟨h1, -⟩
  · rw [hl] at h1; cases h1; exact ⟨h2, h3⟩
  · exact absurd (by rw [hc]; simp [keys]) h1
  · exact absurd (by rw [hc]; simp [keys]) h1

/-- **C80, content.** Metadata that is returned for an XML element has exactly the attributes that the constructor gives to the
node of this element, whatever happened before, and keeps them whatever happens afterwards. -/
theorem C80_content (before after : List Op) (x o : Nat) (w1 : World)
    (h : getMeta cap script x (run cap script World.init before) = (.ok o, w1)) :
    (run cap script w1 after).objs[o]? = some (given (script x)) := by
  obtain ⟨-, hs⟩ := run_old cap script before World.init rfl
  have hs' : (run cap script World.init before).slot ≠ .absent := by rw [hs]; simp
  have hc := run_content cap script before World.init rfl (fun e he => by cases he)
  have g1 := get_old cap script x _ hs'
  have g2 := (get_content cap script x _ hs' hc).2 o
  rw [h] at g1 g2
  have hx := g2 rfl
  rw [← hx]
  exact (run_old cap script after w1 (g1.2.trans hs)).1 o (List.getElem?_eq_some_iff.1 hx).1

/-- **C80, success.** Metadata can be built at any time, if its constructor raises no error of its own: `__setattr__` does not get
in the way, whatever happened before. -/
theorem C80_builds (before : List Op) (x : Nat) (hx : Step.raise ∉ script x) :
    ∃ o, (getMeta cap script x (run cap script World.init before)).1 = .ok o := by
  obtain ⟨-, hs⟩ := run_old cap script before World.init rfl
  have hs' : (run cap script World.init before).slot ≠ .absent := by rw [hs]; simp
  unfold getMeta
  cases recall x (run cap script World.init before) with
  | some r => exact ⟨_, rfl⟩
  | none =>
    simp only [delSlot, if_neg hs']
    obtain ⟨o, ho⟩ := build_ok (script x) hx { run cap script World.init before with slot := .absent } (by simp)
    rcases hb : build (script x) { run cap script World.init before with slot := .absent } with ⟨r, w'⟩
    rw [hb] at ho
    cases ho
    exact ⟨_, rfl⟩

/-- **C80, failures.** If building metadata fails, the error is raised, nothing is cached, all other objects keep their attributes,
and all metadata is read-only again. -/
theorem C80_failed (before : List Op) (x : Nat) (e : Err) (w1 : World)
    (h : getMeta cap script x (run cap script World.init before) = (.error e, w1)) :
    SameObjs (run cap script World.init before) w1 ∧ w1.cache = (run cap script World.init before).cache ∧
    ∀ o n v, setAttr o n v w1 = (.error .runtime, w1) := by
  obtain ⟨-, hs⟩ := run_old cap script before World.init rfl
  have hs' : (run cap script World.init before).slot ≠ .absent := by rw [hs]; simp
  have g1 := get_old cap script x _ hs'
  have g3 := get_cache cap script x _ hs'
  rw [h] at g1 g3
  refine ⟨g1.1, ?_, fun o n v => ?_⟩
  · rcases g3 with ⟨o', -, h2, -⟩ | ⟨-, o', h2, -⟩ | ⟨-, -, h3⟩
    · cases h2
    · cases h2
    · exact h3
  · have : w1.slot = .guard := g1.2.trans hs
    simp only [setAttr, this]

/-! ### Threads -/

theorem run_plain (ops : List Op) : ∀ w : World, w.slot = .plain → (run cap script w ops).slot = .plain := by
  induction ops with
  | nil => exact fun w h => h
  | cons op ops ih =>
    intro w h
    refine ih _ ?_
    cases op with
    | get x => exact (get_old cap script x w (by rw [h]; simp)).2.trans h
    | set o n v => simp only [step, setAttr, h, World.put]
    | del o n => exact h
    | copy o => exact h

/-- **C80, limit (threads).** If a second thread calls `get_toplevel_metadata` while a first one is building metadata, both may
return normally, but metadata can be changed from then on: the second one remembers the method of `object` and puts it into the
class. No later call repairs this. -/
theorem C80_thread_limit (s1 s2 : List Step) (h1 : ∀ w : World, w.slot = .absent → ∃ o, (build s1 w).1 = .ok o)
    (h2 : ∀ w : World, w.slot = .absent → ∃ o, (build s2 w).1 = .ok o) :
    ∃ schedule w o1 o2, threads s1 s2 World.init .read .read schedule = (w, .done (.ok o1), .done (.ok o2)) ∧
      ∀ later o n v, (setAttr o n v (run cap script w later)).1 = .ok () := by
  obtain ⟨o1, hb1⟩ := h1 ⟨.absent, [], []⟩ rfl
  rcases hb : build s1 ⟨.absent, [], []⟩ with ⟨r, wB⟩
  rw [hb] at hb1
  cases hb1
  obtain ⟨o2, hc2⟩ := h2 { wB with slot := .absent } rfl
  rcases hc : build s2 { wB with slot := .absent } with ⟨r, wE⟩
  rw [hc] at hc2
  cases hc2
  refine ⟨[false, false, true, false, false, true, true, true], restore .plain wE, o1, o2, ?_, fun later o n v => ?_⟩
  · have e1 : threadStep s1 World.init .read = (World.init, .del .guard) := rfl
    have e2 : threadStep s1 World.init (.del .guard) = (⟨.absent, [], []⟩, .build .guard) := rfl
    have e3 : threadStep s2 ⟨.absent, [], []⟩ .read = (⟨.absent, [], []⟩, .del .plain) := rfl
    have e4 : threadStep s1 ⟨.absent, [], []⟩ (.build .guard) = (wB, .restore .guard (.ok o1)) := by
      simp only [threadStep, hb]
    have e5 : threadStep s1 wB (.restore .guard (.ok o1)) = (restore .guard wB, .done (.ok o1)) := rfl
    have e6 : threadStep s2 (restore .guard wB) (.del .plain) = ({ wB with slot := .absent }, .build .plain) := rfl
    have e7 : threadStep s2 { wB with slot := .absent } (.build .plain) = (wE, .restore .plain (.ok o2)) := by
      simp only [threadStep, hc]
    have e8 : threadStep s2 wE (.restore .plain (.ok o2)) = (restore .plain wE, .done (.ok o2)) := rfl
    simp only [threads, e1, e2, e3, e4, e5, e6, e7, e8]
  · have := run_plain cap script later (restore .plain wE) rfl
    simp only [setAttr, this]

/-- **C80, limit (threads).** While a thread is building metadata, other threads can change all metadata, and a call for another
element may raise `AttributeError`. -/
theorem C80_overlap_limit (s1 s2 : List Step) :
    ∃ schedule w orig, threads s1 s2 World.init .read .read schedule = (w, .build orig, .done (.error .attribute)) ∧
      ∀ o n v, (setAttr o n v w).1 = .ok () :=
  ⟨[false, true, false, true], ⟨.absent, [], []⟩, .guard, rfl, fun _ _ _ => rfl⟩

/-! ### An example -/

/-- Element 0 has a child; building element 1 fails after some attributes. -/
def guardScript : Nat → List Step
  | 1 => [.set 0 7 1, .raise]
  | x => [.set 0 7 x, .new, .set 1 7 5, .dict 1 8 6]

def guardHistory : List Op := [.get 0, .set 0 7 9, .get 1, .get 2, .del 1 7, .get 0, .copy 0]

/-- Metadata is built, the attempts to change it are refused, and the objects of the failed call stay unused. -/
example : (run 256 guardScript World.init guardHistory).objs = [[(7, 0)], [(8, 6), (7, 5)], [(7, 1)], [(7, 2)], [(8, 6), (7, 5)]] ∧
    (run 256 guardScript World.init guardHistory).cache = [(0, 0), (2, 3)] := by decide +kernel

example := C80_read_only 256 guardScript guardHistory [.get 3, .set 1 8 0] 0 7 9
example := C80_same_object 256 guardScript guardHistory [.get 3, .set 1 8 0, .get 2] 0 0 [2, 3] (by decide)
  (by simp) (run 256 guardScript World.init guardHistory) (by with_unfolding_all rfl)
example := C80_content 256 guardScript guardHistory [.get 3, .set 1 8 0, .get 2] 0 0
  (run 256 guardScript World.init guardHistory) (by with_unfolding_all rfl)
example := C80_builds 256 guardScript guardHistory 3 (by decide)
example := C80_failed 256 guardScript [.get 0] 1 .build (run 256 guardScript World.init [.get 0, .get 1]) (by with_unfolding_all rfl)

/-- The cache drops what was not used for the longest time: with two places, the metadata of element 0 is built again. -/
example : (getMeta 2 guardScript 0 (run 2 guardScript World.init [.get 0, .get 2, .get 3])).2.objs.length = 8 := by decide +kernel

theorem guardScript_builds (w : World) (h : w.slot = .absent) (x : Nat) (hx : x ≠ 1) : ∃ o, (build (guardScript x) w).1 = .ok o := by
  have e : guardScript x = [.set 0 7 x, .new, .set 1 7 5, .dict 1 8 6] := by
    unfold guardScript
    split
    · exact absurd rfl hx
    · rfl
  refine ⟨w.objs.length, ?_⟩
  simp [e, build, construct, setAttr, World.put, h]

example := C80_thread_limit 256 guardScript (guardScript 0) (guardScript 2) (fun w h => guardScript_builds w h 0 (by decide))
  (fun w h => guardScript_builds w h 2 (by decide))

end Verif.Props
