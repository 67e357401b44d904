import Verif.Lemmas.AlAccess
/-
Histories of operations on a data entry with lazily loaded IDSs.
-/
namespace Verif.Al
open Verif.Ids Verif.AlSpec Verif.ConvertSpec

set_option linter.unusedSectionVars false
variable {V : Type} [Value V] (B : Backend V) (db : Ctx) (held : LSt (Disk V) V → Nat → Bool)

/-- The lazy context of a whole IDS. -/
def topLazy (id : Nat) (b : Begin) : Lazy := .action id (some db) (.root (some db)) b

/-- A lazily loaded IDS agrees with the data it is read from. -/
def Sound (K : Src V) (R : Reg) (m : MFields) (x : LIds V) : Prop :=
  x.env = K.E ∧ ∃ id, Good db R (topLazy db id K.b) ∧ AgreeX db K R [] (some (topLazy db id K.b)) (.struct m) x.node

theorem sound_ext {K : Src V} {R R' : Reg} (h : Ext R R') {m : MFields} {x : LIds V} (hx : Sound db K R m x) :
    Sound db K R' m x := by
  obtain ⟨h1, id, h2, h3⟩ := hx
  exact ⟨h1, id, good_ext db h h2, agreeX_ext db K h _ h3⟩

theorem sound_dead {K : Src V} {R : Reg} {m : MFields} {x : LIds V} (hx : Sound db K R m x) :
    Sound db K.dead R m x := by
  obtain ⟨h1, id, h2, h3⟩ := hx
  exact ⟨h1, id, h2, agreeX_dead db K _ h3⟩

theorem cok_top {K : Src V} {R : Reg} {id : Nat} (h : Good db R (topLazy db id K.b)) :
    COk db K R (some (topLazy db id K.b)) := by
  intro z hz
  cases hz
  refine ⟨h, ?_, ?_⟩
  · exact h.2.2.2.2.1
  · have := h.2.2.2.2.1
    simp only [topLazy, chain]
    cases hb : K.b <;> simp_all [slotAct, Begin.isAos]

theorem zpos_top {K : Src V} {R : Reg} {id : Nat} (h : Good db R (topLazy db id K.b)) : zpos (topLazy db id K.b) = [] := by
  have := h.2.2.2.2.1
  simp only [topLazy, chain, zpos]
  cases hb : K.b <;> simp_all [slotPos, Begin.isAos]

/-- An access to a lazily loaded IDS. -/
theorem sound_access {K : Src V} {R : Reg} {m : MFields} {x : LIds V} (hx : Sound db K R m x)
    {s : LSt (Disk V) V} (h : Inv B db R s) (hcur : Current B K s) (a : Addr) :
    ∃ R' r y s', access (disk B db) held x.env [] x.node a s = (r, y, s') ∧ Ext R R' ∧ Inv B db R' s' ∧
      s'.st.ll.stores = s.st.ll.stores ∧ Sound db K R' m { x with node := y } ∧
      (K.live → resOf r = seen (.struct (evalFields K.S K.E [] [] m)) a) := by
  obtain ⟨h1, id, h2, h3⟩ := hx
  obtain ⟨R', r, y, s', e1, e2, e3, e4, e5, e6⟩ := access_sync B db held K a h hcur (cok_top db h2) h3
  refine ⟨R', r, y, s', by rw [h1]; exact e1, e2, e3, e4, ⟨h1, id, good_ext db e2 h2, e5⟩, fun hl => ?_⟩
  rw [e6 hl, evX_struct, evF, zpos_top db h2]

/-! ### Operations on the entry -/

theorem onEntry_sync {α : Type} {W : Text → Prop} {p : Ctx → M (Disk V) V α} (hp : ∀ c, Tame W (p c)) {R : Reg}
    {s : LSt (Disk V) V} (h : Inv B db R s) :
    Inv B db R (onEntry (disk B db) p s).2 ∧ (onEntry (disk B db) p s).2.st.ll.stack = [] ∧
      ∀ o, ¬ W o → (onEntry (disk B db) p s).2.st.ll.stores o = s.st.ll.stores o := by
  unfold onEntry
  simp only [h.isOpen]
  obtain ⟨h1, h2, h3⟩ := inv_clear B db h
  unfold lift
  obtain ⟨t1, t2⟩ := hp db (clearCache (disk B db) s).st (by rw [h2]; intro a ha; cases ha)
  rw [h2] at t1
  have t3 := moved_nil t1
  have hc : (clearCache (disk B db) s).cache = [] := rfl
  refine ⟨⟨?_, ?_, ?_, h1.objs, h1.weaks, h1.next, h1.isOpen⟩, t3, fun o ho => by rw [← h3]; exact t2 o ho⟩
  · simp only [t3, hc]; trivial
  · simp only [t3]; trivial
  · simp only [t3, hc]; trivial

/-- The program of a lazy get. -/
def lazyStart (C : Conf V) (c : Ctx) : M (Disk V) V Mode :=
  (readMode (disk B db) C c C.uda).andThen fun mode => if !mode.known then .throw .assertion else .ret mode

theorem tame_lazyStart (W : Text → Prop) (C : Conf V) (c : Ctx) : Tame W (lazyStart B db C c) := by
  refine tame_andThen (tame_readMode B db W C c _) fun mode => ?_
  split
  · exact tame_throw _ _
  · exact tame_ret _ _

theorem lazyStart_ok {C : Conf V} {s s' : LSt (Disk V) V} {R : Reg} (h : Inv B db R s) {mode : Mode}
    (e : onEntry (disk B db) (lazyStart B db C) s = (.ok mode, s')) :
    mode = C.modeOf ((s.st.ll.stores C.occ).data [] C.timePath) ∧ mode.known = true := by
  unfold onEntry at e
  simp only [h.isOpen] at e
  obtain ⟨h1, h2, h3⟩ := inv_clear B db h
  unfold lift lazyStart at e
  obtain ⟨s1, g1, -, -⟩ := readMode_spec B db C C.uda h2
  rw [andThen_ok g1, h3] at e
  simp only [Prod.mk.injEq] at e
  by_cases hk : (C.modeOf ((s.st.ll.stores C.occ).data [] C.timePath)).known = true
  · rw [if_neg (by simp [hk])] at e
    have := e.1
    simp only [M.ret, Except.ok.injEq] at this
    subst this
    exact ⟨rfl, hk⟩
  · rw [if_pos (by simpa using hk)] at e
    have := e.1
    simp [M.throw] at this

/-- How an operation changes the lazily loaded IDSs: the ones there were still agree with what they are read
from; a lazy get makes a new one. For the IDS `k0` also the values agree, if its data did not change. -/
theorem step_sync {R : Reg} {w : World (Disk V) V} (h : Inv B db R w.s)
    (hall : ∀ (j : Nat) x, w.ids[j]? = some x → ∃ K m, Sound db (Src.dead K) R m x) (k0 : Nat) (K0 : Src V) (m0 : MFields)
    (hk0 : ∀ x, w.ids[k0]? = some x → Sound db K0 R m0 x ∧ Current B K0 w.s) (op : Op V) (ho : StaysOpen op) :
    ∃ R', Ext R R' ∧ Inv B db R' (step (disk B db) held w op).2.s ∧
      (∀ o, Spares o op → (step (disk B db) held w op).2.s.st.ll.stores o = w.s.st.ll.stores o) ∧
      (∀ (j : Nat) x', (step (disk B db) held w op).2.ids[j]? = some x' →
        (∃ x, w.ids[j]? = some x ∧ (∃ K m, Sound db (Src.dead K) R' m x') ∧ (j = k0 → Sound db K0 R' m0 x')) ∨
        ∃ C I nbc k r m, op = .lazyGet C I nbc k r m ∧ j = w.ids.length ∧
          ∀ S live, Sound db ⟨⟨I, C.modeOf ((w.s.st.ll.stores C.occ).data [] C.timePath), nbc⟩, S,
            (if k then Range.all else r).begin C.occ, live⟩ R' m x') ∧
      (∀ (j : Nat) x, w.ids[j]? = some x → ∃ x', (step (disk B db) held w op).2.ids[j]? = some x') := by
  have kept : ∀ R', Ext R R' → ∀ (j : Nat) x, w.ids[j]? = some x →
      (∃ y, w.ids[j]? = some y ∧ (∃ K m, Sound db (Src.dead K) R' m x) ∧ (j = k0 → Sound db K0 R' m0 x)) := by
    intro R' hE j x hx
    obtain ⟨K, m, hs⟩ := hall j x hx
    refine ⟨x, hx, ⟨K, m, sound_ext db hE hs⟩, ?_⟩
    rintro rfl
    exact sound_ext db hE (hk0 x hx).1
  cases op with
  | get C I nbc k r m =>
    obtain ⟨h1, -, h3⟩ := onEntry_sync B db (W := fun _ => False)
      (p := fun c => alGet (disk B db) C I nbc c k r m) (fun c => tame_alGet B db _ C I nbc c k r m) h
    exact ⟨R, ext_refl R, h1, fun o _ => h3 o id, fun j x' hx => .inl (kept R (ext_refl R) j x' hx),
      fun j x hx => ⟨x, hx⟩⟩
  | version C =>
    obtain ⟨h1, -, h3⟩ := onEntry_sync B db (W := fun _ => False)
      (p := fun c => alReadVersion (disk B db) C c) (fun c => tame_alReadVersion B db _ C c) h
    exact ⟨R, ext_refl R, h1, fun o _ => h3 o id, fun j x' hx => .inl (kept R (ext_refl R) j x' hx),
      fun j x hx => ⟨x, hx⟩⟩
  | put C I ei nbc mode m slice f =>
    obtain ⟨h1, -, h3⟩ := onEntry_sync B db (p := fun c => alPut (disk B db) C I ei nbc c mode m slice f)
      (fun c => tame_alPut B db C I ei nbc c mode m slice f) h
    exact ⟨R, ext_refl R, h1, fun o hs => h3 o (fun e => hs e.symm),
      fun j x' hx => .inl (kept R (ext_refl R) j x' hx), fun j x hx => ⟨x, hx⟩⟩
  | delete C =>
    -- nothing is deleted
    have hp : ∀ c, Tame (fun _ => False) (alDelete (disk B db) C c) := by
      intro c s hw
      have h2 := tame_alDelete B db C c s
      unfold alDelete
      unfold withAction
      rcases hb : llBegin (disk B db) c (.global C.occ true false) s with ⟨_ | ⟨c', n⟩, s'⟩
      · have := tame_with B db (· = C.occ) c (.global C.occ true false) (by intro _; rfl)
          (body := fun _ _ => M.throw (α := Unit) .type) (fun _ _ => tame_throw _ _) s
        unfold llBegin at hb
        rcases e : (disk B db).begin s.ll c (.global C.occ true false) with ⟨r, ll⟩
        rw [e] at hb
        simp only [disk, diskBegin] at e
        split at e
        · split at e
          · cases e; cases hb
          · cases e; cases hb; exact ⟨moved_refl _, fun _ _ => rfl⟩
        · cases e; cases hb; exact ⟨moved_refl _, fun _ _ => rfl⟩
      · unfold llBegin at hb
        rcases e : (disk B db).begin s.ll c (.global C.occ true false) with ⟨r, ll⟩
        rw [e] at hb
        simp only [disk, diskBegin] at e
        split at e
        · rename_i hst
          split at e
          · cases e; cases hb
            simp only [M.throw]
            obtain ⟨f1, f2⟩ := finish_spec B db (s := ⟨{ s.ll with stack := [(s.ll.next, .act (.global C.occ true false))], next := s.ll.next + 1 },
              s.log ++ [.begin c (.global C.occ true false) (some s.ll.next)]⟩) (c := s.ll.next)
              (f := .act (.global C.occ true false)) (r := []) rfl
            exact ⟨.inl (f2.trans hst.symm), fun o _ => congrFun f1 o⟩
          · cases e; cases hb
        · cases e; cases hb
    obtain ⟨h1, -, h3⟩ := onEntry_sync B db (p := fun c => alDelete (disk B db) C c) hp h
    exact ⟨R, ext_refl R, h1, fun o _ => h3 o id, fun j x' hx => .inl (kept R (ext_refl R) j x' hx),
      fun j x hx => ⟨x, hx⟩⟩
  | close ok =>
    simp only [StaysOpen] at ho
    subst ho
    obtain ⟨h1, h2, h3⟩ := inv_clear B db h
    have e : step (disk B db) held w (.close false) =
        (.error (.backend .lowlevel), { w with s := clearCache (disk B db) w.s }) := by
      unfold step; simp [h.isOpen]
    rw [e]
    exact ⟨R, ext_refl R, h1, fun o _ => congrFun h3 o, fun j x' hx => .inl (kept R (ext_refl R) j x' hx),
      fun j x hx => ⟨x, hx⟩⟩
  | lazyGet C I nbc k r m =>
    obtain ⟨h1, -, h3⟩ := onEntry_sync B db (W := fun _ => False) (p := lazyStart B db C)
      (fun c => tame_lazyStart B db _ C c) h
    rcases e : onEntry (disk B db) (lazyStart B db C) w.s with ⟨_ | mode, s'⟩
    · have es : step (disk B db) held w (.lazyGet C I nbc k r m) = (.error (.backend ‹_›), { w with s := s' }) := by
        unfold step; unfold lazyStart at e; simp only [e]
      rw [e] at h1 h3
      rw [es]
      exact ⟨R, ext_refl R, h1, fun o _ => h3 o id, fun j x' hx => .inl (kept R (ext_refl R) j x' hx),
        fun j x hx => ⟨x, hx⟩⟩
    · have es : step (disk B db) held w (.lazyGet C I nbc k r m) = (.done,
          { s := { s' with nextLazy := s'.nextLazy + 1 }
            ids := w.ids ++ [lazyIds C I nbc k r m mode s'] }) := by
        unfold step; unfold lazyStart at e; simp only [e]
      obtain ⟨hm, -⟩ := lazyStart_ok B db h e
      rw [e] at h1 h3
      have hnx : s'.nextLazy = R.next := h1.next
      have hop : s'.db = some db := h1.isOpen
      rw [es]
      have hE := ext_add R (.root (some db)) ((if k then Range.all else r).begin C.occ)
      refine ⟨_, hE, inv_add B db h1 (.root (some db)) ((if k then Range.all else r).begin C.occ),
        fun o _ => h3 o id, ?_, ?_⟩
      · intro j x' hx
        simp only at hx
        by_cases hj : j < w.ids.length
        · rw [List.getElem?_append_left hj] at hx
          exact .inl (kept _ hE j x' hx)
        · rw [List.getElem?_append_right (by omega)] at hx
          have hj0 : j - w.ids.length = 0 := by
            rcases hn : j - w.ids.length with _ | n
            · rfl
            · rw [hn] at hx; simp at hx
          rw [hj0] at hx
          simp only [List.getElem?_cons_zero, Option.some.injEq] at hx
          subst hx
          refine .inr ⟨C, I, nbc, k, r, m, rfl, by omega, fun S live => ⟨by simp [lazyIds, hm], s'.nextLazy, ?_, ?_⟩⟩
          · have hb : ((if k then Range.all else r).begin C.occ).isAos = false ∧
                ((if k then Range.all else r).begin C.occ).writes = false := by
              cases k <;> cases r <;> exact ⟨rfl, rfl⟩
            exact ⟨rfl, by simp [Reg.add, hnx], by simp [Reg.add, hnx], rfl, hb⟩
          · simp only [lazyIds, topLazy, hop]
            exact ⟨rfl, agreeF_fresh db _ _ _ _⟩
      · intro j x hx
        exact ⟨x, by
          simp only
          rw [List.getElem?_append_left]
          · exact hx
          · exact (List.getElem?_eq_some_iff.1 hx).1⟩
  | access k a =>
    rcases hk : w.ids[k]? with _ | x
    · have es : step (disk B db) held w (.access k a) = (.error .lookup, w) := by
        unfold step; simp only [hk]
      rw [es]
      exact ⟨R, ext_refl R, h, fun o _ => rfl, fun j x' hx => .inl (kept R (ext_refl R) j x' hx),
        fun j x hx => ⟨x, hx⟩⟩
    · -- the access, with the values if they are to agree
      have hsel : ∃ K m, Sound db K R m x ∧ Current B K w.s ∧ (k = k0 → K = K0 ∧ m = m0) := by
        by_cases hkk : k = k0
        · subst hkk
          exact ⟨K0, m0, (hk0 x hk).1, (hk0 x hk).2, fun _ => ⟨rfl, rfl⟩⟩
        · obtain ⟨K, m, hs⟩ := hall k x hk
          exact ⟨_, m, hs, fun hl => hl.elim, fun e => absurd e hkk⟩
      obtain ⟨K, m, hs, hcur, hsame⟩ := hsel
      obtain ⟨R', r, y, s', e1, e2, e3, e4, e5, -⟩ := sound_access B db held hs h hcur a
      have es : (step (disk B db) held w (.access k a)).2 =
          { s := s', ids := w.ids.set k { x with node := y } } := by
        unfold step
        simp only [hk]
        rw [e1]
        cases r <;> rfl
      rw [es]
      refine ⟨R', e2, e3, fun o _ => congrFun e4 o, ?_, ?_⟩
      · intro j x' hx
        simp only at hx
        by_cases hj : k = j
        · subst hj
          rw [List.getElem?_set_self (List.getElem?_eq_some_iff.1 hk).1] at hx
          cases hx
          refine .inl ⟨x, hk, ⟨K, m, sound_dead db e5⟩, fun e => ?_⟩
          obtain ⟨rfl, rfl⟩ := hsame e
          exact e5
        · rw [List.getElem?_set_ne hj] at hx
          exact .inl (kept R' e2 j x' hx)
      · intro j x' hx
        by_cases hj : k = j
        · subst hj
          exact ⟨_, List.getElem?_set_self (List.getElem?_eq_some_iff.1 hk).1⟩
        · exact ⟨x', by simp only; rw [List.getElem?_set_ne hj]; exact hx⟩

end Verif.Al
