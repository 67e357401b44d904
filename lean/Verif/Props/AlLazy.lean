import Verif.Lemmas.AlWorld
import Verif.Props.AlMap
/-
C38: lazy loading gives the same data as eager loading, for every history of accesses and other operations.
-/
namespace Verif.Al
open Verif.Ids Verif.AlSpec

section
variable {V : Type} [Value V] (B : Backend V) (db : Ctx) (held : LSt (Disk V) V → Nat → Bool)

theorem steps_any (K : Src V) (m : MFields) : ∀ (ops : List (Op V)), (∀ o ∈ ops, StaysOpen o) →
    ∀ {R : Reg} {w : World (Disk V) V}, Inv B db R w.s →
    (∀ (j : Nat) x, w.ids[j]? = some x → ∃ K m, Sound db (Src.dead K) R m x) →
    ∃ R', Inv B db R' (steps (disk B db) held w ops).s ∧
      ∀ (j : Nat) x, (steps (disk B db) held w ops).ids[j]? = some x → ∃ K m, Sound db (Src.dead K) R' m x
  | [], _, R, _, h, hall => ⟨R, h, hall⟩
  | o :: r, ho, R, w, h, hall => by
    obtain ⟨R', h1, h2, -, h4, -⟩ := step_sync B db held h hall w.ids.length K m (by simp) o (ho o (by simp))
    refine steps_any K m r (fun o' h' => ho o' (by simp [h'])) h2 ?_
    intro j x hx
    rcases h4 j x hx with ⟨y, -, h5, -⟩ | ⟨C, I, nbc, k, r, m', -, -, h5⟩
    · exact h5
    · exact ⟨_, m', sound_dead db (h5 K.S True)⟩

theorem steps_target (k0 : Nat) (K : Src V) (m : MFields) : ∀ (ops : List (Op V)),
    (∀ o ∈ ops, StaysOpen o ∧ Spares K.b.occ o) →
    ∀ {R : Reg} {w : World (Disk V) V}, Inv B db R w.s →
    (∀ (j : Nat) x, w.ids[j]? = some x → ∃ K m, Sound db (Src.dead K) R m x) →
    (∃ x, w.ids[k0]? = some x ∧ Sound db K R m x) → Current B K w.s →
    ∃ R', Inv B db R' (steps (disk B db) held w ops).s ∧
      (steps (disk B db) held w ops).s.st.ll.stores K.b.occ = w.s.st.ll.stores K.b.occ ∧
      ∃ x, (steps (disk B db) held w ops).ids[k0]? = some x ∧ Sound db K R' m x
  | [], _, R, _, h, _, hx, _ => ⟨R, h, rfl, hx⟩
  | o :: r, ho, R, w, h, hall, hx, hcur => by
    obtain ⟨x, hx1, hx2⟩ := hx
    have hk : ∀ y, w.ids[k0]? = some y → Sound db K R m y ∧ Current B K w.s := by
      intro y hy
      rw [hx1] at hy
      cases hy
      exact ⟨hx2, hcur⟩
    obtain ⟨R', h1, h2, h3, h4, h5⟩ := step_sync B db held h hall k0 K m hk o (ho o (by simp)).1
    obtain ⟨x', hx'⟩ := h5 k0 x hx1
    have hst := h3 K.b.occ (ho o (by simp)).2
    have hlt : k0 < w.ids.length := (List.getElem?_eq_some_iff.1 hx1).1
    obtain ⟨R'', g1, g2, g3⟩ := steps_target k0 K m r (fun o' h' => ho o' (by simp [h'])) h2 (by
        intro j y hy
        rcases h4 j y hy with ⟨z, -, h6, -⟩ | ⟨C, I, nbc, k, r, m', -, -, h6⟩
        · exact h6
        · exact ⟨_, m', sound_dead db (h6 K.S True)⟩)
      (by
        refine ⟨x', hx', ?_⟩
        rcases h4 k0 x' hx' with ⟨z, -, -, h6⟩ | ⟨C, I, nbc, k, r, m', -, h6, -⟩
        · exact h6 rfl
        · omega)
      (fun hl => by rw [hst]; exact hcur hl)
    exact ⟨R'', g1, g2.trans hst, g3⟩

theorem get_sync {R : Reg} {w : World (Disk V) V} (h : Inv B db R w.s) (C : Conf V) (I : Info V) (nbc : Option Nbc)
    (k : Bool) (r : Range) (m : MFields) {mode : Mode}
    (hm : C.modeOf ((w.s.st.ll.stores C.occ).data [] C.timePath) = mode) (hk : mode.known = true) :
    (step (disk B db) held w (.get C I nbc k r m)).1 =
      .fields (evalFields (B.view ((if k then Range.all else r).begin C.occ) (w.s.st.ll.stores C.occ))
        ⟨I, mode, nbc⟩ [] [] m) := by
  obtain ⟨h1, h2, h3⟩ := inv_clear B db h
  obtain ⟨s', g1, -, -⟩ := alGet_spec B db C I nbc k r m h2 (mode := mode) (by rw [h3]; exact hm) hk
  unfold step onEntry
  simp only [h.isOpen, lift, g1, Res.of]
  rw [h3]

end
end Verif.Al

namespace Verif.Props
open Verif.Ids Verif.Al Verif.AlSpec

/-- **C38.** A lazily loaded IDS shows the same as an eager get. In any data entry, after any operations `before`
(among them other lazy gets and accesses), get an IDS lazily. Then do any operations `after` that do not close
the entry and do not put the same occurrence: eager and lazy gets, accesses to this and other lazily loaded IDSs
in any order, puts of other occurrences. Then every access shows what is seen in the IDS `f` that an eager get
gives, at the time of the lazy get and still now. This holds whatever contexts Python keeps alive (`held`). -/
theorem C38_same {V : Type} [Value V] (B : Backend V) (db : Ctx) (held : LSt (Disk V) V → Nat → Bool)
    (stores : Text → Store V) (next : Ctx) (before after : List (Op V)) (C : Conf V) (I : Info V) (nbc : Option Nbc)
    (constant : Bool) (r : Range) (m : MFields) (hbefore : ∀ o ∈ before, StaysOpen o)
    (hafter : ∀ o ∈ after, StaysOpen o ∧ Spares C.occ o) (w0 w1 w2 : World (Disk V) V)
    (hw0 : w0 = steps (disk B db) held (opened ⟨stores, [], next⟩ db) before)
    (hw1 : step (disk B db) held w0 (.lazyGet C I nbc constant r m) = (.done, w1))
    (hw2 : w2 = steps (disk B db) held w1 after) :
    ∃ f, (step (disk B db) held w0 (.get C I nbc constant r m)).1 = .fields f ∧
      (step (disk B db) held w2 (.get C I nbc constant r m)).1 = .fields f ∧
      ∀ a, (step (disk B db) held w2 (.access w0.ids.length a)).1 = seen (.struct f) a := by
  -- what the IDS is read from
  obtain ⟨mode, hmode⟩ : ∃ mode, C.modeOf ((w0.s.st.ll.stores C.occ).data [] C.timePath) = mode := ⟨_, rfl⟩
  let K : Src V := ⟨⟨I, mode, nbc⟩,
    B.view ((if constant then Range.all else r).begin C.occ) (w0.s.st.ll.stores C.occ),
    (if constant then Range.all else r).begin C.occ, True⟩
  have hinit : Inv B db ⟨fun _ => (.root none, .aos [] [] 0), 0⟩ (opened (V := V) ⟨stores, [], next⟩ db).s := by
    refine ⟨trivial, trivial, trivial, ?_, ?_, rfl, rfl⟩
    · intro x hx; simp [opened] at hx
    · intro id o h; simp [opened] at h
  obtain ⟨R0, i0, a0⟩ := steps_any B db held K m before hbefore hinit (by simp [opened])
  rw [← hw0] at i0 a0
  have hkocc : K.b.occ = C.occ := begin_occ _ _
  -- the lazy get
  obtain ⟨R1, -, i1, s1, n1, l1⟩ := step_sync B db held i0 a0 w0.ids.length K m (by simp)
    (.lazyGet C I nbc constant r m) trivial
  have hknown : mode.known = true := by
    rcases e : onEntry (disk B db) (lazyStart B db C) w0.s with ⟨x | mode', s'⟩
    · unfold step at hw1; unfold lazyStart at e
      simp only [e, Prod.mk.injEq] at hw1
      exact absurd hw1.1 (by simp)
    · obtain ⟨h1, h2⟩ := lazyStart_ok B db i0 e
      rw [h1, hmode] at h2
      exact h2
  have hnew : ∃ x, w1.ids[w0.ids.length]? = some x := by
    rcases e : onEntry (disk B db) (lazyStart B db C) w0.s with ⟨x | mode', s'⟩
    · unfold step at hw1; unfold lazyStart at e
      simp only [e, Prod.mk.injEq] at hw1
      exact absurd hw1.1 (by simp)
    · unfold step at hw1; unfold lazyStart at e
      simp only [e, Prod.mk.injEq] at hw1
      rw [← hw1.2]
      exact ⟨lazyIds C I nbc constant r m mode' s', by simp⟩
  rw [hw1] at i1 s1 n1
  simp only at i1 s1 n1
  have hst1 := s1 C.occ trivial
  obtain ⟨x, hx⟩ := hnew
  have hsound : Sound db K R1 m x := by
    rcases n1 _ x hx with ⟨y, hy, -⟩ | ⟨C', I', nbc', k', r', m', e, -, h⟩
    · simp at hy
    · cases e
      have := h K.S True
      rw [hmode] at this
      exact this
  have hall1 : ∀ (j : Nat) x, w1.ids[j]? = some x → ∃ K m, Sound db (Src.dead K) R1 m x := by
    intro j y hy
    rcases n1 j y hy with ⟨z, -, h6, -⟩ | ⟨C', I', nbc', k', r', m', -, -, h6⟩
    · exact h6
    · exact ⟨_, m', sound_dead db (h6 K.S True)⟩
  have hcur1 : Current B K w1.s := by
    intro _
    rw [hkocc, hst1]
  obtain ⟨R2, i2, k2, y, hy, hs2⟩ := steps_target B db held w0.ids.length K m after (by rw [hkocc]; exact hafter) i1
    hall1 ⟨x, hx, hsound⟩ hcur1
  rw [← hw2] at i2 k2 hy
  have hcur2 : Current B K w2.s := by
    intro hl
    rw [k2]
    exact hcur1 hl
  have hst2 : w2.s.st.ll.stores C.occ = w0.s.st.ll.stores C.occ := by
    rw [← hkocc, k2, hkocc, hst1]
  refine ⟨evalFields K.S K.E [] [] m, get_sync B db held i0 C I nbc constant r m hmode hknown, ?_, fun a => ?_⟩
  · have := get_sync B db held i2 C I nbc constant r m (mode := mode) (by rw [hst2]; exact hmode) hknown
    rw [hst2] at this
    exact this
  · obtain ⟨R3, res, y', s', e1, -, -, -, -, e6⟩ := sound_access B db held hs2 i2 hcur2 a
    have : (step (disk B db) held w2 (.access w0.ids.length a)).1 = resOf res := by
      unfold step
      simp only [hy, e1]
      cases res <;> rfl
    rw [this]
    exact e6 trivial

/-! ### Tests of results -/

def isDone : Res Nat → Bool
  | .done => true
  | _ => false

def isValue (v : Option Nat) : Res Nat → Bool
  | .obs (.value w) => w == v
  | _ => false

def isSize (n : Nat) : Res Nat → Bool
  | .obs (.size k) => k == n
  | _ => false

def isClosed : Res Nat → Bool
  | .error (.backend .runtime) => true
  | _ => false

def shows (a : Addr) (v : Option Nat) : Res Nat → Bool
  | .fields f => isValue v (seen (.struct f) a)
  | _ => false

theorem eq_done {r : Res Nat} (h : isDone r = true) : r = .done := by
  unfold isDone at h; split at h <;> simp_all

theorem eq_value {v : Option Nat} {r : Res Nat} (h : isValue v r = true) : r = .obs (.value v) := by
  unfold isValue at h; split at h <;> simp_all

theorem eq_size {n : Nat} {r : Res Nat} (h : isSize n r = true) : r = .obs (.size n) := by
  unfold isSize at h; split at h <;> simp_all

theorem eq_closed {r : Res Nat} (h : isClosed r = true) : r = .error (.backend .runtime) := by
  unfold isClosed at h; split at h <;> simp_all

theorem eq_shows {a : Addr} {v : Option Nat} {r : Res Nat} (h : shows a v r = true) :
    ∃ f, r = .fields f ∧ seen (.struct f) a = .obs (.value v) := by
  unfold shows at h; split at h
  · exact ⟨_, rfl, eq_value h⟩
  · simp at h

/-! ### An example: an IDS is put and read lazily twice, in turns -/

def lazyBefore : List (Op Nat) :=
  [.put pathConf (pathInfo olderMeta) (pathInfo olderMeta) none .homogeneous olderMeta false olderIds,
   .lazyGet pathConf (pathInfo olderMeta) none false .all olderMeta,
   .access 0 [(['a'], some 1), (['x'], none)]]

def lazyAfter : List (Op Nat) :=
  [.access 1 [(['a'], some 1), (['x'], none)], .access 0 [(['a'], some 0)],
   .put { pathConf with occ := ['d'] } (pathInfo olderMeta) (pathInfo olderMeta) none .homogeneous olderMeta false olderIds,
   .get pathConf (pathInfo olderMeta) none false .all olderMeta, .access 1 [(['c'], none)]]

def lazyFirst : World (Disk Nat) Nat :=
  steps (disk plainBackend 0) (fun _ _ => false) (opened ⟨fun _ => emptyStore, [], 1⟩ 0) lazyBefore

def lazySecond : World (Disk Nat) Nat :=
  (step (disk plainBackend 0) (fun _ _ => false) lazyFirst (.lazyGet pathConf (pathInfo olderMeta) none false .all olderMeta)).2

example :=
  C38_same plainBackend 0 (fun _ _ => false) (fun _ => emptyStore) 1 lazyBefore lazyAfter pathConf (pathInfo olderMeta) none
    false .all olderMeta (by simp [lazyBefore, StaysOpen]) (by simp [lazyAfter, StaysOpen, Spares, pathConf, alConf])
    lazyFirst lazySecond _ rfl (Prod.ext (eq_done (by decide +kernel)) rfl) rfl

example : (step (disk plainBackend 0) (fun _ _ => false) (steps (disk plainBackend 0) (fun _ _ => false) lazySecond lazyAfter)
    (.access 1 [(['a'], some 0), (['x'], none)])).1 = .obs (.value (some 4)) :=
  eq_value (by decide +kernel)

/-! ### Limits -/

/-- **C38, limit.** The entry has to stay open. After closing it, the first access to a node raises, and the same
access again gives an unset node, although the node has a value (5): the node was made before reading it failed. -/
theorem C38_closed_limit :
    (step (disk plainBackend 0) (fun _ _ => false) lazySecond (.access 1 [(['c'], none)])).1 = .obs (.value (some 5)) ∧
    (step (disk plainBackend 0) (fun _ _ => false)
      (steps (disk plainBackend 0) (fun _ _ => false) lazySecond [.close true])
      (.access 1 [(['c'], none)])).1 = .error (.backend .runtime) ∧
    (step (disk plainBackend 0) (fun _ _ => false)
      (steps (disk plainBackend 0) (fun _ _ => false) lazySecond [.close true, .access 1 [(['c'], none)]])
      (.access 1 [(['c'], none)])).1 = .obs (.value none) := by
  exact ⟨eq_value (by decide +kernel), eq_closed (by decide +kernel), eq_value (by decide +kernel)⟩

/-- **C38, limit.** The occurrence must not be put again: nodes read before keep their values, nodes read later get
the new ones. -/
theorem C38_put_limit :
    ∃ w, w = steps (disk plainBackend 0) (fun _ _ => false) lazySecond
        [.access 1 [(['c'], none)],
         .put pathConf (pathInfo olderMeta) (pathInfo olderMeta) none .homogeneous olderMeta false
          (.present ['h'] (.leaf alLeaf (some 1)) (.absent ['a'] (.aos (.cons ['x'] (.leaf alLeaf) .nil))
            (.present ['c'] (.leaf alLeaf (some 6)) .nil)))] ∧
      (∃ f, (step (disk plainBackend 0) (fun _ _ => false) w
          (.get pathConf (pathInfo olderMeta) none false .all olderMeta)).1 = .fields f ∧
        seen (.struct f) [(['c'], none)] = .obs (.value (some 6))) ∧
      (step (disk plainBackend 0) (fun _ _ => false) w (.access 1 [(['c'], none)])).1 = .obs (.value (some 5)) ∧
      (step (disk plainBackend 0) (fun _ _ => false) w (.access 1 [(['a'], none)])).1 = .obs (.size 0) :=
  ⟨_, rfl, eq_shows (by decide +kernel), eq_value (by decide +kernel), eq_size (by decide +kernel)⟩

end Verif.Props
