import Verif.Lemmas.PathParse
import Verif.Model.PathCache
/-! Invariant of the `IDSPath` construction cache. -/
namespace Verif.Path
open Verif.PathSpec

theorem parsePath_stable {n m : Nat} {t : List Char} (hn : t.length < n) (hm : t.length < m) :
    parsePath n t = parsePath m t := by
  cases h : parsePath n t with
  | ok r => exact (parsePath_complete m hm (parsePath_sound n h)).symm
  | error e =>
    cases h' : parsePath m t with
    | ok r => rw [parsePath_complete n hn (parsePath_sound m h')] at h; simp at h
    | error e' => rw [parsePath_error n hn h, parsePath_error m hm h']

theorem parsePath_any {n m : Nat} {t : List Char} {r : Parsed} (h : parsePath n t = .ok r)
    (hm : t.length < m) : parsePath m t = .ok r :=
  parsePath_complete m hm (parsePath_sound n h)

structure Inv (w : World) : Prop where
  bound : ∀ t i, w.cache t = some i → i < w.next
  inj : ∀ t u i, w.cache t = some i → w.cache u = some i → t = u
  ok : ∀ t i r, w.cache t = some i → w.heap i = some r → parsePath (t.length + 1) t = .ok r
  owned : ∀ i r, w.heap i = some r → i < w.next

structure Le (w w' : World) : Prop where
  next : w.next ≤ w'.next
  cache : ∀ t i, w.cache t = some i → w'.cache t = some i
  heap : ∀ i r, w.heap i = some r → w'.heap i = some r

theorem Le.refl (w : World) : Le w w := ⟨Nat.le_refl _, fun _ _ h => h, fun _ _ h => h⟩
theorem Le.trans {a b c : World} (h : Le a b) (h' : Le b c) : Le a c :=
  ⟨Nat.le_trans h.next h'.next, fun _ _ x => h'.cache _ _ (h.cache _ _ x),
    fun _ _ x => h'.heap _ _ (h.heap _ _ x)⟩

theorem inv_empty : Inv World.empty := by
  constructor <;> simp [World.empty]

theorem new_spec {w : World} (h : Inv w) (t : List Char) :
    Inv (w.new t).1 ∧ Le w (w.new t).1 ∧ (w.new t).1.cache t = some (w.new t).2 := by
  unfold World.new
  cases hc : w.cache t with
  | some i => exact ⟨h, Le.refl w, hc⟩
  | none =>
    refine ⟨⟨?_, ?_, ?_, ?_⟩, ⟨by simp, ?_, fun _ _ h => h⟩, by simp⟩
    · intro u i hu
      simp only at hu ⊢
      split at hu
      · simp at hu; omega
      · have := h.bound u i hu; omega
    · intro u v i hu hv
      simp only at hu hv
      split at hu <;> split at hv
      · simp_all
      · simp at hu; have := h.bound v i hv; omega
      · simp at hv; have := h.bound u i hu; omega
      · exact h.inj u v i hu hv
    · intro u i r hu hr
      simp only at hu hr
      split at hu
      · simp at hu; have := h.owned i r hr; omega
      · exact h.ok u i r hu hr
    · intro i r hr; have := h.owned i r hr; simp only; omega
    · intro u i hu
      simp only
      split
      · next e => rw [e, hc] at hu; simp at hu
      · exact hu

/-- What a stateful computation has to satisfy, relative to a pure one. -/
structure Agrees {α : Type} (stack len : Nat) (w : World) (out : World × Except PathErr α)
    (pure : Except PathErr α) : Prop where
  inv : Inv out.1
  le : Le w out.1
  ok : ∀ r, out.2 = .ok r → pure = .ok r
  err : out.2 = .error .value → pure = .error .value
  stack : out.2 = .error .recursion → stack ≤ len

section
variable {nestedW : World → List Char → World × Except PathErr Parsed} {n N : Nat}
  (H : ∀ w t, t.length < N → Inv w → Agrees n t.length w (nestedW w t) (parsePath N t))
include H

theorem parseIndexW_agrees (f : Bool) {w : World} {t : List Char} (ht : t.length < N)
    (hw : Inv w) :
    Agrees n t.length w (parseIndexW nestedW f w t) (parseIndex (parsePath N) f t) := by
  unfold parseIndexW parseIndex
  split
  · exact ⟨hw, .refl w, by simp, by simp, by simp⟩
  · split
    · exact ⟨hw, .refl w, by simp, by simp, by simp⟩
    · split
      · split
        · next heq => simp only [heq]; exact ⟨hw, .refl w, by simp, by simp, by simp⟩
        · exact ⟨hw, .refl w, by simp, by simp, by simp⟩
      · have h := H w t ht hw
        cases ho : nestedW w t with
        | mk w' res =>
          rw [ho] at h
          cases res with
          | error e =>
            refine ⟨h.inv, h.le, by simp, ?_, ?_⟩
            · intro he; simp at he; subst he; rw [h.err rfl]
            · intro he; simp at he; subst he; exact h.stack rfl
          | ok r =>
            refine ⟨h.inv, h.le, ?_, by simp, by simp⟩
            intro r' hr'; simp at hr'; rw [h.ok r rfl, ← hr']

theorem parsePiecesW_agrees (f : Bool) {w : World} {pieces : List (List Char)} {o c : Char}
    (ht : (glue o c pieces).length ≤ N) (hw : Inv w) :
    Agrees (n + 1) (glue o c pieces).length w (parsePiecesW nestedW f w pieces)
      (parsePieces (parsePath N) f pieces) := by
  fun_induction parsePieces (parsePath N) f pieces generalizing w with
  | case1 => simp only [parsePiecesW]; exact ⟨hw, .refl w, by simp, by simp, by simp⟩
  | case2 last hl => simp only [parsePiecesW, hl]; exact ⟨hw, .refl w, by simp, by simp, by simp⟩
  | case3 =>
    rename_i last hl names
    simp only [parsePiecesW, hl]; exact ⟨hw, .refl w, by simp [names], by simp, by simp⟩
  | case4 part index rest hp =>
    simp only [parsePiecesW, hp]; exact ⟨hw, .refl w, by simp, by simp, by simp⟩
  | case5 =>
    rename_i part index rest hp e hI
    have hl : index.length < N := by simp [glue] at ht; omega
    have h := parseIndexW_agrees H f hl hw
    simp only [parsePiecesW, hp]
    cases ho : parseIndexW nestedW f w index with
    | mk w' res =>
      rw [ho] at h
      cases res with
      | ok r => have := h.ok r rfl; rw [hI] at this; simp at this
      | error e' =>
        refine ⟨h.inv, h.le, by simp, ?_, ?_⟩
        · intro he; simp at he; subst he; have := h.err rfl; rw [hI] at this; simpa using this
        · intro he; simp at he; subst he; have := h.stack rfl; simp [glue]; omega
  | case6 =>
    rename_i part index rest hp idx hI e hR ih
    have hl : index.length < N := by simp [glue] at ht; omega
    have h := parseIndexW_agrees H f hl hw
    simp only [parsePiecesW, hp]
    cases ho : parseIndexW nestedW f w index with
    | mk w' res =>
      rw [ho] at h
      cases res with
      | ok r =>
        have h2 := ih (w := w') (by simp [glue] at ht; omega) h.inv
        simp only []
        cases ho2 : parsePiecesW nestedW f w' rest with
        | mk w'' res2 =>
          rw [ho2, hR] at h2
          cases res2 with
          | ok r => have := h2.ok r rfl; simp at this
          | error e' =>
            refine ⟨h2.inv, h.le.trans h2.le, by simp, ?_, ?_⟩
            · intro he; simp at he; subst he; exact h2.err rfl
            · intro he; simp at he; subst he; have := h2.stack rfl; simp [glue]; omega
      | error e' =>
        refine ⟨h.inv, h.le, by simp, ?_, ?_⟩
        · intro he; simp at he; subst he; have := h.err rfl; rw [hI] at this; simp at this
        · intro he; simp at he; subst he; have := h.stack rfl; simp [glue]; omega
  | case7 =>
    rename_i part index rest hp names idx hI r' hR ih
    have hl : index.length < N := by simp [glue] at ht; omega
    have h := parseIndexW_agrees H f hl hw
    simp only [parsePiecesW, hp]
    cases ho : parseIndexW nestedW f w index with
    | mk w' res =>
      rw [ho] at h
      cases res with
      | ok r =>
        have h2 := ih (w := w') (by simp [glue] at ht; omega) h.inv
        simp only []
        have h3 := h.ok r rfl
        rw [hI] at h3; simp at h3; subst h3
        cases ho2 : parsePiecesW nestedW f w' rest with
        | mk w'' res2 =>
          rw [ho2, hR] at h2
          cases res2 with
          | ok r =>
            have h4 := h2.ok r rfl
            simp at h4; subst h4
            exact ⟨h2.inv, h.le.trans h2.le, by simp [names], by simp, by simp⟩
          | error e' =>
            refine ⟨h2.inv, h.le.trans h2.le, by simp, ?_, ?_⟩
            · intro he; simp at he; subst he; have := h2.err rfl; simp at this
            · intro he; simp at he; subst he; have := h2.stack rfl; simp [glue]; omega
      | error e' =>
        refine ⟨h.inv, h.le, by simp, ?_, ?_⟩
        · intro he; simp at he; subst he; have := h.err rfl; rw [hI] at this; simp at this
        · intro he; simp at he; subst he; have := h.stack rfl; simp [glue]; omega

theorem parsePathW_agrees {w : World} {t : List Char} (ht : t.length ≤ N) (hw : Inv w) :
    Agrees (n + 1) t.length w (parsePathW nestedW w t) (parsePath (N + 1) t) := by
  simp only [parsePathW, parsePath]
  split
  · exact ⟨hw, .refl w, by simp, by simp, by simp⟩
  · cases hsp : splitOnMatchingParens t (openChar (t.contains '(')) (closeChar (t.contains '(')) with
    | error e =>
      have := splitLoop_error hsp
      subst this
      exact ⟨hw, .refl w, by simp, by simp, by simp⟩
    | ok pieces =>
      obtain ⟨hg, _⟩ := splitLoop_glue (open_ne_close _) hsp
      rw [List.drop_zero] at hg
      have h := parsePiecesW_agrees H (t.contains '(') (pieces := pieces)
        (o := openChar (t.contains '(')) (c := closeChar (t.contains '(')) (by rw [hg]; exact ht) hw
      rw [hg] at h
      simp only []
      cases ho : parsePiecesW nestedW (t.contains '(') w pieces with
      | mk w' res =>
        rw [ho] at h
        cases res with
        | error e =>
          refine ⟨h.inv, h.le, by simp, ?_, ?_⟩
          · intro he; simp at he; subst he; rw [h.err rfl]
          · intro he; simp at he; subst he; exact h.stack rfl
        | ok r =>
          rw [h.ok r rfl]
          refine ⟨h.inv, h.le, ?_, ?_, ?_⟩
          · intro r' hr'; exact hr'
          · intro hr'; exact hr'
          · intro hr'; simp only at hr'; split at hr' <;> simp at hr'
end

/-- The outcome of one construction. -/
structure Constructed (stack : Nat) (w : World) (t : List Char)
    (out : World × Except PathErr (Nat × Parsed)) : Prop where
  inv : Inv out.1
  le : Le w out.1
  ok : ∀ i r, out.2 = .ok (i, r) →
    out.1.cache t = some i ∧ out.1.heap i = some r ∧ parsePath (t.length + 1) t = .ok r
  err : out.2 = .error .value → parsePath (t.length + 1) t = .error .value
  stack : out.2 = .error .recursion → stack ≤ t.length

theorem construct_spec (n : Nat) {w : World} (t : List Char) (hw : Inv w) :
    Constructed n w t (construct n w t) := by
  induction n generalizing w t with
  | zero => exact ⟨hw, .refl w, by simp [construct], by simp [construct], by simp⟩
  | succ n ih =>
    obtain ⟨hi, hle, hc⟩ := new_spec hw t
    simp only [construct]
    cases hh : (w.new t).1.heap (w.new t).2 with
    | some r =>
      refine ⟨hi, hle, ?_, by simp, by simp⟩
      intro i r' h
      simp at h
      obtain ⟨rfl, rfl⟩ := h
      exact ⟨hc, hh, hi.ok _ _ _ hc hh⟩
    | none =>
      have hp := parsePathW_agrees (n := n) (N := t.length)
        (nestedW := fun w t => match construct n w t with
          | (w', .error e) => (w', .error e)
          | (w', .ok r) => (w', .ok r.2)) (fun w u hu hw => by
        have := ih u hw
        cases ho : construct n w u with
        | mk w' res =>
          rw [ho] at this
          cases res with
          | error e =>
            refine ⟨this.inv, this.le, by simp, ?_, ?_⟩
            · intro he; simp at he; subst he
              rw [parsePath_stable hu (Nat.lt_succ_self _)]; exact this.err rfl
            · intro he; simp at he; subst he; exact this.stack rfl
          | ok r =>
            refine ⟨this.inv, this.le, ?_, by simp, by simp⟩
            intro r' hr'; simp at hr'; subst hr'
            rw [parsePath_stable hu (Nat.lt_succ_self _)]; exact (this.ok r.1 r.2 rfl).2.2)
        (w := (w.new t).1) (t := t) (Nat.le_refl _) hi
      simp only []
      generalize hout : parsePathW _ (w.new t).1 t = out at hp
      obtain ⟨w', res⟩ := out
      cases res with
      | error e =>
        refine ⟨hp.inv, hle.trans hp.le, by simp, ?_, ?_⟩
        · intro he; simp at he; subst he; exact hp.err rfl
        · intro he; simp at he; subst he; exact hp.stack rfl
      | ok r =>
        have hr := hp.ok r rfl
        have hcw : w'.cache t = some (w.new t).2 := hp.le.cache _ _ hc
        have hinv := hp.inv
        simp only at hinv
        refine ⟨⟨hinv.bound, hinv.inj, ?_, ?_⟩, hle.trans (hp.le.trans ⟨Nat.le_refl _, fun _ _ h => h, ?_⟩), ?_, by simp, by simp⟩
        · intro u i r' hu hr'
          simp only [World.finish] at hu hr'
          split at hr'
          · next e =>
            subst e
            have := hinv.inj u t _ hu hcw
            subst this
            simp at hr'; subst hr'; exact hr
          · exact hinv.ok u i r' hu hr'
        · intro i r' hr'
          simp only [World.finish] at hr' ⊢
          split at hr'
          · next e => subst e; exact hinv.bound _ _ hcw
          · exact hinv.owned i r' hr'
        · intro i r' hr'
          simp only [World.finish]
          split
          · next e =>
            subst e
            have := hinv.ok t _ r' hcw hr'
            rw [hr] at this; simpa using this
          · exact hr'
        · intro i r' h
          simp at h
          obtain ⟨rfl, rfl⟩ := h
          exact ⟨hcw, by simp [World.finish], hr⟩

theorem constructAll_spec (hist : List (Nat × List Char)) {w : World} (hw : Inv w) :
    Inv (constructAll w hist) ∧ Le w (constructAll w hist) := by
  induction hist generalizing w with
  | nil => exact ⟨hw, .refl w⟩
  | cons p rest ih =>
    have h1 := construct_spec p.1 p.2 hw
    have h2 := ih h1.inv
    exact ⟨h2.1, h1.le.trans h2.2⟩

end Verif.Path
