import Verif.Model.Coordinate
import Verif.Spec.Coordinate
import Verif.Lemmas.PathWrite
/-! Lemmas for the coordinate specification parser. -/
namespace Verif.Coord
open Verif.Path Verif.PathSpec Verif.CoordSpec

theorem orSep_eq : orSep = " OR ".toList := rfl

theorem dropPrefix?_append (p r : List Char) : dropPrefix? p (p ++ r) = some r := by
  induction p with
  | nil => rfl
  | cons a p ih => simp [dropPrefix?, ih]

theorem dropPrefix?_none {p s : List Char} (h : dropPrefix? p s = none) (r : List Char) :
    s ≠ p ++ r := by
  rintro rfl; rw [dropPrefix?_append] at h; simp at h

theorem splitOr_or (rest : List Char) : splitOr (orSep ++ rest) = [] :: splitOr rest := by
  have h := dropPrefix?_append orSep rest
  have e : orSep ++ rest = ' ' :: ('O' :: 'R' :: ' ' :: rest) := rfl
  rw [e] at h ⊢
  rw [splitOr]
  split
  · next r h' => rw [h] at h'; cases h'; rfl
  · next h' => rw [h] at h'; simp at h'

theorem splitOr_cons {c : Char} {cs : List Char} (h : dropPrefix? orSep (c :: cs) = none)
    {first : List Char} {more : List (List Char)} (hs : splitOr cs = first :: more) :
    splitOr (c :: cs) = (c :: first) :: more := by
  rw [splitOr]
  split
  · next r h' => rw [h] at h'; simp at h'
  · rw [hs]

theorem splitOr_ne_nil (s : List Char) : splitOr s ≠ [] := by
  cases s with
  | nil => simp [splitOr]
  | cons c cs =>
    rw [splitOr]
    split
    · simp
    · split <;> simp

/-- A piece without spaces ends at the separator. -/
theorem splitOr_piece {a rest : List Char} (h : ' ' ∉ a) :
    splitOr (a ++ orSep ++ rest) = a :: splitOr rest := by
  induction a with
  | nil => exact splitOr_or rest
  | cons c a ih =>
    have hc : c ≠ ' ' := fun e => h (by simp [e])
    refine splitOr_cons ?_ (ih fun hm => h (by simp [hm]))
    have hb : (' ' == c) = false := by simp [Ne.symm hc]
    simp [dropPrefix?, orSep, hb]

theorem splitOr_last {a : List Char} (h : ' ' ∉ a) : splitOr a = [a] := by
  induction a with
  | nil => simp [splitOr]
  | cons c a ih =>
    have hc : c ≠ ' ' := fun e => h (by simp [e])
    refine splitOr_cons ?_ (ih fun hm => h (by simp [hm]))
    have hb : (' ' == c) = false := by simp [Ne.symm hc]
    simp [dropPrefix?, orSep, hb]

/-! ### Any text -/

theorem joined_cons (a : List Char) {l : List (List Char)} (h : l ≠ []) :
    joined (a :: l) = a ++ orSep ++ joined l := by
  cases l with
  | nil => exact absurd rfl h
  | cons b l => rfl

theorem joined_head (c : Char) (a : List Char) (l : List (List Char)) :
    joined ((c :: a) :: l) = c :: joined (a :: l) := by
  cases l <;> simp [joined]

theorem joined_splitOr (s : List Char) : joined (splitOr s) = s := by
  fun_induction splitOr s with
  | case1 => rfl
  | case2 c cs rest h ih =>
    rw [joined_cons _ (splitOr_ne_nil _), ih, dropPrefix?_eq h]; simp
  | case3 c cs h hn ih => exact absurd hn (splitOr_ne_nil _)
  | case4 c cs h first more hs ih =>
    rw [hs] at ih
    rw [joined_head, ih]

theorem dropPrefix?_mono {p a r b : List Char} (h : dropPrefix? p a = some r) :
    dropPrefix? p (a ++ b) = some (r ++ b) := by
  rw [dropPrefix?_eq h, List.append_assoc, dropPrefix?_append]

/-- The first piece contains no separator, and the text starts with it. -/
theorem splitOr_clean (s : List Char) :
    (∀ p ∈ splitOr s, ¬ Occurs orSep p) ∧
    (∀ first more, splitOr s = first :: more → ∃ r, s = first ++ r) := by
  fun_induction splitOr s with
  | case1 =>
    refine ⟨?_, fun f m h => ?_⟩
    · rintro p hp ⟨l, r, e⟩
      simp at hp; subst hp
      have := congrArg List.length e; simp [orSep] at this
    · simp at h; exact ⟨[], by simp [h.1]⟩
  | case2 c cs rest h ih =>
    refine ⟨?_, fun f m hfm => ?_⟩
    · rintro p hp
      rcases List.mem_cons.mp hp with rfl | hp
      · rintro ⟨l, r, e⟩; have := congrArg List.length e; simp [orSep] at this
      · exact ih.1 p hp
    · simp at hfm; exact ⟨c :: cs, by simp [hfm.1]⟩
  | case3 c cs h hn ih => exact absurd hn (splitOr_ne_nil _)
  | case4 c cs h first more hs ih =>
    obtain ⟨r, hr⟩ := ih.2 first more hs
    refine ⟨?_, fun f m hfm => ?_⟩
    · intro p hp
      rcases List.mem_cons.mp hp with rfl | hp
      · rintro ⟨l, t, e⟩
        cases l with
        | nil =>
          have : c :: cs = orSep ++ (t ++ r) := by
            rw [hr, ← List.cons_append, e]; simp
          exact dropPrefix?_none h _ this
        | cons x l =>
          simp only [List.cons_append, List.cons.injEq] at e
          exact ih.1 first (by rw [hs]; simp) ⟨l, t, by simpa using e.2⟩
      · exact ih.1 p (by rw [hs]; simp [hp])
    · simp at hfm
      exact ⟨r, by rw [← hfm.1, hr]; rfl⟩

def refOf? : Contrib → Option Parsed
  | .ref p => some p
  | _ => none
def sizeOf? : Contrib → Option Int
  | .size n => some n
  | _ => none

/-- What the loop leaves: contributions in order. -/
theorem specLoop_eq {stack : Nat} : ∀ {ps : List (List Char)} {s s' : Partial},
    specLoop stack s ps = .ok s' →
    ∃ cs : List Contrib, ps.map (specItem stack) = cs.map Except.ok ∧
      s'.refs = s.refs ++ cs.filterMap refOf? ∧
      s'.size = ((cs.filterMap sizeOf?).getLast?).or s.size := by
  intro ps
  induction ps with
  | nil =>
    intro s s' h
    simp only [specLoop, Except.ok.injEq] at h
    subst h; exact ⟨[], by simp⟩
  | cons p ps ih =>
    intro s s' h
    unfold specLoop at h
    cases hc : specItem stack p with
    | error e => rw [hc] at h; simp at h
    | ok c =>
      rw [hc] at h
      cases c with
      | nothing =>
        obtain ⟨cs, h1, h2, h3⟩ := ih h
        exact ⟨.nothing :: cs, by simp [hc, h1], by simpa [refOf?, List.filterMap_cons] using h2,
          by simpa [sizeOf?, List.filterMap_cons] using h3⟩
      | size n =>
        obtain ⟨cs, h1, h2, h3⟩ := ih h
        refine ⟨.size n :: cs, by simp [hc, h1], by simpa [refOf?, List.filterMap_cons] using h2, ?_⟩
        rw [h3, List.filterMap_cons_some (f := sizeOf?) (a := .size n) (b := n) rfl, List.getLast?_cons]
        cases List.getLast? (List.filterMap _ cs) <;> simp
      | ref q =>
        obtain ⟨cs, h1, h2, h3⟩ := ih h
        exact ⟨.ref q :: cs, by simp [hc, h1], by simp [h2, refOf?], by simpa [sizeOf?, List.filterMap_cons] using h3⟩

theorem specLoop_error {stack : Nat} : ∀ {ps : List (List Char)} {s : Partial} {e : PathErr},
    specLoop stack s ps = .error e → ∃ p ∈ ps, specItem stack p = .error e := by
  intro ps
  induction ps with
  | nil => intro s e h; simp [specLoop] at h
  | cons p ps ih =>
    intro s e h
    unfold specLoop at h
    cases hc : specItem stack p with
    | error e' => rw [hc] at h; simp at h; subst h; exact ⟨p, by simp, hc⟩
    | ok c =>
      rw [hc] at h
      cases c with
      | nothing => obtain ⟨q, hq, h⟩ := ih h; exact ⟨q, by simp [hq], h⟩
      | size n => obtain ⟨q, hq, h⟩ := ih h; exact ⟨q, by simp [hq], h⟩
      | ref r => obtain ⟨q, hq, h⟩ := ih h; exact ⟨q, by simp [hq], h⟩

theorem specItem_error {stack : Nat} {p : List Char} {e : PathErr}
    (h : specItem stack p = .error e) : e = .recursion ∧ stack ≤ p.length := by
  unfold specItem at h
  split at h
  · split at h
    · simp at h
    · split at h <;> simp at h
  · split at h
    · simp at h
    · split at h
      · simp at h
      · split at h
        · simp at h
        · simp at h
        · next hp =>
          simp at h
          refine ⟨h.symm, ?_⟩
          by_cases hl : p.length < stack
          · have := parsePath_error stack hl hp; simp at this
          · omega

theorem denotes_head {t : List Char} {ps : List (List Char)} {is : List (Option Idx)}
    (h : Denotes t ps is) : t = [] ∨ ∃ c cs, t = c :: cs ∧ (Lower c ∨ c = '/') := by
  obtain ⟨f, h⟩ := h; exact PathText.head h

theorem denotes_no_prefix {t : List Char} {ps : List (List Char)} {is : List (Option Idx)}
    (h : Denotes t ps is) :
    dropPrefix? ['1', '.', '.', '.'] t = none ∧ dropPrefix? ['I', 'D', 'S', ':'] t = none := by
  rcases denotes_head h with rfl | ⟨c, cs, rfl, hc⟩
  · exact ⟨rfl, rfl⟩
  · have h1 : ('1' == c) = false := by
      rcases hc with hc | rfl
      · simp only [beq_eq_false_iff_ne]; rintro rfl; revert hc; simp [Lower]
      · rfl
    have h2 : ('I' == c) = false := by
      rcases hc with hc | rfl
      · simp only [beq_eq_false_iff_ne]; rintro rfl; revert hc; simp [Lower]
      · rfl
    simp [dropPrefix?, h1, h2]

theorem specItem_ref {stack : Nat} {p : List Char} (hl : p.length < stack) (r : Parsed) :
    specItem stack p = .ok (.ref r) ↔ p ≠ [] ∧ Denotes p r.parts r.indices := by
  constructor
  · intro h
    unfold specItem at h
    split at h
    · split at h
      · simp at h
      · split at h <;> simp at h
    · split at h
      · simp at h
      · split at h
        · simp at h
        · next hne =>
          split at h
          · next hp => simp at h; subst h; exact ⟨hne, _, parsePath_sound stack hp⟩
          · simp at h
          · simp at h
  · rintro ⟨hne, hd⟩
    obtain ⟨h1, h2⟩ := denotes_no_prefix hd
    obtain ⟨f, hd⟩ := hd
    unfold specItem
    rw [h1, h2]
    simp only [if_neg hne, parsePath_complete stack hl hd]

/-! ### Python integers -/

theorem digitTail_digits {s : List Char} (h : ∀ x ∈ s, Digit x) (acc : Nat) :
    digitTail acc s =
      some (s.foldl (fun acc c => 10 * acc + (c.toNat - '0'.toNat)) acc) := by
  induction s generalizing acc with
  | nil => rfl
  | cons c cs ih =>
    have hc : c.isDigit = true := (isDigit_iff c).mpr (h c (by simp))
    cases cs with
    | nil => simp [digitTail, hc]
    | cons d cs =>
      simp only [digitTail, hc, if_true]
      exact ih (fun x hx => h x (by simp [hx])) _

theorem isSpace_digit {c : Char} (h : Digit c) : isSpace c = false := by
  have hd := (isDigit_iff c).mpr h
  simp [Char.isDigit] at hd
  have h1 : 48 ≤ c.toNat := hd.1
  have hc : (c == ' ') = false := by
    simp only [beq_eq_false_iff_ne]; rintro rfl; simp [Digit] at h
  have a1 : ¬ c.toNat ≤ 13 := by omega
  have a2 : ¬ c.toNat ≤ 31 := by omega
  simp [isSpace, hc, a1, a2]

theorem strip_digits {s : List Char} (h : ∀ x ∈ s, Digit x) : strip s = s := by
  have key : ∀ t : List Char, (∀ x ∈ t, Digit x) → t.dropWhile isSpace = t := by
    intro t ht
    cases t with
    | nil => rfl
    | cons c cs => rw [List.dropWhile_cons]; simp [isSpace_digit (ht c (by simp))]
  unfold strip
  rw [key s h, key s.reverse (fun x hx => h x (by simpa using hx)), List.reverse_reverse]

theorem pyInt_digits {k : Nat} (hk : (digits k).length ≤ 4300) : pyInt (digits k) = some (k : Int) := by
  have hn := digits_number k
  have hv := value_digits k
  rw [← toInt_eq] at hv
  have hds : digitString (digits k) = some k := by
    cases hd : digits k with
    | nil => exact absurd hd hn.1
    | cons c cs =>
      have hc : c.isDigit = true := (isDigit_iff c).mpr (hn.2 c (by simp [hd]))
      have hcount : (c :: cs).countP Char.isDigit ≤ 4300 := by
        rw [← hd]; exact Nat.le_trans List.countP_le_length hk
      unfold digitString
      simp only [hc, hcount, decide_true, Bool.and_true, if_true]
      rw [← hd, digitTail_digits hn.2]
      simp only [toInt, Int.natCast_inj] at hv
      rw [hv]
  unfold pyInt
  rw [strip_digits hn.2]
  split
  · next t ht => have := hn.2 '+' (by rw [ht]; simp); simp [Digit] at this
  · next t ht => have := hn.2 '-' (by rw [ht]; simp); simp [Digit] at this
  · rw [hds]; rfl

/-! ### Written alternatives -/

theorem denotes_no_space {t : List Char} {ps : List (List Char)} {is : List (Option Idx)}
    (h : Denotes t ps is) : ' ' ∉ t := by
  obtain ⟨f, h⟩ := h
  intro hm
  rcases PathText.chars h _ hm with h | h | h
  · revert h; simp [PlainChar, Lower, Digit]
  · cases f <;> simp [openChar] at h
  · cases f <;> simp [closeChar] at h

theorem alt_no_space {a : Alt} (h : a.WF) : ' ' ∉ a.text := by
  cases a with
  | anySize => decide
  | size k =>
    intro hm
    simp only [Alt.text, List.mem_append] at hm
    rcases hm with hm | hm
    · revert hm; decide
    · have := (digits_number k).2 _ hm; simp [Digit] at this
  | path p f => exact denotes_no_space ⟨f, PathItems.text p h.1 (by simp)⟩
  | otherIds t =>
    intro hm
    simp only [Alt.text, List.mem_append] at hm
    rcases hm with hm | hm
    · revert hm; decide
    · exact h hm

theorem splitOr_write {as : List Alt} (hne : as ≠ []) (hw : ∀ a ∈ as, a.WF) :
    splitOr (write as) = as.map Alt.text := by
  induction as with
  | nil => exact absurd rfl hne
  | cons a as ih =>
    cases as with
    | nil => simpa [write] using splitOr_last (alt_no_space (hw a (by simp)))
    | cons b as =>
      rw [write, ← orSep_eq, splitOr_piece (alt_no_space (hw a (by simp))),
        ih (by simp) (fun x hx => hw x (by simp [hx]))]
      rfl

/-- What an alternative contributes. -/
def contrib : Alt → Contrib
  | .anySize => .nothing
  | .size k => .size k
  | .path p _ => .ref ⟨p.names, p.indices⟩
  | .otherIds _ => .nothing

theorem path_text_ne {p : PathItems} (hw : p.WF) (h : p ≠ .done) (f : Bool) :
    p.write f true ≠ [] := by
  cases p with
  | done => exact absurd rfl h
  | plain n r =>
    simp only [PathItems.WF] at hw
    have := FieldName.ne_nil hw.1
    simp [PathItems.write, this]
  | indexed n i r => simp [PathItems.write]

theorem specItem_alt {stack : Nat} {a : Alt} (hw : a.WF) (hl : a.text.length < stack) :
    specItem stack a.text = .ok (contrib a) := by
  cases a with
  | anySize => rfl
  | size k =>
    have e : Alt.text (.size k) = ['1', '.', '.', '.'] ++ digits k := rfl
    unfold specItem
    rw [e, dropPrefix?_append]
    simp only
    have hN : digits k ≠ ['N'] := by
      intro e; have := (digits_number k).2 'N' (by rw [e]; simp); simp [Digit] at this
    rw [if_neg hN, pyInt_digits hw]; rfl
  | path p f =>
    exact (specItem_ref hl _).mpr ⟨path_text_ne hw.1 hw.2 f, f, PathItems.text p hw.1 (by simp)⟩
  | otherIds t =>
    have e : Alt.text (.otherIds t) = ['I', 'D', 'S', ':'] ++ t := rfl
    unfold specItem
    rw [e, dropPrefix?_append]
    rfl

theorem specLoop_alts {stack : Nat} : ∀ {as : List Alt} {s : Partial}, (∀ a ∈ as, a.WF) →
    (∀ a ∈ as, a.text.length < stack) →
    specLoop stack s (as.map Alt.text) =
      .ok ⟨((sizes as).getLast?.map Int.ofNat).or s.size,
        s.refs ++ (paths as).map fun p => ⟨p.1, p.2⟩⟩ := by
  intro as
  induction as with
  | nil => intro s _ _; cases s; simp [specLoop, sizes, paths]
  | cons a as ih =>
    intro s hw hl
    have ha := specItem_alt (hw a (by simp)) (hl a (by simp))
    have ih := fun s => @ih s (fun x hx => hw x (by simp [hx])) (fun x hx => hl x (by simp [hx]))
    simp only [List.map_cons, specLoop, ha]
    cases a with
    | anySize => simp only [contrib, ih]; rfl
    | otherIds t => simp only [contrib, ih]; rfl
    | path p f => simp only [contrib, ih]; simp [sizes, paths]
    | size k =>
      simp only [contrib, ih, sizes, paths, List.getLast?_cons]
      cases (sizes as).getLast? <;> simp

theorem write_length {as : List Alt} {a : Alt} (h : a ∈ as) : a.text.length ≤ (write as).length := by
  induction as with
  | nil => simp at h
  | cons b as ih =>
    cases as with
    | nil => simp at h; subst h; simp [write]
    | cons c as =>
      simp only [write, List.length_append]
      rcases List.mem_cons.mp h with rfl | h
      · omega
      · have := ih h; omega

end Verif.Coord
