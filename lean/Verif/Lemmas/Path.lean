import Verif.Model.Path
import Verif.Spec.Path
/- Helper lemmas for the path parser. -/
namespace Verif.Path
open Verif.PathSpec

/-! ### Character classes -/

theorem isLower_iff (c : Char) : c.isLower = true ↔ Lower c := by
  simp [Char.isLower, Lower, Char.le_def, UInt32.le_iff_toNat_le]
theorem isDigit_iff (c : Char) : c.isDigit = true ↔ Digit c := by
  simp [Char.isDigit, Digit, Char.le_def, UInt32.le_iff_toNat_le]

theorem isFieldTail_iff (cs : List Char) : isFieldTail cs = true ↔
    (∀ x ∈ cs, Lower x ∨ Digit x ∨ x = '_') ∧ ¬ ∃ l r, cs = l ++ '_' :: '_' :: r := by
  induction cs with
  | nil => simp [isFieldTail]
  | cons c cs ih =>
    simp only [isFieldTail, Bool.and_eq_true, Bool.or_eq_true, isLower_iff, isDigit_iff, ih]
    constructor
    · rintro ⟨h1, h2, h3⟩
      refine ⟨?_, ?_⟩
      · intro x hx
        rcases List.mem_cons.mp hx with rfl | hx
        · rcases h1 with (h1 | h1) | h1
          · exact .inl h1
          · exact .inr (.inl h1)
          · simp at h1; exact .inr (.inr h1.1)
        · exact h2 x hx
      · rintro ⟨l, r, h⟩
        cases l with
        | nil =>
          simp at h
          rcases h with ⟨rfl, rfl⟩
          rcases h1 with (h1 | h1) | h1
          · simp [Lower] at h1
          · simp [Digit] at h1
          · simp at h1
        | cons a l =>
          simp at h
          exact h3 ⟨l, r, h.2⟩
    · rintro ⟨h1, h2⟩
      refine ⟨?_, fun x hx => h1 x (List.mem_cons_of_mem _ hx), ?_⟩
      · rcases h1 c (List.mem_cons_self ..) with h | h | h
        · exact .inl (.inl h)
        · exact .inl (.inr h)
        · right
          subst h
          simp
          intro hh
          cases cs with
          | nil => simp at hh
          | cons d ds =>
            simp at hh; subst hh
            exact h2 ⟨[], ds, rfl⟩
      · rintro ⟨l, r, h⟩
        exact h2 ⟨c :: l, r, by simp [h]⟩

theorem isValidField_iff (s : List Char) : isValidField s = true ↔ FieldName s := by
  cases s with
  | nil => simp [isValidField, FieldName]
  | cons c cs =>
    simp only [isValidField, Bool.and_eq_true, isLower_iff, isFieldTail_iff, FieldName]
    constructor
    · rintro ⟨h1, h2, h3⟩
      refine ⟨⟨c, cs, rfl, h1, h2⟩, ?_⟩
      rintro ⟨l, r, h⟩
      cases l with
      | nil => simp at h; rcases h with ⟨rfl, _⟩; simp [Lower] at h1
      | cons a l => simp at h; exact h3 ⟨l, r, h.2⟩
    · rintro ⟨⟨c', cs', h, h1, h2⟩, h3⟩
      simp at h; rcases h with ⟨rfl, rfl⟩
      refine ⟨h1, h2, ?_⟩
      rintro ⟨l, r, h⟩
      exact h3 ⟨c :: l, r, by simp [h]⟩

theorem isNumber_iff (s : List Char) : isNumber s = true ↔ Number s := by
  simp [isNumber, Number, isDigit_iff]

theorem isGeneric_iff (s : List Char) : isGeneric s = true ↔ Generic s := by
  simp only [isGeneric, Generic, Bool.or_eq_true, beq_iff_eq]
  apply or_congr
  · simp
  · split
    · next i d =>
      simp [isDigit_iff]
      constructor
      · rintro ⟨rfl, h⟩; exact ⟨h, rfl⟩
      · rintro ⟨h, rfl⟩; exact ⟨rfl, h⟩
    · next h =>
      simp
      rintro d _ rfl
      exact h _ _ rfl

theorem toInt_eq (s : List Char) : toInt s = value s := by
  simp [toInt, value, Nat.ofDigitChars_eq_foldl]

theorem not_digit_colon : ¬ Digit ':' := by simp [Digit]
theorem not_digit_slash : ¬ Digit '/' := by simp [Digit]

theorem isSlice_iff (s : List Char) : isSlice s = true ↔
    ∃ a b, s = a ++ ':' :: b ∧ (∀ x ∈ a, Digit x) ∧ (∀ x ∈ b, Digit x) := by
  induction s with
  | nil => simp [isSlice]
  | cons c cs ih =>
    by_cases hc : c = ':'
    · subst hc
      simp [isSlice, isDigit_iff]
      constructor
      · intro h; exact ⟨[], cs, by simp, by simp, h⟩
      · rintro ⟨a, b, h, ha, hb⟩
        cases a with
        | nil => simp at h; subst h; exact hb
        | cons x a =>
          simp at h; rcases h with ⟨rfl, rfl⟩
          exact absurd (ha ':' (by simp)) not_digit_colon
    · simp [isSlice, hc, isDigit_iff, ih]
      constructor
      · rintro ⟨h, a, b, rfl, ha, hb⟩
        exact ⟨c :: a, b, by simp, by simpa using ⟨h, ha⟩, hb⟩
      · rintro ⟨a, b, h, ha, hb⟩
        cases a with
        | nil => simp at h; exact absurd h.1 hc
        | cons x a =>
          simp at h; rcases h with ⟨rfl, rfl⟩
          exact ⟨ha _ (by simp), a, b, rfl, fun x hx => ha x (by simp [hx]), hb⟩

/-! ### splitChar -/

theorem splitChar_ne_nil (c : Char) (s : List Char) : splitChar c s ≠ [] := by
  induction s with
  | nil => simp [splitChar]
  | cons x xs ih =>
    simp only [splitChar]
    split
    · simp
    · split <;> simp

theorem splitChar_of_not_mem {c : Char} {s : List Char} (h : c ∉ s) : splitChar c s = [s] := by
  induction s with
  | nil => simp [splitChar]
  | cons x xs ih =>
    simp at h
    have hx : (x == c) = false := by simpa using fun e => h.1 e.symm
    simp [splitChar, ih h.2, hx]

theorem splitChar_append {c : Char} {a b : List Char} (h : c ∉ a) :
    splitChar c (a ++ c :: b) = a :: splitChar c b := by
  induction a with
  | nil => simp [splitChar]
  | cons x xs ih =>
    simp at h
    have hx : (x == c) = false := by simpa using fun e => h.1 e.symm
    simp [splitChar, ih h.2, hx]

/-- Join pieces with a separator character. -/
def joinChar (c : Char) : List (List Char) → List Char
  | [] => []
  | [a] => a
  | a :: b :: l => a ++ c :: joinChar c (b :: l)

theorem joinChar_splitChar (c : Char) (s : List Char) : joinChar c (splitChar c s) = s := by
  induction s with
  | nil => simp [splitChar, joinChar]
  | cons x xs ih =>
    have hne := splitChar_ne_nil c xs
    simp only [splitChar]
    split
    · next h =>
      simp at h; subst h
      cases hs : splitChar x xs with
      | nil => exact absurd hs hne
      | cons w ws => rw [hs] at ih; simp [joinChar, ih]
    · next h =>
      cases hs : splitChar c xs with
      | nil => exact absurd hs hne
      | cons w ws =>
        rw [hs] at ih
        cases ws with
        | nil => simp [joinChar] at ih ⊢; exact ih
        | cons v vs => simp [joinChar] at ih ⊢; exact ih

/-! ### Occurrence lists -/

/-- Positions of `ch` in the list, counted from `off`. -/
def occ (ch : Char) : Nat → List Char → List Nat
  | _, [] => []
  | off, x :: xs => if x == ch then off :: occ ch (off + 1) xs else occ ch (off + 1) xs

theorem occ_append (ch : Char) (off : Nat) (a b : List Char) :
    occ ch off (a ++ b) = occ ch off a ++ occ ch (off + a.length) b := by
  induction a generalizing off with
  | nil => simp [occ]
  | cons x xs ih =>
    simp only [List.cons_append, occ, ih, List.length_cons]
    have : off + 1 + xs.length = off + (xs.length + 1) := by omega
    split <;> simp [this]

theorem occ_bounds {ch : Char} {off : Nat} {a : List Char} {n : Nat} (h : n ∈ occ ch off a) :
    off ≤ n ∧ n < off + a.length := by
  induction a generalizing off with
  | nil => simp [occ] at h
  | cons x xs ih =>
    simp only [occ] at h
    split at h
    · rcases List.mem_cons.mp h with rfl | h
      · simp
      · have := ih h; simp; omega
    · have := ih h; simp; omega

theorem occ_sorted (ch : Char) (off : Nat) (a : List Char) : (occ ch off a).Pairwise (· < ·) := by
  induction a generalizing off with
  | nil => simp [occ]
  | cons x xs ih =>
    simp only [occ]
    split
    · refine List.Pairwise.cons ?_ (ih _)
      intro n hn; have := occ_bounds hn; omega
    · exact ih _

theorem occ_eq_nil {ch : Char} {off : Nat} {a : List Char} (h : ch ∉ a) : occ ch off a = [] := by
  induction a generalizing off with
  | nil => rfl
  | cons x xs ih =>
    simp at h
    have hx : (x == ch) = false := by simpa using fun e => h.1 e.symm
    simp [occ, hx, ih h.2]

theorem find_eq_head (p : List Char) (ch : Char) (s : Nat) :
    find p ch s = (occ ch s (p.drop s)).head? := by
  unfold find
  generalize p.drop s = q
  induction q generalizing s with
  | nil => simp [occ]
  | cons x xs ih =>
    simp only [List.findIdx?_cons, occ]
    cases hx : (x == ch)
    · have := ih (s + 1)
      simp [← this]
      congr 1
      funext i; simp; omega
    · simp

theorem occ_tail {p : List Char} {ch : Char} {s n : Nat} {l : List Nat}
    (h : occ ch s (p.drop s) = n :: l) : l = occ ch (n + 1) (p.drop (n + 1)) := by
  generalize hq : p.drop s = q at h
  induction q generalizing s with
  | nil => simp [occ] at h
  | cons x xs ih =>
    have hxs : p.drop (s + 1) = xs := by
      have : (p.drop s).drop 1 = xs := by simp [hq]
      simpa [List.drop_drop] using this
    simp only [occ] at h
    split at h
    · simp at h; rcases h with ⟨rfl, rfl⟩; rw [hxs]
    · exact ih hxs h

/-- `matchClose` on occurrence lists. -/
def mc : List Nat → List Nat → Option Nat
  | _, [] => none
  | [], c :: _ => some c
  | o :: os, c :: cs => if o < c then mc os cs else some c

theorem matchClose_eq_mc (p : List Char) (o c : Char) (no : Option Nat) (nc s : Nat)
    (hno : no = (occ o s (p.drop s)).head?) :
    matchClose p o c no nc =
      match mc (occ o s (p.drop s)) (nc :: occ c (nc + 1) (p.drop (nc + 1))) with
      | none => .error .value
      | some m => .ok m := by
  fun_induction matchClose p o c no nc generalizing s with
  | case1 nc =>
    have : occ o s (p.drop s) = [] := by simpa using hno.symm
    rw [this]; simp [mc]
  | case2 nc no hlt hf =>
    cases hO : occ o s (p.drop s) with
    | nil => simp [hO] at hno
    | cons a os =>
      simp [hO] at hno; subst hno
      have hC : occ c (nc + 1) (p.drop (nc + 1)) = [] := by
        have := find_eq_head p c (nc + 1); rw [hf] at this; simpa using this.symm
      simp [hC, mc, hlt]
  | case3 nc no hlt nc' hf ih =>
    cases hO : occ o s (p.drop s) with
    | nil => simp [hO] at hno
    | cons a os =>
      simp [hO] at hno; subst hno
      have hos := occ_tail hO
      cases hC : occ c (nc + 1) (p.drop (nc + 1)) with
      | nil => have := find_eq_head p c (nc + 1); rw [hf, hC] at this; simp at this
      | cons b cs =>
        have hb := find_eq_head p c (nc + 1)
        rw [hf, hC] at hb; simp at hb; subst hb
        have hcs := occ_tail hC
        rw [ih (no + 1) (find_eq_head p o (no + 1))]
        rw [← hos, ← hcs]
        simp [mc, hlt]
  | case4 nc no hlt =>
    cases hO : occ o s (p.drop s) with
    | nil => simp [hO] at hno
    | cons a os =>
      simp [hO] at hno; subst hno
      simp [mc, hlt]

/-- Pointwise `<` on lists of equal length. -/
inductive Lt2 : List Nat → List Nat → Prop
  | nil : Lt2 [] []
  | cons {a b : Nat} {as bs : List Nat} : a < b → Lt2 as bs → Lt2 (a :: as) (b :: bs)

theorem Lt2.append {a b a' b' : List Nat} (h : Lt2 a b) (h' : Lt2 a' b') :
    Lt2 (a ++ a') (b ++ b') := by
  induction h with
  | nil => simpa
  | cons h _ ih => exact .cons h ih

theorem Lt2.shift {a : Nat} {O C : List Nat} {e : Nat} (h : Lt2 O C) (ha : ∀ x ∈ C, a < x)
    (hs : C.Pairwise (· < ·)) (he : ∀ x ∈ C, x < e) (hae : a < e) : Lt2 (a :: O) (C ++ [e]) := by
  induction h generalizing a with
  | nil => exact .cons hae .nil
  | @cons x y xs ys hxy _ ih =>
    refine .cons (ha y (by simp)) ?_
    simp only [List.pairwise_cons] at hs
    refine ih (fun z hz => ?_) hs.2 (fun z hz => he z (by simp [hz])) ?_
    · have := hs.1 z hz; omega
    · have := he y (by simp); omega

theorem mc_strip {O C : List Nat} (h : Lt2 O C) (os cs : List Nat) :
    mc (O ++ os) (C ++ cs) = mc os cs := by
  induction h with
  | nil => rfl
  | cons h _ ih => simp [mc, h, ih]

/-- Texts in which every opening bracket has a matching closing bracket. -/
inductive Bal (o c : Char) : List Char → Prop
  | nil : Bal o c []
  | char {x : Char} {t : List Char} : x ≠ o → x ≠ c → Bal o c t → Bal o c (x :: t)
  | wrap {t u : List Char} : Bal o c t → Bal o c u → Bal o c (o :: t ++ c :: u)

theorem Bal.append {o c : Char} {t u : List Char} (ht : Bal o c t) (hu : Bal o c u) :
    Bal o c (t ++ u) := by
  induction ht with
  | nil => simpa
  | char h1 h2 _ ih => exact .char h1 h2 ih
  | @wrap t v h1 _ _ ih =>
    have : o :: t ++ c :: v ++ u = o :: t ++ c :: (v ++ u) := by simp
    rw [this]; exact .wrap h1 ih

theorem Bal.of_not_mem {o c : Char} {t : List Char} (h : ∀ x ∈ t, x ≠ o ∧ x ≠ c) : Bal o c t := by
  induction t with
  | nil => exact .nil
  | cons x t ih =>
    exact .char (h x (by simp)).1 (h x (by simp)).2 (ih fun y hy => h y (by simp [hy]))

theorem Bal.lt2 {o c : Char} (hoc : o ≠ c) {t : List Char} (h : Bal o c t) (off : Nat) :
    Lt2 (occ o off t) (occ c off t) := by
  induction h generalizing off with
  | nil => exact .nil
  | @char x t h1 h2 _ ih =>
    have e1 : (x == o) = false := by simpa using h1
    have e2 : (x == c) = false := by simpa using h2
    simp [occ, e1, e2, ih]
  | @wrap t u ht _ ih1 ih2 =>
    have e1 : (c == o) = false := by simpa using hoc.symm
    have e2 : (o == c) = false := by simpa using hoc
    have hO : occ o off (o :: t ++ c :: u) =
        (off :: occ o (off + 1) t) ++ occ o (off + 1 + t.length + 1) u := by
      simp [occ, occ_append, e1]
    have hC : occ c off (o :: t ++ c :: u) =
        (occ c (off + 1) t ++ [off + 1 + t.length]) ++ occ c (off + 1 + t.length + 1) u := by
      simp [occ, occ_append, e2]
    rw [hO, hC]
    refine Lt2.append (Lt2.shift (ih1 _) ?_ (occ_sorted ..) ?_ ?_) (ih2 _)
    · intro x hx; have := occ_bounds hx; omega
    · intro x hx; have := occ_bounds hx; omega
    · omega

theorem matchClose_balanced {o c : Char} (hoc : o ≠ c) {pre t rest : List Char}
    (ht : Bal o c t) (nc : Nat)
    (hnc : find (pre ++ o :: (t ++ c :: rest)) c (pre.length + 1) = some nc) :
    matchClose (pre ++ o :: (t ++ c :: rest)) o c
      (find (pre ++ o :: (t ++ c :: rest)) o (pre.length + 1)) nc
      = .ok (pre.length + 1 + t.length) := by
  generalize hp : pre ++ o :: (t ++ c :: rest) = p at *
  have hd : p.drop (pre.length + 1) = t ++ c :: rest := by
    subst hp; simp
  rw [matchClose_eq_mc p o c _ nc (pre.length + 1) (find_eq_head ..)]
  have hC : nc :: occ c (nc + 1) (p.drop (nc + 1)) = occ c (pre.length + 1) (t ++ c :: rest) := by
    cases hO : occ c (pre.length + 1) (p.drop (pre.length + 1)) with
    | nil => rw [find_eq_head, hO] at hnc; simp at hnc
    | cons a l =>
      have := occ_tail hO
      rw [find_eq_head, hO] at hnc; simp at hnc; subst hnc
      rw [← this, ← hO, hd]
  rw [hC, hd, occ_append, occ_append, mc_strip (ht.lt2 hoc _)]
  have e1 : (c == o) = false := by simpa using hoc.symm
  simp only [occ, e1, beq_self_eq_true, if_true]
  simp only [Bool.false_eq_true, if_false]
  cases hR : occ o (pre.length + 1 + t.length + 1) rest with
  | nil => simp [mc]
  | cons a l =>
    have := occ_bounds (n := a) (ch := o) (off := pre.length + 1 + t.length + 1) (a := rest)
      (by rw [hR]; simp)
    have : ¬ a < pre.length + 1 + t.length := by omega
    simp [mc, this]

/-! ### The splitter -/

theorem find_shift (A q : List Char) (ch : Char) (s : Nat) :
    find (A ++ q) ch (A.length + s) = (find q ch s).map (· + A.length) := by
  unfold find
  have : (A ++ q).drop (A.length + s) = q.drop s := by
    rw [List.drop_append]; simp
  rw [this, Option.map_map]
  congr 1; funext i; simp; omega

theorem matchClose_shift (A q : List Char) (o c : Char) (no : Option Nat) (nc : Nat) :
    matchClose (A ++ q) o c (no.map (· + A.length)) (nc + A.length) =
      (matchClose q o c no nc).map (· + A.length) := by
  fun_induction matchClose q o c no nc with
  | case1 nc => simp [matchClose, Except.map]
  | case2 nc no hlt hf =>
    unfold matchClose
    have hl : no + A.length < nc + A.length := by omega
    have hf' := find_shift A q c (nc + 1)
    rw [hf] at hf'
    have e : A.length + (nc + 1) = nc + A.length + 1 := by omega
    rw [e] at hf'
    simp at hf'
    simp only [Option.map_some, hl, if_true, Except.map]
    split
    · rfl
    · next h => rw [hf'] at h; simp at h
  | case3 nc no hlt nc' hf ih =>
    conv => lhs; unfold matchClose
    have hl : no + A.length < nc + A.length := by omega
    have hf' := find_shift A q c (nc + 1)
    rw [hf] at hf'
    have e : A.length + (nc + 1) = nc + A.length + 1 := by omega
    rw [e] at hf'
    have ho' := find_shift A q o (no + 1)
    have e : A.length + (no + 1) = no + A.length + 1 := by omega
    rw [e] at ho'
    simp at hf'
    simp only [Option.map_some, hl, if_true]
    split
    · next h => rw [hf'] at h; simp at h
    · next n h =>
      rw [hf'] at h; simp at h; subst h
      rw [ho', ih]
  | case4 nc no hlt =>
    unfold matchClose
    have hl : ¬ no + A.length < nc + A.length := by omega
    simp [hl, Except.map]

theorem slice_shift (A q : List Char) (a b : Nat) :
    slice (A ++ q) (a + A.length) (b + A.length) = slice q a b := by
  unfold slice
  rw [Nat.add_comm b, List.take_append]
  simp
  rw [List.drop_append]
  have h1 : a + A.length - A.length = a := by omega
  have h2 : A.length + b - A.length = b := by omega
  simp [List.take_of_length_le, h1]

theorem splitLoop_shift (A q : List Char) (o c : Char) (cur : Nat) :
    splitLoop (A ++ q) o c (cur + A.length) = splitLoop q o c cur := by
  fun_induction splitLoop q o c cur with
  | case1 cur hno =>
    unfold splitLoop
    have h := find_shift A q o cur
    rw [hno, Nat.add_comm] at h
    simp at h
    split
    · simp [List.drop_append]
    · next h' => rw [h] at h'; simp at h'
  | case2 cur no hno hnc =>
    unfold splitLoop
    have h := find_shift A q o cur
    have h2 := find_shift A q c cur
    rw [hno, Nat.add_comm] at h
    rw [hnc, Nat.add_comm] at h2
    simp at h h2
    split
    · next h' => rw [h] at h'; simp at h'
    · split
      · rfl
      · next h' => rw [h2] at h'; simp at h'
  | case3 cur no hno nc hnc hgt =>
    unfold splitLoop
    have h := find_shift A q o cur
    have h2 := find_shift A q c cur
    rw [hno, Nat.add_comm] at h
    rw [hnc, Nat.add_comm] at h2
    simp at h h2
    split
    · next h' => rw [h] at h'; simp at h'
    · next n h' =>
      rw [h] at h'; simp at h'; subst h'
      split
      · rfl
      · next n h' =>
        rw [h2] at h'; simp at h'; subst h'
        have : no + A.length > nc + A.length := by omega
        simp [this]
  | case4 cur no hno nc hnc hgt e hm =>
    unfold splitLoop
    have h := find_shift A q o cur
    have h2 := find_shift A q c cur
    rw [hno, Nat.add_comm] at h
    rw [hnc, Nat.add_comm] at h2
    simp at h h2
    split
    · next h' => rw [h] at h'; simp at h'
    · next n h' =>
      rw [h] at h'; simp at h'; subst h'
      split
      · next h' => rw [h2] at h'; simp at h'
      · next n h' =>
        rw [h2] at h'; simp at h'; subst h'
        have : ¬ no + A.length > nc + A.length := by omega
        simp only [this, if_false]
        have h3 := matchClose_shift A q o c (find q o (no + 1)) nc
        have h4 := find_shift A q o (no + 1)
        have e4 : A.length + (no + 1) = no + A.length + 1 := by omega
        rw [e4] at h4
        rw [← h4, hm] at h3
        simp [Except.map] at h3
        split
        · next e' h' => rw [h3] at h'; simp at h'; simp [h']
        · next h' => rw [h3] at h'; simp at h'
  | case5 cur no hno nc hnc hgt nc' hm e hr ih | case6 cur no hno nc hnc hgt nc' hm e hr ih =>
    unfold splitLoop
    have h := find_shift A q o cur
    have h2 := find_shift A q c cur
    rw [hno, Nat.add_comm] at h
    rw [hnc, Nat.add_comm] at h2
    simp at h h2
    split
    · next h' => rw [h] at h'; simp at h'
    · next n h' =>
      rw [h] at h'; simp at h'; subst h'
      split
      · next h' => rw [h2] at h'; simp at h'
      · next n h' =>
        rw [h2] at h'; simp at h'; subst h'
        have : ¬ no + A.length > nc + A.length := by omega
        simp only [this, if_false]
        have h3 := matchClose_shift A q o c (find q o (no + 1)) nc
        have h4 := find_shift A q o (no + 1)
        have e4 : A.length + (no + 1) = no + A.length + 1 := by omega
        rw [e4] at h4
        rw [← h4, hm] at h3
        simp [Except.map] at h3
        split
        · next e' h' => rw [h3] at h'; simp at h'
        · next n' h' =>
          rw [h3] at h'; simp at h'; subst h'
          have e5 : nc' + A.length + 1 = nc' + 1 + A.length := by omega
          have e6 : no + A.length + 1 = no + 1 + A.length := by omega
          simp [e5, ih, hr, slice_shift, e6]

theorem find_none_of_not_mem {p : List Char} {ch : Char} (h : ch ∉ p) : find p ch 0 = none := by
  rw [find_eq_head]; simp [occ_eq_nil h]

theorem split_plain {o c : Char} {p : List Char} (h : o ∉ p) :
    splitOnMatchingParens p o c = .ok [p] := by
  unfold splitOnMatchingParens splitLoop
  split
  · simp
  · next h' => rw [find_none_of_not_mem h] at h'; simp at h'

theorem split_indexed {o c : Char} (hoc : o ≠ c) {pre t rest : List Char} (h1 : o ∉ pre)
    (h2 : c ∉ pre) (ht : Bal o c t) :
    splitOnMatchingParens (pre ++ o :: (t ++ c :: rest)) o c =
      match splitOnMatchingParens rest o c with
      | .error e => .error e
      | .ok r => .ok (pre :: t :: r) := by
  have hrest : splitLoop (pre ++ o :: (t ++ c :: rest)) o c (pre.length + 1 + t.length + 1) =
      splitLoop rest o c 0 := by
    have := splitLoop_shift (pre ++ o :: (t ++ [c])) rest o c 0
    rw [← this]
    have e1 : pre ++ o :: (t ++ [c]) ++ rest = pre ++ o :: (t ++ c :: rest) := by simp
    have e2 : 0 + (pre ++ o :: (t ++ [c])).length = pre.length + 1 + t.length + 1 := by
      simp; omega
    rw [e1, e2]
  have ho : find (pre ++ o :: (t ++ c :: rest)) o 0 = some pre.length := by
    rw [find_eq_head]; simp [occ_append, occ_eq_nil h1, occ]
  have hcs : find (pre ++ o :: (t ++ c :: rest)) c 0 =
      find (pre ++ o :: (t ++ c :: rest)) c (pre.length + 1) := by
    have e2 : (o == c) = false := by simpa using hoc
    rw [find_eq_head, find_eq_head]
    simp [occ_append, occ_eq_nil h2, occ, e2]
  have hne : ∃ nc, find (pre ++ o :: (t ++ c :: rest)) c 0 = some nc ∧ pre.length < nc := by
    rw [hcs]
    cases hf : find (pre ++ o :: (t ++ c :: rest)) c (pre.length + 1) with
    | none =>
      rw [find_eq_head] at hf
      simp [occ_append, occ] at hf
    | some nc => exact ⟨nc, rfl, by have := find_ge hf; omega⟩
  obtain ⟨nc, hnc, hlt⟩ := hne
  have hm := matchClose_balanced hoc (pre := pre) (rest := rest) ht nc (hcs ▸ hnc)
  rw [splitOnMatchingParens, splitLoop]
  split
  · next h => rw [ho] at h; simp at h
  · next no h =>
    rw [ho] at h; simp at h; subst h
    split
    · next h => rw [hnc] at h; simp at h
    · next n h =>
      rw [hnc] at h; simp at h; subst h
      have : ¬ pre.length > nc := by omega
      simp only [this, if_false]
      split
      · next h => rw [hm] at h; simp at h
      · next n h =>
        rw [hm] at h; simp at h; subst h
        rw [hrest, splitOnMatchingParens]
        have e1 : slice (pre ++ o :: (t ++ c :: rest)) 0 pre.length = pre := by
          simp [slice]
        have e2 : slice (pre ++ o :: (t ++ c :: rest)) (pre.length + 1)
            (pre.length + 1 + t.length) = t := by
          have := slice_shift (pre ++ [o]) (t ++ c :: rest) 0 t.length
          simp at this
          have e : t.length + (pre.length + 1) = pre.length + 1 + t.length := by omega
          rw [e] at this
          rw [this]; simp [slice]
        rw [e1, e2]
        cases splitLoop rest o c 0 <;> rfl

/-- Reassemble pieces. -/
def glue (o c : Char) : List (List Char) → List Char
  | [] => []
  | [a] => a
  | a :: i :: r => a ++ o :: (i ++ c :: glue o c r)

theorem find_getElem {p : List Char} {ch : Char} {s n : Nat} (h : find p ch s = some n) :
    p[n]? = some ch := by
  unfold find at h
  cases hi : (p.drop s).findIdx? (· == ch) with
  | none => simp [hi] at h
  | some i =>
    simp [hi] at h
    have := List.findIdx?_eq_some_iff_getElem.mp hi
    obtain ⟨h1, h2, _⟩ := this
    simp at h2
    have e : n = s + i := by omega
    rw [e, ← h2]
    rw [List.getElem?_eq_getElem]

theorem slice_append {p : List Char} {a b : Nat} (h : a ≤ b) (hb : b ≤ p.length) :
    slice p a b ++ p.drop b = p.drop a := by
  unfold slice
  have : p.drop a = (p.take b ++ p.drop b).drop a := by rw [List.take_append_drop]
  rw [this, List.drop_append_of_le_length]
  simp; omega

theorem matchClose_getElem {p : List Char} {o c : Char} {no : Option Nat} {nc m : Nat}
    (h : matchClose p o c no nc = .ok m) (hc : p[nc]? = some c) : p[m]? = some c := by
  fun_induction matchClose p o c no nc with
  | case1 nc => simp at h; subst h; exact hc
  | case2 nc no hlt hf => simp at h
  | case3 nc no hlt nc' hf ih => exact ih h (find_getElem hf)
  | case4 nc no hlt => simp at h; subst h; exact hc

theorem drop_of_getElem? {p : List Char} {n : Nat} {x : Char} (h : p[n]? = some x) :
    p.drop n = x :: p.drop (n + 1) := by
  rw [List.getElem?_eq_some_iff] at h
  obtain ⟨hlt, rfl⟩ := h
  exact List.drop_eq_getElem_cons hlt

theorem splitLoop_glue {p : List Char} {o c : Char} (hoc : o ≠ c) {cur : Nat}
    {pieces : List (List Char)}
    (h : splitLoop p o c cur = .ok pieces) :
    glue o c pieces = p.drop cur ∧ pieces.length % 2 = 1 := by
  fun_induction splitLoop p o c cur generalizing pieces with
  | case1 cur hno => simp at h; subst h; simp [glue]
  | case2 | case3 | case4 | case5 => simp at h
  | case6 cur no hno nc hnc hgt nc' hm rest hr ih =>
    simp at h; subst h
    obtain ⟨ih1, ih2⟩ := ih hr
    refine ⟨?_, by simp; omega⟩
    have h1 := find_ge hno
    have h2 := find_lt hno
    have h3 := matchClose_ge hm
    have h4 := find_getElem hno
    have h5 := matchClose_getElem hm (find_getElem hnc)
    have hne : no ≠ nc := by
      rintro rfl
      have := find_getElem hnc
      rw [h4] at this; simp at this; exact hoc this
    have h6 : nc' < p.length := by
      rw [List.getElem?_eq_some_iff] at h5; exact h5.1
    simp only [glue, ih1]
    rw [← drop_of_getElem? h5, slice_append (by omega) (by omega), ← drop_of_getElem? h4,
      slice_append (by omega) (by omega)]

end Verif.Path
