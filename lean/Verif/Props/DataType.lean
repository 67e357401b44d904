import Verif.Spec.DataType
/-!
Properties of data type names: C14.
-/
namespace Verif.Props
open Verif.Ids Verif.DataTypeSpec

theorem split_underscore (w r : List Char) (h : '_' ∉ w) :
    splitUnderscore (w ++ '_' :: r) = w :: splitUnderscore r := by
  induction w with
  | nil => simp [splitUnderscore]
  | cons c w ih =>
    simp only [List.mem_cons, not_or] at h
    simp [splitUnderscore, ih h.2, Ne.symm h.1]

theorem split_none (w : List Char) (h : '_' ∉ w) : splitUnderscore w = [w] := by
  induction w with
  | nil => simp [splitUnderscore]
  | cons c w ih =>
    simp only [List.mem_cons, not_or] at h
    simp [splitUnderscore, ih h.2, Ne.symm h.1]

theorem first_underscore (s : List Char) :
    '_' ∉ s ∨ ∃ w r, '_' ∉ w ∧ s = w ++ '_' :: r := by
  induction s with
  | nil => simp
  | cons c s ih =>
    by_cases hc : c = '_'
    · subst hc; exact .inr ⟨[], s, by simp, rfl⟩
    · rcases ih with h | ⟨w, r, h, rfl⟩
      · left; simp [h, Ne.symm hc]
      · exact .inr ⟨c :: w, r, by simp [h, Ne.symm hc], rfl⟩

theorem baseType_iff (w : List Char) (t : DataType) :
    baseType w = .ok t ↔ ∃ b, t = .base b ∧ w = typeName b := by
  simp only [baseType]
  constructor
  · intro h
    split at h
    · next e => simp at h; exact ⟨.str, h.symm, e⟩
    · split at h
      · next e => simp at h; exact ⟨.int, h.symm, e⟩
      · split at h
        · next e => simp at h; exact ⟨.flt, h.symm, e⟩
        · split at h
          · next e => simp at h; exact ⟨.cpx, h.symm, e⟩
          · simp at h
  · rintro ⟨b, rfl, rfl⟩; cases b <;> rfl

theorem typeName_no_underscore (b : BaseType) : '_' ∉ typeName b := by cases b <;> decide

theorem digit_range {d : Nat} (h : d < 10) :
    '0' ≤ digit d ∧ digit d ≤ '9' ∧ (digit d).toNat - '0'.toNat = d := by
  match d, h with
  | 0, _ | 1, _ | 2, _ | 3, _ | 4, _ | 5, _ | 6, _ | 7, _ | 8, _ | 9, _ => decide

theorem upper_cases (s : List Char) (b : BaseType) (r : List Char)
    (h : upper s = typeName b ++ '_' :: r) :
    s ≠ "structure".toList ∧ s ≠ "struct_array".toList := by
  constructor <;> (rintro rfl; cases b <;> simp [upper, typeName] at h)

theorem split_prefix (b : BaseType) (r : List Char) :
    splitUnderscore (typeName b ++ '_' :: r) = typeName b :: splitUnderscore r :=
  split_underscore _ _ (typeName_no_underscore b)

/-- Exactly which strings are accepted, with which result. -/
theorem parse_iff (s : List Char) (t : DataType) (d : Nat) :
    parseDataType s = .ok (t, d) ↔
      (s = "structure".toList ∧ t = .structure ∧ d = 0) ∨
      (s = "struct_array".toList ∧ t = .structArray ∧ d = 1) ∨
      (∃ b, t = .base b ∧ d = 0 ∧ upper s = typeName b ++ "_TYPE".toList) ∨
      (∃ b r, t = .base b ∧ d < 10 ∧ upper s = typeName b ++ '_' :: digit d :: r) := by
  have hstruct : "structure".toList ≠ "struct_array".toList := by decide
  constructor
  · intro h
    simp only [parseDataType] at h
    split at h
    · next e => simp at h; exact .inl ⟨e, h.1.symm, h.2.symm⟩
    · split at h
      · next e => simp at h; exact .inr (.inl ⟨e, h.1.symm, h.2.symm⟩)
      · right; right
        rcases first_underscore (upper s) with hu | ⟨w, r, hw, hu⟩
        · rw [split_none _ hu] at h; simp at h
        · rw [hu, split_underscore w r hw] at h
          simp only at h
          split at h
          · next e =>
            left
            have hr : r = "TYPE".toList := by
              rcases first_underscore r with hr | ⟨w', r', hw', hr⟩
              · rw [split_none _ hr] at e; simpa using e
              · rw [hr, split_underscore _ _ hw'] at e
                rcases first_underscore r' with h' | ⟨w'', r'', hw'', h'⟩
                · rw [split_none _ h'] at e; simp at e
                · rw [h', split_underscore _ _ hw''] at e; simp at e
            cases hb : baseType w with
            | error => simp [hb, Except.map] at h
            | ok t' =>
              simp [hb, Except.map] at h
              obtain ⟨b, h1, h2⟩ := (baseType_iff w t').1 hb
              refine ⟨b, h.1 ▸ h1, h.2.symm, ?_⟩
              rw [hu, h2, hr]; rfl
          · right
            split at h
            · simp at h
            · simp at h
            · next c x y e =>
              split at h
              · next hc =>
                cases hb : baseType w with
                | error => simp [hb, Except.map] at h
                | ok t' =>
                  simp only [hb, Except.map, Except.ok.injEq, Prod.mk.injEq] at h
                  obtain ⟨b, h1, h2⟩ := (baseType_iff w t').1 hb
                  have hr : ∃ r', r = c :: r' := by
                    rcases first_underscore r with hr | ⟨w', r', hw', hr⟩
                    · rw [split_none _ hr] at e; simp at e; exact ⟨_, e.1⟩
                    · rw [hr, split_underscore _ _ hw'] at e
                      simp at e; exact ⟨x ++ '_' :: r', by rw [hr, e.1]; rfl⟩
                  obtain ⟨r', rfl⟩ := hr
                  have hc1 : 48 ≤ c.toNat := hc.1
                  have hc2 : c.toNat ≤ 57 := hc.2
                  have h0 : '0'.toNat = 48 := rfl
                  refine ⟨b, r', h.1 ▸ h1, by omega, ?_⟩
                  rw [hu, h2]
                  have : digit d = c := by
                    simp only [digit]
                    have : 48 + d = c.toNat := by omega
                    rw [this, Char.ofNat_toNat]
                  rw [this]
              · simp at h
  · rintro (⟨rfl, rfl, rfl⟩ | ⟨rfl, rfl, rfl⟩ | ⟨b, rfl, rfl, h⟩ | ⟨b, r, rfl, hd, h⟩)
    · rfl
    · rfl
    · have h' : upper s = typeName b ++ '_' :: "TYPE".toList := h
      obtain ⟨h1, h2⟩ := upper_cases s b _ h'
      have hs : splitUnderscore "TYPE".toList = ["TYPE".toList] := split_none _ (by decide)
      simp only [parseDataType, h1, h2, if_false, h', split_prefix, hs, if_true]
      rw [(baseType_iff (typeName b) (.base b)).2 ⟨b, rfl, rfl⟩]; rfl
    · obtain ⟨h1, h2⟩ := upper_cases s b _ h
      obtain ⟨g1, g2, g3⟩ := digit_range hd
      have hdu : digit d ≠ '_' := by intro e; rw [e] at g2; revert g2; decide
      have hsp : ∃ x y, splitUnderscore (digit d :: r) = (digit d :: x) :: y := by
        simp only [splitUnderscore, hdu, if_false]
        split
        · exact ⟨_, _, rfl⟩
        · exact ⟨_, _, rfl⟩
      obtain ⟨x, y, hxy⟩ := hsp
      have hT : ¬ ((digit d :: x) :: y = ["TYPE".toList]) := by
        intro e
        simp at e
        rw [e.1.1] at g2; revert g2; decide
      simp only [parseDataType, h1, h2, if_false, h, split_prefix, hxy, hT, g1, g2, g3, and_self,
        if_true]
      rw [(baseType_iff (typeName b) (.base b)).2 ⟨b, rfl, rfl⟩]; rfl

/-- **C14.** Every documented spelling is decoded to its type and number of dimensions. -/
theorem C14_documented (s : List Char) (t : DataType) (d : Nat) (h : Documented s t d) :
    parseDataType s = .ok (t, d) := by
  rw [parse_iff]
  cases h with
  | struc => exact .inl ⟨rfl, rfl, rfl⟩
  | structArray => exact .inr (.inl ⟨rfl, rfl, rfl⟩)
  | regular t d s hd h => exact .inr (.inr (.inr ⟨t, ['D'], rfl, hd, h⟩))
  | legacy t s h => exact .inr (.inr (.inl ⟨t, rfl, rfl, h⟩))
  | legacyDim t d s hd h => exact .inr (.inr (.inr ⟨t, "D_TYPE".toList, rfl, hd, by rw [h]; simp⟩))

/-- **C14.** Every other string raises an error, except that anything may follow the digit of
the number of dimensions. -/
theorem C14_accepts_only (s : List Char) (t : DataType) (d : Nat)
    (h : parseDataType s = .ok (t, d)) :
    Documented s t d ∨ ∃ b r, t = .base b ∧ d < 10 ∧
      upper s = typeName b ++ '_' :: digit d :: r ∧ r ≠ "D".toList ∧ r ≠ "D_TYPE".toList := by
  rw [parse_iff] at h
  rcases h with ⟨rfl, rfl, rfl⟩ | ⟨rfl, rfl, rfl⟩ | ⟨b, rfl, rfl, h⟩ | ⟨b, r, rfl, hd, h⟩
  · exact .inl .struc
  · exact .inl .structArray
  · exact .inl (.legacy b s h)
  · by_cases h1 : r = "D".toList
    · subst h1; exact .inl (.regular b d s hd h)
    · by_cases h2 : r = "D_TYPE".toList
      · subst h2; exact .inl (.legacyDim b d s hd (by rw [h]; simp))
      · exact .inr ⟨b, r, rfl, hd, h, h1, h2⟩

/-- **C14**, limit: the exception of `C14_accepts_only` is real (`FLT_12D` is read as one
dimension). -/
theorem C14_trailing_text_accepted :
    parseDataType "FLT_12D".toList = .ok (.base .flt, 1) := by rfl

/-- **C14.** Decoding determines the type and rank. -/
theorem C14_unambiguous (s : List Char) (t t' : DataType) (d d' : Nat)
    (h : Documented s t d) (h' : Documented s t' d') : t = t' ∧ d = d' := by
  have := (C14_documented _ _ _ h).symm.trans (C14_documented _ _ _ h')
  simpa using this

example : Documented "cpx_5d_type".toList (.base .cpx) 5 := .legacyDim _ _ _ (by decide) rfl
example : Documented "STR_1D".toList (.base .str) 1 := .regular _ _ _ (by decide) rfl
example : parseDataType "FLT_XD".toList = .error .valueError := by rfl

end Verif.Props
