import Verif.Lemmas.Path
/- The parser accepts exactly the grammar of `Verif.Spec.Path`. -/
namespace Verif.Path
open Verif.PathSpec

theorem open_eq (f : Bool) : opening f = openChar f := rfl
theorem close_eq (f : Bool) : closing f = closeChar f := rfl
theorem open_ne_close (f : Bool) : openChar f ≠ closeChar f := by cases f <;> decide

/-- Characters that can occur in names, numbers, slices and separators. -/
def PlainChar (c : Char) : Prop := Lower c ∨ Digit c ∨ c = '_' ∨ c = '/' ∨ c = ':'

theorem PlainChar.ne_open {c : Char} (h : PlainChar c) (f : Bool) : c ≠ openChar f := by
  rintro rfl
  cases f <;> simp [PlainChar, openChar, Lower, Digit] at h
theorem PlainChar.ne_close {c : Char} (h : PlainChar c) (f : Bool) : c ≠ closeChar f := by
  rintro rfl
  cases f <;> simp [PlainChar, closeChar, Lower, Digit] at h

theorem FieldName.plain {s : List Char} (h : FieldName s) : ∀ x ∈ s, PlainChar x := by
  obtain ⟨⟨c, cs, rfl, hc, hcs⟩, _⟩ := h
  intro x hx
  rcases List.mem_cons.mp hx with rfl | hx
  · exact .inl hc
  · rcases hcs x hx with h | h | h
    · exact .inl h
    · exact .inr (.inl h)
    · exact .inr (.inr (.inl h))
theorem FieldName.ne_nil {s : List Char} (h : FieldName s) : s ≠ [] := by
  obtain ⟨⟨c, cs, rfl, _⟩, _⟩ := h; simp
theorem FieldName.no_slash {s : List Char} (h : FieldName s) : '/' ∉ s := by
  obtain ⟨⟨c, cs, rfl, hc, hcs⟩, _⟩ := h
  intro hx
  rcases List.mem_cons.mp hx with rfl | hx
  · simp [Lower] at hc
  · rcases hcs _ hx with h | h | h <;> simp [Lower, Digit] at h
theorem FieldName.head {c : Char} {cs : List Char} (h : FieldName (c :: cs)) : Lower c := by
  obtain ⟨⟨c', cs', h, hc, _⟩, _⟩ := h
  simp at h; exact h.1 ▸ hc

theorem Sep.plain {need : Bool} {s : List Char} (h : Sep need s) : ∀ x ∈ s, PlainChar x := by
  rcases h with rfl | ⟨rfl, _⟩
  · simp [PlainChar]
  · simp

theorem Number.plain {s : List Char} (h : Number s) : ∀ x ∈ s, PlainChar x :=
  fun x hx => .inr (.inl (h.2 x hx))
theorem Bound.plain {k : Int} {s : List Char} {v : Option Int} (h : Bound k s v) :
    ∀ x ∈ s, PlainChar x := by
  cases h with
  | absent => simp
  | given h => exact Number.plain h
theorem Bound.digits {k : Int} {s : List Char} {v : Option Int} (h : Bound k s v) :
    ∀ x ∈ s, Digit x := by
  cases h with
  | absent => simp
  | given h => exact h.2
theorem Generic.plain {s : List Char} (h : Generic s) : ∀ x ∈ s, PlainChar x := by
  rcases h with rfl | ⟨d, hd, rfl⟩
  · simp [PlainChar, Lower]
  · intro x hx
    simp at hx
    rcases hx with rfl | rfl
    · simp [PlainChar, Lower]
    · exact .inr (.inl hd)

mutual
theorem PathText.chars {f need : Bool} {t : List Char} {ps : List (List Char)}
    {is : List (Option Idx)} (h : PathText f need t ps is) :
    ∀ x ∈ t, PlainChar x ∨ x = openChar f ∨ x = closeChar f := by
  cases h with
  | nil => simp
  | plain hs hn rest =>
    intro x hx
    simp only [List.mem_append] at hx
    rcases hx with (hx | hx) | hx
    · exact .inl (Sep.plain hs x hx)
    · exact .inl (FieldName.plain hn x hx)
    · exact PathText.chars rest x hx
  | indexed hs hn hi rest =>
    intro x hx
    simp only [List.mem_append, List.mem_cons] at hx
    rcases hx with ((hx | hx) | hx | hx) | hx | hx
    · exact .inl (Sep.plain hs x hx)
    · exact .inl (FieldName.plain hn x hx)
    · exact .inr (.inl hx)
    · exact IndexText.chars hi x hx
    · exact .inr (.inr hx)
    · exact PathText.chars rest x hx
theorem IndexText.chars {f : Bool} {t : List Char} {i : Idx} (h : IndexText f t i) :
    ∀ x ∈ t, PlainChar x ∨ x = openChar f ∨ x = closeChar f := by
  cases h with
  | generic h => exact fun x hx => .inl (Generic.plain h x hx)
  | num h => exact fun x hx => .inl (Number.plain h x hx)
  | slice ha hb =>
    intro x hx
    simp only [List.mem_append, List.mem_cons] at hx
    rcases hx with hx | rfl | hx
    · exact .inl (Bound.plain ha x hx)
    · exact .inl (by simp [PlainChar])
    · exact .inl (Bound.plain hb x hx)
  | path _ h => exact PathText.chars h
end

theorem bal_of_plain {f : Bool} {t : List Char} (h : ∀ x ∈ t, PlainChar x) :
    Bal (openChar f) (closeChar f) t :=
  Bal.of_not_mem fun x hx => ⟨(h x hx).ne_open f, (h x hx).ne_close f⟩

mutual
theorem PathText.bal {f need : Bool} {t : List Char} {ps : List (List Char)}
    {is : List (Option Idx)} (h : PathText f need t ps is) :
    Bal (openChar f) (closeChar f) t := by
  cases h with
  | nil => exact .nil
  | plain hs hn rest =>
    exact ((bal_of_plain (Sep.plain hs)).append (bal_of_plain (FieldName.plain hn))).append
      (PathText.bal rest)
  | @indexed _ sep name it t idx ps is hs hn hi rest =>
    have : sep ++ name ++ opening f :: it ++ closing f :: t =
        (sep ++ name) ++ (openChar f :: it ++ closeChar f :: t) := by
      simp [opening, closing, openChar, closeChar]
    rw [this]
    exact ((bal_of_plain (Sep.plain hs)).append (bal_of_plain (FieldName.plain hn))).append
      (.wrap (IndexText.bal hi) (PathText.bal rest))
theorem IndexText.bal {f : Bool} {t : List Char} {i : Idx} (h : IndexText f t i) :
    Bal (openChar f) (closeChar f) t := by
  cases h with
  | generic h => exact bal_of_plain (Generic.plain h)
  | num h => exact bal_of_plain (Number.plain h)
  | slice ha hb =>
    exact (bal_of_plain (Bound.plain ha)).append
      (.char (PlainChar.ne_open (by simp [PlainChar]) f) (PlainChar.ne_close (by simp [PlainChar]) f)
        (bal_of_plain (Bound.plain hb)))
  | path _ h => exact PathText.bal h
end

/-- Without brackets the style does not matter. -/
theorem PathText.change_style {f g need : Bool} {t : List Char} {ps : List (List Char)}
    {is : List (Option Idx)} (h : PathText f need t ps is) (hno : openChar f ∉ t) :
    PathText g need t ps is := by
  cases h with
  | nil => exact .nil
  | plain hs hn rest =>
    refine .plain hs hn (PathText.change_style rest ?_)
    intro h; exact hno (by simp [h])
  | indexed hs hn hi rest => exact absurd (by simp [opening, openChar]) hno

/-! ### Index texts -/

theorem number_not_generic {s : List Char} (h : Number s) : isGeneric s = false := by
  cases hg : isGeneric s with
  | false => rfl
  | true =>
    rcases (isGeneric_iff s).mp hg with rfl | ⟨d, _, rfl⟩
    · have := h.2 'i' (by simp); simp [Digit] at this
    · have := h.2 'i' (by simp); simp [Digit] at this

theorem dec_eq (f : Bool) (i : Int) : dec f i = i - base f := by
  cases f <;> simp [dec, base]

theorem Bound.eq {f : Int} {s : List Char} {v : Option Int} (h : Bound f s v) :
    v = if s.isEmpty then none else some (value s - f) := by
  cases h with
  | absent => simp
  | given h => simp [h.1]

theorem bound_of_digits (f : Int) {s : List Char} (h : ∀ x ∈ s, Digit x) :
    Bound f s (if s.isEmpty then none else some (value s - f)) := by
  cases s with
  | nil => exact .absent
  | cons c cs => exact .given ⟨by simp, h⟩

theorem splitChar_slice {a b : List Char} (ha : ∀ x ∈ a, Digit x) (hb : ∀ x ∈ b, Digit x) :
    splitChar ':' (a ++ ':' :: b) = [a, b] := by
  rw [splitChar_append, splitChar_of_not_mem]
  · exact fun h => not_digit_colon (hb _ h)
  · exact fun h => not_digit_colon (ha _ h)

/-- Interpretation of the text between brackets when it is not a nested path. -/
theorem parseIndex_slice {nested : List Char → Except PathErr Parsed} {f : Bool}
    {a b : List Char} (ha : ∀ x ∈ a, Digit x) (hb : ∀ x ∈ b, Digit x) :
    parseIndex nested f (a ++ ':' :: b) =
      .ok (.slice (if a.isEmpty then none else some (value a - base f))
        (if b.isEmpty then none else some (value b - 0))) := by
  have hs : isSlice (a ++ ':' :: b) = true := (isSlice_iff _).mpr ⟨a, b, rfl, ha, hb⟩
  have hmem : ':' ∈ a ++ ':' :: b := by simp
  have hn : isNumber (a ++ ':' :: b) = false := by
    cases h : isNumber (a ++ ':' :: b) with
    | false => rfl
    | true => exact absurd (((isNumber_iff _).mp h).2 _ hmem) not_digit_colon
  have hg : isGeneric (a ++ ':' :: b) = false := by
    cases h : isGeneric (a ++ ':' :: b) with
    | false => rfl
    | true =>
      rcases (isGeneric_iff _).mp h with h | ⟨d, hd, h⟩
      · rw [h] at hmem; simp at hmem
      · rw [h] at hmem; simp at hmem; subst hmem; exact absurd hd not_digit_colon
  simp [parseIndex, hs, hn, hg, splitChar_slice ha hb, toInt_eq, dec_eq]

theorem PathText.head {f : Bool} {need : Bool} {t : List Char} {ps : List (List Char)}
    {is : List (Option Idx)} (h : PathText f need t ps is) :
    t = [] ∨ ∃ c cs, t = c :: cs ∧ (Lower c ∨ c = '/') := by
  cases h with
  | nil => exact .inl rfl
  | plain hs hn rest =>
    right
    rcases hs with rfl | ⟨rfl, _⟩
    · exact ⟨_, _, rfl, .inr rfl⟩
    · obtain ⟨⟨c, cs, rfl, hc, _⟩, _⟩ := hn
      exact ⟨_, _, rfl, .inl hc⟩
  | indexed hs hn hi rest =>
    right
    rcases hs with rfl | ⟨rfl, _⟩
    · exact ⟨_, _, rfl, .inr rfl⟩
    · obtain ⟨⟨c, cs, rfl, hc, _⟩, _⟩ := hn
      exact ⟨_, _, rfl, .inl hc⟩

theorem parseIndex_path {nested : List Char → Except PathErr Parsed} {f : Bool} {t : List Char}
    {ps : List (List Char)} {is : List (Option Idx)} (hg : ¬ Generic t)
    (h : PathText f false t ps is) :
    parseIndex nested f t = match nested t with
      | .error e => .error e
      | .ok r => .ok (.path r.parts r.indices) := by
  have h1 : isGeneric t = false := by
    cases h : isGeneric t with
    | false => rfl
    | true => exact absurd ((isGeneric_iff t).mp h) hg
  have hhead := PathText.head h
  have h2 : isNumber t = false := by
    cases h : isNumber t with
    | false => rfl
    | true =>
      obtain ⟨hne, hd⟩ := (isNumber_iff t).mp h
      rcases hhead with rfl | ⟨c, cs, rfl, hc | rfl⟩
      · exact absurd rfl hne
      · have := hd c (by simp)
        simp [Lower, Digit, Char.le_def, UInt32.le_iff_toNat_le] at this hc; omega
      · exact absurd (hd '/' (by simp)) not_digit_slash
  have h3 : isSlice t = false := by
    cases h : isSlice t with
    | false => rfl
    | true =>
      obtain ⟨a, b, hab, ha, hb⟩ := (isSlice_iff t).mp h
      rcases hhead with rfl | ⟨c, cs, rfl, hc⟩
      · simp at hab
      · cases a with
        | nil => simp at hab; rcases hab with ⟨rfl, _⟩; simp [Lower] at hc
        | cons x a =>
          simp at hab; rcases hab with ⟨rfl, _⟩
          have := ha c (by simp)
          rcases hc with hc | rfl
          · simp [Lower, Digit, Char.le_def, UInt32.le_iff_toNat_le] at this hc; omega
          · exact absurd this not_digit_slash
  simp only [parseIndex, h1, h2, h3, Bool.false_eq_true, if_false]
  cases nested t <;> rfl

/-! ### Completeness: grammar texts are accepted -/

theorem splitPart_sep {need : Bool} {sep name q : List Char} (hs : Sep need sep)
    (hn : FieldName name) (hq : q = [] ∨ ∃ r, q = '/' :: r) :
    splitPart (sep ++ name ++ q) = name :: (if q.isEmpty then [] else splitPart q) := by
  have key : splitPart (sep ++ name ++ q) = splitChar '/' (name ++ q) := by
    rcases hs with rfl | ⟨rfl, _⟩
    · simp [splitPart]
    · obtain ⟨⟨c, cs, rfl, hc, _⟩, _⟩ := hn
      have : c ≠ '/' := by rintro rfl; simp [Lower] at hc
      simp only [splitPart, List.nil_append, List.cons_append]
      split
      · next h => simp at h; exact absurd h.1 this
      · rfl
  rw [key]
  rcases hq with rfl | ⟨r, rfl⟩
  · simp [splitChar_of_not_mem (FieldName.no_slash hn)]
  · simp [splitChar_append (FieldName.no_slash hn), splitPart]

theorem splitPart_ne_nil (p : List Char) : splitPart p ≠ [] := splitChar_ne_nil _ _

/-- Prefixing the first piece with one more plain name. -/
theorem parsePieces_plain {nested : List Char → Except PathErr Parsed} {f need : Bool}
    {sep name q : List Char} {more : List (List Char)} {r : Parsed} (hs : Sep need sep)
    (hn : FieldName name)
    (hq : (q = [] ∧ more = []) ∨ ∃ u, q = '/' :: u)
    (h : parsePieces nested f (q :: more) = .ok r) :
    parsePieces nested f ((sep ++ name ++ q) :: more) = .ok ⟨name :: r.parts, none :: r.indices⟩ := by
  have hne : (sep ++ name ++ q).isEmpty = false := by
    have := FieldName.ne_nil hn
    cases name with
    | nil => exact absurd rfl this
    | cons => simp
  have hsp := splitPart_sep (q := q) hs hn (by rcases hq with ⟨h, _⟩ | h; exact .inl h; exact .inr h)
  cases more with
  | nil =>
    simp only [parsePieces] at h ⊢
    rw [hne, hsp]
    by_cases hqe : q.isEmpty = true
    · simp [hqe] at h ⊢; subst h; simp
    · simp only [Bool.not_eq_true] at hqe
      simp [hqe] at h ⊢; subst h; simp [List.replicate_succ]
  | cons idx rest =>
    rcases hq with ⟨_, h'⟩ | ⟨u, rfl⟩
    · simp at h'
    simp only [parsePieces] at h ⊢
    rw [hne, hsp]
    simp only [List.isEmpty_cons, Bool.false_eq_true, if_false] at h ⊢
    cases hI : parseIndex nested f idx with
    | error e => rw [hI] at h; simp at h
    | ok i =>
      rw [hI] at h
      simp only at h ⊢
      cases hR : parsePieces nested f rest with
      | error e => rw [hR] at h; simp at h
      | ok r' =>
        rw [hR] at h
        simp at h ⊢
        subst h
        have : splitPart ('/' :: u) ≠ [] := splitPart_ne_nil _
        cases hsu : splitPart ('/' :: u) with
        | nil => exact absurd hsu this
        | cons w ws => simp [List.replicate_succ]

theorem find_prefix {pre t : List Char} {ch : Char} (h : ch ∉ pre) :
    find (pre ++ t) ch 0 = (find t ch 0).map (· + pre.length) := by
  have := find_shift pre t ch 0
  rw [← this, find_eq_head, find_eq_head]
  simp [occ_append, occ_eq_nil h]

theorem split_prefix {o c : Char} {pre t q : List Char} {more : List (List Char)}
    (ho : o ∉ pre) (hc : c ∉ pre)
    (h1 : splitOnMatchingParens t o c = .ok (q :: more)) :
    splitOnMatchingParens (pre ++ t) o c = .ok ((pre ++ q) :: more) := by
  have e1 := find_prefix (t := t) ho
  have e2 := find_prefix (t := t) hc
  unfold splitOnMatchingParens splitLoop at h1 ⊢
  split at h1
  · next h =>
    rw [h] at e1
    simp at h1 e1
    rcases h1 with ⟨rfl, rfl⟩
    split
    · simp
    · next h' => rw [e1] at h'; simp at h'
  · next no h =>
    rw [h] at e1; simp at e1
    split at h1
    · simp at h1
    · next nc h' =>
      rw [h'] at e2; simp at e2
      split at h1
      · simp at h1
      · next hgt =>
        split at h1
        · simp at h1
        · next nc' hm =>
          split at h1
          · simp at h1
          · next rest hr =>
            simp at h1
            rcases h1 with ⟨rfl, rfl⟩
            have hm' := matchClose_shift pre t o c (find t o (no + 1)) nc
            have h4 := find_shift pre t o (no + 1)
            have e4 : pre.length + (no + 1) = no + pre.length + 1 := by omega
            rw [e4] at h4
            rw [← h4, hm] at hm'
            simp [Except.map] at hm'
            have hr' := splitLoop_shift pre t o c (nc' + 1)
            have e5 : nc' + 1 + pre.length = nc' + pre.length + 1 := by omega
            rw [hr, e5] at hr'
            split
            · next h'' => rw [e1] at h''; simp at h''
            · next n h'' =>
              rw [e1] at h''; simp at h''; subst h''
              split
              · next h'' => rw [e2] at h''; simp at h''
              · next n h'' =>
                rw [e2] at h''; simp at h''; subst h''
                have : ¬ no + pre.length > nc + pre.length := by omega
                simp only [this, if_false]
                split
                · next h'' => rw [hm'] at h''; simp at h''
                · next n h'' =>
                  rw [hm'] at h''; simp at h''; subst h''
                  rw [hr']
                  have e6 : no + pre.length + 1 = no + 1 + pre.length := by omega
                  rw [e6, slice_shift]
                  have e7 : slice (pre ++ t) 0 (no + pre.length) = pre ++ slice t 0 no := by
                    simp [slice, Nat.add_comm no, List.take_append, List.take_of_length_le]
                  simp [e7]

theorem PathText.complete {f : Bool} {nested : List Char → Except PathErr Parsed} {N : Nat}
    (H : ∀ t ps is, t.length < N → PathText f false t ps is → nested t = .ok ⟨ps, is⟩)
    {need : Bool} {t : List Char} {ps : List (List Char)} {is : List (Option Idx)}
    (h : PathText f need t ps is) (hlen : t.length ≤ N) :
    ∃ q more, splitOnMatchingParens t (openChar f) (closeChar f) = .ok (q :: more) ∧
      (need = true → (q = [] ∧ more = []) ∨ ∃ u, q = '/' :: u) ∧
      parsePieces nested f (q :: more) = .ok ⟨ps, is⟩ := by
  cases h with
  | nil => exact ⟨[], [], split_plain (by simp), by simp, by simp [parsePieces]⟩
  | @plain _ sep name t ps is hs hn rest =>
    have hlen' : t.length ≤ N := by simp at hlen; omega
    obtain ⟨q, more, h1, h2, h3⟩ := PathText.complete H rest hlen'
    have h2 := h2 rfl
    have hpl : ∀ x ∈ sep ++ name, PlainChar x := by
      intro x hx
      rcases List.mem_append.mp hx with hx | hx
      · exact Sep.plain hs x hx
      · exact FieldName.plain hn x hx
    refine ⟨sep ++ name ++ q, more, ?_, ?_, parsePieces_plain hs hn h2 h3⟩
    · -- splitting
      cases rest with
      | nil =>
        rw [split_plain (by simp)] at h1
        simp at h1; rcases h1 with ⟨rfl, rfl⟩
        rw [split_plain]
        intro hx
        simp only [List.append_nil] at hx
        exact (hpl _ hx).ne_open f rfl
      | @plain _ sep' name' t' ps' is' hs' hn' rest' =>
        exact split_prefix (fun hx => (hpl _ hx).ne_open f rfl)
          (fun hx => (hpl _ hx).ne_close f rfl) h1
      | @indexed _ sep' name' it' t' idx' ps' is' hs' hn' hi' rest' =>
        exact split_prefix (fun hx => (hpl _ hx).ne_open f rfl)
          (fun hx => (hpl _ hx).ne_close f rfl) h1
    · intro hneed
      rcases hs with rfl | ⟨_, h⟩
      · exact .inr ⟨name ++ q, by simp⟩
      · rw [hneed] at h; simp at h
  | @indexed _ sep name it t idx ps is hs hn hi rest =>
    have hlen' : t.length ≤ N := by simp at hlen; omega
    have hit : it.length < N := by simp at hlen; omega
    obtain ⟨q, more, h1, h2, h3⟩ := PathText.complete H rest hlen'
    have hpl : ∀ x ∈ sep ++ name, PlainChar x := by
      intro x hx
      rcases List.mem_append.mp hx with hx | hx
      · exact Sep.plain hs x hx
      · exact FieldName.plain hn x hx
    refine ⟨sep ++ name, it :: q :: more, ?_, ?_, ?_⟩
    · have e : sep ++ name ++ opening f :: it ++ closing f :: t =
          (sep ++ name) ++ openChar f :: (it ++ closeChar f :: t) := by
        simp [opening, closing, openChar, closeChar]
      rw [e, split_indexed (open_ne_close f) (fun hx => (hpl _ hx).ne_open f rfl)
        (fun hx => (hpl _ hx).ne_close f rfl) (IndexText.bal hi), h1]
    · intro hneed
      rcases hs with rfl | ⟨_, h⟩
      · exact .inr ⟨name, by simp⟩
      · rw [hneed] at h; simp at h
    · have hne : (sep ++ name).isEmpty = false := by
        have := FieldName.ne_nil hn
        cases name with
        | nil => exact absurd rfl this
        | cons => simp
      have hsp := splitPart_sep (q := []) hs hn (.inl rfl)
      simp at hsp
      have hI : parseIndex nested f it = .ok idx := by
        cases hi with
        | generic h => simp [parseIndex, (isGeneric_iff _).mpr h]
        | num h =>
          simp [parseIndex, number_not_generic h, (isNumber_iff _).mpr h, toInt_eq, dec_eq]
        | slice ha hb =>
          rw [parseIndex_slice (Bound.digits ha) (Bound.digits hb), ← Bound.eq ha, ← Bound.eq hb]
        | path hg h => rw [parseIndex_path hg h, H _ _ _ hit h]
      rw [parsePieces]
      simp [hne, hsp, hI, h3]

theorem contains_iff {t : List Char} {c : Char} : t.contains c = true ↔ c ∈ t := by simp

/-- Texts of the grammar pass the mixed-style check, and the style is recognised (or does
not matter). -/
theorem PathText.style {f : Bool} {t : List Char} {ps : List (List Char)}
    {is : List (Option Idx)} (h : PathText f false t ps is) :
    PathText (t.contains '(') false t ps is ∧ (t.contains '(' && t.contains '[') = false := by
  have hch := PathText.chars h
  have np1 : ¬ PlainChar '(' := by simp [PlainChar, Lower, Digit]
  have np2 : ¬ PlainChar '[' := by simp [PlainChar, Lower, Digit]
  cases f with
  | true =>
    have h2 : t.contains '[' = false := by
      cases hc : t.contains '[' with
      | false => rfl
      | true =>
        rcases hch _ (contains_iff.mp hc) with h | h | h
        · exact absurd h np2
        · simp [openChar] at h
        · simp [closeChar] at h
    cases hc : t.contains '(' with
    | true => exact ⟨h, by rw [h2]; rfl⟩
    | false =>
      exact ⟨PathText.change_style h (by
        intro hm; have := contains_iff.mpr hm; simp only [openChar, if_true] at this
        rw [hc] at this; simp at this), by simp⟩
  | false =>
    have h2 : t.contains '(' = false := by
      cases hc : t.contains '(' with
      | false => rfl
      | true =>
        rcases hch _ (contains_iff.mp hc) with h | h | h
        · exact absurd h np1
        · simp [openChar] at h
        · simp [closeChar] at h
    rw [h2]; exact ⟨h, by simp⟩

theorem PathText.valid {f need : Bool} {t : List Char} {ps : List (List Char)}
    {is : List (Option Idx)} (h : PathText f need t ps is) : ps.all isValidField = true := by
  cases h with
  | nil => rfl
  | plain _ hn rest => simp [(isValidField_iff _).mpr hn, PathText.valid rest]
  | indexed _ hn _ rest => simp [(isValidField_iff _).mpr hn, PathText.valid rest]

theorem PathText.lengths {f need : Bool} {t : List Char} {ps : List (List Char)}
    {is : List (Option Idx)} (h : PathText f need t ps is) : is.length = ps.length := by
  cases h with
  | nil => rfl
  | plain _ hn rest => simp [PathText.lengths rest]
  | indexed _ hn _ rest => simp [PathText.lengths rest]

theorem count_plain {t : List Char} (h : ∀ x ∈ t, PlainChar x) {c : Char} (hc : ¬ PlainChar c) :
    t.count c = 0 :=
  List.count_eq_zero.mpr fun hm => hc (h c hm)

theorem not_plain_brackets : ¬ PlainChar '(' ∧ ¬ PlainChar ')' ∧ ¬ PlainChar '[' ∧ ¬ PlainChar ']' := by
  simp [PlainChar, Lower, Digit]

/-- Equally many opening and closing brackets, of each kind. -/
def Counts (t : List Char) : Prop := t.count '(' = t.count ')' ∧ t.count '[' = t.count ']'

theorem Counts.of_plain {t : List Char} (h : ∀ x ∈ t, PlainChar x) : Counts t := by
  obtain ⟨h1, h2, h3, h4⟩ := not_plain_brackets
  simp [Counts, count_plain h h1, count_plain h h2, count_plain h h3, count_plain h h4]

mutual
theorem PathText.counts {f need : Bool} {t : List Char} {ps : List (List Char)}
    {is : List (Option Idx)} (h : PathText f need t ps is) : Counts t := by
  cases h with
  | nil => simp [Counts]
  | plain hs hn rest =>
    have h1 := Counts.of_plain (Sep.plain hs)
    have h2 := Counts.of_plain (FieldName.plain hn)
    have h3 := PathText.counts rest
    simp only [Counts, List.count_append] at *
    omega
  | indexed hs hn hi rest =>
    have h1 := Counts.of_plain (Sep.plain hs)
    have h2 := Counts.of_plain (FieldName.plain hn)
    have h3 := PathText.counts rest
    have h4 := IndexText.counts hi
    simp only [Counts, List.count_append, List.count_cons] at *
    cases f <;> simp [opening, closing] <;> omega
theorem IndexText.counts {f : Bool} {t : List Char} {i : Idx} (h : IndexText f t i) : Counts t := by
  cases h with
  | generic h => exact Counts.of_plain (Generic.plain h)
  | num h => exact Counts.of_plain (Number.plain h)
  | slice ha hb =>
    have h1 := Counts.of_plain (Bound.plain ha)
    have h2 := Counts.of_plain (Bound.plain hb)
    simp only [Counts, List.count_append, List.count_cons] at *
    simp; omega
  | path _ h => exact PathText.counts h
end

theorem parsePath_complete (n : Nat) {t : List Char} {ps : List (List Char)}
    {is : List (Option Idx)} (hlen : t.length < n) {f : Bool} (h : PathText f false t ps is) :
    parsePath n t = .ok ⟨ps, is⟩ := by
  induction n generalizing t ps is f with
  | zero => omega
  | succ n ih =>
    obtain ⟨hs, hmix⟩ := PathText.style h
    obtain ⟨q, more, h1, _, h3⟩ := PathText.complete (nested := parsePath n) (N := n)
      (fun t ps is hl h => ih hl h) hs (by omega)
    have hv := PathText.valid h
    simp only [parsePath, hmix, h1, h3, hv]
    simp

/-! ### Soundness: accepted texts are in the grammar -/

/-- A list of names joined by slashes, followed by whatever may follow a name. -/
theorem pathText_names {f : Bool} {X : List Char} {P : List (List Char)}
    {I : List (Option Idx)} {i : Option Idx} (ns : List (List Char)) (n : List Char)
    (K : ∀ need sep name, PathSpec.Sep need sep → FieldName name →
      PathText f need (sep ++ name ++ X) (name :: P) (i :: I))
    (hv : ∀ x ∈ n :: ns, FieldName x) {need : Bool} {sep : List Char} (hs : PathSpec.Sep need sep) :
    PathText f need (sep ++ joinChar '/' (n :: ns) ++ X) (n :: ns ++ P)
      (List.replicate ns.length none ++ i :: I) := by
  induction ns generalizing n need sep with
  | nil => simpa [joinChar] using K need sep n hs (hv n (by simp))
  | cons m ms ih =>
    have := ih m (fun x hx => hv x (by simp [List.mem_cons.mp hx])) (need := true) (sep := ['/']) (.inl rfl)
    have h := PathText.plain hs (hv n (by simp)) this
    simpa [joinChar, List.replicate_succ] using h

theorem splitPart_join {part : List Char} (h : part ≠ []) :
    ∃ sep, PathSpec.Sep false sep ∧ part = sep ++ joinChar '/' (splitPart part) := by
  unfold splitPart
  rw [joinChar_splitChar]
  split
  · exact ⟨['/'], .inl rfl, rfl⟩
  · exact ⟨[], .inr ⟨rfl, rfl⟩, rfl⟩

theorem parseIndex_sound {nested : List Char → Except PathErr Parsed} {f : Bool}
    {t : List Char} {idx : Idx}
    (H : ∀ r, nested t = .ok r → PathText f false t r.parts r.indices)
    (h : parseIndex nested f t = .ok idx) : IndexText f t idx := by
  unfold parseIndex at h
  split at h
  · next hg => simp at h; subst h; exact .generic ((isGeneric_iff t).mp hg)
  · next hg =>
    split at h
    · next hn =>
      simp at h; subst h
      rw [dec_eq, toInt_eq]
      exact .num ((isNumber_iff t).mp hn)
    · split at h
      · next hs =>
        obtain ⟨a, b, rfl, ha, hb⟩ := (isSlice_iff t).mp hs
        rw [splitChar_slice ha hb] at h
        simp [toInt_eq, dec_eq] at h
        subst h
        have h1 := bound_of_digits (base f) ha
        have h2 := bound_of_digits 0 hb
        have := IndexText.slice h1 h2
        simpa using this
      · split at h
        · simp at h
        · next r hr =>
          simp at h; subst h
          exact .path (fun hg' => hg ((isGeneric_iff t).mpr hg')) (H r hr)

theorem parsePieces_sound {nested : List Char → Except PathErr Parsed} {f : Bool}
    {pieces : List (List Char)} {r : Parsed}
    (H : ∀ t r, (∀ x ∈ t, x ∈ glue (openChar f) (closeChar f) pieces) →
      nested t = .ok r → PathText f false t r.parts r.indices)
    (hodd : pieces.length % 2 = 1)
    (h : parsePieces nested f pieces = .ok r) (hv : ∀ x ∈ r.parts, FieldName x) :
    PathText f false (glue (openChar f) (closeChar f) pieces) r.parts r.indices := by
  fun_induction parsePieces nested f pieces generalizing r with
  | case1 => simp at hodd
  | case2 last hl => simp at h hl; subst h; simp [glue, hl]; exact .nil
  | case3 =>
    rename_i last hl names
    have hnm : splitPart last = names := rfl
    clear_value names
    simp at h hl
    subst h
    obtain ⟨sep, hs, he⟩ := splitPart_join hl
    simp only [glue]
    have hne := splitPart_ne_nil last
    cases hsp : splitPart last with
    | nil => exact absurd hsp hne
    | cons n ns =>
      have hnames : names = n :: ns := hnm.symm.trans hsp
      have := pathText_names (f := f) (X := []) (P := []) (I := []) (i := none) ns n
        (fun need sep name hs hn => by simpa using PathText.plain hs hn .nil)
        (fun x hx => hv x (by simpa [hnames] using hx)) hs
      rw [he, hsp]
      simp only [hnames]
      have e : List.replicate (n :: ns).length (none : Option Idx) = List.replicate ns.length none ++ [none] := by
        simp [List.replicate_succ']
      rw [e]
      simpa using this
  | case4 part index rest hp => simp at h
  | case5 part index rest hp e hI => simp at h
  | case6 part index rest hp idx hI e hR => simp at h
  | case7 =>
    rename_i part index rest hp names idx hI r' hR ih
    have hnm : splitPart part = names := rfl
    clear_value names
    simp at h hp
    have hodd' : rest.length % 2 = 1 := by simp at hodd; omega
    subst h
    have hrest := ih (fun t r hx hn => H t r (fun x hxx => by
        simp only [glue, List.mem_append, List.mem_cons]
        exact .inr (.inr (.inr (.inr (hx x hxx))))) hn) hodd' hR
      (fun x hx => hv x (by simp [hx]))
    have hidx := parseIndex_sound (fun r hr => H index r (fun x hx => by
        simp only [glue, List.mem_append, List.mem_cons]
        exact .inr (.inr (.inl hx))) hr) hI
    obtain ⟨sep, hs, he⟩ := splitPart_join hp
    have hne := splitPart_ne_nil part
    simp only [glue]
    cases hsp : splitPart part with
    | nil => exact absurd hsp hne
    | cons n ns =>
      have hnames : names = n :: ns := hnm.symm.trans hsp
      have := pathText_names (f := f) (X := openChar f :: (index ++ closeChar f :: glue (openChar f) (closeChar f) rest))
        (P := r'.parts) (I := r'.indices) (i := some idx) ns n
        (fun need sep name hs hn => by
          have := PathText.indexed hs hn hidx hrest
          simpa [opening, closing, openChar, closeChar] using this)
        (fun x hx => hv x (by rw [hnames]; simp at hx ⊢; rcases hx with h | h; exact .inl h; exact .inr (.inl h))) hs
      rw [he, hsp]
      rw [hnames]
      simpa using this

theorem parsePath_sound (n : Nat) {t : List Char} {r : Parsed} (h : parsePath n t = .ok r) :
    PathText (t.contains '(') false t r.parts r.indices := by
  induction n generalizing t r with
  | zero => simp [parsePath] at h
  | succ n ih =>
    simp only [parsePath] at h
    split at h
    · simp at h
    · next hmix =>
      split at h
      · simp at h
      · next pieces hsp =>
        split at h
        · simp at h
        · next r' hp =>
          split at h
          · next hv =>
            simp at h; subst h
            obtain ⟨hg, hodd⟩ := splitLoop_glue (open_ne_close _) hsp
            rw [List.drop_zero] at hg
            have := parsePieces_sound (f := t.contains '(') (fun t' r'' hsub hn => ?_) hodd hp
              (fun x hx => (isValidField_iff x).mp (List.all_eq_true.mp hv x hx))
            · rwa [hg] at this
            · rw [hg] at hsub
              have h' := ih hn
              cases hc : t.contains '(' with
              | false =>
                have : t'.contains '(' = false := by
                  cases hc' : t'.contains '(' with
                  | false => rfl
                  | true => rw [contains_iff.mpr (hsub _ (contains_iff.mp hc'))] at hc; simp at hc
                rwa [this] at h'
              | true =>
                cases hc' : t'.contains '(' with
                | true => rwa [hc'] at h'
                | false =>
                  rw [hc'] at h'
                  refine PathText.change_style h' ?_
                  intro hm
                  have h1 := hsub _ hm
                  simp only [openChar, Bool.false_eq_true, if_false] at h1
                  rw [hc, contains_iff.mpr h1] at hmix
                  simp at hmix
          · simp at h

/-! ### Errors -/

theorem matchClose_error {p : List Char} {o c : Char} {no : Option Nat} {nc : Nat} {e : PathErr}
    (h : matchClose p o c no nc = .error e) : e = .value := by
  fun_induction matchClose p o c no nc with
  | case1 | case4 => simp at h
  | case2 => simp at h; exact h.symm
  | case3 _ _ _ _ _ ih => exact ih h

theorem splitLoop_error {p : List Char} {o c : Char} {cur : Nat} {e : PathErr}
    (h : splitLoop p o c cur = .error e) : e = .value := by
  fun_induction splitLoop p o c cur with
  | case1 | case6 => simp at h
  | case2 | case3 => simp at h; exact h.symm
  | case4 _ _ _ _ _ _ _ hm => simp at h; subst h; exact matchClose_error hm
  | case5 _ _ _ _ _ _ _ _ _ hr ih => simp at h; subst h; exact ih hr

theorem parseIndex_error {nested : List Char → Except PathErr Parsed} {f : Bool}
    {t : List Char} {e : PathErr} (H : ∀ e, nested t = .error e → e = .value)
    (h : parseIndex nested f t = .error e) : e = .value := by
  unfold parseIndex at h
  split at h
  · simp at h
  · split at h
    · simp at h
    · split at h
      · split at h
        · simp at h
        · simp at h; exact h.symm
      · split at h
        · next he => simp at h; subst h; exact H _ he
        · simp at h

theorem parsePieces_error {nested : List Char → Except PathErr Parsed} {f : Bool}
    {pieces : List (List Char)} {e : PathErr} {o c : Char}
    (H : ∀ t e, t.length < (glue o c pieces).length → nested t = .error e → e = .value)
    (h : parsePieces nested f pieces = .error e) : e = .value := by
  fun_induction parsePieces nested f pieces with
  | case1 | case2 | case3 => simp at h
  | case4 => simp at h; exact h.symm
  | case5 part index rest hp e hI =>
    simp at h; subst h
    exact parseIndex_error (fun e he => H index e (by simp [glue]; omega) he) hI
  | case6 part index rest hp idx hI e hR ih =>
    simp at h; subst h
    exact ih (fun t e ht he => H t e (by simp [glue]; omega) he) hR
  | case7 => simp at h

theorem parsePath_error (n : Nat) {t : List Char} {e : PathErr} (hlen : t.length < n)
    (h : parsePath n t = .error e) : e = .value := by
  induction n generalizing t e with
  | zero => omega
  | succ n ih =>
    simp only [parsePath] at h
    split at h
    · simp at h; exact h.symm
    · split at h
      · next e' hsp => simp at h; subst h; exact splitLoop_error hsp
      · next pieces hsp =>
        obtain ⟨hg, _⟩ := splitLoop_glue (open_ne_close _) hsp
        split at h
        · next e' hp =>
          simp at h; subst h
          refine parsePieces_error (o := openChar (t.contains '(')) (c := closeChar (t.contains '('))
            (fun t' e' ht' he => ih ?_ he) hp
          rw [hg] at ht'; simp at ht'; omega
        · split at h
          · simp at h
          · simp at h; exact h.symm

end Verif.Path
