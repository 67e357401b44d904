import Verif.Model.Coordinate
import Verif.Spec.PyInt
/-!
`int(text)` accepts the texts of numbers and gives the number.
-/
namespace Verif.Coord
open Verif.PyIntSpec

theorem white_iff (c : Char) : isSpace c = true ↔ White c := by
  have key : ∀ (n : Nat) (d : Char), d.toNat = n → (c = d ↔ c.toNat = n) := by
    intro n d h
    constructor
    · rintro rfl; exact h
    · intro h'
      have : c.toNat = d.toNat := by rw [h', h]
      exact Char.ext (UInt32.toNat_inj.1 this)
  unfold isSpace White
  simp only [List.mem_cons, List.not_mem_nil, or_false, Bool.or_eq_true, beq_iff_eq, Bool.and_eq_true, decide_eq_true_eq]
  rw [key 32 ' ' rfl, key 9 '\t' rfl, key 10 '\n' rfl, key 11 '\x0b' rfl, key 12 '\x0c' rfl, key 13 '\r' rfl,
    key 28 '\x1c' rfl, key 29 '\x1d' rfl, key 30 '\x1e' rfl, key 31 '\x1f' rfl]
  omega

theorem dropWhile_none {l : List Char} {c : Char} {t : List Char} (h : ∀ x ∈ l, isSpace x = true)
    (hc : isSpace c = false) : (l ++ c :: t).dropWhile isSpace = c :: t := by
  induction l with
  | nil => simp [hc]
  | cons x l ih => simp [h x (by simp), ih fun y hy => h y (by simp [hy])]

theorem dropWhile_split (s : List Char) : ∃ l, (∀ x ∈ l, isSpace x = true) ∧ s = l ++ s.dropWhile isSpace := by
  refine ⟨s.takeWhile isSpace, fun x hx => ?_, (List.takeWhile_append_dropWhile).symm⟩
  induction s with
  | nil => simp at hx
  | cons c s ih =>
    rw [List.takeWhile_cons] at hx
    split at hx
    · next h =>
      rcases List.mem_cons.1 hx with rfl | hx
      · exact h
      · exact ih hx
    · cases hx

theorem strip_split (s : List Char) :
    ∃ l r, (∀ x ∈ l, isSpace x = true) ∧ (∀ x ∈ r, isSpace x = true) ∧ s = l ++ strip s ++ r := by
  obtain ⟨l, h1, h2⟩ := dropWhile_split s
  obtain ⟨r, h3, h4⟩ := dropWhile_split (s.dropWhile isSpace).reverse
  refine ⟨l, r.reverse, h1, by simpa using h3, ?_⟩
  have h5 := congrArg List.reverse h4
  rw [List.reverse_reverse, List.reverse_append] at h5
  unfold strip
  rw [List.append_assoc, ← h5]
  exact h2

/-- White space around a text that neither starts nor ends with it. -/
theorem strip_eq {l t r : List Char} (hl : ∀ x ∈ l, isSpace x = true) (hr : ∀ x ∈ r, isSpace x = true)
    {a z : Char} {t1 t2 : List Char} (h1 : t = a :: t1) (h2 : t = t2 ++ [z]) (ha : isSpace a = false) (hz : isSpace z = false) :
    strip (l ++ t ++ r) = t := by
  unfold strip
  rw [List.append_assoc, h1, List.cons_append, dropWhile_none hl ha, ← List.cons_append, ← h1, h2,
    List.reverse_append, List.reverse_append]
  simp only [List.reverse_cons, List.reverse_nil, List.nil_append, List.singleton_append]
  rw [dropWhile_none (by simpa using hr) hz]
  simp

theorem digits_cons {t : List Char} {ds : List Nat} (h : Digits t ds) : ∃ c u, t = c :: u ∧ c.isDigit = true := by
  cases h with
  | last h => exact ⟨_, _, rfl, h⟩
  | next h _ => exact ⟨_, _, rfl, h⟩
  | underscore h _ => exact ⟨_, _, rfl, h⟩

theorem digits_last {t : List Char} {ds : List Nat} (h : Digits t ds) : ∃ u z, t = u ++ [z] ∧ z.isDigit = true := by
  induction h with
  | last h => exact ⟨[], _, rfl, h⟩
  | @next c t ds _ _ ih => obtain ⟨u, z, rfl, h⟩ := ih; exact ⟨c :: u, z, rfl, h⟩
  | @underscore c t ds _ _ ih => obtain ⟨u, z, rfl, h⟩ := ih; exact ⟨c :: '_' :: u, z, rfl, h⟩

theorem digits_count {t : List Char} {ds : List Nat} (h : Digits t ds) : t.countP Char.isDigit = ds.length := by
  induction h with
  | last h => simp [h]
  | next h _ ih => simp [h, ih]
  | underscore h _ ih => simp [h, ih, show Char.isDigit '_' = false from rfl]

theorem digitTail_iff (k : Nat) : ∀ (s : List Char) (c : Char) (acc n : Nat), s.length ≤ k → c.isDigit = true →
    (digitTail acc (c :: s) = some n ↔ ∃ ds, Digits (c :: s) ds ∧ n = ds.foldl (fun n d => 10 * n + d) acc) := by
  induction k with
  | zero =>
    intro s c acc n hs hc
    have : s = [] := List.length_eq_zero_iff.1 (by omega)
    subst this
    simp only [digitTail, hc, if_pos, Option.some.injEq]
    constructor
    · rintro rfl; exact ⟨_, .last hc, rfl⟩
    · rintro ⟨ds, h, rfl⟩
      cases h with
      | last _ => rfl
      | next _ h => cases h
  | succ k ih =>
    intro s c acc n hs hc
    cases s with
    | nil =>
      simp only [digitTail, hc, if_pos, Option.some.injEq]
      constructor
      · rintro rfl; exact ⟨_, .last hc, rfl⟩
      · rintro ⟨ds, h, rfl⟩
        cases h with
        | last _ => rfl
        | next _ h => cases h
    | cons d s =>
      have hlen : s.length ≤ k := by simpa using hs
      rw [digitTail, if_pos hc]
      by_cases hd : d.isDigit = true
      · rw [ih s d _ n hlen hd]
        constructor
        · rintro ⟨ds, h1, rfl⟩
          exact ⟨_, .next hc h1, rfl⟩
        · rintro ⟨ds, h1, rfl⟩
          cases h1 with
          | next _ h => exact ⟨_, h, rfl⟩
          | underscore _ h => exact absurd hd (by decide)
      · have hno : ∀ ds, ¬ Digits (d :: s) ds := by
          intro ds h
          obtain ⟨c', u, h1, h2⟩ := digits_cons h
          cases h1
          exact hd h2
        cases s with
        | nil =>
          simp only [digitTail, hd, Bool.false_eq_true, if_false]
          constructor
          · intro h; cases h
          · rintro ⟨ds, h1, rfl⟩
            cases h1 with
            | next _ h => exact absurd h (hno _)
            | underscore _ h => cases h
        | cons e s =>
          rw [digitTail, if_neg (by simpa using hd)]
          split
          · next hu =>
            simp only [Bool.and_eq_true, beq_iff_eq] at hu
            obtain ⟨rfl, he⟩ := hu
            rw [ih s e _ n (by simp at hlen; omega) he]
            constructor
            · rintro ⟨ds, h1, rfl⟩
              exact ⟨_, .underscore hc h1, rfl⟩
            · rintro ⟨ds, h1, rfl⟩
              cases h1 with
              | next _ h => exact absurd h (hno _)
              | underscore _ h => exact ⟨_, h, rfl⟩
          · next hu =>
            constructor
            · intro h; cases h
            · rintro ⟨ds, h1, rfl⟩
              cases h1 with
              | next _ h => exact absurd h (hno _)
              | underscore _ h =>
                exfalso
                obtain ⟨c', u, h1, h2⟩ := digits_cons h
                cases h1
                exact hu (by simp [h2])

theorem digitString_iff (s : List Char) (n : Nat) :
    digitString s = some n ↔ ∃ ds, Digits s ds ∧ ds.length ≤ 4300 ∧ n = value ds := by
  unfold digitString value
  cases s with
  | nil =>
    constructor
    · intro h; cases h
    · rintro ⟨ds, h, -⟩; cases h
  | cons c s =>
    simp only
    split
    · next h =>
      simp only [Bool.and_eq_true, decide_eq_true_eq] at h
      rw [digitTail_iff s.length s c 0 n (Nat.le_refl _) h.1]
      constructor
      · rintro ⟨ds, h1, h2⟩
        exact ⟨ds, h1, by rw [← digits_count h1]; exact h.2, h2⟩
      · rintro ⟨ds, h1, -, h2⟩
        exact ⟨ds, h1, h2⟩
    · next h =>
      constructor
      · intro h; cases h
      · rintro ⟨ds, h1, h2, -⟩
        exfalso
        refine h ?_
        obtain ⟨c', u, h3, h4⟩ := digits_cons h1
        cases h3
        simp only [h4, Bool.true_and, decide_eq_true_eq]
        rw [digits_count h1]
        exact h2

theorem digit_not_space {c : Char} (h : c.isDigit = true) : isSpace c = false := by
  simp only [Char.isDigit, Bool.and_eq_true, decide_eq_true_eq, ge_iff_le, UInt32.le_iff_toNat_le] at h
  have h1 : 48 ≤ c.toNat := h.1
  have h2 : c.toNat ≤ 57 := h.2
  cases hs : isSpace c with
  | false => rfl
  | true =>
    exfalso
    unfold isSpace at hs
    simp only [Bool.or_eq_true, beq_iff_eq, Bool.and_eq_true, decide_eq_true_eq] at hs
    rcases hs with (rfl | hs) | hs
    · exact absurd h1 (by decide)
    · omega
    · omega

/-- Python's `int` accepts exactly the texts of numbers, and gives the number. -/
theorem pyInt_iff (s : List Char) (n : Int) : pyInt s = some n ↔ WritesInt s n := by
  constructor
  · intro h
    obtain ⟨l, r, h1, h2, h3⟩ := strip_split s
    have key : ∀ sign k body m, strip s = sign ++ body → Sign sign k → digitString body = some m → n = k * (m : Int) →
        WritesInt s n := by
      intro sign k body m e hs hd hn
      obtain ⟨ds, g1, g2, rfl⟩ := (digitString_iff body m).1 hd
      refine ⟨l, sign, k, body, ds, r, ?_, fun c hc => (white_iff c).1 (h1 c hc), fun c hc => (white_iff c).1 (h2 c hc),
        hs, g1, g2, hn⟩
      rw [h3, e, List.append_assoc l sign body]
    unfold pyInt at h
    split at h
    · next t e =>
      obtain ⟨m, h4, rfl⟩ := Option.map_eq_some_iff.1 h
      exact key ['+'] 1 t m e .plus h4 (by simp)
    · next t e =>
      obtain ⟨m, h4, rfl⟩ := Option.map_eq_some_iff.1 h
      exact key ['-'] (-1) t m e .minus h4 (by simp)
    · obtain ⟨m, h4, rfl⟩ := Option.map_eq_some_iff.1 h
      exact key [] 1 _ m rfl .none h4 (by simp)
  · rintro ⟨l, sign, k, body, ds, r, rfl, h1, h2, h3, h4, h5, rfl⟩
    have hl : ∀ x ∈ l, isSpace x = true := fun x hx => (white_iff x).2 (h1 x hx)
    have hr : ∀ x ∈ r, isSpace x = true := fun x hx => (white_iff x).2 (h2 x hx)
    obtain ⟨c, u, e1, e2⟩ := digits_cons h4
    obtain ⟨v, z, e3, e4⟩ := digits_last h4
    have hd := (digitString_iff body (value ds)).2 ⟨ds, h4, h5, rfl⟩
    have hz := digit_not_space e4
    cases h3 with
    | none =>
      have : strip (l ++ [] ++ body ++ r) = body := by
        rw [List.append_nil]
        exact strip_eq hl hr e1 e3 (digit_not_space e2) hz
      unfold pyInt
      rw [this]
      split
      · next t => cases e1; exact absurd e2 (by decide)
      · next t => cases e1; exact absurd e2 (by decide)
      · rw [hd]; simp
    | plus =>
      have : strip (l ++ ['+'] ++ body ++ r) = '+' :: body := by
        rw [List.append_assoc l]
        exact strip_eq hl hr (a := '+') (t1 := body) (t2 := '+' :: v) rfl (by rw [e3]; rfl) rfl hz
      unfold pyInt
      rw [this]
      simp [hd]
    | minus =>
      have : strip (l ++ ['-'] ++ body ++ r) = '-' :: body := by
        rw [List.append_assoc l]
        exact strip_eq hl hr (a := '-') (t1 := body) (t2 := '-' :: v) rfl (by rw [e3]; rfl) rfl hz
      unfold pyInt
      rw [this]
      simp [hd]

end Verif.Coord
