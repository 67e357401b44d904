import Verif.Model.Hash
set_option linter.unusedSectionVars false
namespace Verif.Ids

/-! ### UTF-8 -/

theorem utf8_nil : utf8 [] = [] := rfl
theorem utf8_cons (c : Char) (s : List Char) : utf8 (c :: s) = String.utf8EncodeChar c ++ utf8 s := by
  simp [utf8]

theorem utf8_append (s t : List Char) : utf8 (s ++ t) = utf8 s ++ utf8 t := by
  simp [utf8, List.flatMap_append]

theorem utf8Char_inj {c d : Char} {s t : Bytes}
    (h : String.utf8EncodeChar c ++ s = String.utf8EncodeChar d ++ t) : c = d ∧ s = t := by
  have h1 := ByteArray.utf8DecodeChar?_utf8EncodeChar_append (b := s.toByteArray) (c := c)
  have h2 := ByteArray.utf8DecodeChar?_utf8EncodeChar_append (b := t.toByteArray) (c := d)
  rw [← List.toByteArray_append] at h1 h2
  rw [h, h2] at h1
  simp at h1
  subst h1
  exact ⟨rfl, List.append_cancel_left h⟩

/-- If the encodings of two texts begin alike, one text is a prefix of the other. -/
theorem utf8_prefix (s t : List Char) (u v : Bytes) (h : utf8 s ++ u = utf8 t ++ v) :
    (∃ r, t = s ++ r) ∨ (∃ r, s = t ++ r) := by
  induction s generalizing t with
  | nil => exact .inl ⟨t, rfl⟩
  | cons c s ih =>
    cases t with
    | nil => exact .inr ⟨c :: s, rfl⟩
    | cons d t =>
      simp only [utf8_cons, List.append_assoc] at h
      obtain ⟨rfl, g⟩ := utf8Char_inj h
      rcases ih t g with ⟨r, rfl⟩ | ⟨r, rfl⟩
      · exact .inl ⟨r, rfl⟩
      · exact .inr ⟨r, rfl⟩

theorem utf8_eq_nil {s : List Char} (h : utf8 s = []) : s = [] := by
  cases s with
  | nil => rfl
  | cons c s =>
    simp only [utf8_cons, List.append_eq_nil_iff] at h
    exact absurd h.1 String.utf8EncodeChar_ne_nil

theorem utf8_inj {s t : List Char} (h : utf8 s = utf8 t) : s = t := by
  rcases utf8_prefix s t [] [] (by rw [h]) with ⟨r, rfl⟩ | ⟨r, rfl⟩
  · simp [utf8_append] at h; rw [utf8_eq_nil h]; simp
  · simp [utf8_append] at h; rw [utf8_eq_nil h]; simp

/-! ### Numbers -/

theorem le_length (k n : Nat) : (le k n).length = k := by
  induction k generalizing n with
  | zero => rfl
  | succ k ih => simp [le, ih]

theorem le_inj (k n m : Nat) (hn : n < 256 ^ k) (hm : m < 256 ^ k) (h : le k n = le k m) : n = m := by
  induction k generalizing n m with
  | zero => simp at hn hm; omega
  | succ k ih =>
    simp only [le, List.cons.injEq] at h
    have h1 : n % 256 = m % 256 := by
      have := congrArg UInt8.toNat h.1
      simpa using this
    have h2 := ih (n / 256) (m / 256) (by rw [Nat.pow_succ] at hn; omega)
      (by rw [Nat.pow_succ] at hm; omega) h.2
    omega

theorem natBytes_inj {k n m : Nat} {b : Bytes} (h : natBytes k n = some b) (h' : natBytes k m = some b) :
    n = m := by
  simp only [natBytes] at h h'
  split at h <;> split at h' <;> simp at h h'
  subst h
  exact le_inj k n m ‹_› ‹_› h'.symm

theorem natBytes_length {k n : Nat} {b : Bytes} (h : natBytes k n = some b) : b.length = k := by
  simp only [natBytes] at h
  split at h <;> simp at h
  subst h; exact le_length k n

theorem q64_inj {n m : Nat} {b : Bytes} (h : q64 n = some b) (h' : q64 m = some b) : n = m := by
  simp only [q64] at h h'
  split at h <;> split at h' <;> simp at h h'
  subst h
  exact le_inj 8 n m (by omega) (by omega) h'.symm

theorem q64_length {n : Nat} {b : Bytes} (h : q64 n = some b) : b.length = 8 := by
  simp only [q64] at h
  split at h <;> simp at h
  subst h; exact le_length 8 n

theorem i32_inj {i j : Int} {b : Bytes} (h : i32 i = some b) (h' : i32 j = some b) : i = j := by
  simp only [i32] at h h'
  split at h <;> split at h' <;> simp at h h'
  subst h
  have := le_inj 4 _ _ (by omega) (by omega) h'
  omega

theorem i32_length {i : Int} {b : Bytes} (h : i32 i = some b) : b.length = 4 := by
  simp only [i32] at h
  split at h <;> simp at h
  subst h; exact le_length 4 _

/-! ### Concatenations -/

theorem catO_cons {a : Option Bytes} {r : List (Option Bytes)} {b : Bytes}
    (h : catO (a :: r) = some b) : ∃ x y, a = some x ∧ catO r = some y ∧ b = x ++ y := by
  cases a with
  | none => simp [catO] at h
  | some x =>
    simp only [catO, Option.map_eq_some_iff] at h
    obtain ⟨y, hy, rfl⟩ := h
    exact ⟨x, y, rfl, hy, rfl⟩

theorem catO_append {r s : List (Option Bytes)} {b : Bytes} (h : catO (r ++ s) = some b) :
    ∃ x y, catO r = some x ∧ catO s = some y ∧ b = x ++ y := by
  induction r generalizing b with
  | nil => exact ⟨[], b, rfl, h, rfl⟩
  | cons a r ih =>
    obtain ⟨x, y, rfl, hy, rfl⟩ := catO_cons h
    obtain ⟨x', y', h1, h2, rfl⟩ := ih hy
    exact ⟨x ++ x', y', by simp [catO, h1], h2, by simp⟩

/-- Concatenations of encodings of fixed length determine the encoded items. -/
theorem catO_map_inj {α : Type} (f : α → Option Bytes) (w : Nat) (P P' : α → Prop)
    (hw : ∀ a b, P a ∨ P' a → f a = some b → b.length = w)
    (hf : ∀ a a' b, P a → P' a' → f a = some b → f a' = some b → a = a')
    (l l' : List α) (hl : l.length = l'.length) (hp : ∀ a ∈ l, P a) (hp' : ∀ a ∈ l', P' a)
    (t t' : List (Option Bytes)) (b : Bytes)
    (h : catO (l.map f ++ t) = some b) (h' : catO (l'.map f ++ t') = some b) :
    l = l' ∧ ∃ c, catO t = some c ∧ catO t' = some c := by
  induction l generalizing l' b with
  | nil => cases l' with
    | nil => exact ⟨rfl, b, h, h'⟩
    | cons => simp at hl
  | cons a l ih =>
    cases l' with
    | nil => simp at hl
    | cons a' l' =>
      simp only [List.map_cons, List.cons_append] at h h'
      obtain ⟨x, y, hx, hy, rfl⟩ := catO_cons h
      obtain ⟨x', y', hx', hy', e⟩ := catO_cons h'
      have pa := hp a (by simp)
      have pa' := hp' a' (by simp)
      obtain ⟨rfl, rfl⟩ := List.append_inj e ((hw a x (.inl pa) hx).trans (hw a' x' (.inr pa') hx').symm)
      obtain ⟨rfl, h2⟩ := ih l' (by simpa using hl) (fun a ha => hp a (by simp [ha]))
        (fun a ha => hp' a (by simp [ha])) y hy hy'
      exact ⟨by rw [hf a a' x pa pa' hx hx'], h2⟩

theorem catO_some_inj {w : Nat} (l l' : List (Option Bytes)) (hl : l.length = l'.length)
    (hw : ∀ a ∈ l, ∀ b, a = some b → b.length = w) (hw' : ∀ a ∈ l', ∀ b, a = some b → b.length = w)
    {b : Bytes} (h : catO l = some b) (h' : catO l' = some b) : l = l' := by
  have := (catO_map_inj (fun a : Option Bytes => a) w (fun a => ∀ b, a = some b → b.length = w)
    (fun a => ∀ b, a = some b → b.length = w) (fun a b ha hb => ha.elim (fun g => g b hb) (fun g => g b hb)) (fun a a' b _ _ h1 h2 => by rw [h1, h2]) l l' hl hw hw' [] [] b
    (by simpa using h) (by simpa using h')).1
  exact this

/-! ### Names -/

theorem leName_total (a b : Name) : leName a b = true ∨ leName b a = true := by
  induction a generalizing b with
  | nil => simp [leName]
  | cons x a ih =>
    cases b with
    | nil => simp [leName]
    | cons y b =>
      simp only [leName, Bool.or_eq_true, decide_eq_true_eq, Bool.and_eq_true]
      have hxy : x = y ↔ x.toNat = y.toNat := ⟨by rintro rfl; rfl, Char.toNat_inj.1⟩
      rcases Nat.lt_trichotomy x.toNat y.toNat with h | h | h
      · simp [h]
      · have := hxy.2 h; subst this
        rcases ih b with g | g <;> simp [g]
      · simp [h]

theorem leName_antisymm {a b : Name} (h : leName a b = true) (h' : leName b a = true) : a = b := by
  induction a generalizing b with
  | nil => cases b with
    | nil => rfl
    | cons => simp [leName] at h'
  | cons x a ih =>
    cases b with
    | nil => simp [leName] at h
    | cons y b =>
      simp only [leName, Bool.or_eq_true, decide_eq_true_eq, Bool.and_eq_true] at h h'
      rcases h with h | ⟨rfl, h⟩
      · rcases h' with h' | ⟨rfl, -⟩ <;> omega
      · rcases h' with h' | ⟨-, h'⟩
        · omega
        · rw [ih h h']

theorem leName_trans {a b c : Name} (h : leName a b = true) (h' : leName b c = true) :
    leName a c = true := by
  induction a generalizing b c with
  | nil => simp [leName]
  | cons x a ih =>
    cases b with
    | nil => simp [leName] at h
    | cons y b =>
      cases c with
      | nil => simp [leName] at h'
      | cons z c =>
        simp only [leName, Bool.or_eq_true, decide_eq_true_eq, Bool.and_eq_true] at h h' ⊢
        rcases h with h | ⟨rfl, h⟩
        · rcases h' with h' | ⟨rfl, -⟩ <;> left <;> omega
        · rcases h' with h' | ⟨rfl, h'⟩
          · exact .inl h'
          · exact .inr ⟨rfl, ih h h'⟩

theorem names_le_total {β : Type} (a b : Name × β) : (leName a.1 b.1 || leName b.1 a.1) = true := by
  simpa using leName_total a.1 b.1

theorem nodup_fst_inj {α β : Type} {l : List (α × β)} (hn : (l.map (·.1)).Nodup) {p q : α × β}
    (hp : p ∈ l) (hq : q ∈ l) (e : p.1 = q.1) : p = q := by
  induction l with
  | nil => simp at hp
  | cons a l ih =>
    simp only [List.map_cons, List.nodup_cons, List.mem_map, not_exists, not_and] at hn
    rcases List.mem_cons.1 hp with h1 | h1 <;> rcases List.mem_cons.1 hq with h2 | h2
    · rw [h1, h2]
    · subst h1; exact absurd e.symm (hn.1 q h2)
    · subst h2; exact absurd e (hn.1 p h1)
    · exact ih hn.2 h1 h2

/-- Sorted lists with the same items, at most one for each name, are the same list. -/
theorem sort_eq {β : Type} [DecidableEq β] (l l' : List (Name × β)) (hn : (l.map (·.1)).Nodup)
    (hn' : (l'.map (·.1)).Nodup) (hm : ∀ p, p ∈ l ↔ p ∈ l') :
    l.mergeSort (fun a b => leName a.1 b.1) = l'.mergeSort (fun a b => leName a.1 b.1) := by
  have nod : ∀ l : List (Name × β), (l.map (·.1)).Nodup → l.Nodup := by
    intro l h
    exact (List.pairwise_map.1 h).imp (fun hne e => hne (by rw [e]))
  have hp : l.Perm l' := (List.perm_ext_iff_of_nodup (nod l hn) (nod l' hn')).2 hm
  refine List.Perm.eq_of_pairwise (le := fun a b => leName a.1 b.1 = true) ?_ ?_ ?_ ?_
  · intro a b ha hb h1 h2
    exact nodup_fst_inj hn (List.mem_mergeSort.1 ha) ((hm b).2 (List.mem_mergeSort.1 hb))
      (leName_antisymm h1 h2)
  · exact List.pairwise_mergeSort (le := fun a b : Name × β => leName a.1 b.1) (fun _ _ _ => leName_trans) names_le_total l
  · exact List.pairwise_mergeSort (le := fun a b : Name × β => leName a.1 b.1) (fun _ _ _ => leName_trans) names_le_total l'
  · exact ((List.mergeSort_perm l _).trans hp).trans (List.mergeSort_perm l' _).symm

end Verif.Ids
