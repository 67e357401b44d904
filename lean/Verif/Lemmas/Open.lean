import Verif.Spec.Open
/-
Calls and URIs.
-/
namespace Verif.Open
open Verif.OpenSpec

/-! ### Calls -/

/-- The value of one parameter. -/
def Gets (kw : List (Text × Arg)) (p : Param) (v : Arg) : Prop :=
  (p.name, v) ∈ kw ∨ (∀ x, (p.name, x) ∉ kw) ∧ p.default = some v

theorem lookup_mem {kw : List (Text × Arg)} (hk : (kw.map (·.1)).Nodup) {n : Text} {v : Arg} :
    kw.lookup n = some v ↔ (n, v) ∈ kw := by
  induction kw with
  | nil => simp
  | cons x r ih =>
    obtain ⟨m, y⟩ := x
    simp only [List.map_cons, List.nodup_cons] at hk
    rw [List.lookup_cons]
    by_cases e : n = m
    · subst e
      simp only [BEq.rfl, Option.some.injEq, List.mem_cons, Prod.mk.injEq, true_and]
      constructor
      · intro h; exact .inl h.symm
      · rintro (h | h)
        · exact h.symm
        · exact absurd (List.mem_map.2 ⟨_, h, rfl⟩) hk.1
    · have : (n == m) = false := by simpa using e
      simp only [this, ih hk.2, List.mem_cons, Prod.mk.injEq, e, false_and, false_or]

theorem lookup_not {kw : List (Text × Arg)} {n : Text} : kw.lookup n = none ↔ ∀ x, (n, x) ∉ kw := by
  induction kw with
  | nil => simp
  | cons x r ih =>
    obtain ⟨m, y⟩ := x
    rw [List.lookup_cons]
    by_cases e : n = m
    · subst e
      simp only [BEq.rfl, reduceCtorEq, false_iff]
      intro h; exact h y (by simp)
    · have : (n == m) = false := by simpa using e
      simp only [this, ih, List.mem_cons, Prod.mk.injEq, e, false_and, false_or]

theorem gets_iff {kw : List (Text × Arg)} (hk : (kw.map (·.1)).Nodup) {p : Param} {v : Arg} :
    (match kw.lookup p.name with
      | some v => some v
      | none => p.default) = some v ↔ Gets kw p v := by
  unfold Gets
  cases h : kw.lookup p.name with
  | none =>
    have := lookup_not.1 h
    simp [this]
  | some y =>
    have hy := (lookup_mem hk).1 h
    simp only [Option.some.injEq]
    constructor
    · rintro rfl; exact .inl hy
    · rintro (h' | ⟨h', -⟩)
      · rw [(lookup_mem hk).2 h'] at h; exact (Option.some.inj h).symm
      · exact absurd hy (h' y)

theorem fill_iff {kw : List (Text × Arg)} (hk : (kw.map (·.1)).Nodup) (ps : List Param) (vs : List Arg) :
    fill kw ps = some vs ↔ vs.length = ps.length ∧
      ∀ (i : Nat) p v, ps[i]? = some p → vs[i]? = some v → Gets kw p v := by
  induction ps generalizing vs with
  | nil =>
    simp only [fill, Option.some.injEq, List.length_nil]
    constructor
    · rintro rfl; simp
    · rintro ⟨h, -⟩; exact (List.length_eq_zero_iff.1 h).symm
  | cons p ps ih =>
    unfold fill
    constructor
    · intro h
      split at h
      · simp at h
      · next v hv =>
        obtain ⟨r, hr, rfl⟩ := Option.map_eq_some_iff.1 h
        obtain ⟨h1, h2⟩ := (ih r).1 hr
        refine ⟨by simp [h1], ?_⟩
        intro i p' v' e1 e2
        cases i with
        | zero =>
          simp only [List.getElem?_cons_zero, Option.some.injEq] at e1 e2
          subst e1; subst e2
          exact (gets_iff hk).1 hv
        | succ i =>
          simp only [List.getElem?_cons_succ] at e1 e2
          exact h2 i p' v' e1 e2
    · rintro ⟨h1, h2⟩
      cases vs with
      | nil => simp at h1
      | cons v vs =>
        have hv := h2 0 p v rfl rfl
        have hv' := (gets_iff hk).2 hv
        have := (ih vs).2 ⟨by simpa using h1, fun i p' v' e1 e2 => h2 (i + 1) p' v' (by simpa using e1) (by simpa using e2)⟩
        split
        · next e => exact absurd (hv'.symm.trans e) (by simp)
        · next w e =>
          have hw : w = v := Option.some.inj (e.symm.trans hv')
          rw [this, hw]; rfl

theorem bind_iff {kw : List (Text × Arg)} (hk : (kw.map (·.1)).Nodup) (ps : List Param) (args vs : List Arg) :
    bind ps args kw = some vs ↔ Binds ps args kw vs := by
  unfold bind
  constructor
  · intro h
    split at h
    · simp at h
    · next hl =>
      simp only at h
      split at h
      · next ha =>
        obtain ⟨r, hr, rfl⟩ := Option.map_eq_some_iff.1 h
        obtain ⟨h1, h2⟩ := (fill_iff hk _ _).1 hr
        rw [List.length_drop] at h1
        refine ⟨by rw [List.length_append]; omega, ⟨r, rfl⟩, ?_, ?_⟩
        · intro k hk'
          have := List.all_eq_true.1 ha k hk'
          obtain ⟨p, hp, e⟩ := List.any_eq_true.1 this
          obtain ⟨i, hi⟩ := List.mem_iff_getElem?.1 hp
          rw [List.getElem?_drop] at hi
          exact ⟨args.length + i, p, by omega, hi, by simpa using e⟩
        · intro i p v hi e1 e2
          rw [List.getElem?_append_right hi] at e2
          refine h2 (i - args.length) p v ?_ e2
          rw [List.getElem?_drop]
          rw [← e1]; congr 1; omega
      · simp at h
  · rintro ⟨h1, ⟨r, rfl⟩, h3, h4⟩
    rw [List.length_append] at h1
    rw [if_neg (by omega)]
    simp only
    rw [if_pos]
    · have : fill kw (ps.drop args.length) = some r := by
        refine (fill_iff hk _ _).2 ⟨by rw [List.length_drop]; omega, ?_⟩
        intro i p v e1 e2
        rw [List.getElem?_drop] at e1
        refine h4 (args.length + i) p v (by omega) e1 ?_
        rw [List.getElem?_append_right (by omega), ← e2]
        congr 1; omega
      rw [this]; rfl
    · rw [List.all_eq_true]
      intro k hk'
      obtain ⟨i, p, hi, e, hn⟩ := h3 k hk'
      rw [List.any_eq_true]
      refine ⟨p, ?_, by simpa using hn⟩
      refine List.mem_iff_getElem?.2 ⟨i - args.length, ?_⟩
      rw [List.getElem?_drop, ← e]; congr 1; omega

/-- Keyword arguments in any order. -/
theorem binds_congr {ps : List Param} {args vs : List Arg} {kw kw' : List (Text × Arg)} (h : ∀ k, k ∈ kw ↔ k ∈ kw')
    (hb : Binds ps args kw vs) : Binds ps args kw' vs := by
  refine ⟨hb.length, hb.positional, fun k hk => hb.keyword k ((h k).2 hk), fun i p v hi e1 e2 => ?_⟩
  rcases hb.value i p v hi e1 e2 with h1 | ⟨h1, h2⟩
  · exact .inl ((h _).1 h1)
  · exact .inr ⟨fun x hx => h1 x ((h _).2 hx), h2⟩

/-- Different values for one call are equal. -/
theorem binds_fun {ps : List Param} {args vs vs' : List Arg} {kw : List (Text × Arg)} (hk : (kw.map (·.1)).Nodup)
    (h : Binds ps args kw vs) (h' : Binds ps args kw vs') : vs = vs' :=
  Option.some.inj (((bind_iff hk _ _ _).2 h).symm.trans ((bind_iff hk _ _ _).2 h'))

/-! ### URIs -/

theorem splitFirst_none {f : Char → Bool} {t : Text} (h : ∀ c ∈ t, f c = false) : splitFirst f t = (t, none) := by
  induction t with
  | nil => rfl
  | cons c r ih =>
    have hc := h c (by simp)
    simp only [splitFirst, hc, Bool.false_eq_true, if_false, ih (fun c hc => h c (by simp [hc]))]

theorem splitFirst_some {f : Char → Bool} {t r : Text} {c : Char} (h : ∀ c ∈ t, f c = false) (hc : f c = true) :
    splitFirst f (t ++ c :: r) = (t, some r) := by
  induction t with
  | nil => simp [splitFirst, hc]
  | cons c' t ih =>
    have hc' := h c' (by simp)
    simp only [List.cons_append, splitFirst, hc', Bool.false_eq_true, if_false, ih (fun c hc => h c (by simp [hc]))]

theorem splitFirst_cases (f : Char → Bool) (t : Text) :
    (splitFirst f t = (t, none) ∧ ∀ c ∈ t, f c = false) ∨
    ∃ a c r, t = a ++ c :: r ∧ splitFirst f t = (a, some r) ∧ f c = true ∧ ∀ c ∈ a, f c = false := by
  induction t with
  | nil => exact .inl ⟨rfl, by simp⟩
  | cons c t ih =>
    cases hc : f c with
    | true => exact .inr ⟨[], c, t, rfl, by simp [splitFirst, hc], hc, by simp⟩
    | false =>
      rcases ih with ⟨h1, h2⟩ | ⟨a, c', r, h1, h2, h3, h4⟩
      · exact .inl ⟨by simp [splitFirst, hc, h1], by simpa [hc] using h2⟩
      · exact .inr ⟨c :: a, c', r, by simp [h1], by simp [splitFirst, hc, h2], h3, by simpa [hc] using h4⟩

theorem separator_iff {c : Char} : (c = '&' || c = ';' || c = '?') = true ↔ Separator c := by
  unfold Separator
  simp [or_assoc]

theorem parts_ne (t : Text) : parts t ≠ [] := by
  cases t with
  | nil => simp [parts]
  | cons c r =>
    unfold parts
    split
    · simp
    · split <;> simp

theorem parts_parts (t : Text) : Parts t (parts t) := by
  induction t with
  | nil => exact .last (by simp)
  | cons c r ih =>
    unfold parts
    split
    · next h => exact .next (p := []) (by simp) (separator_iff.1 h) ih
    · next h =>
      have hc : ¬ Separator c := fun h' => h (separator_iff.2 h')
      split
      · next e => exact absurd e (parts_ne r)
      · next p ps e =>
        rw [e] at ih
        cases ih with
        | last hp => exact .last (by simpa [hc] using hp)
        | next hp hs hq => exact .next (p := c :: _) (by simpa [hc] using hp) hs hq

theorem parts_fun {t : Text} {ps ps' : List Text} (h : Parts t ps) (h' : Parts t ps') : ps = ps' := by
  induction h generalizing ps' with
  | last hp =>
    cases h' with
    | last => rfl
    | next hp' hs hq => exact absurd hs (hp _ (by simp))
  | @next p q c ps hp hs hq ih =>
    generalize ht : p ++ c :: q = t at h'
    cases h' with
    | last hp' => exact absurd hs (hp' c (by rw [← ht]; simp))
    | @next p' q' c' ps'' hp' hs' hq' =>
      have key : p = p' ∧ q = q' := by
        rcases List.append_eq_append_iff.1 ht with ⟨a, e1, e2⟩ | ⟨a, e1, e2⟩
        · cases a with
          | nil => simp at e1 e2; exact ⟨e1.symm, e2.2⟩
          | cons x a =>
            simp only [List.cons_append, List.cons.injEq] at e2
            obtain ⟨rfl, -⟩ := e2
            exact absurd hs (hp' _ (by rw [e1]; simp))
        · cases a with
          | nil => simp at e1 e2; exact ⟨e1, e2.2.symm⟩
          | cons x a =>
            simp only [List.cons_append, List.cons.injEq] at e2
            obtain ⟨rfl, -⟩ := e2
            exact absurd hs' (hp _ (by rw [e1]; simp))
      obtain ⟨rfl, rfl⟩ := key
      rw [ih hq']

theorem assigns_iff {p n v : Text} : Assigns p n v ↔ partition p = (n, v) := by
  unfold Assigns partition
  rcases splitFirst_cases (· = '=') p with ⟨h1, h2⟩ | ⟨a, c, r, h1, h2, h3, h4⟩
  · rw [h1]
    simp only [decide_eq_false_iff_not] at h2
    simp only [Option.getD_none, Prod.mk.injEq]
    constructor
    · rintro ⟨-, h | ⟨h, h'⟩⟩
      · exact absurd rfl (h2 '=' (by rw [h]; simp))
      · exact ⟨h, h'.symm⟩
    · rintro ⟨rfl, rfl⟩
      exact ⟨h2, .inr ⟨rfl, rfl⟩⟩
  · rw [h2]
    simp only [decide_eq_true_eq, decide_eq_false_iff_not] at h3 h4
    subst h3
    simp only [Option.getD_some, Prod.mk.injEq]
    constructor
    · rintro ⟨h5, h | ⟨h, h'⟩⟩
      · have e1 : splitFirst (· = '=') p = (n, some v) := by
          rw [h]; exact splitFirst_some (by simpa using h5) (by simp)
        rw [e1] at h2
        cases h2; exact ⟨rfl, rfl⟩
      · exact absurd rfl (h5 '=' (by rw [← h, h1]; simp))
    · rintro ⟨rfl, rfl⟩
      exact ⟨h4, .inl h1⟩

theorem lookup_reverse {l : List (Text × Text)} {n v : Text} :
    l.reverse.lookup n = some v ↔ ∃ a b, l = a ++ (n, v) :: b ∧ ∀ x, (n, x) ∉ b := by
  induction l with
  | nil => simp
  | cons x l ih =>
    obtain ⟨m, y⟩ := x
    rw [List.reverse_cons, List.lookup_append]
    cases h : l.reverse.lookup n with
    | some z =>
      simp only [Option.some_or, Option.some.injEq]
      constructor
      · rintro rfl
        obtain ⟨a, b, h1, h2⟩ := ih.1 h
        exact ⟨(m, y) :: a, b, by rw [h1]; rfl, h2⟩
      · rintro ⟨a, b, h1, h2⟩
        cases a with
        | nil =>
          simp only [List.nil_append, List.cons.injEq] at h1
          obtain ⟨-, rfl⟩ := h1
          exfalso
          have : ∃ x, (n, x) ∈ l.reverse := by
            clear ih h2
            generalize l.reverse = l' at h
            induction l' with
            | nil => simp at h
            | cons w l' ih' =>
              obtain ⟨w1, w2⟩ := w
              rw [List.lookup_cons] at h
              by_cases e : n = w1
              · exact ⟨w2, by simp [e]⟩
              · have : (n == w1) = false := by simpa using e
                rw [this] at h
                obtain ⟨x, hx⟩ := ih' h
                exact ⟨x, by simp [hx]⟩
          obtain ⟨x, hx⟩ := this
          exact h2 x (List.mem_reverse.1 hx)
        | cons w a =>
          simp only [List.cons_append, List.cons.injEq] at h1
          have := ih.2 ⟨a, b, h1.2, h2⟩
          rw [h] at this; exact Option.some.inj this
    | none =>
      have none_in : ∀ x, (n, x) ∉ l := by
        intro x hx
        have hx' := List.mem_reverse.2 hx
        generalize l.reverse = l' at h hx'
        induction l' with
        | nil => simp at hx'
        | cons w l' ih' =>
          obtain ⟨w1, w2⟩ := w
          rw [List.lookup_cons] at h
          by_cases e : n = w1
          · subst e; simp at h
          · have hb : (n == w1) = false := by simpa using e
            rw [hb] at h
            rcases List.mem_cons.1 hx' with h3 | h3
            · cases h3; exact absurd rfl e
            · exact ih' h h3
      simp only [Option.none_or, List.lookup_cons, List.lookup_nil]
      by_cases e : n = m
      · subst e
        simp only [BEq.rfl, Option.some.injEq]
        constructor
        · rintro rfl; exact ⟨[], l, rfl, none_in⟩
        · rintro ⟨a, b, h1, h2⟩
          cases a with
          | nil => simp at h1; exact h1.1
          | cons w a =>
            simp only [List.cons_append, List.cons.injEq] at h1
            exact absurd (by rw [h1.2]; simp) (none_in v)
      · have hb : (n == m) = false := by simpa using e
        simp only [hb, reduceCtorEq, false_iff]
        rintro ⟨a, b, h1, h2⟩
        cases a with
        | nil => simp at h1; exact e h1.1.1.symm
        | cons w a =>
          simp only [List.cons_append, List.cons.injEq] at h1
          exact absurd (by rw [h1.2]; simp) (none_in v)

theorem lower_alpha {c : Char} (h : c.toLower.isAlpha = true) : c.isAlpha = true := by
  unfold Char.toLower at h
  split at h
  · next hc =>
    simp [Char.isAlpha, Char.isUpper, Char.isLower] at *
    exact .inl hc
  · exact h

theorem alnum_lower {c : Char} (h : c.isAlphanum = true) : c.toLower ≠ '/' := by
  unfold Char.toLower
  split
  · next hc =>
    intro e
    have := congrArg Char.toNat e
    have h3 : ('A' : Char).toNat ≤ c.toNat := hc.1
    have h4 : c.toNat ≤ ('Z' : Char).toNat := hc.2
    simp at this h3 h4
    omega
  · rintro rfl; revert h; decide

theorem alnum_gt {c : Char} (h : c.isAlphanum = true) : ¬ c.toNat ≤ 32 := by
  intro hc
  simp [Char.isAlphanum, Char.isAlpha, Char.isUpper, Char.isLower, Char.isDigit] at h
  simp only [UInt32.le_iff_toNat_le] at h
  have : c.val.toNat = c.toNat := rfl
  simp [this] at h
  omega

theorem alpha_alnum {c : Char} (h : c.isAlpha = true) : c.isAlphanum = true := by
  simp [Char.isAlphanum, h]

/-- Path and query of URIs of IMAS. -/
theorem urlparse_imas {uri b q : Text} (h : ImasUri uri b q) :
    ∃ name slash, urlparse uri = (slash ++ name, q) ∧ (slash = [] ∨ slash = ['/']) ∧ (∀ c ∈ name, c.isAlphanum = true) ∧
      name ≠ [] ∧ b = name.map Char.toLower := by
  obtain ⟨⟨scheme, host, name, qq, fragment, e, hs, hh, hn, hna, hb, hq, hqh, hf⟩, hp⟩ := h
  have halpha : ∀ c ∈ scheme, c.isAlpha = true := by
    intro c hc
    apply lower_alpha
    have : c.toLower ∈ "imas".toList := by rw [← hs]; exact List.mem_map.2 ⟨c, hc, rfl⟩
    have hd : ∀ c ∈ "imas".toList, c.isAlpha = true := by decide
    exact hd _ this
  have hcolon : ∀ c ∈ scheme, decide (c = ':') = false := by
    intro c hc
    have := halpha c hc
    rw [decide_eq_false_iff_not]
    rintro rfl
    exact absurd this (by decide)
  have hne : scheme ≠ [] := by
    rintro rfl
    exact absurd hs (by decide)
  -- characters that are dropped
  have h1 : ((uri.dropWhile fun c => c.toNat ≤ 32).filter fun c => !(c = '\t' || c = '\r' || c = '\n')) = uri := by
    have hd : uri.dropWhile (fun c => decide (c.toNat ≤ 32)) = uri := by
      cases scheme with
      | nil => exact absurd rfl hne
      | cons c r =>
        rw [e, List.cons_append, List.dropWhile_cons_of_neg]
        simpa using alnum_gt (alpha_alnum (halpha c (by simp)))
    rw [hd, List.filter_eq_self]
    intro c hc
    obtain ⟨p1, p2, p3⟩ := hp c hc
    simp [p1, p2, p3]
  have h2 : splitScheme uri = ("imas".toList, host ++ name ++ qq ++ fragment) := by
    cases scheme with
    | nil => exact absurd rfl hne
    | cons c r =>
      have hsf := splitFirst_some (f := (· = ':')) (c := ':') (r := host ++ name ++ qq ++ fragment) hcolon (by simp)
      have hca := halpha c (by simp)
      have hall : (c :: r).all schemeChar = true := by
        rw [List.all_eq_true]
        intro x hx
        simp [schemeChar, alpha_alnum (halpha x hx)]
      rw [e]
      show (match splitFirst (· = ':') (c :: r ++ ':' :: (host ++ name ++ qq ++ fragment)) with
        | (s, some r') => if c.isAlpha && s.all schemeChar then (s.map Char.toLower, r')
            else ([], c :: r ++ ':' :: (host ++ name ++ qq ++ fragment))
        | (_, none) => ([], c :: r ++ ':' :: (host ++ name ++ qq ++ fragment))) = _
      rw [hsf]
      simp only [hca, hall, Bool.and_self, if_true, hs]
  have h3 : ∃ slash, dropNetloc (host ++ name ++ qq ++ fragment) = slash ++ name ++ qq ++ fragment ∧
      (slash = [] ∨ slash = ['/']) := by
    rcases hh with rfl | ⟨h, rfl, hhc⟩
    · refine ⟨[], ?_, .inl rfl⟩
      cases name with
      | nil => exact absurd rfl hn
      | cons c r =>
        have hc := hna c (by simp)
        unfold dropNetloc
        split
        · next r' e' =>
          simp only [List.nil_append, List.cons_append, List.cons.injEq] at e'
          rw [e'.1] at hc
          exact absurd hc (by decide)
        · rfl
    · refine ⟨['/'], ?_, .inr rfl⟩
      show (h ++ ['/'] ++ name ++ qq ++ fragment).dropWhile _ = _
      rw [List.append_assoc, List.append_assoc, List.append_assoc, List.dropWhile_append_of_pos]
      · rw [List.singleton_append, List.dropWhile_cons_of_neg (by simp)]
        simp
      · intro c hc
        obtain ⟨p1, p2, p3⟩ := hhc c hc
        simp [p1, p2, p3]
  obtain ⟨slash, h3, hsl⟩ := h3
  have hsc : ∀ c ∈ slash ++ name, c ≠ '#' ∧ c ≠ '?' := by
    intro c hc
    rcases List.mem_append.1 hc with hc | hc
    · rcases hsl with rfl | rfl
      · simp at hc
      · simp only [List.mem_singleton] at hc
        subst hc; decide
    · have := hna c hc
      constructor <;> (rintro rfl; exact absurd this (by decide))
  have h4 : (splitFirst (· = '#') (slash ++ name ++ qq ++ fragment)).1 = slash ++ name ++ qq := by
    have hno : ∀ c ∈ slash ++ name ++ qq, decide (c = '#') = false := by
      intro c hc
      rw [decide_eq_false_iff_not]
      rcases List.mem_append.1 hc with hc | hc
      · exact (hsc c hc).1
      · rcases hq with ⟨rfl, -⟩ | rfl
        · simp at hc
        · rcases List.mem_cons.1 hc with rfl | hc
          · decide
          · exact hqh c hc
    rcases hf with rfl | ⟨f, rfl⟩
    · rw [List.append_nil, splitFirst_none hno]
    · rw [splitFirst_some hno (by simp)]
  have h5 : splitFirst (· = '?') (slash ++ name ++ qq) = (slash ++ name, if qq = [] then none else some q) := by
    have hno : ∀ c ∈ slash ++ name, decide (c = '?') = false := by
      intro c hc
      rw [decide_eq_false_iff_not]
      exact (hsc c hc).2
    rcases hq with ⟨rfl, -⟩ | rfl
    · rw [List.append_nil, splitFirst_none hno]; rfl
    · rw [splitFirst_some hno (by simp)]; rfl
  refine ⟨name, slash, ?_, hsl, hna, hn, hb⟩
  unfold urlparse
  simp only [h1, h2, h3, h4, h5]
  rw [if_neg (by decide)]
  rcases hq with ⟨rfl, rfl⟩ | rfl
  · rfl
  · rfl

theorem backendOf_imas {uri b q : Text} (h : ImasUri uri b q) : backendOf uri = b := by
  obtain ⟨name, slash, h1, h2, h3, hn, rfl⟩ := urlparse_imas h
  unfold backendOf
  rw [h1]
  have hd : (name.map Char.toLower).dropWhile (· = '/') = name.map Char.toLower := by
    cases name with
    | nil => rfl
    | cons c r =>
      rw [List.map_cons, List.dropWhile_cons_of_neg]
      simpa using alnum_lower (h3 c (by simp))
  rcases h2 with rfl | rfl
  · exact hd
  · rw [List.map_append, List.map_singleton, List.singleton_append, List.dropWhile_cons_of_pos (by decide)]
    exact hd

/-- The options of a query. -/
theorem options_iff {uri q : Text} (h : (urlparse uri).2 = q) (n v : Text) :
    (options uri).lookup n = some v ↔ OptionIs q n v := by
  unfold options OptionIs
  rw [h, lookup_reverse]
  constructor
  · rintro ⟨a, b, h1, h2⟩
    obtain ⟨ps, r, e1, e2, e3⟩ := List.map_eq_append_iff.1 h1
    obtain ⟨p, r', rfl, e4, e5⟩ := List.map_eq_cons_iff.1 e3
    refine ⟨ps, p, r', by rw [← e1]; exact parts_parts q, assigns_iff.2 e4, ?_⟩
    intro p' hp' v' hv'
    refine h2 v' ?_
    rw [← e5]
    exact List.mem_map.2 ⟨p', hp', assigns_iff.1 hv'⟩
  · rintro ⟨ps, p, r, h1, h2, h3⟩
    refine ⟨ps.map partition, r.map partition, ?_, ?_⟩
    · rw [parts_fun (parts_parts q) h1, List.map_append, List.map_cons, assigns_iff.1 h2]
    · intro x hx
      obtain ⟨p', hp', e⟩ := List.mem_map.1 hx
      exact h3 p' hp' x (assigns_iff.2 e)

end Verif.Open
