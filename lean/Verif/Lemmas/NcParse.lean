import Verif.Lemmas.NcDict
import Verif.Lemmas.NcWalk
/-
What `NCMetadata._parse` records.
-/
namespace Verif.Nc
open Verif.Ids Verif.NcSpec

theorem take_suffix {t u : List Char} (h : u.length = 12) : (t ++ u).take ((t ++ u).length - 12) = t := by
  rw [List.length_append, h, Nat.add_sub_cancel, List.take_left]

theorem errorBase_iff {p q : Path} : errorBase p = some q ↔ ErrorBar p q := by
  unfold errorBase ErrorBar
  rcases List.eq_nil_or_concat p with rfl | ⟨d, n, rfl⟩
  · simp
  · simp only [List.concat_eq_append, List.getLast?_concat, List.dropLast_concat, Bool.or_eq_true, List.isSuffixOf_iff_suffix]
    have hu : ("_error_upper".toList).length = 12 := by decide
    have hl : ("_error_lower".toList).length = 12 := by decide
    generalize "_error_upper".toList = u at *
    generalize "_error_lower".toList = l at *
    constructor
    · intro h
      split at h
      · rename_i hc
        cases h
        refine ⟨d, _, rfl, ?_⟩
        rcases hc with ⟨t, rfl⟩ | ⟨t, rfl⟩
        · left; rw [take_suffix hu]
        · right; rw [take_suffix hl]
      · cases h
    · rintro ⟨d', n', rfl, h | h⟩
      · obtain ⟨rfl, h2⟩ := List.append_inj' h rfl
        cases h2
        rw [if_pos (.inl ⟨n', rfl⟩), take_suffix hu]
      · obtain ⟨rfl, h2⟩ := List.append_inj' h rfl
        cases h2
        rw [if_pos (.inr ⟨n', rfl⟩), take_suffix hl]

theorem regular_iff {p : Path} : Regular p ↔ errorBase p = none := by
  unfold Regular
  simp only [← errorBase_iff]
  cases errorBase p <;> simp

variable (I : Info)

/-- What a dimension of any node is. -/
def planFor (e : Entry) (i : Nat) : Except MetaErr Plan :=
  match errorBase e.path with
  | some b => .ok (.ref b i [])
  | none => planOf I e i

def Plan.dim : Plan → Option Dim
  | .own d _ _ => some d
  | .ref _ _ _ => none

def inAlts (l : List (Path × List Path)) (q a : Path) : Prop := ∃ k, dget l q = some k ∧ a ∈ k

theorem inAlts_add (l : List (Path × List Path)) (p : Path) (k : List Path) (q a : Path) :
    inAlts (addAlts l p k) q a ↔ inAlts l q a ∨ (q = p ∧ a ∈ k) := by
  unfold addAlts
  split
  · simp
  · simp only [inAlts, dget_dset]
    by_cases h : q = p
    · subst h
      simp only [if_true, Option.some.injEq, exists_eq_left', List.mem_append, true_and]
      cases dget l q <;> simp
    · simp [h]

theorem nodup_addAlts {l : List (Path × List Path)} (h : (l.map (·.1)).Nodup) (p : Path) (k : List Path) :
    ((addAlts l p k).map (·.1)).Nodup := by
  unfold addAlts
  split
  · exact h
  · exact nodup_dset h _ _

/-- What the loop over the dimensions adds. -/
structure DimsOk (plan : Nat → Except MetaErr Plan) (p : Path) (i n : Nat) (l : List (Option Dim)) (s s' : Parse) : Prop where
  length : l.length = n
  plans : ∀ j, j < n → ∃ pl, plan (i + j) = .ok pl ∧ l[j]? = some pl.dim
  ut : s'.ut = s.ut
  pend : ∀ j, j < n → ∀ q k o, plan (i + j) = .ok (.ref q k o) → dget s'.pending (p, i + j) = some (q, k)
  pend' : ∀ key t, dget s'.pending key = some t → dget s.pending key = some t ∨
    ∃ j, j < n ∧ key = (p, i + j) ∧ ∃ o, plan (i + j) = .ok (.ref t.1 t.2 o)
  keep : ∀ key : Path × Nat, (key.1 ≠ p ∨ key.2 < i) → dget s'.pending key = dget s.pending key
  alts : ∀ q a, inAlts s'.alts q a ↔ inAlts s.alts q a ∨ ∃ j, j < n ∧ ∃ k o, plan (i + j) = .ok (.ref q k o) ∧ a ∈ o
  times : ∀ d, d ∈ s'.times ↔ d ∈ s.times ∨ ∃ j, j < n ∧ ∃ c, plan (i + j) = .ok (.own d true c)
  nodupA : (s.alts.map (·.1)).Nodup → (s'.alts.map (·.1)).Nodup
  nodupP : (s.pending.map (·.1)).Nodup → (s'.pending.map (·.1)).Nodup

theorem dimsOk_cons {plan : Nat → Except MetaErr Plan} {p : Path} {i n : Nat} {l : List (Option Dim)} {s s1 s' : Parse}
    {pl : Plan} (hp : plan i = .ok pl) (h : DimsOk plan p (i + 1) n l s1 s') (hut : s1.ut = s.ut)
    (hpend : ∀ q k o, pl = .ref q k o → dget s1.pending (p, i) = some (q, k))
    (hpend' : ∀ key t, dget s1.pending key = some t → dget s.pending key = some t ∨
      (key = (p, i) ∧ ∃ o, pl = .ref t.1 t.2 o))
    (hkeep : ∀ key : Path × Nat, (key.1 ≠ p ∨ key.2 < i) → dget s1.pending key = dget s.pending key)
    (halts : ∀ q a, inAlts s1.alts q a ↔ inAlts s.alts q a ∨ ∃ k o, pl = .ref q k o ∧ a ∈ o)
    (htimes : ∀ d, d ∈ s1.times ↔ d ∈ s.times ∨ ∃ c, pl = .own d true c)
    (hnA : (s.alts.map (·.1)).Nodup → (s1.alts.map (·.1)).Nodup)
    (hnP : (s.pending.map (·.1)).Nodup → (s1.pending.map (·.1)).Nodup) :
    DimsOk plan p i (n + 1) (pl.dim :: l) s s' where
  length := by simp [h.length]
  plans j hj := by
    cases j with
    | zero => exact ⟨pl, hp, rfl⟩
    | succ j =>
      obtain ⟨pl', h1, h2⟩ := h.plans j (by omega)
      exact ⟨pl', by rw [← h1]; congr 1; omega, h2⟩
  ut := h.ut.trans hut
  pend j hj q k o ho := by
    cases j with
    | zero =>
      rw [Nat.add_zero] at ho ⊢
      rw [h.keep (p, i) (.inr (by simp))]
      rw [hp] at ho
      exact hpend q k o (Except.ok.inj ho)
    | succ j =>
      have := h.pend j (by omega) q k o (by rw [← ho]; congr 1; omega)
      rw [← this]; congr 2; omega
  pend' key t ht := by
    rcases h.pend' key t ht with h1 | ⟨j, hj, h1, o, h2⟩
    · rcases hpend' key t h1 with h2 | ⟨h2, o, h3⟩
      · exact .inl h2
      · exact .inr ⟨0, by omega, h2, o, by rw [Nat.add_zero, hp, h3]⟩
    · refine .inr ⟨j + 1, by omega, ?_, o, ?_⟩
      · rw [h1]; congr 1; omega
      · rw [← h2]; congr 1; omega
  keep key hk := by
    rw [h.keep key (hk.imp id fun h => by omega)]
    exact hkeep key hk
  alts q a := by
    rw [h.alts, halts]
    constructor
    · rintro ((h1 | ⟨k, o, h1, h2⟩) | ⟨j, hj, k, o, h1, h2⟩)
      · exact .inl h1
      · exact .inr ⟨0, by omega, k, o, by rw [Nat.add_zero, hp, h1], h2⟩
      · exact .inr ⟨j + 1, by omega, k, o, by rw [← h1]; congr 1; omega, h2⟩
    · rintro (h1 | ⟨j, hj, k, o, h1, h2⟩)
      · exact .inl (.inl h1)
      · cases j with
        | zero =>
          rw [Nat.add_zero, hp] at h1
          exact .inl (.inr ⟨k, o, Except.ok.inj h1, h2⟩)
        | succ j => exact .inr ⟨j, by omega, k, o, by rw [← h1]; congr 1; omega, h2⟩
  times d := by
    rw [h.times, htimes]
    constructor
    · rintro ((h1 | ⟨c, h1⟩) | ⟨j, hj, c, h1⟩)
      · exact .inl h1
      · exact .inr ⟨0, by omega, c, by rw [Nat.add_zero, hp, h1]⟩
      · exact .inr ⟨j + 1, by omega, c, by rw [← h1]; congr 1; omega⟩
    · rintro (h1 | ⟨j, hj, c, h1⟩)
      · exact .inl (.inl h1)
      · cases j with
        | zero =>
          rw [Nat.add_zero, hp] at h1
          exact .inl (.inr ⟨c, Except.ok.inj h1⟩)
        | succ j => exact .inr ⟨j, by omega, c, by rw [← h1]; congr 1; omega⟩
  nodupA := fun hn => h.nodupA (hnA hn)
  nodupP := fun hn => h.nodupP (hnP hn)

theorem dimsOk_nil (plan : Nat → Except MetaErr Plan) (p : Path) (i : Nat) (s : Parse) : DimsOk plan p i 0 [] s s where
  length := rfl
  plans j hj := by omega
  ut := rfl
  pend j hj := by omega
  pend' key t h := .inl h
  keep _ _ := rfl
  alts q a := by simp
  times d := by simp
  nodupA := id
  nodupP := id

theorem dimsOk_ref {plan : Nat → Except MetaErr Plan} {p : Path} {i n : Nat} {l : List (Option Dim)} {s s' : Parse}
    {q : Path} {k : Nat} {o : List Path} (hp : plan i = .ok (.ref q k o))
    (h : DimsOk plan p (i + 1) n l { s with pending := dset s.pending (p, i) (q, k), alts := addAlts s.alts q o } s') :
    DimsOk plan p i (n + 1) (none :: l) s s' := by
  refine dimsOk_cons (pl := .ref q k o) hp h rfl ?_ ?_ ?_ ?_ ?_ ?_ ?_
  · intro q' k' o' e; cases e; simp [dget_dset]
  · intro key t ht
    simp only [dget_dset] at ht
    split at ht
    · rename_i hk; cases ht; exact .inr ⟨hk, o, rfl⟩
    · exact .inl ht
  · intro key hk
    simp only [dget_dset]
    rw [if_neg]
    rintro rfl
    rcases hk with hk | hk <;> simp at hk
  · intro q' a
    rw [inAlts_add]
    constructor
    · rintro (h' | ⟨rfl, h'⟩)
      · exact .inl h'
      · exact .inr ⟨k, o, rfl, h'⟩
    · rintro (h' | ⟨k', o', e, h'⟩)
      · exact .inl h'
      · cases e; exact .inr ⟨rfl, h'⟩
  · intro d; simp
  · intro hn; exact nodup_addAlts hn _ _
  · intro hn; exact nodup_dset hn _ _

theorem parseDims_ok (e : Entry) : ∀ (n i : Nat) (s : Parse) {l : List (Option Dim)} {s' : Parse},
    parseDims I e n i s = .ok (l, s') → DimsOk (planOf I e) e.path i n l s s'
  | 0, i, s, l, s', h => by
    simp only [parseDims, Except.ok.injEq, Prod.mk.injEq] at h
    obtain ⟨rfl, rfl⟩ := h
    exact dimsOk_nil _ _ _ _
  | n + 1, i, s, l, s', h => by
    unfold parseDims at h
    split at h
    · cases h
    · rename_i d t c hp
      split at h
      · cases h
      · rename_i l' s'' hr
        cases h
        refine dimsOk_cons (pl := .own d t c) hp (parseDims_ok e n (i + 1) _ hr) rfl ?_ ?_ ?_ ?_ ?_ ?_ ?_
        · intro q k o e; cases e
        · intro key t ht; exact .inl ht
        · intro key _; rfl
        · intro q a; simp
        · intro d'
          cases t
          · simp
          · simp only [if_true, List.mem_cons, Plan.own.injEq, true_and, exists_and_left, exists_eq', and_true]
            rw [Or.comm, eq_comm]
        · exact id
        · exact id
    · rename_i q k o hp
      split at h
      · cases h
      · rename_i l' s'' hr
        cases h
        exact dimsOk_ref hp (parseDims_ok e n (i + 1) _ hr)

theorem parseError_ok (p base : Path) : ∀ (n i : Nat) (s : Parse),
    DimsOk (fun j => .ok (.ref base j [])) p i n (List.replicate n none) s (parseError p base n i s)
  | 0, i, s => dimsOk_nil _ _ _ _
  | n + 1, i, s => by
    rw [parseError, List.replicate_succ]
    exact dimsOk_ref (o := []) rfl (parseError_ok p base n (i + 1) _)

/-- `a` can replace `q`, as said by one of the nodes. -/
def AltBy (es : List Entry) (a q : Path) : Prop :=
  ∃ e ∈ es, e.kind ≠ .struct ∧ e.ndim ≠ 0 ∧ errorBase e.path = none ∧
    ((∃ i k o, i < e.ndim ∧ planOf I e i = .ok (.ref q k o) ∧ a ∈ o) ∨ (e.path = q ∧ a ∈ I.alternative q))

def Relevant (e : Entry) : Prop := e.kind ≠ .struct ∧ (e.ndim ≠ 0 ∨ e.parent.isSome)

instance (e : Entry) : Decidable (Relevant e) := inferInstanceAs (Decidable (_ ∧ _))

/-- What the state says about the nodes visited so far. -/
structure ParseInv (es : List Entry) (s : Parse) : Prop where
  ut : ∀ e ∈ es, Relevant e → ∃ u, dget s.ut e.path = some u ∧ u.length = e.ndim ∧
    ∀ i, i < e.ndim → ∃ pl, planFor I e i = .ok pl ∧ u[i]? = some pl.dim
  ut' : ∀ p u, dget s.ut p = some u → ∃ e ∈ es, Relevant e ∧ e.path = p
  pend : ∀ e ∈ es, e.kind ≠ .struct → ∀ i, i < e.ndim → ∀ q k o, planFor I e i = .ok (.ref q k o) →
    dget s.pending (e.path, i) = some (q, k)
  pend' : ∀ p i t, dget s.pending (p, i) = some t → ∃ e ∈ es, e.kind ≠ .struct ∧ e.path = p ∧ i < e.ndim ∧
    ∃ o, planFor I e i = .ok (.ref t.1 t.2 o)
  alts : ∀ q a, inAlts s.alts q a ↔ AltBy I es a q
  times : ∀ d, d ∈ s.times ↔ ∃ e ∈ es, e.kind ≠ .struct ∧ ∃ i c, i < e.ndim ∧ planFor I e i = .ok (.own d true c)
  nodupA : (s.alts.map (·.1)).Nodup
  nodupP : (s.pending.map (·.1)).Nodup

theorem altBy_append (es : List Entry) (e : Entry) (a q : Path) :
    AltBy I (es ++ [e]) a q ↔ AltBy I es a q ∨ AltBy I [e] a q := by
  simp only [AltBy, List.mem_append, List.mem_singleton]
  constructor
  · rintro ⟨x, hx | hx, h⟩
    · exact .inl ⟨x, hx, h⟩
    · exact .inr ⟨x, hx, h⟩
  · rintro (⟨x, hx, h⟩ | ⟨x, hx, h⟩)
    · exact ⟨x, .inl hx, h⟩
    · exact ⟨x, .inr hx, h⟩

/-- A node without dimensions of its own. -/
theorem parseInv_zero {es : List Entry} {s : Parse} (h : ParseInv I es s) {e : Entry}
    (he : e.kind = .struct ∨ e.ndim = 0) (hp : ∀ e' ∈ es, e'.path ≠ e.path) {s' : Parse} (hpend : s'.pending = s.pending)
    (halts : s'.alts = s.alts) (htimes : s'.times = s.times)
    (hut : ∀ p, dget s'.ut p = if p = e.path ∧ Relevant e then some [] else dget s.ut p) :
    ParseInv I (es ++ [e]) s' where
  ut x hx hr := by
    rcases List.mem_append.1 hx with hx | hx
    · rw [hut, if_neg (fun h => hp x hx h.1)]
      exact h.ut x hx hr
    · simp at hx
      subst hx
      rw [hut, if_pos ⟨rfl, hr⟩]
      have h0 : x.ndim = 0 := by
        rcases he with he | he
        · exact absurd he hr.1
        · exact he
      exact ⟨[], rfl, by simp [h0], fun i hi => by omega⟩
  ut' p u hu := by
    rw [hut] at hu
    split at hu
    · rename_i hh
      exact ⟨e, by simp, hh.2, hh.1.symm⟩
    · obtain ⟨x, hx, h1⟩ := h.ut' p u hu
      exact ⟨x, by simp [hx], h1⟩
  pend x hx hk i hi q k o ho := by
    rw [hpend]
    rcases List.mem_append.1 hx with hx | hx
    · exact h.pend x hx hk i hi q k o ho
    · simp at hx
      subst hx
      rcases he with he | he
      · exact absurd he hk
      · omega
  pend' p i t ht := by
    rw [hpend] at ht
    obtain ⟨x, hx, h1⟩ := h.pend' p i t ht
    exact ⟨x, by simp [hx], h1⟩
  alts q a := by
    rw [halts, h.alts, altBy_append]
    constructor
    · exact .inl
    · rintro (h | ⟨x, hx, h1, h2, -⟩)
      · exact h
      · simp at hx
        subst hx
        rcases he with he | he
        · exact absurd he h1
        · exact absurd he h2
  times d := by
    rw [htimes, h.times]
    constructor
    · rintro ⟨x, hx, h1⟩; exact ⟨x, by simp [hx], h1⟩
    · rintro ⟨x, hx, h1, i, c, hi, h2⟩
      rcases List.mem_append.1 hx with hx | hx
      · exact ⟨x, hx, h1, i, c, hi, h2⟩
      · simp at hx
        subst hx
        rcases he with he | he
        · exact absurd he h1
        · omega
  nodupA := by rw [halts]; exact h.nodupA
  nodupP := by rw [hpend]; exact h.nodupP

/-- A node with dimensions. -/
theorem parseInv_dims {es : List Entry} {s s1 s2 : Parse} (h : ParseInv I es s) {e : Entry} (hk : e.kind ≠ .struct)
    (hn : e.ndim ≠ 0) (hp : ∀ e' ∈ es, e'.path ≠ e.path) {l : List (Option Dim)}
    (hd : DimsOk (planFor I e) e.path 0 e.ndim l s s1) (hut : s2.ut = dset s1.ut e.path l) (hpd : s2.pending = s1.pending)
    (ht : s2.times = s1.times) (hnA : (s1.alts.map (·.1)).Nodup → (s2.alts.map (·.1)).Nodup)
    (ha : ∀ q a, inAlts s2.alts q a ↔ inAlts s1.alts q a ∨ (errorBase e.path = none ∧ e.path = q ∧ a ∈ I.alternative q)) :
    ParseInv I (es ++ [e]) s2 where
  ut x hx hr := by
    rw [hut, dget_dset, hd.ut]
    rcases List.mem_append.1 hx with hx | hx
    · rw [if_neg (hp x hx)]
      exact h.ut x hx hr
    · simp at hx
      subst hx
      rw [if_pos rfl]
      exact ⟨l, rfl, hd.length, fun i hi => by simpa using hd.plans i hi⟩
  ut' p u hu := by
    rw [hut, dget_dset, hd.ut] at hu
    split at hu
    · rename_i hh
      exact ⟨e, by simp, ⟨hk, .inl hn⟩, hh.symm⟩
    · obtain ⟨x, hx, h1⟩ := h.ut' p u hu
      exact ⟨x, by simp [hx], h1⟩
  pend x hx hk' i hi q k o ho := by
    rw [hpd]
    rcases List.mem_append.1 hx with hx | hx
    · rw [hd.keep _ (.inl (hp x hx))]
      exact h.pend x hx hk' i hi q k o ho
    · simp at hx
      subst hx
      simpa using hd.pend i hi q k o (by simpa using ho)
  pend' p i t ht' := by
    rw [hpd] at ht'
    rcases hd.pend' _ _ ht' with h1 | ⟨j, hj, h1, o, h2⟩
    · obtain ⟨x, hx, h3⟩ := h.pend' p i t h1
      exact ⟨x, by simp [hx], h3⟩
    · simp only [Prod.mk.injEq, Nat.zero_add] at h1
      obtain ⟨rfl, rfl⟩ := h1
      exact ⟨e, by simp, hk, rfl, hj, o, by simpa using h2⟩
  alts q a := by
    rw [ha, hd.alts, h.alts, altBy_append, or_assoc]
    apply or_congr Iff.rfl
    have hpl : ∀ i k o, errorBase e.path = none → (planFor I e i = .ok (.ref q k o) ↔ planOf I e i = .ok (.ref q k o)) := by
      intro i k o h0; simp [planFor, h0]
    constructor
    · rintro (⟨j, hj, k, o, h1, h2⟩ | ⟨h0, h1, h2⟩)
      · rw [Nat.zero_add] at h1
        cases h0 : errorBase e.path with
        | none => exact ⟨e, by simp, hk, hn, h0, .inl ⟨j, k, o, hj, (hpl j k o h0).1 h1, h2⟩⟩
        | some b =>
          simp only [planFor, h0, Except.ok.injEq, Plan.ref.injEq] at h1
          obtain ⟨-, -, rfl⟩ := h1
          simp at h2
      · exact ⟨e, by simp, hk, hn, h0, .inr ⟨h1, h2⟩⟩
    · rintro ⟨x, hx, -, -, h0, h3 | h3⟩
      · simp at hx
        subst hx
        obtain ⟨i, k, o, hi, h4, h5⟩ := h3
        exact .inl ⟨i, hi, k, o, by rw [Nat.zero_add]; exact (hpl i k o h0).2 h4, h5⟩
      · simp at hx
        subst hx
        exact .inr ⟨h0, h3⟩
  times d := by
    rw [ht, hd.times, h.times]
    constructor
    · rintro (⟨x, hx, h1⟩ | ⟨j, hj, c, h1⟩)
      · exact ⟨x, by simp [hx], h1⟩
      · exact ⟨e, by simp, hk, j, c, hj, by simpa using h1⟩
    · rintro ⟨x, hx, h1, i, c, hi, h2⟩
      rcases List.mem_append.1 hx with hx | hx
      · exact .inl ⟨x, hx, h1, i, c, hi, h2⟩
      · simp at hx
        subst hx
        exact .inr ⟨i, hi, c, by simpa using h2⟩
  nodupA := hnA (hd.nodupA h.nodupA)
  nodupP := by rw [hpd]; exact hd.nodupP h.nodupP

theorem parseEntry_ok {es : List Entry} {s s' : Parse} (h : ParseInv I es s) {e : Entry} (hk : e.kind ≠ .struct)
    (hn : e.ndim ≠ 0) (hp : ∀ e' ∈ es, e'.path ≠ e.path) (hr : parseEntry I e s = .ok s') : ParseInv I (es ++ [e]) s' := by
  unfold parseEntry at hr
  split at hr
  · rename_i base hb
    cases hr
    have hd := parseError_ok e.path base e.ndim 0 s
    have hpl : planFor I e = fun j => .ok (.ref base j []) := by funext j; simp [planFor, hb]
    rw [← hpl] at hd
    refine parseInv_dims I h hk hn hp hd ?_ rfl rfl id ?_
    · simp only [hd.ut]
    · intro q a; simp [hb]
  · rename_i hb
    split at hr
    · cases hr
    · rename_i l s1 hd
      have hd := parseDims_ok I e _ _ _ hd
      have hpl : planFor I e = planOf I e := by funext j; simp [planFor, hb]
      rw [← hpl] at hd
      split at hr
      · cases hr
      · rename_i s2 ha
        cases hr
        unfold parseAlternatives at ha
        split at ha
        · rename_i h0
          cases ha
          refine parseInv_dims I h hk hn hp hd rfl rfl rfl id ?_
          intro q a
          constructor
          · exact .inl
          · rintro (h | ⟨-, rfl, h⟩)
            · exact h
            · rw [h0] at h; simp at h
        · split at ha
          · cases ha
          · split at ha
            · cases ha
            · cases ha
              refine parseInv_dims I h hk hn hp hd rfl rfl rfl (fun hn => nodup_addAlts hn _ _) ?_
              intro q a
              rw [inAlts_add]
              apply or_congr Iff.rfl
              constructor
              · rintro ⟨rfl, h⟩; exact ⟨hb, rfl, h⟩
              · rintro ⟨-, rfl, h⟩; exact ⟨rfl, h⟩

theorem parseNode_ok {es : List Entry} {s s' : Parse} (h : ParseInv I es s) {e : Entry}
    (hp : ∀ e' ∈ es, e'.path ≠ e.path) (hr : parseNode I e s = .ok s') : ParseInv I (es ++ [e]) s' := by
  unfold parseNode at hr
  split at hr
  · rename_i hk
    cases hr
    refine parseInv_zero I h (.inl hk) hp rfl rfl rfl ?_
    intro p
    rw [if_neg]
    rintro ⟨-, hr, -⟩
    exact hr hk
  · rename_i hk
    split at hr
    · rename_i hn
      exact parseEntry_ok I h hk hn hp hr
    · rename_i hn
      have hn : e.ndim = 0 := by simpa using hn
      split at hr
      · rename_i ha
        cases hr
        refine parseInv_zero I h (.inr hn) hp rfl rfl rfl ?_
        intro p
        simp only [dget_dset]
        have : Relevant e := ⟨hk, .inr ha⟩
        simp [this]
      · rename_i ha
        cases hr
        refine parseInv_zero I h (.inr hn) hp rfl rfl rfl ?_
        intro p
        rw [if_neg]
        rintro ⟨-, -, h1 | h1⟩
        · exact h1 hn
        · exact ha h1

theorem parseAll_ok : ∀ (r es : List Entry) (s : Parse) {s' : Parse}, ParseInv I es s →
    ((es ++ r).map (·.path)).Nodup → parseAll I r s = .ok s' → ParseInv I (es ++ r) s'
  | [], es, s, s', h, _, hr => by
    simp only [parseAll, Except.ok.injEq] at hr
    subst hr
    simpa using h
  | e :: r, es, s, s', h, hn, hr => by
    unfold parseAll at hr
    split at hr
    · cases hr
    · rename_i s1 h1
      have hp : ∀ e' ∈ es, e'.path ≠ e.path := by
        intro e' he' eq
        rw [List.map_append, List.nodup_append] at hn
        exact hn.2.2 e'.path (List.mem_map.2 ⟨e', he', rfl⟩) e.path (by simp) eq
      have := parseAll_ok r (es ++ [e]) s1 (parseNode_ok I h hp h1) (by simpa using hn) hr
      simpa using this

theorem parseInv_nil : ParseInv I [] {} where
  ut := by simp
  ut' := by simp [dget]
  pend := by simp
  pend' := by simp [dget]
  alts := by simp [inAlts, dget, AltBy]
  times := by simp
  nodupA := by simp
  nodupP := by simp

end Verif.Nc
