import Verif.Spec.MetaTree
import Verif.Props.DataType
import Verif.Props.Metadata
import Verif.Lemmas.ConvertPlan
import Verif.Spec.AlStore
/-! C61: what metadata says about time dependence, context paths, time bases and units. -/
namespace Verif.Props
open Verif.DD Verif.DDSpec Verif.Ids
open Verif.PathSpec (FieldName)
open Verif.AlSpec (relPath)
open Verif.ConvertSpec (mchild child metaAt)

theorem descend_append (m : MD) (p q : List Name) : descend m (p ++ q) = (descend m p).bind fun k => descend k q := by
  induction p generalizing m with
  | nil => rfl
  | cons n p ih =>
    simp only [List.cons_append, descend]
    cases m.kids.get? n with
    | none => rfl
    | some k => exact ih k

theorem reach_append {x z : Xml} {p q : List Name} : Reach x (p ++ q) z ↔ ∃ y, Reach x p y ∧ Reach y q z := by
  induction p generalizing x with
  | nil =>
    constructor
    · intro h; exact ⟨x, .nil, h⟩
    · rintro ⟨y, h1, h2⟩; cases h1; exact h2
  | cons n p ih =>
    constructor
    · intro h
      cases h with
      | cons hc hn h =>
        obtain ⟨y, h1, h2⟩ := ih.1 h
        exact ⟨y, .cons hc hn h1, h2⟩
    · rintro ⟨y, h1, h2⟩
      cases h1 with
      | cons hc hn h1 => exact .cons hc hn (ih.2 ⟨y, h1, h2⟩)

/-- The context path that the children of a node are given. -/
def ctxOf (i : Info) : Text := if i.type = some .structArray then [] else i.ctxPath

theorem step_down {stack : Nat} : ∀ (p : List Name) {x : Xml} {ctx : Text} {parent : Option Info} {m : MD} {here : List Name}
    {n : Name} {z : Xml}, mkMeta stack x ctx parent = .ok m → WFXml here x → Reach x (p ++ [n]) z →
    ∃ mp m', descend m p = some mp ∧ descend m (p ++ [n]) = some m' ∧
      mkMeta stack z (ctxOf mp.info) (some mp.info) = .ok m' ∧ FieldName n ∧ m'.info.name = n
  | [], x, ctx, parent, m, here, n, z, hm, hw, hz => by
    obtain ⟨_, hk, _⟩ := mkMeta_spec hm
    cases hw with
    | @mk _ t a k hwk =>
      rw [kids_mk] at hk
      cases hz with
      | cons hc hn h =>
        cases h
        obtain ⟨hf, -, -, m', hm', hg⟩ := mkKids_mem hk hwk hc hn
        refine ⟨m, m', rfl, by simp [descend, hg], hm', hf, ?_⟩
        have := (mkMeta_name hm').1
        unfold Named at this hn
        rw [hn] at this
        cases this
        rfl
  | q :: p, x, ctx, parent, m, here, n, z, hm, hw, hz => by
    obtain ⟨_, hk, _⟩ := mkMeta_spec hm
    cases hw with
    | @mk _ t a k hwk =>
      rw [kids_mk] at hk
      cases hz with
      | cons hc hn h =>
        obtain ⟨-, -, hwy, my, hmy, hg⟩ := mkKids_mem hk hwk hc hn
        obtain ⟨mp, m', h1, h2, h3⟩ := step_down p hmy hwy h
        exact ⟨mp, m', by simp [descend, hg, h1], by simp [descend, hg, h2], h3⟩

/-- Where a lookup ends, the metadata is that of the element there. -/
theorem found {stack : Nat} {x : Xml} {m : MD} {here : List Name} (hm : toplevelMeta stack x = .ok m) (hw : WFXml here x)
    {p : List Name} {z : Xml} (hz : Reach x p z) : ∃ mp c P, descend m p = some mp ∧ mkMeta stack z c P = .ok mp := by
  rcases List.eq_nil_or_concat p with rfl | ⟨q, n, rfl⟩
  · cases hz; exact ⟨m, _, _, rfl, hm⟩
  · rw [List.concat_eq_append] at hz ⊢
    obtain ⟨mp, m', -, h2, h3, -⟩ := step_down q hm hw hz
    exact ⟨m', _, _, h2, h3⟩

theorem parse_spelled (s : Text) (t : DataType) (d : Nat) : parseDataType s = .ok (t, d) ↔ Spelled s t d := by
  rw [parse_iff]
  constructor
  · rintro (⟨rfl, rfl, rfl⟩ | ⟨rfl, rfl, rfl⟩ | ⟨b, rfl, rfl, h⟩ | ⟨b, r, rfl, hd, h⟩)
    · exact .documented .struc
    · exact .documented .structArray
    · exact .documented (.legacy b s h)
    · exact .trailing hd h
  · intro h
    cases h with
    | documented h => exact (parse_iff _ _ _).1 (C14_documented _ _ _ h)
    | trailing hd h => exact .inr (.inr (.inr ⟨_, _, rfl, hd, h⟩))

theorem parse_array {t : Text} {d : Nat} : parseDataType t = .ok (.structArray, d) ↔ t = "struct_array".toList ∧ d = 1 := by
  constructor
  · intro h
    rcases C14_accepts_only t _ d h with h | ⟨b, r, h, -⟩
    · cases h; exact ⟨rfl, rfl⟩
    · cases h
  · rintro ⟨rfl, rfl⟩; exact C14_documented _ _ _ .structArray

theorem meta_array {stack : Nat} {z : Xml} {c : Text} {P : Option Info} {m : MD} (h : mkMeta stack z c P = .ok m) :
    m.info.type = some .structArray ↔ IsArray z := by
  obtain ⟨hi, -, -⟩ := mkMeta_spec h
  obtain ⟨-, -, -, -, -, ht, -⟩ := mkInfo_spec hi
  unfold IsArray Xml.get
  unfold parseType at ht
  cases hd : getAttr z.attrs "data_type".toList with
  | none =>
    rw [hd] at ht
    simp only [Except.ok.injEq, Prod.mk.injEq] at ht
    simp [← ht.1]
  | some t =>
    rw [hd] at ht
    simp only at ht
    split at ht
    · rename_i d n hp
      simp only [Except.ok.injEq, Prod.mk.injEq] at ht
      rw [← ht.1]
      constructor
      · intro e
        cases e
        rw [(parse_array.1 hp).1]
      · intro e
        cases e
        rw [C14_documented _ _ _ .structArray] at hp
        cases hp
        rfl
    · cases ht
    · cases ht

theorem meta_marked {stack : Nat} {z : Xml} {c : Text} {P : Option Info} {m : MD} (h : mkMeta stack z c P = .ok m) :
    m.info.time = .dynamic ↔ Marked z := by
  obtain ⟨hi, -, -⟩ := mkMeta_spec h
  obtain ⟨-, -, -, -, -, -, ht, -⟩ := mkInfo_spec hi
  unfold Marked Xml.get
  cases hd : getAttr z.attrs "type".toList with
  | none =>
    rw [hd] at ht
    simp only [parseTime, Except.ok.injEq] at ht
    simp [← ht]
  | some t =>
    rw [hd] at ht
    simp only [parseTime] at ht
    split at ht
    · rename_i e
      rw [← Except.ok.inj ht, e]
      exact iff_of_true rfl rfl
    · rename_i e
      have : m.info.time ≠ .dynamic := by
        split at ht
        · rw [← Except.ok.inj ht]; simp
        · split at ht
          · rw [← Except.ok.inj ht]; simp
          · cases ht
      exact iff_of_false this fun h => e (Option.some.inj h)

theorem slashed_ne {r : List Name} (h : r ≠ []) (hn : ∀ n ∈ r, n ≠ []) : slashed r ≠ [] := by
  cases r with
  | nil => exact absurd rfl h
  | cons n r =>
    cases r with
    | nil => exact hn n (by simp)
    | cons m r => simp [slashed]

theorem slashed_concat {r : List Name} (h : r ≠ []) (n : Name) : slashed (r ++ [n]) = slashed r ++ '/' :: n := by
  induction r with
  | nil => exact absurd rfl h
  | cons a r ih =>
    cases r with
    | nil => rfl
    | cons b r =>
      have := ih (by simp)
      rw [List.cons_append, slashed_cons (l := b :: r ++ [n]) (by simp), this, slashed_cons (n := a) (l := b :: r) (by simp)]
      simp

theorem meta_ctx {stack : Nat} {x : Xml} {m : MD} (hm : toplevelMeta stack x = .ok m) : ctxOf m.info = [] := by
  obtain ⟨hi, -, -⟩ := mkMeta_spec hm
  obtain ⟨-, -, hc, -⟩ := mkInfo_spec hi
  simp [ctxOf, hc, childCtx]

theorem context_at {stack : Nat} {x : Xml} {m : MD} (hm : toplevelMeta stack x = .ok m) (hw : WFXml [] x) :
    ∀ (k : Nat) (names : List Name), names.length = k + 1 → ∀ y, Reach x names y →
    ∃ m' a r, descend m names = some m' ∧ Nearest x names a r ∧ m'.info.ctxPath = slashed r ∧ ∀ n ∈ r, n ≠ []
  | k, names, hl, y, hy => by
    rcases List.eq_nil_or_concat names with rfl | ⟨p, n, rfl⟩
    · simp at hl
    · rw [List.concat_eq_append] at *
      obtain ⟨mp, m', h1, h2, h3, hf, hname⟩ := step_down p hm hw hy
      have hctx : m'.info.ctxPath = if ctxOf mp.info = [] then n else ctxOf mp.info ++ '/' :: n := by
        obtain ⟨hi, -, -⟩ := mkMeta_spec h3
        obtain ⟨-, -, hc, -⟩ := mkInfo_spec hi
        rw [hc, hname, childCtx]
      have hn0 : n ≠ [] := Path.FieldName.ne_nil hf
      cases k with
      | zero =>
        have : p = [] := by
          apply List.length_eq_zero_iff.1
          simp at hl
          simpa using hl
        subst this
        cases h1
        rw [meta_ctx hm, if_pos rfl] at hctx
        refine ⟨m', [], [n], h2, ⟨rfl, by simp, .inl rfl, ?_⟩, by rw [hctx]; rfl, by simpa using hn0⟩
        intro b c z e hb hc
        have := congrArg List.length e
        have h1 := List.length_pos_iff.2 hb
        have h2 := List.length_pos_iff.2 hc
        simp at this
        omega
      | succ k =>
        obtain ⟨w, hw1, hw2⟩ := reach_append.1 hy
        obtain ⟨mp', a, r, e1, e2, e3, e4⟩ := context_at hm hw k p (by simpa using hl) w hw1
        rw [h1] at e1
        cases e1
        by_cases ha : mp.info.type = some .structArray
        · refine ⟨m', p, [n], h2, ⟨rfl, by simp, .inr ⟨w, hw1, ?_⟩, ?_⟩, ?_, by simpa using hn0⟩
          · obtain ⟨q, c, P, f1, f2⟩ := found hm hw hw1
            rw [h1] at f1
            cases f1
            exact (meta_array f2).1 ha
          · intro b c z e hb hc
            have := congrArg List.length e
            have h1 := List.length_pos_iff.2 hb
            have h2 := List.length_pos_iff.2 hc
            simp at this
            omega
          · rw [hctx, if_pos (by simp [ctxOf, ha])]; rfl
        · have hc0 : ctxOf mp.info = slashed r := by simp [ctxOf, ha, e3]
          refine ⟨m', a, r ++ [n], h2, ⟨by rw [e2.split]; simp, by simp, e2.above, ?_⟩, ?_, ?_⟩
          · intro b c z e hb hc hz
            rcases List.eq_nil_or_concat c with rfl | ⟨c', n', rfl⟩
            · exact absurd rfl hc
            · rw [List.concat_eq_append, ← List.append_assoc] at e
              obtain ⟨e5, -⟩ := List.append_inj' e rfl
              by_cases hc' : c' = []
              · subst hc'
                rw [List.append_nil] at e5
                subst e5
                rw [← e2.split] at hz
                obtain ⟨q, c, P, f1, f2⟩ := found hm hw hz
                rw [h1] at f1
                cases f1
                exact fun h => ha ((meta_array f2).2 h)
              · exact e2.between b c' z e5 hb hc' hz
          · rw [hctx, hc0, if_neg (slashed_ne e2.own e4), slashed_concat e2.own]
          · intro q hq
            rcases List.mem_append.1 hq with hq | hq
            · exact e4 q hq
            · simp at hq; subst hq; exact hn0

theorem fieldName_dot {s : List Char} (h : FieldName s) : '.' ∉ s := by
  obtain ⟨⟨c, cs, rfl, hc, hcs⟩, _⟩ := h
  intro hx
  rcases List.mem_cons.mp hx with rfl | hx
  · simp [PathSpec.Lower] at hc
  · rcases hcs _ hx with h | h | h <;> simp [PathSpec.Lower, PathSpec.Digit] at h

theorem getitem_descend {stack : Nat} {x : Xml} {m : MD} (hm : toplevelMeta stack x = .ok m) (hw : WFXml [] x)
    {names : List Name} (hne : names ≠ []) {y : Xml} (hy : Reach x names y) : m.getitem (slashed names) = descend m names := by
  unfold MD.getitem
  have : ∀ n ∈ names, '.' ∉ n ∧ '/' ∉ n := by
    intro n hn
    obtain ⟨p, q, rfl⟩ := List.append_of_mem hn
    rw [show p ++ n :: q = (p ++ [n]) ++ q by simp] at hy
    obtain ⟨w, hw1, -⟩ := reach_append.1 hy
    obtain ⟨-, -, -, -, -, hf, -⟩ := step_down p hm hw hw1
    exact ⟨fieldName_dot hf, fieldName_slash hf⟩
  rw [splitParts_written (written_slashed hne) this]

/-- **C61.** The context path of a node is its path from the nearest array of structures around it (from the IDS if there
is none). -/
theorem C61_context (stack : Nat) (x : Xml) (m : MD) (hm : toplevelMeta stack x = .ok m) (hw : WFXml [] x)
    (names : List Name) (hne : names ≠ []) (y : Xml) (hy : Reach x names y) :
    ∃ m' a r, m.getitem (slashed names) = some m' ∧ Nearest x names a r ∧ m'.info.ctxPath = slashed r := by
  obtain ⟨m', a, r, h1, h2, h3, -⟩ := context_at hm hw (names.length - 1) names
    (by have := List.length_pos_iff.2 hne; omega) y hy
  exact ⟨m', a, r, by rw [getitem_descend hm hw hne hy, h1], h2, h3⟩

theorem descend_exists {stack : Nat} {x : Xml} {m : MD} (hm : toplevelMeta stack x = .ok m) (hw : WFXml [] x)
    {names : List Name} (hne : names ≠ []) {y : Xml} (hy : Reach x names y) :
    ∃ p n mp m', names = p ++ [n] ∧ descend m p = some mp ∧ m.getitem (slashed names) = some m' ∧
      descend m names = some m' ∧ mkMeta stack y (ctxOf mp.info) (some mp.info) = .ok m' := by
  rcases List.eq_nil_or_concat names with rfl | ⟨p, n, rfl⟩
  · exact absurd rfl hne
  · rw [getitem_descend hm hw hne hy]
    rw [List.concat_eq_append] at *
    obtain ⟨mp, m', h1, h2, h3, -⟩ := step_down p hm hw hy
    exact ⟨p, n, mp, m', rfl, h1, h2, h2, h3⟩

theorem varies_concat {x : Xml} {p : List Name} {n : Name} :
    Varies x (p ++ [n]) ↔ Varies x p ∨ ∃ z, Reach x (p ++ [n]) z ∧ Marked z := by
  constructor
  · rintro ⟨q, z, h0, h1, h2, h3⟩
    rcases List.prefix_concat_iff.1 h1 with rfl | h1
    · exact .inr ⟨z, h2, h3⟩
    · exact .inl ⟨q, z, h0, h1, h2, h3⟩
  · rintro (⟨q, z, h0, h1, h2, h3⟩ | ⟨z, h2, h3⟩)
    · exact ⟨q, z, h0, h1.trans ⟨[n], rfl⟩, h2, h3⟩
    · exact ⟨_, z, by simp, List.prefix_refl _, h2, h3⟩

theorem dynamic_at {stack : Nat} {x : Xml} {m : MD} (hm : toplevelMeta stack x = .ok m) (hw : WFXml [] x) :
    ∀ (k : Nat) (names : List Name), names.length = k → ∀ y, Reach x names y →
    ∃ m', descend m names = some m' ∧ (m'.info.isDynamic = true ↔ Varies x names)
  | k, names, hl, y, hy => by
    rcases List.eq_nil_or_concat names with rfl | ⟨p, n, rfl⟩
    · refine ⟨m, rfl, ?_⟩
      obtain ⟨hi, -, -⟩ := mkMeta_spec hm
      obtain ⟨-, -, -, hd, -⟩ := mkInfo_spec hi
      rw [hd]
      refine iff_of_false (by simp [dynamicOf]) ?_
      rintro ⟨q, z, h0, h1, -⟩
      exact h0 (List.prefix_nil.1 h1)
    · rw [List.concat_eq_append] at *
      cases k with
      | zero => simp at hl
      | succ k =>
      obtain ⟨mp, m', h1, h2, h3, -⟩ := step_down p hm hw hy
      obtain ⟨w, hw1, -⟩ := reach_append.1 hy
      obtain ⟨mp', e1, e2⟩ := dynamic_at hm hw k p (by simpa using hl) w hw1
      rw [h1] at e1
      cases e1
      refine ⟨m', h2, ?_⟩
      obtain ⟨hi, -, -⟩ := mkMeta_spec h3
      obtain ⟨-, -, -, hd, -⟩ := mkInfo_spec hi
      rw [hd, varies_concat, ← e2]
      simp only [dynamicOf, Bool.or_eq_true, beq_iff_eq]
      rw [Or.comm]
      apply or_congr Iff.rfl
      constructor
      · intro h
        exact ⟨y, hy, (meta_marked h3).1 h⟩
      · rintro ⟨z, hz, hzm⟩
        obtain ⟨q, c, P, f1, f2⟩ := found hm hw hz
        rw [h2] at f1
        cases f1
        exact (meta_marked f2).2 hzm

/-- **C61.** A node depends on time if and only if it or a structure or array of structures around it is marked as
dynamic. -/
theorem C61_dynamic (stack : Nat) (x : Xml) (m : MD) (hm : toplevelMeta stack x = .ok m) (hw : WFXml [] x)
    (names : List Name) (hne : names ≠ []) (y : Xml) (hy : Reach x names y) :
    ∃ m', m.getitem (slashed names) = some m' ∧ (m'.info.isDynamic = true ↔ Varies x names) := by
  obtain ⟨m', h1, h2⟩ := dynamic_at hm hw _ names rfl y hy
  exact ⟨m', by rw [getitem_descend hm hw hne hy, h1], h2⟩

/-- **C61.** The time base of a dynamic array of structures is the `time` inside it; that of a dynamic data node is the one
given in the Data Dictionary, unless something around it is dynamic. Other nodes have no time base. -/
theorem C61_time_base (stack : Nat) (x : Xml) (m : MD) (hm : toplevelMeta stack x = .ok m) (hw : WFXml [] x)
    (names : List Name) (hne : names ≠ []) (y : Xml) (hy : Reach x names y) :
    ∃ m', m.getitem (slashed names) = some m' ∧
      (IsArray y → Marked y → ∃ a r, Nearest x names a r ∧ m'.info.timebase = slashed (r ++ ["time".toList])) ∧
      (¬ IsArray y → Marked y → ¬ Varies x names.dropLast → m'.info.timebase = attr y "timebasepath") ∧
      (¬ Marked y ∧ IsArray y ∨ ¬ IsArray y ∧ (¬ Marked y ∨ Varies x names.dropLast) → m'.info.timebase = []) := by
  obtain ⟨p, n, mp, m', rfl, h1, h2, h3, h4⟩ := descend_exists hm hw hne hy
  obtain ⟨w, hw1, -⟩ := reach_append.1 hy
  obtain ⟨mp', e1, e2⟩ := dynamic_at hm hw _ p rfl w hw1
  rw [h1] at e1
  cases e1
  obtain ⟨hi, -, -⟩ := mkMeta_spec h4
  obtain ⟨-, -, -, -, -, -, -, -, ht⟩ := mkInfo_spec hi
  have ha := meta_array h4
  have hd := meta_marked h4
  rw [List.dropLast_concat]
  refine ⟨m', h2, fun h5 h6 => ?_, fun h5 h6 h7 => ?_, fun h5 => ?_⟩
  · obtain ⟨m2, a, r, f1, f2, f3, -⟩ := context_at hm hw p.length (p ++ [n]) (by simp) y hy
    rw [h3] at f1
    cases f1
    refine ⟨a, r, f2, ?_⟩
    rw [ht, timebaseOf, if_pos (ha.2 h5), if_pos (hd.2 h6), f3, slashed_concat f2.own]
    rfl
  · rw [ht, timebaseOf, if_neg (fun h => h5 (ha.1 h)), if_neg]
    · rfl
    · rintro ⟨-, h | h⟩
      · exact h (hd.2 h6)
      · exact h7 (e2.1 (by simpa using h))
  · rw [ht, timebaseOf]
    by_cases h6 : IsArray y
    · rw [if_pos (ha.2 h6), if_neg]
      rcases h5 with h5 | h5
      · exact fun h => h5.1 (hd.1 h)
      · exact absurd h6 h5.1
    · rw [if_neg (fun h => h6 (ha.1 h))]
      split
      · rfl
      · rename_i hc
        apply Classical.byContradiction
        intro hne'
        apply hc
        refine ⟨hne', ?_⟩
        rcases h5 with h5 | ⟨-, h5 | h5⟩
        · exact absurd h5.2 h6
        · exact .inl fun h => h5 (hd.1 h)
        · exact .inr (by simpa using e2.2 h5)

theorem units_at {stack : Nat} {x : Xml} {m : MD} (hm : toplevelMeta stack x = .ok m) (hw : WFXml [] x) :
    ∀ (k : Nat) (names : List Name), names.length = k → ∀ y, Reach x names y →
    ∃ m', descend m names = some m' ∧ Units x names m'.info.units
  | k, names, hl, y, hy => by
    rcases List.eq_nil_or_concat names with rfl | ⟨p, n, rfl⟩
    · refine ⟨m, rfl, ?_⟩
      obtain ⟨hi, -, -⟩ := mkMeta_spec hm
      obtain ⟨-, -, -, -, hd, -⟩ := mkInfo_spec hi
      rw [hd]
      exact .top
    · rw [List.concat_eq_append] at *
      cases k with
      | zero => simp at hl
      | succ k =>
      obtain ⟨mp, m', h1, h2, h3, -⟩ := step_down p hm hw hy
      obtain ⟨w, hw1, -⟩ := reach_append.1 hy
      obtain ⟨mp', e1, e2⟩ := units_at hm hw k p (by simpa using hl) w hw1
      rw [h1] at e1
      cases e1
      refine ⟨m', h2, ?_⟩
      obtain ⟨hi, -, -⟩ := mkMeta_spec h3
      obtain ⟨-, -, -, -, hd, -⟩ := mkInfo_spec hi
      rw [hd]
      unfold unitsOf
      simp only
      split
      · rename_i hu
        exact .inherited hy hu e2
      · rename_i hu
        exact .own hy hu

/-- **C61.** The units of a node are those given in the Data Dictionary, where `as_parent` stands for the units of the node
around it. -/
theorem C61_units (stack : Nat) (x : Xml) (m : MD) (hm : toplevelMeta stack x = .ok m) (hw : WFXml [] x)
    (names : List Name) (hne : names ≠ []) (y : Xml) (hy : Reach x names y) :
    ∃ m', m.getitem (slashed names) = some m' ∧ Units x names m'.info.units := by
  obtain ⟨m', h1, h2⟩ := units_at hm hw _ names rfl y hy
  exact ⟨m', by rw [getitem_descend hm hw hne hy, h1], h2⟩

/-! ### Coordinates -/

theorem mkInfo_coords {stack : Nat} {a : List (Name × Text)} {ctx : Text} {parent : Option Info} {i : Info}
    (h : mkInfo stack a ctx parent = .ok i) :
    i.coords = coordAttrs a [] i.ndim ∧ i.sameAs = coordAttrs a "_same_as".toList i.ndim := by
  unfold mkInfo at h
  split at h
  · cases h
  · split at h
    · cases h
    · simp only at h
      split at h
      · cases h
      · split at h
        · cases h
        · simp only [Except.ok.injEq] at h
          subst h
          exact ⟨rfl, rfl⟩

theorem coordAttrs_get {a : List (Name × Text)} {s : Text} {n i : Nat} (hi : i < n) :
    (coordAttrs a s n)[i]? = some ((DD.getAttr a ("coordinate".toList ++ Nat.toDigits 10 (i + 1) ++ s)).getD []) := by
  simp [coordAttrs, hi]

theorem inTypeMap_rank {t : Option DataType} {d : Nat} (h : inTypeMap t d = true) : d ≤ 6 := by
  cases t with
  | none => simp [inTypeMap] at h; omega
  | some t =>
    cases t with
    | «structure» => simp [inTypeMap] at h; omega
    | structArray => simp [inTypeMap] at h; omega
    | base b => cases b <;> simp [inTypeMap] at h <;> omega

/-- **C61.** A node has one coordinate and one "same as" coordinate per dimension, in the order of the dimensions: those of
the Data Dictionary, empty if there are none. -/
theorem C61_coordinates (stack : Nat) (x : Xml) (m : MD) (hm : toplevelMeta stack x = .ok m) (hw : WFXml [] x)
    (names : List Name) (hne : names ≠ []) (y : Xml) (hy : Reach x names y) :
    ∃ m', m.getitem (slashed names) = some m' ∧ m'.info.ndim ≤ 6 ∧ m'.info.coords.length = m'.info.ndim ∧
      m'.info.sameAs.length = m'.info.ndim ∧ ∀ i, i < m'.info.ndim →
        m'.info.coords[i]? = some (attr y (coordinateName i)) ∧ m'.info.sameAs[i]? = some (attr y (sameName i)) := by
  obtain ⟨p, n, mp, m', rfl, h1, h2, h3, h4⟩ := descend_exists hm hw hne hy
  obtain ⟨hi, -, ht⟩ := mkMeta_spec h4
  obtain ⟨hc, hs⟩ := mkInfo_coords hi
  have hr := inTypeMap_rank ht
  refine ⟨m', h2, hr, by rw [hc]; simp [coordAttrs], by rw [hs]; simp [coordAttrs], fun i hi => ?_⟩
  rw [hc, hs, coordAttrs_get hi, coordAttrs_get hi]
  have : i < 6 := by omega
  match i, this with
  | 0, _ => exact ⟨rfl, rfl⟩
  | 1, _ => exact ⟨rfl, rfl⟩
  | 2, _ => exact ⟨rfl, rfl⟩
  | 3, _ => exact ⟨rfl, rfl⟩
  | 4, _ => exact ⟨rfl, rfl⟩
  | 5, _ => exact ⟨rfl, rfl⟩

/-! ### Which dictionaries are accepted -/

theorem parseType_iff {a : List (Name × Text)} :
    (∃ ty d, parseType (DD.getAttr a "data_type".toList) = .ok (ty, d) ∧ inTypeMap ty d = true) ↔
      (DD.getAttr a "data_type".toList = none ∨
        ∃ t ty d, DD.getAttr a "data_type".toList = some t ∧ Spelled t ty d ∧ Allowed ty d) := by
  have al : ∀ ty d, inTypeMap (some ty) d = true ↔ Allowed ty d := by
    intro ty d
    constructor
    · intro h
      cases ty
      · simp [inTypeMap] at h; subst h; exact .struct
      · simp [inTypeMap] at h; subst h; exact .array
      · rename_i t
        cases t with
        | str => simp [inTypeMap] at h; exact .string h
        | _ => simp [inTypeMap] at h; exact .number (by simp) h
    · intro h
      cases h with
      | struct => rfl
      | array => rfl
      | string h => simpa [inTypeMap] using h
      | @number t d ht h => cases t <;> simp_all [inTypeMap]
  cases DD.getAttr a "data_type".toList with
  | none => exact iff_of_true ⟨none, 0, rfl, rfl⟩ (.inl rfl)
  | some t =>
    simp only [parseType, reduceCtorEq, Option.some.injEq, false_or]
    constructor
    · rintro ⟨ty, d, h, h'⟩
      split at h
      · rename_i ty' d' hp
        simp only [Except.ok.injEq, Prod.mk.injEq] at h
        obtain ⟨rfl, rfl⟩ := h
        exact ⟨t, _, _, rfl, (parse_spelled _ _ _).1 hp, (al _ _).1 h'⟩
      · cases h
      · cases h
    · rintro ⟨t', ty, d, rfl, h1, h2⟩
      rw [(parse_spelled _ _ _).2 h1]
      exact ⟨_, _, rfl, (al _ _).2 h2⟩

theorem parseTime_iff {o : Option Text} : (∃ t, parseTime o = .ok t) ↔
    (o = none ∨ o = some "dynamic".toList ∨ o = some "constant".toList ∨ o = some "static".toList) := by
  cases o with
  | none => simp [parseTime]
  | some t =>
    simp only [parseTime, Option.some.injEq, reduceCtorEq, false_or]
    generalize "dynamic".toList = a
    generalize "constant".toList = b
    generalize "static".toList = c
    by_cases h1 : t = a
    · rw [if_pos h1]; exact iff_of_true ⟨_, rfl⟩ (.inl h1)
    · rw [if_neg h1]
      by_cases h2 : t = b
      · rw [if_pos h2]; exact iff_of_true ⟨_, rfl⟩ (.inr (.inl h2))
      · rw [if_neg h2]
        by_cases h3 : t = c
        · rw [if_pos h3]; exact iff_of_true ⟨_, rfl⟩ (.inr (.inr h3))
        · simp [h1, h2, h3]

theorem checkPath_iff {stack : Nat} {p : Text} : checkPath stack p = .ok () ↔ ∃ r, Path.parsePath stack p = .ok r := by
  unfold checkPath
  split
  · rename_i r h; simp [h]
  · rename_i h; simp [h]
  · rename_i h; simp [h]

theorem mkInfo_accepts {stack : Nat} {z : Xml} {ctx : Text} {parent : Option Info} :
    (∃ i, mkInfo stack z.attrs ctx parent = .ok i ∧ inTypeMap i.type i.ndim = true) ↔ Accepted stack z := by
  constructor
  · rintro ⟨i, h, ht⟩
    obtain ⟨h1, h2, -, -, -, h3, h4, h5, -⟩ := mkInfo_spec h
    exact ⟨⟨_, h1⟩, parseType_iff.1 ⟨_, _, h3, ht⟩, by rw [h2] at h5; exact checkPath_iff.1 h5, parseTime_iff.1 ⟨_, h4⟩⟩
  · rintro ⟨⟨n, h1⟩, h2, h3, h4⟩
    obtain ⟨ty, d, e1, e2⟩ := parseType_iff.2 h2
    obtain ⟨tm, e3⟩ := parseTime_iff.2 h4
    have e4 := checkPath_iff.2 h3
    have h1' : DD.getAttr z.attrs "name".toList = some n := h1
    have e3' : parseTime (DD.getAttr z.attrs "type".toList) = .ok tm := e3
    have e4' : checkPath stack ((DD.getAttr z.attrs "path".toList).getD []) = .ok () := e4
    have : ∃ i, mkInfo stack z.attrs ctx parent = .ok i ∧ i.type = ty ∧ i.ndim = d := by
      unfold mkInfo
      rw [h1']
      simp only [e1, e4', e3']
      exact ⟨_, rfl, rfl, rfl⟩
    obtain ⟨i, f1, rfl, rfl⟩ := this
    exact ⟨i, f1, e2⟩

mutual
theorem mkMeta_accepts (stack : Nat) (x : Xml) (ctx : Text) (parent : Option Info) :
    (∃ m, mkMeta stack x ctx parent = .ok m) ↔ ∀ z ∈ x.iter, Accepted stack z := by
  cases x with
  | mk t a k =>
    simp only [Xml.iter, List.mem_cons, forall_eq_or_imp]
    rw [← mkInfo_accepts (ctx := ctx) (parent := parent), Xml.attrs]
    constructor
    · rintro ⟨m, h⟩
      obtain ⟨h1, h2, h3⟩ := mkMeta_spec h
      exact ⟨⟨_, h1, h3⟩, (mkKids_accepts stack k _ _ _).1 ⟨_, h2⟩⟩
    · rintro ⟨⟨i, h1, h2⟩, h3⟩
      obtain ⟨ks, h4⟩ := (mkKids_accepts stack k (if i.type = some .structArray then [] else i.ctxPath) i .nil).2 h3
      exact ⟨.mk i ks, by simp [mkMeta, h1, h4, h2]⟩
theorem mkKids_accepts (stack : Nat) (k : Xmls) (ctx : Text) (info : Info) (acc : MDs) :
    (∃ ks, mkKids stack k ctx info acc = .ok ks) ↔ ∀ z ∈ k.iter, Accepted stack z := by
  cases k with
  | nil => simp [mkKids, Xmls.iter]
  | cons x r =>
    simp only [Xmls.iter, List.mem_append]
    constructor
    · rintro ⟨ks, h⟩
      unfold mkKids at h
      split at h
      · cases h
      · rename_i m hm
        have h1 := (mkMeta_accepts stack x ctx (some info)).1 ⟨_, hm⟩
        have h2 := (mkKids_accepts stack r ctx info _).1 ⟨_, h⟩
        rintro z (hz | hz)
        · exact h1 z hz
        · exact h2 z hz
    · intro h
      obtain ⟨m, hm⟩ := (mkMeta_accepts stack x ctx (some info)).2 fun z hz => h z (.inl hz)
      obtain ⟨ks, hk⟩ := (mkKids_accepts stack r ctx info (acc.set m.info.name m)).2 fun z hz => h z (.inr hz)
      exact ⟨ks, by simp [mkKids, hm, hk]⟩
end

/-- **C61.** A Data Dictionary is accepted if and only if every element has a name, a path that can be parsed, a known type and
rank, and is marked as dynamic, constant, static or not at all. Nothing is guessed: otherwise an error is raised. -/
theorem C61_accepts (stack : Nat) (x : Xml) :
    (∃ m, toplevelMeta stack x = .ok m) ↔ ∀ z ∈ x.iter, Accepted stack z := mkMeta_accepts stack x [] none

/-! ### Context paths as the Access Layer uses them -/

theorem kid_built {stack : Nat} {x : Xml} {ctx : Text} {parent : Option Info} {k k' : MD} {here : List Name}
    (hm : mkMeta stack x ctx parent = .ok k) (hw : WFXml here x) {n : Name} (hk : k.kids.get? n = some k') :
    ∃ y here', mkMeta stack y (ctxOf k.info) (some k.info) = .ok k' ∧ WFXml here' y ∧ k'.info.name = n ∧ FieldName n := by
  obtain ⟨_, h1, _⟩ := mkMeta_spec hm
  cases hw with
  | @mk _ t a ks hwk =>
    rw [kids_mk] at h1
    by_cases hex : ∃ y ∈ ks.toList, Named y n
    · obtain ⟨y, hy, hn⟩ := hex
      obtain ⟨hf, -, hwy, my, hmy, hg⟩ := mkKids_mem h1 hwk hy hn
      rw [hk] at hg
      cases hg
      refine ⟨y, _, hmy, hwy, ?_, hf⟩
      have := (mkMeta_name hmy).1
      unfold Named at this hn
      rw [hn] at this
      cases this
      rfl
    · rw [mkKids_other h1 (fun z hz hzn => hex ⟨z, hz, hzn⟩)] at hk
      cases hk

/-- The children of a node of the tree of C36 and C49. -/
def kidsOf : Meta → Option MFields
  | .leaf _ => none
  | .struct c => some c
  | .aos c => some c

theorem kidsOf_built {k : MD} {c : MFields} (h : kidsOf k.toMeta = some c) : k.kids.toMFields = c := by
  cases k with
  | mk i ks =>
    unfold MD.toMeta at h
    cases ht : i.type with
    | none => simp [ht, kidsOf] at h; exact h
    | some t => cases t <;> simp [ht, kidsOf] at h <;> exact h

theorem aos_built {k : MD} {c : MFields} (h : k.toMeta = .aos c) : k.info.type = some .structArray := by
  cases k with
  | mk i ks =>
    unfold MD.toMeta at h
    cases ht : i.type with
    | none => simp [ht] at h
    | some t => cases t <;> simp [ht] at h; exact ht

theorem struct_built {k : MD} {c : MFields} (h : k.toMeta = .struct c) : k.info.type ≠ some .structArray := by
  cases k with
  | mk i ks =>
    unfold MD.toMeta at h
    intro ht
    have : i.type = some .structArray := ht
    simp [this] at h

theorem relative_at {stack : Nat} : ∀ (names : List Name) {x : Xml} {ctx : Text} {parent : Option Info} {k : MD}
    {here acc : List Name} {c : MFields} {z : Meta}, mkMeta stack x ctx parent = .ok k → WFXml here x → names ≠ [] →
    kidsOf k.toMeta = some c → ctxOf k.info = slashed acc → (∀ n ∈ acc, n ≠ []) → metaAt (.struct c) names = some z →
    ∃ k', descend k names = some k' ∧ k'.info.ctxPath = slashed (relPath c acc names)
  | [], _, _, _, _, _, _, _, _, _, _, h, _, _, _, _ => absurd rfl h
  | n :: names, x, ctx, parent, k, here, acc, c, z, hm, hw, _, hc, hacc, hne, hz => by
    simp only [metaAt, child] at hz
    cases hch : mchild c n with
    | none => rw [hch] at hz; cases hz
    | some w =>
      rw [hch] at hz
      have hg : ∃ k1, k.kids.get? n = some k1 ∧ k1.toMeta = w := by
        rw [← kidsOf_built hc, Convert.mchild_eq, mget_toMFields] at hch
        simpa using hch
      obtain ⟨k1, hg, rfl⟩ := hg
      obtain ⟨y, here', hm1, hw1, hname, hf⟩ := kid_built hm hw hg
      have hctx1 : k1.info.ctxPath = slashed (acc ++ [n]) := by
        obtain ⟨hi, -, -⟩ := mkMeta_spec hm1
        obtain ⟨-, -, h1, -⟩ := mkInfo_spec hi
        rw [h1, hname, childCtx, hacc]
        by_cases ha : acc = []
        · subst ha; rfl
        · rw [if_neg (slashed_ne ha hne), slashed_concat ha]
      have hne1 : ∀ q ∈ acc ++ [n], q ≠ [] := by
        intro q hq
        rcases List.mem_append.1 hq with hq | hq
        · exact hne q hq
        · simp at hq; subst hq; exact Path.FieldName.ne_nil hf
      by_cases hnil : names = []
      · subst hnil
        refine ⟨k1, by simp [descend, hg], ?_⟩
        rw [hctx1]
        unfold relPath
        rw [hch]
        cases h : k1.toMeta <;> simp [relPath]
      · have hdesc : descend k (n :: names) = descend k1 names := by simp [descend, hg]
        rw [hdesc]
        unfold relPath
        rw [hch]
        cases h : k1.toMeta with
        | leaf l =>
          rw [h] at hz
          cases names with
          | nil => exact absurd rfl hnil
          | cons q names => simp [metaAt, child] at hz
        | struct d =>
          rw [h] at hz
          simp only
          exact relative_at names hm1 hw1 hnil (by rw [h]; rfl)
            (by simp [ctxOf, struct_built h, hctx1]) hne1 hz
        | aos d =>
          rw [h] at hz
          simp only [if_neg hnil]
          have hz' : metaAt (.struct d) names = some z := by
            cases names with
            | nil => exact absurd rfl hnil
            | cons q names => exact hz
          exact relative_at names hm1 hw1 hnil (by rw [h]; rfl)
            (by simp [ctxOf, aos_built h, slashed]) (by simp) hz'

/-- **C61.** The paths by which get and put name nodes to the Access Layer (C36, C49, C54) are the context paths of the
metadata. -/
theorem C61_relative (stack : Nat) (x : Xml) (m : MD) (hm : toplevelMeta stack x = .ok m) (hw : WFXml [] x) (c : MFields)
    (hc : m.toMeta = .struct c) (names : List Name) (hne : names ≠ []) (z : Meta) (hz : metaAt (.struct c) names = some z) :
    ∃ m', m.getitem (slashed names) = some m' ∧ m'.info.ctxPath = slashed (relPath c [] names) := by
  obtain ⟨m', h1, h2⟩ := relative_at (acc := []) names hm hw hne (by rw [hc]; rfl) (by rw [meta_ctx hm]; rfl) (by simp) hz
  have : ∃ y, Reach x names y := by
    apply Classical.byContradiction
    intro hno
    rw [(descend_spec names hm hw).2 hno] at h1
    cases h1
  obtain ⟨y, hy⟩ := this
  exact ⟨m', by rw [getitem_descend hm hw hne hy, h1], h2⟩

/-! ### Examples -/

/-- `profiles_1d/grid/x` of `sampleDD`. -/
def gridPath : List Name := ["profiles_1d".toList, "grid".toList, "x".toList]

theorem sampleDD_grid : ∃ y, Reach sampleDD gridPath y :=
  ⟨_, .cons (.head _) rfl (.cons (.head _) rfl (.cons (.head _) rfl .nil))⟩

theorem sampleDD_meta : ∃ m, toplevelMeta 10 sampleDD = .ok m := by
  have : (toplevelMeta 10 sampleDD).isOk = true := by decide +kernel
  cases h : toplevelMeta 10 sampleDD with
  | ok m => exact ⟨m, rfl⟩
  | error e => rw [h] at this; cases this

/-- The hypotheses of the theorems of C61 are met, for a node in a structure in a dynamic array of structures. -/
example : ∃ m y, toplevelMeta 10 sampleDD = .ok m ∧ WFXml [] sampleDD ∧ gridPath ≠ [] ∧ Reach sampleDD gridPath y := by
  obtain ⟨m, hm⟩ := sampleDD_meta
  obtain ⟨y, hy⟩ := sampleDD_grid
  exact ⟨m, y, hm, sampleDD_wf, by simp [gridPath], hy⟩

example : ((toplevelMeta 10 sampleDD).toOption.bind fun m => m.getitem (slashed gridPath)).map
    (fun m' => (m'.info.ctxPath, m'.info.isDynamic, m'.info.timebase)) = some ("grid/x".toList, true, []) := by
  decide +kernel

example : Nearest sampleDD gridPath ["profiles_1d".toList] ["grid".toList, "x".toList] ∧ Varies sampleDD gridPath := by
  have hp : Reach sampleDD ["profiles_1d".toList] _ := .cons (.head _) rfl .nil
  refine ⟨⟨rfl, by simp, .inr ⟨_, hp, rfl⟩, ?_⟩, ⟨_, _, by simp, ⟨_, rfl⟩, hp, rfl⟩⟩
  intro b c z e hb hc hz
  cases b with
  | nil => exact absurd rfl hb
  | cons n b =>
    cases b with
    | nil =>
      simp only [List.cons_append, List.nil_append, List.cons.injEq] at e
      obtain ⟨rfl, -⟩ := e
      obtain ⟨m, hm⟩ := sampleDD_meta
      obtain ⟨mp, q, P, h1, h2⟩ := found hm sampleDD_wf hz
      rw [← meta_array h2]
      have : ((toplevelMeta 10 sampleDD).toOption.bind fun m => descend m ["profiles_1d".toList, "grid".toList]).map
          (fun m' => decide (m'.info.type = some .structArray)) = some false := by decide +kernel
      rw [hm] at this
      have h1' : descend m ["profiles_1d".toList, "grid".toList] = some mp := h1
      simp only [Except.toOption, Option.bind_some, h1', Option.map_some, Option.some.injEq, decide_eq_false_iff_not] at this
      exact this
    | cons n' b =>
      exfalso
      have := congrArg List.length e
      have h2 := List.length_pos_iff.2 hc
      simp only [List.length_cons, List.length_nil, List.length_append] at this
      omega

/-- Units are inherited through two levels. -/
example (x y z : Xml) (n n' : Name) (hy : Reach x [n] y) (hz : Reach x [n, n'] z) (h1 : attr y "units" = "as_parent".toList)
    (h2 : attr z "units" = "as_parent".toList) : Units x [n, n'] (attr x "units") :=
  .inherited (p := [n]) hz h2 (.inherited (p := []) hy h1 .top)

/-- An unknown type is refused. -/
example : ¬ ∃ m, toplevelMeta 10 (.mk "IDS".toList [("name".toList, "core".toList), ("type".toList, "variable".toList)] .nil) = .ok m := by
  rw [C61_accepts]
  intro h
  obtain ⟨-, -, -, h⟩ := h _ (List.Mem.head _)
  revert h
  decide +kernel

end Verif.Props
