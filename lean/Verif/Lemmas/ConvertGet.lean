import Verif.Props.VersionNbc
import Verif.Props.ConvertVersion
import Verif.Props.AlRound
/-
Nodes that are read from the same place in another version are also carried to that place by conversions.
-/
set_option linter.unusedSectionVars false
namespace Verif.ConvertGet
open Verif.Ids Verif.Al Verif.AlSpec Verif.TreeSpec Verif.DiffSpec Verif.ConvertSpec Verif.VMapSpec Verif.Props
open Verif.VMap hiding Path Nbc metaAt_append
open Verif.Convert (names)

variable {d : Dicts} {m1 m2 : MFields}

/-- The kinds of identified fields that did not change are the same. -/
theorem kinds_same (K : KeepsKind d) {f o : Field} (h : ¬ Changed d f o) :
    (f.dtype = "structure".toList ↔ o.dtype = "structure".toList) ∧
    (f.dtype = "struct_array".toList ↔ o.dtype = "struct_array".toList) := by
  cases hs : d.same f.dtype o.dtype with
  | true => exact K _ _ hs
  | false => exact absurd (.inl hs) h

theorem kind_at {l : List Field} {m m' : MFields} (s : Shows l m) {p : List Name} {n : Name} {z : Meta} {f : Field} (hf : f ∈ l)
    (hm : ∀ r, r ≠ [] → metaAt (.struct m) (p ++ r) = metaAt (.struct m') r) (hz : mchild m' n = some z)
    (hp : f.path = p ++ [n]) : IsKind f.dtype z := by
  obtain ⟨x, h1, h2⟩ := s.field f hf
  rw [hp, hm [n] (by simp)] at h1
  simp only [metaAt, child, hz, Option.bind_some, Option.some.injEq] at h1
  subst h1
  exact h2

theorem below {m m' c : MFields} {p : List Name} {n : Name} {z : Meta}
    (hm : ∀ r, r ≠ [] → metaAt (.struct m) (p ++ r) = metaAt (.struct m') r) (hz : mchild m' n = some z)
    (hc : z = .struct c ∨ z = .aos c) :
    ∀ r, r ≠ [] → metaAt (.struct m) (p ++ [n] ++ r) = metaAt (.struct c) r := by
  intro r hr
  rw [List.append_assoc, hm _ (by simp)]
  cases r with
  | nil => exact absurd rfl hr
  | cons k r =>
    rcases hc with rfl | rfl <;> simp [metaAt, child, hz]

/-- Identified positions in data of the two versions have the same element indices at all levels. -/
theorem carry (K : KeepsKind d) (sh1 : Shows d.old m1) (sh2 : Shows d.new m2) (b : Addr) :
    ∀ (a : Addr) (p q : List Name) (c1 c2 : MFields),
    (∀ r, r ≠ [] → metaAt (.struct m1) (p ++ r) = metaAt (.struct c1) r) →
    (∀ r, r ≠ [] → metaAt (.struct m2) (q ++ r) = metaAt (.struct c2) r) →
    IsNode c1 b → IsNode c2 a → a.length = b.length → a.filterMap (·.2) = b.filterMap (·.2) →
    (∀ k, 0 < k → k ≤ b.length → ∃ f o, Claim d f o ∧ ¬ Changed d f o ∧ f.path = q ++ names (a.take k) ∧
      o.path = p ++ names (b.take k)) →
    Carried (fun o f => Claim d f o) (fun p => ∃ h, Left d h ∧ h.path = p) (fun _ => False) (Enters d) p q b a := by
  induction b with
  | nil =>
    rintro a p q c1 c2 - - ⟨x, hx, hs⟩
    simp only [atMeta, Option.some.injEq] at hx
    exact absurd hx.symm (hs c1)
  | cons s b ih =>
    rintro a p q c1 c2 hm1 hm2 ⟨x, hx, hs⟩ ⟨y, hy, hs'⟩ hlen hidx hcl
    cases a with
    | nil => simp at hlen
    | cons t a =>
      obtain ⟨n, i⟩ := s
      obtain ⟨k, j⟩ := t
      have hlen2 : a.length = b.length := by simpa using hlen
      obtain ⟨f, o, hc, hch, hf, ho⟩ := hcl 1 (by simp) (by simp)
      have hf : f.path = q ++ [k] := by simpa [names] using hf
      have ho : o.path = p ++ [n] := by simpa [names] using ho
      have rest : ∀ k', 0 < k' → k' ≤ b.length → ∃ f o, Claim d f o ∧ ¬ Changed d f o ∧
          f.path = q ++ [k] ++ names (a.take k') ∧ o.path = p ++ [n] ++ names (b.take k') := by
        intro k' h1 h2
        obtain ⟨f', o', g1, g2, g3, g4⟩ := hcl (k' + 1) (by omega) (by simpa using h2)
        exact ⟨f', o', g1, g2, by simpa [names] using g3, by simpa [names] using g4⟩
      have hkind := kinds_same K hch
      rw [atMeta_cons] at hx hy
      cases hz1 : mchild c1 n with
      | none => simp [hz1] at hx
      | some z1 =>
        cases hz2 : mchild c2 k with
        | none => simp [hz2] at hy
        | some z2 =>
          have k1 := kind_at sh1 hc.2.1 hm1 hz1 ho
          have k2 := kind_at sh2 hc.1 hm2 hz2 hf
          rw [hz1] at hx
          rw [hz2] at hy
          cases z1 with
          | leaf l =>
            have hb : b = [] := by
              cases b with
              | nil => rfl
              | cons _ _ => cases i <;> simp [atMeta] at hx
            subst hb
            have ha : a = [] := by simpa using hlen
            subst ha
            have hi : i = none := by cases i <;> simp_all
            subst hi
            have hj : j = none := by cases j <;> simp_all
            subst hj
            exact .here hc ho hf
          | struct e1 =>
            have k2' : f.dtype = "structure".toList := hkind.1.2 k1
            obtain ⟨e2, rfl⟩ : ∃ e2, z2 = .struct e2 := by
              cases z2 with
              | leaf => exact absurd k2' k2.1
              | struct e2 => exact ⟨e2, rfl⟩
              | aos e2 => exact absurd (k2'.symm.trans k2) (by decide)
            have hi : i = none := by cases i <;> simp_all
            subst hi
            have hj : j = none := by cases j <;> simp_all
            subst hj
            exact .step hc ho hf (.inl ⟨hch, rfl⟩) (ih a _ _ e1 e2 (below hm1 hz1 (.inl rfl)) (below hm2 hz2 (.inl rfl))
              ⟨x, by simpa using hx, hs⟩ ⟨y, by simpa using hy, hs'⟩ hlen2 (by simpa using hidx) rest)
          | aos e1 =>
            have k2' : f.dtype = "struct_array".toList := hkind.2.2 k1
            obtain ⟨e2, rfl⟩ : ∃ e2, z2 = .aos e2 := by
              cases z2 with
              | leaf => exact absurd k2' k2.2
              | struct e2 => exact absurd (k2'.symm.trans k2) (by decide)
              | aos e2 => exact ⟨e2, rfl⟩
            cases hb : b with
            | nil =>
              subst hb
              have ha : a = [] := by simpa using hlen
              subst ha
              have hi : i = none := by
                cases i with
                | none => rfl
                | some i => simp [atMeta] at hx; exact absurd hx.symm (hs e1)
              subst hi
              have hj : j = none := by cases j <;> simp_all
              subst hj
              exact .here hc ho hf
            | cons b0 b' =>
              obtain ⟨i, rfl⟩ : ∃ i', i = some i' := by
                cases i with
                | none => rw [hb] at hx; simp [atMeta] at hx
                | some i => exact ⟨i, rfl⟩
              obtain ⟨j, rfl⟩ : ∃ j', j = some j' := by
                cases j with
                | none =>
                  cases a with
                  | nil => rw [hb] at hlen2; simp at hlen2
                  | cons a0 a' => simp [atMeta] at hy
                | some j => exact ⟨j, rfl⟩
              simp only [List.filterMap_cons, List.cons.injEq] at hidx
              rw [← hb]
              refine .step hc ho hf (.inl ⟨hch, by rw [hidx.1]⟩) (ih a _ _ e1 e2 (below hm1 hz1 (.inr rfl))
                (below hm2 hz2 (.inr rfl)) ⟨x, by simpa using hx, hs⟩ ⟨y, by simpa using hy, hs'⟩ hlen2 hidx.2 rest)

theorem names_length (a : Addr) : (names a).length = a.length := by simp [names]
theorem names_take (a : Addr) (k : Nat) : names (a.take k) = (names a).take k := by simp [names, List.map_take]

/-- Nodes that are the same are carried to one another. -/
theorem place_of_same (G : Given d) (L : Level d) (K : KeepsKind d) (sh1 : Shows d.old m1) (sh2 : Shows d.new m2) {a b : Addr}
    (h : SamePlace d a b) (ha : IsNode m2 a) (hb : IsNode m1 b) : Place d b a := by
  obtain ⟨⟨f, o, hsame, hf, ho⟩, hidx⟩ := h
  obtain ⟨hl, ht⟩ := G.claim_take L hsame.1
  refine carry K sh1 sh2 b a [] [] m1 m2 (fun _ _ => rfl) (fun _ _ => rfl) hb ha ?_ hidx fun k h1 h2 => ?_
  · rw [hf, ho, names_length, names_length] at hl; exact hl
  · obtain ⟨f', o', g1, g2, g3⟩ := ht k h1 (by rw [hl, ho, names_length]; exact h2)
    refine ⟨f', o', g1, hsame.2 f' o' (f.path.drop k) g1 (by rw [g2, List.take_append_drop]), ?_, ?_⟩
    · rw [g2, hf, names_take]; rfl
    · rw [g3, ho, names_take]; rfl

/-- What is the same did not change. -/
theorem kept_of_same (G : Given d) {a b : Addr} (h : SamePlace d a b) : Kept d b := by
  obtain ⟨⟨f, o, hsame, hf, ho⟩, -⟩ := h
  intro f' o' hc hp
  cases field_once G.old.once hc.2.1 hsame.1.2.1 (hp.trans ho.symm)
  cases G.claim_same' hc hsame.1
  exact hsame.2 _ _ [] hc (by simp)

/-- The fields above nodes that are the same did not change. -/
theorem above_same (G : Given d) (L : Level d) {a b : Addr} (h : SamePlace d a b) {f o : Field} (hc : Claim d f o)
    (hp : (∃ r, names b = o.path ++ r) ∨ ∃ r, names a = f.path ++ r) : ¬ Changed d f o := by
  obtain ⟨⟨f0, o0, hsame, hf, ho⟩, -⟩ := h
  rcases hp with ⟨r, hr⟩ | ⟨r, hr⟩
  · obtain ⟨hl, ht⟩ := G.claim_take L hsame.1
    have e : o0.path = o.path ++ r := ho.trans hr
    obtain ⟨f', o', g1, g2, g3⟩ := ht o.path.length
      (List.length_pos_iff.2 (G.old.names o hc.2.1).1) (by rw [hl, e]; simp)
    rw [e, List.take_left] at g3
    cases field_once G.old.once g1.2.1 hc.2.1 g3
    cases G.claim_same' g1 hc
    exact hsame.2 _ _ (f0.path.drop o.path.length) hc (by rw [g2, List.take_append_drop])
  · exact hsame.2 _ _ r hc (hf.trans hr)

variable {V : Type} [Value V]

theorem single_old_of_same (G : Given d) (L : Level d) (K : KeepsKind d) (sh : Shows d.old m1) {c : Fields V} (ht : TypedF c m1)
    {a b : Addr} (h : SamePlace d a b) : SingleOld d c b := by
  rintro b1 n i r m e hb - hx ⟨f, o, hc, hp, hd⟩
  exfalso
  have hch := above_same G L h hc (.inl ⟨names r, by rw [hb, hp]; simp [names]⟩)
  have h1 := aos_kind sh G.old.once ht hx hc.2.1 hp
  exact absurd (h1.symm.trans ((kinds_same K hch).1.1 hd)) (by decide)

theorem single_new_of_same (G : Given d) (L : Level d) (K : KeepsKind d) (sh : Shows d.new m2) {c : Fields V} (ht : TypedF c m2)
    {a b : Addr} (h : SamePlace d a b) : SingleNew d c a := by
  rintro b1 n i r m e hb - hx ⟨f, o, hc, hp, hd⟩
  exfalso
  have hch := above_same G L h hc (.inr ⟨names r, by rw [hb, hp]; simp [names]⟩)
  have h1 := aos_kind sh G.new.once ht hx hc.1 hp
  exact absurd (h1.symm.trans ((kinds_same K hch).1.2 hd)) (by decide)

/-! ### The other way round -/

theorem not_left (G : Given d) (L : Level d) (h : Field) : ¬ Left d h := by
  rintro ⟨h1, h2, f, o, hc, r, -, e⟩
  obtain ⟨hl, ht⟩ := G.claim_take L hc
  obtain ⟨f', o', g1, -, g3⟩ := ht h.path.length (List.length_pos_iff.2 (G.old.names h h1).1) (by rw [hl, e]; simp)
  rw [e, List.take_left] at g3
  cases field_once G.old.once g1.2.1 h1 g3
  exact h2 _ g1

/-- If nothing changed on the way, the element indices are the same. -/
theorem carried_index (G : Given d) (L : Level d) (K : KeepsKind d) {p q : List Name} {b a : Addr}
    (h : Carried (fun o f => Claim d f o) (fun p => ∃ h, Left d h ∧ h.path = p) (fun _ => False) (Enters d) p q b a)
    (hch : ∀ f o r, Claim d f o → q ++ names a = f.path ++ r → ¬ Changed d f o) :
    a.filterMap (·.2) = b.filterMap (·.2) := by
  induction h with
  | here => rfl
  | @step p q n k i j b a o f hc ho hf he r ih =>
    have hn : ¬ Changed d f o := hch f o (names a) hc (by rw [hf]; simp [names])
    have e : i = j := by
      rcases he with ⟨-, e⟩ | ⟨h1, h2, -, -⟩ | ⟨h1, h2, -, -⟩
      · exact e
      · exact absurd (h2.symm.trans ((kinds_same K hn).1.2 h1)) (by decide)
      · exact absurd (h1.symm.trans ((kinds_same K hn).1.1 h2)) (by decide)
    subst e
    have := ih (fun f o r hc e => hch f o r hc (by rw [← e]; simp [names]))
    cases i <;> simp [this]
  | outOf hl => obtain ⟨h, hl, -⟩ := hl; exact absurd hl (not_left G L h)
  | into hl => exact hl.elim

/-- Nodes that are carried to one another are the same, unless something on the way changed. -/
theorem same_of_place (G : Given d) (L : Level d) (K : KeepsKind d) {a b : Addr} (h : Place d b a)
    (hch : ∀ f o r, Claim d f o → names a = f.path ++ r → ¬ Changed d f o) : SamePlace d a b := by
  obtain ⟨_, _, _, _, -, -, o, f, hc, ho, hf⟩ := carried_last h
  rw [List.nil_append] at ho hf
  exact ⟨⟨f, o, ⟨hc, fun f' o' r hc' e => hch f' o' r hc' (by rw [← hf, e])⟩, hf, ho⟩,
    carried_index G L K h (fun f o r hc e => hch f o r hc (by simpa using e))⟩

/-- Fields above one of two nodes are identified with fields above the other one. -/
theorem place_prefix (G : Given d) (L : Level d) {a b : Addr} (h : Place d b a) {f o : Field} (hc : Claim d f o) {r : List Name}
    (e : names a = f.path ++ r) : f.path.length = o.path.length ∧ names b = o.path ++ (names b).drop f.path.length := by
  obtain ⟨_, _, _, _, -, -, o0, f0, hc0, ho, hf⟩ := carried_last h
  rw [List.nil_append] at ho hf
  obtain ⟨-, ht⟩ := G.claim_take L hc0
  have e : f0.path = f.path ++ r := hf.trans e
  obtain ⟨f', o', g1, g2, g3⟩ := ht f.path.length (List.length_pos_iff.2 (G.new.names f hc.1).1) (by rw [e]; simp)
  rw [e, List.take_left] at g2
  cases field_once G.new.once g1.1 hc.1 g2
  cases G.claim_same g1 hc
  exact ⟨(G.claim_take L hc).1, by rw [← ho, g3, List.take_append_drop]⟩

theorem contains_names (a : Addr) : ∀ b, Contains a b → ∃ r, names b = names a ++ r := by
  induction a with
  | nil => intro b _; exact ⟨names b, by simp [names]⟩
  | cons s a ih =>
    intro b h
    cases b with
    | nil => simp [Contains] at h
    | cons t b =>
      cases a with
      | nil =>
        have : s.1 = t.1 := by
          simp only [Contains] at h
          rcases h with h | h
          · rw [h]
          · exact h.1
        exact ⟨names b, by simp [names, this]⟩
      | cons s' a =>
        simp only [Contains] at h
        obtain ⟨rfl, h⟩ := h
        obtain ⟨r, hr⟩ := ih b h
        exact ⟨r, by
          simp only [names, List.map_cons, List.cons_append, List.cons.injEq, true_and] at hr ⊢
          exact hr⟩

/-- Conversions keep the kinds of nodes. -/
theorem copyIds_typed {cx : Verif.Convert.Cfg V} (hp : Proper cx) {tm : Meta} {c : Fields V} (hw : WFFields c) {root root' : Node V}
    (ht : Typed root tm) (h : Verif.Convert.copyIds cx c root = .ok root') : Typed root' tm := by
  obtain ⟨h1, -⟩ := Verif.Convert.copyFields_plan hp [] [] c ht h
  exact Verif.Convert.exec_typed _ (Verif.Convert.plan_keeps hp (tm := tm) (p := []) (t := []) hw) ht h1

/-- Values of an IDS of these versions are at data nodes. -/
theorem value_leaf {x : Node V} {m : Meta} (ht : Typed x m) {a : Addr} {v : V} (h : ValueAt x a v) :
    ∃ l, atMeta m a = some (.leaf l) := by
  obtain ⟨l, h1, -⟩ := h
  obtain ⟨m', h2, h3⟩ := atMeta_of_typed a _ m _ ht h1
  cases m' with
  | leaf l' => exact ⟨l', h2⟩
  | struct _ => simp [Typed] at h3
  | aos _ => simp [Typed] at h3

end Verif.ConvertGet
