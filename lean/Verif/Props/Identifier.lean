import Verif.Model.Identifier
import Verif.Props.Assign
/-!
Properties of identifiers: C16.
-/
namespace Verif.Props
open Verif.Ids

section
variable {F : Type} [FloatModel F]

/-- What a user sees of an identifier structure. -/
def Shows (s : IdStruct F) (name : Name) (index : Int) (description : List Char) : Prop :=
  readValue strMeta s.name = .str name ∧ readValue intMeta s.index = .int index ∧
  readValue strMeta s.description = .str description

/-- The Data Dictionary lists every name and alias once, and every value once. -/
def XmlOk (xml : List XmlInt) : Prop :=
  (xml.flatMap fun e => e.name :: e.aliases).Nodup ∧ (xml.map (·.value)).Nodup

/-! ### The enum made from the XML -/

theorem dictSet_new (d : List (Name × EnumValue)) (k : Name) (v : EnumValue)
    (h : k ∉ d.map (·.1)) : dictSet d k v = d ++ [(k, v)] := by
  induction d with
  | nil => rfl
  | cons p r ih =>
    simp only [List.map_cons, List.mem_cons, not_or] at h
    simp [dictSet, Ne.symm h.1, ih h.2]

/-- All names of an element with what is stored for them. -/
def entries (e : XmlInt) : List (Name × EnumValue) :=
  (e.name :: e.aliases).map fun n => (n, e.value, e.description, e.aliases)

theorem foldl_dictSet (as : List Name) (v : EnumValue) (d : List (Name × EnumValue))
    (h1 : as.Nodup) (h2 : ∀ a ∈ as, a ∉ d.map (·.1)) :
    as.foldl (fun d a => dictSet d a v) d = d ++ as.map fun a => (a, v) := by
  induction as generalizing d with
  | nil => simp
  | cons a as ih =>
    simp only [List.nodup_cons] at h1
    simp only [List.foldl_cons, dictSet_new d a v (h2 a (by simp))]
    rw [ih _ h1.2]
    · simp
    · intro b hb
      simp only [List.map_append, List.mem_append, not_or, List.map_cons, List.map_nil,
        List.mem_singleton]
      exact ⟨h2 b (by simp [hb]), fun e => h1.1 (e ▸ hb)⟩

theorem enumValues_aux (xml : List XmlInt) (d : List (Name × EnumValue))
    (h : (xml.flatMap fun e => e.name :: e.aliases).Nodup)
    (h2 : ∀ e ∈ xml, ∀ a ∈ e.name :: e.aliases, a ∉ d.map (·.1)) :
    xml.foldl (fun d e =>
      e.aliases.foldl (fun d a => dictSet d a (e.value, e.description, e.aliases))
      (dictSet d e.name (e.value, e.description, e.aliases))) d = d ++ xml.flatMap entries := by
  induction xml generalizing d with
  | nil => simp
  | cons e xml ih =>
    simp only [List.flatMap_cons, List.nodup_append] at h
    obtain ⟨h3, h4, h5⟩ := h
    have hstep : e.aliases.foldl (fun d a => dictSet d a (e.value, e.description, e.aliases))
        (dictSet d e.name (e.value, e.description, e.aliases)) = d ++ entries e := by
      have := foldl_dictSet (e.name :: e.aliases) (e.value, e.description, e.aliases) d h3
        (h2 e (by simp))
      simpa [entries] using this
    simp only [List.foldl_cons, hstep]
    rw [ih _ h4]
    · simp
    · intro e' he' a ha
      simp only [List.map_append, List.mem_append, not_or]
      refine ⟨h2 e' (by simp [he']) a ha, ?_⟩
      intro hm
      simp only [entries, List.map_map, List.mem_map, Function.comp] at hm
      obtain ⟨b, hb, rfl⟩ := hm
      exact h5 b hb b (List.mem_flatMap.2 ⟨e', he', ha⟩) rfl

theorem enumValues_eq (xml : List XmlInt)
    (h : (xml.flatMap fun e => e.name :: e.aliases).Nodup) :
    enumValues xml = xml.flatMap entries := by
  have := enumValues_aux xml [] h (by simp)
  simpa [enumValues] using this

/-- The member an XML element stands for. -/
def toMember (e : XmlInt) : Member := ⟨e.name, e.value, e.description, e.aliases⟩

/-- The names of an element, all standing for its member. -/
def pairs (e : XmlInt) : IdEnum := (e.name :: e.aliases).map fun n => (n, toMember e)

theorem mkEnum_aliases (e : XmlInt) (as : List Name) (r : List (Name × EnumValue)) (acc : IdEnum)
    (h : acc.find? (fun p => p.2.index = e.value) = some (e.name, toMember e)) :
    mkEnum (as.map (fun n => (n, e.value, e.description, e.aliases)) ++ r) acc =
      mkEnum r (acc ++ as.map fun n => (n, toMember e)) := by
  induction as generalizing acc with
  | nil => simp
  | cons a as ih =>
    simp only [List.map_cons, List.cons_append, mkEnum, h]
    rw [ih]
    · simp
    · rw [List.find?_append, h]; rfl

theorem mkEnum_eq (xml : List XmlInt) (acc : IdEnum) (hv : (xml.map (·.value)).Nodup)
    (hacc : ∀ p ∈ acc, ∀ e ∈ xml, p.2.index ≠ e.value) :
    mkEnum (xml.flatMap entries) acc = acc ++ xml.flatMap pairs := by
  induction xml generalizing acc with
  | nil => simp [mkEnum]
  | cons e xml ih =>
    simp only [List.map_cons, List.nodup_cons] at hv
    have hnone : acc.find? (fun p => p.2.index = e.value) = none := by
      rw [List.find?_eq_none]; intro p hp
      simpa using hacc p hp e (by simp)
    simp only [List.flatMap_cons, entries, List.map_cons, List.cons_append, mkEnum, hnone]
    rw [mkEnum_aliases e e.aliases]
    · change mkEnum (List.flatMap entries xml) (acc ++ [(e.name, toMember e)] ++ _) = _
      rw [← show acc ++ pairs e = acc ++ [(e.name, toMember e)] ++ e.aliases.map (fun n => (n, toMember e)) by
        simp [pairs]]
      rw [ih _ hv.2]
      · simp
      · intro p hp e' he'
        rcases List.mem_append.1 hp with hp | hp
        · exact hacc p hp e' (by simp [he'])
        · simp only [pairs, List.mem_map] at hp
          obtain ⟨n, -, rfl⟩ := hp
          intro h
          exact hv.1 (List.mem_map.2 ⟨e', he', h.symm⟩)
    · rw [List.find?_append, hnone]; simp [toMember]

theorem fromXml_eq (xml : List XmlInt) (h : XmlOk xml) :
    IdEnum.fromXml xml = xml.flatMap pairs := by
  rw [IdEnum.fromXml, enumValues_eq xml h.1, mkEnum_eq xml [] h.2 (by simp)]; simp

theorem byName_iff (xml : List XmlInt) (h : XmlOk xml) (n : Name) (m : Member) :
    (IdEnum.fromXml xml).byName n = some m ↔
      ∃ e ∈ xml, (n = e.name ∨ n ∈ e.aliases) ∧ m = toMember e := by
  rw [fromXml_eq xml h, IdEnum.byName]
  have hn : (xml.flatMap pairs).map (·.1) = xml.flatMap fun e => e.name :: e.aliases := by
    simp [List.map_flatMap, pairs, Function.comp_def]
  constructor
  · intro hf
    obtain ⟨p, hp, rfl⟩ := Option.map_eq_some_iff.1 hf
    have h1 := List.mem_of_find?_eq_some hp
    have h2 := List.find?_some hp
    obtain ⟨e, he, hp'⟩ := List.mem_flatMap.1 h1
    simp only [pairs, List.mem_map, List.mem_cons] at hp'
    obtain ⟨k, hk, rfl⟩ := hp'
    simp at h2; subst h2
    exact ⟨e, he, hk, rfl⟩
  · rintro ⟨e, he, hk, rfl⟩
    have hmem : (n, toMember e) ∈ xml.flatMap pairs :=
      List.mem_flatMap.2 ⟨e, he, List.mem_map.2 ⟨n, by simpa using hk, rfl⟩⟩
    have huniq : ∀ p ∈ xml.flatMap pairs, p.1 = n → p = (n, toMember e) := by
      have hnd : ((xml.flatMap pairs).map (·.1)).Nodup := by rw [hn]; exact h.1
      generalize xml.flatMap pairs = l at *
      clear hn
      induction l with
      | nil => simp at hmem
      | cons q l ih =>
        simp only [List.map_cons, List.nodup_cons] at hnd
        intro p hp hpn
        rcases List.mem_cons.1 hp with rfl | hq
        · rcases List.mem_cons.1 hmem with h | h
          · exact h.symm
          · exact absurd (List.mem_map.2 ⟨(n, toMember e), h, hpn.symm⟩) hnd.1
        · rcases List.mem_cons.1 hmem with h | h
          · subst h; exact absurd (List.mem_map.2 ⟨p, hq, hpn⟩) hnd.1
          · exact ih h hnd.2 p hq hpn
    cases hf : (xml.flatMap pairs).find? (·.1 = n) with
    | none => exact absurd (by simp) ((List.find?_eq_none.1 hf) _ hmem)
    | some p =>
      have h1 := List.mem_of_find?_eq_some hf
      have h2 := List.find?_some hf
      rw [huniq p h1 (by simpa using h2)]; rfl

theorem byIndex_iff (xml : List XmlInt) (h : XmlOk xml) (i : Int) (m : Member) :
    (IdEnum.fromXml xml).byIndex i = some m ↔ ∃ e ∈ xml, e.value = i ∧ m = toMember e := by
  rw [fromXml_eq xml h, IdEnum.byIndex]
  constructor
  · intro hf
    obtain ⟨p, hp, rfl⟩ := Option.map_eq_some_iff.1 hf
    have h1 := List.mem_of_find?_eq_some hp
    have h2 := List.find?_some hp
    obtain ⟨e, he, hp'⟩ := List.mem_flatMap.1 h1
    simp only [pairs, List.mem_map] at hp'
    obtain ⟨k, hk, rfl⟩ := hp'
    exact ⟨e, he, of_decide_eq_true h2, rfl⟩
  · rintro ⟨e, he, rfl, rfl⟩
    have hmem : (e.name, toMember e) ∈ xml.flatMap pairs :=
      List.mem_flatMap.2 ⟨e, he, List.mem_map.2 ⟨e.name, by simp, rfl⟩⟩
    cases hf : (xml.flatMap pairs).find? (·.2.index = e.value) with
    | none => exact absurd (by simp [toMember]) ((List.find?_eq_none.1 hf) _ hmem)
    | some p =>
      have h1 := List.mem_of_find?_eq_some hf
      have h2 := List.find?_some hf
      obtain ⟨e', he', hp'⟩ := List.mem_flatMap.1 h1
      simp only [pairs, List.mem_map] at hp'
      obtain ⟨k, hk, rfl⟩ := hp'
      have hval : e'.value = e.value := of_decide_eq_true h2
      have : e' = e := by
        have hnd := h.2
        clear hf hmem h1 h
        induction xml with
        | nil => simp at he
        | cons q l ih =>
          simp only [List.map_cons, List.nodup_cons] at hnd
          rcases List.mem_cons.1 he with rfl | g <;> rcases List.mem_cons.1 he' with rfl | g'
          · rfl
          · exact absurd (List.mem_map.2 ⟨e', g', hval⟩) hnd.1
          · exact absurd (List.mem_map.2 ⟨e, g, hval.symm⟩) hnd.1
          · exact ih g g' hnd.2
      subst this; rfl

/-! ### Assignment -/

/-- The member an input stands for. -/
def Denoted (id : Nat) (xml : List XmlInt) (v : IdInput) (e : XmlInt) : Prop :=
  e ∈ xml ∧ match v with
    | .member id' m => id' = id ∧ m = toMember e
    | .index i => e.value = i
    | .name n => n = e.name ∨ n ∈ e.aliases

theorem assign_ok (cv : Conv F) (s : IdStruct F) (id : Nat) (e : IdEnum) (v : IdInput) (m : Member)
    (h : match v with
      | .member id' m' => id' = id ∧ m' = m
      | .index i => e.byIndex i = some m
      | .name n => e.byName n = some m) :
    ∃ s', assignIdentifier cv false (some (id, e)) s v = (s', none) ∧
      Shows s' m.name m.index m.description := by
  obtain ⟨n, hn, hn', -⟩ := C09_assign_read cv strMeta (.str m.name : Val F) rfl
  obtain ⟨i, hi, hi', -⟩ := C09_assign_read cv intMeta (.int m.index : Val F) rfl
  obtain ⟨d, hd, hd', -⟩ := C09_assign_read cv strMeta (.str m.description : Val F) rfl
  refine ⟨⟨n, i, d⟩, ?_, hn', hi', hd'⟩
  cases v with
  | member id' m' =>
    obtain ⟨rfl, rfl⟩ := h
    simp [assignIdentifier, hn, hi, hd]
  | index j => simp only at h; simp [assignIdentifier, h, hn, hi, hd]
  | name j => simp only at h; simp [assignIdentifier, h, hn, hi, hd]

/-- **C16.** Assigning a member, the name, an alias or the index of an element of the
identifier list stores its canonical name, index and description. -/
theorem C16_assign (cv : Conv F) (id : Nat) (xml : List XmlInt) (h : XmlOk xml) (v : IdInput)
    (e : XmlInt) (hd : Denoted id xml v e) (s : IdStruct F) :
    ∃ s', assignIdentifier cv false (some (id, IdEnum.fromXml xml)) s v = (s', none) ∧
      Shows s' e.name e.value e.description := by
  apply assign_ok cv s id (IdEnum.fromXml xml) v (toMember e)
  obtain ⟨he, hd⟩ := hd
  cases v with
  | member id' m => exact hd
  | index i => exact (byIndex_iff xml h i _).2 ⟨e, he, hd, rfl⟩
  | name n => exact (byName_iff xml h n _).2 ⟨e, he, hd, rfl⟩

/-- **C16.** Anything else raises an error and leaves the structure unchanged: a name or index
that is not listed, a member of another identifier enum, or a structure that is not an
identifier. -/
theorem C16_assign_refused (cv : Conv F) (lazy : Bool) (id : Nat) (xml : List XmlInt)
    (h : XmlOk xml) (v : IdInput)
    (hd : match v with
      | .member id' _ => id' ≠ id
      | .index i => ∀ e ∈ xml, e.value ≠ i
      | .name n => ∀ e ∈ xml, n ≠ e.name ∧ n ∉ e.aliases)
    (s : IdStruct F) :
    (∃ err, assignIdentifier cv lazy (some (id, IdEnum.fromXml xml)) s v = (s, some err)) ∧
      assignIdentifier cv lazy none s v = (s, some .typeError) := by
  refine ⟨?_, rfl⟩
  cases v with
  | member id' m => exact ⟨.typeError, by simp only at hd; simp [assignIdentifier, hd]⟩
  | index i =>
    refine ⟨.valueError, ?_⟩
    have : (IdEnum.fromXml xml).byIndex i = none := by
      cases hb : (IdEnum.fromXml xml).byIndex i with
      | none => rfl
      | some m =>
        obtain ⟨e, he, h1, -⟩ := (byIndex_iff xml h i m).1 hb
        exact absurd h1 (hd e he)
    simp [assignIdentifier, this]
  | name n =>
    refine ⟨.valueError, ?_⟩
    have : (IdEnum.fromXml xml).byName n = none := by
      cases hb : (IdEnum.fromXml xml).byName n with
      | none => rfl
      | some m =>
        obtain ⟨e, he, h1, -⟩ := (byName_iff xml h n m).1 hb
        rcases h1 with h1 | h1
        · exact absurd h1 (hd e he).1
        · exact absurd h1 (hd e he).2
    simp [assignIdentifier, this]

/-- **C16.** On a lazy-loaded IDS the assignment always fails and changes nothing. -/
theorem C16_assign_lazy (cv : Conv F) (enum : Option (Nat × IdEnum)) (v : IdInput)
    (s : IdStruct F) : ∃ err, assignIdentifier cv true enum s v = (s, some err) := by
  cases enum with
  | none => exact ⟨_, rfl⟩
  | some p =>
    obtain ⟨id, e⟩ := p
    simp only [assignIdentifier]
    split
    · exact ⟨_, rfl⟩
    · exact ⟨.readOnly, by simp [setValue]⟩

/-- **C16.** An identifier equals a structure exactly when the index matches and the name is
the canonical name, an alias, or empty. -/
theorem C16_eq_iff (m : Member) (s : IdStruct F) (name : Name) (index : Int)
    (description : List Char) (h : Shows s name index description) :
    m.eqStruct s = true ↔ index = m.index ∧ (name = m.name ∨ name = [] ∨ name ∈ m.aliases) := by
  obtain ⟨h1, h2, -⟩ := h
  simp only [Member.eqStruct, h1, h2]
  split <;> simp_all [or_assoc]

/-- **C16.** After assigning an identifier, the structure equals it; and it equals no other
element of the list. -/
theorem C16_assign_then_eq (cv : Conv F) (id : Nat) (xml : List XmlInt) (h : XmlOk xml)
    (v : IdInput) (e : XmlInt) (hd : Denoted id xml v e) (s s' : IdStruct F)
    (ha : assignIdentifier cv false (some (id, IdEnum.fromXml xml)) s v = (s', none)) :
    (toMember e).eqStruct s' = true ∧
      ∀ e' ∈ xml, e' ≠ e → (toMember e').eqStruct s' = false := by
  obtain ⟨s'', h1, h2⟩ := C16_assign cv id xml h v e hd s
  rw [ha] at h1
  simp only [Prod.mk.injEq, and_true] at h1; subst h1
  refine ⟨(C16_eq_iff _ _ _ _ _ h2).2 ⟨rfl, .inl rfl⟩, ?_⟩
  intro e' he' hne
  cases hb : (toMember e').eqStruct s' with
  | false => rfl
  | true =>
    have hi := ((C16_eq_iff _ _ _ _ _ h2).1 hb).1
    have : e' = e := by
      have hnd := h.2
      have he := hd.1
      have hval : e.value = e'.value := hi
      clear ha hb hi h hd
      induction xml with
      | nil => simp at he
      | cons q l ih =>
        simp only [List.map_cons, List.nodup_cons] at hnd
        rcases List.mem_cons.1 he with rfl | g <;> rcases List.mem_cons.1 he' with rfl | g'
        · rfl
        · exact absurd (List.mem_map.2 ⟨e', g', hval.symm⟩) hnd.1
        · exact absurd (List.mem_map.2 ⟨e, g, hval⟩) hnd.1
        · exact ih g' hnd.2 g
    exact absurd this hne

end

/-! ### Concrete case -/

def sampleXml : List XmlInt :=
  [⟨"total".toList, 1, "all".toList, []⟩, ⟨"nbi".toList, 2, "beam".toList, ["neutral".toList]⟩]

example : XmlOk sampleXml := by unfold XmlOk sampleXml; decide
example : Denoted 7 sampleXml (.name "neutral".toList)
    ⟨"nbi".toList, 2, "beam".toList, ["neutral".toList]⟩ := by
  refine ⟨by simp [sampleXml], .inr (by decide)⟩
example : ∀ e ∈ sampleXml, e.value ≠ 3 := by decide
example : Shows (⟨none, some (.int 2), none⟩ : IdStruct Int) [] 2 [] := ⟨rfl, rfl, rfl⟩

/-- Without distinct values the enum merges members: here assigning `b` stores the name `a`. -/
theorem C16_equal_values_merge :
    (IdEnum.fromXml [⟨"a".toList, 1, [], []⟩, ⟨"b".toList, 1, [], []⟩]).byName "b".toList =
      some ⟨"a".toList, 1, [], []⟩ := by decide

end Verif.Props
