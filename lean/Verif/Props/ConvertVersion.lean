import Verif.Lemmas.ConvertVersion
import Verif.Lemmas.ConvertOk
import Verif.Props.ConvertBack
import Verif.Props.VersionMap
/-
C58: conversions with the map built from the two dictionaries move exactly the data of nodes that the dictionaries
identify.
-/
set_option linter.unusedSectionVars false
namespace Verif.Props
open Verif.Ids Verif.TreeSpec Verif.DiffSpec Verif.Convert Verif.ConvertSpec
open Verif.VMap hiding Path Nbc metaAt_append
open Verif.VMapSpec hiding OneToOne

section
variable {V : Type} [Value V]

/-- One direction of a conversion, from the fields `A` to the fields `B`. -/
structure Leg (A B : List Field) (C : Field → Field → Prop) (L L' : VMap.Path → Prop)
    (E : Field → Field → Option Nat → Option Nat → Prop) (mA mB : MFields) (cx : Cfg V) : Prop where
  route : Route A B C L L' cx.path
  still : ∀ a, L a → cx.change a = none
  showsA : Shows A mA
  showsB : Shows B mB
  enter : ∀ f o i j, C f o → E f o i j → cx.path f.path ≠ some none ∧ Carry cx f.path i j
  entered : ∀ f o i j, C f o → cx.path f.path ≠ some none → Carry cx f.path i j →
    (cx.change f.path = some .structAos → (i = none ↔ f.dtype = "structure".toList)) → E f o i j

variable {A B : List Field} {C : Field → Field → Prop} {L L' : VMap.Path → Prop}
  {E : Field → Field → Option Nat → Option Nat → Prop} {mA mB : MFields} {cx : Cfg V}

theorem Leg.idle (G : Leg A B C L L' E mA mB cx) (h : ∀ a, L a → cx.post a = none) : Idle L cx :=
  fun a ha => ⟨G.still a ha, h a ha⟩

theorem Leg.quiet (G : Leg A B C L L' E mA mB cx) (h : LeafPost cx mA) (a : VMap.Path) (ha : L a) : cx.post a = none := by
  cases hp : cx.post a with
  | none => rfl
  | some g =>
    exfalso
    obtain ⟨l, hl⟩ := h a (by rw [hp]; simp)
    obtain ⟨-, ⟨f, hf, e, ht⟩, -⟩ := G.route.left a ha
    obtain ⟨x, hx, hk⟩ := G.showsA.field f hf
    rw [e, hl] at hx
    cases hx
    exact hk.1 ht

theorem Leg.one (G : Leg A B C L L' E mA mB cx) (h : ∀ a, L a → cx.post a = none) :
    ConvertSpec.OneToOne cx (.struct mA) (.struct mB) :=
  G.route.oneToOne G.showsA G.showsB rfl (G.idle h)

theorem Leg.carried (G : Leg A B C L L' E mA mB cx) {source : Fields V} (ht : TypedF source mA) {a b : Addr}
    (hs : Sent cx (.struct mB) [] [] source a b) : (Carried C L L' E [] [] a b ∨ L (Convert.names a)) ∧
      (∀ f : Field, f.path = Convert.names a → cx.path f.path ≠ some none) := by
  have h := G.route.carried G.showsA G.showsB rfl G.still G.entered a [] [] source b
    ⟨rfl, .struct mA, rfl, .inl (by simpa only [Typed] using ht)⟩ hs
  refine ⟨h.imp (fun h => ?_) (fun h => by simpa using h), fun f hf hn => ?_⟩
  · obtain ⟨b', e, h⟩ := h
    simp only [List.nil_append] at e
    subst e
    exact h
  have hg : Goes cx (.struct mB) (Convert.names a) (Convert.names b) := by
    simpa [Goes, Convert.names] using sent_names hs
  refine goes_open hg (a := Convert.names a) (r := []) (by simp) ?_ (hf ▸ hn)
  obtain ⟨s, a', x, rfl, -⟩ := sent_head hs
  simp [Convert.names]

theorem carried_claim {p q : List Name} {a b : Addr} (h : Carried C L L' E p q a b) :
    ∀ a1 n i r, a = a1 ++ (n, some i) :: r → ∃ f o, C f o ∧ f.path = p ++ Convert.names a1 ++ [n] := by
  induction h with
  | @here p q n k f o hc hf ho =>
    intro a1 n' i r e
    cases a1 with
    | nil => cases e
    | cons s' a1 =>
      have := congrArg List.length e
      simp at this
  | @step p q n k i j a b f o hc hf ho he r ih =>
    intro a1 n' i' r' e
    cases a1 with
    | nil => cases e; exact ⟨f, o, hc, by simpa [Convert.names] using hf⟩
    | cons s' a1 =>
      simp only [List.cons_append, List.cons.injEq] at e
      obtain ⟨rfl, e⟩ := e
      obtain ⟨f', o', h1, h2⟩ := ih a1 n' i' r' e
      exact ⟨f', o', h1, by rw [h2]; simp [Convert.names]⟩
  | @outOf p q n a b hl r ih =>
    intro a1 n' i' r' e
    cases a1 with
    | nil => cases e
    | cons s' a1 =>
      simp only [List.cons_append, List.cons.injEq] at e
      obtain ⟨rfl, e⟩ := e
      obtain ⟨f', o', h1, h2⟩ := ih a1 n' i' r' e
      exact ⟨f', o', h1, by rw [h2]; simp [Convert.names]⟩
  | into hl r ih => exact ih

theorem carried_last {p q : List Name} {a b : Addr} (h : Carried C L L' E p q a b) :
    ∃ a1 n b1 k, a = a1 ++ [(n, none)] ∧ b = b1 ++ [(k, none)] ∧
      ∃ f o, C f o ∧ f.path = p ++ Convert.names a ∧ o.path = q ++ Convert.names b := by
  induction h with
  | @here p q n k f o hc hf ho =>
    exact ⟨[], n, [], k, rfl, rfl, f, o, hc, by simpa [Convert.names] using hf, by simpa [Convert.names] using ho⟩
  | @step p q n k i j a b f o hc hf ho he r ih =>
    obtain ⟨a1, n', b1, k', rfl, rfl, f', o', h1, h2, h3⟩ := ih
    exact ⟨(n, i) :: a1, n', (k, j) :: b1, k', rfl, rfl, f', o', h1, by rw [h2]; simp [Convert.names],
      by rw [h3]; simp [Convert.names]⟩
  | @outOf p q n a b hl r ih =>
    obtain ⟨a1, n', b1, k', rfl, rfl, f', o', h1, h2, h3⟩ := ih
    exact ⟨(n, none) :: a1, n', b1, k', rfl, rfl, f', o', h1, by rw [h2]; simp [Convert.names], h3⟩
  | @into p q k a b hl r ih =>
    obtain ⟨a1, n', b1, k', rfl, rfl, f', o', h1, h2, h3⟩ := ih
    exact ⟨a1, n', (k, none) :: b1, k', rfl, rfl, f', o', h1, h2, by rw [h3]; simp [Convert.names]⟩

theorem carried_flip {p q : List Name} {a b : Addr} (h : Carried C L L' E p q a b) :
    Carried (fun o f => C f o) L' L (fun o f j i => E f o i j) q p b a := by
  induction h with
  | here hc hf ho => exact .here hc ho hf
  | step hc hf ho he r ih => exact .step hc ho hf he ih
  | outOf hl r ih => exact .into hl ih
  | into hl r ih => exact .outOf hl ih

theorem noPostAbove_of (hp : LeafPost cx mA) {source : Fields V} (ht : TypedF source mA) {a : Addr}
    (h : ∃ a1 n, a = a1 ++ [(n, none)]) {x : Node V} (hx : (Node.struct source).at a = some x) : NoPostAbove cx a := by
  intro a' hc hne
  cases hpo : cx.post (Convert.names a') with
  | none => rfl
  | some g =>
    exfalso
    obtain ⟨l, hl⟩ := hp _ (by rw [hpo]; simp)
    obtain ⟨w, hw, -⟩ := typedAt_at (tm := .struct mA) (.inl (by simpa only [Typed] using ht)) hx
    obtain ⟨r, hr⟩ := contains_names hc
    rw [← hr, Convert.metaAt_append, hl] at hw
    cases r with
    | cons n r => simp [metaAt, child] at hw
    | nil =>
      obtain ⟨a1, n, rfl⟩ := h
      rw [List.append_nil] at hr
      have hlen : a'.length = (a1 ++ [(n, (none : Option Nat))]).length := by
        have := congrArg List.length hr
        simpa [Convert.names] using this
      exact hne (contains_same_length hc hlen)
where
  contains_same_length {a1 : Addr} {n : Name} {a' : Addr} (hc : Contains a' (a1 ++ [(n, none)]))
      (hl : a'.length = (a1 ++ [(n, (none : Option Nat))]).length) : a' = a1 ++ [(n, none)] := by
    induction a1 generalizing a' with
    | nil =>
      match a', hl with
      | [s], _ =>
        simp only [List.nil_append, Contains] at hc ⊢
        rcases hc with rfl | ⟨h1, h2⟩
        · rfl
        · obtain ⟨s1, s2⟩ := s; simp only at h1 h2; rw [h1, h2]
    | cons t a1 ih =>
      match a', hl with
      | s :: s' :: a', hl =>
        simp only [List.cons_append, Contains] at hc
        obtain ⟨rfl, hc⟩ := hc
        rw [ih hc (by simpa using hl)]
        rfl
      | [s], hl => simp at hl

/-- Nodes are sent where their fields go. -/
theorem Leg.sent (G : Leg A B C L L' E mA mB cx) {source : Fields V} {a b : Addr}
    (h : Carried C L L' E [] [] a b) {x : Node V} (hx : (Node.struct source).at a = some x)
    (hend : ∀ f o, C f o → f.path = Convert.names a → cx.path f.path ≠ some none)
    (hone : ∀ a1 n i r w e, a = a1 ++ (n, some i) :: r → r ≠ [] →
      (Node.struct source).at (a1 ++ [(n, none)]) = some (.aos w e) →
      cx.change (Convert.names a1 ++ [n]) = some .structAos → e.length = 1) :
    Sent cx (.struct mB) [] [] source a b := by
  have := G.route.sent G.showsB rfl G.still G.enter h [] [] source x rfl .root hx (by simpa using hend) (by simpa using hone)
  simpa [plainAddr] using this

end

/-! ### The two directions -/

/-- Two dictionaries: what is required of them, and their metadata. -/
structure Versions (d : Dicts) (oldM newM : MFields) : Prop where
  given : Given d
  nested : Nested d
  announced : Announced d
  kinds : KeepsKind d
  old : Shows d.old oldM
  new : Shows d.new newM
  namesOld : WFMFields oldM
  namesNew : WFMFields newM

section
variable {V : Type} [Value V] {d : Dicts} {oldM newM : MFields}
  {custom custom' : VMap.Path → Handler → Node V → Node V → Except ConvErr (Node V)}
  {post post' : VMap.Path → Option (Node V → Except ConvErr (Node V))}
  {store store' : LeafMeta → V → Except ConvErr (Option V)}

theorem same_fits {f o : Field} (h : ¬ Changed d f o) : Fits d o f := by
  left
  cases hs : d.same f.dtype o.dtype with
  | true => rfl
  | false => exact absurd (.inl hs) h

theorem fits_open (G : Given d) {f o : Field} (hc : Claim d f o) (h : Fits d o f) :
    (buildMap d).toOld.lookup f.path ≠ some none := by
  intro hm
  obtain ⟨f', hf', e, h1⟩ := C21_nothing G _ hm
  cases field_once G.new.once hf' hc.1 e
  exact h1 o hc h

theorem changeOf_aos {g : Handler → Node V → Node V → Except ConvErr (Node V)} {x : Option (Option Handler)}
    (h : x.map (changeOf g) = some .structAos) : x = some (some .structAos) := by
  cases x with
  | none => cases h
  | some x =>
    simp only [Option.map_some, Option.some.injEq] at h
    rcases changeOf_cases g x with ⟨e, -⟩ | ⟨-, u, e⟩
    · rw [e]
    · rw [e] at h; cases h

theorem Versions.enter (W : Versions d oldM newM) {f o : Field} (hc : Claim d f o) {i j : Option Nat}
    (h : Enters d o f i j) : (buildMap d).toOld.lookup f.path ≠ some none ∧
      (((buildMap d).changeOld.lookup f.path = none ∧ (buildMap d).changeNew.lookup o.path = none ∧ i = j) ∨
       ((buildMap d).changeOld.lookup f.path = some (some .structAos) ∧
        (buildMap d).changeNew.lookup o.path = some (some .structAos) ∧
        ((i = none ∧ j = some 0) ∨ (i = some 0 ∧ j = none)))) := by
  rcases h with ⟨h, e⟩ | ⟨h1, h2, h3, h4⟩ | ⟨h1, h2, h3, h4⟩
  · have hn := fits_open W.given hc (same_fits h)
    have h1 := (change_none W.given W.announced hc hn).2 h
    refine ⟨hn, .inl ⟨h1, ?_, e⟩⟩
    rcases C21_changes W.given f o hc with ⟨-, h2⟩ | ⟨x, y, h2, -⟩
    · exact h2
    · rw [h1] at h2; cases h2
  · obtain ⟨h5, h6, h7⟩ := array_change W.given W.announced W.kinds hc (.inl ⟨h1, h2⟩)
    exact ⟨h5, .inr ⟨h6, h7, .inl ⟨h3, h4⟩⟩⟩
  · obtain ⟨h5, h6, h7⟩ := array_change W.given W.announced W.kinds hc (.inr ⟨h1, h2⟩)
    exact ⟨h5, .inr ⟨h6, h7, .inr ⟨h3, h4⟩⟩⟩

theorem Versions.changed_new (W : Versions d oldM newM) {f o : Field} (hc : Claim d f o)
    (hn : (buildMap d).toOld.lookup f.path ≠ some none) :
    (buildMap d).changeNew.lookup o.path = none ↔ ¬ Changed d f o := by
  rw [← change_none W.given W.announced hc hn]
  rcases C21_changes W.given f o hc with ⟨h1, h2⟩ | ⟨x, y, h1, h2, -⟩ <;> simp [h1, h2]

theorem Versions.array_new (W : Versions d oldM newM) {f o : Field} (hc : Claim d f o) :
    (buildMap d).changeNew.lookup o.path = some (some .structAos) ↔
      (buildMap d).changeOld.lookup f.path = some (some .structAos) := by
  rcases C21_changes W.given f o hc with ⟨h1, h2⟩ | ⟨x, y, h1, h2, h3⟩
  · simp [h1, h2]
  · rw [h1, h2]
    rcases h3 with ⟨e, -⟩ | ⟨e, e'⟩ | ⟨e, e'⟩
    · rw [e]
    · rw [e, e']; simp
    · rw [e, e']; simp

theorem leg_new (W : Versions d oldM newM) :
    Leg d.old d.new (fun o f => Claim d f o) (LeftAt d) (fun _ => False) (Enters d) oldM newM
      (cfgToNew d custom post store) where
  route := route_new W.given W.nested
  still a ha := by simp [cfgToNew, cfgOf, (left_open W.given ha).2]
  showsA := W.old
  showsB := W.new
  enter o f i j hc h := by
    obtain ⟨h1, h2⟩ := W.enter hc h
    refine ⟨fun e => h1 ((nothing_both W.given hc).2 e), ?_⟩
    simp only [Carry, cfgToNew, cfgOf]
    rcases h2 with ⟨-, h2, h3⟩ | ⟨-, h2, h3⟩
    · left; rw [h2]; exact ⟨rfl, h3⟩
    · right; rw [h2]; exact ⟨rfl, h3⟩
  entered o f i j hc hn hcarry hi := by
    have hn' : (buildMap d).toOld.lookup f.path ≠ some none := fun e => hn ((nothing_both W.given hc).1 e)
    rcases hcarry with ⟨h1, rfl⟩ | ⟨h1, h2⟩
    · have h1 : (buildMap d).changeNew.lookup o.path = none := by
        simpa only [cfgToNew, cfgOf, Option.map_eq_none_iff] using h1
      exact .inl ⟨(W.changed_new hc hn').1 h1, rfl⟩
    · have hi := hi h1
      have hb := change_array W.given hc ((W.array_new hc).1 (changeOf_aos h1))
      rcases h2 with ⟨rfl, rfl⟩ | ⟨rfl, rfl⟩
      · have e := hi.1 rfl
        rcases hb with ⟨-, h3⟩ | ⟨h3, -⟩
        · exact .inr (.inl ⟨e, h3, rfl, rfl⟩)
        · rw [e] at h3; simp at h3
      · rcases hb with ⟨h3, -⟩ | ⟨h3, h4⟩
        · have := hi.2 h3; cases this
        · exact .inr (.inr ⟨h3, h4, rfl, rfl⟩)

theorem leg_old (W : Versions d oldM newM) :
    Leg d.new d.old (Claim d) (fun _ => False) (LeftAt d) (fun f o j i => Enters d o f i j) newM oldM
      (cfgToOld d custom post store) where
  route := route_old W.given W.nested
  still _ h := h.elim
  showsA := W.new
  showsB := W.old
  enter f o j i hc h := by
    obtain ⟨h1, h2⟩ := W.enter hc h
    refine ⟨h1, ?_⟩
    simp only [Carry, cfgToOld, cfgOf]
    rcases h2 with ⟨h2, -, h3⟩ | ⟨h2, -, h3⟩
    · left; rw [h2]; exact ⟨rfl, h3.symm⟩
    · right; rw [h2]; exact ⟨rfl, h3.symm.imp And.symm And.symm⟩
  entered f o j i hc hn hcarry hi := by
    have hn' : (buildMap d).toOld.lookup f.path ≠ some none := hn
    rcases hcarry with ⟨h1, rfl⟩ | ⟨h1, h2⟩
    · have h1 : (buildMap d).changeOld.lookup f.path = none := by
        simpa only [cfgToOld, cfgOf, Option.map_eq_none_iff] using h1
      exact .inl ⟨(change_none W.given W.announced hc hn').1 h1, rfl⟩
    · have hi := hi h1
      have hb := change_array W.given hc (changeOf_aos h1)
      rcases h2 with ⟨rfl, rfl⟩ | ⟨rfl, rfl⟩
      · have e := hi.1 rfl
        rcases hb with ⟨-, h3⟩ | ⟨h3, h4⟩
        · rw [e] at h3; simp at h3
        · exact .inr (.inr ⟨h3, e, rfl, rfl⟩)
      · rcases hb with ⟨h3, h4⟩ | ⟨-, h3⟩
        · exact .inr (.inl ⟨h3, h4, rfl, rfl⟩)
        · have := hi.2 h3; cases this


/-! ### Single elements -/

theorem aos_kind {A : List Field} {mA : MFields} (sA : Shows A mA) (once : (A.map (·.path)).Nodup) {source : Fields V}
    (ht : TypedF source mA) {a1 : Addr} {n : Name} {w : MFields} {e : Elems V}
    (hx : (Node.struct source).at (a1 ++ [(n, none)]) = some (.aos w e)) {f : Field} (hf : f ∈ A)
    (hp : f.path = Convert.names a1 ++ [n]) : f.dtype = "struct_array".toList := by
  obtain ⟨m0, h1, h2⟩ := typedAt_at (tm := .struct mA) (.inl (by simpa only [Typed] using ht)) hx
  have e1 : Convert.names (a1 ++ [(n, none)]) = Convert.names a1 ++ [n] := by simp [Convert.names]
  rw [e1] at h1
  obtain ⟨f', hf', e2, hk⟩ := sA.node _ _ (by simp) h1
  cases field_once once hf' hf (e2.trans hp.symm)
  cases m0 with
  | leaf l =>
    rcases h2 with h2 | ⟨_, _, h2, _⟩
    · simp [Typed] at h2
    · cases h2
  | struct c =>
    rcases h2 with h2 | ⟨_, _, h2, _⟩
    · simp [Typed] at h2
    · cases h2
  | aos c => exact hk

theorem single_new (W : Versions d oldM newM) {source : Fields V} (ht : TypedF source oldM) {a b : Addr}
    (hpl : Place d a b) (hs : SingleOld d source a) : ∀ a1 n i r w e, a = a1 ++ (n, some i) :: r → r ≠ [] →
      (Node.struct source).at (a1 ++ [(n, none)]) = some (.aos w e) →
      (cfgToNew d custom post store).change (Convert.names a1 ++ [n]) = some .structAos → e.length = 1 := by
  intro a1 n i r w e ha hr hx hch
  refine hs a1 n i r w e ha hr hx ?_
  obtain ⟨o, f, hc, hp⟩ := carried_claim hpl a1 n i r ha
  rw [List.nil_append] at hp
  refine ⟨f, o, hc, hp, ?_⟩
  have h1 := changeOf_aos hch
  rw [← hp] at h1
  rcases change_array W.given hc ((W.array_new hc).1 h1) with ⟨h2, -⟩ | ⟨-, h2⟩
  · have := aos_kind W.old W.given.old.once ht hx hc.2.1 hp
    rw [h2] at this; simp at this
  · exact h2

theorem single_old (W : Versions d oldM newM) {source : Fields V} (ht : TypedF source newM) {a b : Addr}
    (hpl : Place d b a) (hs : SingleNew d source a) : ∀ a1 n i r w e, a = a1 ++ (n, some i) :: r → r ≠ [] →
      (Node.struct source).at (a1 ++ [(n, none)]) = some (.aos w e) →
      (cfgToOld d custom post store).change (Convert.names a1 ++ [n]) = some .structAos → e.length = 1 := by
  intro a1 n i r w e ha hr hx hch
  refine hs a1 n i r w e ha hr hx ?_
  obtain ⟨f, o, hc, hp⟩ := carried_claim (carried_flip hpl) a1 n i r ha
  rw [List.nil_append] at hp
  refine ⟨f, o, hc, hp, ?_⟩
  have h1 := changeOf_aos hch
  rw [← hp] at h1
  rcases change_array W.given hc h1 with ⟨h2, -⟩ | ⟨-, h2⟩
  · exact h2
  · have := aos_kind W.new W.given.new.once ht hx hc.1 hp
    rw [h2] at this; simp at this

/-! ### What is sent where -/

/-- Identified places are not those of structures that were left. -/
theorem place_not_left (W : Versions d oldM newM) {A B : Addr} (h : Place d A B) :
    ∀ g, Left d g → g.path ≠ Convert.names A := by
  intro g hg e
  obtain ⟨a1, n, b1, k, -, -, o, f, hc, hp, -⟩ := carried_last h
  rw [List.nil_append] at hp
  cases field_once W.given.old.once hc.2.1 hg.1 (hp.trans e.symm)
  exact hg.2.1 f hc

/-- **C58.** When converting to the newer version, a node goes to the place that the dictionaries identify with its own
place: all fields on the way are identified, elements keep their index, and structures that became arrays of structures
(and vice versa) correspond to the first element. Structures that only the old version has are skipped: what was moved out of
them goes to its new place. Nodes whose type changed in an unsupported way go nowhere. -/
theorem C58_sent_new (W : Versions d oldM newM) (source : Fields V) (ht : TypedF source oldM) (A B : Addr)
    (x : Node V) (hx : (Node.struct source).at A = some x) (hone : SingleOld d source A)
    (hA : ∀ g, Left d g → g.path ≠ Convert.names A)
    (hfit : ∀ f o, Claim d f o → o.path = Convert.names A → Fits d o f) :
    Sent (cfgToNew d custom post store) (.struct newM) [] [] source A B ↔ Place d A B := by
  constructor
  · intro h
    rcases ((leg_new W).carried ht h).1 with h | ⟨g, hg, e⟩
    · exact h
    · exact absurd e (hA g hg)
  · intro h
    refine (leg_new W).sent h hx (fun o f hc hp e => ?_) (single_new W ht h hone)
    exact fits_open W.given hc (hfit f o hc hp) ((nothing_both W.given hc).2 e)

/-- **C58.** The same for converting to the older version. -/
theorem C58_sent_old (W : Versions d oldM newM) (source : Fields V) (ht : TypedF source newM) (A B : Addr)
    (x : Node V) (hx : (Node.struct source).at A = some x) (hone : SingleNew d source A)
    (hfit : ∀ f o, Claim d f o → f.path = Convert.names A → Fits d o f) :
    Sent (cfgToOld d custom post store) (.struct oldM) [] [] source A B ↔ Place d B A := by
  constructor
  · intro h
    rcases ((leg_old W).carried ht h).1 with h | h
    · exact carried_flip h
    · exact h.elim
  · intro h
    refine (leg_old W).sent (carried_flip h) hx (fun f o hc hp e => ?_) (single_old W ht h hone)
    exact fits_open W.given hc (hfit f o hc hp) e

theorem wfOf {source : Fields V} {m : MFields} (ht : TypedF source m) (hm : WFMFields m) : WFFields source :=
  wf_of_typedF _ _ ht hm

/-! ### Values and sizes -/

/-- **C58, values.** After converting an IDS to the newer version, each value whose own field did not change is found at the
place that the dictionaries identify with its place (as assignment to the new field stores it, and post-processed if there
is a function for that). -/
theorem C58_value_new (W : Versions d oldM newM) (hpr : Proper (cfgToNew d custom post store))
    (hpo : LeafPost (cfgToNew d custom post store) oldM) (source : Fields V) (ht : TypedF source oldM) (result : Node V)
    (h : copyIds (cfgToNew d custom post store) source (Meta.struct newM).fresh = .ok result)
    (A B : Addr) (v : V) (hv : ValueAt (.struct source) A v) (hpl : Place d A B) (hk : Kept d A)
    (hone : SingleOld d source A) :
    ∃ l w, metaAt (.struct newM) (Convert.names B) = some (.leaf l) ∧ store l v = .ok w ∧
      ∃ y, result.at B = some y ∧
        match post (Convert.names A) with
        | none => y = .leaf l w
        | some f => f (.leaf l w) = .ok y := by
  obtain ⟨l0, hx, hne⟩ := id hv
  have hs := (C58_sent_new (custom := custom) (post := post) (store := store) W source ht A B _ hx hone
    (place_not_left W hpl) (fun f o hc hp => same_fits (hk f o hc hp))).2 hpl
  obtain ⟨a1, n, b1, k, e1, -, o, f, hc, hp, -⟩ := carried_last hpl
  rw [List.nil_append] at hp
  have hch : (cfgToNew d custom post store).change (Convert.names A) = none := by
    have hn := fits_open W.given hc (same_fits (hk f o hc hp))
    have := (W.changed_new hc hn).2 (hk f o hc hp)
    rw [hp] at this
    simp only [cfgToNew, cfgOf]
    rw [this]
    rfl
  exact C22_value_moved _ hpr _ source (wfOf ht W.namesOld) _ result (typed_fresh _) h A B v hv hs hch
    (alone_of_oneToOne ((leg_new W).one ((leg_new W).quiet hpo)) (by simpa only [Typed] using ht) hs hx (by simp [Writes]))
    (noPostAbove_of hpo ht ⟨a1, n, e1⟩ hx)

/-- **C58, values.** The same for converting to the older version. -/
theorem C58_value_old (W : Versions d oldM newM) (hpr : Proper (cfgToOld d custom post store))
    (hpo : LeafPost (cfgToOld d custom post store) newM) (source : Fields V) (ht : TypedF source newM) (result : Node V)
    (h : copyIds (cfgToOld d custom post store) source (Meta.struct oldM).fresh = .ok result)
    (A B : Addr) (v : V) (hv : ValueAt (.struct source) A v) (hpl : Place d B A) (hk : Kept d B)
    (hone : SingleNew d source A) :
    ∃ l w, metaAt (.struct oldM) (Convert.names B) = some (.leaf l) ∧ store l v = .ok w ∧
      ∃ y, result.at B = some y ∧
        match post (Convert.names A) with
        | none => y = .leaf l w
        | some f => f (.leaf l w) = .ok y := by
  obtain ⟨l0, hx, hne⟩ := id hv
  obtain ⟨b1, k, a1, n, -, e1, o, f, hc, hpb, hp⟩ := carried_last hpl
  rw [List.nil_append] at hp hpb
  have hnc : ¬ Changed d f o := hk f o hc hpb
  have hs := (C58_sent_old (custom := custom) (post := post) (store := store) W source ht A B _ hx hone
    (fun f' o' hc' hp' => by
      cases field_once W.given.new.once hc'.1 hc.1 (hp'.trans hp.symm)
      cases W.given.claim_same hc' hc
      exact same_fits hnc)).2 hpl
  have hch : (cfgToOld d custom post store).change (Convert.names A) = none := by
    have := (change_none W.given W.announced hc (fits_open W.given hc (same_fits hnc))).2 hnc
    rw [hp] at this
    simp only [cfgToOld, cfgOf]
    rw [this]
    rfl
  exact C22_value_moved _ hpr _ source (wfOf ht W.namesNew) _ result (typed_fresh _) h A B v hv hs hch
    (alone_of_oneToOne ((leg_old W).one ((leg_old W).quiet hpo)) (by simpa only [Typed] using ht) hs hx (by simp [Writes]))
    (noPostAbove_of hpo ht ⟨a1, n, e1⟩ hx)

/-- **C58, sizes.** After converting an IDS to the newer version, arrays of structures that did not change have the same
number of elements at the identified place. -/
theorem C58_size_new (W : Versions d oldM newM) (hpr : Proper (cfgToNew d custom post store))
    (hpo : LeafPost (cfgToNew d custom post store) oldM) (source : Fields V) (ht : TypedF source oldM) (result : Node V)
    (h : copyIds (cfgToNew d custom post store) source (Meta.struct newM).fresh = .ok result)
    (A B : Addr) (k : Nat) (hv : SizeAt (.struct source) A k) (hpl : Place d A B) (hk : Kept d A)
    (hone : SingleOld d source A) : SizeAt result B k := by
  obtain ⟨w, e, hx, hlen, hk0⟩ := id hv
  have hs := (C58_sent_new (custom := custom) (post := post) (store := store) W source ht A B _ hx hone
    (place_not_left W hpl) (fun f o hc hp => same_fits (hk f o hc hp))).2 hpl
  obtain ⟨a1, n, b1, k1, e1, -, o, f, hc, hp, -⟩ := carried_last hpl
  rw [List.nil_append] at hp
  have hch : (cfgToNew d custom post store).change (Convert.names A) = none := by
    have hn := fits_open W.given hc (same_fits (hk f o hc hp))
    have := (W.changed_new hc hn).2 (hk f o hc hp)
    rw [hp] at this
    simp only [cfgToNew, cfgOf]
    rw [this]
    rfl
  have hval : (Node.aos w e).hasValue = true := by
    cases e with
    | nil => simp [Elems.length] at hlen; exact absurd hlen.symm hk0
    | cons => simp [Node.hasValue, Elems.length]
  refine C22_size_moved _ hpr _ source (wfOf ht W.namesOld) _ result (typed_fresh _) h A B _ k hx hval hs (.inl ⟨hch, hv⟩)
    (alone_of_oneToOne ((leg_new W).one ((leg_new W).quiet hpo)) (by simpa only [Typed] using ht) hs hx (by simp [Writes, hch]))
    (noPostAbove_of hpo ht ⟨a1, n, e1⟩ hx) ?_
  cases hq : (cfgToNew d custom post store).post (Convert.names A) with
  | none => rfl
  | some g =>
    obtain ⟨l, hl⟩ := hpo (Convert.names A) (by rw [hq]; simp)
    obtain ⟨m0, h1, h2⟩ := typedAt_at (tm := .struct oldM) (.inl (by simpa only [Typed] using ht)) hx
    rw [hl] at h1; cases h1
    rcases h2 with h2 | ⟨_, _, h2, _⟩
    · simp [Typed] at h2
    · cases h2

/-- **C58, sizes.** The same for converting to the older version. -/
theorem C58_size_old (W : Versions d oldM newM) (hpr : Proper (cfgToOld d custom post store))
    (hpo : LeafPost (cfgToOld d custom post store) newM) (source : Fields V) (ht : TypedF source newM) (result : Node V)
    (h : copyIds (cfgToOld d custom post store) source (Meta.struct oldM).fresh = .ok result)
    (A B : Addr) (k : Nat) (hv : SizeAt (.struct source) A k) (hpl : Place d B A) (hk : Kept d B)
    (hone : SingleNew d source A) : SizeAt result B k := by
  obtain ⟨w, e, hx, hlen, hk0⟩ := id hv
  obtain ⟨b1, k1, a1, n, -, e1, o, f, hc, hpb, hp⟩ := carried_last hpl
  rw [List.nil_append] at hp hpb
  have hnc : ¬ Changed d f o := hk f o hc hpb
  have hs := (C58_sent_old (custom := custom) (post := post) (store := store) W source ht A B _ hx hone
    (fun f' o' hc' hp' => by
      cases field_once W.given.new.once hc'.1 hc.1 (hp'.trans hp.symm)
      cases W.given.claim_same hc' hc
      exact same_fits hnc)).2 hpl
  have hch : (cfgToOld d custom post store).change (Convert.names A) = none := by
    have := (change_none W.given W.announced hc (fits_open W.given hc (same_fits hnc))).2 hnc
    rw [hp] at this
    simp only [cfgToOld, cfgOf]
    rw [this]
    rfl
  have hval : (Node.aos w e).hasValue = true := by
    cases e with
    | nil => simp [Elems.length] at hlen; exact absurd hlen.symm hk0
    | cons => simp [Node.hasValue, Elems.length]
  refine C22_size_moved _ hpr _ source (wfOf ht W.namesNew) _ result (typed_fresh _) h A B _ k hx hval hs (.inl ⟨hch, hv⟩)
    (alone_of_oneToOne ((leg_old W).one ((leg_old W).quiet hpo)) (by simpa only [Typed] using ht) hs hx (by simp [Writes, hch]))
    (noPostAbove_of hpo ht ⟨a1, n, e1⟩ hx) ?_
  cases hq : (cfgToOld d custom post store).post (Convert.names A) with
  | none => rfl
  | some g =>
    obtain ⟨l, hl⟩ := hpo (Convert.names A) (by rw [hq]; simp)
    obtain ⟨m0, h1, h2⟩ := typedAt_at (tm := .struct newM) (.inl (by simpa only [Typed] using ht)) hx
    rw [hl] at h1; cases h1
    rcases h2 with h2 | ⟨_, _, h2, _⟩
    · simp [Typed] at h2
    · cases h2

/-- **C58, nothing else.** Each value in the result of converting to the newer version comes from the identified place of
the source, from a node above it whose field changed, or was post-processed. -/
theorem C58_no_other_new (W : Versions d oldM newM) (hpr : Proper (cfgToNew d custom post store))
    (hleft : ∀ g, Left d g → post g.path = none) (source : Fields V) (ht : TypedF source oldM) (result : Node V)
    (h : copyIds (cfgToNew d custom post store) source (Meta.struct newM).fresh = .ok result)
    (B : Addr) (w : V) (hb : ValueAt result B w) :
    (∃ A l v, Place d A B ∧ ValueAt (.struct source) A v ∧ store l v = .ok (some w)) ∨
    (∃ A B' x f o, Place d A B' ∧ (Node.struct source).at A = some x ∧ x.hasValue = true ∧ Contains B' B ∧
      Claim d f o ∧ o.path = Convert.names A ∧ (Changed d f o ∨ ∃ g, post (Convert.names A) = some g)) := by
  rcases C22_no_other_value _ hpr _ source (wfOf ht W.namesOld) _ result (typed_fresh _) h B w hb with
    h1 | ⟨A, l, v, h1, h2, h3⟩ | ⟨A, B', x, h1, h2, h3, h4, h5⟩
  · exact absurd h1 (fresh_no_value _ B w)
  · refine .inl ⟨A, l, v, ?_, h2, h3⟩
    rcases ((leg_new W).carried ht h1).1 with h | h
    · exact h
    · obtain ⟨⟨c, h4⟩, -⟩ := (route_new W.given W.nested).idle W.old
        ((leg_new (custom := custom) (post := post) (store := store) W).idle (by rintro a ⟨g, hg, rfl⟩; exact hleft g hg)) h
      obtain ⟨l0, hx, -⟩ := h2
      obtain ⟨m0, h5, h6⟩ := typedAt_at (tm := .struct oldM) (.inl (by simpa only [Typed] using ht)) hx
      rw [h4] at h5; cases h5
      rcases h6 with h6 | ⟨_, _, h6, _⟩
      · simp [Typed] at h6
      · cases h6
  · obtain ⟨h6, h7⟩ := (leg_new W).carried ht h1
    have h6 : Place d A B' := by
      rcases h6 with h6 | h6
      · exact h6
      · exfalso
        have e1 := (leg_new (custom := custom) (post := post) (store := store) W).still _ h6
        obtain ⟨g, hg, e⟩ := h6
        rcases h5 with ⟨u, h5⟩ | ⟨u, h5⟩
        · rw [e1] at h5; cases h5
        · have := hleft g hg
          rw [e] at this
          exact absurd (show post (Convert.names A) = some u from h5) (by rw [this]; simp)
    obtain ⟨a1, n, b1, k, -, -, o, f, hc, hp, -⟩ := carried_last h6
    rw [List.nil_append] at hp
    refine .inr ⟨A, B', x, f, o, h6, h2, h3, h4, hc, hp, ?_⟩
    rcases h5 with ⟨g, h5⟩ | h5
    · left
      apply Classical.byContradiction
      intro hn
      have := (W.changed_new hc (fun e => h7 o hp ((nothing_both W.given hc).1 e))).2 hn
      simp only [cfgToNew, cfgOf] at h5
      rw [← hp, this] at h5
      cases h5
    · exact .inr h5

/-- **C58, nothing else.** The same for converting to the older version. -/
theorem C58_no_other_old (W : Versions d oldM newM) (hpr : Proper (cfgToOld d custom post store))
    (source : Fields V) (ht : TypedF source newM) (result : Node V)
    (h : copyIds (cfgToOld d custom post store) source (Meta.struct oldM).fresh = .ok result)
    (B : Addr) (w : V) (hb : ValueAt result B w) :
    (∃ A l v, Place d B A ∧ ValueAt (.struct source) A v ∧ store l v = .ok (some w)) ∨
    (∃ A B' x f o, Place d B' A ∧ (Node.struct source).at A = some x ∧ x.hasValue = true ∧ Contains B' B ∧
      Claim d f o ∧ f.path = Convert.names A ∧ (Changed d f o ∨ ∃ g, post (Convert.names A) = some g)) := by
  rcases C22_no_other_value _ hpr _ source (wfOf ht W.namesNew) _ result (typed_fresh _) h B w hb with
    h1 | ⟨A, l, v, h1, h2, h3⟩ | ⟨A, B', x, h1, h2, h3, h4, h5⟩
  · exact absurd h1 (fresh_no_value _ B w)
  · exact .inl ⟨A, l, v, carried_flip (((leg_old W).carried ht h1).1.resolve_right id), h2, h3⟩
  · obtain ⟨h6, h7⟩ := (leg_old W).carried ht h1
    have h6 := h6.resolve_right id
    obtain ⟨a1, n, b1, k, -, -, f, o, hc, hp, -⟩ := carried_last h6
    rw [List.nil_append] at hp
    refine .inr ⟨A, B', x, f, o, carried_flip h6, h2, h3, h4, hc, hp, ?_⟩
    rcases h5 with ⟨g, h5⟩ | h5
    · left
      apply Classical.byContradiction
      intro hn
      have := (change_none W.given W.announced hc (fun e => h7 f hp e)).2 hn
      simp only [cfgToOld, cfgOf] at h5
      rw [← hp, this] at h5
      cases h5
    · exact .inr h5

/-! ### Success -/

theorem Leg.smooth {A B : List Field} {C : Field → Field → Prop} {L L' : VMap.Path → Prop}
    {E : Field → Field → Option Nat → Option Nat → Prop} {mA mB : MFields} {cx : Cfg V} (G : Leg A B C L L' E mA mB cx)
    (hpo : ∀ a, L a → cx.post a = none)
    (hfit : ∀ f o x y, C f o → cx.path f.path ≠ some none → metaAt (.struct mA) f.path = some x →
      metaAt (.struct mB) o.path = some y → IsKind f.dtype x → IsKind o.dtype y → Fit (cx.change f.path) x y) :
    Smooth cx mA mB := by
  intro p n t q x hx ht hq
  have hs : (metaAt (.struct mA) (p ++ [n])).isSome := by rw [hx]; rfl
  have h1 := G.route.goes G.showsA G.showsB rfl p t (metaAt_prefix hs) ht
  have h2 := G.route.goes G.showsA G.showsB rfl _ q hs hq
  generalize e : p ++ [n] = z at h2
  cases h2 with
  | root => simp at e
  | @field f o hc =>
    left
    obtain ⟨u', hu, e1⟩ := G.route.reach_down h1 f o [n] hc e.symm (by simp)
    obtain ⟨u, k, rfl⟩ := snoc_of_ne hu
    obtain ⟨y, hy, ky⟩ := G.showsB.field o (G.route.mem _ _ hc).2
    rw [e] at hx hq
    obtain ⟨f', hf', e3, kx⟩ := G.showsA.node _ x (by rw [← e]; simp) hx
    cases field_once G.route.once hf' (G.route.mem _ _ hc).1 e3
    refine ⟨u, k, y, by rw [e1]; simp, hy,
      hfit f o x y hc (goes_open hq (a := f.path) (r := []) (by simp) (G.route.ne _ hf')) hx hy kx ky, ?_⟩
    intro u1 u2 e4 hu1
    rcases G.route.up' f o (t ++ u1) (u2 ++ [k]) hc (by simp [hu1]) (by rw [e1, e4]; simp) with ⟨f1, o1, h3, h4, h5⟩ | hl
    · exfalso
      rw [← e] at h5
      rcases List.prefix_concat_iff.1 h5 with h5 | h5
      · obtain ⟨-, rfl⟩ := G.route.same h3 hc (h5.trans e)
        rw [e1, e4] at h4
        have := congrArg List.length h4
        simp at this
      · have := G.route.reach_up h1 h3 h5
        rw [h4] at this
        have := this.length_le
        have := List.length_pos_iff.2 hu1
        simp at *
        omega
    · obtain ⟨⟨o', ho', e5, hk⟩, -⟩ := G.route.left' _ hl
      obtain ⟨w, hw, kw⟩ := G.showsB.field o' ho'
      rw [e5] at hw
      rw [hk] at kw
      cases w with
      | leaf => exact absurd rfl kw.1
      | struct c => exact ⟨c, hw⟩
      | aos c => exact absurd (show "structure".toList = "struct_array".toList from kw) (by decide)
  | @left p' t' n' h hl =>
    right
    obtain ⟨rfl, e'⟩ := List.append_inj' e rfl
    cases e'
    cases G.route.reach_one h _ h1
    obtain ⟨⟨c, h3⟩, -⟩ := G.route.idle G.showsA (G.idle hpo) hl
    rw [hx] at h3
    exact ⟨rfl, ⟨c, Option.some.inj h3⟩, (G.route.left _ hl).1, G.still _ hl, hpo _ hl⟩

theorem fit_same {x y : Meta} {t t' : List Char} (hx : IsKind t x) (hy : IsKind t' y)
    (h : (t = "structure".toList ↔ t' = "structure".toList) ∧ (t = "struct_array".toList ↔ t' = "struct_array".toList)) :
    Fit (V := V) none x y := by
  have hne : "structure".toList ≠ "struct_array".toList := by decide
  cases x <;> cases y <;> simp only [IsKind, Fit] at hx hy ⊢
  · exact hx.1 (h.1.2 hy)
  · exact hx.2 (h.2.2 hy)
  · exact hy.1 (h.1.1 hx)
  · exact hne ((h.1.1 hx).symm.trans hy)
  · exact hy.2 (h.2.1 hx)
  · exact hne (hy.symm.trans (h.2.1 hx))

theorem fit_between {x y : Meta} {f o : Field} (hx : IsKind f.dtype x) (hy : IsKind o.dtype y)
    (h : VMapSpec.Between o f "structure" "struct_array") : Fit (V := V) (some .structAos) x y := by
  have hne : "structure".toList ≠ "struct_array".toList := by decide
  rcases h with ⟨h1, h2⟩ | ⟨h1, h2⟩ <;> rw [h1] at hy <;> rw [h2] at hx <;>
    cases x <;> cases y <;> simp only [IsKind, Fit] at hx hy ⊢
  all_goals first
    | exact hx.1 rfl | exact hx.2 rfl | exact hy.1 rfl | exact hy.2 rfl
    | exact hne hx | exact hne hy | exact hne hx.symm | exact hne hy.symm

theorem Versions.kinds_same (W : Versions d oldM newM) {f o : Field} (h : ¬ Changed d f o) :
    (f.dtype = "structure".toList ↔ o.dtype = "structure".toList) ∧
    (f.dtype = "struct_array".toList ↔ o.dtype = "struct_array".toList) := by
  cases hs : d.same f.dtype o.dtype with
  | true => exact W.kinds _ _ hs
  | false => exact absurd (.inl hs) h

/-- Recorded changes have a conversion function, unless nothing is converted at all. -/
theorem Versions.recorded_old (W : Versions d oldM newM) {f o : Field} (hc : Claim d f o)
    (hn : (buildMap d).toOld.lookup f.path ≠ some none) {x : Option Handler}
    (h : (buildMap d).changeOld.lookup f.path = some x) : ∃ g, x = some g ∧ NeedsOld d f o g := by
  obtain ⟨ops, tops, I, K⟩ := inv_renames W.given
  have e1 : (buildMap d).changeOld = (renames d).changeOld := rfl
  rw [e1, I.is.changeOld] at h
  obtain ⟨t, h1, h2, h3⟩ := lookup_some h
  obtain ⟨f', hf', e3, hs, -⟩ := I.tok t h1
  cases field_once W.given.new.once hf' hc.1 (e3.trans h2)
  rcases hs with ⟨o', -, c', h5, h4, -⟩ | ⟨h5, h4, -⟩ | ⟨h5, h4, -⟩
  · cases W.given.claim_same c' hc
    cases x with
    | some g =>
      rw [h4] at h3
      exact ⟨g, rfl, .inl ⟨h5, handlerFor_some.1 h3⟩⟩
    | none =>
      exfalso
      refine hn (C21_unsupported W.given f o hc (fun hfit => ?_) ?_).1
      · rcases hfit with hfit | ⟨g, hg⟩
        · rw [h5] at hfit; cases hfit
        · rw [h4, handlerFor_some.2 hg] at h3; cases h3
      · apply Classical.byContradiction
        intro hno
        refine hno (.inl (W.announced.renamed f o hc (Classical.byContradiction fun hr => hno (.inr hr)) h5))
  · exact ⟨_, by rw [← h3, h4], .inr (.inl ⟨h5, rfl⟩)⟩
  · exact ⟨_, by rw [← h3, h4], .inr (.inr ⟨h5, rfl⟩)⟩

theorem Versions.recorded_new (W : Versions d oldM newM) {f o : Field} (hc : Claim d f o)
    (hn : (buildMap d).toNew.lookup o.path ≠ some none) {x : Option Handler}
    (h : (buildMap d).changeNew.lookup o.path = some x) : ∃ g, x = some g ∧ NeedsNew d f o g := by
  have hn' : (buildMap d).toOld.lookup f.path ≠ some none := fun e => hn ((nothing_both W.given hc).1 e)
  obtain ⟨ops, tops, I, K⟩ := inv_renames W.given
  have e1 : (buildMap d).changeNew = (renames d).changeNew := rfl
  rw [e1, I.is.changeNew] at h
  obtain ⟨t, h1, h2, h3⟩ := lookup_some h
  obtain ⟨f', hf', e3, hs, h6, -⟩ := I.tok t h1
  cases W.given.claim_same' (h6 o hc.2.1 h2.symm) hc
  rcases hs with ⟨o', -, c', h5, -, h4⟩ | ⟨h5, -, h4⟩ | ⟨h5, -, h4⟩
  · cases W.given.claim_same c' hc
    cases x with
    | some g =>
      rw [h4] at h3
      exact ⟨g, rfl, .inl ⟨h5, handlerFor_some.1 h3⟩⟩
    | none =>
      exfalso
      refine hn' (C21_unsupported W.given f o hc (fun hfit => ?_) ?_).1
      · rcases hfit with hfit | ⟨g, hg⟩
        · rw [h5] at hfit; cases hfit
        · rw [h4, handlerFor_some.2 hg] at h3; cases h3
      · apply Classical.byContradiction
        intro hno
        refine hno (.inl (W.announced.renamed f o hc (Classical.byContradiction fun hr => hno (.inr hr)) h5))
  · exact ⟨_, by rw [← h3, h4], .inr (.inl ⟨h5, rfl⟩)⟩
  · exact ⟨_, by rw [← h3, h4], .inr (.inr ⟨h5, rfl⟩)⟩

theorem smooth_new (W : Versions d oldM newM) (hleft : ∀ g, Left d g → post g.path = none) :
    Smooth (cfgToNew d custom post store) oldM newM := by
  refine (leg_new W).smooth (by rintro a ⟨g, hg, rfl⟩; exact hleft g hg) fun o f x y hc hn _ _ kx ky => ?_
  have hn' : (buildMap d).toOld.lookup f.path ≠ some none := fun e => hn ((nothing_both W.given hc).1 e)
  simp only [cfgToNew, cfgOf]
  cases hl : (buildMap d).changeNew.lookup o.path with
  | none =>
    have := W.kinds_same ((W.changed_new hc hn').1 hl)
    exact fit_same kx ky ⟨this.1.symm, this.2.symm⟩
  | some h =>
    simp only [Option.map_some]
    rcases changeOf_cases (custom o.path) h with ⟨e, h4⟩ | ⟨e, u, h4⟩
    · rw [h4]
      subst e
      exact fit_between kx ky ((change_array W.given hc ((W.array_new hc).1 hl)).symm.imp And.symm And.symm)
    · rw [h4]; trivial

theorem smooth_old (W : Versions d oldM newM) : Smooth (cfgToOld d custom post store) newM oldM := by
  refine (leg_old W).smooth (fun _ h => h.elim) fun f o x y hc hn _ _ kx ky => ?_
  simp only [cfgToOld, cfgOf]
  cases hl : (buildMap d).changeOld.lookup f.path with
  | none => exact fit_same kx ky (W.kinds_same ((change_none W.given W.announced hc hn).1 hl))
  | some h =>
    simp only [Option.map_some]
    rcases changeOf_cases (custom f.path) h with ⟨e, h4⟩ | ⟨e, u, h4⟩
    · rw [h4]
      subst e
      exact fit_between kx ky (change_array W.given hc hl)
    · rw [h4]; trivial

theorem changeOf_custom {g : Handler → Node V → Node V → Except ConvErr (Node V)} {h : Handler}
    {u : Node V → Node V → Except ConvErr (Node V)} (e : changeOf g (some h) = .custom u) : u = g h ∧ h ≠ .structAos := by
  cases h <;> simp only [changeOf, Change.custom.injEq, reduceCtorEq] at e <;> exact ⟨e.symm, by simp⟩

/-- **C58, success.** Converting an IDS to the newer version raises no error if the values of fields that did not change can
be assigned to the identified fields, and no conversion function and no post-processing function for a node of the IDS
raises one. -/
theorem C58_succeeds_new (W : Versions d oldM newM) (hpr : Proper (cfgToNew d custom post store))
    (hleft : ∀ g, Left d g → post g.path = none) (source : Fields V) (ht : TypedF source oldM)
    (hstore : ∀ A v f o l, ValueAt (.struct source) A v → Claim d f o → o.path = Convert.names A → ¬ Changed d f o →
      metaAt (.struct newM) f.path = some (.leaf l) → ∃ w, store l v = .ok w)
    (hcust : ∀ A x f o h m y, (Node.struct source).at A = some x → x.hasValue = true → Claim d f o →
      o.path = Convert.names A → NeedsNew d f o h → h ≠ .structAos → metaAt (.struct newM) f.path = some m → Typed y m →
      ∃ z, custom o.path h x y = .ok z)
    (hpost : ∀ A x f o g m y, (Node.struct source).at A = some x → x.hasValue = true → Claim d f o → o.path = Convert.names A →
      post o.path = some g → metaAt (.struct newM) f.path = some m → TypedAt y m → ∃ z, g y = .ok z) :
    ∃ result, copyIds (cfgToNew d custom post store) source (Meta.struct newM).fresh = .ok result := by
  refine copyIds_run hpr (smooth_new W hleft) W.namesOld ht (typed_fresh _) fun A x hne hx hv t y hg hy => ?_
  have hne : Convert.names A ≠ [] := by simpa [Convert.names] using hne
  obtain ⟨m0, h1, tx⟩ := typedAt_at (tm := .struct oldM) (.inl (by simpa only [Typed] using ht)) hx
  have hreach := (route_new W.given W.nested).goes W.old W.new (cx := cfgToNew d custom post store) rfl _ t
    (by rw [h1]; rfl) hg
  by_cases hla : LeftAt d (Convert.names A)
  · have hi := (leg_new (custom := custom) (post := post) (store := store) W).idle
      (by rintro a ⟨g, hg, rfl⟩; exact hleft g hg)
    obtain ⟨⟨c, h2⟩, -⟩ := (route_new W.given W.nested).idle W.old hi hla
    obtain ⟨h3, h4⟩ := hi _ hla
    rw [h2] at h1; cases h1
    refine ⟨fun l v l' _ e _ => ?_, fun u z hch _ => (by rw [h3] at hch; cases hch), fun g z hq _ _ => (by rw [h4] at hq; cases hq)⟩
    subst e
    rcases tx with tx | ⟨_, _, tx, _⟩
    · simp [Typed] at tx
    · cases tx
  obtain ⟨f, o, hc, e1, e2, hn⟩ : ∃ f o, Claim d f o ∧ o.path = Convert.names A ∧ f.path = t ∧
      (buildMap d).toNew.lookup o.path ≠ some none := by
    generalize e : Convert.names A = z at hreach
    cases hreach with
    | root => exact absurd e hne
    | @field o f hc => exact ⟨f, o, hc, rfl, rfl, goes_open hg (a := o.path) (r := []) (by simp [e]) (by rw [← e]; exact hne)⟩
    | left _ hl => rw [e] at hla; exact absurd hl hla
  refine ⟨fun l v l' hch e ey => ?_, fun u z hch hz => ?_, fun g z hq hz _ => hpost A x f o g y z hx hv hc e1 (by rw [e1]; exact hq) (by rw [e2]; exact hy) hz⟩
  · subst e
    have hn' : (buildMap d).toOld.lookup f.path ≠ some none := fun e => hn ((nothing_both W.given hc).1 e)
    refine hstore A v f o l' ⟨l, hx, ?_⟩ hc e1 ?_ (by rw [e2, hy, ey])
    · simpa [Node.hasValue, leafHasValue] using hv
    · refine (W.changed_new hc hn').1 ?_
      rw [e1]
      simpa only [cfgToNew, cfgOf, Option.map_eq_none_iff] using hch
  · simp only [cfgToNew, cfgOf] at hch
    rw [← e1] at hch
    cases hl : (buildMap d).changeNew.lookup o.path with
    | none => rw [hl] at hch; cases hch
    | some h =>
      rw [hl, Option.map_some, Option.some.injEq] at hch
      obtain ⟨g, rfl, hg'⟩ := W.recorded_new hc hn hl
      obtain ⟨rfl, hgs⟩ := changeOf_custom hch
      exact hcust A x f o g y z hx hv hc e1 hg' hgs (by rw [e2]; exact hy) hz

/-- **C58, success.** The same for converting to the older version. -/
theorem C58_succeeds_old (W : Versions d oldM newM) (hpr : Proper (cfgToOld d custom post store))
    (source : Fields V) (ht : TypedF source newM)
    (hstore : ∀ A v f o l, ValueAt (.struct source) A v → Claim d f o → f.path = Convert.names A → ¬ Changed d f o →
      metaAt (.struct oldM) o.path = some (.leaf l) → ∃ w, store l v = .ok w)
    (hcust : ∀ A x f o h m y, (Node.struct source).at A = some x → x.hasValue = true → Claim d f o →
      f.path = Convert.names A → NeedsOld d f o h → h ≠ .structAos → metaAt (.struct oldM) o.path = some m → Typed y m →
      ∃ z, custom f.path h x y = .ok z)
    (hpost : ∀ A x f o g m y, (Node.struct source).at A = some x → x.hasValue = true → Claim d f o → f.path = Convert.names A →
      post f.path = some g → metaAt (.struct oldM) o.path = some m → TypedAt y m → ∃ z, g y = .ok z) :
    ∃ result, copyIds (cfgToOld d custom post store) source (Meta.struct oldM).fresh = .ok result := by
  refine copyIds_run hpr (smooth_old W) W.namesNew ht (typed_fresh _) fun A x hne hx hv t y hg hy => ?_
  have hne : Convert.names A ≠ [] := by simpa [Convert.names] using hne
  obtain ⟨f, o, hc, e1, e2, hn⟩ : ∃ f o, Claim d f o ∧ f.path = Convert.names A ∧ o.path = t ∧
      (buildMap d).toOld.lookup f.path ≠ some none := by
    obtain ⟨m0, h1, -⟩ := typedAt_at (tm := .struct newM) (.inl (by simpa only [Typed] using ht)) hx
    have hreach := (route_old W.given W.nested).goes W.new W.old (cx := cfgToOld d custom post store) rfl _ t
      (by rw [h1]; rfl) hg
    generalize e : Convert.names A = z at hreach
    cases hreach with
    | root => exact absurd e hne
    | @field f o hc => exact ⟨f, o, hc, rfl, rfl, goes_open hg (a := f.path) (r := []) (by simp [e]) (by rw [← e]; exact hne)⟩
    | left _ hl => exact hl.elim
  refine ⟨fun l v l' hch e ey => ?_, fun u z hch hz => ?_, fun g z hq hz _ => hpost A x f o g y z hx hv hc e1 (by rw [e1]; exact hq) (by rw [e2]; exact hy) hz⟩
  · subst e
    refine hstore A v f o l' ⟨l, hx, ?_⟩ hc e1 ?_ (by rw [e2, hy, ey])
    · simpa [Node.hasValue, leafHasValue] using hv
    · refine (change_none W.given W.announced hc hn).1 ?_
      rw [e1]
      simpa only [cfgToOld, cfgOf, Option.map_eq_none_iff] using hch
  · simp only [cfgToOld, cfgOf] at hch
    rw [← e1] at hch
    cases hl : (buildMap d).changeOld.lookup f.path with
    | none => rw [hl] at hch; cases hch
    | some h =>
      rw [hl, Option.map_some, Option.some.injEq] at hch
      obtain ⟨g, rfl, hg'⟩ := W.recorded_old hc hn hl
      obtain ⟨rfl, hgs⟩ := changeOf_custom hch
      exact hcust A x f o g y z hx hv hc e1 hg' hgs (by rw [e2]; exact hy) hz

/-! ### There and back -/

/-- The maps in both directions are one-to-one and inverse to each other: what C22, C23 and C24 assume for converting
there and back. -/
theorem C58_reversible_new (W : Versions d oldM newM) (hpr : Proper (cfgToNew d custom post store))
    (hpr' : Proper (cfgToOld d custom' post' store')) (hpo : LeafPost (cfgToNew d custom post store) oldM)
    (hpo' : LeafPost (cfgToOld d custom' post' store') newM) (source data : Fields V) (ht : TypedF source oldM)
    (h : copyIds (cfgToNew d custom post store) source (Meta.struct newM).fresh = .ok (.struct data)) :
    Reversible (cfgToNew d custom post store) (cfgToOld d custom' post' store') oldM newM source data where
  proper := hpr
  proper' := hpr'
  names := W.namesOld
  names' := W.namesNew
  one := (leg_new W).one ((leg_new W).quiet hpo)
  one' := (leg_old W).one ((leg_old W).quiet hpo')
  inv := (route_new W.given W.nested).inverse (route_old W.given W.nested) W.old W.new rfl rfl (opposite_new W.given)
    (opposite_old W.given) ((leg_new W).idle ((leg_new W).quiet hpo)) hpo (by simp [cfgToNew, cfgOf, root_new W.given]) (fun o f hc hn hch => by
      have hn' : (buildMap d).toOld.lookup f.path ≠ some none := fun e => hn ((nothing_both W.given hc).1 e)
      have h1 : (buildMap d).changeNew.lookup o.path = none := by
        simpa only [cfgToNew, cfgOf, Option.map_eq_none_iff] using hch
      exact (kind_same W.given W.announced W.kinds hc
        ((change_none W.given W.announced hc hn').2 ((W.changed_new hc hn').1 h1)) hn').symm)
  inv' := (route_old W.given W.nested).inverse (route_new W.given W.nested) W.new W.old rfl rfl (opposite_old W.given)
    (opposite_new W.given) ((leg_old W).idle ((leg_old W).quiet hpo')) hpo' (by simp [cfgToOld, cfgOf, root_old W.given]) (fun f o hc hn hch => by
      have h1 : (buildMap d).changeOld.lookup f.path = none := by
        simpa only [cfgToOld, cfgOf, Option.map_eq_none_iff] using hch
      exact kind_same W.given W.announced W.kinds hc h1 hn)
  typed := ht
  there := h

/-- The same, starting from the newer version. -/
theorem C58_reversible_old (W : Versions d oldM newM) (hpr : Proper (cfgToNew d custom post store))
    (hpr' : Proper (cfgToOld d custom' post' store')) (hpo : LeafPost (cfgToNew d custom post store) oldM)
    (hpo' : LeafPost (cfgToOld d custom' post' store') newM) (source data : Fields V) (ht : TypedF source newM)
    (h : copyIds (cfgToOld d custom' post' store') source (Meta.struct oldM).fresh = .ok (.struct data)) :
    Reversible (cfgToOld d custom' post' store') (cfgToNew d custom post store) newM oldM source data where
  proper := hpr'
  proper' := hpr
  names := W.namesNew
  names' := W.namesOld
  one := (leg_old W).one ((leg_old W).quiet hpo')
  one' := (leg_new W).one ((leg_new W).quiet hpo)
  inv := (route_old W.given W.nested).inverse (route_new W.given W.nested) W.new W.old rfl rfl (opposite_old W.given)
    (opposite_new W.given) ((leg_old W).idle ((leg_old W).quiet hpo')) hpo' (by simp [cfgToOld, cfgOf, root_old W.given]) (fun f o hc hn hch => by
      have h1 : (buildMap d).changeOld.lookup f.path = none := by
        simpa only [cfgToOld, cfgOf, Option.map_eq_none_iff] using hch
      exact kind_same W.given W.announced W.kinds hc h1 hn)
  inv' := (route_new W.given W.nested).inverse (route_old W.given W.nested) W.old W.new rfl rfl (opposite_new W.given)
    (opposite_old W.given) ((leg_new W).idle ((leg_new W).quiet hpo)) hpo (by simp [cfgToNew, cfgOf, root_new W.given]) (fun o f hc hn hch => by
      have hn' : (buildMap d).toOld.lookup f.path ≠ some none := fun e => hn ((nothing_both W.given hc).1 e)
      have h1 : (buildMap d).changeNew.lookup o.path = none := by
        simpa only [cfgToNew, cfgOf, Option.map_eq_none_iff] using hch
      exact (kind_same W.given W.announced W.kinds hc
        ((change_none W.given W.announced hc hn').2 ((W.changed_new hc hn').1 h1)) hn').symm)
  typed := ht
  there := h

end

section
variable {F : Type} [FloatModel F] {d : Dicts} {oldM newM : MFields}
  {custom custom' : VMap.Path → Handler → Node (Val F) → Node (Val F) → Except ConvErr (Node (Val F))}

/-- **C58, there and back.** Converting an IDS to the newer version and back keeps every value whose field the dictionaries
identify with a field of the newer version that did not change (and that can hold the value). -/
theorem C58_round_trip_new (cv : Conv F) (W : Versions d oldM newM)
    (hpr : Proper (cfgToNew d custom (fun _ => none) (storeVal cv)))
    (hpr' : Proper (cfgToOld d custom' (fun _ => none) (storeVal cv)))
    (source data : Fields (Val F)) (ht : TypedF source oldM) (result : Node (Val F))
    (there : copyIds (cfgToNew d custom (fun _ => none) (storeVal cv)) source (Meta.struct newM).fresh = .ok (.struct data))
    (back : copyIds (cfgToOld d custom' (fun _ => none) (storeVal cv)) data (Meta.struct oldM).fresh = .ok result)
    (A B : Addr) (v : Val F) (l l' : LeafMeta)
    (hx : (Node.struct source).at A = some (.leaf l (some v))) (hne : Value.isEmpty v = false)
    (hpl : Place d A B) (hk : Kept d A) (hone : SingleOld d source A)
    (hl' : metaAt (.struct newM) (Convert.names B) = some (.leaf l')) (hv : Held l v) (hv' : Held l' v) :
    ValueAt (.struct data) B v ∧ ValueAt result A v := by
  have R := C58_reversible_new (custom' := custom') (post' := fun _ => none) (store' := storeVal cv) W hpr hpr'
    (fun _ h => absurd rfl h) (fun _ h => absurd rfl h) source data ht there
  have hs := (C58_sent_new (custom := custom) (post := fun _ => none) (store := storeVal cv) W source ht A B _ hx hone
    (place_not_left W hpl) (fun f o hc hp => same_fits (hk f o hc hp))).2 hpl
  obtain ⟨a1, n, b1, k, e1, -, o, f, hc, hp, -⟩ := carried_last hpl
  rw [List.nil_append] at hp
  have hch : (cfgToNew d custom (fun _ => none) (storeVal cv)).change (Convert.names A) = none := by
    have hn := fits_open W.given hc (same_fits (hk f o hc hp))
    have := (W.changed_new hc hn).2 (hk f o hc hp)
    rw [hp] at this
    simp only [cfgToNew, cfgOf]
    rw [this]
    rfl
  exact C22_round_trip_everywhere cv R back rfl rfl A B v l l' hx hs hl' hv hv' hne hch (fun _ _ => rfl) (fun _ _ => rfl)

/-- **C58, there and back.** The same for converting to the older version and back. -/
theorem C58_round_trip_old (cv : Conv F) (W : Versions d oldM newM)
    (hpr : Proper (cfgToNew d custom (fun _ => none) (storeVal cv)))
    (hpr' : Proper (cfgToOld d custom' (fun _ => none) (storeVal cv)))
    (source data : Fields (Val F)) (ht : TypedF source newM) (result : Node (Val F))
    (there : copyIds (cfgToOld d custom' (fun _ => none) (storeVal cv)) source (Meta.struct oldM).fresh = .ok (.struct data))
    (back : copyIds (cfgToNew d custom (fun _ => none) (storeVal cv)) data (Meta.struct newM).fresh = .ok result)
    (A B : Addr) (v : Val F) (l l' : LeafMeta)
    (hx : (Node.struct source).at A = some (.leaf l (some v))) (hne : Value.isEmpty v = false)
    (hpl : Place d B A) (hk : Kept d B) (hone : SingleNew d source A)
    (hl' : metaAt (.struct oldM) (Convert.names B) = some (.leaf l')) (hv : Held l v) (hv' : Held l' v) :
    ValueAt (.struct data) B v ∧ ValueAt result A v := by
  have R := C58_reversible_old (custom := custom) (post := fun _ => none) (store := storeVal cv) W hpr hpr'
    (fun _ h => absurd rfl h) (fun _ h => absurd rfl h) source data ht there
  obtain ⟨b1, k1, a1, n, -, e1, o, f, hc, hpb, hp⟩ := carried_last hpl
  rw [List.nil_append] at hp hpb
  have hnc : ¬ Changed d f o := hk f o hc hpb
  have hs := (C58_sent_old (custom := custom') (post := fun _ => none) (store := storeVal cv) W source ht A B _ hx hone
    (fun f' o' hc' hp' => by
      cases field_once W.given.new.once hc'.1 hc.1 (hp'.trans hp.symm)
      cases W.given.claim_same hc' hc
      exact same_fits hnc)).2 hpl
  have hch : (cfgToOld d custom' (fun _ => none) (storeVal cv)).change (Convert.names A) = none := by
    have := (change_none W.given W.announced hc (fits_open W.given hc (same_fits hnc))).2 hnc
    rw [hp] at this
    simp only [cfgToOld, cfgOf]
    rw [this]
    rfl
  exact C22_round_trip_everywhere cv R back rfl rfl A B v l l' hx hs hl' hv hv' hne hch (fun _ _ => rfl) (fun _ _ => rfl)

end

/-! ### Example -/

theorem announced_of_check {d : Dicts} (G : Given d)
    (h : (d.new.all fun f => d.old.all fun o => d.same f.dtype o.dtype ||
      (!renamedB d f o && match f.nbc with
        | none => true
        | some a => !(decide (a.desc = .repeatConditional) || decide (a.desc = .centreline)))) = true) : Announced d := by
  simp only [List.all_eq_true] at h
  constructor
  · intro f o hc hr hs
    have h1 := h f hc.1 o hc.2.1
    rw [hs, Bool.false_or, Bool.and_eq_true, Bool.not_eq_true'] at h1
    rw [(renamed_iff G.old G.new hc.1 hc.2.1).1 hr] at h1
    exact absurd h1.1 (by simp)
  · intro f o hc hs
    have h1 := h f hc.1 o hc.2.1
    rw [hs, Bool.false_or, Bool.and_eq_true] at h1
    constructor
    · rintro ⟨a, vs, h2, h3, -⟩
      rw [h2] at h1; simp [h3] at h1
    · rintro ⟨a, vs, h2, h3, -⟩
      rw [h2] at h1; simp [h3] at h1

/-- The map is proper if its functions are. -/
theorem proper_new {V : Type} [Value V] {d : Dicts} {custom : VMap.Path → Handler → Node V → Node V → Except ConvErr (Node V)}
    {post : VMap.Path → Option (Node V → Except ConvErr (Node V))} {store : LeafMeta → V → Except ConvErr (Option V)}
    (hc : ∀ p h x, Keeps (custom p h x)) (hp : ∀ p f, post p = some f → Keeps f) :
    Proper (cfgToNew d custom post store) ∧ Proper (cfgToOld d custom post store) := by
  have key : ∀ (l : List (VMap.Path × Option Handler)) q f x, (l.lookup q).map (changeOf (custom q)) = some (.custom f) →
      Keeps (f x) := by
    intro l q f x h
    cases hl : l.lookup q with
    | none => rw [hl] at h; cases h
    | some o =>
      rw [hl, Option.map_some, Option.some.injEq] at h
      cases o with
      | none =>
        simp only [changeOf, Change.custom.injEq] at h
        subst h
        exact ⟨fun _ _ _ _ h => (by cases h), fun _ _ h => (by cases h)⟩
      | some o => cases o <;> simp only [changeOf, Change.custom.injEq, reduceCtorEq] at h <;> subst h <;> exact hc _ _ _
  exact ⟨⟨key _, hp⟩, ⟨key _, hp⟩⟩

/-- The array `a` is called `b`, its element's `x` is called `xx`, the structure `s` became an array, `z` has another type
that is not supported, `n` is new. -/
def tripDicts : Dicts where
  version := 38
  same a b := a = b
  old := [vmField [['a']] tArray, vmField [['a'], ['x']] tFlt1, vmField [['s']] tStruct, vmField [['s'], ['y']] tFlt1,
    vmField [['z']] tFlt1]
  new := [vmField [['b']] tArray (vmRename ['a']), vmField [['b'], ['x', 'x']] tFlt1 (vmRename ['x']), vmField [['s']] tArray,
    vmField [['s'], ['y']] tFlt1, vmField [['z']] tStr, vmField [['n']] tFlt1]

def tripStr : LeafMeta := ⟨.str, 0, false⟩

def tripOld : MFields :=
  .cons ['a'] (.aos (.cons ['x'] (.leaf fltLeaf) .nil)) (.cons ['s'] (.struct (.cons ['y'] (.leaf fltLeaf) .nil))
    (.cons ['z'] (.leaf fltLeaf) .nil))

def tripNew : MFields :=
  .cons ['b'] (.aos (.cons ['x', 'x'] (.leaf fltLeaf) .nil)) (.cons ['s'] (.aos (.cons ['y'] (.leaf fltLeaf) .nil))
    (.cons ['z'] (.leaf tripStr) (.cons ['n'] (.leaf fltLeaf) .nil)))

theorem trip_given : Given tripDicts := given_of_check (by decide +kernel)

theorem trip_versions : Versions tripDicts tripOld tripNew where
  given := trip_given
  nested := (level_of_check trip_given.old trip_given.new (by decide +kernel)).nested trip_given
  announced := announced_of_check trip_given (by decide +kernel)
  kinds := by
    intro a b h
    have : a = b := by simpa [tripDicts] using h
    subst this
    exact ⟨Iff.rfl, Iff.rfl⟩
  old := shows_of_check (by decide +kernel)
  new := shows_of_check (by decide +kernel)
  namesOld := by simp [tripOld, WFMFields, WFMeta, mnames]
  namesNew := by simp [tripNew, WFMFields, WFMeta, mnames]

/-- No conversion functions are needed for these versions. -/
def noCustom (_ : VMap.Path) (_ : Handler) (_ _ : Node (Val Int)) : Except ConvErr (Node (Val Int)) := .error .kind

def tripToNew : Cfg (Val Int) := cfgToNew tripDicts noCustom (fun _ => none) (storeVal changeConv)
def tripToOld : Cfg (Val Int) := cfgToOld tripDicts noCustom (fun _ => none) (storeVal changeConv)

theorem trip_proper : Proper tripToNew ∧ Proper tripToOld :=
  proper_new (fun _ _ _ => ⟨fun _ _ _ _ h => (by cases h), fun _ _ h => (by cases h)⟩) (fun _ _ h => by cases h)

def tripData : Fields (Val Int) :=
  .present ['a'] (.aos (.cons ['x'] (.leaf fltLeaf) .nil)
    (.cons (.present ['x'] (fltNode 2) .nil) (.cons (.present ['x'] (fltNode 3) .nil) .nil)))
  (.present ['s'] (.struct (.present ['y'] (fltNode 4) .nil)) (.present ['z'] (fltNode 5) .nil))

def tripMoved : Fields (Val Int) :=
  .present ['b'] (.aos (.cons ['x', 'x'] (.leaf fltLeaf) .nil)
    (.cons (.present ['x', 'x'] (fltNode 2) .nil) (.cons (.present ['x', 'x'] (fltNode 3) .nil) .nil)))
  (.present ['s'] (.aos (.cons ['y'] (.leaf fltLeaf) .nil) (.cons (.present ['y'] (fltNode 4) .nil) .nil))
  (.absent ['z'] (.leaf tripStr) (.absent ['n'] (.leaf fltLeaf) .nil)))

def tripBack : Fields (Val Int) :=
  .present ['a'] (.aos (.cons ['x'] (.leaf fltLeaf) .nil)
    (.cons (.present ['x'] (fltNode 2) .nil) (.cons (.present ['x'] (fltNode 3) .nil) .nil)))
  (.present ['s'] (.struct (.present ['y'] (fltNode 4) .nil)) (.absent ['z'] (.leaf fltLeaf) .nil))

theorem trip_there : copyIds tripToNew tripData (Meta.struct tripNew).fresh = .ok (.struct tripMoved) := by
  with_unfolding_all rfl

theorem trip_back : copyIds tripToOld tripMoved (Meta.struct tripOld).fresh = .ok (.struct tripBack) := by
  with_unfolding_all rfl

theorem trip_typed : TypedF tripData tripOld := by
  simp [tripData, tripOld, TypedF, Typed, TypedE, fltNode]

theorem trip_typed' : TypedF tripMoved tripNew := by
  simp [tripMoved, tripNew, TypedF, Typed, TypedE, fltNode]

theorem claim_path {f o : Field} (h : Claim tripDicts f o) : f.path = [['b']] ∧ o.path = [['a']] ∨
    f.path = [['b'], ['x', 'x']] ∧ o.path = [['a'], ['x']] ∨ f.path = [['s']] ∧ o.path = [['s']] ∨
    f.path = [['s'], ['y']] ∧ o.path = [['s'], ['y']] ∨ f.path = [['z']] ∧ o.path = [['z']] := by
  have h1 := claim_claimB trip_given.old trip_given.new h
  have h2 : tripDicts.new.all (fun f => tripDicts.old.all fun o => !claimB tripDicts f o ||
    decide (f.path = [['b']] ∧ o.path = [['a']] ∨
    f.path = [['b'], ['x', 'x']] ∧ o.path = [['a'], ['x']] ∨ f.path = [['s']] ∧ o.path = [['s']] ∨
    f.path = [['s'], ['y']] ∧ o.path = [['s'], ['y']] ∨ f.path = [['z']] ∧ o.path = [['z']])) = true := by decide +kernel
  simp only [List.all_eq_true] at h2
  have h3 := h2 f h.1 o h.2.1
  rw [h1] at h3
  simpa using h3

theorem trip_unchanged {f o : Field} (h : Claim tripDicts f o) (hp : o.path ≠ [['s']]) (hz : o.path ≠ [['z']]) :
    ¬ Changed tripDicts f o := by
  intro hch
  have h1 := claim_claimB trip_given.old trip_given.new h
  have h2 := changed_changedB hch
  have h3 : tripDicts.new.all (fun f => tripDicts.old.all fun o => !(claimB tripDicts f o && changedB tripDicts f o) ||
    decide (o.path = [['s']]) || decide (o.path = [['z']])) = true := by decide +kernel
  simp only [List.all_eq_true] at h3
  have h4 := h3 f h.1 o h.2.1
  rw [h1, h2] at h4
  simp [hp, hz] at h4

theorem trip_a : Claim tripDicts (vmField [['b']] tArray (vmRename ['a'])) (vmField [['a']] tArray) :=
  (claim_iff trip_given.old trip_given.new (by simp [tripDicts]) (by simp [tripDicts])).2 (by decide +kernel)

theorem trip_x : Claim tripDicts (vmField [['b'], ['x', 'x']] tFlt1 (vmRename ['x'])) (vmField [['a'], ['x']] tFlt1) :=
  (claim_iff trip_given.old trip_given.new (by simp [tripDicts]) (by simp [tripDicts])).2 (by decide +kernel)

/-- The value in the second element of the renamed array. -/
theorem trip_place_x : Place tripDicts [(['a'], some 1), (['x'], none)] [(['b'], some 1), (['x', 'x'], none)] :=
  .step trip_a rfl rfl (.inl ⟨trip_unchanged trip_a (by simp [vmField]) (by simp [vmField]), rfl⟩) (.here trip_x rfl rfl)

theorem trip_place_a : Place tripDicts [(['a'], none)] [(['b'], none)] := .here trip_a rfl rfl

/-- The value in the structure that became an array. -/
theorem trip_place_y : Place tripDicts [(['s'], none), (['y'], none)] [(['s'], some 0), (['y'], none)] :=
  .step (f := vmField [['s']] tStruct) (o := vmField [['s']] tArray)
    ((claim_iff trip_given.old trip_given.new (by simp [tripDicts]) (by simp [tripDicts])).2 (by decide +kernel)) rfl rfl (.inr (.inl ⟨rfl, rfl, rfl, rfl⟩))
    (.here (f := vmField [['s'], ['y']] tFlt1) (o := vmField [['s'], ['y']] tFlt1)
      ((claim_iff trip_given.old trip_given.new (by simp [tripDicts]) (by simp [tripDicts])).2 (by decide +kernel)) rfl rfl)

theorem trip_kept_x : Kept tripDicts [(['a'], some 1), (['x'], none)] := fun _ _ hc hp =>
  trip_unchanged hc (by rw [hp]; simp [Convert.names]) (by rw [hp]; simp [Convert.names])
theorem trip_kept_a : Kept tripDicts [(['a'], none)] := fun _ _ hc hp =>
  trip_unchanged hc (by rw [hp]; simp [Convert.names]) (by rw [hp]; simp [Convert.names])
theorem trip_kept_y : Kept tripDicts [(['s'], none), (['y'], none)] := fun _ _ hc hp =>
  trip_unchanged hc (by rw [hp]; simp [Convert.names]) (by rw [hp]; simp [Convert.names])

/-- No array of these dictionaries became a structure. -/
theorem trip_single_old (c : Fields (Val Int)) (A : Addr) : SingleOld tripDicts c A := by
  rintro a n i r m e - - - ⟨f, o, hc, -, ht⟩
  exfalso
  have h3 : tripDicts.new.all (fun f => !decide (f.dtype = "structure".toList)) = true := by decide +kernel
  simp only [List.all_eq_true] at h3
  have := h3 f hc.1
  rw [ht] at this
  simp at this

/-- The array that was a structure has one element. -/
theorem trip_single_new (A : Addr) : SingleNew tripDicts tripMoved A := by
  rintro a n i r m e - - hx ⟨f, o, hc, hp, ht⟩
  have h3 : tripDicts.old.all (fun f => !decide (f.dtype = "structure".toList) || decide (f.path = [['s']])) = true := by
    decide +kernel
  simp only [List.all_eq_true] at h3
  have h4 := h3 o hc.2.1
  rw [ht] at h4
  simp only [decide_true, Bool.not_true, Bool.false_or, decide_eq_true_eq] at h4
  have h5 : f.path = [['s']] := by
    rcases claim_path hc with ⟨h, h'⟩ | ⟨h, h'⟩ | ⟨h, h'⟩ | ⟨h, h'⟩ | ⟨h, h'⟩
    all_goals first | exact h | (rw [h4] at h'; simp at h')
  rw [h5] at hp
  cases a with
  | cons c a => simp [Convert.names] at hp
  | nil =>
    simp [Convert.names] at hp
    subst hp
    have : (Node.struct tripMoved).at ([] ++ [(['s'], none)]) = some (.aos (.cons ['y'] (.leaf fltLeaf) .nil)
      (.cons (.present ['y'] (fltNode 4) .nil) .nil)) := by with_unfolding_all rfl
    rw [this] at hx
    cases hx
    rfl

/-- The hypotheses of the theorems are met. -/
example := C58_sent_new (custom := noCustom) (post := fun _ => none) (store := storeVal changeConv) trip_versions tripData
  trip_typed _ _ _ rfl (trip_single_old _ _) (place_not_left trip_versions trip_place_x) (fun _ _ hc hp => same_fits (trip_kept_x _ _ hc hp)) |>.2 trip_place_x

example := C58_value_new (custom := noCustom) (post := fun _ => none) (store := storeVal changeConv) trip_versions
  trip_proper.1 (fun _ h => absurd rfl h) tripData trip_typed _ trip_there _ _ (.arr .flt [1] [.flt 3])
  ⟨fltLeaf, rfl, by decide +kernel⟩ trip_place_x trip_kept_x (trip_single_old _ _)

example := C58_value_old (custom := noCustom) (post := fun _ => none) (store := storeVal changeConv) trip_versions
  trip_proper.2 (fun _ h => absurd rfl h) tripMoved trip_typed' _ trip_back _ _ (.arr .flt [1] [.flt 4])
  ⟨fltLeaf, rfl, by decide +kernel⟩ trip_place_y trip_kept_y (trip_single_new _)

example : SizeAt (.struct tripMoved) [(['b'], none)] 2 :=
  C58_size_new (custom := noCustom) (post := fun _ => none) (store := storeVal changeConv) trip_versions
  trip_proper.1 (fun _ h => absurd rfl h) tripData trip_typed _ trip_there _ _ 2
  ⟨_, _, rfl, rfl, by decide⟩ trip_place_a trip_kept_a (trip_single_old _ _)

example : SizeAt (.struct tripBack) [(['a'], none)] 2 :=
  C58_size_old (custom := noCustom) (post := fun _ => none) (store := storeVal changeConv) trip_versions
  trip_proper.2 (fun _ h => absurd rfl h) tripMoved trip_typed' _ trip_back _ _ 2
  ⟨_, _, rfl, rfl, by decide⟩ trip_place_a trip_kept_a (trip_single_new _)

example := C58_no_other_new (custom := noCustom) (post := fun _ => none) (store := storeVal changeConv) trip_versions
  trip_proper.1 (fun _ _ => rfl) tripData trip_typed _ trip_there [(['s'], some 0), (['y'], none)] (.arr .flt [1] [.flt 4])
  ⟨fltLeaf, rfl, by decide +kernel⟩

example := C58_no_other_old (custom := noCustom) (post := fun _ => none) (store := storeVal changeConv) trip_versions
  trip_proper.2 tripMoved trip_typed' _ trip_back [(['s'], none), (['y'], none)] (.arr .flt [1] [.flt 4])
  ⟨fltLeaf, rfl, by decide +kernel⟩

example : ValueAt (.struct tripMoved) [(['s'], some 0), (['y'], none)] (.arr .flt [1] [.flt 4]) ∧
    ValueAt (.struct tripBack) [(['s'], none), (['y'], none)] (.arr .flt [1] [.flt 4]) :=
  C58_round_trip_new changeConv trip_versions trip_proper.1 trip_proper.2 tripData tripMoved trip_typed _ trip_there trip_back
    _ _ _ fltLeaf fltLeaf rfl (by decide +kernel) trip_place_y trip_kept_y (trip_single_old _ _) rfl
    ⟨by decide +kernel, by simp [fltLeaf]⟩ ⟨by decide +kernel, by simp [fltLeaf]⟩

example := C58_sent_old (custom := noCustom) (post := fun _ => none) (store := storeVal changeConv) trip_versions tripMoved
  trip_typed' _ [(['s'], none), (['y'], none)] (fltNode 4) rfl (trip_single_new _) (fun f o hc hp => same_fits (trip_kept_y _ _ hc (by
    rcases claim_path hc with ⟨h, h'⟩ | ⟨h, h'⟩ | ⟨h, h'⟩ | ⟨h, h'⟩ | ⟨h, h'⟩ <;> rw [h] at hp <;>
      simp [Convert.names] at hp
    exact h'))) |>.2 trip_place_y

theorem trip_again : copyIds tripToNew tripBack (Meta.struct tripNew).fresh = .ok (.struct tripMoved) := by
  with_unfolding_all rfl

example : ValueAt (.struct tripBack) [(['s'], none), (['y'], none)] (.arr .flt [1] [.flt 4]) ∧
    ValueAt (.struct tripMoved) [(['s'], some 0), (['y'], none)] (.arr .flt [1] [.flt 4]) :=
  C58_round_trip_old changeConv trip_versions trip_proper.1 trip_proper.2 tripMoved tripBack trip_typed' _ trip_back trip_again
    _ _ _ fltLeaf fltLeaf rfl (by decide +kernel) trip_place_y trip_kept_y (trip_single_new _) rfl
    ⟨by decide +kernel, by simp [fltLeaf]⟩ ⟨by decide +kernel, by simp [fltLeaf]⟩

example := C58_reversible_new trip_versions trip_proper.1 trip_proper.2 (fun _ h => absurd rfl h) (fun _ h => absurd rfl h)
  tripData tripMoved trip_typed trip_there
example := C58_reversible_old trip_versions trip_proper.1 trip_proper.2 (fun _ h => absurd rfl h) (fun _ h => absurd rfl h)
  tripMoved tripBack trip_typed' trip_back

theorem trip_fits {f o : Field} (h : Claim tripDicts f o) {g : Handler} (hc : VMapSpec.Change o f g) : g = .structAos := by
  have h1 := claim_claimB trip_given.old trip_given.new h
  have h2 : tripDicts.new.all (fun f => tripDicts.old.all fun o => !claimB tripDicts f o ||
    decide (handlerFor o f = none ∨ handlerFor o f = some .structAos)) = true := by decide +kernel
  simp only [List.all_eq_true] at h2
  have h3 := h2 f h.1 o h.2.1
  rw [h1, handlerFor_some.2 hc] at h3
  simpa using h3

theorem trip_leaf {f o : Field} (h : Claim tripDicts f o) (hn : ¬ Changed tripDicts f o) :
    (∀ l, metaAt (.struct tripNew) f.path = some (.leaf l) → l = fltLeaf) ∧
    (∀ l, metaAt (.struct tripOld) o.path = some (.leaf l) → l = fltLeaf) := by
  constructor
  · intro l hl
    rcases claim_path h with ⟨e, e'⟩ | ⟨e, e'⟩ | ⟨e, e'⟩ | ⟨e, e'⟩ | ⟨e, e'⟩
    · rw [e] at hl; cases hl
    · rw [e] at hl; cases hl; rfl
    · rw [e] at hl; cases hl
    · rw [e] at hl; cases hl; rfl
    · exfalso
      refine hn (.inl ?_)
      have h2 : tripDicts.new.all (fun f => tripDicts.old.all fun o => !decide (f.path = [['z']] ∧ o.path = [['z']]) ||
        !tripDicts.same f.dtype o.dtype) = true := by decide +kernel
      simp only [List.all_eq_true] at h2
      simpa [e, e'] using h2 f h.1 o h.2.1
  · intro l hl
    rcases claim_path h with ⟨e, e'⟩ | ⟨e, e'⟩ | ⟨e, e'⟩ | ⟨e, e'⟩ | ⟨e, e'⟩ <;> rw [e'] at hl <;> cases hl <;> rfl

theorem trip_points {f : Field} (h : f ∈ tripDicts.new) : ¬ Annotated tripDicts f .repeatConditional ∧
    ¬ Annotated tripDicts f .centreline := by
  have h2 : tripDicts.new.all (fun f => match f.nbc with
    | none => true
    | some a => !decide (a.desc = .repeatConditional) && !decide (a.desc = .centreline)) = true := by decide +kernel
  simp only [List.all_eq_true] at h2
  have h3 := h2 f h
  constructor
  · rintro ⟨a, vs, e1, e2, -⟩
    rw [e1] at h3; simp [e2] at h3
  · rintro ⟨a, vs, e1, e2, -⟩
    rw [e1] at h3; simp [e2] at h3

mutual
/-- All values satisfy `P`. -/
def allN (P : LeafMeta → Val Int → Bool) : Node (Val Int) → Bool
  | .leaf l v => v.all (P l)
  | .struct c => allF P c
  | .aos _ e => allE P e
def allF (P : LeafMeta → Val Int → Bool) : Fields (Val Int) → Bool
  | .nil => true
  | .present _ x r => allN P x && allF P r
  | .absent _ _ r => allF P r
def allE (P : LeafMeta → Val Int → Bool) : Elems (Val Int) → Bool
  | .nil => true
  | .cons c r => allF P c && allE P r
end

theorem allF_fresh {P : LeafMeta → Val Int → Bool} : ∀ m : MFields, allF P m.fresh = true
  | .nil => rfl
  | .cons n x r => by simp only [MFields.fresh, allF]; exact allF_fresh r

theorem allN_fresh {P : LeafMeta → Val Int → Bool} (m : Meta) : allN P m.fresh = true := by
  cases m with
  | leaf l => rfl
  | aos m => rfl
  | struct m => simp only [Meta.fresh, allN]; exact allF_fresh m

theorem allF_get {P : LeafMeta → Val Int → Bool} {n : Name} {x : Node (Val Int)} : ∀ (c : Fields (Val Int)), allF P c = true →
    c.get? n = some x → allN P x = true
  | .nil, _, h => by simp [Fields.get?] at h
  | .present k y r, ha, h => by
    simp only [allF, Bool.and_eq_true] at ha
    simp only [Fields.get?] at h
    split at h
    · cases h; exact ha.1
    · exact allF_get r ha.2 h
  | .absent k m r, ha, h => by
    simp only [allF] at ha
    simp only [Fields.get?] at h
    split at h
    · cases h; exact allN_fresh m
    · exact allF_get r ha h

theorem allE_get {P : LeafMeta → Val Int → Bool} {c : Fields (Val Int)} : ∀ (e : Elems (Val Int)) (i : Nat), allE P e = true →
    e.get? i = some c → allF P c = true
  | .nil, _, _, h => by simp [Elems.get?] at h
  | .cons d r, 0, ha, h => by
    simp only [allE, Bool.and_eq_true] at ha
    simp only [Elems.get?, Option.some.injEq] at h
    exact h ▸ ha.1
  | .cons d r, i + 1, ha, h => by
    simp only [allE, Bool.and_eq_true] at ha
    exact allE_get r i ha.2 (by simpa only [Elems.get?] using h)

theorem allN_at {P : LeafMeta → Val Int → Bool} : ∀ (A : Addr) (x y : Node (Val Int)), allN P x = true → x.at A = some y → allN P y = true
  | [], x, y, ha, h => by cases h; exact ha
  | s :: A, x, y, ha, h => by
    simp only [Node.at, Option.bind_eq_some_iff] at h
    obtain ⟨z, h1, h2⟩ := h
    refine allN_at A z y ?_ h2
    obtain ⟨c, rfl, h⟩ := item_cases h1
    simp only [allN] at ha
    rcases h with h | ⟨j, m1, e, f, h1, h3, h4, h5⟩
    · exact allF_get c ha h.2
    · have := allF_get c ha h3
      simp only [allN] at this
      rw [h5]
      exact allE_get e j this h4

def isFlt1 : Val Int → Bool
  | .arr .flt [1] [.flt _] => true
  | _ => false

theorem flt_values {c : Fields (Val Int)} (hc : allF (fun _ => isFlt1) c = true) {A : Addr} {v : Val Int}
    (h : ValueAt (.struct c) A v) : ∃ k, v = .arr .flt [1] [.flt k] := by
  obtain ⟨l, h, -⟩ := h
  have := allN_at A _ _ (by simpa only [allN] using hc) h
  simp only [allN, Option.all_some] at this
  unfold isFlt1 at this
  split at this
  · exact ⟨_, rfl⟩
  · cases this

example : ∃ result, copyIds tripToNew tripData (Meta.struct tripNew).fresh = .ok result :=
  C58_succeeds_new (custom := noCustom) (post := fun _ => none) trip_versions trip_proper.1 (fun _ _ => rfl) tripData trip_typed
    (fun A v f o l hv hc _ hn hl => by
      rw [(trip_leaf hc hn).1 l hl]
      obtain ⟨k, rfl⟩ := flt_values (by decide +kernel) hv
      exact ⟨_, rfl⟩)
    (fun A x f o h m y _ _ hc _ hh hs => by
      rcases hh with ⟨-, hh⟩ | ⟨hh, -⟩ | ⟨hh, -⟩
      · exact absurd (trip_fits hc hh) hs
      · exact absurd hh (trip_points hc.1).1
      · exact absurd hh (trip_points hc.1).2)
    (fun _ _ _ _ _ _ _ _ _ _ _ h => by cases h)

example : ∃ result, copyIds tripToOld tripMoved (Meta.struct tripOld).fresh = .ok result :=
  C58_succeeds_old (custom := noCustom) (post := fun _ => none) trip_versions trip_proper.2 tripMoved trip_typed'
    (fun A v f o l hv hc _ hn hl => by
      rw [(trip_leaf hc hn).2 l hl]
      obtain ⟨k, rfl⟩ := flt_values (by decide +kernel) hv
      exact ⟨_, rfl⟩)
    (fun A x f o h m y _ _ hc _ hh hs => by
      rcases hh with ⟨-, hh⟩ | ⟨hh, -⟩ | ⟨hh, -⟩
      · exact absurd (trip_fits hc hh) hs
      · exact absurd hh (trip_points hc.1).1
      · exact absurd hh (trip_points hc.1).2)
    (fun _ _ _ _ _ _ _ _ _ _ _ h => by cases h)

/-! ### Nodes that moved out of structures that only the old version has -/

/-- `w/v/x` became `x`, and in the elements of the renamed array `a`, `p/y` became `y`. -/
def outDicts : Dicts where
  version := 38
  same a b := a = b
  old := [vmField [['w']] tStruct, vmField [['w'], ['v']] tStruct, vmField [['w'], ['v'], ['x']] tFlt1,
    vmField [['a']] tArray, vmField [['a'], ['p']] tStruct, vmField [['a'], ['p'], ['y']] tFlt1]
  new := [vmField [['x']] tFlt1 (some ⟨.renamed, some [40], [[['w'], ['v'], ['x']]]⟩),
    vmField [['b']] tArray (vmRename ['a']),
    vmField [['b'], ['y']] tFlt1 (some ⟨.renamed, some [40], [[['p'], ['y']]]⟩)]

def outOld : MFields :=
  .cons ['w'] (.struct (.cons ['v'] (.struct (.cons ['x'] (.leaf fltLeaf) .nil)) .nil))
    (.cons ['a'] (.aos (.cons ['p'] (.struct (.cons ['y'] (.leaf fltLeaf) .nil)) .nil)) .nil)

def outNew : MFields :=
  .cons ['x'] (.leaf fltLeaf) (.cons ['b'] (.aos (.cons ['y'] (.leaf fltLeaf) .nil)) .nil)

theorem out_given : Given outDicts := given_of_check (by decide +kernel)

theorem out_versions : Versions outDicts outOld outNew where
  given := out_given
  nested := nested_of_check out_given (by decide +kernel)
  announced := announced_of_check out_given (by decide +kernel)
  kinds := by
    intro a b h
    have : a = b := by simpa [outDicts] using h
    subst this
    exact ⟨Iff.rfl, Iff.rfl⟩
  old := shows_of_check (by decide +kernel)
  new := shows_of_check (by decide +kernel)
  namesOld := by simp [outOld, WFMFields, WFMeta, mnames]
  namesNew := by simp [outNew, WFMFields, WFMeta, mnames]

def outToNew : Cfg (Val Int) := cfgToNew outDicts noCustom (fun _ => none) (storeVal changeConv)
def outToOld : Cfg (Val Int) := cfgToOld outDicts noCustom (fun _ => none) (storeVal changeConv)

theorem out_proper : Proper outToNew ∧ Proper outToOld :=
  proper_new (fun _ _ _ => ⟨fun _ _ _ _ h => (by cases h), fun _ _ h => (by cases h)⟩) (fun _ _ h => by cases h)

def outData : Fields (Val Int) :=
  .present ['w'] (.struct (.present ['v'] (.struct (.present ['x'] (fltNode 2) .nil)) .nil))
    (.present ['a'] (.aos (.cons ['p'] (.struct (.cons ['y'] (.leaf fltLeaf) .nil)) .nil)
      (.cons (.present ['p'] (.struct (.present ['y'] (fltNode 3) .nil)) .nil)
        (.cons (.present ['p'] (.struct (.present ['y'] (fltNode 4) .nil)) .nil) .nil))) .nil)

def outMoved : Fields (Val Int) :=
  .present ['x'] (fltNode 2)
    (.present ['b'] (.aos (.cons ['y'] (.leaf fltLeaf) .nil)
      (.cons (.present ['y'] (fltNode 3) .nil) (.cons (.present ['y'] (fltNode 4) .nil) .nil))) .nil)

theorem out_there : copyIds outToNew outData (Meta.struct outNew).fresh = .ok (.struct outMoved) := by
  with_unfolding_all rfl

theorem out_back : copyIds outToOld outMoved (Meta.struct outOld).fresh = .ok (.struct outData) := by
  with_unfolding_all rfl

theorem out_typed : TypedF outData outOld := by simp [outData, outOld, TypedF, Typed, TypedE, fltNode]
theorem out_typed' : TypedF outMoved outNew := by simp [outMoved, outNew, TypedF, Typed, TypedE, fltNode]

theorem out_unchanged {f o : Field} (h : Claim outDicts f o) : ¬ Changed outDicts f o := by
  intro hch
  have h1 := claim_claimB out_given.old out_given.new h
  have h2 := changed_changedB hch
  have h3 : outDicts.new.all (fun f => outDicts.old.all fun o => !(claimB outDicts f o && changedB outDicts f o)) = true := by
    decide +kernel
  simp only [List.all_eq_true] at h3
  have h4 := h3 f h.1 o h.2.1
  rw [h1, h2] at h4
  cases h4

theorem out_kept (A : Addr) : Kept outDicts A := fun _ _ hc _ => out_unchanged hc

theorem out_claim {f o : Field} (hf : f ∈ outDicts.new) (ho : o ∈ outDicts.old) (h : claimB outDicts f o = true) :
    Claim outDicts f o := (claim_iff out_given.old out_given.new hf ho).2 h

theorem out_left {p : VMap.Path} (h : p = [['w']] ∨ p = [['w'], ['v']] ∨ p = [['a'], ['p']]) :
    ∃ g, Left outDicts g ∧ g.path = p := by
  have h0 : ∀ o ∈ outDicts.old, outDicts.new.all (fun f => !claimB outDicts f o) = true → ∀ f, ¬ Claim outDicts f o := by
    intro o ho h f hc
    have := List.all_eq_true.1 h f hc.1
    rw [claim_claimB out_given.old out_given.new hc] at this
    cases this
  have hx := out_claim (f := vmField [['x']] tFlt1 (some ⟨.renamed, some [40], [[['w'], ['v'], ['x']]]⟩))
    (o := vmField [['w'], ['v'], ['x']] tFlt1) (by simp [outDicts]) (by simp [outDicts]) (by decide +kernel)
  have hy := out_claim (f := vmField [['b'], ['y']] tFlt1 (some ⟨.renamed, some [40], [[['p'], ['y']]]⟩))
    (o := vmField [['a'], ['p'], ['y']] tFlt1) (by simp [outDicts]) (by simp [outDicts]) (by decide +kernel)
  rcases h with rfl | rfl | rfl
  · exact ⟨vmField [['w']] tStruct, ⟨by simp [outDicts], h0 _ (by simp [outDicts]) (by decide +kernel), _, _, hx, [['v'], ['x']],
      by simp, rfl⟩, rfl⟩
  · exact ⟨vmField [['w'], ['v']] tStruct, ⟨by simp [outDicts], h0 _ (by simp [outDicts]) (by decide +kernel), _, _, hx, [['x']],
      by simp, rfl⟩, rfl⟩
  · exact ⟨vmField [['a'], ['p']] tStruct, ⟨by simp [outDicts], h0 _ (by simp [outDicts]) (by decide +kernel), _, _, hy, [['y']],
      by simp, rfl⟩, rfl⟩

/-- The value that is in no structure any more. -/
theorem out_place_x : Place outDicts [(['w'], none), (['v'], none), (['x'], none)] [(['x'], none)] :=
  .outOf (out_left (.inl rfl)) (.outOf (out_left (.inr (.inl rfl)))
    (.here (o := vmField [['x']] tFlt1 (some ⟨.renamed, some [40], [[['w'], ['v'], ['x']]]⟩))
      (out_claim (o := vmField [['w'], ['v'], ['x']] tFlt1) (by simp [outDicts]) (by simp [outDicts]) (by decide +kernel)) rfl rfl))

/-- The value in the second element. -/
theorem out_place_y : Place outDicts [(['a'], some 1), (['p'], none), (['y'], none)] [(['b'], some 1), (['y'], none)] := by
  have hb := out_claim (f := vmField [['b']] tArray (vmRename ['a'])) (o := vmField [['a']] tArray)
    (by simp [outDicts]) (by simp [outDicts]) (by decide +kernel)
  exact .step hb rfl rfl (.inl ⟨out_unchanged hb, rfl⟩) (.outOf (out_left (.inr (.inr rfl)))
    (.here (o := vmField [['b'], ['y']] tFlt1 (some ⟨.renamed, some [40], [[['p'], ['y']]]⟩))
      (out_claim (o := vmField [['a'], ['p'], ['y']] tFlt1) (by simp [outDicts]) (by simp [outDicts]) (by decide +kernel)) rfl rfl))

theorem out_single_old (c : Fields (Val Int)) (A : Addr) : SingleOld outDicts c A := by
  rintro a n i r m e - - - ⟨f, o, hc, -, ht⟩
  exfalso
  have h3 : outDicts.new.all (fun f => !decide (f.dtype = "structure".toList)) = true := by decide +kernel
  simp only [List.all_eq_true] at h3
  have := h3 f hc.1
  rw [ht] at this
  simp at this

theorem out_single_new (c : Fields (Val Int)) (A : Addr) : SingleNew outDicts c A := by
  rintro a n i r m e - - - ⟨f, o, hc, -, ht⟩
  exfalso
  have h3 : outDicts.new.all (fun f => outDicts.old.all fun o => !(claimB outDicts f o && decide (o.dtype = "structure".toList))) = true := by
    decide +kernel
  simp only [List.all_eq_true] at h3
  have := h3 f hc.1 o hc.2.1
  rw [ht, claim_claimB out_given.old out_given.new hc] at this
  simp at this

example : ¬ levelB outDicts := by decide +kernel

example := C58_sent_new (custom := noCustom) (post := fun _ => none) (store := storeVal changeConv) out_versions outData
  out_typed _ _ _ rfl (out_single_old _ _) (place_not_left out_versions out_place_y)
  (fun _ _ hc _ => same_fits (out_unchanged hc)) |>.2 out_place_y

example := C58_sent_old (custom := noCustom) (post := fun _ => none) (store := storeVal changeConv) out_versions outMoved
  out_typed' _ _ _ rfl (out_single_new _ _) (fun _ _ hc _ => same_fits (out_unchanged hc)) |>.2 out_place_y

example := C58_value_new (custom := noCustom) (post := fun _ => none) (store := storeVal changeConv) out_versions
  out_proper.1 (fun _ h => absurd rfl h) outData out_typed _ out_there _ _ (.arr .flt [1] [.flt 2])
  ⟨fltLeaf, rfl, by decide +kernel⟩ out_place_x (out_kept _) (out_single_old _ _)

example := C58_value_old (custom := noCustom) (post := fun _ => none) (store := storeVal changeConv) out_versions
  out_proper.2 (fun _ h => absurd rfl h) outMoved out_typed' _ out_back _ _ (.arr .flt [1] [.flt 4])
  ⟨fltLeaf, rfl, by decide +kernel⟩ out_place_y (out_kept _) (out_single_new _ _)

example := C58_no_other_new (custom := noCustom) (post := fun _ => none) (store := storeVal changeConv) out_versions
  out_proper.1 (fun _ _ => rfl) outData out_typed _ out_there [(['x'], none)] (.arr .flt [1] [.flt 2])
  ⟨fltLeaf, rfl, by decide +kernel⟩

example : ValueAt (.struct outMoved) [(['b'], some 1), (['y'], none)] (.arr .flt [1] [.flt 4]) ∧
    ValueAt (.struct outData) [(['a'], some 1), (['p'], none), (['y'], none)] (.arr .flt [1] [.flt 4]) :=
  C58_round_trip_new changeConv out_versions out_proper.1 out_proper.2 outData outMoved out_typed _ out_there out_back
    _ _ _ fltLeaf fltLeaf rfl (by decide +kernel) out_place_y (out_kept _) (out_single_old _ _) (by with_unfolding_all rfl)
    ⟨by decide +kernel, by simp [fltLeaf]⟩ ⟨by decide +kernel, by simp [fltLeaf]⟩

theorem out_leaf {f o : Field} (h : Claim outDicts f o) : (∀ l, metaAt (.struct outNew) f.path = some (.leaf l) → l = fltLeaf) ∧
    ∀ l, metaAt (.struct outOld) o.path = some (.leaf l) → l = fltLeaf := by
  have h1 : outDicts.new.all (fun f => match metaAt (.struct outNew) f.path with
    | some (.leaf l) => decide (l = fltLeaf)
    | _ => true) = true := by decide +kernel
  have h2 : outDicts.old.all (fun f => match metaAt (.struct outOld) f.path with
    | some (.leaf l) => decide (l = fltLeaf)
    | _ => true) = true := by decide +kernel
  rw [List.all_eq_true] at h1 h2
  constructor
  · intro l hl
    have := h1 f h.1
    rw [hl] at this
    exact of_decide_eq_true this
  · intro l hl
    have := h2 o h.2.1
    rw [hl] at this
    exact of_decide_eq_true this

theorem out_same {f o : Field} (h : Claim outDicts f o) : outDicts.same f.dtype o.dtype = true := by
  cases hs : outDicts.same f.dtype o.dtype with
  | true => rfl
  | false => exact absurd (.inl hs) (out_unchanged h)

example : ∃ result, copyIds outToNew outData (Meta.struct outNew).fresh = .ok result :=
  C58_succeeds_new (custom := noCustom) (post := fun _ => none) out_versions out_proper.1 (fun _ _ => rfl) outData out_typed
    (fun A v f o l hv hc _ hn hl => by
      rw [(out_leaf hc).1 l hl]
      obtain ⟨k, rfl⟩ := flt_values (by decide +kernel) hv
      exact ⟨_, rfl⟩)
    (fun A x f o h m y _ _ hc _ hh hs => by
      exfalso
      rcases hh with ⟨hh, -⟩ | ⟨hh, -⟩ | ⟨hh, -⟩
      · rw [out_same hc] at hh; cases hh
      · exact out_unchanged hc (.inr (.inl hh))
      · exact out_unchanged hc (.inr (.inr hh)))
    (fun _ _ _ _ _ _ _ _ _ _ _ h => by cases h)

/-! ### Limits -/

/-- A structure in a renamed structure became an array of structures, without annotation of its own. -/
def innerDicts : Dicts where
  version := 38
  same a b := a = b
  old := [vmField [['a']] tStruct, vmField [['a'], ['s']] tStruct, vmField [['a'], ['s'], ['y']] tFlt1]
  new := [vmField [['b']] tStruct (vmRename ['a']), vmField [['b'], ['s']] tArray, vmField [['b'], ['s'], ['y']] tFlt1]

def innerNew : MFields := .cons ['b'] (.struct (.cons ['s'] (.aos (.cons ['y'] (.leaf fltLeaf) .nil)) .nil)) .nil

def innerData : Fields (Val Int) :=
  .present ['a'] (.struct (.present ['s'] (.struct (.present ['y'] (fltNode 4) .nil)) .nil)) .nil

def innerOld : MFields := .cons ['a'] (.struct (.cons ['s'] (.struct (.cons ['y'] (.leaf fltLeaf) .nil)) .nil)) .nil

/-- **C58, limit.** Changes of type in renamed structures are not recorded: converting such an IDS raises an error, although
this change of type is supported and `b/s` is identified with `a/s`. -/
theorem C58_inner_limit : Given innerDicts ∧ TypedF innerData innerOld ∧ Shows innerDicts.old innerOld ∧
    Shows innerDicts.new innerNew ∧
    Fits innerDicts (vmField [['a'], ['s']] tStruct) (vmField [['b'], ['s']] tArray) ∧
    (match copyIds (cfgToNew innerDicts noCustom (fun _ => none) (storeVal changeConv)) innerData
      (Meta.struct innerNew).fresh with
      | .error _ => true
      | .ok _ => false) = true := by
  refine ⟨given_of_check (by decide +kernel), by simp [innerData, innerOld, TypedF, Typed, fltNode],
    shows_of_check (by decide +kernel), shows_of_check (by decide +kernel), .inr ⟨_, .structAos (.inl ⟨rfl, rfl⟩)⟩, ?_⟩
  with_unfolding_all rfl

end Verif.Props
