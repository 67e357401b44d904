import Verif.Lemmas.ConvertRuled
import Verif.Lemmas.ConvertOff
import Verif.Props.ConvertVersion
/-
C73: conversions between major versions 3 and 4 move names to descriptions and identifiers to names.
-/
set_option linter.unusedSectionVars false
namespace Verif.Props
open Verif.Ids Verif.TreeSpec Verif.DiffSpec Verif.Convert Verif.ConvertSpec
open Verif.VMap hiding Path Nbc metaAt_append
open Verif.VMapSpec hiding OneToOne
open Verif.Convert.Ruled

section
variable {V : Type} [Value V] {d : Dicts} {oldM newM : MFields} {provenance : Node V → Node V → Except ConvErr (Node V)}
  {custom custom' : VMap.Path → Handler → Node V → Node V → Except ConvErr (Node V)}
  {post post' : VMap.Path → Option (Node V → Except ConvErr (Node V))}
  {store store' : LeafMeta → V → Except ConvErr (Option V)}

/-- The map without the rule for the source. -/
def cfgNames (d : Dicts) (custom : VMap.Path → Handler → Node V → Node V → Except ConvErr (Node V))
    (post : VMap.Path → Option (Node V → Except ConvErr (Node V)))
    (store : LeafMeta → V → Except ConvErr (Option V)) : Cfg V :=
  cfgOf (names3 d).toNew (buildMap d).changeNew custom post store

theorem cfg3_off (W : Versions d oldM newM) (T : Silent d) :
    Off.Is (cfg3ToNew d provenance custom post store) (cfgNames d custom post store) wSource wProvenance where
  ne := by simp [wSource]
  path q hq := by
    show (map3 d).toNew.lookup q = (names3 d).toNew.lookup q
    rw [map3_new W.given W.nested T, if_neg (show q ≠ nSource from hq)]
  change q hq := by
    show (if q = nSource then _ else ((map3 d).changeNew.lookup q).map _) = ((buildMap d).changeNew.lookup q).map _
    rw [if_neg (show q ≠ nSource from hq), (map3_change d).1]
  post := rfl
  there := by
    show (map3 d).toNew.lookup wSource = _
    rw [map3_new W.given W.nested T, if_pos (show wSource = nSource from rfl)]
    rfl
  custom := by
    refine ⟨provenance, ?_⟩
    simp only [cfg3ToNew]
    exact if_pos rfl

/-! ### Changes of the fields that changed places -/

theorem identifier_change (G : Given d) (T : Silent d) {g : VMap.Path} (h : Described d g) :
    (buildMap d).changeNew.lookup (g ++ [wIdentifier]) = none := by
  obtain ⟨ops, tops, I, K⟩ := inv_renames G
  have e1 : (buildMap d).changeNew = (renames d).changeNew := rfl
  rw [e1, I.is.changeNew]
  refine lookup_none.2 fun t ht e => ?_
  obtain ⟨f, -, -, -, h6, -⟩ := I.tok t ht
  obtain ⟨o, ho, e'⟩ := h.identifier
  exact (T.removed g h f o (h6 o ho (e'.trans e.symm))).1 e'

theorem description_change (G : Given d) (T : Silent d) {g : VMap.Path} (h : Described d g) :
    (buildMap d).changeOld.lookup (g ++ [wDescription]) = none := by
  obtain ⟨ops, tops, I, K⟩ := inv_renames G
  have e1 : (buildMap d).changeOld = (renames d).changeOld := rfl
  rw [e1, I.is.changeOld]
  refine lookup_none.2 fun t ht e => ?_
  obtain ⟨f, hf, h1, hs, -⟩ := I.tok t ht
  obtain ⟨o, ho, e'⟩ := h.name
  have hn := T.same g h f hf o ho (.inl ⟨h1.trans e, e'⟩)
  rcases hs with ⟨o', -, hc, -⟩ | ⟨ha, -⟩ | ⟨ha, -⟩
  · exact (T.removed g h f o' hc).2 (h1.trans e)
  · exact hn (.inr (.inl ha))
  · exact hn (.inr (.inr ha))

theorem name_change (W : Versions d oldM newM) (T : Silent d) {g : VMap.Path} (h : Described d g) :
    (buildMap d).changeNew.lookup (g ++ [wName]) = none ∧ (buildMap d).changeOld.lookup (g ++ [wName]) = none := by
  obtain ⟨f, o, hc, h1, h2⟩ := name_claim W.nested h
  have hnc := (T.kept g h f o hc h1 h2).2
  have hn := fits_open W.given hc (same_fits hnc)
  exact ⟨h2 ▸ (W.changed_new hc hn).2 hnc, h1 ▸ (change_none W.given W.announced hc hn).2 hnc⟩

/-- Identified fields, apart from names of described structures; or fields that changed places. -/
theorem means_cases (W : Versions d oldM newM) (T : Silent d) {f o : Field} (h : Means d f o) :
    (Claim d f o ∧ (∀ g, Described d g → o.path ≠ g ++ [wName] ∧ o.path ≠ g ++ [wIdentifier]) ∧
      ∀ g, Described d g → f.path ≠ g ++ [wName] ∧ f.path ≠ g ++ [wDescription]) ∨
    (¬ Changed d f o ∧ ¬ Container f.dtype ∧ ¬ Container o.dtype ∧
      (names3 d).toNew.lookup o.path = some (some f.path) ∧ (names3 d).toOld.lookup f.path = some (some o.path) ∧
      (buildMap d).changeNew.lookup o.path = none ∧ (buildMap d).changeOld.lookup f.path = none) := by
  have kn := ok_new W.given W.nested T
  have ko := ok_old W.given W.nested T
  by_cases hs : ∃ g, Described d g ∧ f ∈ d.new ∧ o ∈ d.old ∧
    ((f.path = g ++ [wDescription] ∧ o.path = g ++ [wName]) ∨ (f.path = g ++ [wName] ∧ o.path = g ++ [wIdentifier]))
  · right
    obtain ⟨g, hg, hf, ho, h'⟩ := hs
    refine ⟨T.same g hg f hf o ho h', ?_⟩
    rcases h' with ⟨h1, h2⟩ | ⟨h1, h2⟩
    · refine ⟨T.dataNew g hg f hf (.inr h1), T.dataOld g hg o ho (.inl h2), ?_⟩
      rw [h1, h2]
      exact ⟨kn.mc g hg, ko.mx g hg, (name_change W T hg).1, description_change W.given T hg⟩
    · refine ⟨T.dataNew g hg f hf (.inl h1), T.dataOld g hg o ho (.inr h2), ?_⟩
      rw [h1, h2]
      exact ⟨kn.mx g hg, ko.mc g hg, identifier_change W.given T hg, (name_change W T hg).2⟩
  · left
    rcases h with ⟨hc, hn⟩ | h
    · refine ⟨hc, fun g hg => ⟨fun e => ?_, (T.removed g hg f o hc).1⟩, fun g hg => ⟨fun e => ?_, (T.removed g hg f o hc).2⟩⟩
      · exact hn ⟨g, hg, (Swap.common_one (route_new W.given W.nested) kn hg hc).1 e, e⟩
      · exact hn ⟨g, hg, e, (Swap.common_one (route_old W.given W.nested) ko hg hc).1 e⟩
    · exact absurd h hs

theorem enters_data {f o : Field} (h1 : ¬ Container f.dtype) (h2 : ¬ Container o.dtype) {i j : Option Nat}
    (h : Enters d o f i j) : i = j := by
  rcases h with ⟨-, e⟩ | ⟨e, -⟩ | ⟨e, -⟩
  · exact e
  · exact absurd (.inl e) h2
  · exact absurd (.inr e) h2

theorem leg3_new (W : Versions d oldM newM) (T : Silent d) :
    Leg d.old d.new (fun o f => Means d f o) (LeftAt d) (fun _ => False) (Enters d) oldM newM
      (cfgNames d custom post store) where
  route := route3_new W.given W.nested T
  still a ha := by simp [cfgNames, cfgOf, (left_open W.given ha).2]
  showsA := W.old
  showsB := W.new
  enter o f i j hm h := by
    rcases means_cases W T hm with ⟨hc, h1, -⟩ | ⟨h1, h2, h3, h4, -, h5, -⟩
    · have := (leg_new (custom := custom) (post := post) (store := store) W).enter o f i j hc h
      refine ⟨?_, this.2⟩
      show (names3 d).toNew.lookup o.path ≠ _
      rw [(ok_new W.given W.nested T).other _ h1]
      exact this.1
    · refine ⟨?_, .inl ⟨?_, enters_data h2 h3 h⟩⟩
      · show (names3 d).toNew.lookup o.path ≠ _
        rw [h4]; simp
      · show ((buildMap d).changeNew.lookup o.path).map _ = none
        rw [h5]; rfl
  entered o f i j hm hn hcarry hi := by
    rcases means_cases W T hm with ⟨hc, h1, -⟩ | ⟨h1, h2, h3, h4, -, h5, -⟩
    · refine (leg_new (custom := custom) (post := post) (store := store) W).entered o f i j hc ?_ hcarry hi
      have hn : (names3 d).toNew.lookup o.path ≠ some none := hn
      rw [(ok_new W.given W.nested T).other _ h1] at hn
      exact hn
    · have hch : (cfgNames d custom post store).change o.path = none := by
        show ((buildMap d).changeNew.lookup o.path).map _ = none
        rw [h5]; rfl
      rcases hcarry with ⟨-, e⟩ | ⟨h6, -⟩
      · exact .inl ⟨h1, e⟩
      · rw [hch] at h6; cases h6

theorem leg3_old (W : Versions d oldM newM) (T : Silent d) :
    Leg d.new d.old (Means d) (fun _ => False) (LeftAt d) (fun f o j i => Enters d o f i j) newM oldM
      (cfg3ToOld d custom post store) where
  route := by
    have : (cfg3ToOld d custom post store).path = fun p => (names3 d).toOld.lookup p := by
      funext p; exact map3_old W.given W.nested T p
    rw [this]
    exact route3_old W.given W.nested T
  still _ h := h.elim
  showsA := W.new
  showsB := W.old
  enter f o j i hm h := by
    rcases means_cases W T hm with ⟨hc, -, h1⟩ | ⟨h1, h2, h3, -, h4, -, h5⟩
    · have := (leg_old (custom := custom) (post := post) (store := store) W).enter f o j i hc h
      refine ⟨?_, ?_⟩
      · show (map3 d).toOld.lookup f.path ≠ _
        rw [map3_old W.given W.nested T, (ok_old W.given W.nested T).other _ h1]
        exact this.1
      · have h2 := this.2
        unfold Carry at h2 ⊢
        have e : (cfg3ToOld d custom post store).change = (cfgToOld d custom post store).change := by
          simp only [cfg3ToOld, cfgToOld, cfgOf, (map3_change d).2]
        rw [e]
        exact h2
    · refine ⟨?_, .inl ⟨?_, (enters_data h2 h3 h).symm⟩⟩
      · show (map3 d).toOld.lookup f.path ≠ _
        rw [map3_old W.given W.nested T, h4]; simp
      · show ((map3 d).changeOld.lookup f.path).map _ = none
        rw [(map3_change d).2, h5]; rfl
  entered f o j i hm hn hcarry hi := by
    have e : (cfg3ToOld d custom post store).change = (cfgToOld d custom post store).change := by
      simp only [cfg3ToOld, cfgToOld, cfgOf, (map3_change d).2]
    rcases means_cases W T hm with ⟨hc, -, h1⟩ | ⟨h1, h2, h3, -, h4, -, h5⟩
    · unfold Carry at hcarry
      rw [e] at hcarry hi
      refine (leg_old (custom := custom) (post := post) (store := store) W).entered f o j i hc ?_ hcarry hi
      have hn : (map3 d).toOld.lookup f.path ≠ some none := hn
      rw [map3_old W.given W.nested T, (ok_old W.given W.nested T).other _ h1] at hn
      exact hn
    · have hch : (cfg3ToOld d custom post store).change f.path = none := by
        show ((map3 d).changeOld.lookup f.path).map _ = none
        rw [(map3_change d).2, h5]; rfl
      rcases hcarry with ⟨-, e⟩ | ⟨h6, -⟩
      · exact .inl ⟨h1, e.symm⟩
      · rw [hch] at h6; cases h6

/-! ### Single elements and ends -/

theorem single3_new (W : Versions d oldM newM) (T : Silent d) {source : Fields V} (ht : TypedF source oldM) {a b : Addr}
    (hpl : Place34 d a b) (hs : SingleOld d source a) : ∀ a1 n i r w e, a = a1 ++ (n, some i) :: r → r ≠ [] →
      (Node.struct source).at (a1 ++ [(n, none)]) = some (.aos w e) →
      (cfgNames d custom post store).change (Convert.names a1 ++ [n]) = some .structAos → e.length = 1 := by
  intro a1 n i r w e ha hr hx hch
  refine hs a1 n i r w e ha hr hx ?_
  obtain ⟨o, f, hm, hp⟩ := carried_claim hpl a1 n i r ha
  rw [List.nil_append] at hp
  have h1 := changeOf_aos hch
  rw [← hp] at h1
  rcases means_cases W T hm with ⟨hc, -⟩ | ⟨-, -, -, -, -, h2, -⟩
  · refine ⟨f, o, hc, hp, ?_⟩
    rcases change_array W.given hc ((W.array_new hc).1 h1) with ⟨h2, -⟩ | ⟨-, h2⟩
    · have := aos_kind W.old W.given.old.once ht hx hc.2.1 hp
      rw [h2] at this; simp at this
    · exact h2
  · rw [h2] at h1; cases h1

theorem single3_old (W : Versions d oldM newM) (T : Silent d) {source : Fields V} (ht : TypedF source newM) {a b : Addr}
    (hpl : Place34 d b a) (hs : SingleNew d source a) : ∀ a1 n i r w e, a = a1 ++ (n, some i) :: r → r ≠ [] →
      (Node.struct source).at (a1 ++ [(n, none)]) = some (.aos w e) →
      (cfg3ToOld d custom post store).change (Convert.names a1 ++ [n]) = some .structAos → e.length = 1 := by
  intro a1 n i r w e ha hr hx hch
  refine hs a1 n i r w e ha hr hx ?_
  obtain ⟨f, o, hm, hp⟩ := carried_claim (carried_flip hpl) a1 n i r ha
  rw [List.nil_append] at hp
  have h1 := changeOf_aos hch
  rw [← hp, (map3_change d).2] at h1
  rcases means_cases W T hm with ⟨hc, -⟩ | ⟨-, -, -, -, -, -, h2⟩
  · refine ⟨f, o, hc, hp, ?_⟩
    rcases change_array W.given hc h1 with ⟨h2, -⟩ | ⟨-, h2⟩
    · exact h2
    · have := aos_kind W.new W.given.new.once ht hx hc.1 hp
      rw [h2] at this; simp at this
  · rw [h2] at h1; cases h1

theorem open3 (W : Versions d oldM newM) (T : Silent d) {f o : Field} (hm : Means d f o) (h : Fits d o f) :
    (names3 d).toNew.lookup o.path ≠ some none ∧ (names3 d).toOld.lookup f.path ≠ some none := by
  rcases means_cases W T hm with ⟨hc, h1, h2⟩ | ⟨-, -, -, h1, h2, -⟩
  · have ho := fits_open W.given hc h
    have hn : (buildMap d).toNew.lookup o.path ≠ some none := fun e => ho ((nothing_both W.given hc).2 e)
    have e1 := (ok_new W.given W.nested T).other _ h1
    have e2 := (ok_old W.given W.nested T).other _ h2
    rw [e1, e2]
    exact ⟨hn, ho⟩
  · rw [h1, h2]; simp

theorem changed3 (W : Versions d oldM newM) (T : Silent d) {f o : Field} (hm : Means d f o)
    (hn : (names3 d).toNew.lookup o.path ≠ some none ∨ (names3 d).toOld.lookup f.path ≠ some none) :
    ((buildMap d).changeNew.lookup o.path = none ↔ ¬ Changed d f o) ∧
    ((buildMap d).changeOld.lookup f.path = none ↔ ¬ Changed d f o) := by
  rcases means_cases W T hm with ⟨hc, h1, h2⟩ | ⟨h1, -, -, -, -, h2, h3⟩
  · have hn' : (buildMap d).toOld.lookup f.path ≠ some none := by
      have e1 := (ok_new W.given W.nested T).other _ h1
      have e2 := (ok_old W.given W.nested T).other _ h2
      rcases hn with hn | hn
      · rw [e1] at hn
        exact fun e => hn ((nothing_both W.given hc).1 e)
      · rwa [e2] at hn
    exact ⟨W.changed_new hc hn', change_none W.given W.announced hc hn'⟩
  · simp [h1, h2, h3]

/-- Fields with a meaning in the new version are not the source. -/
theorem means_source (W : Versions d oldM newM) (S : NoSource d) {f o : Field} (h : Means d f o) : ¬ wSource <+: o.path := by
  rcases h with ⟨hc, -⟩ | ⟨g, hg, -, -, h⟩
  · exact S f o hc
  · obtain ⟨f', o', hc, -, e⟩ := name_claim W.nested hg
    have h1 := S f' o' hc
    rw [e] at h1
    rcases h with ⟨-, h⟩ | ⟨-, h⟩
    · rw [h]; exact h1
    · rw [h]
      intro hp
      rcases List.prefix_concat_iff.1 hp with hp | hp
      · exact not_source g (.inr (.inl rfl)) hp.symm
      · exact h1 (hp.trans (List.prefix_append _ _))

/-- Places with a meaning in the new version are not those of structures that were left. -/
theorem place3_not_left (W : Versions d oldM newM) (T : Silent d) {A B : Addr} (h : Place34 d A B) :
    ∀ g, Left d g → g.path ≠ Convert.names A := by
  intro g hg e
  obtain ⟨a1, n, b1, k, -, -, o, f, hm, hp, -⟩ := carried_last h
  rw [List.nil_append] at hp
  exact ((route3_new W.given W.nested T).left _ ⟨g, hg, e⟩).2.2 o f hm hp

theorem place3_source (W : Versions d oldM newM) (S : NoSource d) {A B : Addr} (h : Place34 d A B) :
    ¬ wSource <+: Convert.names A := by
  obtain ⟨a1, n, b1, k, -, -, o, f, hm, hp, -⟩ := carried_last h
  rw [List.nil_append] at hp
  rw [← hp]
  exact means_source W S hm

/-! ### What is sent where -/

/-- **C73.** When converting from version 3 to version 4, a node goes to the place with the same meaning: names of described
structures to descriptions, identifiers to names, everything else as the dictionaries say. -/
theorem C73_sent_new (W : Versions d oldM newM) (T : Silent d) (S : NoSource d) (source : Fields V)
    (ht : TypedF source oldM) (A B : Addr) (x : Node V) (hx : (Node.struct source).at A = some x) (hs : Convert.names A ≠ wSource)
    (hone : SingleOld d source A) (hA : ∀ g, Left d g → g.path ≠ Convert.names A)
    (hfit : ∀ f o, Means d f o → o.path = Convert.names A → Fits d o f) :
    Sent (cfg3ToNew d provenance custom post store) (.struct newM) [] [] source A B ↔ Place34 d A B := by
  constructor
  · intro h
    rcases (cfg3_off W T).sent_root h with ⟨h1, -⟩ | e
    · rcases ((leg3_new W T).carried ht h1).1 with h | ⟨g, hg, e⟩
      · exact h
      · exact absurd e (hA g hg)
    · exact absurd e hs
  · intro h
    refine (cfg3_off W T).back ?_ (by rw [List.nil_append]; exact place3_source W S h)
    exact (leg3_new W T).sent h hx (fun o f hm hp => (open3 W T hm (hfit f o hm hp)).1) (single3_new W T ht h hone)

/-- **C73.** When converting from version 3 to version 4, the source goes nowhere else than to the provenance. (C28 is about what
the provenance becomes.) -/
theorem C73_source (W : Versions d oldM newM) (T : Silent d) (source : Fields V) (A B : Addr)
    (hs : Convert.names A = wSource)
    (h : Sent (cfg3ToNew d provenance custom post store) (.struct newM) [] [] source A B) : Convert.names B = wProvenance :=
  (cfg3_off W T).target h hs

/-- **C73.** The same for converting from version 4 to version 3: descriptions go to names, names to identifiers. -/
theorem C73_sent_old (W : Versions d oldM newM) (T : Silent d) (source : Fields V) (ht : TypedF source newM) (A B : Addr)
    (x : Node V) (hx : (Node.struct source).at A = some x) (hone : SingleNew d source A)
    (hfit : ∀ f o, Means d f o → f.path = Convert.names A → Fits d o f) :
    Sent (cfg3ToOld d custom post store) (.struct oldM) [] [] source A B ↔ Place34 d B A := by
  constructor
  · intro h
    rcases ((leg3_old W T).carried ht h).1 with h | h
    · exact carried_flip h
    · exact h.elim
  · intro h
    refine (leg3_old W T).sent (carried_flip h) hx (fun f o hm hp => ?_) (single3_old W T ht h hone)
    show (map3 d).toOld.lookup f.path ≠ _
    rw [map3_old W.given W.nested T]
    exact (open3 W T hm (hfit f o hm hp)).2

/-! ### Values and sizes -/

theorem acts_value {cx : Cfg V} {q : List Name} {x : Node V} (h : Acts cx q x) : x.hasValue = true := by
  rcases h with h | h
  · cases x with
    | leaf l v =>
      cases v with
      | none => exact h.elim
      | some v =>
        have h : Value.isEmpty v = false := h
        simp [Node.hasValue, leafHasValue, h]
    | struct c => exact h.elim
    | aos m e =>
      have h : e.length ≠ 0 := h
      simp only [Node.hasValue]
      simp
      omega
  · exact h.1

theorem alone3 (W : Versions d oldM newM) (T : Silent d) {source : Fields V} {A B : Addr}
    (ha : Alone (cfgNames d custom post store) (.struct newM) source A B) (hu : Untouched source B) :
    Alone (cfg3ToNew d provenance custom post store) (.struct newM) source A B := by
  refine (cfg3_off W T).alone ha ?_
  rcases hu with hu | hu
  · exact .inl fun A' x e hx hacts => hu ⟨A', x, e, hx, acts_value hacts⟩
  · exact .inr hu

theorem change3_new (W : Versions d oldM newM) (T : Silent d) (S : NoSource d) {A B : Addr} (hpl : Place34 d A B)
    (hk : Kept34 d A) : (cfg3ToNew d provenance custom post store).change (Convert.names A) = none ∧
      (cfgNames d custom post store).change (Convert.names A) = none := by
  obtain ⟨a1, n, b1, k, -, -, o, f, hm, hp, -⟩ := carried_last hpl
  rw [List.nil_append] at hp
  have hnc := hk f o hm hp
  have h1 : (cfgNames d custom post store).change (Convert.names A) = none := by
    have := (changed3 W T hm (.inl (open3 W T hm (same_fits hnc)).1)).1.2 hnc
    rw [hp] at this
    simp only [cfgNames, cfgOf]
    rw [this]
    rfl
  refine ⟨?_, h1⟩
  rw [(cfg3_off W T).change _ (fun e => place3_source W S hpl (e ▸ List.prefix_rfl)), h1]

theorem leafPost3 (h : LeafPost (cfg3ToNew d provenance custom post store) oldM) :
    LeafPost (cfgNames d custom post store) oldM := h

/-- **C73, values.** After converting an IDS from version 3 to version 4, each value whose own field did not change is found
at the place with the same meaning: the name of a described structure as its description, the identifier as its name. -/
theorem C73_value_new (W : Versions d oldM newM) (T : Silent d) (S : NoSource d)
    (hpr : Proper (cfg3ToNew d provenance custom post store))
    (hpo : LeafPost (cfg3ToNew d provenance custom post store) oldM) (source : Fields V) (ht : TypedF source oldM) (result : Node V)
    (h : copyIds (cfg3ToNew d provenance custom post store) source (Meta.struct newM).fresh = .ok result)
    (A B : Addr) (v : V) (hv : ValueAt (.struct source) A v) (hpl : Place34 d A B) (hk : Kept34 d A)
    (hone : SingleOld d source A) (hu : Untouched source B) :
    ∃ l w, metaAt (.struct newM) (Convert.names B) = some (.leaf l) ∧ store l v = .ok w ∧
      ∃ y, result.at B = some y ∧
        match post (Convert.names A) with
        | none => y = .leaf l w
        | some f => f (.leaf l w) = .ok y := by
  obtain ⟨l0, hx, hne⟩ := id hv
  have hfit : ∀ f o, Means d f o → o.path = Convert.names A → Fits d o f := fun f o hm hp => same_fits (hk f o hm hp)
  have hs := (C73_sent_new (provenance := provenance) (custom := custom) (post := post) (store := store) W T S source ht A B _ hx
    (fun e => place3_source W S hpl (e ▸ List.prefix_rfl)) hone (place3_not_left W T hpl) hfit).2 hpl
  have hs0 : Sent (cfgNames d custom post store) (.struct newM) [] [] source A B :=
    (leg3_new W T).sent hpl hx (fun o f hm hp => (open3 W T hm (hfit f o hm hp)).1) (single3_new W T ht hpl hone)
  obtain ⟨a1, n, b1, k, e1, -, -⟩ := carried_last hpl
  exact C22_value_moved _ hpr _ source (wfOf ht W.namesOld) _ result (typed_fresh _) h A B v hv hs (change3_new W T S hpl hk).1
    (alone3 W T (alone_of_oneToOne ((leg3_new W T).one ((leg3_new W T).quiet (leafPost3 hpo))) (by simpa only [Typed] using ht) hs0 hx
      (by simp [Writes])) hu)
    (noPostAbove_of hpo ht ⟨a1, n, e1⟩ hx)

theorem change3_old (W : Versions d oldM newM) (T : Silent d) {A B : Addr} (hpl : Place34 d B A)
    (hk : Kept34 d B) : (cfg3ToOld d custom post store).change (Convert.names A) = none ∧
      ∀ f o, Means d f o → f.path = Convert.names A → Fits d o f := by
  obtain ⟨b1, k, a1, n, -, -, o, f, hm, hpb, hp⟩ := carried_last hpl
  rw [List.nil_append] at hp hpb
  have hnc : ¬ Changed d f o := hk f o hm hpb
  refine ⟨?_, fun f' o' hm' hp' => ?_⟩
  · have := (changed3 W T hm (.inl (open3 W T hm (same_fits hnc)).1)).2.2 hnc
    rw [hp] at this
    simp only [cfg3ToOld, cfgOf]
    rw [(map3_change d).2, this]
    rfl
  · obtain ⟨rfl, rfl⟩ := (route3_old W.given W.nested T).same hm' hm (hp'.trans hp.symm)
    exact same_fits hnc

/-- **C73, values.** The same for converting from version 4 to version 3. -/
theorem C73_value_old (W : Versions d oldM newM) (T : Silent d) (hpr : Proper (cfg3ToOld d custom post store))
    (hpo : LeafPost (cfg3ToOld d custom post store) newM) (source : Fields V) (ht : TypedF source newM) (result : Node V)
    (h : copyIds (cfg3ToOld d custom post store) source (Meta.struct oldM).fresh = .ok result)
    (A B : Addr) (v : V) (hv : ValueAt (.struct source) A v) (hpl : Place34 d B A) (hk : Kept34 d B)
    (hone : SingleNew d source A) :
    ∃ l w, metaAt (.struct oldM) (Convert.names B) = some (.leaf l) ∧ store l v = .ok w ∧
      ∃ y, result.at B = some y ∧
        match post (Convert.names A) with
        | none => y = .leaf l w
        | some f => f (.leaf l w) = .ok y := by
  obtain ⟨l0, hx, hne⟩ := id hv
  obtain ⟨hch, hfit⟩ := change3_old (custom := custom) (post := post) (store := store) W T hpl hk
  have hs := (C73_sent_old (custom := custom) (post := post) (store := store) W T source ht A B _ hx hone hfit).2 hpl
  obtain ⟨b1, k, a1, n, -, e1, -⟩ := carried_last hpl
  exact C22_value_moved _ hpr _ source (wfOf ht W.namesNew) _ result (typed_fresh _) h A B v hv hs hch
    (alone_of_oneToOne ((leg3_old W T).one ((leg3_old W T).quiet hpo)) (by simpa only [Typed] using ht) hs hx (by simp [Writes]))
    (noPostAbove_of hpo ht ⟨a1, n, e1⟩ hx)

theorem post_leaf {cx : Cfg V} {m : MFields} (hpo : LeafPost cx m) {source : Fields V} (ht : TypedF source m) {A : Addr}
    {w : MFields} {e : Elems V} (hx : (Node.struct source).at A = some (.aos w e)) : cx.post (Convert.names A) = none := by
  cases hq : cx.post (Convert.names A) with
  | none => rfl
  | some g =>
    obtain ⟨l, hl⟩ := hpo (Convert.names A) (by rw [hq]; simp)
    obtain ⟨m0, h1, h2⟩ := typedAt_at (tm := .struct m) (.inl (by simpa only [Typed] using ht)) hx
    rw [hl] at h1; cases h1
    rcases h2 with h2 | ⟨_, _, h2, _⟩
    · simp [Typed] at h2
    · cases h2

theorem aos_value {w : MFields} {e : Elems V} {k : Nat} (hlen : e.length = k) (hk0 : k ≠ 0) :
    (Node.aos w e : Node V).hasValue = true := by
  cases e with
  | nil => simp [Elems.length] at hlen; exact absurd hlen.symm hk0
  | cons => simp [Node.hasValue, Elems.length]

/-- **C73, sizes.** After converting an IDS from version 3 to version 4, arrays of structures that did not change have the
same number of elements at the place with the same meaning. -/
theorem C73_size_new (W : Versions d oldM newM) (T : Silent d) (S : NoSource d)
    (hpr : Proper (cfg3ToNew d provenance custom post store))
    (hpo : LeafPost (cfg3ToNew d provenance custom post store) oldM) (source : Fields V) (ht : TypedF source oldM) (result : Node V)
    (h : copyIds (cfg3ToNew d provenance custom post store) source (Meta.struct newM).fresh = .ok result)
    (A B : Addr) (k : Nat) (hv : SizeAt (.struct source) A k) (hpl : Place34 d A B) (hk : Kept34 d A)
    (hone : SingleOld d source A) (hu : Untouched source B) : SizeAt result B k := by
  obtain ⟨w, e, hx, hlen, hk0⟩ := id hv
  have hfit : ∀ f o, Means d f o → o.path = Convert.names A → Fits d o f := fun f o hm hp => same_fits (hk f o hm hp)
  have hs := (C73_sent_new (provenance := provenance) (custom := custom) (post := post) (store := store) W T S source ht A B _ hx
    (fun e => place3_source W S hpl (e ▸ List.prefix_rfl)) hone (place3_not_left W T hpl) hfit).2 hpl
  have hs0 : Sent (cfgNames d custom post store) (.struct newM) [] [] source A B :=
    (leg3_new W T).sent hpl hx (fun o f hm hp => (open3 W T hm (hfit f o hm hp)).1) (single3_new W T ht hpl hone)
  obtain ⟨hch, hch0⟩ := change3_new (provenance := provenance) (custom := custom) (post := post) (store := store) W T S hpl hk
  obtain ⟨a1, n, b1, k1, e1, -, -⟩ := carried_last hpl
  exact C22_size_moved _ hpr _ source (wfOf ht W.namesOld) _ result (typed_fresh _) h A B _ k hx (aos_value hlen hk0) hs (.inl ⟨hch, hv⟩)
    (alone3 W T (alone_of_oneToOne ((leg3_new W T).one ((leg3_new W T).quiet (leafPost3 hpo))) (by simpa only [Typed] using ht) hs0 hx
      (by simp [Writes, hch0])) hu)
    (noPostAbove_of hpo ht ⟨a1, n, e1⟩ hx) (post_leaf hpo ht hx)

/-- **C73, sizes.** The same for converting from version 4 to version 3. -/
theorem C73_size_old (W : Versions d oldM newM) (T : Silent d) (hpr : Proper (cfg3ToOld d custom post store))
    (hpo : LeafPost (cfg3ToOld d custom post store) newM) (source : Fields V) (ht : TypedF source newM) (result : Node V)
    (h : copyIds (cfg3ToOld d custom post store) source (Meta.struct oldM).fresh = .ok result)
    (A B : Addr) (k : Nat) (hv : SizeAt (.struct source) A k) (hpl : Place34 d B A) (hk : Kept34 d B)
    (hone : SingleNew d source A) : SizeAt result B k := by
  obtain ⟨w, e, hx, hlen, hk0⟩ := id hv
  obtain ⟨hch, hfit⟩ := change3_old (custom := custom) (post := post) (store := store) W T hpl hk
  have hs := (C73_sent_old (custom := custom) (post := post) (store := store) W T source ht A B _ hx hone hfit).2 hpl
  obtain ⟨b1, k1, a1, n, -, e1, -⟩ := carried_last hpl
  exact C22_size_moved _ hpr _ source (wfOf ht W.namesNew) _ result (typed_fresh _) h A B _ k hx (aos_value hlen hk0) hs (.inl ⟨hch, hv⟩)
    (alone_of_oneToOne ((leg3_old W T).one ((leg3_old W T).quiet hpo)) (by simpa only [Typed] using ht) hs hx (by simp [Writes, hch]))
    (noPostAbove_of hpo ht ⟨a1, n, e1⟩ hx) (post_leaf hpo ht hx)

/-- **C73, nothing else.** Each value in the result of converting from version 3 to version 4 comes from the place of the
source IDS with the same meaning, from a node above it whose field changed, was post-processed, or is part of the provenance
made of the source. -/
theorem C73_no_other_new (W : Versions d oldM newM) (T : Silent d)
    (hpr : Proper (cfg3ToNew d provenance custom post store))
    (hleft : ∀ g, Left d g → post g.path = none) (source : Fields V) (ht : TypedF source oldM) (result : Node V)
    (h : copyIds (cfg3ToNew d provenance custom post store) source (Meta.struct newM).fresh = .ok result)
    (B : Addr) (w : V) (hb : ValueAt result B w) :
    (∃ A l v, Place34 d A B ∧ ValueAt (.struct source) A v ∧ store l v = .ok (some w)) ∨
    (∃ A B' x f o, Place34 d A B' ∧ (Node.struct source).at A = some x ∧ x.hasValue = true ∧ Contains B' B ∧
      Means d f o ∧ o.path = Convert.names A ∧ (Changed d f o ∨ ∃ g, post (Convert.names A) = some g)) ∨
    (HasSource source ∧ wProvenance <+: Convert.names B) := by
  have idle := (leg3_new (custom := custom) (post := post) (store := store) W T).idle
    (by rintro a ⟨g, hg, rfl⟩; exact hleft g hg)
  rcases C22_no_other_value _ hpr _ source (wfOf ht W.namesOld) _ result (typed_fresh _) h B w hb with
    h1 | ⟨A, l, v, h1, h2, h3⟩ | ⟨A, B', x, h1, h2, h3, h4, h5⟩
  · exact absurd h1 (fresh_no_value _ B w)
  · rcases (cfg3_off W T).sent_root h1 with ⟨h0, -⟩ | e
    · refine .inl ⟨A, l, v, ?_, h2, h3⟩
      rcases ((leg3_new W T).carried ht h0).1 with h | h
      · exact h
      · obtain ⟨⟨c, h4⟩, -⟩ := (route3_new W.given W.nested T).idle W.old idle h
        obtain ⟨l0, hx, -⟩ := h2
        obtain ⟨m0, h5, h6⟩ := typedAt_at (tm := .struct oldM) (.inl (by simpa only [Typed] using ht)) hx
        rw [h4] at h5; cases h5
        rcases h6 with h6 | ⟨_, _, h6, _⟩
        · simp [Typed] at h6
        · cases h6
    · obtain ⟨l0, hx, hne⟩ := h2
      refine .inr (.inr ⟨⟨A, _, e, hx, by simp [Node.hasValue, leafHasValue, hne]⟩, ?_⟩)
      rw [(cfg3_off W T).target h1 e]
      exact List.prefix_rfl
  · rcases (cfg3_off W T).sent_root h1 with ⟨h0, hns⟩ | e
    · obtain ⟨h6, h7⟩ := (leg3_new W T).carried ht h0
      have hne : Convert.names A ≠ wSource := fun e => hns (e ▸ List.prefix_rfl)
      rw [(cfg3_off W T).change _ hne] at h5
      have h6 : Place34 d A B' := by
        rcases h6 with h6 | h6
        · exact h6
        · exfalso
          obtain ⟨e1, e2⟩ := idle _ h6
          rcases h5 with ⟨u, h5⟩ | ⟨u, h5⟩
          · rw [e1] at h5; cases h5
          · exact absurd (show (cfgNames d custom post store).post (Convert.names A) = some u from h5) (by rw [e2]; simp)
      obtain ⟨a1, n, b1, k, -, -, o, f, hm, hp, -⟩ := carried_last h6
      rw [List.nil_append] at hp
      refine .inr (.inl ⟨A, B', x, f, o, h6, h2, h3, h4, hm, hp, ?_⟩)
      rcases h5 with ⟨g, h5⟩ | h5
      · left
        apply Classical.byContradiction
        intro hn
        have := (changed3 W T hm (.inl (fun e => h7 o hp e))).1.2 hn
        simp only [cfgNames, cfgOf] at h5
        rw [← hp, this] at h5
        cases h5
      · exact .inr h5
    · refine .inr (.inr ⟨⟨A, x, e, h2, h3⟩, ?_⟩)
      rw [← (cfg3_off W T).target h1 e]
      exact contains_names h4

/-- **C73, nothing else.** The same for converting from version 4 to version 3. -/
theorem C73_no_other_old (W : Versions d oldM newM) (T : Silent d) (hpr : Proper (cfg3ToOld d custom post store))
    (source : Fields V) (ht : TypedF source newM) (result : Node V)
    (h : copyIds (cfg3ToOld d custom post store) source (Meta.struct oldM).fresh = .ok result)
    (B : Addr) (w : V) (hb : ValueAt result B w) :
    (∃ A l v, Place34 d B A ∧ ValueAt (.struct source) A v ∧ store l v = .ok (some w)) ∨
    (∃ A B' x f o, Place34 d B' A ∧ (Node.struct source).at A = some x ∧ x.hasValue = true ∧ Contains B' B ∧
      Means d f o ∧ f.path = Convert.names A ∧ (Changed d f o ∨ ∃ g, post (Convert.names A) = some g)) := by
  rcases C22_no_other_value _ hpr _ source (wfOf ht W.namesNew) _ result (typed_fresh _) h B w hb with
    h1 | ⟨A, l, v, h1, h2, h3⟩ | ⟨A, B', x, h1, h2, h3, h4, h5⟩
  · exact absurd h1 (fresh_no_value _ B w)
  · exact .inl ⟨A, l, v, carried_flip (((leg3_old W T).carried ht h1).1.resolve_right id), h2, h3⟩
  · obtain ⟨h6, h7⟩ := (leg3_old W T).carried ht h1
    have h6 := h6.resolve_right id
    obtain ⟨a1, n, b1, k, -, -, f, o, hm, hp, -⟩ := carried_last h6
    rw [List.nil_append] at hp
    refine .inr ⟨A, B', x, f, o, carried_flip h6, h2, h3, h4, hm, hp, ?_⟩
    rcases h5 with ⟨g, h5⟩ | h5
    · left
      apply Classical.byContradiction
      intro hn
      have h8 : (names3 d).toOld.lookup f.path ≠ some none := by
        rw [← map3_old W.given W.nested T]
        exact fun e => h7 f hp e
      have := (changed3 W T hm (.inr h8)).2.2 hn
      simp only [cfg3ToOld, cfgOf] at h5
      rw [(map3_change d).2, ← hp, this] at h5
      cases h5
    · exact .inr h5

end

section
variable {F : Type} [FloatModel F] {d : Dicts} {oldM newM : MFields} {provenance : Node (Val F) → Node (Val F) → Except ConvErr (Node (Val F))}
  {custom custom' : VMap.Path → Handler → Node (Val F) → Node (Val F) → Except ConvErr (Node (Val F))}

/-- **C73, there and back.** Converting an IDS from version 3 to version 4 and back keeps every value at a place with a meaning
in version 4: names and identifiers included. -/
theorem C73_round_trip_new (cv : Conv F) (W : Versions d oldM newM) (T : Silent d) (S : NoSource d)
    (hpr : Proper (cfg3ToNew d provenance custom (fun _ => none) (storeVal cv)))
    (hpr' : Proper (cfg3ToOld d custom' (fun _ => none) (storeVal cv)))
    (source data : Fields (Val F)) (ht : TypedF source oldM) (result : Node (Val F))
    (there : copyIds (cfg3ToNew d provenance custom (fun _ => none) (storeVal cv)) source (Meta.struct newM).fresh =
      .ok (.struct data))
    (back : copyIds (cfg3ToOld d custom' (fun _ => none) (storeVal cv)) data (Meta.struct oldM).fresh = .ok result)
    (A B : Addr) (v : Val F) (l l' : LeafMeta)
    (hx : (Node.struct source).at A = some (.leaf l (some v))) (hne : Value.isEmpty v = false)
    (hpl : Place34 d A B) (hk : Kept34 d A) (hone : SingleOld d source A) (hone' : SingleNew d data B) (hu : Untouched source B)
    (hl' : metaAt (.struct newM) (Convert.names B) = some (.leaf l')) (hv : Held l v) (hv' : Held l' v) :
    ValueAt (.struct data) B v ∧ ValueAt result A v := by
  have htd : Typed (.struct data) (.struct newM) := (copyFields_plan hpr [] [] source (typed_fresh _) there).2
  obtain ⟨l1, w, h1, h2, y, h3, rfl⟩ := C73_value_new W T S hpr (fun _ h => absurd rfl h) source ht _ there A B v ⟨l, hx, hne⟩ hpl
    hk hone hu
  rw [hl'] at h1; cases h1
  rw [held_store cv hv'] at h2; cases h2
  have hd : ValueAt (.struct data) B v := ⟨l', h3, hne⟩
  refine ⟨hd, ?_⟩
  obtain ⟨l2, w, h4, h5, y, h6, rfl⟩ := C73_value_old W T hpr' (fun _ h => absurd rfl h) data (by simpa only [Typed] using htd) _ back
    B A v hd hpl hk hone'
  rw [typed_leaf_at (tm := .struct oldM) (by simpa only [Typed] using ht) hx] at h4; cases h4
  rw [held_store cv hv] at h5; cases h5
  exact ⟨l, h6, hne⟩

/-- **C73, there and back.** The same for converting from version 4 to version 3 and back. -/
theorem C73_round_trip_old (cv : Conv F) (W : Versions d oldM newM) (T : Silent d) (S : NoSource d)
    (hpr : Proper (cfg3ToNew d provenance custom (fun _ => none) (storeVal cv)))
    (hpr' : Proper (cfg3ToOld d custom' (fun _ => none) (storeVal cv)))
    (source data : Fields (Val F)) (ht : TypedF source newM) (result : Node (Val F))
    (there : copyIds (cfg3ToOld d custom' (fun _ => none) (storeVal cv)) source (Meta.struct oldM).fresh = .ok (.struct data))
    (back : copyIds (cfg3ToNew d provenance custom (fun _ => none) (storeVal cv)) data (Meta.struct newM).fresh = .ok result)
    (A B : Addr) (v : Val F) (l l' : LeafMeta)
    (hx : (Node.struct source).at A = some (.leaf l (some v))) (hne : Value.isEmpty v = false)
    (hpl : Place34 d B A) (hk : Kept34 d B) (hone : SingleNew d source A) (hone' : SingleOld d data B) (hu : Untouched data A)
    (hl' : metaAt (.struct oldM) (Convert.names B) = some (.leaf l')) (hv : Held l v) (hv' : Held l' v) :
    ValueAt (.struct data) B v ∧ ValueAt result A v := by
  have htd : Typed (.struct data) (.struct oldM) := (copyFields_plan hpr' [] [] source (typed_fresh _) there).2
  obtain ⟨l1, w, h1, h2, y, h3, rfl⟩ := C73_value_old W T hpr' (fun _ h => absurd rfl h) source ht _ there A B v ⟨l, hx, hne⟩ hpl
    hk hone
  rw [hl'] at h1; cases h1
  rw [held_store cv hv'] at h2; cases h2
  have hd : ValueAt (.struct data) B v := ⟨l', h3, hne⟩
  refine ⟨hd, ?_⟩
  obtain ⟨l2, w, h4, h5, y, h6, rfl⟩ := C73_value_new W T S hpr (fun _ h => absurd rfl h) data (by simpa only [Typed] using htd) _ back
    B A v hd hpl hk hone' hu
  rw [typed_leaf_at (tm := .struct newM) (by simpa only [Typed] using ht) hx] at h4; cases h4
  rw [held_store cv hv] at h5; cases h5
  exact ⟨l, h6, hne⟩

end

/-! ### Example -/

theorem proper3 {V : Type} [Value V] {d : Dicts} {provenance : Node V → Node V → Except ConvErr (Node V)}
    {custom : VMap.Path → Handler → Node V → Node V → Except ConvErr (Node V)}
    {post : VMap.Path → Option (Node V → Except ConvErr (Node V))} {store : LeafMeta → V → Except ConvErr (Option V)}
    (hs : ∀ x, Keeps (provenance x)) (hc : ∀ p h x, Keeps (custom p h x)) (hp : ∀ p f, post p = some f → Keeps f) :
    Proper (cfg3ToNew d provenance custom post store) ∧ Proper (cfg3ToOld d custom post store) := by
  have key := proper_new (d := d) (store := store) hc hp
  refine ⟨⟨fun q f x h => ?_, hp⟩, ⟨fun q f x h => ?_, hp⟩⟩
  · simp only [cfg3ToNew] at h
    split at h
    · cases h; exact hs x
    · simp only [cfgOf, (map3_change d).1] at h
      exact key.1.1 q f x h
  · simp only [cfg3ToOld, cfgOf, (map3_change d).2] at h
    exact key.2.1 q f x h

def wCoil : Name := ['c', 'o', 'i', 'l']
def wProps : Name := ['i', 'd', 's', '_', 'p', 'r', 'o', 'p', 'e', 'r', 't', 'i', 'e', 's']
def wSrc : Name := ['s', 'o', 'u', 'r', 'c', 'e']
def wProv : Name := ['p', 'r', 'o', 'v', 'e', 'n', 'a', 'n', 'c', 'e']

/-- Coils with a name and an identifier in version 3, a name and a description in version 4, the source became the
provenance. -/
def d34 : Dicts where
  version := 38
  same a b := a = b
  old := [vmField [wCoil] tArray, vmField [wCoil, wName] tStr, vmField [wCoil, wIdentifier] tStr, vmField [wCoil, ['x']] tFlt1,
    vmField [wProps] tStruct, vmField [wProps, wSrc] tStr]
  new := [vmField [wCoil] tArray, vmField [wCoil, wName] tStr, vmField [wCoil, wDescription] tStr, vmField [wCoil, ['x']] tFlt1,
    vmField [wProps] tStruct, vmField [wProps, wProv] tStruct, vmField [wProps, wProv, ['n']] tStr]

def d34Coil3 : MFields := .cons wName (.leaf tripStr) (.cons wIdentifier (.leaf tripStr) (.cons ['x'] (.leaf fltLeaf) .nil))
def d34Coil4 : MFields := .cons wName (.leaf tripStr) (.cons wDescription (.leaf tripStr) (.cons ['x'] (.leaf fltLeaf) .nil))
def d34Old : MFields := .cons wCoil (.aos d34Coil3) (.cons wProps (.struct (.cons wSrc (.leaf tripStr) .nil)) .nil)
def d34New : MFields :=
  .cons wCoil (.aos d34Coil4) (.cons wProps (.struct (.cons wProv (.struct (.cons ['n'] (.leaf tripStr) .nil)) .nil)) .nil)

theorem d34_given : Given d34 := given_of_check (by decide +kernel)

theorem d34_versions : Versions d34 d34Old d34New where
  given := d34_given
  nested := (level_of_check d34_given.old d34_given.new (by decide +kernel)).nested d34_given
  announced := announced_of_check d34_given (by decide +kernel)
  kinds := by
    intro a b h
    have : a = b := by simpa [d34] using h
    subst this
    exact ⟨Iff.rfl, Iff.rfl⟩
  old := shows_of_check (by decide +kernel)
  new := shows_of_check (by decide +kernel)
  namesOld := by simp [d34Old, d34Coil3, WFMFields, WFMeta, mnames, wCoil, wProps, wName, wIdentifier]
  namesNew := by simp [d34New, d34Coil4, WFMFields, WFMeta, mnames, wCoil, wProps, wName, wDescription]

theorem d34_claims {f o : Field} (h : Claim d34 f o) : f.path = o.path ∧ Unrenamed d34 f o ∧ ¬ Changed d34 f o ∧
    (o.path = [wCoil] ∨ o.path = [wCoil, wName] ∨ o.path = [wCoil, ['x']] ∨ o.path = [wProps]) := by
  have h1 := claim_claimB d34_given.old d34_given.new h
  have h2 : d34.new.all (fun f => d34.old.all fun o => !claimB d34 f o || (decide (f.path = o.path) && unrenamedB d34 f o && !changedB d34 f o &&
    decide (o.path = [wCoil] ∨ o.path = [wCoil, wName] ∨ o.path = [wCoil, ['x']] ∨ o.path = [wProps]))) = true := by decide +kernel
  simp only [List.all_eq_true] at h2
  have h3 := h2 f h.1 o h.2.1
  rw [h1] at h3
  simp only [Bool.not_true, Bool.false_or, Bool.and_eq_true, decide_eq_true_eq, Bool.not_eq_true'] at h3
  obtain ⟨⟨⟨e, h4⟩, h5⟩, h6⟩ := h3
  refine ⟨e, (unrenamed_iff d34_given.old d34_given.new h.1 h.2.1).2 h4, fun hch => ?_, h6⟩
  rw [changed_changedB hch] at h5
  cases h5

theorem d34_coil : Described d34 [wCoil] where
  ne := by simp
  name := ⟨vmField [wCoil, wName] tStr, by simp [d34], rfl⟩
  identifier := ⟨vmField [wCoil, wIdentifier] tStr, by simp [d34], rfl⟩
  index := by
    rintro ⟨f, hf, e⟩
    have : d34.old.all (fun f => !decide (f.path = [wCoil] ++ [wIndex])) = true := by decide +kernel
    simp only [List.all_eq_true] at this
    have := this f hf
    rw [e] at this
    simp at this
  newName := ⟨vmField [wCoil, wName] tStr, by simp [d34], rfl⟩
  description := ⟨vmField [wCoil, wDescription] tStr, by simp [d34], rfl⟩

theorem d34_described {g : VMap.Path} (h : Described d34 g) : g = [wCoil] := by
  obtain ⟨f, hf, e⟩ := h.identifier
  have : d34.old.all (fun f => !decide (f.path.getLast? = some wIdentifier) || decide (f.path = [wCoil] ++ [wIdentifier])) = true := by
    decide +kernel
  simp only [List.all_eq_true] at this
  have := this f hf
  rw [e, List.getLast?_concat] at this
  exact (List.append_inj' (by simpa using this) rfl).1

theorem d34_string {f : Field} (l : List Field) (hf : f ∈ l) (n : Name)
    (h : l.all (fun f => !decide (f.path = [wCoil] ++ [n]) || decide (f.dtype = tStr)) = true) (e : f.path = [wCoil] ++ [n]) :
    f.dtype = tStr := by
  simp only [List.all_eq_true] at h
  have := h f hf
  rw [e] at this
  simpa using this

theorem d34_silent : Silent d34 where
  kept g hg f o hc _ _ := ⟨(d34_claims hc).2.1, (d34_claims hc).2.2.1⟩
  removed g hg f o hc := by
    cases d34_described hg
    obtain ⟨e, -, -, h⟩ := d34_claims hc
    rw [e]
    rcases h with h | h | h | h <;> rw [h] <;> decide +kernel
  around g hg f o hc _ := same_fits (d34_claims hc).2.2.1
  dataOld g hg o ho h := by
    cases d34_described hg
    have : o.dtype = tStr := by
      rcases h with h | h
      · exact d34_string _ ho _ (by decide +kernel) h
      · exact d34_string _ ho _ (by decide +kernel) h
    rw [this]
    rintro (h | h) <;> exact absurd h (by decide +kernel)
  dataNew g hg f hf h := by
    cases d34_described hg
    have : f.dtype = tStr := by
      rcases h with h | h
      · exact d34_string _ hf _ (by decide +kernel) h
      · exact d34_string _ hf _ (by decide +kernel) h
    rw [this]
    rintro (h | h) <;> exact absurd h (by decide +kernel)
  same g hg f hf o ho h hch := by
    cases d34_described hg
    have e : f.dtype = tStr ∧ o.dtype = tStr := by
      rcases h with ⟨h, h'⟩ | ⟨h, h'⟩
      · exact ⟨d34_string _ hf _ (by decide +kernel) h, d34_string _ ho _ (by decide +kernel) h'⟩
      · exact ⟨d34_string _ hf _ (by decide +kernel) h, d34_string _ ho _ (by decide +kernel) h'⟩
    have h2 : d34.new.all (fun f => decide (f.nbc = none)) = true := by decide +kernel
    simp only [List.all_eq_true, decide_eq_true_eq] at h2
    rcases hch with h3 | ⟨a, _, h3, -⟩ | ⟨a, _, h3, -⟩
    · rw [e.1, e.2] at h3
      simp [d34] at h3
    · rw [h2 f hf] at h3; cases h3
    · rw [h2 f hf] at h3; cases h3

theorem d34_noSource : NoSource d34 := by
  intro f o hc
  obtain ⟨-, -, -, h⟩ := d34_claims hc
  rcases h with h | h | h | h <;> rw [h] <;> decide +kernel

/-- The provenance is left to `C28` here. -/
def d34Prov (x t : Node (Val Int)) : Except ConvErr (Node (Val Int)) :=
  match x, t with
  | .leaf _ v, .struct (.absent n (.leaf l) .nil) => .ok (.struct (.present n (.leaf l v) .nil))
  | _, t => .ok t

def strNode (s : List Char) : Node (Val Int) := .leaf tripStr (some (.str s))

def d34Data : Fields (Val Int) :=
  .present wCoil (.aos d34Coil3
    (.cons (.present wName (strNode ['1']) (.present wIdentifier (strNode ['2']) (.present ['x'] (fltNode 2) .nil)))
    (.cons (.present wName (strNode ['3']) (.absent wIdentifier (.leaf tripStr) (.present ['x'] (fltNode 3) .nil))) .nil)))
  (.present wProps (.struct (.present wSrc (strNode ['s']) .nil)) .nil)

def d34Moved : Fields (Val Int) :=
  .present wCoil (.aos d34Coil4
    (.cons (.present wName (strNode ['2']) (.present wDescription (strNode ['1']) (.present ['x'] (fltNode 2) .nil)))
    (.cons (.absent wName (.leaf tripStr) (.present wDescription (strNode ['3']) (.present ['x'] (fltNode 3) .nil))) .nil)))
  (.present wProps (.struct (.present wProv (.struct (.present ['n'] (strNode ['s']) .nil)) .nil)) .nil)

def d34Back : Fields (Val Int) :=
  .present wCoil (.aos d34Coil3
    (.cons (.present wName (strNode ['1']) (.present wIdentifier (strNode ['2']) (.present ['x'] (fltNode 2) .nil)))
    (.cons (.present wName (strNode ['3']) (.absent wIdentifier (.leaf tripStr) (.present ['x'] (fltNode 3) .nil))) .nil)))
  (.absent wProps (.struct (.cons wSrc (.leaf tripStr) .nil)) .nil)

def d34ToNew : Cfg (Val Int) := cfg3ToNew d34 d34Prov noCustom (fun _ => none) (storeVal changeConv)
def d34ToOld : Cfg (Val Int) := cfg3ToOld d34 noCustom (fun _ => none) (storeVal changeConv)

theorem d34_there : copyIds d34ToNew d34Data (Meta.struct d34New).fresh = .ok (.struct d34Moved) := by
  with_unfolding_all rfl

theorem d34_back : copyIds d34ToOld d34Moved (Meta.struct d34Old).fresh = .ok (.struct d34Back) := by
  with_unfolding_all rfl

theorem d34_typed : TypedF d34Data d34Old := by
  simp [d34Data, d34Old, d34Coil3, TypedF, Typed, TypedE, fltNode, strNode]

theorem d34_typed' : TypedF d34Moved d34New := by
  simp [d34Moved, d34New, d34Coil4, TypedF, Typed, TypedE, fltNode, strNode]

theorem d34_proper : Proper d34ToNew ∧ Proper d34ToOld := by
  refine proper3 (fun x => ⟨fun t y m ht h => ?_, fun g y h => ?_⟩)
    (fun _ _ _ => ⟨fun _ _ _ _ h => (by cases h), fun _ _ h => (by cases h)⟩) (fun _ _ h => by cases h)
  · unfold d34Prov at h
    split at h
    · cases h
      cases m with
      | struct c =>
        cases c with
        | nil => simp [Typed, TypedF] at ht
        | cons k m c =>
          cases c with
          | nil =>
            have h1 : _ ∧ _ ∧ _ := ht
            obtain ⟨h1, rfl, -⟩ := h1
            exact ⟨h1, rfl, trivial⟩
          | cons _ _ _ => simp [Typed, TypedF] at ht
      | leaf l => simp [Typed] at ht
      | aos c => simp [Typed] at ht
    · cases h; exact ht
  · unfold d34Prov at h
    split at h
    · cases h; exact ⟨_, rfl⟩
    · cases h; exact ⟨_, rfl⟩

theorem d34_unchanged {f o : Field} (h : Means d34 f o) : ¬ Changed d34 f o := by
  rcases h with ⟨h, -⟩ | ⟨g, hg, hf, ho, h⟩
  · exact (d34_claims h).2.2.1
  · exact d34_silent.same g hg f hf o ho h

/-- No structure became an array or the other way round. -/
theorem d34_single (c : Fields (Val Int)) (s : Option Nat) (R : Addr) (hR : ∀ n i, (n, some i) ∉ R) :
    SingleOld d34 c ((wCoil, s) :: R) ∧ SingleNew d34 c ((wCoil, s) :: R) := by
  have key : ∀ f o, Claim d34 f o → o.path = [wCoil] → f.dtype = tArray ∧ o.dtype = tArray := by
    intro f o hc hp
    have h1 := claim_claimB d34_given.old d34_given.new hc
    have h2 : d34.new.all (fun f => d34.old.all fun o => !claimB d34 f o || !decide (o.path = [wCoil]) ||
      decide (f.dtype = tArray ∧ o.dtype = tArray)) = true := by decide +kernel
    simp only [List.all_eq_true] at h2
    have h3 := h2 f hc.1 o hc.2.1
    rw [h1] at h3
    simpa [hp] using h3
  have first : ∀ a n i r, (wCoil, s) :: R = a ++ (n, some i) :: r → a = [] ∧ n = wCoil := by
    intro a n i r e
    cases a with
    | nil => cases e; exact ⟨rfl, rfl⟩
    | cons x a =>
      exfalso
      simp only [List.cons_append, List.cons.injEq] at e
      exact hR n i (e.2 ▸ List.mem_append_right _ (List.mem_cons_self ..))
  constructor
  · rintro a n i r m e h - - ⟨f, o, hc, hp, ht⟩
    obtain ⟨rfl, rfl⟩ := first _ _ _ _ h
    rw [(key f o hc hp).1] at ht
    exact absurd ht (by decide +kernel)
  · rintro a n i r m e h - - ⟨f, o, hc, hp, ht⟩
    obtain ⟨rfl, rfl⟩ := first _ _ _ _ h
    rw [(key f o hc ((d34_claims hc).1.symm.trans hp)).2] at ht
    exact absurd ht (by decide +kernel)

theorem d34_claim_coil : Means d34 (vmField [wCoil] tArray) (vmField [wCoil] tArray) := by
  refine .inl ⟨(claim_iff d34_given.old d34_given.new (by simp [d34]) (by simp [d34])).2 (by decide +kernel), ?_⟩
  rintro ⟨g, hg, h, -⟩
  cases d34_described hg
  exact absurd h (by decide +kernel)

/-- The identifier of the first coil is its name, and its name is its description. -/
theorem d34_place : Place34 d34 [(wCoil, some 0), (wIdentifier, none)] [(wCoil, some 0), (wName, none)] ∧
    Place34 d34 [(wCoil, some 0), (wName, none)] [(wCoil, some 0), (wDescription, none)] ∧
    Place34 d34 [(wCoil, none)] [(wCoil, none)] := by
  refine ⟨.step d34_claim_coil rfl rfl (.inl ⟨d34_unchanged d34_claim_coil, rfl⟩)
      (.here (f := vmField [wCoil, wIdentifier] tStr) (o := vmField [wCoil, wName] tStr)
        (.inr ⟨_, d34_coil, by simp [d34], by simp [d34], .inr ⟨rfl, rfl⟩⟩) rfl rfl),
    .step d34_claim_coil rfl rfl (.inl ⟨d34_unchanged d34_claim_coil, rfl⟩)
      (.here (f := vmField [wCoil, wName] tStr) (o := vmField [wCoil, wDescription] tStr)
        (.inr ⟨_, d34_coil, by simp [d34], by simp [d34], .inl ⟨rfl, rfl⟩⟩) rfl rfl),
    .here d34_claim_coil rfl rfl⟩

theorem d34_kept (A : Addr) : Kept34 d34 A := fun _ _ h _ => d34_unchanged h

theorem d34_untouched (i : Option Nat) (c : Fields (Val Int)) (B : Addr) : Untouched c ((wCoil, i) :: B) := by
  refine .inr ⟨?_, ?_⟩
  · simp only [Convert.names, List.map_cons, wProvenance]
    intro h
    exact absurd (List.cons_prefix_cons.1 h).1 (by decide +kernel)
  · simp only [Convert.names, List.map_cons, wProvenance]
    intro h
    exact absurd (List.cons_prefix_cons.1 h).1 (by decide +kernel)

/-- The hypotheses of the theorems are met. -/
example := C73_sent_new (provenance := d34Prov) (custom := noCustom) (post := fun _ => none) (store := storeVal changeConv)
  d34_versions d34_silent d34_noSource d34Data d34_typed _ _ (strNode ['2']) rfl (by decide +kernel) (d34_single _ _ _ (by simp)).1
  (place3_not_left d34_versions d34_silent d34_place.1) (fun _ _ h _ => same_fits (d34_unchanged h)) |>.2 d34_place.1

example := C73_sent_old (custom := noCustom) (post := fun _ => none) (store := storeVal changeConv)
  d34_versions d34_silent d34Moved d34_typed' _ _ (strNode ['2']) rfl (d34_single _ _ _ (by simp)).2
  (fun _ _ h _ => same_fits (d34_unchanged h)) |>.2 d34_place.1

example : ∃ B, Convert.names B = wProvenance :=
  ⟨_, C73_source (provenance := d34Prov) (custom := noCustom) (post := fun _ => none) (store := storeVal changeConv)
    d34_versions d34_silent d34Data [(wProps, none), (wSrc, none)] [(wProps, none), (wProv, none)] rfl
    (.child rfl rfl rfl (.here rfl (by with_unfolding_all rfl)))⟩

example := C73_value_new (provenance := d34Prov) (custom := noCustom) (post := fun _ => none) (store := storeVal changeConv)
  d34_versions d34_silent d34_noSource d34_proper.1 (fun _ h => absurd rfl h) d34Data d34_typed _ d34_there _ _ (.str ['2'])
  ⟨tripStr, rfl, by decide +kernel⟩ d34_place.1 (d34_kept _) (d34_single _ _ _ (by simp)).1 (d34_untouched _ _ _)

example := C73_value_old (custom := noCustom) (post := fun _ => none) (store := storeVal changeConv)
  d34_versions d34_silent d34_proper.2 (fun _ h => absurd rfl h) d34Moved d34_typed' _ d34_back _ _ (.str ['1'])
  ⟨tripStr, rfl, by decide +kernel⟩ d34_place.2.1 (d34_kept _) (d34_single _ _ _ (by simp)).2

example : SizeAt (.struct d34Moved) [(wCoil, none)] 2 :=
  C73_size_new (provenance := d34Prov) (custom := noCustom) (post := fun _ => none) (store := storeVal changeConv)
  d34_versions d34_silent d34_noSource d34_proper.1 (fun _ h => absurd rfl h) d34Data d34_typed _ d34_there _ _ 2
  ⟨_, _, rfl, rfl, by decide⟩ d34_place.2.2 (d34_kept _) (d34_single _ _ _ (by simp)).1 (d34_untouched _ _ _)

example : SizeAt (.struct d34Back) [(wCoil, none)] 2 :=
  C73_size_old (custom := noCustom) (post := fun _ => none) (store := storeVal changeConv)
  d34_versions d34_silent d34_proper.2 (fun _ h => absurd rfl h) d34Moved d34_typed' _ d34_back _ _ 2
  ⟨_, _, rfl, rfl, by decide⟩ d34_place.2.2 (d34_kept _) (d34_single _ _ _ (by simp)).2

example := C73_no_other_new (provenance := d34Prov) (custom := noCustom) (post := fun _ => none) (store := storeVal changeConv)
  d34_versions d34_silent d34_proper.1 (fun _ _ => rfl) d34Data d34_typed _ d34_there
  [(wCoil, some 0), (wDescription, none)] (.str ['1']) ⟨tripStr, rfl, by decide +kernel⟩

example := C73_no_other_old (custom := noCustom) (post := fun _ => none) (store := storeVal changeConv)
  d34_versions d34_silent d34_proper.2 d34Moved d34_typed' _ d34_back
  [(wCoil, some 0), (wIdentifier, none)] (.str ['2']) ⟨tripStr, rfl, by decide +kernel⟩

example : ValueAt (.struct d34Moved) [(wCoil, some 0), (wName, none)] (.str ['2']) ∧
    ValueAt (.struct d34Back) [(wCoil, some 0), (wIdentifier, none)] (.str ['2']) :=
  C73_round_trip_new changeConv d34_versions d34_silent d34_noSource d34_proper.1 d34_proper.2 d34Data d34Moved d34_typed _ d34_there
    d34_back _ _ _ tripStr tripStr rfl (by decide +kernel) d34_place.1 (d34_kept _) (d34_single _ _ _ (by simp)).1 (d34_single _ _ _ (by simp)).2
    (d34_untouched _ _ _) rfl ⟨by decide +kernel, fun _ => by show eqDefault _ = false; decide +kernel⟩ ⟨by decide +kernel, fun _ => by show eqDefault _ = false; decide +kernel⟩

def d34Again : Fields (Val Int) :=
  .present wCoil (.aos d34Coil4
    (.cons (.present wName (strNode ['2']) (.present wDescription (strNode ['1']) (.present ['x'] (fltNode 2) .nil)))
    (.cons (.absent wName (.leaf tripStr) (.present wDescription (strNode ['3']) (.present ['x'] (fltNode 3) .nil))) .nil)))
  (.absent wProps (.struct (.cons wProv (.struct (.cons ['n'] (.leaf tripStr) .nil)) .nil)) .nil)

theorem d34_again : copyIds d34ToNew d34Back (Meta.struct d34New).fresh = .ok (.struct d34Again) := by
  with_unfolding_all rfl

example : ValueAt (.struct d34Back) [(wCoil, some 0), (wIdentifier, none)] (.str ['2']) ∧
    ValueAt (.struct d34Again) [(wCoil, some 0), (wName, none)] (.str ['2']) :=
  C73_round_trip_old changeConv d34_versions d34_silent d34_noSource d34_proper.1 d34_proper.2 d34Moved d34Back d34_typed' _ d34_back
    d34_again _ _ _ tripStr tripStr rfl (by decide +kernel) d34_place.1 (d34_kept _) (d34_single _ _ _ (by simp)).2 (d34_single _ _ _ (by simp)).1
    (d34_untouched _ _ _) rfl ⟨by decide +kernel, fun _ => by show eqDefault _ = false; decide +kernel⟩ ⟨by decide +kernel, fun _ => by show eqDefault _ = false; decide +kernel⟩

/-! ### Limit -/

/-- Version 3 already has a description next to the name and the identifier. -/
def d34Twice : Dicts where
  version := 38
  same a b := a = b
  old := [vmField [wCoil] tStruct, vmField [wCoil, wName] tStr, vmField [wCoil, wIdentifier] tStr, vmField [wCoil, wDescription] tStr]
  new := [vmField [wCoil] tStruct, vmField [wCoil, wName] tStr, vmField [wCoil, wDescription] tStr]

def d34TwiceData (a b c : List Char) : Fields (Val Int) :=
  .present wCoil (.struct (.present wName (strNode a) (.present wIdentifier (strNode b) (.present wDescription (strNode c) .nil)))) .nil

def d34TwiceNew : MFields := .cons wCoil (.struct (.cons wName (.leaf tripStr) (.cons wDescription (.leaf tripStr) .nil))) .nil

/-- Without the assumption that the new description is not identified with an old field, C73 fails: the old name and the old description both go to the
new description, and one of them is lost. -/
theorem C73_description_limit : Given d34Twice ∧ Described d34Twice [wCoil] ∧
    copyIds (cfg3ToNew d34Twice d34Prov noCustom (fun _ => none) (storeVal changeConv)) (d34TwiceData ['1'] ['2'] ['3'])
      (Meta.struct d34TwiceNew).fresh =
    .ok (.struct (.present wCoil (.struct (.present wName (strNode ['2']) (.present wDescription (strNode ['3']) .nil))) .nil)) := by
  refine ⟨given_of_check (by decide +kernel), ?_, by with_unfolding_all rfl⟩
  refine ⟨by simp, ⟨vmField [wCoil, wName] tStr, by simp [d34Twice], rfl⟩, ⟨vmField [wCoil, wIdentifier] tStr, by simp [d34Twice], rfl⟩, ?_,
    ⟨vmField [wCoil, wName] tStr, by simp [d34Twice], rfl⟩, ⟨vmField [wCoil, wDescription] tStr, by simp [d34Twice], rfl⟩⟩
  rintro ⟨f, hf, e⟩
  have : d34Twice.old.all (fun f => !decide (f.path = [wCoil] ++ [wIndex])) = true := by decide +kernel
  simp only [List.all_eq_true] at this
  have := this f hf
  rw [e] at this
  simp at this

end Verif.Props
