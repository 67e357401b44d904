import Verif.Model.ConvertCocos
import Verif.Spec.ConvertCocos
import Verif.Lemmas.ConvertPost
import Verif.Props.ConvertNames
/-
C74: conversions between major versions 3 and 4 change the signs of exactly the labelled and listed nodes.
-/
set_option linter.unusedSectionVars false
namespace Verif.Props
open Verif.Ids Verif.TreeSpec Verif.DiffSpec Verif.Convert Verif.ConvertSpec
open Verif.VMap hiding Path Nbc metaAt_append
open Verif.VMapSpec hiding OneToOne
open Verif.Convert.Ruled

section
variable {F : Type} [FloatModel F] {cv : Conv F} {d : Dicts} {oldM newM : MFields}
  {labels : List (VMap.Path × Option (List Char))} {extra : List VMap.Path} {flux flux' : VMap.Path → Bool}
  {provenance : Node (Val F) → Node (Val F) → Except ConvErr (Node (Val F))}
  {custom custom' : VMap.Path → Handler → Node (Val F) → Node (Val F) → Except ConvErr (Node (Val F))}

theorem mem_cocosPaths {p : VMap.Path} : p ∈ cocosPaths labels extra ↔ Flipped labels extra p := by
  have hf : ∀ w : List Char, p ∈ (labels.filterMap fun (q, label) =>
      if label = some w then some q else none) ↔ (p, some w) ∈ labels := by
    intro w
    simp only [List.mem_filterMap]
    constructor
    · rintro ⟨⟨q, lb⟩, h1, h2⟩
      simp only at h2
      split at h2
      · rename_i h3
        cases h2; subst h3; exact h1
      · cases h2
    · intro h
      exact ⟨_, h, by simp⟩
  unfold cocosPaths Flipped
  rw [List.mem_append, List.mem_append, hf "psi_like".toList, hf "dodpsi_like".toList, or_assoc]

/-- The sign changes of the map, for the paths of a dictionary only. -/
def within (m : MFields) (post : VMap.Path → Option (Node (Val F) → Except ConvErr (Node (Val F)))) (p : VMap.Path) :
    Option (Node (Val F) → Except ConvErr (Node (Val F))) :=
  if p ≠ [] ∧ (metaAt (.struct m) p).isSome = true then post p else none

theorem within_some {m : MFields} {post : VMap.Path → Option (Node (Val F) → Except ConvErr (Node (Val F)))} {p : VMap.Path}
    (h : within m post p ≠ none) : post p ≠ none ∧ p ≠ [] ∧ ∃ x, metaAt (.struct m) p = some x := by
  unfold within at h
  split at h
  · rename_i h1
    exact ⟨h, h1.1, Option.isSome_iff_exists.1 h1.2⟩
  · exact absurd rfl h

theorem data_leaf {l : List Field} {m : MFields} (hs : Shows l m) {p : VMap.Path} {x : Meta} (hp : p ≠ [])
    (hx : metaAt (.struct m) p = some x) (h : ∀ f ∈ l, f.path = p → ¬ Container f.dtype) : ∃ y, x = .leaf y := by
  obtain ⟨f, hf, e, hk⟩ := hs.node p x hp hx
  have h1 := h f hf e
  cases x with
  | leaf y => exact ⟨y, rfl⟩
  | struct => exact absurd (Or.inl hk) h1
  | aos => exact absurd (Or.inr hk) h1

/-- Sign changes of the map to the old version are those of new fields with the meaning of flipped fields. -/
theorem cocosNew_claim (W : Versions d oldM newM) (L : Signs d labels extra) {f : Field} (hf : f ∈ d.new) :
    cocosNew cv (fun p => (buildMap d).toNew.lookup p) (cocosPaths labels extra) flux f.path ≠ none →
      ∃ o, Claim d f o ∧ Flipped labels extra o.path := by
  intro h
  obtain ⟨p, hp, h1⟩ := (C24_paths_back cv _ _ flux f.path).1 (by
    cases hc : cocosNew cv (fun p => (buildMap d).toNew.lookup p) (cocosPaths labels extra) flux f.path with
    | none => exact absurd hc h
    | some => rfl)
  have hfl := mem_cocosPaths.1 hp
  rcases h1 with h1 | ⟨h1, rfl⟩
  · obtain ⟨o, f', hc, h2, h3⟩ := (route_new W.given W.nested).entry _ _ h1
    cases field_once W.given.new.once hc.1 hf h3
    exact ⟨o, hc, h2 ▸ hfl⟩
  · obtain ⟨o, ho, e⟩ := L.known _ hfl ⟨f, hf, rfl⟩
    exact ⟨o, W.nested.reuse f hf o ho e.symm, e ▸ hfl⟩

/-- New fields with the meaning of an old field change their sign if the old field does. -/
theorem cocosNew_means (W : Versions d oldM newM) (T : Silent d) (L : Signs d labels extra) {f o : Field} (hm : Means d f o)
    (hn : ¬ Changed d f o) : cocosNew cv (fun p => (buildMap d).toNew.lookup p) (cocosPaths labels extra) flux f.path ≠ none ↔
      Flipped labels extra o.path := by
  have hf : f ∈ d.new := by
    rcases hm with ⟨hc, -⟩ | ⟨g, -, hf, -⟩
    · exact hc.1
    · exact hf
  constructor
  · intro h
    obtain ⟨o', hc, hfl⟩ := cocosNew_claim W L hf h
    rcases hm with ⟨hc', -⟩ | ⟨g, hg, -, -, ⟨e, -⟩ | ⟨e, -⟩⟩
    · cases W.given.claim_same hc' hc; exact hfl
    · exact absurd e (T.removed g hg f o' hc).2
    · obtain ⟨f'', o'', hc'', h1, h2⟩ := name_claim W.nested hg
      cases field_once W.given.new.once hc''.1 hf (h1.trans e.symm)
      cases W.given.claim_same hc'' hc
      rw [h2] at hfl
      exact absurd hfl (L.unnamed g hg).1
  · intro hfl
    have hc : Claim d f o := by
      rcases hm with ⟨hc, -⟩ | ⟨g, hg, -, -, ⟨-, e⟩ | ⟨-, e⟩⟩
      · exact hc
      · rw [e] at hfl; exact absurd hfl (L.unnamed g hg).1
      · rw [e] at hfl; exact absurd hfl (L.unnamed g hg).2
    have h1 : (cocosNew cv (fun p => (buildMap d).toNew.lookup p) (cocosPaths labels extra) flux f.path).isSome = true := by
      refine (C24_paths_back cv _ _ flux f.path).2 ⟨o.path, mem_cocosPaths.2 hfl, ?_⟩
      rcases (route_new W.given W.nested).here o f hc with h | ⟨h, h'⟩ | h
      · exact .inl h
      · exact .inr ⟨h', h⟩
      · have ho := fits_open W.given hc (same_fits hn)
        exact absurd ((nothing_both W.given hc).2 h) ho
    intro e
    rw [e] at h1
    cases h1

theorem cocosNew_some {path : VMap.Path → Option (Option VMap.Path)} {paths : List VMap.Path} {q : VMap.Path}
    (h : cocosNew cv path paths flux q ≠ none) : cocosNew cv path paths flux q = some (cocosChange cv (flux q)) := by
  unfold cocosNew at h ⊢
  split at h
  · rename_i h1; rw [if_pos h1]
  · exact absurd rfl h

theorem signs_proper_new (hs : ∀ x, Keeps (provenance x)) (hc : ∀ p h x, Keeps (custom p h x)) :
    Proper (cfg3ToNew d provenance custom (within oldM (cocosOld cv (cocosPaths labels extra) flux)) (storeVal cv)) := by
  refine (proper3 hs hc fun p f h => ?_).1
  unfold within at h
  split at h
  · unfold cocosOld at h
    split at h
    · cases h; exact keeps_cocos cv _
    · cases h
  · cases h

theorem signs_proper_old (hc : ∀ p h x, Keeps (custom p h x)) :
    Proper (cfg3ToOld d custom
      (within newM (cocosNew cv (fun p => (buildMap d).toNew.lookup p) (cocosPaths labels extra) flux)) (storeVal cv)) := by
  refine (proper3 (provenance := fun _ _ => .error .kind) (fun _ => ⟨fun _ _ _ _ h => (by cases h), fun _ _ h => (by cases h)⟩) hc
    fun p f h => ?_).2
  unfold within at h
  split at h
  · unfold cocosNew at h
    split at h
    · cases h; exact keeps_cocos cv _
    · cases h
  · cases h

theorem signs_leaf_new (W : Versions d oldM newM) (L : Signs d labels extra) :
    LeafPost (cfg3ToNew d provenance custom (within oldM (cocosOld cv (cocosPaths labels extra) flux)) (storeVal cv)) oldM := by
  intro p h
  obtain ⟨h1, h2, x, h3⟩ := within_some (show within oldM _ p ≠ none from h)
  have hfl : Flipped labels extra p := by
    apply mem_cocosPaths.1
    apply Classical.byContradiction
    intro hn
    exact h1 (by simp [cocosOld, hn])
  obtain ⟨y, rfl⟩ := data_leaf W.old h2 h3 fun f hf e => L.data f hf (e ▸ hfl)
  exact ⟨y, h3⟩

theorem signs_leaf_old (W : Versions d oldM newM) (L : Signs d labels extra) :
    LeafPost (cfg3ToOld d custom
      (within newM (cocosNew cv (fun p => (buildMap d).toNew.lookup p) (cocosPaths labels extra) flux)) (storeVal cv)) newM := by
  intro p h
  obtain ⟨h1, h2, x, h3⟩ := within_some (show within newM _ p ≠ none from h)
  obtain ⟨y, rfl⟩ := data_leaf W.new h2 h3 fun f hf e => by
    obtain ⟨o, hc, hfl⟩ := cocosNew_claim (cv := cv) (flux := flux) W L hf (e ▸ h1)
    exact L.dataNew f o hc hfl
  exact ⟨y, h3⟩

/-- Sign changes for paths that the source version does not have do not matter. -/
theorem signs_within_new (W : Versions d oldM newM) {source : Fields (Val F)} (ht : TypedF source oldM) (t : Node (Val F)) :
    copyIds (cfgSignsNew cv d labels extra flux provenance custom) source t =
    copyIds (cfg3ToNew d provenance custom (within oldM (cocosOld cv (cocosPaths labels extra) flux)) (storeVal cv)) source t :=
  Post.copyIds_post ht W.namesOld (fun p x hp hx => by simp [within, hp, hx, cfgSignsNew, cfg3ToNew, cfgOf]) t

theorem signs_within_old (W : Versions d oldM newM) {source : Fields (Val F)} (ht : TypedF source newM) (t : Node (Val F)) :
    copyIds (cfgSignsOld cv d labels extra flux custom) source t =
    copyIds (cfg3ToOld d custom
      (within newM (cocosNew cv (fun p => (buildMap d).toNew.lookup p) (cocosPaths labels extra) flux)) (storeVal cv)) source t :=
  Post.copyIds_post ht W.namesNew (fun p x hp hx => by simp [within, hp, hx, cfgSignsOld, cfg3ToOld, cfgOf]) t

theorem value_meta {m : MFields} {source : Fields (Val F)} (ht : TypedF source m) {A : Addr} {v : Val F}
    (hv : ValueAt (.struct source) A v) : (metaAt (.struct m) (Convert.names A)).isSome = true := by
  obtain ⟨l, hx, -⟩ := hv
  rw [typed_leaf_at (tm := .struct m) (by simpa only [Typed] using ht) hx]
  rfl

theorem place_ne {A B : Addr} (h : Place34 d A B) : Convert.names A ≠ [] ∧ Convert.names B ≠ [] := by
  obtain ⟨a1, n, b1, k, rfl, rfl, -⟩ := carried_last h
  simp [Convert.names]

theorem negated_read {l : LeafMeta} {v : Val F} (hv : Held l v) (hstr : l.type ≠ .str) {fl : Bool} {y : Node (Val F)}
    (h : cocosChange cv fl (.leaf l (some v)) = .ok y) (hne : Value.isEmpty v = false) :
    ∃ s w, y = .leaf l s ∧ readValue l s = w ∧ Negated v w ∧
      ((l.ndim = 0 → Real w) → s = some w ∧ Value.isEmpty w = false) := by
  obtain ⟨w, hw⟩ := negVal_some hv.1 hstr
  rw [negate_leaf cv hv.1 hw] at h
  cases h
  refine ⟨_, w, rfl, ?_, negVal_negated hw, fun hr => ⟨?_, by rw [negVal_isEmpty hw]; exact hne⟩⟩
  · obtain ⟨s2, h5, h6, -⟩ := C09_assign_read cv l w (negVal_fits hw hv.1)
    have e : setValue cv false l (.val w) = .ok (if l.ndim = 0 && eqDefault w then none else some w) := by
      simp [setValue, assigned, castValue_fits cv (negVal_fits hw hv.1)]
    rw [e] at h5
    cases h5
    exact h6
  · by_cases h0 : l.ndim = 0
    · have := hr h0
      simp only [Real] at this
      simp [h0, this]
    · simp [h0]

/-- **C74.** After converting an IDS from version 3 to version 4, a value of a labelled or listed field reads as its negative at the
place with the same meaning, and any other value is the same there. -/
theorem C74_new (W : Versions d oldM newM) (T : Silent d) (S : NoSource d) (L : Signs d labels extra)
    (hs : ∀ x, Keeps (provenance x)) (hc : ∀ p h x, Keeps (custom p h x)) (source : Fields (Val F)) (ht : TypedF source oldM)
    (result : Node (Val F))
    (h : copyIds (cfgSignsNew cv d labels extra flux provenance custom) source (Meta.struct newM).fresh = .ok result)
    (A B : Addr) (v : Val F) (hv : ValueAt (.struct source) A v) (hpl : Place34 d A B) (hk : Kept34 d A)
    (hone : SingleOld d source A) (hu : Untouched source B)
    (l : LeafMeta) (hl : metaAt (.struct newM) (Convert.names B) = some (.leaf l)) (hh : Held l v) :
    (Flipped labels extra (Convert.names A) → l.type ≠ .str →
      ∃ s w, result.at B = some (.leaf l s) ∧ readValue l s = w ∧ Negated v w ∧ ((l.ndim = 0 → Real w) → ValueAt result B w)) ∧
    (¬ Flipped labels extra (Convert.names A) → ValueAt result B v) := by
  rw [signs_within_new W ht] at h
  obtain ⟨l1, w, h1, h2, y, h3, h4⟩ := C73_value_new W T S (signs_proper_new hs hc) (signs_leaf_new W L) source ht result h A B v
    hv hpl hk hone hu
  rw [hl] at h1; cases h1
  rw [held_store cv hh] at h2; cases h2
  have e : within oldM (cocosOld cv (cocosPaths labels extra) flux) (Convert.names A) =
      cocosOld cv (cocosPaths labels extra) flux (Convert.names A) := by
    simp only [within]
    rw [if_pos ⟨(place_ne hpl).1, value_meta ht hv⟩]
  rw [e] at h4
  constructor
  · intro hf hstr
    rw [show cocosOld cv (cocosPaths labels extra) flux (Convert.names A) = some (cocosChange cv (flux (Convert.names A))) from
      if_pos (mem_cocosPaths.2 hf)] at h4
    obtain ⟨l0, -, hne⟩ := id hv
    obtain ⟨s, w, rfl, h5, h6, h7⟩ := negated_read hh hstr h4 hne
    exact ⟨s, w, h3, h5, h6, fun hr => ⟨l, by rw [h3, (h7 hr).1], (h7 hr).2⟩⟩
  · intro hf
    rw [show cocosOld cv (cocosPaths labels extra) flux (Convert.names A) = none from
      if_neg fun h' => hf (mem_cocosPaths.1 h')] at h4
    simp only at h4
    obtain ⟨l0, -, hne⟩ := hv
    exact ⟨l, by rw [h3, h4], hne⟩

/-- **C74.** The same for converting from version 4 to version 3: values at places with the meaning of a labelled or listed field
of version 3 change their sign, and no others. -/
theorem C74_old (W : Versions d oldM newM) (T : Silent d) (L : Signs d labels extra)
    (hc : ∀ p h x, Keeps (custom p h x)) (source : Fields (Val F)) (ht : TypedF source newM)
    (result : Node (Val F))
    (h : copyIds (cfgSignsOld cv d labels extra flux custom) source (Meta.struct oldM).fresh = .ok result)
    (A B : Addr) (v : Val F) (hv : ValueAt (.struct source) A v) (hpl : Place34 d B A) (hk : Kept34 d B)
    (hone : SingleNew d source A)
    (l : LeafMeta) (hl : metaAt (.struct oldM) (Convert.names B) = some (.leaf l)) (hh : Held l v) :
    (Flipped labels extra (Convert.names B) → l.type ≠ .str →
      ∃ s w, result.at B = some (.leaf l s) ∧ readValue l s = w ∧ Negated v w ∧ ((l.ndim = 0 → Real w) → ValueAt result B w)) ∧
    (¬ Flipped labels extra (Convert.names B) → ValueAt result B v) := by
  rw [signs_within_old W ht] at h
  obtain ⟨l1, w, h1, h2, y, h3, h4⟩ := C73_value_old W T (signs_proper_old hc) (signs_leaf_old W L) source ht result h A B v
    hv hpl hk hone
  rw [hl] at h1; cases h1
  rw [held_store cv hh] at h2; cases h2
  have e : within newM (cocosNew cv (fun p => (buildMap d).toNew.lookup p) (cocosPaths labels extra) flux) (Convert.names A) =
      cocosNew cv (fun p => (buildMap d).toNew.lookup p) (cocosPaths labels extra) flux (Convert.names A) := by
    simp only [within]
    rw [if_pos ⟨(place_ne hpl).2, value_meta ht hv⟩]
  rw [e] at h4
  have key : cocosNew cv (fun p => (buildMap d).toNew.lookup p) (cocosPaths labels extra) flux (Convert.names A) ≠ none ↔
      Flipped labels extra (Convert.names B) := by
    obtain ⟨b1, k, a1, n, -, -, o, f, hm, hpb, hp⟩ := carried_last hpl
    rw [List.nil_append] at hp hpb
    have := cocosNew_means (cv := cv) (flux := flux) W T L hm (hk f o hm hpb)
    rwa [hp, hpb] at this
  constructor
  · intro hf hstr
    rw [cocosNew_some (key.2 hf)] at h4
    obtain ⟨l0, -, hne⟩ := id hv
    obtain ⟨s, w, rfl, h5, h6, h7⟩ := negated_read hh hstr h4 hne
    exact ⟨s, w, h3, h5, h6, fun hr => ⟨l, by rw [h3, (h7 hr).1], (h7 hr).2⟩⟩
  · intro hf
    have e2 : cocosNew cv (fun p => (buildMap d).toNew.lookup p) (cocosPaths labels extra) flux (Convert.names A) = none :=
      Classical.byContradiction fun hn => hf (key.1 hn)
    rw [e2] at h4
    simp only at h4
    obtain ⟨l0, -, hne⟩ := hv
    exact ⟨l, by rw [h3, h4], hne⟩

theorem negated_negVal {v w : Val F} (h : Negated v w) : negVal v = some w := by
  cases h with
  | int => rfl
  | flt => rfl
  | cpx => rfl
  | arr t s x y hlen h =>
    simp only [negVal, Option.some.injEq, Val.arr.injEq, true_and]
    refine List.ext_getElem? fun k => ?_
    rw [List.getElem?_map]
    cases hx : x[k]? with
    | none =>
      rw [Option.map_none]
      symm
      rw [List.getElem?_eq_none_iff, ← hlen]
      exact List.getElem?_eq_none_iff.1 hx
    | some a =>
      obtain ⟨b, hb, hn⟩ := h k a hx
      rw [hb, Option.map_some]
      cases hn with
      | int i hi => simp [negScalar, negInt32, hi]
      | smallest => rfl
      | flt => rfl
      | cpx => rfl

/-- **C74, there and back.** Converting an IDS from version 3 to version 4 and back gives the same values again (if their
negatives are no default values of nodes without dimensions): labelled and listed values are negated twice, others never. -/
theorem C74_round_trip_new (hneg : ∀ x : F, FloatModel.neg (FloatModel.neg x) = x) (W : Versions d oldM newM) (T : Silent d)
    (S : NoSource d) (L : Signs d labels extra)
    (hs : ∀ x, Keeps (provenance x)) (hc : ∀ p h x, Keeps (custom p h x)) (hc' : ∀ p h x, Keeps (custom' p h x))
    (source data : Fields (Val F)) (ht : TypedF source oldM) (result : Node (Val F))
    (there : copyIds (cfgSignsNew cv d labels extra flux provenance custom) source (Meta.struct newM).fresh = .ok (.struct data))
    (back : copyIds (cfgSignsOld cv d labels extra flux' custom') data (Meta.struct oldM).fresh = .ok result)
    (A B : Addr) (v : Val F) (l l' : LeafMeta)
    (hx : (Node.struct source).at A = some (.leaf l (some v))) (hne : Value.isEmpty v = false)
    (hpl : Place34 d A B) (hk : Kept34 d A) (hone : SingleOld d source A) (hone' : SingleNew d data B) (hu : Untouched source B)
    (hl' : metaAt (.struct newM) (Convert.names B) = some (.leaf l')) (hv : Held l v) (hv' : Held l' v)
    (hn : Flipped labels extra (Convert.names A) → l.type ≠ .str ∧ l'.type ≠ .str ∧ Ints32 v ∧
      ∀ w, Negated v w → (l'.ndim = 0 → Real w) ∧ (l.ndim = 0 → Real w)) : ValueAt result A v := by
  have htd : TypedF data newM := by
    have h := there
    rw [signs_within_new W ht] at h
    have : Typed (.struct data) (.struct newM) := (copyFields_plan (signs_proper_new hs hc) [] [] source (typed_fresh _) h).2
    simpa only [Typed] using this
  have hl := typed_leaf_at (tm := .struct oldM) (by simpa only [Typed] using ht) hx
  obtain ⟨h1, h2⟩ := C74_new W T S L hs hc source ht _ there A B v ⟨l, hx, hne⟩ hpl hk hone hu l' hl' hv'
  by_cases hf : Flipped labels extra (Convert.names A)
  · obtain ⟨hstr, hstr', h32, hd⟩ := hn hf
    obtain ⟨s, w, h3, h4, h5, h6⟩ := h1 hf hstr'
    have hw := h6 (hd w h5).1
    have hnv := negated_negVal h5
    obtain ⟨s2, v2, h7, h8, h9, h10⟩ := (C74_old W T L hc' data htd _ back B A w hw hpl hk hone' l hl
      ⟨negVal_fits hnv hv.1, (hd w h5).2⟩).1 hf hstr
    have := negated_negVal h9
    rw [negVal_negVal hneg h32 hnv] at this
    cases this
    exact h10 hv.2
  · exact (C74_old W T L hc' data htd _ back B A v (h2 hf) hpl hk hone' l hl hv).2 hf

/-- **C74, there and back.** The same for converting from version 4 to version 3 and back. -/
theorem C74_round_trip_old (hneg : ∀ x : F, FloatModel.neg (FloatModel.neg x) = x) (W : Versions d oldM newM) (T : Silent d)
    (S : NoSource d) (L : Signs d labels extra)
    (hs : ∀ x, Keeps (provenance x)) (hc : ∀ p h x, Keeps (custom p h x)) (hc' : ∀ p h x, Keeps (custom' p h x))
    (source data : Fields (Val F)) (ht : TypedF source newM) (result : Node (Val F))
    (there : copyIds (cfgSignsOld cv d labels extra flux' custom') source (Meta.struct oldM).fresh = .ok (.struct data))
    (back : copyIds (cfgSignsNew cv d labels extra flux provenance custom) data (Meta.struct newM).fresh = .ok result)
    (A B : Addr) (v : Val F) (l l' : LeafMeta)
    (hx : (Node.struct source).at A = some (.leaf l (some v))) (hne : Value.isEmpty v = false)
    (hpl : Place34 d B A) (hk : Kept34 d B) (hone : SingleNew d source A) (hone' : SingleOld d data B) (hu : Untouched data A)
    (hl' : metaAt (.struct oldM) (Convert.names B) = some (.leaf l')) (hv : Held l v) (hv' : Held l' v)
    (hn : Flipped labels extra (Convert.names B) → l.type ≠ .str ∧ l'.type ≠ .str ∧ Ints32 v ∧
      ∀ w, Negated v w → (l'.ndim = 0 → Real w) ∧ (l.ndim = 0 → Real w)) : ValueAt result A v := by
  have htd : TypedF data oldM := by
    have h := there
    rw [signs_within_old W ht] at h
    have : Typed (.struct data) (.struct oldM) := (copyFields_plan (signs_proper_old hc') [] [] source (typed_fresh _) h).2
    simpa only [Typed] using this
  have hl := typed_leaf_at (tm := .struct newM) (by simpa only [Typed] using ht) hx
  obtain ⟨h1, h2⟩ := C74_old W T L hc' source ht _ there A B v ⟨l, hx, hne⟩ hpl hk hone l' hl' hv'
  by_cases hf : Flipped labels extra (Convert.names B)
  · obtain ⟨hstr, hstr', h32, hd⟩ := hn hf
    obtain ⟨s, w, h3, h4, h5, h6⟩ := h1 hf hstr'
    have hw := h6 (hd w h5).1
    have hnv := negated_negVal h5
    obtain ⟨s2, v2, h7, h8, h9, h10⟩ := (C74_new W T S L hs hc data htd _ back B A w hw hpl hk hone' hu l hl
      ⟨negVal_fits hnv hv.1, (hd w h5).2⟩).1 hf hstr
    have := negated_negVal h9
    rw [negVal_negVal hneg h32 hnv] at this
    cases this
    exact h10 hv.2
  · exact (C74_new W T S L hs hc data htd _ back B A v (h2 hf) hpl hk hone' hu l hl hv).2 hf

end

/-! ### Example -/

/-- The labelled field `p` of an array is called `q` in version 4. The listed field `y` is in neither version. -/
def signDicts : Dicts where
  version := 38
  same a b := a = b
  old := [vmField [['c']] tArray, vmField [['c'], ['p']] tFlt1, vmField [['c'], ['x']] tFlt1]
  new := [vmField [['c']] tArray, vmField [['c'], ['q']] tFlt1 (vmRename ['p']), vmField [['c'], ['x']] tFlt1]

def signLabels : List (VMap.Path × Option (List Char)) :=
  [([['c']], none), ([['c'], ['p']], some "psi_like".toList), ([['c'], ['x']], some "ip_like".toList)]
def signExtra : List VMap.Path := [[['c'], ['y']]]

def signOld : MFields := .cons ['c'] (.aos (.cons ['p'] (.leaf fltLeaf) (.cons ['x'] (.leaf fltLeaf) .nil))) .nil
def signNew : MFields := .cons ['c'] (.aos (.cons ['q'] (.leaf fltLeaf) (.cons ['x'] (.leaf fltLeaf) .nil))) .nil

theorem sign_given : Given signDicts := given_of_check (by decide +kernel)

theorem sign_versions : Versions signDicts signOld signNew where
  given := sign_given
  nested := (level_of_check sign_given.old sign_given.new (by decide +kernel)).nested sign_given
  announced := announced_of_check sign_given (by decide +kernel)
  kinds := by
    intro a b h
    have : a = b := by simpa [signDicts] using h
    subst this
    exact ⟨Iff.rfl, Iff.rfl⟩
  old := shows_of_check (by decide +kernel)
  new := shows_of_check (by decide +kernel)
  namesOld := by simp [signOld, WFMFields, WFMeta, mnames]
  namesNew := by simp [signNew, WFMFields, WFMeta, mnames]

theorem sign_described {g : VMap.Path} : ¬ Described signDicts g := by
  intro h
  obtain ⟨f, hf, e⟩ := h.identifier
  have : signDicts.old.all (fun f => !decide (f.path.getLast? = some wIdentifier)) = true := by decide +kernel
  simp only [List.all_eq_true] at this
  have := this f hf
  rw [e, List.getLast?_concat] at this
  simp at this

theorem sign_silent : Silent signDicts where
  kept _ h := absurd h sign_described
  removed _ h := absurd h sign_described
  around _ h := absurd h sign_described
  dataOld _ h := absurd h sign_described
  dataNew _ h := absurd h sign_described
  same _ h := absurd h sign_described

theorem sign_claims {f o : Field} (h : Claim signDicts f o) : ¬ Changed signDicts f o ∧
    (o.path = [['c']] ∧ f.path = [['c']] ∧ f.dtype = tArray ∧ o.dtype = tArray ∨
      (o.path = [['c'], ['p']] ∨ o.path = [['c'], ['x']]) ∧ f.dtype = tFlt1) := by
  have h1 := claim_claimB sign_given.old sign_given.new h
  have h2 : signDicts.new.all (fun f => signDicts.old.all fun o => !claimB signDicts f o || (!changedB signDicts f o &&
    decide (o.path = [['c']] ∧ f.path = [['c']] ∧ f.dtype = tArray ∧ o.dtype = tArray ∨
      (o.path = [['c'], ['p']] ∨ o.path = [['c'], ['x']]) ∧ f.dtype = tFlt1))) = true := by decide +kernel
  simp only [List.all_eq_true] at h2
  have h3 := h2 f h.1 o h.2.1
  rw [h1] at h3
  simp only [Bool.not_true, Bool.false_or, Bool.and_eq_true, decide_eq_true_eq, Bool.not_eq_true'] at h3
  refine ⟨fun hch => ?_, h3.2⟩
  rw [changed_changedB hch] at h3
  exact absurd h3.1 (by simp)

theorem sign_noSource : NoSource signDicts := by
  intro f o hc
  rcases (sign_claims hc).2 with ⟨h, -⟩ | ⟨h | h, -⟩ <;> rw [h] <;> decide +kernel

theorem sign_flipped {p : VMap.Path} : Flipped signLabels signExtra p ↔ p = [['c'], ['p']] ∨ p = [['c'], ['y']] := by
  rw [← mem_cocosPaths, show cocosPaths signLabels signExtra = [[['c'], ['p']], [['c'], ['y']]] by decide +kernel]
  simp

theorem sign_signs : Signs signDicts signLabels signExtra where
  known p hp hn := by
    rcases sign_flipped.1 hp with rfl | rfl
    · exact ⟨vmField [['c'], ['p']] tFlt1, by simp [signDicts], rfl⟩
    · obtain ⟨f, hf, e⟩ := hn
      have : signDicts.new.all (fun f => !decide (f.path = [['c'], ['y']])) = true := by decide +kernel
      simp only [List.all_eq_true] at this
      have := this f hf
      rw [e] at this
      simp at this
  data o ho h := by
    have h2 : signDicts.old.all (fun o => decide (o.path = [['c']]) || decide (o.dtype = tFlt1)) = true := by decide +kernel
    simp only [List.all_eq_true] at h2
    have h3 := h2 o ho
    have h4 : o.path ≠ [['c']] := by rcases sign_flipped.1 h with e | e <;> rw [e] <;> simp
    simp only [h4, decide_false, Bool.false_or, decide_eq_true_eq] at h3
    rw [h3]
    rintro (h | h) <;> exact absurd h (by decide +kernel)
  dataNew f o hc h := by
    rcases (sign_claims hc).2 with ⟨e, -⟩ | ⟨-, e⟩
    · rcases sign_flipped.1 h with e' | e' <;> rw [e] at e' <;> simp at e'
    · rw [e]
      rintro (h | h) <;> exact absurd h (by decide +kernel)
  unnamed _ h := absurd h sign_described

def signData : Fields (Val Int) :=
  .present ['c'] (.aos (.cons ['p'] (.leaf fltLeaf) (.cons ['x'] (.leaf fltLeaf) .nil))
    (.cons (.present ['p'] (fltNode 2) (.present ['x'] (fltNode 3) .nil)) .nil)) .nil
def signMoved : Fields (Val Int) :=
  .present ['c'] (.aos (.cons ['q'] (.leaf fltLeaf) (.cons ['x'] (.leaf fltLeaf) .nil))
    (.cons (.present ['q'] (fltNode (-2)) (.present ['x'] (fltNode 3) .nil)) .nil)) .nil

def signToNew : Cfg (Val Int) := cfgSignsNew changeConv signDicts signLabels signExtra (fun _ => false) d34Prov noCustom
def signToOld : Cfg (Val Int) := cfgSignsOld changeConv signDicts signLabels signExtra (fun _ => false) noCustom

theorem sign_there : copyIds signToNew signData (Meta.struct signNew).fresh = .ok (.struct signMoved) := by
  with_unfolding_all rfl
theorem sign_back : copyIds signToOld signMoved (Meta.struct signOld).fresh = .ok (.struct signData) := by
  with_unfolding_all rfl

theorem sign_typed : TypedF signData signOld ∧ TypedF signMoved signNew := by
  simp [signData, signMoved, signOld, signNew, TypedF, Typed, TypedE, fltNode]

theorem keeps_d34Prov (x : Node (Val Int)) : Keeps (d34Prov x) := by
  refine ⟨fun t y m ht h => ?_, fun g y h => ?_⟩
  · unfold d34Prov at h
    split at h
    · cases h
      cases m with
      | struct c =>
        cases c with
        | nil => simp [Typed, TypedF] at ht
        | cons k m c =>
          cases c with
          | nil =>
            have h1 : _ ∧ _ ∧ _ := ht
            obtain ⟨h1, rfl, -⟩ := h1
            exact ⟨h1, rfl, trivial⟩
          | cons _ _ _ => simp [Typed, TypedF] at ht
      | leaf l => simp [Typed] at ht
      | aos c => simp [Typed] at ht
    · cases h; exact ht
  · unfold d34Prov at h
    split at h
    · cases h; exact ⟨_, rfl⟩
    · cases h; exact ⟨_, rfl⟩

theorem keeps_noCustom (p : VMap.Path) (h : Handler) (x : Node (Val Int)) : Keeps (noCustom p h x) :=
  ⟨fun _ _ _ _ h => (by cases h), fun _ _ h => (by cases h)⟩

theorem sign_means {f o : Field} (h : Means signDicts f o) : Claim signDicts f o := by
  rcases h with ⟨h, -⟩ | ⟨g, hg, -⟩
  · exact h
  · exact absurd hg sign_described

theorem sign_kept (A : Addr) : Kept34 signDicts A := fun _ _ h _ => (sign_claims (sign_means h)).1

theorem sign_single (c : Fields (Val Int)) (s : Option Nat) (R : Addr) (hR : ∀ n i, (n, some i) ∉ R) :
    SingleOld signDicts c ((['c'], s) :: R) ∧ SingleNew signDicts c ((['c'], s) :: R) := by
  have first : ∀ a n i r, ((['c'], s) :: R : Addr) = a ++ (n, some i) :: r → a = [] ∧ n = ['c'] := by
    intro a n i r e
    cases a with
    | nil => cases e; exact ⟨rfl, rfl⟩
    | cons x a =>
      exfalso
      simp only [List.cons_append, List.cons.injEq] at e
      exact hR n i (e.2 ▸ List.mem_append_right _ (List.mem_cons_self ..))
  constructor
  · rintro a n i r m e h - - ⟨f, o, hc, hp, ht⟩
    obtain ⟨rfl, rfl⟩ := first _ _ _ _ h
    rcases (sign_claims hc).2 with ⟨-, -, h1, -⟩ | ⟨h1, -⟩
    · rw [h1] at ht; exact absurd ht (by decide +kernel)
    · rw [hp] at h1; exact absurd h1 (by decide +kernel)
  · rintro a n i r m e h - - ⟨f, o, hc, hp, ht⟩
    obtain ⟨rfl, rfl⟩ := first _ _ _ _ h
    rcases (sign_claims hc).2 with ⟨-, -, -, h1⟩ | ⟨-, h1⟩
    · rw [h1] at ht; exact absurd ht (by decide +kernel)
    · have h2 : signDicts.new.all (fun f => !decide (f.path = [['c']]) || !decide (f.dtype = tFlt1)) = true := by decide +kernel
      simp only [List.all_eq_true] at h2
      have := h2 f hc.1
      rw [h1, show f.path = [['c']] from hp] at this
      simp at this

theorem sign_at (n k : List Char) (f o : Field) (hf : f ∈ signDicts.new) (ho : o ∈ signDicts.old) (hfp : f.path = [['c'], k])
    (hop : o.path = [['c'], n]) (hc : claimB signDicts f o = true) :
    Place34 signDicts [(['c'], some 0), (n, none)] [(['c'], some 0), (k, none)] := by
  have m : ∀ f o, f ∈ signDicts.new → o ∈ signDicts.old → claimB signDicts f o = true → Means signDicts f o := fun f o hf ho hc =>
    .inl ⟨(claim_iff sign_given.old sign_given.new hf ho).2 hc, fun ⟨_, hg, _⟩ => sign_described hg⟩
  have hm := m (vmField [['c']] tArray) (vmField [['c']] tArray) (by simp [signDicts]) (by simp [signDicts]) (by decide +kernel)
  exact .step hm rfl rfl (.inl ⟨(sign_claims (sign_means hm)).1, rfl⟩) (.here (m f o hf ho hc) hop hfp)

theorem sign_untouched (c : Fields (Val Int)) (i : Option Nat) (B : Addr) : Untouched c ((['c'], i) :: B) := by
  refine .inr ⟨?_, ?_⟩
  · simp only [Convert.names, List.map_cons, wProvenance]
    intro h
    exact absurd (List.cons_prefix_cons.1 h).1 (by decide +kernel)
  · simp only [Convert.names, List.map_cons, wProvenance]
    intro h
    exact absurd (List.cons_prefix_cons.1 h).1 (by decide +kernel)

theorem sign_place : Place34 signDicts [(['c'], some 0), (['p'], none)] [(['c'], some 0), (['q'], none)] ∧
    Place34 signDicts [(['c'], some 0), (['x'], none)] [(['c'], some 0), (['x'], none)] :=
  ⟨sign_at _ _ (vmField [['c'], ['q']] tFlt1 (vmRename ['p'])) (vmField [['c'], ['p']] tFlt1) (by simp [signDicts])
      (by simp [signDicts]) rfl rfl (by decide +kernel),
    sign_at _ _ (vmField [['c'], ['x']] tFlt1) (vmField [['c'], ['x']] tFlt1) (by simp [signDicts])
      (by simp [signDicts]) rfl rfl (by decide +kernel)⟩

def fltVal (x : Int) : Val Int := .arr .flt [1] [.flt x]

theorem held_flt (x : Int) : Held fltLeaf (fltVal x) :=
  ⟨rfl, fun h => absurd h (by decide)⟩

example : ∃ s w, (Node.struct signMoved).at [(['c'], some 0), (['q'], none)] = some (.leaf fltLeaf s) ∧ readValue fltLeaf s = w ∧
    Negated (fltVal 2) w ∧ ((fltLeaf.ndim = 0 → Real w) → ValueAt (.struct signMoved) [(['c'], some 0), (['q'], none)] w) :=
  (C74_new sign_versions sign_silent sign_noSource sign_signs keeps_d34Prov keeps_noCustom signData sign_typed.1 _ sign_there _ _ _
    ⟨fltLeaf, rfl, by decide +kernel⟩ sign_place.1 (sign_kept _) (sign_single _ _ _ (by simp)).1 (sign_untouched _ _ _) fltLeaf rfl
    (held_flt 2)).1 (sign_flipped.2 (.inl rfl)) (by decide)

example : ValueAt (.struct signMoved) [(['c'], some 0), (['x'], none)] (fltVal 3) :=
  (C74_new sign_versions sign_silent sign_noSource sign_signs keeps_d34Prov keeps_noCustom signData sign_typed.1 _ sign_there _ _ _
    ⟨fltLeaf, rfl, by decide +kernel⟩ sign_place.2 (sign_kept _) (sign_single _ _ _ (by simp)).1 (sign_untouched _ _ _) fltLeaf rfl
    (held_flt 3)).2 fun h => absurd (sign_flipped.1 h) (by decide +kernel)

example : ∃ s w, (Node.struct signData).at [(['c'], some 0), (['p'], none)] = some (.leaf fltLeaf s) ∧ readValue fltLeaf s = w ∧
    Negated (fltVal (-2)) w ∧ ((fltLeaf.ndim = 0 → Real w) → ValueAt (.struct signData) [(['c'], some 0), (['p'], none)] w) :=
  (C74_old sign_versions sign_silent sign_signs keeps_noCustom signMoved sign_typed.2 _ sign_back _ _ _
    ⟨fltLeaf, rfl, by decide +kernel⟩ sign_place.1 (sign_kept _) (sign_single _ _ _ (by simp)).2 fltLeaf rfl
    (held_flt (-2))).1 (sign_flipped.2 (.inl rfl)) (by decide)

theorem sign_neg (x : Int) : FloatModel.neg (FloatModel.neg x) = x := Int.neg_neg x

example : ValueAt (.struct signData) [(['c'], some 0), (['p'], none)] (fltVal 2) :=
  C74_round_trip_new sign_neg sign_versions sign_silent sign_noSource sign_signs keeps_d34Prov keeps_noCustom keeps_noCustom
    signData signMoved sign_typed.1 _ sign_there sign_back _ _ _ fltLeaf fltLeaf rfl (by decide +kernel) sign_place.1 (sign_kept _)
    (sign_single _ _ _ (by simp)).1 (sign_single _ _ _ (by simp)).2 (sign_untouched _ _ _) rfl (held_flt 2) (held_flt 2)
    fun _ => ⟨by decide, by decide, by simp [Ints32, fltVal], fun _ _ => ⟨fun h => absurd h (by decide), fun h => absurd h (by decide)⟩⟩

example : ValueAt (.struct signMoved) [(['c'], some 0), (['q'], none)] (fltVal (-2)) :=
  C74_round_trip_old sign_neg sign_versions sign_silent sign_noSource sign_signs keeps_d34Prov keeps_noCustom keeps_noCustom
    signMoved signData sign_typed.2 _ sign_back sign_there _ _ _ fltLeaf fltLeaf rfl (by decide +kernel) sign_place.1 (sign_kept _)
    (sign_single _ _ _ (by simp)).2 (sign_single _ _ _ (by simp)).1 (sign_untouched _ _ _) rfl (held_flt (-2)) (held_flt (-2))
    fun _ => ⟨by decide, by decide, by simp [Ints32, fltVal], fun _ _ => ⟨fun h => absurd h (by decide), fun h => absurd h (by decide)⟩⟩

/-! ### Limit -/

/-- The listed field `p` is only in version 4, where it has replaced `a`. -/
def lateDicts : Dicts where
  version := 38
  same a b := a = b
  old := [vmField [['a']] tFlt1]
  new := [vmField [['p']] tFlt1 (vmRename ['a'])]

def lateOld (x : Int) : Fields (Val Int) := .present ['a'] (fltNode x) .nil
def lateNew (x : Int) : Fields (Val Int) := .present ['p'] (fltNode x) .nil

/-- Without the assumption that a listed path of the new version is a path of the old version, C74 fails: the value is converted
without a change of sign, and changes its sign on the way back. -/
theorem C74_listed_limit : Given lateDicts ∧ Claim lateDicts (vmField [['p']] tFlt1 (vmRename ['a'])) (vmField [['a']] tFlt1) ∧
    (∀ x : Int, copyIds (cfgSignsNew changeConv lateDicts [] [[['p']]] (fun _ => false) d34Prov noCustom) (lateOld x)
      (Meta.struct (.cons ['p'] (.leaf fltLeaf) .nil)).fresh = .ok (.struct (lateNew x))) ∧
    ∀ x : Int, copyIds (cfgSignsOld changeConv lateDicts [] [[['p']]] (fun _ => false) noCustom) (lateNew x)
      (Meta.struct (.cons ['a'] (.leaf fltLeaf) .nil)).fresh = .ok (.struct (lateOld (-x))) := by
  have hg : Given lateDicts := given_of_check (by decide +kernel)
  refine ⟨hg, (claim_iff hg.old hg.new (by simp [lateDicts]) (by simp [lateDicts])).2 (by decide +kernel), fun x => ?_, fun x => ?_⟩
  · with_unfolding_all rfl
  · with_unfolding_all rfl

end Verif.Props
