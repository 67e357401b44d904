import Verif.Lemmas.ConvertOffOk
import Verif.Props.ConvertCocos
/-
C73, C74: conversions between major versions 3 and 4 do not raise.
-/
set_option linter.unusedSectionVars false
namespace Verif.Props
open Verif.Ids Verif.TreeSpec Verif.DiffSpec Verif.Convert Verif.ConvertSpec
open Verif.VMap hiding Path Nbc metaAt_append
open Verif.VMapSpec hiding OneToOne
open Verif.Convert.Ruled

section
variable {V : Type} [Value V] {d : Dicts} {oldM newM : MFields} {provenance : Node V → Node V → Except ConvErr (Node V)}
  {custom : VMap.Path → Handler → Node V → Node V → Except ConvErr (Node V)}
  {post : VMap.Path → Option (Node V → Except ConvErr (Node V))}
  {store : LeafMeta → V → Except ConvErr (Option V)}

theorem fit_data {x y : Meta} {f o : Field} (hx : IsKind f.dtype x) (hy : IsKind o.dtype y) (h1 : ¬ Container f.dtype)
    (h2 : ¬ Container o.dtype) : Fit (V := V) none x y :=
  fit_same hx hy ⟨⟨fun e => absurd (.inl e) h1, fun e => absurd (.inl e) h2⟩,
    ⟨fun e => absurd (.inr e) h1, fun e => absurd (.inr e) h2⟩⟩

theorem smooth3_new (W : Versions d oldM newM) (T : Silent d) (hleft : ∀ g, Left d g → post g.path = none) :
    Smooth (cfgNames d custom post store) oldM newM := by
  refine (leg3_new W T).smooth (by rintro a ⟨g, hg, rfl⟩; exact hleft g hg) fun o f x y hm hn _ _ kx ky => ?_
  rcases means_cases W T hm with ⟨hc, h1, -⟩ | ⟨-, h2, h3, -, -, h5, -⟩
  · have hn : (names3 d).toNew.lookup o.path ≠ some none := hn
    rw [(ok_new W.given W.nested T).other _ h1] at hn
    have hn' : (buildMap d).toOld.lookup f.path ≠ some none := fun e => hn ((nothing_both W.given hc).1 e)
    simp only [cfgNames, cfgOf]
    cases hl : (buildMap d).changeNew.lookup o.path with
    | none =>
      have := W.kinds_same ((W.changed_new hc hn').1 hl)
      exact fit_same kx ky ⟨this.1.symm, this.2.symm⟩
    | some h =>
      simp only [Option.map_some]
      rcases changeOf_cases (custom o.path) h with ⟨e, h4⟩ | ⟨e, u, h4⟩
      · rw [h4]
        subst e
        exact fit_between kx ky ((change_array W.given hc ((W.array_new hc).1 hl)).symm.imp And.symm And.symm)
      · rw [h4]; trivial
  · simp only [cfgNames, cfgOf, h5]
    exact fit_data kx ky h3 h2

theorem smooth3_old (W : Versions d oldM newM) (T : Silent d) : Smooth (cfg3ToOld d custom post store) newM oldM := by
  refine (leg3_old W T).smooth (fun _ h => h.elim) fun f o x y hm hn _ _ kx ky => ?_
  have hn : (map3 d).toOld.lookup f.path ≠ some none := hn
  simp only [cfg3ToOld, cfgOf, (map3_change d).2]
  rcases means_cases W T hm with ⟨hc, -, h1⟩ | ⟨-, h2, h3, -, -, -, h5⟩
  · rw [map3_old W.given W.nested T, (ok_old W.given W.nested T).other _ h1] at hn
    cases hl : (buildMap d).changeOld.lookup f.path with
    | none => exact fit_same kx ky (W.kinds_same ((change_none W.given W.announced hc hn).1 hl))
    | some h =>
      simp only [Option.map_some]
      rcases changeOf_cases (custom f.path) h with ⟨e, h4⟩ | ⟨e, u, h4⟩
      · rw [h4]
        subst e
        exact fit_between kx ky (change_array W.given hc hl)
      · rw [h4]; trivial
  · rw [h5]
    exact fit_data kx ky h2 h3

theorem runs3_new (W : Versions d oldM newM) (T : Silent d)
    (hleft : ∀ g, Left d g → post g.path = none) (source : Fields V) (ht : TypedF source oldM)
    (hstore : ∀ A v f o l, ValueAt (.struct source) A v → Means d f o → o.path = Convert.names A → ¬ Changed d f o →
      metaAt (.struct newM) f.path = some (.leaf l) → ∃ w, store l v = .ok w)
    (hcust : ∀ A x f o h m y, (Node.struct source).at A = some x → x.hasValue = true → Means d f o →
      o.path = Convert.names A → NeedsNew d f o h → h ≠ .structAos → metaAt (.struct newM) f.path = some m → Typed y m →
      ∃ z, custom o.path h x y = .ok z)
    (hpost : ∀ A x f o g m y, (Node.struct source).at A = some x → x.hasValue = true → Means d f o → o.path = Convert.names A →
      post o.path = some g → metaAt (.struct newM) f.path = some m → TypedAt y m →
      (∀ l v, x = .leaf l (some v) → ¬ Changed d f o ∧ ∃ l' w, y = .leaf l' w ∧ store l' v = .ok w) → ∃ z, g y = .ok z)
    (A : Addr) (x : Node V) (hne : A ≠ []) (hx : (Node.struct source).at A = some x) (hv : x.hasValue = true) :
    Runs (cfgNames d custom post store) newM (Convert.names A) x := by
  intro t y hg hy
  have hne : Convert.names A ≠ [] := by simpa [Convert.names] using hne
  obtain ⟨m0, h1, tx⟩ := typedAt_at (tm := .struct oldM) (.inl (by simpa only [Typed] using ht)) hx
  have R := (leg3_new (custom := custom) (post := post) (store := store) W T)
  have hreach := R.route.goes W.old W.new (cx := cfgNames d custom post store) rfl _ t (by rw [h1]; rfl) hg
  by_cases hla : LeftAt d (Convert.names A)
  · have hi := R.idle (by rintro a ⟨g, hg, rfl⟩; exact hleft g hg)
    obtain ⟨⟨c, h2⟩, -⟩ := R.route.idle W.old hi hla
    obtain ⟨h3, h4⟩ := hi _ hla
    rw [h2] at h1; cases h1
    refine ⟨fun l v l' _ e _ => ?_, fun u z hch _ => (by rw [h3] at hch; cases hch), fun g z hq _ _ => (by rw [h4] at hq; cases hq)⟩
    subst e
    rcases tx with tx | ⟨_, _, tx, _⟩
    · simp [Typed] at tx
    · cases tx
  obtain ⟨f, o, hm, e1, e2, hn⟩ : ∃ f o, Means d f o ∧ o.path = Convert.names A ∧ f.path = t ∧
      (names3 d).toNew.lookup o.path ≠ some none := by
    generalize e : Convert.names A = z at hreach
    cases hreach with
    | root => exact absurd e hne
    | @field o f hc => exact ⟨f, o, hc, rfl, rfl, goes_open hg (a := o.path) (r := []) (by simp [e]) (by rw [← e]; exact hne)⟩
    | left _ hl => rw [e] at hla; exact absurd hl hla
  refine ⟨fun l v l' hch e ey => ?_, fun u z hch hz => ?_, fun g z hq hz hl => hpost A x f o g y z hx hv hm e1 (by rw [e1]; exact hq) (by rw [e2]; exact hy) hz
    fun l v e => ⟨?_, (hl l v e).2⟩⟩
  · subst e
    refine hstore A v f o l' ⟨l, hx, ?_⟩ hm e1 ?_ (by rw [e2, hy, ey])
    · simpa [Node.hasValue, leafHasValue] using hv
    · refine (changed3 W T hm (.inl hn)).1.1 ?_
      rw [e1]
      simpa only [cfgNames, cfgOf, Option.map_eq_none_iff] using hch
  · simp only [cfgNames, cfgOf] at hch
    rw [← e1] at hch
    rcases means_cases W T hm with ⟨hc, h1, -⟩ | ⟨-, -, -, -, -, h5, -⟩
    · rw [(ok_new W.given W.nested T).other _ h1] at hn
      cases hl : (buildMap d).changeNew.lookup o.path with
      | none => rw [hl] at hch; cases hch
      | some h =>
        rw [hl, Option.map_some, Option.some.injEq] at hch
        obtain ⟨g, rfl, hg'⟩ := W.recorded_new hc hn hl
        obtain ⟨rfl, hgs⟩ := changeOf_custom hch
        exact hcust A x f o g y z hx hv hm e1 hg' hgs (by rw [e2]; exact hy) hz
    · rw [h5] at hch; cases hch
  · have hch := (hl l v e).1
    refine (changed3 W T hm (.inl hn)).1.1 ?_
    rw [e1]
    simpa only [cfgNames, cfgOf, Option.map_eq_none_iff] using hch

theorem below_source (W : Versions d oldM newM) (M : SourceMoves d) (r : List Name) (hr : r ≠ []) :
    metaAt (.struct oldM) (wSource ++ r) = none := by
  cases h : metaAt (.struct oldM) (wSource ++ r) with
  | none => rfl
  | some x =>
    obtain ⟨o, ho, e, -⟩ := W.old.node _ x (by simp [hr]) h
    have := M.data o ho (by rw [e]; exact List.prefix_append _ _)
    rw [e] at this
    exact absurd (List.append_right_eq_self.1 this) hr

theorem props_means (M : SourceMoves d) : ∃ f o, Means d f o ∧ o.path = ["ids_properties".toList] ∧
    f.path = ["ids_properties".toList] := by
  obtain ⟨f, o, hc, h1, h2⟩ := M.props
  refine ⟨f, o, .inl ⟨hc, ?_⟩, h1, h2⟩
  rintro ⟨g, -, h, -⟩
  rw [h2] at h
  have := congrArg List.getLast? h
  rw [List.getLast?_concat] at this
  exact absurd this (by decide +kernel)

theorem smooth_source (W : Versions d oldM newM) (T : Silent d) (M : SourceMoves d)
    (hleft : ∀ g, Left d g → post g.path = none) : Smooth (cfg3ToNew d provenance custom post store) oldM newM := by
  obtain ⟨f, hf, e⟩ := M.provenance
  obtain ⟨y, hy, -⟩ := W.new.field f hf
  rw [e] at hy
  refine Off.Is.smooth (cfg3_off W T) (smooth3_new W T hleft) (fun r hr => below_source W M r hr) ?_ hy
  intro t hg
  obtain ⟨f, o, hm, h1, h2⟩ := props_means M
  have R := (leg3_new (custom := custom) (post := post) (store := store) W T)
  obtain ⟨x, hx, -⟩ := W.old.field o (R.route.mem _ _ hm).1
  rw [h1] at hx
  have h3 := R.route.goes W.old W.new (cx := cfgNames d custom post store) rfl _ t (by rw [hx]; rfl) hg
  have h4 : Reach (fun o f => Means d f o) (LeftAt d) o.path f.path := .field hm
  rw [h1, h2] at h4
  exact R.route.reach_one h3 _ h4

/-- **C73, success.** Converting an IDS from version 3 to version 4 raises no error if the values of fields that did not change can
be assigned to the fields with the same meaning, and no conversion function (also that for the source) and no post-processing
function for a node of the IDS raises one. -/
theorem C73_succeeds_new (W : Versions d oldM newM) (T : Silent d) (M : SourceMoves d)
    (hpr : Proper (cfg3ToNew d provenance custom post store))
    (hleft : ∀ g, Left d g → post g.path = none) (source : Fields V) (ht : TypedF source oldM)
    (hstore : ∀ A v f o l, ValueAt (.struct source) A v → Means d f o → o.path = Convert.names A → ¬ Changed d f o →
      metaAt (.struct newM) f.path = some (.leaf l) → ∃ w, store l v = .ok w)
    (hcust : ∀ A x f o h m y, (Node.struct source).at A = some x → x.hasValue = true → Means d f o →
      o.path = Convert.names A → NeedsNew d f o h → h ≠ .structAos → metaAt (.struct newM) f.path = some m → Typed y m →
      ∃ z, custom o.path h x y = .ok z)
    (hprov : ∀ A x m y, (Node.struct source).at A = some x → x.hasValue = true → Convert.names A = wSource →
      metaAt (.struct newM) wProvenance = some m → Typed y m → ∃ z, provenance x y = .ok z)
    (hsource : post wSource = none)
    (hpost : ∀ A x f o g m y, (Node.struct source).at A = some x → x.hasValue = true → Means d f o → o.path = Convert.names A →
      post o.path = some g → metaAt (.struct newM) f.path = some m → TypedAt y m →
      (∀ l v, x = .leaf l (some v) → ¬ Changed d f o ∧ ∃ l' w, y = .leaf l' w ∧ store l' v = .ok w) → ∃ z, g y = .ok z) :
    ∃ result, copyIds (cfg3ToNew d provenance custom post store) source (Meta.struct newM).fresh = .ok result := by
  refine copyIds_run hpr (smooth_source W T M hleft) W.namesOld ht (typed_fresh _) fun A x hne hx hv => ?_
  have O := cfg3_off (provenance := provenance) (custom := custom) (post := post) (store := store) W T
  by_cases hs : Convert.names A = wSource
  · intro t y hg hy
    rw [hs] at hg ⊢
    have ht' := O.goes_there hg
    subst ht'
    have hch : (cfg3ToNew d provenance custom post store).change wSource = some (.custom provenance) := by
      simp only [cfg3ToNew]
      exact if_pos rfl
    refine ⟨fun l v l' h => (by rw [hch] at h; cases h), fun u z h hz => ?_, fun g z h => ?_⟩
    · rw [hch] at h
      cases h
      exact hprov A x y z hx hv hs hy hz
    · have h : post wSource = some g := h
      rw [hsource] at h; cases h
  · have hnp : ¬ wSource <+: Convert.names A := by
      rintro ⟨r, hr⟩
      obtain ⟨m0, h1, -⟩ := typedAt_at (tm := .struct oldM) (.inl (by simpa only [Typed] using ht)) hx
      by_cases e : r = []
      · rw [e, List.append_nil] at hr; exact hs hr.symm
      · rw [← hr, below_source W M r e] at h1
        cases h1
    intro t y hg hy
    obtain ⟨h1, h2, h3⟩ := runs3_new W T hleft source ht hstore hcust hpost A x hne hx hv t y ((O.goes _ t hnp).1 hg) hy
    rw [O.change _ hs]
    exact ⟨h1, h2, h3⟩

/-- **C73, success.** The same for converting from version 4 to version 3. -/
theorem C73_succeeds_old (W : Versions d oldM newM) (T : Silent d) (hpr : Proper (cfg3ToOld d custom post store))
    (source : Fields V) (ht : TypedF source newM)
    (hstore : ∀ A v f o l, ValueAt (.struct source) A v → Means d f o → f.path = Convert.names A → ¬ Changed d f o →
      metaAt (.struct oldM) o.path = some (.leaf l) → ∃ w, store l v = .ok w)
    (hcust : ∀ A x f o h m y, (Node.struct source).at A = some x → x.hasValue = true → Means d f o →
      f.path = Convert.names A → NeedsOld d f o h → h ≠ .structAos → metaAt (.struct oldM) o.path = some m → Typed y m →
      ∃ z, custom f.path h x y = .ok z)
    (hpost : ∀ A x f o g m y, (Node.struct source).at A = some x → x.hasValue = true → Means d f o → f.path = Convert.names A →
      post f.path = some g → metaAt (.struct oldM) o.path = some m → TypedAt y m →
      (∀ l v, x = .leaf l (some v) → ¬ Changed d f o ∧ ∃ l' w, y = .leaf l' w ∧ store l' v = .ok w) → ∃ z, g y = .ok z) :
    ∃ result, copyIds (cfg3ToOld d custom post store) source (Meta.struct oldM).fresh = .ok result := by
  refine copyIds_run hpr (smooth3_old W T) W.namesNew ht (typed_fresh _) fun A x hne hx hv t y hg hy => ?_
  have hne : Convert.names A ≠ [] := by simpa [Convert.names] using hne
  have R := (leg3_old (custom := custom) (post := post) (store := store) W T)
  obtain ⟨f, o, hm, e1, e2, hn⟩ : ∃ f o, Means d f o ∧ f.path = Convert.names A ∧ o.path = t ∧
      (map3 d).toOld.lookup f.path ≠ some none := by
    obtain ⟨m0, h1, -⟩ := typedAt_at (tm := .struct newM) (.inl (by simpa only [Typed] using ht)) hx
    have hreach := R.route.goes W.new W.old (cx := cfg3ToOld d custom post store) rfl _ t
      (by rw [h1]; rfl) hg
    generalize e : Convert.names A = z at hreach
    cases hreach with
    | root => exact absurd e hne
    | @field f o hc => exact ⟨f, o, hc, rfl, rfl, goes_open hg (a := f.path) (r := []) (by simp [e]) (by rw [← e]; exact hne)⟩
    | left _ hl => exact hl.elim
  rw [map3_old W.given W.nested T] at hn
  refine ⟨fun l v l' hch e ey => ?_, fun u z hch hz => ?_, fun g z hq hz hl => hpost A x f o g y z hx hv hm e1 (by rw [e1]; exact hq) (by rw [e2]; exact hy) hz
    fun l v e => ⟨?_, (hl l v e).2⟩⟩
  · subst e
    refine hstore A v f o l' ⟨l, hx, ?_⟩ hm e1 ?_ (by rw [e2, hy, ey])
    · simpa [Node.hasValue, leafHasValue] using hv
    · refine (changed3 W T hm (.inr hn)).2.1 ?_
      rw [e1]
      simpa only [cfg3ToOld, cfgOf, Option.map_eq_none_iff, (map3_change d).2] using hch
  · simp only [cfg3ToOld, cfgOf, (map3_change d).2] at hch
    rw [← e1] at hch
    rcases means_cases W T hm with ⟨hc, -, h1⟩ | ⟨-, -, -, -, -, -, h5⟩
    · rw [(ok_old W.given W.nested T).other _ h1] at hn
      cases hl : (buildMap d).changeOld.lookup f.path with
      | none => rw [hl] at hch; cases hch
      | some h =>
        rw [hl, Option.map_some, Option.some.injEq] at hch
        obtain ⟨g, rfl, hg'⟩ := W.recorded_old hc hn hl
        obtain ⟨rfl, hgs⟩ := changeOf_custom hch
        exact hcust A x f o g y z hx hv hm e1 hg' hgs (by rw [e2]; exact hy) hz
    · rw [h5] at hch; cases hch
  · have hch := (hl l v e).1
    refine (changed3 W T hm (.inr hn)).2.1 ?_
    rw [e1]
    simpa only [cfg3ToOld, cfgOf, Option.map_eq_none_iff, (map3_change d).2] using hch

end

section
variable {F : Type} [FloatModel F] {d : Dicts} {oldM newM : MFields} {cv : Conv F}
  {labels : List (VMap.Path × Option (List Char))} {extra : List VMap.Path} {flux : VMap.Path → Bool}
  {provenance : Node (Val F) → Node (Val F) → Except ConvErr (Node (Val F))}
  {custom : VMap.Path → Handler → Node (Val F) → Node (Val F) → Except ConvErr (Node (Val F))}

/-- Changing the sign of a stored number raises nothing. -/
theorem cocos_runs {l : LeafMeta} {v : Val F} (hv : Held l v) (hstr : l.type ≠ .str) {w : Option (Val F)}
    (hw : storeVal cv l v = .ok w) (fl : Bool) : ∃ z, cocosChange cv fl (.leaf l w) = .ok z := by
  rw [held_store cv hv] at hw
  cases hw
  obtain ⟨w, hw⟩ := negVal_some hv.1 hstr
  exact ⟨_, negate_leaf cv hv.1 hw fl⟩

theorem leaf_value {m : MFields} {source : Fields (Val F)} (ht : TypedF source m) {A : Addr} {x : Node (Val F)} {l : LeafMeta}
    (hx : (Node.struct source).at A = some x) (hv : x.hasValue = true) (hl : metaAt (.struct m) (Convert.names A) = some (.leaf l)) :
    ∃ v, x = .leaf l (some v) := by
  obtain ⟨m0, h1, tx⟩ := typedAt_at (tm := .struct m) (.inl (by simpa only [Typed] using ht)) hx
  rw [hl] at h1
  cases h1
  rcases tx with tx | ⟨_, _, _, e, _⟩
  · cases x with
    | leaf l0 s =>
      have : l0 = l := tx
      subst this
      cases s with
      | none => simp [Node.hasValue, leafHasValue] at hv
      | some v => exact ⟨v, rfl⟩
    | struct => simp [Typed] at tx
    | aos => simp [Typed] at tx
  · cases e

theorem leaf_meta {l : LeafMeta} {w : Option (Val F)} {m : Meta} (h : TypedAt (.leaf l w) m) : m = .leaf l := by
  rcases h with h | ⟨_, _, e, _⟩
  · cases m with
    | leaf l2 => rw [show l = l2 from h]
    | struct => simp [Typed] at h
    | aos => simp [Typed] at h
  · cases e

/-- **C74, success.** Converting an IDS from version 3 to version 4 raises no error if the values of fields that did not change are
values of the fields with the same meaning, labelled and listed fields hold numbers there, and no conversion function raises one. -/
theorem C74_succeeds_new (W : Versions d oldM newM) (T : Silent d) (M : SourceMoves d) (L : Signs d labels extra)
    (hs : ∀ x, Keeps (provenance x)) (hc : ∀ p h x, Keeps (custom p h x)) (hsource : ¬ Flipped labels extra wSource)
    (source : Fields (Val F)) (ht : TypedF source oldM)
    (hheld : ∀ A v f o l, ValueAt (.struct source) A v → Means d f o → o.path = Convert.names A → ¬ Changed d f o →
      metaAt (.struct newM) f.path = some (.leaf l) → Held l v ∧ (Flipped labels extra o.path → l.type ≠ .str))
    (hcust : ∀ A x f o h m y, (Node.struct source).at A = some x → x.hasValue = true → Means d f o →
      o.path = Convert.names A → NeedsNew d f o h → h ≠ .structAos → metaAt (.struct newM) f.path = some m → Typed y m →
      ∃ z, custom o.path h x y = .ok z)
    (hprov : ∀ A x m y, (Node.struct source).at A = some x → x.hasValue = true → Convert.names A = wSource →
      metaAt (.struct newM) wProvenance = some m → Typed y m → ∃ z, provenance x y = .ok z) :
    ∃ result, copyIds (cfgSignsNew cv d labels extra flux provenance custom) source (Meta.struct newM).fresh = .ok result := by
  rw [signs_within_new W ht]
  have post_some : ∀ {p g}, within oldM (cocosOld cv (cocosPaths labels extra) flux) p = some g →
      Flipped labels extra p ∧ g = cocosChange cv (flux p) := by
    intro p g h
    unfold within at h
    split at h
    · unfold cocosOld at h
      split at h
      · next hp => cases h; exact ⟨mem_cocosPaths.1 hp, rfl⟩
      · cases h
    · cases h
  refine C73_succeeds_new W T M (signs_proper_new hs hc) (fun g hg => ?_) source ht
    (fun A v f o l hv hm hp hn hl => ⟨_, held_store cv (hheld A v f o l hv hm hp hn hl).1⟩) hcust hprov ?_ ?_
  · cases hq : within oldM (cocosOld cv (cocosPaths labels extra) flux) g.path with
    | none => rfl
    | some u => exact absurd (.inl (W.nested.left g hg)) (L.data g hg.1 (post_some hq).1)
  · cases hq : within oldM (cocosOld cv (cocosPaths labels extra) flux) wSource with
    | none => rfl
    | some u => exact absurd (post_some hq).1 hsource
  · intro A x f o g m y hx hv hm hp hq hl hy hleaf
    obtain ⟨hf, rfl⟩ := post_some hq
    obtain ⟨l0, h1⟩ := signs_leaf_new (provenance := provenance) (custom := custom) (cv := cv) (flux := flux) W L o.path
      (show within oldM (cocosOld cv (cocosPaths labels extra) flux) o.path ≠ none by rw [hq]; simp)
    obtain ⟨v, rfl⟩ := leaf_value ht hx hv (hp ▸ h1)
    obtain ⟨hn, l', w, rfl, hw⟩ := hleaf _ v rfl
    have hl := leaf_meta hy ▸ hl
    obtain ⟨hh, hstr⟩ := hheld A v f o l' ⟨_, hx, by simpa [Node.hasValue, leafHasValue] using hv⟩ hm hp hn hl
    exact cocos_runs hh (hstr hf) hw _

/-- **C74, success.** The same for converting from version 4 to version 3. -/
theorem C74_succeeds_old (W : Versions d oldM newM) (T : Silent d) (L : Signs d labels extra)
    (hc : ∀ p h x, Keeps (custom p h x)) (source : Fields (Val F)) (ht : TypedF source newM)
    (hheld : ∀ A v f o l, ValueAt (.struct source) A v → Means d f o → f.path = Convert.names A → ¬ Changed d f o →
      metaAt (.struct oldM) o.path = some (.leaf l) → Held l v ∧ (Flipped labels extra o.path → l.type ≠ .str))
    (hcust : ∀ A x f o h m y, (Node.struct source).at A = some x → x.hasValue = true → Means d f o →
      f.path = Convert.names A → NeedsOld d f o h → h ≠ .structAos → metaAt (.struct oldM) o.path = some m → Typed y m →
      ∃ z, custom f.path h x y = .ok z) :
    ∃ result, copyIds (cfgSignsOld cv d labels extra flux custom) source (Meta.struct oldM).fresh = .ok result := by
  rw [signs_within_old W ht]
  refine C73_succeeds_old W T (signs_proper_old hc) source ht
    (fun A v f o l hv hm hp hn hl => ⟨_, held_store cv (hheld A v f o l hv hm hp hn hl).1⟩) hcust ?_
  intro A x f o g m y hx hv hm hp hq hl hy hleaf
  have hne : within newM (cocosNew cv (fun p => (buildMap d).toNew.lookup p) (cocosPaths labels extra) flux) f.path ≠ none := by
    rw [hq]; simp
  obtain ⟨l0, h1⟩ := signs_leaf_old (custom := custom) (cv := cv) (flux := flux) W L f.path hne
  obtain ⟨v, rfl⟩ := leaf_value ht hx hv (hp ▸ h1)
  obtain ⟨hn, l', w, rfl, hw⟩ := hleaf _ v rfl
  have hl := leaf_meta hy ▸ hl
  have hcn := (within_some hne).1
  have hf := (cocosNew_means W T L hm hn).1 hcn
  have hg : g = cocosChange cv (flux f.path) := by
    unfold within at hq
    split at hq
    · rw [cocosNew_some hcn] at hq
      exact (Option.some.inj hq).symm
    · cases hq
  subst hg
  obtain ⟨hh, hstr⟩ := hheld A v f o l' ⟨_, hx, by simpa [Node.hasValue, leafHasValue] using hv⟩ hm hp hn hl
  exact cocos_runs hh (hstr hf) hw _

end
/-! ### Example -/

/-- A value that the node can hold. -/
def heldB (l : LeafMeta) (v : Val Int) : Bool := v.fits l && (l.ndim != 0 || !eqDefault v)

theorem held_values {c : Fields (Val Int)} (hc : allF heldB c = true) {A : Addr} {l : LeafMeta} {v : Val Int}
    (h : (Node.struct c).at A = some (.leaf l (some v))) : Held l v := by
  have := allN_at A _ _ (by simpa only [allN] using hc) h
  simp only [allN, Option.all_some, heldB, Bool.and_eq_true, Bool.or_eq_true, bne_iff_ne, Bool.not_eq_true'] at this
  exact ⟨this.1, fun h0 => this.2.resolve_left (fun h => h h0)⟩

/-- Fields with the same meaning have the same type in this dictionary. -/
theorem d34_leaf {f o : Field} (h : Means d34 f o) {l l' : LeafMeta} (h1 : metaAt (.struct d34Old) o.path = some (.leaf l))
    (h2 : metaAt (.struct d34New) f.path = some (.leaf l')) : l' = l := by
  rcases h with ⟨hc, -⟩ | ⟨g, hg, -, -, ⟨e, e'⟩ | ⟨e, e'⟩⟩
  · obtain ⟨e, -, -, h⟩ := d34_claims hc
    rw [e] at h2
    rcases h with h | h | h | h <;> rw [h] at h1 h2
    · cases h1
    · cases h1; cases h2; rfl
    · cases h1; cases h2; rfl
    · cases h1
  · cases d34_described hg
    rw [e] at h2; rw [e'] at h1
    cases h1; cases h2; rfl
  · cases d34_described hg
    rw [e] at h2; rw [e'] at h1
    cases h1; cases h2; rfl

theorem d34_held_new {source : Fields (Val Int)} (ht : TypedF source d34Old) (hc : allF heldB source = true) {A : Addr} {v : Val Int}
    {f o : Field} {l : LeafMeta} (hv : ValueAt (.struct source) A v) (hm : Means d34 f o) (hp : o.path = Convert.names A)
    (hl : metaAt (.struct d34New) f.path = some (.leaf l)) : Held l v := by
  obtain ⟨l0, hx, -⟩ := hv
  have h1 := typed_leaf_at (tm := .struct d34Old) (by simpa only [Typed] using ht) hx
  rw [← hp] at h1
  rw [d34_leaf hm h1 hl]
  exact held_values hc hx

theorem d34_held_old {source : Fields (Val Int)} (ht : TypedF source d34New) (hc : allF heldB source = true) {A : Addr} {v : Val Int}
    {f o : Field} {l : LeafMeta} (hv : ValueAt (.struct source) A v) (hm : Means d34 f o) (hp : f.path = Convert.names A)
    (hl : metaAt (.struct d34Old) o.path = some (.leaf l)) : Held l v := by
  obtain ⟨l0, hx, -⟩ := hv
  have h1 := typed_leaf_at (tm := .struct d34New) (by simpa only [Typed] using ht) hx
  rw [← hp] at h1
  rw [← d34_leaf hm hl h1]
  exact held_values hc hx

theorem d34_moves : SourceMoves d34 where
  props := ⟨vmField [wProps] tStruct, vmField [wProps] tStruct,
    (claim_iff d34_given.old d34_given.new (by simp [d34]) (by simp [d34])).2 (by decide +kernel), rfl, rfl⟩
  provenance := ⟨vmField [wProps, wProv] tStruct, by simp [d34], rfl⟩
  data o ho h := by
    have h2 : d34.old.all (fun o => !decide (wSource <+: o.path) || decide (o.path = wSource)) = true := by decide +kernel
    simp only [List.all_eq_true] at h2
    have := h2 o ho
    simpa [h] using this

theorem d34_handler {f o : Field} {h : Handler} (hm : Means d34 f o) : ¬ NeedsNew d34 f o h ∧ ¬ NeedsOld d34 f o h := by
  have hn := d34_unchanged hm
  constructor
  · rintro (⟨h1, -⟩ | ⟨h1, -⟩ | ⟨h1, -⟩)
    · exact hn (.inl h1)
    · exact hn (.inr (.inl h1))
    · exact hn (.inr (.inr h1))
  · rintro (⟨h1, -⟩ | ⟨h1, -⟩ | ⟨h1, -⟩)
    · exact hn (.inl h1)
    · exact hn (.inr (.inl h1))
    · exact hn (.inr (.inr h1))

theorem d34_prov (x y : Node (Val Int)) : ∃ z, d34Prov x y = .ok z := by
  unfold d34Prov
  split
  · exact ⟨_, rfl⟩
  · exact ⟨_, rfl⟩

example : ∃ result, copyIds d34ToNew d34Data (Meta.struct d34New).fresh = .ok result :=
  C73_succeeds_new (provenance := d34Prov) (custom := noCustom) (post := fun _ => none) (store := storeVal changeConv) d34_versions
    d34_silent d34_moves d34_proper.1 (fun _ _ => rfl) d34Data d34_typed
    (fun _ _ _ _ _ hv hm hp _ hl => ⟨_, held_store changeConv (d34_held_new d34_typed (by decide +kernel) hv hm hp hl)⟩)
    (fun _ _ _ _ _ _ _ _ _ hm _ hh => absurd hh (d34_handler hm).1)
    (fun _ x _ y _ _ _ _ _ => d34_prov x y) rfl (fun _ _ _ _ _ _ _ _ _ _ _ h => by cases h)

example : ∃ result, copyIds d34ToOld d34Moved (Meta.struct d34Old).fresh = .ok result :=
  C73_succeeds_old (custom := noCustom) (post := fun _ => none) (store := storeVal changeConv) d34_versions
    d34_silent d34_proper.2 d34Moved d34_typed'
    (fun _ _ _ _ _ hv hm hp _ hl => ⟨_, held_store changeConv (d34_held_old d34_typed' (by decide +kernel) hv hm hp hl)⟩)
    (fun _ _ _ _ _ _ _ _ _ hm _ hh => absurd hh (d34_handler hm).2)
    (fun _ _ _ _ _ _ _ _ _ _ _ h => by cases h)

def d34Labels : List (VMap.Path × Option (List Char)) := [([wCoil, ['x']], some "dodpsi_like".toList)]

theorem d34_flipped {p : VMap.Path} : Flipped d34Labels [] p ↔ p = [wCoil, ['x']] := by
  rw [← mem_cocosPaths, show cocosPaths d34Labels [] = [[wCoil, ['x']]] by decide +kernel]
  simp

theorem d34_signs : Signs d34 d34Labels [] where
  known p hp _ := by
    rw [d34_flipped.1 hp]
    exact ⟨vmField [wCoil, ['x']] tFlt1, by simp [d34], rfl⟩
  data o ho h := by
    have h2 : d34.old.all (fun o => !decide (o.path = [wCoil, ['x']]) || decide (o.dtype = tFlt1)) = true := by decide +kernel
    simp only [List.all_eq_true] at h2
    have h3 := h2 o ho
    simp only [d34_flipped.1 h, decide_true, Bool.not_true, Bool.false_or, decide_eq_true_eq] at h3
    rw [h3]
    rintro (h | h) <;> exact absurd h (by decide +kernel)
  dataNew f o hc h := by
    have h2 : d34.new.all (fun o => !decide (o.path = [wCoil, ['x']]) || decide (o.dtype = tFlt1)) = true := by decide +kernel
    simp only [List.all_eq_true] at h2
    have h3 := h2 f hc.1
    simp only [(d34_claims hc).1.trans (d34_flipped.1 h), decide_true, Bool.not_true, Bool.false_or, decide_eq_true_eq] at h3
    rw [h3]
    rintro (h | h) <;> exact absurd h (by decide +kernel)
  unnamed g hg := by
    cases d34_described hg
    rw [d34_flipped, d34_flipped]
    decide +kernel

theorem d34_numbers {f o : Field} (hm : Means d34 f o) (h : Flipped d34Labels [] o.path) :
    metaAt (.struct d34Old) o.path = some (.leaf fltLeaf) ∧ metaAt (.struct d34New) f.path = some (.leaf fltLeaf) := by
  rw [d34_flipped] at h
  rcases hm with ⟨hc, -⟩ | ⟨g, hg, -, -, ⟨-, e⟩ | ⟨-, e⟩⟩
  · rw [(d34_claims hc).1, h]
    exact ⟨rfl, rfl⟩
  · cases d34_described hg
    rw [e] at h; exact absurd h (by decide +kernel)
  · cases d34_described hg
    rw [e] at h; exact absurd h (by decide +kernel)

example : ∃ result, copyIds (cfgSignsNew changeConv d34 d34Labels [] (fun _ => false) d34Prov noCustom) d34Data
    (Meta.struct d34New).fresh = .ok result :=
  C74_succeeds_new d34_versions d34_silent d34_moves d34_signs keeps_d34Prov keeps_noCustom
    (fun h => absurd (d34_flipped.1 h) (by decide +kernel)) d34Data d34_typed
    (fun _ _ _ _ _ hv hm hp _ hl => ⟨d34_held_new d34_typed (by decide +kernel) hv hm hp hl, fun hf => by
      rw [(d34_numbers hm hf).2] at hl; cases hl; decide⟩)
    (fun _ _ _ _ _ _ _ _ _ hm _ hh => absurd hh (d34_handler hm).1)
    (fun _ x _ y _ _ _ _ _ => d34_prov x y)

example : ∃ result, copyIds (cfgSignsOld changeConv d34 d34Labels [] (fun _ => false) noCustom) d34Moved
    (Meta.struct d34Old).fresh = .ok result :=
  C74_succeeds_old d34_versions d34_silent d34_signs keeps_noCustom d34Moved d34_typed'
    (fun _ _ _ _ _ hv hm hp _ hl => ⟨d34_held_old d34_typed' (by decide +kernel) hv hm hp hl, fun hf => by
      rw [(d34_numbers hm hf).1] at hl; cases hl; decide⟩)
    (fun _ _ _ _ _ _ _ _ _ hm _ hh => absurd hh (d34_handler hm).2)

end Verif.Props
