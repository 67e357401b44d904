import Verif.Lemmas.ConvertGet
/-
C79: reading with automatic conversion and explicit conversion agree.
-/
set_option linter.unusedSectionVars false
namespace Verif.Props
open Verif.Ids Verif.Al Verif.AlSpec Verif.TreeSpec Verif.DiffSpec Verif.ConvertSpec Verif.VMapSpec Verif.ConvertGet
open Verif.VMap hiding Path Nbc metaAt_append
open Verif.Convert (names Cfg ConvErr copyIds cfgToNew cfgToOld)

section
variable {V : Type} [Value V] (B : Backend V) (db : Ctx)
  (custom : VMap.Path → Handler → Node V → Node V → Except ConvErr (Node V))
  (post : VMap.Path → Option (Node V → Except ConvErr (Node V)))
  (store : LeafMeta → V → Except ConvErr (Option V))

/-- **C79, old data.** An IDS of an older version is stored. `g` is read with automatic conversion, `raw` in its own version, and
`result` is `raw` converted explicitly. Then each value of `g` is found in `result` at the same place (as assignment to the new
field stores it, and post-processed if there is a function for that), and arrays of structures have the same number of elements.
Conversely each value of `result` is that of `g`, unless its field or one above it changed or is post-processed (`g` has no value
then), the value counts as unset in the new version, or is time-dependent there although the IDS is time-independent. -/
theorem C79_old (d : Dicts) (m1 m2 : MFields) (W : Versions d m1 m2) (L : Level d) (hr : RenamedOnly d) (C : Conf V)
    (x1 x2 : Path → Nat) (d1 d2 : LeafMeta → V → Bool)
    (f : Fields V) (mode : Mode) (constant : Bool) (ht : TypedF f m1) (hdef : NoDefaults (infoOf d.old x1 d1) f)
    (hmax : C.mdsplus = true → WithinMaxF (infoOf d.old x1 d1) [] f)
    (tp : Path) (v : V) (htp : relPath m1 [] tp = C.timePath) (hv : ValueAt (.struct f) (tp.map (·, none)) v)
    (hdyn : ¬ TimeDependent (infoOf d.old x1 d1) (tp.map (·, none))) (hmode : C.modeOf (some v) = mode)
    (hk : mode.known = true) (s : St (Disk V) V) (hs : s.ll.stack = []) (htp0 : tp ≠ [])
    (hpr : Proper (cfgToNew d custom post store)) (hpo : ∀ p, post p ≠ none → ∃ l, metaAt (.struct m1) p = some (.leaf l)) :
    ∃ s1 g s2 raw s3, alPut (disk B db) C (infoOf d.old x1 d1) (infoOf d.old x1 d1) none db mode m1 false f s = (.ok (), s1) ∧
      alGet (disk B db) C (infoOf d.new x2 d2) (some (nbcToOld d)) db constant .all m2 s1 = (.ok g, s2) ∧
      alGet (disk B db) C (infoOf d.old x1 d1) none db constant .all m1 s1 = (.ok raw, s3) ∧
      ∀ result, copyIds (cfgToNew d custom post store) raw (Meta.struct m2).fresh = .ok result →
        (∀ a u, ValueAt (.struct g) a u → ∃ b l w, ValueAt (.struct raw) b u ∧ SamePlace d a b ∧
          metaAt (.struct m2) (names a) = some (.leaf l) ∧ store l u = .ok w ∧
          ∃ y, result.at a = some y ∧
            match post (names b) with
            | none => y = .leaf l w
            | some h => h (.leaf l w) = .ok y) ∧
        (∀ a k, SizeAt (.struct g) a k → SizeAt result a k) ∧
        (∀ a w, ValueAt result a w →
          (∃ l u, ValueAt (.struct g) a u ∧ store l u = .ok (some w)) ∨
          (∃ f o r, Claim d f o ∧ names a = f.path ++ r ∧ (Changed d f o ∨ ∃ h, post o.path = some h)) ∨
          (∃ l b u, atMeta (.struct m2) a = some (.leaf l) ∧ ValueAt (.struct raw) b u ∧ SamePlace d a b ∧
            (l.ndim = 0 ∧ d2 l u = true ∨ mode = .independent ∧ TimeDependent (infoOf d.new x2 d2) a))) := by
  have G := W.given
  obtain ⟨s1, g, s2, p1, p2, p3, p4, p5⟩ := C57_get_old B db d G (L.placed G) hr W.kinds C m1 m2 W.old W.new x1 x2 d1 d2 f mode
    constant W.namesOld ht hmax tp v htp hv hdyn hmode hk s hs htp0
  obtain ⟨s1', q1, -, -, raw, s3, q2, -, -, q3, q4, q5⟩ := C36_put_get B db C (infoOf d.old x1 d1) m1 f mode constant W.namesOld
    ht (fun t h => metaCtx_eq G.old.once W.old t h) hdef hmax tp v ((metaCtx_eq G.old.once W.old tp htp0).trans htp) hv hdyn
    hmode hk s hs
  rw [p1] at q1
  cases q1
  refine ⟨s1, g, s2, raw, s3, p1, p2, q2, fun result hres => ⟨fun a u hu => ?_, fun a k hu => ?_, fun a w hw => ?_⟩⟩
  · obtain ⟨l, b, h1, h2, h3, -, -, h4⟩ := (p4 a u).1 hu
    have hraw := (q4 b u).2 ⟨h2, h4⟩
    obtain ⟨y, e1, e2⟩ := valueAt_filled hu
    obtain ⟨z, e3, e4⟩ := valueAt_filled hraw
    have hpl := place_of_same G L W.kinds W.old W.new h3 (isNode_of_filled p3 e1 e2) (isNode_of_filled q3 e3 e4)
    obtain ⟨l', w, g1, g2, g3⟩ := C58_value_new W hpr hpo raw q3 result hres b a u hraw hpl (kept_of_same G h3)
      (single_old_of_same G L W.kinds W.old q3 h3)
    exact ⟨b, l', w, hraw, h3, g1, g2, g3⟩
  · obtain ⟨l, b, h1, h2, h3, -, h4⟩ := (p5 a k).1 hu
    have hraw := (q5 b k).2 ⟨h2, h4⟩
    obtain ⟨y, e1, e2⟩ := sizeAt_filled hu
    obtain ⟨z, e3, e4⟩ := sizeAt_filled hraw
    have hpl := place_of_same G L W.kinds W.old W.new h3 (isNode_of_filled p3 e1 e2) (isNode_of_filled q3 e3 e4)
    exact C58_size_new W hpr hpo raw q3 result hres b a k hraw hpl (kept_of_same G h3)
      (single_old_of_same G L W.kinds W.old q3 h3)
  · obtain ⟨l, hl⟩ := value_leaf (copyIds_typed hpr (Verif.Convert.wf_of_typedF _ _ q3 W.namesOld) (typed_fresh _) hres) hw
    rcases C58_no_other_new W hpr (fun g hg => absurd hg (not_left G L g)) raw q3 result hres a w hw with
      ⟨b, l', u, h1, h2, h3⟩ | ⟨b, a', x, f', o', h1, -, -, h2, h3, h4, h5⟩
    · by_cases hch : ∃ f o r, Claim d f o ∧ names a = f.path ++ r ∧ Changed d f o
      · obtain ⟨f', o', r, g1, g2, g3⟩ := hch
        exact .inr (.inl ⟨f', o', r, g1, g2, .inl g3⟩)
      · have hsame := same_of_place G L W.kinds h1 (fun f o r hc e h => hch ⟨f, o, r, hc, e, h⟩)
        have hf := (q4 b u).1 h2
        by_cases h6 : (l.ndim = 0 && d2 l u) = false
        · by_cases h7 : mode = .independent ∧ TimeDependent (infoOf d.new x2 d2) a
          · exact .inr (.inr ⟨l, b, u, hl, h2, hsame, .inr h7⟩)
          · exact .inl ⟨l', u, (p4 a u).2 ⟨l, b, hl, hf.1, hsame, h6, h7, hf.2⟩, h3⟩
        · exact .inr (.inr ⟨l, b, u, hl, h2, hsame, .inl (by simpa using h6)⟩)
    · obtain ⟨_, _, _, _, -, -, o, f'', hc, ho, hf⟩ := carried_last h1
      rw [List.nil_append] at ho hf
      cases field_once G.old.once hc.2.1 h3.2.1 (ho.trans h4.symm)
      cases G.claim_same' hc h3
      obtain ⟨r, hr'⟩ := contains_names a' a h2
      refine .inr (.inl ⟨f', o', r, h3, by rw [hf]; exact hr', ?_⟩)
      rw [h4]
      exact h5

/-- **C79, new data.** The same for data of a newer version that is read with an older one. -/
theorem C79_new (d : Dicts) (m1 m2 : MFields) (W : Versions d m1 m2) (L : Level d) (hr : RenamedOnly d) (C : Conf V)
    (x1 x2 : Path → Nat) (d1 d2 : LeafMeta → V → Bool)
    (f : Fields V) (mode : Mode) (constant : Bool) (ht : TypedF f m2) (hdef : NoDefaults (infoOf d.new x2 d2) f)
    (hmax : C.mdsplus = true → WithinMaxF (infoOf d.new x2 d2) [] f)
    (tp : Path) (v : V) (htp : relPath m2 [] tp = C.timePath) (hv : ValueAt (.struct f) (tp.map (·, none)) v)
    (hdyn : ¬ TimeDependent (infoOf d.new x2 d2) (tp.map (·, none))) (hmode : C.modeOf (some v) = mode)
    (hk : mode.known = true) (s : St (Disk V) V) (hs : s.ll.stack = []) (htp0 : tp ≠ [])
    (hpr : Proper (cfgToOld d custom post store)) (hpo : ∀ p, post p ≠ none → ∃ l, metaAt (.struct m2) p = some (.leaf l)) :
    ∃ s1 g s2 raw s3, alPut (disk B db) C (infoOf d.new x2 d2) (infoOf d.new x2 d2) none db mode m2 false f s = (.ok (), s1) ∧
      alGet (disk B db) C (infoOf d.old x1 d1) (some (nbcToNew d)) db constant .all m1 s1 = (.ok g, s2) ∧
      alGet (disk B db) C (infoOf d.new x2 d2) none db constant .all m2 s1 = (.ok raw, s3) ∧
      ∀ result, copyIds (cfgToOld d custom post store) raw (Meta.struct m1).fresh = .ok result →
        (∀ b u, ValueAt (.struct g) b u → ∃ a l w, ValueAt (.struct raw) a u ∧ SamePlace d a b ∧
          metaAt (.struct m1) (names b) = some (.leaf l) ∧ store l u = .ok w ∧
          ∃ y, result.at b = some y ∧
            match post (names a) with
            | none => y = .leaf l w
            | some h => h (.leaf l w) = .ok y) ∧
        (∀ b k, SizeAt (.struct g) b k → SizeAt result b k) ∧
        (∀ b w, ValueAt result b w →
          (∃ l u, ValueAt (.struct g) b u ∧ store l u = .ok (some w)) ∨
          (∃ f o r, Claim d f o ∧ names b = o.path ++ r ∧ (Changed d f o ∨ ∃ h, post f.path = some h)) ∨
          (∃ l a u, atMeta (.struct m1) b = some (.leaf l) ∧ ValueAt (.struct raw) a u ∧ SamePlace d a b ∧
            (l.ndim = 0 ∧ d1 l u = true ∨ mode = .independent ∧ TimeDependent (infoOf d.old x1 d1) b))) := by
  have G := W.given
  obtain ⟨s1, g, s2, p1, p2, p3, p4, p5⟩ := C57_get_new B db d G (L.placed G) hr W.kinds C m1 m2 W.old W.new x1 x2 d1 d2 f mode
    constant W.namesNew ht hmax tp v htp hv hdyn hmode hk s hs htp0
  obtain ⟨s1', q1, -, -, raw, s3, q2, -, -, q3, q4, q5⟩ := C36_put_get B db C (infoOf d.new x2 d2) m2 f mode constant W.namesNew
    ht (fun t h => metaCtx_eq G.new.once W.new t h) hdef hmax tp v ((metaCtx_eq G.new.once W.new tp htp0).trans htp) hv hdyn
    hmode hk s hs
  rw [p1] at q1
  cases q1
  refine ⟨s1, g, s2, raw, s3, p1, p2, q2, fun result hres => ⟨fun b u hu => ?_, fun b k hu => ?_, fun b w hw => ?_⟩⟩
  · obtain ⟨l, a, h1, h2, h3, -, -, h4⟩ := (p4 b u).1 hu
    have hraw := (q4 a u).2 ⟨h2, h4⟩
    obtain ⟨y, e1, e2⟩ := valueAt_filled hu
    obtain ⟨z, e3, e4⟩ := valueAt_filled hraw
    have hpl := place_of_same G L W.kinds W.old W.new h3 (isNode_of_filled q3 e3 e4) (isNode_of_filled p3 e1 e2)
    obtain ⟨l', w, g1, g2, g3⟩ := C58_value_old W hpr hpo raw q3 result hres a b u hraw hpl (kept_of_same G h3)
      (single_new_of_same G L W.kinds W.new q3 h3)
    exact ⟨a, l', w, hraw, h3, g1, g2, g3⟩
  · obtain ⟨l, a, h1, h2, h3, -, h4⟩ := (p5 b k).1 hu
    have hraw := (q5 a k).2 ⟨h2, h4⟩
    obtain ⟨y, e1, e2⟩ := sizeAt_filled hu
    obtain ⟨z, e3, e4⟩ := sizeAt_filled hraw
    have hpl := place_of_same G L W.kinds W.old W.new h3 (isNode_of_filled q3 e3 e4) (isNode_of_filled p3 e1 e2)
    exact C58_size_old W hpr hpo raw q3 result hres a b k hraw hpl (kept_of_same G h3)
      (single_new_of_same G L W.kinds W.new q3 h3)
  · obtain ⟨l, hl⟩ := value_leaf (copyIds_typed hpr (Verif.Convert.wf_of_typedF _ _ q3 W.namesNew) (typed_fresh _) hres) hw
    rcases C58_no_other_old W hpr raw q3 result hres b w hw with
      ⟨a, l', u, h1, h2, h3⟩ | ⟨a, b', x, f', o', h1, -, -, h2, h3, h4, h5⟩
    · by_cases hch : ∃ f o r, Claim d f o ∧ names a = f.path ++ r ∧ Changed d f o
      · obtain ⟨f', o', r, g1, g2, g3⟩ := hch
        exact .inr (.inl ⟨f', o', _, g1, (place_prefix G L h1 g1 g2).2, .inl g3⟩)
      · have hsame := same_of_place G L W.kinds h1 (fun f o r hc e h => hch ⟨f, o, r, hc, e, h⟩)
        have hf := (q4 a u).1 h2
        by_cases h6 : (l.ndim = 0 && d1 l u) = false
        · by_cases h7 : mode = .independent ∧ TimeDependent (infoOf d.old x1 d1) b
          · exact .inr (.inr ⟨l, a, u, hl, h2, hsame, .inr h7⟩)
          · exact .inl ⟨l', u, (p4 b u).2 ⟨l, a, hl, hf.1, hsame, h6, h7, hf.2⟩, h3⟩
        · exact .inr (.inr ⟨l, a, u, hl, h2, hsame, .inl (by simpa using h6)⟩)
    · obtain ⟨_, _, _, _, -, -, o, f'', hc, ho, hf⟩ := carried_last h1
      rw [List.nil_append] at ho hf
      cases field_once G.new.once hc.1 h3.1 (hf.trans h4.symm)
      cases G.claim_same hc h3
      obtain ⟨r, hr'⟩ := contains_names b' b h2
      refine .inr (.inl ⟨f', o', r, h3, by rw [ho]; exact hr', ?_⟩)
      rw [h4]
      exact h5

/-- **C79, putting into newer data entries.** An IDS of an older version is put into a data entry of a newer one, which converts
it, and `g` is what is stored then; `result` is the IDS converted explicitly. The same as above holds for `g` and `result`. -/
theorem C79_put_new (d : Dicts) (m1 m2 : MFields) (W : Versions d m1 m2) (L : Level d) (hr : RenamedOnly d) (C : Conf V)
    (x1 x2 : Path → Nat) (d1 d2 : LeafMeta → V → Bool)
    (f : Fields V) (mode : Mode) (constant : Bool) (ht : TypedF f m1)
    (hmax : C.mdsplus = true → WithinMaxF (infoOf d.old x1 d1) [] f)
    (ft ot : Field) (v : V) (hsame : SameNode d ft ot) (htp : relPath m2 [] ft.path = C.timePath)
    (hv : ValueAt (.struct f) (ot.path.map (·, none)) v)
    (hdyn : ¬ TimeDependent (infoOf d.old x1 d1) (ot.path.map (·, none))) (hmode : C.modeOf (some v) = mode)
    (hk : mode.known = true) (s : St (Disk V) V) (hs : s.ll.stack = [])
    (hpr : Proper (cfgToNew d custom post store)) (hpo : ∀ p, post p ≠ none → ∃ l, metaAt (.struct m1) p = some (.leaf l)) :
    ∃ s1 g s2, alPut (disk B db) C (infoOf d.old x1 d1) (infoOf d.new x2 d2) (some (nbcToNew d)) db mode m2 false f s =
        (.ok (), s1) ∧
      alGet (disk B db) C (infoOf d.new x2 d2) none db constant .all m2 s1 = (.ok g, s2) ∧
      ∀ result, copyIds (cfgToNew d custom post store) f (Meta.struct m2).fresh = .ok result →
        (∀ a u, ValueAt (.struct g) a u → ∃ b l w, ValueAt (.struct f) b u ∧ SamePlace d a b ∧
          metaAt (.struct m2) (names a) = some (.leaf l) ∧ store l u = .ok w ∧
          ∃ y, result.at a = some y ∧
            match post (names b) with
            | none => y = .leaf l w
            | some h => h (.leaf l w) = .ok y) ∧
        (∀ a k, SizeAt (.struct g) a k → SizeAt result a k) ∧
        (∀ a w, ValueAt result a w →
          (∃ l u, ValueAt (.struct g) a u ∧ store l u = .ok (some w)) ∨
          (∃ f o r, Claim d f o ∧ names a = f.path ++ r ∧ (Changed d f o ∨ ∃ h, post o.path = some h)) ∨
          (∃ l b u, atMeta (.struct m2) a = some (.leaf l) ∧ ValueAt (.struct f) b u ∧ SamePlace d a b ∧
            (l.ndim = 0 ∧ d2 l u = true ∨ mode = .independent ∧
              (TimeDependent (infoOf d.new x2 d2) a ∨ TimeDependent (infoOf d.old x1 d1) b)))) := by
  have G := W.given
  obtain ⟨s1, g, s2, p1, -, p2, p3, p4, p5⟩ := C57_put_new B db d G (L.placed G) hr W.kinds C m1 m2 W.old W.new x1 x2 d1 d2 f mode
    constant W.namesOld ht hmax ft ot v hsame htp hv hdyn hmode hk s hs
  refine ⟨s1, g, s2, p1, p2, fun result hres => ⟨fun a u hu => ?_, fun a k hu => ?_, fun a w hw => ?_⟩⟩
  · obtain ⟨l, b, h1, hraw, h3, -⟩ := (p4 a u).1 hu
    obtain ⟨y, e1, e2⟩ := valueAt_filled hu
    obtain ⟨z, e3, e4⟩ := valueAt_filled hraw
    have hpl := place_of_same G L W.kinds W.old W.new h3 (isNode_of_filled p3 e1 e2) (isNode_of_filled ht e3 e4)
    obtain ⟨l', w, g1, g2, g3⟩ := C58_value_new W hpr hpo f ht result hres b a u hraw hpl (kept_of_same G h3)
      (single_old_of_same G L W.kinds W.old ht h3)
    exact ⟨b, l', w, hraw, h3, g1, g2, g3⟩
  · obtain ⟨l, b, h1, hraw, h3, -⟩ := (p5 a k).1 hu
    obtain ⟨y, e1, e2⟩ := sizeAt_filled hu
    obtain ⟨z, e3, e4⟩ := sizeAt_filled hraw
    have hpl := place_of_same G L W.kinds W.old W.new h3 (isNode_of_filled p3 e1 e2) (isNode_of_filled ht e3 e4)
    exact C58_size_new W hpr hpo f ht result hres b a k hraw hpl (kept_of_same G h3)
      (single_old_of_same G L W.kinds W.old ht h3)
  · obtain ⟨l, hl⟩ := value_leaf (copyIds_typed hpr (Verif.Convert.wf_of_typedF _ _ ht W.namesOld) (typed_fresh _) hres) hw
    rcases C58_no_other_new W hpr (fun g hg => absurd hg (not_left G L g)) f ht result hres a w hw with
      ⟨b, l', u, h1, h2, h3⟩ | ⟨b, a', x, f', o', h1, -, -, h2, h3, h4, h5⟩
    · by_cases hch : ∃ f o r, Claim d f o ∧ names a = f.path ++ r ∧ Changed d f o
      · obtain ⟨f', o', r, g1, g2, g3⟩ := hch
        exact .inr (.inl ⟨f', o', r, g1, g2, .inl g3⟩)
      · have hsame := same_of_place G L W.kinds h1 (fun f o r hc e h => hch ⟨f, o, r, hc, e, h⟩)
        by_cases h6 : (l.ndim = 0 && d2 l u) = false
        · by_cases h7 : mode = .independent ∧ TimeDependent (infoOf d.new x2 d2) a
          · exact .inr (.inr ⟨l, b, u, hl, h2, hsame, .inr ⟨h7.1, .inl h7.2⟩⟩)
          · by_cases h8 : mode = .independent ∧ TimeDependent (infoOf d.old x1 d1) b
            · exact .inr (.inr ⟨l, b, u, hl, h2, hsame, .inr ⟨h8.1, .inr h8.2⟩⟩)
            · exact .inl ⟨l', u, (p4 a u).2 ⟨l, b, hl, h2, hsame, h6, h8, h7⟩, h3⟩
        · exact .inr (.inr ⟨l, b, u, hl, h2, hsame, .inl (by simpa using h6)⟩)
    · obtain ⟨_, _, _, _, -, -, o, f'', hc, ho, hf⟩ := carried_last h1
      rw [List.nil_append] at ho hf
      cases field_once G.old.once hc.2.1 h3.2.1 (ho.trans h4.symm)
      cases G.claim_same' hc h3
      obtain ⟨r, hr'⟩ := contains_names a' a h2
      refine .inr (.inl ⟨f', o', r, h3, by rw [hf]; exact hr', ?_⟩)
      rw [h4]
      exact h5

/-- **C79, putting into older data entries.** The same for an IDS of a newer version. -/
theorem C79_put_old (d : Dicts) (m1 m2 : MFields) (W : Versions d m1 m2) (L : Level d) (hr : RenamedOnly d) (C : Conf V)
    (x1 x2 : Path → Nat) (d1 d2 : LeafMeta → V → Bool)
    (f : Fields V) (mode : Mode) (constant : Bool) (ht : TypedF f m2)
    (hmax : C.mdsplus = true → WithinMaxF (infoOf d.new x2 d2) [] f)
    (ft ot : Field) (v : V) (hsame : SameNode d ft ot) (htp : relPath m1 [] ot.path = C.timePath)
    (hv : ValueAt (.struct f) (ft.path.map (·, none)) v)
    (hdyn : ¬ TimeDependent (infoOf d.new x2 d2) (ft.path.map (·, none))) (hmode : C.modeOf (some v) = mode)
    (hk : mode.known = true) (s : St (Disk V) V) (hs : s.ll.stack = [])
    (hpr : Proper (cfgToOld d custom post store)) (hpo : ∀ p, post p ≠ none → ∃ l, metaAt (.struct m2) p = some (.leaf l)) :
    ∃ s1 g s2, alPut (disk B db) C (infoOf d.new x2 d2) (infoOf d.old x1 d1) (some (nbcToOld d)) db mode m1 false f s =
        (.ok (), s1) ∧
      alGet (disk B db) C (infoOf d.old x1 d1) none db constant .all m1 s1 = (.ok g, s2) ∧
      ∀ result, copyIds (cfgToOld d custom post store) f (Meta.struct m1).fresh = .ok result →
        (∀ b u, ValueAt (.struct g) b u → ∃ a l w, ValueAt (.struct f) a u ∧ SamePlace d a b ∧
          metaAt (.struct m1) (names b) = some (.leaf l) ∧ store l u = .ok w ∧
          ∃ y, result.at b = some y ∧
            match post (names a) with
            | none => y = .leaf l w
            | some h => h (.leaf l w) = .ok y) ∧
        (∀ b k, SizeAt (.struct g) b k → SizeAt result b k) ∧
        (∀ b w, ValueAt result b w →
          (∃ l u, ValueAt (.struct g) b u ∧ store l u = .ok (some w)) ∨
          (∃ f o r, Claim d f o ∧ names b = o.path ++ r ∧ (Changed d f o ∨ ∃ h, post f.path = some h)) ∨
          (∃ l a u, atMeta (.struct m1) b = some (.leaf l) ∧ ValueAt (.struct f) a u ∧ SamePlace d a b ∧
            (l.ndim = 0 ∧ d1 l u = true ∨ mode = .independent ∧
              (TimeDependent (infoOf d.old x1 d1) b ∨ TimeDependent (infoOf d.new x2 d2) a)))) := by
  have G := W.given
  obtain ⟨s1, g, s2, p1, -, p2, p3, p4, p5⟩ := C57_put_old B db d G (L.placed G) hr W.kinds C m1 m2 W.old W.new x1 x2 d1 d2 f mode
    constant W.namesNew ht hmax ft ot v hsame htp hv hdyn hmode hk s hs
  refine ⟨s1, g, s2, p1, p2, fun result hres => ⟨fun b u hu => ?_, fun b k hu => ?_, fun b w hw => ?_⟩⟩
  · obtain ⟨l, a, h1, hraw, h3, -⟩ := (p4 b u).1 hu
    obtain ⟨y, e1, e2⟩ := valueAt_filled hu
    obtain ⟨z, e3, e4⟩ := valueAt_filled hraw
    have hpl := place_of_same G L W.kinds W.old W.new h3 (isNode_of_filled ht e3 e4) (isNode_of_filled p3 e1 e2)
    obtain ⟨l', w, g1, g2, g3⟩ := C58_value_old W hpr hpo f ht result hres a b u hraw hpl (kept_of_same G h3)
      (single_new_of_same G L W.kinds W.new ht h3)
    exact ⟨a, l', w, hraw, h3, g1, g2, g3⟩
  · obtain ⟨l, a, h1, hraw, h3, -⟩ := (p5 b k).1 hu
    obtain ⟨y, e1, e2⟩ := sizeAt_filled hu
    obtain ⟨z, e3, e4⟩ := sizeAt_filled hraw
    have hpl := place_of_same G L W.kinds W.old W.new h3 (isNode_of_filled ht e3 e4) (isNode_of_filled p3 e1 e2)
    exact C58_size_old W hpr hpo f ht result hres a b k hraw hpl (kept_of_same G h3)
      (single_new_of_same G L W.kinds W.new ht h3)
  · obtain ⟨l, hl⟩ := value_leaf (copyIds_typed hpr (Verif.Convert.wf_of_typedF _ _ ht W.namesNew) (typed_fresh _) hres) hw
    rcases C58_no_other_old W hpr f ht result hres b w hw with
      ⟨a, l', u, h1, h2, h3⟩ | ⟨a, b', x, f', o', h1, -, -, h2, h3, h4, h5⟩
    · by_cases hch : ∃ f o r, Claim d f o ∧ names a = f.path ++ r ∧ Changed d f o
      · obtain ⟨f', o', r, g1, g2, g3⟩ := hch
        exact .inr (.inl ⟨f', o', _, g1, (place_prefix G L h1 g1 g2).2, .inl g3⟩)
      · have hsame := same_of_place G L W.kinds h1 (fun f o r hc e h => hch ⟨f, o, r, hc, e, h⟩)
        by_cases h6 : (l.ndim = 0 && d1 l u) = false
        · by_cases h7 : mode = .independent ∧ TimeDependent (infoOf d.old x1 d1) b
          · exact .inr (.inr ⟨l, a, u, hl, h2, hsame, .inr ⟨h7.1, .inl h7.2⟩⟩)
          · by_cases h8 : mode = .independent ∧ TimeDependent (infoOf d.new x2 d2) a
            · exact .inr (.inr ⟨l, a, u, hl, h2, hsame, .inr ⟨h8.1, .inr h8.2⟩⟩)
            · exact .inl ⟨l', u, (p4 b u).2 ⟨l, a, hl, h2, hsame, h6, h8, h7⟩, h3⟩
        · exact .inr (.inr ⟨l, a, u, hl, h2, hsame, .inl (by simpa using h6)⟩)
    · obtain ⟨_, _, _, _, -, -, o, f'', hc, ho, hf⟩ := carried_last h1
      rw [List.nil_append] at ho hf
      cases field_once G.new.once hc.1 h3.1 (hf.trans h4.symm)
      cases G.claim_same hc h3
      obtain ⟨r, hr'⟩ := contains_names b' b h2
      refine .inr (.inl ⟨f', o', r, h3, by rw [ho]; exact hr', ?_⟩)
      rw [h4]
      exact h5

end

/-! ### Two versions -/

theorem pair_versions : Versions pairDicts pairOld pairNew where
  given := pair_given
  nested := pair_level.nested pair_given
  announced := announced_of_check pair_given (by decide +kernel)
  kinds := pair_kinds
  old := pair_old
  new := pair_new
  namesOld := by simp [pairOld, WFMFields, WFMeta, mnames]
  namesNew := by simp [pairNew, WFMFields, WFMeta, mnames]

def pairCustom (_ : VMap.Path) (_ : Handler) (_ _ : Node Nat) : Except ConvErr (Node Nat) := .error .kind
def pairStore (_ : LeafMeta) (v : Nat) : Except ConvErr (Option Nat) := .ok (some v)

theorem pair_proper : Proper (cfgToNew pairDicts pairCustom (fun _ => none) pairStore) ∧
    Proper (cfgToOld pairDicts pairCustom (fun _ => none) pairStore) :=
  proper_new (fun _ _ _ => ⟨fun _ _ _ _ h => (by cases h), fun _ _ h => (by cases h)⟩) (fun _ _ h => by cases h)

set_option linter.unusedSimpArgs false in
theorem pair_old_no_defaults : NoDefaults (infoOf pairDicts.old noMax isNine) pairOldIds := by
  intro a l v h _
  have key : v = 1 ∨ v = 4 ∨ v = 5 ∨ v = 6 := by
    match a with
    | [] => simp [Node.at] at h
    | (n, i) :: r =>
      simp only [pairOldIds] at h
      by_cases h1 : n = ['h']
      · subst h1
        cases i <;> cases r <;> simp_all [Fields.get?, Elems.get?, Node.at, Node.item]
      · by_cases h2 : n = ['a']
        · subst h2
          cases i with
          | none => cases r <;> simp_all [Fields.get?, Elems.get?, Node.at, Node.item]
          | some i =>
            match i with
            | 0 =>
              cases r with
              | nil => simp_all [Fields.get?, Elems.get?, Node.at, Node.item]
              | cons k r =>
                obtain ⟨k, j⟩ := k
                by_cases h3 : k = ['x']
                · subst h3
                  cases j <;> cases r <;> simp_all [Fields.get?, Elems.get?, Node.at, Node.item]
                · simp_all [Fields.get?, Elems.get?, Node.at, Node.item]
            | 1 =>
              cases r with
              | nil => simp_all [Fields.get?, Elems.get?, Node.at, Node.item]
              | cons k r =>
                obtain ⟨k, j⟩ := k
                by_cases h3 : k = ['x']
                · subst h3
                  cases j <;> cases r <;> simp_all [Fields.get?, Elems.get?, Node.at, Node.item, Meta.fresh]
                · simp_all [Fields.get?, Elems.get?, Node.at, Node.item]
            | i + 2 => simp_all [Fields.get?, Elems.get?, Node.at, Node.item]
        · by_cases h3 : n = ['c']
          · subst h3
            cases i <;> cases r <;> simp_all [Fields.get?, Elems.get?, Node.at, Node.item]
          · by_cases h4 : n = ['z']
            · subst h4
              cases i <;> cases r <;> simp_all [Fields.get?, Elems.get?, Node.at, Node.item]
            · simp_all [Fields.get?, Elems.get?, Node.at, Node.item]
  rcases key with rfl | rfl | rfl | rfl <;> rfl

set_option linter.unusedSimpArgs false in
theorem pair_new_no_defaults : NoDefaults (infoOf pairDicts.new noMax isNine) pairNewIds := by
  intro a l v h _
  have key : v = 1 ∨ v = 4 ∨ v = 6 ∨ v = 7 := by
    match a with
    | [] => simp [Node.at] at h
    | (n, i) :: r =>
      simp only [pairNewIds] at h
      by_cases h1 : n = ['h']
      · subst h1
        cases i <;> cases r <;> simp_all [Fields.get?, Elems.get?, Node.at, Node.item]
      · by_cases h2 : n = ['b']
        · subst h2
          cases i with
          | none => cases r <;> simp_all [Fields.get?, Elems.get?, Node.at, Node.item]
          | some i =>
            match i with
            | 0 =>
              cases r with
              | nil => simp_all [Fields.get?, Elems.get?, Node.at, Node.item]
              | cons k r =>
                obtain ⟨k, j⟩ := k
                by_cases h3 : k = ['x']
                · subst h3
                  cases j <;> cases r <;> simp_all [Fields.get?, Elems.get?, Node.at, Node.item]
                · by_cases h4 : k = ['n']
                  · subst h4
                    cases j <;> cases r <;> simp_all [Fields.get?, Elems.get?, Node.at, Node.item]
                  · simp_all [Fields.get?, Elems.get?, Node.at, Node.item]
            | i + 1 => simp_all [Fields.get?, Elems.get?, Node.at, Node.item]
        · by_cases h3 : n = ['c']
          · subst h3
            cases i <;> cases r <;> simp_all [Fields.get?, Elems.get?, Node.at, Node.item]
          · by_cases h4 : n = ['s']
            · subst h4
              cases i with
              | some i => cases r <;> simp_all [Fields.get?, Elems.get?, Node.at, Node.item, Meta.fresh, MFields.fresh]
              | none =>
                cases r with
                | nil => simp_all [Fields.get?, Elems.get?, Node.at, Node.item, Meta.fresh, MFields.fresh]
                | cons k r =>
                  obtain ⟨k, j⟩ := k
                  by_cases h5 : k = ['y']
                  · subst h5
                    cases j <;> cases r <;>
                      simp_all [Fields.get?, Elems.get?, Node.at, Node.item, Meta.fresh, MFields.fresh]
                  · simp_all [Fields.get?, Elems.get?, Node.at, Node.item, Meta.fresh, MFields.fresh]
            · simp_all [Fields.get?, Elems.get?, Node.at, Node.item]
  rcases key with rfl | rfl | rfl | rfl <;> rfl

/-- The hypotheses are met. -/
example (s : St (Disk Nat) Nat) (hs : s.ll.stack = []) :=
  C79_old plainBackend 0 pairCustom (fun _ => none) pairStore pairDicts pairOld pairNew pair_versions pair_level pair_renamed
    pathConf noMax noMax isNine isNine pairOldIds .homogeneous false
    (by simp [pairOldIds, pairOld, TypedF, Typed, TypedE]) pair_old_no_defaults (fun h => by simp [pathConf, alConf] at h)
    [['h']] 1 rfl ⟨alLeaf, rfl, rfl⟩ (one_static (by decide +kernel)) rfl rfl s hs (by simp) pair_proper.1
    (fun _ h => absurd rfl h)

example (s : St (Disk Nat) Nat) (hs : s.ll.stack = []) :=
  C79_new plainBackend 0 pairCustom (fun _ => none) pairStore pairDicts pairOld pairNew pair_versions pair_level pair_renamed
    pathConf noMax noMax isNine isNine pairNewIds .homogeneous false
    (by simp [pairNewIds, pairNew, TypedF, Typed, TypedE]) pair_new_no_defaults (fun h => by simp [pathConf, alConf] at h)
    [['h']] 1 rfl ⟨alLeaf, rfl, rfl⟩ (one_static (by decide +kernel)) rfl rfl s hs (by simp) pair_proper.2
    (fun _ h => absurd rfl h)

example (s : St (Disk Nat) Nat) (hs : s.ll.stack = []) :=
  C79_put_new plainBackend 0 pairCustom (fun _ => none) pairStore pairDicts pairOld pairNew pair_versions pair_level pair_renamed
    pathConf noMax noMax isNine isNine pairOldIds .homogeneous false
    (by simp [pairOldIds, pairOld, TypedF, Typed, TypedE]) (fun h => by simp [pathConf, alConf] at h)
    _ _ 1 pair_same rfl ⟨alLeaf, rfl, rfl⟩ (one_static (by decide +kernel)) rfl rfl s hs pair_proper.1
    (fun _ h => absurd rfl h)

example (s : St (Disk Nat) Nat) (hs : s.ll.stack = []) :=
  C79_put_old plainBackend 0 pairCustom (fun _ => none) pairStore pairDicts pairOld pairNew pair_versions pair_level pair_renamed
    pathConf noMax noMax isNine isNine pairNewIds .homogeneous false
    (by simp [pairNewIds, pairNew, TypedF, Typed, TypedE]) (fun h => by simp [pathConf, alConf] at h)
    _ _ 1 pair_same rfl ⟨alLeaf, rfl, rfl⟩ (one_static (by decide +kernel)) rfl rfl s hs pair_proper.2
    (fun _ h => absurd rfl h)

/-- The array that was renamed is read and converted alike; the node with another type and the node that was removed are
neither read nor converted. -/
def pairRead : Fields Nat :=
  .present ['h'] (.leaf alLeaf (some 1))
    (.present ['b'] (.aos (.cons ['x'] (.leaf alLeaf) (.cons ['n'] (.leaf alLeaf) .nil))
      (.cons (.present ['x'] (.leaf alLeaf (some 4)) (.absent ['n'] (.leaf alLeaf) .nil))
        (.cons (.absent ['x'] (.leaf alLeaf) (.absent ['n'] (.leaf alLeaf) .nil)) .nil)))
    (.absent ['c'] (.leaf strLeaf) (.absent ['s'] (.struct (.cons ['y'] (.leaf alLeaf) .nil)) .nil)))

example : copyIds (cfgToNew pairDicts pairCustom (fun _ => none) pairStore) pairOldIds (Meta.struct pairNew).fresh =
    .ok (.struct pairRead) := by with_unfolding_all rfl

end Verif.Props
