import Verif.Model.ConvertVersion
import Verif.Spec.ConvertVersion
import Verif.Lemmas.VersionNbc
import Verif.Lemmas.ConvertBack
/-
Paths that conversions take with the map built from the dictionaries.
-/
set_option linter.unusedSectionVars false
namespace Verif.Convert
open Verif.Ids Verif.TreeSpec Verif.ConvertSpec
open Verif.VMap hiding Path Nbc metaAt_append
open Verif.VMapSpec hiding OneToOne

variable {V : Type} [Value V]

/-- The path `p` goes to `t`: fields go to the identified field, structures `L` to the place of the structure around them. -/
inductive Reach (C : Field → Field → Prop) (L : VMap.Path → Prop) : VMap.Path → VMap.Path → Prop
  | root : Reach C L [] []
  | field {f o : Field} (h : C f o) : Reach C L f.path o.path
  | left {p t : VMap.Path} {n : Name} (h : Reach C L p t) (hl : L (p ++ [n])) : Reach C L (p ++ [n]) t

/-- What holds for the map in one direction: `A` are the fields it is for, `B` the fields it leads to, `C`
identifies them. `L` and `L'` are structures of `A` and `B` that were left. -/
structure Route (A B : List Field) (C : Field → Field → Prop) (L L' : VMap.Path → Prop)
    (m : VMap.Path → Option (Option VMap.Path)) : Prop where
  once : (A.map (·.path)).Nodup
  once' : (B.map (·.path)).Nodup
  ne : ∀ f ∈ A, f.path ≠ []
  ne' : ∀ f ∈ B, f.path ≠ []
  mem : ∀ f o, C f o → f ∈ A ∧ o ∈ B
  one : ∀ f o o', C f o → C f o' → o = o'
  one' : ∀ f f' o, C f o → C f' o → f = f'
  up : ∀ f o a r, C f o → a ≠ [] → f.path = a ++ r → (∃ f' o', C f' o' ∧ f'.path = a ∧ o'.path <+: o.path) ∨ L a
  up' : ∀ f o a r, C f o → a ≠ [] → o.path = a ++ r → (∃ f' o', C f' o' ∧ o'.path = a ∧ f'.path <+: f.path) ∨ L' a
  level : ∀ f o a r, C f o → f.path = o.path → a ≠ [] → f.path = a ++ r → ∃ f' o', C f' o' ∧ f'.path = a ∧ o'.path = a
  here : ∀ f o, C f o → m f.path = some (some o.path) ∨ (f.path = o.path ∧ m f.path = none) ∨ m f.path = some none
  entry : ∀ p q, m p = some (some q) → ∃ f o, C f o ∧ f.path = p ∧ o.path = q
  missing : ∀ f ∈ A, m f.path = none → (∃ o, C f o ∧ f.path = o.path) ∨ L f.path ∨
    ∃ a r, a ≠ [] ∧ f.path = a ++ r ∧ m a = some none
  left : ∀ a, L a → m a = none ∧ (∃ f ∈ A, f.path = a ∧ f.dtype = "structure".toList) ∧ ∀ f o, C f o → f.path ≠ a
  left' : ∀ a, L' a → (∃ o ∈ B, o.path = a ∧ o.dtype = "structure".toList) ∧ ∀ f o, C f o → o.path ≠ a
  fresh : ∀ p t n, Reach C L p t → L (p ++ [n]) → ¬ Has B (t ++ [n])

theorem goes_open {cx : Cfg V} {tm : Meta} {p q a r : List Name} (h : Goes cx tm p q) (e : p = a ++ r) (ha : a ≠ []) :
    cx.path a ≠ some none := by
  intro hn
  subst e
  obtain ⟨a', n, rfl⟩ := snoc_of_ne ha
  obtain ⟨u, hu⟩ := goes_prefix h
  obtain ⟨u', hu'⟩ := goes_prefix hu
  rw [goes_snoc hu'] at hu
  simp [stepPath, hn] at hu

theorem goes_nil {cx : Cfg V} {tm : Meta} {q : List Name} (h : Goes cx tm [] q) : q = [] := by
  simpa [Goes, pathFrom] using h.symm

section
variable {A B : List Field} {C : Field → Field → Prop} {L L' : VMap.Path → Prop}
  {m : VMap.Path → Option (Option VMap.Path)} {mA mB : MFields} {cx : Cfg V}

theorem Route.same (R : Route A B C L L' m) {f o f' o' : Field} (h : C f o) (h' : C f' o') (e : f.path = f'.path) :
    f = f' ∧ o = o' := by
  cases field_once R.once (R.mem _ _ h).1 (R.mem _ _ h').1 e
  exact ⟨rfl, R.one _ _ _ h h'⟩

theorem Route.same' (R : Route A B C L L' m) {f o f' o' : Field} (h : C f o) (h' : C f' o') (e : o.path = o'.path) :
    f = f' ∧ o = o' := by
  cases field_once R.once' (R.mem _ _ h).2 (R.mem _ _ h').2 e
  exact ⟨R.one' _ _ _ h h', rfl⟩

/-- Fields above go to places above. -/
theorem Route.reach_up (R : Route A B C L L' m) {p q : VMap.Path} (h : Reach C L p q) {f o : Field} (hc : C f o)
    (hp : f.path <+: p) : o.path <+: q := by
  induction h with
  | root => exact absurd (List.prefix_nil.1 hp) (R.ne _ (R.mem _ _ hc).1)
  | @field f' o' h =>
    obtain ⟨r, hr⟩ := hp
    rcases R.up f' o' f.path r h (R.ne _ (R.mem _ _ hc).1) hr.symm with ⟨f1, o1, h1, h2, h3⟩ | h1
    · obtain ⟨-, rfl⟩ := R.same h1 hc h2
      exact h3
    · exact absurd rfl ((R.left _ h1).2.2 f o hc)
  | @left p t n h hl ih =>
    rcases List.prefix_concat_iff.1 hp with e | hp
    · exact absurd e ((R.left _ hl).2.2 f o hc)
    · exact ih hp

/-- Fields below go to places below. -/
theorem Route.reach_down (R : Route A B C L L' m) {p q : VMap.Path} (h : Reach C L p q) :
    ∀ f o r, C f o → f.path = p ++ r → r ≠ [] → ∃ u, u ≠ [] ∧ o.path = q ++ u := by
  induction h with
  | root => exact fun f o r hc _ _ => ⟨o.path, R.ne' _ (R.mem _ _ hc).2, rfl⟩
  | @field f' o' h =>
    intro f o r hc e hr
    rcases R.up f o f'.path r hc (R.ne _ (R.mem _ _ h).1) e with ⟨f1, o1, h1, h2, u, h3⟩ | h1
    · obtain ⟨-, rfl⟩ := R.same h1 h h2
      refine ⟨u, fun hu => ?_, h3.symm⟩
      rw [hu, List.append_nil] at h3
      obtain ⟨rfl, -⟩ := R.same' h1 hc h3
      rw [← h2] at e
      exact hr (by simpa using e)
    · exact absurd rfl ((R.left _ h1).2.2 _ _ h)
  | @left p t n h hl ih =>
    intro f o r hc e hr
    exact ih f o ([n] ++ r) hc (by rw [e]; simp) (by simp)

theorem Route.reach_one (R : Route A B C L L' m) {p q : VMap.Path} (h : Reach C L p q) :
    ∀ q', Reach C L p q' → q = q' := by
  induction h with
  | root =>
    intro q' h'
    generalize e : ([] : VMap.Path) = z at h'
    cases h' with
    | root => rfl
    | field h => exact absurd e.symm (R.ne _ (R.mem _ _ h).1)
    | left => simp at e
  | @field f o h =>
    intro q' h'
    generalize e : f.path = z at h'
    cases h' with
    | root => exact absurd e (R.ne _ (R.mem _ _ h).1)
    | field h' => rw [(R.same h h' e).2]
    | left _ hl => exact absurd e ((R.left _ hl).2.2 f o h)
  | @left p t n h hl ih =>
    intro q' h'
    generalize e : p ++ [n] = z at h'
    cases h' with
    | root => simp at e
    | field h' => exact absurd e.symm ((R.left _ hl).2.2 _ _ h')
    | left h' hl' =>
      obtain ⟨e1, -⟩ := List.append_inj' e rfl
      subst e1
      exact ih _ h'

/-- Above fields with the same path everything stays. -/
theorem Route.reach_level (R : Route A B C L L' m) {f o : Field} (hc : C f o) (e : f.path = o.path) {p t r : VMap.Path}
    (hp : f.path = p ++ r) (h : Reach C L p t) : t = p := by
  by_cases h0 : p = []
  · subst h0
    exact R.reach_one h _ .root
  · obtain ⟨f', o', h1, h2, h3⟩ := R.level f o p r hc e h0 hp
    have := Reach.field (L := L) h1
    rw [h2, h3] at this
    exact R.reach_one h _ this

/-- Paths go to the path of the identified field. -/
theorem Route.goes (R : Route A B C L L' m) (sA : Shows A mA) (sB : Shows B mB) (hm : cx.path = m) (p : List Name) :
    ∀ q, (metaAt (.struct mA) p).isSome → Goes cx (.struct mB) p q → Reach C L p q := by
  induction p using snocRec with
  | nil => intro q _ hg; cases goes_nil hg; exact .root
  | snoc p n ih =>
    intro q hs hg
    obtain ⟨t, ht⟩ := goes_prefix hg
    have hr := ih t (metaAt_prefix hs) ht
    have hg' := hg
    rw [goes_snoc ht] at hg'
    unfold stepPath at hg'
    rw [hm] at hg'
    split at hg'
    · cases hg'
    · next r hr =>
      cases hg'
      obtain ⟨f, o, h1, h2, h3⟩ := R.entry _ _ hr
      rw [← h2, ← h3]
      exact .field h1
    · next hn =>
      obtain ⟨x, hx⟩ := Option.isSome_iff_exists.1 hs
      obtain ⟨f, hf, e, -⟩ := sA.node _ x (by simp) hx
      rw [← e] at hn
      rcases R.missing f hf hn with ⟨o, hc, eo⟩ | hl | ⟨a, r, ha, e', hn⟩
      · have htp : t = p := R.reach_level hc eo e hr
        subst htp
        obtain ⟨y, hy, -⟩ := sB.field o (R.mem _ _ hc).2
        rw [← eo, e] at hy
        rw [hy] at hg'
        simp only [Option.isSome_some, if_true, Option.some.injEq] at hg'
        subst hg'
        have := Reach.field (L := L) hc
        rw [← eo] at this
        rw [← e]
        exact this
      · rw [e] at hl
        have hfr := R.fresh p t n hr hl
        cases hy : metaAt (.struct mB) (t ++ [n]) with
        | some y =>
          obtain ⟨o, h1, h2, -⟩ := sB.node _ y (by simp) hy
          exact absurd ⟨o, h1, h2⟩ hfr
        | none =>
          rw [hy] at hg'
          simp at hg'
          subst hg'
          exact .left hr hl
      · exact absurd (hm ▸ hn) (goes_open hg (e ▸ e') ha)

/-- Fields go to the path of the identified field, if no path above is mapped to nothing. -/
theorem Route.goes_of (R : Route A B C L L' m) (sB : Shows B mB) (hm : cx.path = m) {f o : Field} (hc : C f o)
    (ho : ∀ a r, a ≠ [] → f.path = a ++ r → m a ≠ some none) : Goes cx (.struct mB) f.path o.path := by
  have key : ∀ a r, f.path = a ++ r → ∃ q, Reach C L a q ∧ Goes cx (.struct mB) a q := by
    intro a
    induction a using snocRec with
    | nil => exact fun _ _ => ⟨[], .root, by simp [Goes, pathFrom]⟩
    | snoc a n ih =>
      intro r e
      obtain ⟨t, h1, h2⟩ := ih ([n] ++ r) (by rw [e]; simp)
      rcases R.up f o (a ++ [n]) r hc (by simp) e with ⟨f', o', h3, h4, -⟩ | hl
      · have hr := Reach.field (L := L) h3
        rw [h4] at hr
        refine ⟨o'.path, hr, ?_⟩
        rw [goes_snoc h2]
        unfold stepPath
        rw [hm, ← h4]
        rcases R.here f' o' h3 with h | ⟨e', h⟩ | h
        · rw [h]
        · rw [h]
          have et : t = a := R.reach_level h3 e' h4 h1
          obtain ⟨y, hy, -⟩ := sB.field o' (R.mem _ _ h3).2
          rw [← e', h4] at hy
          simp only
          rw [et, hy, ← e', h4]
          simp
        · exact absurd h (ho f'.path r (R.ne _ (R.mem _ _ h3).1) (by rw [h4]; exact e))
      · refine ⟨t, .left h1 hl, ?_⟩
        rw [goes_snoc h2]
        unfold stepPath
        rw [hm, (R.left _ hl).1]
        cases hy : metaAt (.struct mB) (t ++ [n]) with
        | some y =>
          obtain ⟨o1, h3, h4, -⟩ := sB.node _ y (by simp) hy
          exact absurd ⟨o1, h3, h4⟩ (R.fresh a t n h1 hl)
        | none => simp
  obtain ⟨q, h1, h2⟩ := key f.path [] (by simp)
  rwa [R.reach_one h1 _ (.field hc)] at h2

/-- Nothing happens to structures that were left. -/
def Idle (L : VMap.Path → Prop) (cx : Cfg V) : Prop := ∀ a, L a → cx.change a = none ∧ cx.post a = none

theorem Route.idle (R : Route A B C L L' m) (sA : Shows A mA) (hi : Idle L cx) {a : VMap.Path} (hl : L a) :
    (∃ c, metaAt (.struct mA) a = some (.struct c)) ∧ ¬ Active cx (.struct mA) a := by
  obtain ⟨-, ⟨f, hf, e, ht⟩, -⟩ := R.left a hl
  obtain ⟨x, hx, hk⟩ := sA.field f hf
  rw [e] at hx
  rw [ht] at hk
  have hxs : ∃ c, x = .struct c := by
    cases x with
    | leaf => exact absurd rfl hk.1
    | struct c => exact ⟨c, rfl⟩
    | aos c => exact absurd (show "structure".toList = "struct_array".toList from hk) (by decide)
  obtain ⟨c, rfl⟩ := hxs
  refine ⟨⟨c, hx⟩, fun ⟨y, hy, h⟩ => ?_⟩
  rw [hx] at hy
  cases hy
  rcases h with h | h | h
  · exact h c rfl
  · exact h (hi a hl).1
  · exact h (hi a hl).2

/-- Nodes that write to their target are identified with another node. -/
theorem Route.goes_active (R : Route A B C L L' m) (sA : Shows A mA) (sB : Shows B mB) (hm : cx.path = m) (hi : Idle L cx)
    {p q : List Name} (hp : p ≠ []) (ha : Active cx (.struct mA) p) (hg : Goes cx (.struct mB) p q) :
    ∃ f o, C f o ∧ f.path = p ∧ o.path = q := by
  obtain ⟨x, hx, -⟩ := id ha
  have h := R.goes sA sB hm p q (by rw [hx]; rfl) hg
  cases h with
  | root => exact absurd rfl hp
  | field h => exact ⟨_, _, h, rfl, rfl⟩
  | left _ hl => exact absurd ha (R.idle sA hi hl).2

/-- The built map is one-to-one. -/
theorem Route.oneToOne (R : Route A B C L L' m) (sA : Shows A mA) (sB : Shows B mB) (hm : cx.path = m) (hi : Idle L cx) :
    OneToOne cx (.struct mA) (.struct mB) where
  down := by
    intro p n q q' hs hg hg'
    have h1 := R.goes sA sB hm p q (metaAt_prefix hs) hg
    have h2 := R.goes sA sB hm _ q' hs hg'
    generalize e : p ++ [n] = z at h2
    cases h2 with
    | root => simp at e
    | field h =>
      obtain ⟨u, hu, e1⟩ := R.reach_down h1 _ _ [n] h e.symm (by simp)
      exact ⟨u, e1, fun _ => hu⟩
    | @left _ _ n' h hl =>
      obtain ⟨e1, e2⟩ := List.append_inj' e rfl
      cases e2
      subst e1
      refine ⟨[], by rw [R.reach_one h1 _ h]; simp, fun ha => absurd ha (R.idle sA hi hl).2⟩
  apart := by
    intro p p' q q' ha ha' hg hg' hpre
    by_cases hp : p = []
    · subst hp; exact List.nil_prefix
    · obtain ⟨f, o, h1, h2, h3⟩ := R.goes_active sA sB hm hi hp ha hg
      have hq : q ≠ [] := by rw [← h3]; exact R.ne' _ (R.mem _ _ h1).2
      by_cases hp' : p' = []
      · subst hp'
        cases goes_nil hg'
        exact absurd (List.prefix_nil.1 hpre) hq
      · obtain ⟨f', o', h4, h5, h6⟩ := R.goes_active sA sB hm hi hp' ha' hg'
        obtain ⟨r, hr⟩ := hpre
        rcases R.up' f' o' q r h4 hq (by rw [h6]; exact hr.symm) with ⟨f1, o1, h7, h8, h9⟩ | hl
        · obtain ⟨rfl, -⟩ := R.same' h7 h1 (h8.trans h3.symm)
          rwa [h2, h5] at h9
        · exact absurd h3 ((R.left' _ hl).2 _ _ h1)

end

/-- The recorded changes of identified fields are for opposite directions. -/
structure Opposite (C : Field → Field → Prop) (cx cx' : Cfg V) : Prop where
  nothing : ∀ f o, C f o → cx.path f.path = some none → cx'.path o.path = some none
  change : ∀ f o, C f o → (cx.change f.path = none ∧ cx'.change o.path = none) ∨
    (cx.change f.path = some .structAos ∧ cx'.change o.path = some .structAos ∧
      ((f.dtype = "structure".toList ∧ o.dtype = "struct_array".toList) ∨
        (f.dtype = "struct_array".toList ∧ o.dtype = "structure".toList))) ∨
    ∃ g g', cx.change f.path = some (.custom g) ∧ cx'.change o.path = some (.custom g')

/-- Only data nodes are post-processed. -/
def LeafPost (cx : Cfg V) (m : MFields) : Prop :=
  ∀ p, cx.post p ≠ none → ∃ l, metaAt (.struct m) p = some (.leaf l)

section
variable {A B : List Field} {C : Field → Field → Prop} {L L' : VMap.Path → Prop} {m m' : VMap.Path → Option (Option VMap.Path)} {mA mB : MFields}
  {cx cx' : Cfg V}

theorem isKind_struct {t : List Char} {x : Meta} (h : IsKind t x) (e : t = "structure".toList) : ∃ c, x = .struct c := by
  cases x with
  | leaf => exact absurd e h.1
  | struct c => exact ⟨c, rfl⟩
  | aos c => rw [show t = _ from h] at e; simp at e

theorem isKind_aos {t : List Char} {x : Meta} (h : IsKind t x) (e : t = "struct_array".toList) : ∃ c, x = .aos c := by
  cases x with
  | leaf => exact absurd e h.2
  | struct c => rw [show t = _ from h] at e; simp at e
  | aos c => exact ⟨c, rfl⟩

/-- The built maps are inverse to each other. -/
theorem Route.inverse (R : Route A B C L L' m) (R' : Route B A (fun o f => C f o) L' L m') (sA : Shows A mA) (sB : Shows B mB)
    (hm : cx.path = m) (hm' : cx'.path = m') (O : Opposite C cx cx')
    (O' : Opposite (fun o f => C f o) cx' cx) (hi : Idle L cx) (hp : LeafPost cx mA) (h0 : cx.change [] = none)
    (hk : ∀ f o, C f o → m f.path ≠ some none → cx.change f.path = none → (f.dtype = "structure".toList ↔ o.dtype = "structure".toList)) :
    Inverse cx cx' (.struct mA) (.struct mB) := by
  have claim : ∀ p q, Active cx (.struct mA) p → Goes cx (.struct mB) p q →
      ∃ f o, C f o ∧ f.path = p ∧ o.path = q := by
    intro p q ha hg
    refine R.goes_active sA sB hm hi ?_ ha hg
    obtain ⟨x, hx, ha⟩ := ha
    rintro rfl
    simp only [metaAt, Option.some.injEq] at hx
    rcases ha with ha | ha | ha
    · exact ha _ hx.symm
    · exact ha h0
    · obtain ⟨l, hl⟩ := hp [] ha
      simp [metaAt] at hl
  constructor
  · intro p q ha hg _
    obtain ⟨f, o, hc, rfl, rfl⟩ := claim p q ha hg
    constructor
    · refine R'.goes_of sA hm' hc fun a r ha' e hn => ?_
      rcases R'.up o f a r hc ha' e with ⟨o1, f1, h1, h2, u, h3⟩ | hl
      · rw [← h2, ← hm'] at hn
        have := O'.nothing o1 f1 h1 hn
        exact goes_open hg (a := f1.path) (r := u) h3.symm (R.ne _ (R.mem _ _ h1).1) this
      · rw [(R'.left _ hl).1] at hn
        cases hn
    · obtain ⟨x, hx, ha⟩ := ha
      obtain ⟨hf, ho⟩ := R.mem _ _ hc
      obtain ⟨y, hy, hky⟩ := sB.field o ho
      refine ⟨y, hy, ?_⟩
      rcases O.change f o hc with ⟨h1, h2⟩ | ⟨-, h2, -⟩ | ⟨g, g', -, h2⟩
      · left
        rintro c rfl
        have hn : m f.path ≠ some none := fun e =>
          goes_open hg (a := f.path) (r := []) (by simp) (R.ne f hf) (by rw [hm]; exact e)
        have := (hk f o hc hn h1).2 hky
        obtain ⟨x', hx', hkx⟩ := sA.field f hf
        rw [hx] at hx'; cases hx'
        obtain ⟨c', rfl⟩ := isKind_struct hkx this
        rcases ha with ha | ha | ha
        · exact ha c' rfl
        · exact ha h1
        · obtain ⟨l, hl⟩ := hp _ ha
          rw [hx] at hl; cases hl
      · right; left; rw [h2]; simp
      · right; left; rw [h2]; simp
  · intro p q ha hg _ hch
    obtain ⟨f, o, hc, rfl, rfl⟩ := claim p q ha hg
    rcases O.change f o hc with ⟨-, h2⟩ | ⟨h1, -⟩ | ⟨g, g', h1, -⟩
    · exact h2
    · rw [hch] at h1; cases h1
    · rw [hch] at h1; cases h1
  · intro p q ha hg _ hch
    obtain ⟨f, o, hc, rfl, rfl⟩ := claim p q ha hg
    rcases O.change f o hc with ⟨h1, -⟩ | ⟨-, h2, h3⟩ | ⟨g, g', h1, -⟩
    · rw [hch] at h1; cases h1
    · refine ⟨h2, fun ⟨c, hx⟩ => ?_⟩
      obtain ⟨hf, ho⟩ := R.mem _ _ hc
      obtain ⟨x', hx', hkx⟩ := sA.field f hf
      rw [hx] at hx'; cases hx'
      have e : f.dtype = "structure".toList := hkx
      obtain ⟨y, hy, hky⟩ := sB.field o ho
      rcases h3 with ⟨-, h3⟩ | ⟨h3, -⟩
      · obtain ⟨c, rfl⟩ := isKind_aos hky h3
        exact ⟨c, hy⟩
      · rw [e] at h3; simp at h3
    · rw [hch] at h1; cases h1
  · intro p q g ha hg _ hch
    obtain ⟨f, o, hc, rfl, rfl⟩ := claim p q ha hg
    rcases O.change f o hc with ⟨h1, -⟩ | ⟨h1, -⟩ | ⟨g, g', -, h2⟩
    · rw [hch] at h1; cases h1
    · rw [hch] at h1; cases h1
    · exact ⟨g', h2⟩

end

/-! ### Positions -/

section
variable {A B : List Field} {C : Field → Field → Prop} {L L' : VMap.Path → Prop}
  {m : VMap.Path → Option (Option VMap.Path)} {mA mB : MFields}
  {cx : Cfg V} {E : Field → Field → Option Nat → Option Nat → Prop}

/-- A position in structures. -/
def plainAddr (u : List Name) : Addr := u.map (·, none)

theorem names_plain (u : List Name) : names (plainAddr u) = u := by simp [names, plainAddr, Function.comp_def]

theorem relocate_below (t : Addr) (u : List Name) : relocate t (names t ++ u) = t ++ plainAddr u := by
  unfold relocate
  rw [common_prefix]
  have : (names t).length = t.length := by simp [names]
  simp [this, plainAddr]

/-- The step to an identified field. -/
theorem Route.step (R : Route A B C L L' m) (sB : Shows B mB) (hm : cx.path = m) {f o : Field} (hc : C f o) {p u : List Name}
    {n : Name} {t : Addr} (ht : Reach C L p (names t)) (hf : f.path = p ++ [n]) (ho : o.path = names t ++ u)
    (hn : m f.path ≠ some none) :
    ConvertSpec.step cx (.struct mB) (p ++ [n]) n t = some (t ++ plainAddr u) := by
  unfold ConvertSpec.step
  rw [hm, ← hf]
  rcases R.here f o hc with h | ⟨e, h⟩ | h
  · rw [h, ho]; simp only; rw [relocate_below]
  · rw [h]
    have et := R.reach_level hc e hf ht
    rw [hf, ho, et] at e
    have e2 : [n] = u := List.append_cancel_left e
    subst e2
    obtain ⟨y, hy, -⟩ := sB.field o (R.mem _ _ hc).2
    rw [ho] at hy
    simp [hy, plainAddr]
  · exact absurd h hn

/-- The step to the content of a structure that was left. -/
theorem Route.step_left (R : Route A B C L L' m) (sB : Shows B mB) (hm : cx.path = m) {p : List Name} {n : Name} {t : Addr}
    (ht : Reach C L p (names t)) (hl : L (p ++ [n])) :
    ConvertSpec.step cx (.struct mB) (p ++ [n]) n t = some t := by
  unfold ConvertSpec.step
  rw [hm, (R.left _ hl).1]
  cases hy : metaAt (.struct mB) (names t ++ [n]) with
  | some y =>
    obtain ⟨o, h1, h2, -⟩ := sB.node _ y (by simp) hy
    exact absurd ⟨o, h1, h2⟩ (R.fresh p _ n ht hl)
  | none => simp

theorem Route.sent (R : Route A B C L L' m) (sB : Shows B mB) (hm : cx.path = m) (hi : ∀ a, L a → cx.change a = none)
    (hE : ∀ f o i j, C f o → E f o i j → m f.path ≠ some none ∧ Carry cx f.path i j)
    {p q : List Name} {a b : Addr} (h : Carried C L L' E p q a b) :
    ∀ (t : Addr) (u : List Name) (c : Fields V) (x : Node V), q = names t ++ u → Reach C L p (names t) →
      (Node.struct c).at a = some x →
      (∀ f o, C f o → f.path = p ++ names a → m f.path ≠ some none) →
      (∀ a1 n i r w e, a = a1 ++ (n, some i) :: r → r ≠ [] → (Node.struct c).at (a1 ++ [(n, none)]) = some (.aos w e) →
        cx.change (p ++ names a1 ++ [n]) = some .structAos → e.length = 1) →
      Sent cx (.struct mB) p t c a (t ++ plainAddr u ++ b) := by
  induction h with
  | @here p q n k f o hc hf ho =>
    intro t u c x ht hr hx hn _
    obtain ⟨c', e, h1⟩ := item_cases (s := (n, none)) (x := x) (n := Node.struct c) (by
      simp only [Node.at, Option.bind_eq_some_iff] at hx
      obtain ⟨y, hy, e⟩ := hx
      cases e; exact hy)
    cases e
    rcases h1 with ⟨-, h1⟩ | ⟨i, _, _, _, h1, -⟩
    · have := R.step sB hm hc (u := u ++ [k]) hr hf (by rw [ho, ht, List.append_assoc]) (hn f o hc (by simp [hf, names]))
      refine .here h1 (this.trans ?_)
      simp [plainAddr]
    · cases h1
  | @into p q k a b hl r ih =>
    intro t u c x ht hr hx hn hs
    have := ih t (u ++ [k]) c x (by rw [ht, List.append_assoc]) hr hx hn hs
    simpa [plainAddr] using this
  | @outOf p q n a b hl r ih =>
    intro t u c x ht hr hx hn hs
    simp only [Node.at, Option.bind_eq_some_iff] at hx
    obtain ⟨y, hy, hx⟩ := hx
    have hane : a ≠ [] := by
      clear ih hx hn hs
      intro h0
      have : ∀ {p q a b}, Carried C L L' E p q a b → a ≠ [] := by
        intro p q a b h
        induction h with
        | here => simp
        | step => simp
        | outOf => simp
        | into _ _ ih => exact ih
      exact this r h0
    obtain ⟨g, rfl⟩ : ∃ g, y = .struct g := by
      cases a with
      | nil => exact absurd rfl hane
      | cons s a =>
        simp only [Node.at, Option.bind_eq_some_iff] at hx
        obtain ⟨v, hv, -⟩ := hx
        obtain ⟨g, rfl, -⟩ := item_cases hv
        exact ⟨g, rfl⟩
    obtain ⟨c', e, h3⟩ := item_cases hy
    cases e
    rcases h3 with ⟨-, h3⟩ | ⟨i0, w, e, g', h3, -⟩
    · refine .child h3 (R.step_left sB hm hr hl) (hi _ hl) ?_
      refine ih t u g x ht (.left hr hl) hx (fun f o h1 h2 => hn f o h1 (by rw [h2]; simp [names])) ?_
      intro a1 n' i' r w e h4 h5 h6 h7
      refine hs ((n, none) :: a1) n' i' r w e (by rw [h4]; rfl) h5 ?_ ?_
      · simp only [List.cons_append, Node.at, hy, Option.bind_some]; exact h6
      · rw [← h7]; simp [names]
    · cases h3
  | @step p q n k i j a b f o hc hf ho he r ih =>
    intro t u c x ht hr hx hn hs
    obtain ⟨h1, h2⟩ := hE f o i j hc he
    have ho' : o.path = names t ++ (u ++ [k]) := by rw [ho, ht, List.append_assoc]
    have hstep := R.step sB hm hc hr hf ho' h1
    have etk : t ++ plainAddr (u ++ [k]) = t ++ plainAddr u ++ [(k, none)] := by simp [plainAddr]
    rw [etk] at hstep
    simp only [Node.at, Option.bind_eq_some_iff] at hx
    obtain ⟨y, hy, hx⟩ := hx
    have hane : a ≠ [] := by
      clear ih hx hn hs
      intro h0
      have : ∀ {p q a b}, Carried C L L' E p q a b → a ≠ [] := by
        intro p q a b h
        induction h with
        | here => simp
        | step => simp
        | outOf => simp
        | into _ _ ih => exact ih
      exact this r h0
    obtain ⟨g, rfl⟩ : ∃ g, y = .struct g := by
      cases a with
      | nil => exact absurd rfl hane
      | cons s a =>
        simp only [Node.at, Option.bind_eq_some_iff] at hx
        obtain ⟨v, hv, -⟩ := hx
        obtain ⟨g, rfl, -⟩ := item_cases hv
        exact ⟨g, rfl⟩
    have hn' : ∀ f o, C f o → f.path = p ++ [n] ++ names a → m f.path ≠ some none := by
      intro f o h3 h4
      exact hn f o h3 (by rw [h4]; simp [names])
    have hs' : ∀ a1 n' i' r w e, a = a1 ++ (n', some i') :: r → r ≠ [] →
        (Node.struct g).at (a1 ++ [(n', none)]) = some (.aos w e) →
        cx.change (p ++ [n] ++ names a1 ++ [n']) = some .structAos → e.length = 1 := by
      intro a1 n' i' r w e h3 h4 h5 h6
      refine hs ((n, i) :: a1) n' i' r w e (by rw [h3]; rfl) h4 ?_ ?_
      · simp only [List.cons_append, Node.at, hy, Option.bind_some]; exact h5
      · rw [← h6]; simp [names]
    have hreach : Reach C L (p ++ [n]) (q ++ [k]) := by
      have := Reach.field (L := L) hc
      rwa [hf, ho] at this
    have go : ∀ i, Sent cx (.struct mB) (p ++ [n]) (t ++ plainAddr u ++ [(k, i)]) g a (t ++ plainAddr u ++ (k, i) :: b) := by
      intro i
      have e1 : names (t ++ plainAddr u ++ [(k, i)]) = q ++ [k] := by
        rw [names_append, names_append, names_plain, ht]; rfl
      have := ih (t ++ plainAddr u ++ [(k, i)]) [] g x (by rw [e1]; simp) (by rw [e1]; exact hreach) hx hn' hs'
      simpa [plainAddr] using this
    obtain ⟨c', e, h3⟩ := item_cases hy
    cases e
    simp only at h3
    have et : elemOf (t ++ plainAddr u ++ [(k, none)]) = fun i => t ++ plainAddr u ++ [(k, some i)] := by
      funext i; exact elemOf_snoc ..
    rw [hf] at h2
    rcases h2 with ⟨h2, rfl⟩ | ⟨h2, ⟨rfl, rfl⟩ | ⟨rfl, rfl⟩⟩
    · rcases h3 with ⟨rfl, h3⟩ | ⟨i0, w, e, g', rfl, h3, h4, h5⟩
      · exact .child h3 hstep h2 (go none)
      · cases h5
        exact .element h3 h4 hstep h2 (by rw [et]; exact go (some i0))
    · rcases h3 with ⟨-, h3⟩ | ⟨i0, w, e, g', h3, -⟩
      · exact .toArray h3 hstep h2 (by rw [et]; exact go (some 0))
      · cases h3
    · rcases h3 with ⟨h3, -⟩ | ⟨i0, w, e, g', h3, h4, h5, h6⟩
      · cases h3
      · cases h3
        cases h6
        have hl := hs [] n 0 a w e rfl hane (by simp [Node.at, Node.item, h4]) (by simpa [names] using h2)
        cases e with
        | nil => simp [Elems.length] at hl
        | cons g1 e =>
          cases e with
          | cons => simp [Elems.length] at hl
          | nil =>
            simp only [Elems.get?, Option.some.injEq] at h5
            cases h5
            exact .ofArray h4 hstep h2 (go none)

theorem typed_child {c : Fields V} {m0 : Meta} (h : TypedAt (.struct c) m0) {n : Name} {x : Node V}
    (hx : c.get? n = some x) : ∃ m', child m0 n = some m' ∧ Typed x m' := by
  obtain ⟨mf, ht, hch⟩ := typedAt_struct h
  have h1 := typed_get ht n
  rw [hch]
  cases hm : mget n mf with
  | none => rw [hm] at h1; simp only at h1; rw [h1] at hx; cases hx
  | some m' =>
    rw [hm] at h1
    obtain ⟨z, hz, tz⟩ := h1
    rw [hz] at hx; cases hx
    exact ⟨m', rfl, tz⟩

/-- Structures that only the target has. -/
theorem carried_into {p q : List Name} {a b : Addr} (u : List Name) (hu : ∀ u1 u2, u = u1 ++ u2 → u1 ≠ [] → L' (q ++ u1))
    (h : Carried C L L' E p (q ++ u) a b) : Carried C L L' E p q a (plainAddr u ++ b) := by
  induction u generalizing q with
  | nil => simpa [plainAddr] using h
  | cons k u ih =>
    refine .into (hu [k] u rfl (by simp)) (ih (fun u1 u2 e h1 => ?_) (by simpa using h))
    have := hu (k :: u1) u2 (by rw [e]; rfl) (by simp)
    simpa using this

/-- The reverse: nodes only go to the places of identified fields, except for structures that were left. -/
theorem Route.carried (R : Route A B C L L' m) (sA : Shows A mA) (sB : Shows B mB) (hm : cx.path = m)
    (hi : ∀ a, L a → cx.change a = none)
    (hE : ∀ f o i j, C f o → m f.path ≠ some none → Carry cx f.path i j →
      (cx.change f.path = some .structAos → (i = none ↔ f.dtype = "structure".toList)) → E f o i j) (a : Addr) :
    ∀ (p : List Name) (t : Addr) (c : Fields V) (b : Addr), Here cx (.struct mA) (.struct mB) p t c →
      Sent cx (.struct mB) p t c a b → (∃ b', b = t ++ b' ∧ Carried C L L' E p (names t) a b') ∨ L (p ++ names a) := by
  induction a with
  | nil => intro p t c b _ h; obtain ⟨s, A', x, h1, -⟩ := sent_head h; simp at h1
  | cons s a ih =>
    intro p t c b hh hs
    have hreach : Reach C L p (names t) := by
      obtain ⟨m0, h1, -⟩ := hh.typed
      exact R.goes sA sB hm _ _ (by rw [h1]; rfl) hh.goes
    have claim : ∀ x b0, (Node.struct c).item s = some x → ConvertSpec.step cx (.struct mB) (p ++ [s.1]) s.1 t = some b0 →
        (∃ f o u k, C f o ∧ f.path = p ++ [s.1] ∧ o.path = names t ++ u ++ [k] ∧ b0 = t ++ plainAddr u ++ [(k, none)] ∧
          (∀ u1 u2, u = u1 ++ u2 → u1 ≠ [] → L' (names t ++ u1)) ∧
          m f.path ≠ some none ∧ ∃ w, metaAt (.struct mA) (p ++ [s.1]) = some w ∧ TypedAt x w ∧ IsKind f.dtype w) ∨
        (L (p ++ [s.1]) ∧ b0 = t) := by
      intro x b0 hx hb
      obtain ⟨w, h1, h2⟩ := here_item hh hx
      have hg : Goes cx (.struct mB) (p ++ [s.1]) (names b0) := by
        rw [goes_snoc hh.goes]; exact step_names hb
      have h3 := R.goes sA sB hm _ _ (by rw [h1]; rfl) hg
      generalize e : p ++ [s.1] = z at h3
      generalize e' : names b0 = y at h3
      cases h3 with
      | root => simp at e
      | @left p' t' n' h hl =>
        right
        obtain ⟨e1, e2⟩ := List.append_inj' e rfl
        subst e1
        cases e2
        refine ⟨hl, ?_⟩
        rw [R.step_left sB hm hreach hl] at hb
        exact (Option.some.inj hb).symm
      | @field f o h3 =>
        left
        have h4 : f.path = p ++ [s.1] := e.symm
        have hn : m f.path ≠ some none := by
          intro e
          rw [h4, ← hm] at e
          exact goes_open hg (a := p ++ [s.1]) (r := []) (by simp) (by simp) e
        obtain ⟨u, hu, h6⟩ := R.reach_down hreach f o [s.1] h3 h4 (by simp)
        have hst := R.step sB hm h3 hreach h4 h6 hn
        rw [hb] at hst
        have hb0 := Option.some.inj hst
        obtain ⟨u, k, rfl⟩ := snoc_of_ne hu
        obtain ⟨f', hf', e', hk⟩ := sA.node _ w (by simp) h1
        cases field_once R.once hf' (R.mem _ _ h3).1 (e'.trans h4.symm)
        refine ⟨f, o, u, k, h3, rfl, by rw [h6, List.append_assoc], by rw [hb0]; simp [plainAddr], ?_, hn, w,
          by rw [h4]; exact h1, h2, hk⟩
        intro u1 u2 eu hu1
        rcases R.up' f o (names t ++ u1) (u2 ++ [k]) h3 (by simp [hu1]) (by rw [h6, eu]; simp) with
          ⟨f1, o1, h7, h8, h9⟩ | hl
        · exfalso
          rw [h4] at h9
          rcases List.prefix_concat_iff.1 h9 with e9 | h9
          · obtain ⟨-, rfl⟩ := R.same h7 h3 (e9.trans h4.symm)
            rw [h8, eu] at h6
            have := congrArg List.length h6
            simp at this
          · obtain ⟨v, hv⟩ := R.reach_up hreach h7 h9
            rw [h8] at hv
            have := congrArg List.length hv
            simp at this
            exact hu1 this.1
        · exact hl
    rcases sent_cons hs with ⟨rfl, h1, h2, x, hx⟩ | ⟨hne, g, b1, hi', h2, h3⟩
    · obtain ⟨n, i⟩ := s
      simp only at h1
      subst h1
      rcases claim x b (by simp [Node.item, hx]) h2 with ⟨f, o, u, k, h3, h4, h5, rfl, hu, -⟩ | ⟨hl, -⟩
      · exact .inl ⟨plainAddr u ++ [(k, none)], by simp, carried_into u hu (.here h3 h4 h5)⟩
      · exact .inr (by simpa [names] using hl)
    · have hh' := here_enter hh hi' h2
      obtain ⟨b0, h4, h5⟩ := h2
      rcases claim _ b0 hi' h4 with ⟨f, o, u, k, h6, h7, h8, rfl, hu, h9, w, h10, h11, h12⟩ | ⟨hl, rfl⟩
      · have et : ∀ i, elemOf (t ++ plainAddr u ++ [(k, none)]) i = t ++ plainAddr u ++ [(k, some i)] := fun i => elemOf_snoc ..
        have fin : ∀ j, b1 = t ++ plainAddr u ++ [(k, j)] → Carry cx f.path s.2 j →
            (∃ b', b = t ++ b' ∧ Carried C L L' E p (names t) (s :: a) b') ∨ L (p ++ names (s :: a)) := by
          intro j e hcarry
          rcases ih _ _ _ _ hh' h3 with ⟨b', e1, h13⟩ | h13
          case inr => exact .inr (by simpa [names] using h13)
          left
          subst e
          refine ⟨plainAddr u ++ (k, j) :: b', by rw [e1]; simp, carried_into u hu ?_⟩
          rw [names_append, names_append, names_plain] at h13
          refine .step h6 h7 h8 (hE f o s.2 j h6 h9 hcarry ?_) h13
          intro hch
          rcases hcarry with ⟨h14, -⟩ | ⟨-, ⟨h14, rfl⟩ | ⟨h14, rfl⟩⟩
          · rw [hch] at h14; cases h14
          · refine ⟨fun _ => ?_, fun _ => h14⟩
            cases w with
            | leaf l =>
              rcases h11 with h11 | ⟨_, _, _, h11, _⟩
              · simp [Typed] at h11
              · cases h11
            | struct c' => exact h12
            | aos c' =>
              obtain ⟨c0, e0, h15⟩ := item_cases hi'
              cases e0
              rcases h15 with ⟨-, h15⟩ | ⟨i', _, _, _, h15, -⟩
              · obtain ⟨m0, h18, h19⟩ := hh.typed
                obtain ⟨m1, h20, h21⟩ := typed_child h19 h15
                have := h10
                rw [Convert.metaAt_append, h18] at this
                simp only [Option.bind_some, metaAt, h20, Option.some.injEq] at this
                subst this
                simp [Typed] at h21
              · rw [h14] at h15; cases h15
          · refine ⟨fun h => (by rw [h14] at h; cases h), fun h => ?_⟩
            exfalso
            obtain ⟨c0, e0, h15⟩ := item_cases hi'
            cases e0
            rcases h15 with ⟨h15, -⟩ | ⟨i', m1, e1', g1, h15, h16, -⟩
            · rw [h14] at h15; cases h15
            · obtain ⟨w', h17, h18⟩ := here_item hh (s := (s.1, none)) (x := .aos m1 e1') (by simp [Node.item, h16])
              simp only at h17
              rw [h10] at h17
              cases h17
              obtain ⟨c1, rfl⟩ := isKind_struct h12 h
              rcases h18 with h18 | ⟨_, _, h18, _⟩
              · simp [Typed] at h18
              · cases h18
        rcases h5 with ⟨h5, ⟨h13, rfl⟩ | ⟨i, h13, rfl⟩⟩ | ⟨h5, ⟨h13, rfl⟩ | ⟨h13, rfl⟩⟩
        · exact fin none rfl (.inl ⟨h7 ▸ h5, h13⟩)
        · exact fin (some i) (et i) (.inl ⟨h7 ▸ h5, h13⟩)
        · exact fin (some 0) (et 0) (.inr ⟨h7 ▸ h5, .inl ⟨h13, rfl⟩⟩)
        · exact fin none rfl (.inr ⟨h7 ▸ h5, .inr ⟨h13, rfl⟩⟩)
      · have fin : b1 = b0 → s.2 = none →
            (∃ b', b = b0 ++ b' ∧ Carried C L L' E p (names b0) (s :: a) b') ∨ L (p ++ names (s :: a)) := by
          intro e hs2
          subst e
          rcases ih _ _ _ _ hh' h3 with ⟨b', e1, h13⟩ | h13
          · obtain ⟨n, i⟩ := s
            simp only at hs2
            subst hs2
            exact .inl ⟨b', e1, .outOf hl h13⟩
          · exact .inr (by simpa [names] using h13)
        have hc0 := hi _ hl
        have hnone : s.2 = none := by
          obtain ⟨c0, e0, h15⟩ := item_cases hi'
          cases e0
          rcases h15 with ⟨h15, -⟩ | ⟨i', m1, e1', g1, h15, h16, -⟩
          · exact h15
          · exfalso
            obtain ⟨w', h17, h18⟩ := here_item hh (s := (s.1, none)) (x := .aos m1 e1') (by simp [Node.item, h16])
            obtain ⟨-, ⟨f, hf, e, ht⟩, -⟩ := R.left _ hl
            obtain ⟨x, hx, hk⟩ := sA.field f hf
            rw [e] at hx
            simp only at h17
            rw [hx] at h17
            cases h17
            obtain ⟨c1, rfl⟩ := isKind_struct hk ht
            rcases h18 with h18 | ⟨_, _, h18, _⟩
            · simp [Typed] at h18
            · cases h18
        rcases h5 with ⟨h5, ⟨h13, rfl⟩ | ⟨i, h13, rfl⟩⟩ | ⟨h5, -⟩
        · exact fin rfl hnone
        · rw [hnone] at h13; cases h13
        · rw [hc0] at h5; cases h5

end
end Verif.Convert
