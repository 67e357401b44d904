import Verif.Spec.Metadata
import Verif.Lemmas.DiffAddr
import Verif.Lemmas.PathParse
/-! Lemmas about Data Dictionary elements and metadata. -/
namespace Verif.DD
open Verif.DDSpec Verif.Ids Verif.TreeSpec
open Verif.PathSpec (FieldName)

/-! ### Document order -/

mutual
/-- Positions of all descendants, in the order of `iter`. -/
def Xml.positions : Xml → List (List Nat)
  | .mk _ _ k => [] :: k.positions 0
def Xmls.positions : Xmls → Nat → List (List Nat)
  | .nil, _ => []
  | .cons x r, i => x.positions.map (i :: ·) ++ r.positions (i + 1)
end

theorem kids_mk (t : Name) (a : List (Name × Text)) (k : Xmls) : (Xml.mk t a k).kids = k := rfl

mutual
theorem iter_positions (x : Xml) : x.iter.map some = x.positions.map (Xml.at x) := by
  cases x with
  | mk t a k =>
    simp only [Xml.iter, Xml.positions, List.map_cons, Xml.at, List.cons.injEq, true_and]
    exact iters_positions k 0 (.mk t a k) (by intro i y; simp [kids_mk])
theorem iters_positions (k : Xmls) (i : Nat) (x : Xml)
    (h : ∀ j y, nth k j = some y → nth x.kids (i + j) = some y) :
    k.iter.map some = (k.positions i).map (Xml.at x) := by
  cases k with
  | nil => simp [Xmls.iter, Xmls.positions]
  | cons y r =>
    simp only [Xmls.iter, Xmls.positions, List.map_append, List.map_map]
    congr 1
    · rw [iter_positions y]
      refine List.map_congr_left fun p _ => ?_
      have := h 0 y rfl
      simp only [Nat.add_zero] at this
      simp only [Function.comp_apply, Xml.at, this]
    · refine iters_positions r (i + 1) x fun j z hz => ?_
      have := h (j + 1) z hz
      rwa [show i + (j + 1) = i + 1 + j by omega] at this
end

mutual
theorem mem_positions (x : Xml) (p : List Nat) : p ∈ x.positions ↔ (Xml.at x p).isSome := by
  cases x with
  | mk t a k =>
    cases p with
    | nil => simp [Xml.positions, Xml.at]
    | cons j p =>
      simp only [Xml.positions, List.mem_cons, List.cons_ne_nil, false_or, Xml.at,
        kids_mk]
      have := mems_positions k 0 j p
      simp only [Nat.zero_le, Nat.sub_zero, true_and] at this
      rw [this]
      cases nth k j with
      | none => simp
      | some y => simp
theorem mems_positions (k : Xmls) (i j : Nat) (p : List Nat) :
    (j :: p) ∈ k.positions i ↔
      i ≤ j ∧ ∃ y, nth k (j - i) = some y ∧ (Xml.at y p).isSome := by
  cases k with
  | nil => simp [Xmls.positions, nth]
  | cons x r =>
    simp only [Xmls.positions, List.mem_append, List.mem_map, List.cons.injEq]
    rw [mems_positions r (i + 1) j p]
    constructor
    · rintro (⟨q, hq, rfl, rfl⟩ | ⟨h1, y, hy, hp⟩)
      · exact ⟨Nat.le_refl _, x, by simp [nth], (mem_positions x q).mp hq⟩
      · refine ⟨by omega, y, ?_, hp⟩
        rw [show j - i = (j - (i + 1)) + 1 by omega]
        exact hy
    · rintro ⟨h1, y, hy, hp⟩
      by_cases e : j = i
      · subst e
        simp only [Nat.sub_self, nth, Option.some.injEq] at hy
        subst hy
        exact .inl ⟨p, (mem_positions x p).mpr hp, rfl, rfl⟩
      · right
        refine ⟨by omega, y, ?_, hp⟩
        rw [show j - i = (j - (i + 1)) + 1 by omega] at hy
        exact hy
end

mutual
theorem positions_sorted (x : Xml) : x.positions.Pairwise Before := by
  cases x with
  | mk t a k =>
    simp only [Xml.positions, List.pairwise_cons]
    obtain ⟨h1, h2⟩ := poss_sorted k 0
    refine ⟨fun p hp => ?_, h1⟩
    obtain ⟨j, q, rfl, _⟩ := h2 p hp
    exact .root
theorem poss_sorted (k : Xmls) (i : Nat) :
    (k.positions i).Pairwise Before ∧ ∀ p ∈ k.positions i, ∃ j q, p = j :: q ∧ i ≤ j := by
  cases k with
  | nil => simp [Xmls.positions]
  | cons x r =>
    obtain ⟨h1, h2⟩ := poss_sorted r (i + 1)
    simp only [Xmls.positions]
    refine ⟨?_, ?_⟩
    · rw [List.pairwise_append]
      refine ⟨?_, h1, ?_⟩
      · rw [List.pairwise_map]
        exact (positions_sorted x).imp fun h => .down h
      · intro p hp q hq
        obtain ⟨p', _, rfl⟩ := List.mem_map.mp hp
        obtain ⟨j, q', rfl, hj⟩ := h2 q hq
        exact .left (by omega)
    · intro p hp
      rcases List.mem_append.mp hp with hp | hp
      · obtain ⟨p', _, rfl⟩ := List.mem_map.mp hp
        exact ⟨i, p', rfl, Nat.le_refl _⟩
      · obtain ⟨j, q, rfl, hj⟩ := h2 p hp
        exact ⟨j, q, rfl, by omega⟩
end

/-! ### Names and paths -/

theorem slashed_cons {n : Name} {l : List Name} (h : l ≠ []) :
    slashed (n :: l) = n ++ '/' :: slashed l := by
  cases l with
  | nil => exact absurd rfl h
  | cons a l => rfl

/-- A separator-free head is determined. -/
theorem sep_cut {a b r s : List Char} {c : Char} (ha : c ∉ a) (hb : c ∉ b)
    (h : a ++ c :: r = b ++ c :: s) : a = b ∧ r = s := by
  induction a generalizing b with
  | nil =>
    cases b with
    | nil => simp at h; exact ⟨rfl, h⟩
    | cons x b =>
      simp only [List.nil_append, List.cons_append, List.cons.injEq] at h
      exact absurd (by simp [h.1]) hb
  | cons x a ih =>
    cases b with
    | nil =>
      simp only [List.nil_append, List.cons_append, List.cons.injEq] at h
      exact absurd (by simp [h.1]) ha
    | cons y b =>
      simp only [List.cons_append, List.cons.injEq] at h
      obtain ⟨h1, h2⟩ := ih (fun hm => ha (by simp [hm])) (fun hm => hb (by simp [hm])) h.2
      exact ⟨by rw [h.1, h1], h2⟩

theorem fieldName_slash {n : Name} (h : FieldName n) : '/' ∉ n := Path.FieldName.no_slash h

theorem slashed_inj {l m : List Name} (hl : ∀ n ∈ l, FieldName n) (hm : ∀ n ∈ m, FieldName n)
    (h : slashed l = slashed m) : l = m := by
  have ne : ∀ {x : Name}, FieldName x → x ≠ [] := fun h => Path.FieldName.ne_nil h
  induction l generalizing m with
  | nil =>
    cases m with
    | nil => rfl
    | cons b m =>
      exfalso
      have hb := ne (hm b (by simp))
      cases m with
      | nil => simp [slashed] at h; exact hb h
      | cons c m => simp [slashed] at h
  | cons a l ih =>
    have ha := hl a (by simp)
    cases m with
    | nil =>
      exfalso
      cases l with
      | nil => simp [slashed] at h; exact ne ha h
      | cons c m => simp [slashed] at h
    | cons b m =>
      have hb := hm b (by simp)
      cases l with
      | nil =>
        cases m with
        | nil => simpa [slashed] using h
        | cons c m =>
          exfalso
          simp only [slashed] at h
          exact fieldName_slash ha (by rw [h]; simp)
      | cons c l =>
        cases m with
        | nil =>
          exfalso
          simp only [slashed] at h
          exact fieldName_slash hb (by rw [← h]; simp)
        | cons d m =>
          simp only [slashed] at h
          obtain ⟨h1, h2⟩ := sep_cut (fieldName_slash ha) (fieldName_slash hb) h
          rw [h1, ih (fun n hn => hl n (by simp [hn])) (fun n hn => hm n (by simp [hn])) h2]

/-! ### Paths of descendants are distinct -/

theorem xml_path {x : Xml} {p : Text} (h : x.get "path".toList = some p) : x.path = p := by
  simp only [Xml.path, h, Option.getD_some]

mutual
/-- In a well-formed element every descendant's path extends `here`. -/
theorem wf_paths {here : List Name} {x : Xml} (h : WFXml here x) (hh : ∀ n ∈ here, FieldName n) :
    ∀ y ∈ x.kids.iter, ∃ n l, y.path = slashed (here ++ n :: l) ∧ (∀ m ∈ n :: l, FieldName m) := by
  cases h with
  | mk h =>
    intro y hy
    obtain ⟨n, l, hp, hf, _⟩ := wfs_paths h hh y hy
    exact ⟨n, l, hp, hf⟩
theorem wfs_paths {here seen : List Name} {k : Xmls} (h : WFXmls here seen k)
    (hh : ∀ n ∈ here, FieldName n) :
    ∀ y ∈ k.iter, ∃ n l, y.path = slashed (here ++ n :: l) ∧ (∀ m ∈ n :: l, FieldName m) ∧
      n ∉ seen := by
  cases h with
  | nil => simp [Xmls.iter]
  | @cons _ _ x r n hn hf hs hp hx hr =>
    intro y hy
    have hh' : ∀ m ∈ here ++ [n], FieldName m := by
      intro m hm
      rcases List.mem_append.mp hm with hm | hm
      · exact hh m hm
      · simp at hm; subst hm; exact hf
    simp only [Xmls.iter, List.mem_append] at hy
    rcases hy with hy | hy
    · cases x with
      | mk t a k =>
        simp only [Xml.iter, List.mem_cons] at hy
        rcases hy with rfl | hy
        · exact ⟨n, [], xml_path hp, by simpa using hf, hs⟩
        · obtain ⟨m, l, hpy, hfy⟩ := wf_paths hx hh' y hy
          refine ⟨n, m :: l, by rw [hpy]; simp, ?_, hs⟩
          intro z hz
          rcases List.mem_cons.mp hz with rfl | hz
          · exact hf
          · exact hfy z hz
    · obtain ⟨m, l, hpy, hfy, hsn⟩ := wfs_paths hr hh y hy
      exact ⟨m, l, hpy, hfy, fun h => hsn (by simp [h])⟩
end

mutual
theorem wf_nodup {here : List Name} {x : Xml} (h : WFXml here x) (hh : ∀ n ∈ here, FieldName n) :
    (x.kids.iter.map Xml.path).Nodup := by
  cases h with
  | mk h => exact wfs_nodup h hh
theorem wfs_nodup {here seen : List Name} {k : Xmls} (h : WFXmls here seen k)
    (hh : ∀ n ∈ here, FieldName n) : (k.iter.map Xml.path).Nodup := by
  cases h with
  | nil => simp [Xmls.iter]
  | @cons _ _ x r n hn hf hs hp hx hr =>
    have hh' : ∀ m ∈ here ++ [n], FieldName m := by
      intro m hm
      rcases List.mem_append.mp hm with hm | hm
      · exact hh m hm
      · simp at hm; subst hm; exact hf
    have hin : ∀ y ∈ x.iter, ∃ l, y.path = slashed (here ++ n :: l) ∧ (∀ m ∈ l, FieldName m) := by
      intro y hy
      cases x with
      | mk t a k =>
        simp only [Xml.iter, List.mem_cons] at hy
        rcases hy with rfl | hy
        · exact ⟨[], xml_path hp, by simp⟩
        · obtain ⟨m, l, hpy, hfy⟩ := wf_paths hx hh' y hy
          exact ⟨m :: l, by rw [hpy]; simp, hfy⟩
    simp only [Xmls.iter, List.map_append]
    refine List.nodup_append.mpr ⟨?_, wfs_nodup hr hh, ?_⟩
    · have hx' := wf_nodup hx hh'
      have hps := wf_paths hx hh'
      cases x with
      | mk t a k =>
        simp only [Xml.iter, List.map_cons]
        refine List.nodup_cons.mpr ⟨?_, hx'⟩
        intro hm
        obtain ⟨y, hy, he⟩ := List.mem_map.mp hm
        obtain ⟨m, l, hpy, hfy⟩ := hps y hy
        rw [xml_path hp, hpy] at he
        have := slashed_inj (by
          intro z hz
          simp only [List.mem_append] at hz
          rcases hz with hz | hz
          · exact hh' z (by simpa using hz)
          · exact hfy z hz) hh' he
        have := congrArg List.length this
        simp at this
    · intro p hp1 q hq1 he
      subst he
      obtain ⟨y, hy, rfl⟩ := List.mem_map.mp hp1
      obtain ⟨z, hz, he⟩ := List.mem_map.mp hq1
      obtain ⟨l, hpl, hfl⟩ := hin y hy
      obtain ⟨m, l', hpm, hfm, hsn⟩ := wfs_paths hr hh z hz
      rw [hpl, hpm] at he
      have := slashed_inj (by
          intro w hw
          rcases List.mem_append.mp hw with hw | hw
          · exact hh w hw
          · exact hfm w hw) (by
          intro w hw
          rcases List.mem_append.mp hw with hw | hw
          · exact hh w hw
          · rcases List.mem_cons.mp hw with rfl | hw
            · exact hf
            · exact hfl w hw) he
      have := List.append_cancel_left this
      simp only [List.cons.injEq] at this
      exact hsn (by simp [this.1])
end

/-! ### Metadata -/

theorem MDs.get_set (d : MDs) (k key : Name) (v : MD) :
    (d.set k v).get? key = if key = k then some v else d.get? key := by
  cases d with
  | nil => simp [MDs.set, MDs.get?]
  | cons n m r =>
    simp only [MDs.set]
    by_cases e : k = n
    · subst e
      simp only [if_true, MDs.get?]
      by_cases e2 : key = k <;> simp [e2]
    · simp only [e, if_false, MDs.get?]
      rw [MDs.get_set r k key v]
      by_cases e2 : key = n
      · subst e2; simp [Ne.symm e]
      · simp [e2]

theorem mkInfo_spec {stack : Nat} {a : List (Name × Text)} {ctx : Text} {parent : Option Info}
    {i : Info} (h : mkInfo stack a ctx parent = .ok i) :
    getAttr a "name".toList = some i.name ∧ i.path = (getAttr a "path".toList).getD [] ∧
    i.ctxPath = childCtx ctx parent i.name ∧
    i.isDynamic = dynamicOf i.time parent ∧
    i.units = unitsOf ((getAttr a "units".toList).getD []) parent ∧
    parseType (getAttr a "data_type".toList) = .ok (i.type, i.ndim) ∧
    parseTime (getAttr a "type".toList) = .ok i.time ∧
    checkPath stack i.path = .ok () ∧
    i.timebase = timebaseOf i.type i.time i.ctxPath
      ((getAttr a "timebasepath".toList).getD []) parent := by
  unfold mkInfo at h
  cases hn : getAttr a "name".toList with
  | none => rw [hn] at h; simp at h
  | some name =>
    rw [hn] at h
    simp only at h
    split at h
    · simp at h
    · next type ndim ht =>
      split at h
      · simp at h
      · next hc =>
        split at h
        · simp at h
        · next time htm =>
          simp only [Except.ok.injEq] at h
          subst h
          exact ⟨rfl, rfl, rfl, rfl, rfl, ht, htm, hc, rfl⟩

theorem mkMeta_spec {stack : Nat} {x : Xml} {ctx : Text} {parent : Option Info} {m : MD}
    (h : mkMeta stack x ctx parent = .ok m) :
    mkInfo stack x.attrs ctx parent = .ok m.info ∧
    mkKids stack x.kids (if m.info.type = some .structArray then [] else m.info.ctxPath) m.info
      .nil = .ok m.kids ∧ inTypeMap m.info.type m.info.ndim = true := by
  cases x with
  | mk t a k =>
    unfold mkMeta at h
    cases hi : mkInfo stack a ctx parent with
    | error e => rw [hi] at h; simp at h
    | ok info =>
      rw [hi] at h
      simp only at h
      split at h
      · simp at h
      · next ks hk =>
        split at h
        · next ht => simp only [Except.ok.injEq] at h; subst h; exact ⟨hi, hk, ht⟩
        · simp at h

theorem mkMeta_name {stack : Nat} {x : Xml} {ctx : Text} {parent : Option Info} {m : MD}
    (h : mkMeta stack x ctx parent = .ok m) : Named x m.info.name ∧ m.info.path = x.path := by
  obtain ⟨hi, _⟩ := mkMeta_spec h
  obtain ⟨h1, h2, _⟩ := mkInfo_spec hi
  exact ⟨h1, h2⟩

theorem mkKids_other {stack : Nat} {k : Xmls} {ctx : Text} {info : Info} {acc ks : MDs}
    (h : mkKids stack k ctx info acc = .ok ks) {key : Name}
    (hno : ∀ x ∈ k.toList, ¬ Named x key) : ks.get? key = acc.get? key := by
  cases k with
  | nil => simp only [mkKids, Except.ok.injEq] at h; subst h; rfl
  | cons x r =>
    unfold mkKids at h
    cases hm : mkMeta stack x ctx (some info) with
    | error e => rw [hm] at h; simp at h
    | ok m =>
      rw [hm] at h
      simp only at h
      rw [mkKids_other h (fun y hy => hno y (by simp [Xmls.toList, hy])), MDs.get_set, if_neg]
      intro e
      exact hno x (by simp [Xmls.toList]) (e ▸ (mkMeta_name hm).1)

theorem wfs_seen {here seen : List Name} {k : Xmls} (h : WFXmls here seen k) :
    ∀ x ∈ k.toList, ∀ n ∈ seen, ¬ Named x n := by
  cases k with
  | nil => simp [Xmls.toList]
  | cons x r =>
    cases h with
    | @cons _ _ _ _ n hn hf hs hp hx hr =>
      intro y hy m hm hym
      simp only [Xmls.toList, List.mem_cons] at hy
      rcases hy with rfl | hy
      · rw [Named] at hn hym; rw [hn] at hym; simp only [Option.some.injEq] at hym
        subst hym; exact hs hm
      · exact wfs_seen hr y hy m (by simp [hm]) hym

theorem mkKids_mem {stack : Nat} {k : Xmls} {ctx : Text} {info : Info} {acc ks : MDs}
    (h : mkKids stack k ctx info acc = .ok ks) {here seen : List Name} (hw : WFXmls here seen k)
    {x : Xml} (hx : x ∈ k.toList) {n : Name} (hn : Named x n) :
    FieldName n ∧ x.path = slashed (here ++ [n]) ∧ WFXml (here ++ [n]) x ∧
      ∃ m, mkMeta stack x ctx (some info) = .ok m ∧ ks.get? n = some m := by
  cases k with
  | nil => simp [Xmls.toList] at hx
  | cons y r =>
    cases hw with
    | @cons _ _ _ _ n' hn' hf hs hp hxw hr =>
      unfold mkKids at h
      cases hm : mkMeta stack y ctx (some info) with
      | error e => rw [hm] at h; simp at h
      | ok m =>
        rw [hm] at h
        simp only at h
        simp only [Xmls.toList, List.mem_cons] at hx
        rcases hx with rfl | hx
        · have e : n' = n := by
            rw [Named] at hn hn'; rw [hn] at hn'; simpa using hn'.symm
          subst e
          have e2 : m.info.name = n' := by
            have := (mkMeta_name hm).1
            rw [Named] at this hn; rw [hn] at this; simpa using this.symm
          refine ⟨hf, xml_path hp, hxw, m, hm, ?_⟩
          rw [mkKids_other h (fun z hz => wfs_seen hr z hz n' (by simp)), MDs.get_set, e2, if_pos rfl]
        · exact mkKids_mem h hr hx hn

/-- What a lookup by names finds. -/
theorem descend_spec {stack : Nat} : ∀ (names : List Name) {x : Xml} {ctx : Text}
    {parent : Option Info} {m : MD} {here : List Name},
    mkMeta stack x ctx parent = .ok m → WFXml here x →
    (∀ y, Reach x names y → ∃ m' ctx' parent', descend m names = some m' ∧
      mkMeta stack y ctx' parent' = .ok m' ∧
      (names ≠ [] → m'.info.path = slashed (here ++ names) ∧ some m'.info.name = names.getLast?)) ∧
    ((¬ ∃ y, Reach x names y) → descend m names = none) := by
  intro names
  induction names with
  | nil =>
    intro x ctx parent m here hm hw
    refine ⟨fun y hy => ?_, fun h => absurd ⟨x, .nil⟩ h⟩
    cases hy
    exact ⟨m, ctx, parent, rfl, hm, fun h => absurd rfl h⟩
  | cons n names ih =>
    intro x ctx parent m here hm hw
    obtain ⟨_, hk, _⟩ := mkMeta_spec hm
    cases hw with
    | @mk _ t a k hwk =>
      rw [kids_mk] at hk
      by_cases hex : ∃ y ∈ k.toList, Named y n
      · obtain ⟨y, hy, hn⟩ := hex
        obtain ⟨hf, hp, hwy, my, hmy, hget⟩ := mkKids_mem hk hwk hy hn
        have huniq : ∀ z ∈ k.toList, Named z n → mkMeta stack z
            (if m.info.type = some .structArray then [] else m.info.ctxPath) (some m.info) = .ok my ∧
            WFXml (here ++ [n]) z := by
          intro z hz hzn
          obtain ⟨_, _, hwz, mz, hmz, hgz⟩ := mkKids_mem hk hwk hz hzn
          rw [hget, Option.some.injEq] at hgz
          rw [hgz]; exact ⟨hmz, hwz⟩
        refine ⟨fun w hw => ?_, fun hno => ?_⟩
        · cases hw with
          | @cons _ z _ _ _ hc hzn hr =>
            obtain ⟨hmz, hwz⟩ := huniq z hc hzn
            obtain ⟨m', ctx', parent', hd, hmk, hrest⟩ := (ih hmz hwz).1 w hr
            refine ⟨m', ctx', parent', ?_, hmk, fun _ => ?_⟩
            · simp only [descend, hget, hd]
            · cases names with
              | nil =>
                cases hr
                simp only [descend, Option.some.injEq] at hd
                subst hd
                obtain ⟨h1, h2⟩ := mkMeta_name hmz
                rw [Named] at h1 hzn; rw [hzn, Option.some.injEq] at h1
                obtain ⟨_, hpz, _⟩ := mkKids_mem hk hwk hc hzn
                exact ⟨by rw [h2, hpz], by simp [h1]⟩
              | cons n2 names =>
                have := hrest (by simp)
                simpa using this
        · have := (ih hmy hwy).2 (by
            rintro ⟨w, hw⟩; exact hno ⟨w, .cons hy hn hw⟩)
          simp only [descend, hget, this]
      · have hnone : m.kids.get? n = none := by
          rw [mkKids_other hk (fun z hz hzn => hex ⟨z, hz, hzn⟩)]; rfl
        refine ⟨fun w hw => ?_, fun _ => by simp only [descend, hnone]⟩
        cases hw with
        | @cons _ z _ _ _ hc hzn hr => exact absurd ⟨z, hc, hzn⟩ hex

/-! ### Splitting texts -/

theorem splitParts_ne_nil (t : Text) : splitParts t ≠ [] := by
  cases t with
  | nil => simp [splitParts]
  | cons c cs =>
    simp only [splitParts]
    split
    · simp
    · split <;> simp

theorem splitParts_plain {n : Text} (h1 : '.' ∉ n) (h2 : '/' ∉ n) : splitParts n = [n] := by
  induction n with
  | nil => rfl
  | cons c n ih =>
    have hc : ¬ (c = '.' ∨ c = '/') := by
      rintro (rfl | rfl)
      · exact h1 (by simp)
      · exact h2 (by simp)
    simp only [splitParts, if_neg hc, ih (fun h => h1 (by simp [h])) (fun h => h2 (by simp [h]))]

theorem splitParts_sep {n t : Text} {sep : Char} (h1 : '.' ∉ n) (h2 : '/' ∉ n)
    (hs : sep = '/' ∨ sep = '.') : splitParts (n ++ sep :: t) = n :: splitParts t := by
  induction n with
  | nil =>
    have : sep = '.' ∨ sep = '/' := hs.symm
    simp only [List.nil_append, splitParts, if_pos this]
  | cons c n ih =>
    have hc : ¬ (c = '.' ∨ c = '/') := by
      rintro (rfl | rfl)
      · exact h1 (by simp)
      · exact h2 (by simp)
    simp only [List.cons_append, splitParts, if_neg hc,
      ih (fun h => h1 (by simp [h])) (fun h => h2 (by simp [h]))]

theorem splitParts_written {names : List Name} {t : Text} (h : Written names t)
    (hn : ∀ n ∈ names, '.' ∉ n ∧ '/' ∉ n) : splitParts t = names := by
  induction h with
  | one => exact splitParts_plain (hn _ (by simp)).1 (hn _ (by simp)).2
  | more hs h ih =>
    rw [splitParts_sep (hn _ (by simp)).1 (hn _ (by simp)).2 hs,
      ih fun n hm => hn n (by simp [hm])]

theorem written_splitParts (t : Text) :
    Written (splitParts t) t ∧ ∀ n ∈ splitParts t, '.' ∉ n ∧ '/' ∉ n := by
  induction t with
  | nil => exact ⟨.one, by simp [splitParts]⟩
  | cons c t ih =>
    obtain ⟨hw, hn⟩ := ih
    simp only [splitParts]
    by_cases hc : c = '.' ∨ c = '/'
    · rw [if_pos hc]
      refine ⟨?_, ?_⟩
      · exact .more (n := []) hc.symm hw
      · intro n hm
        rcases List.mem_cons.mp hm with rfl | hm
        · simp
        · exact hn n hm
    · rw [if_neg hc]
      have hc1 : '.' ≠ c := fun e => hc (.inl e.symm)
      have hc2 : '/' ≠ c := fun e => hc (.inr e.symm)
      cases hs : splitParts t with
      | nil => exact absurd hs (splitParts_ne_nil t)
      | cons p ps =>
        rw [hs] at hw hn
        refine ⟨?_, ?_⟩
        · cases hw with
          | one => exact .one
          | more h1 h2 => exact .more (n := c :: p) h1 h2
        · intro n hm
          rcases List.mem_cons.mp hm with rfl | hm
          · have := hn p (by simp)
            simp [this.1, this.2, hc1, hc2]
          · exact hn n (by simp [hm])

theorem written_slashed {names : List Name} (h : names ≠ []) : Written names (slashed names) := by
  induction names with
  | nil => exact absurd rfl h
  | cons a l ih =>
    cases l with
    | nil => exact .one
    | cons b l => exact .more (.inl rfl) (ih (by simp))

/-! ### Data trees -/

theorem mget_toMFields (k : MDs) (key : Name) :
    mget key k.toMFields = (k.get? key).map MD.toMeta := by
  cases k with
  | nil => simp [MDs.toMFields, mget, MDs.get?]
  | cons n m r =>
    simp only [MDs.toMFields, mget, MDs.get?]
    by_cases e : key = n
    · simp [e]
    · simp only [e, if_false]; exact mget_toMFields r key

end Verif.DD
