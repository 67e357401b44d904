import Verif.Lemmas.Print
import Verif.Lemmas.Usage
import Verif.Props.Tree
import Verif.Props.Diff
set_option linter.unusedSectionVars false
/-!
C71: what the printed views of nodes, metadata and differences show.
-/
namespace Verif.Props
open Verif.Ids Verif.TreeSpec Verif.Print Verif.PrintSpec
open Verif.ConvertSpec (mchild metaAt)

section
variable {V : Type} [Value V]

/-- **C71, print_tree.** The tree of a structure has its name at the top, and below it one line for every node to be shown, in
document order: all nodes, or with `hide_empty_nodes` those that have a value and the elements of arrays of structures. -/
theorem C71_print_structure (hide : Bool) (name : Name) (b : Addr) (c : Fields V) (hw : WFFields c) :
    ∃ as : List Addr, printTree hide (.struct name b c) = some ((0, .node name) :: as.filterMap (label b (.struct c))) ∧
      as.Pairwise (DocBefore (.struct c)) ∧ ∀ a, a ∈ as ↔ Visible hide (.struct c) a := by
  refine ⟨c.iter false (!hide), ?_, iterF_ordered' _ _ c hw, fun a => ?_⟩
  · rw [printTree, treeFields_eq hide b 0 c hw c fun _ _ h => h, lab_zero]
  · rw [mem_iterF' _ _ c hw]
    simp [Vis, Visible]

/-- **C71, print_tree.** Every data node with a value is shown with this value, and no other value is shown. -/
theorem C71_print_values (hide : Bool) (name : Name) (b : Addr) (c : Fields V) (hw : WFFields c) (lines : List (Nat × Line V))
    (h : printTree hide (.struct name b c) = some lines) (k : Nat) (n : Name) (v : V) :
    (k, .data n (some v)) ∈ lines ↔
      ∃ a l, (Node.struct c).at a = some (.leaf l (some v)) ∧ Value.isEmpty v = false ∧ a.length = k ∧ lastName a = n := by
  obtain ⟨as, h1, -, h2⟩ := C71_print_structure hide name b c hw
  rw [h1] at h
  cases h
  simp only [List.mem_cons, List.mem_filterMap]
  have last : ∀ a : Addr, a ≠ [] → lastName (b ++ a) = lastName a := fun a ha => by
    simp only [lastName]
    rw [List.getLast?_append]
    cases h : a.getLast? with
    | none => exact absurd (List.getLast?_eq_none_iff.1 h) ha
    | some s => rfl
  constructor
  · rintro (h | ⟨a, ha, h⟩)
    · cases h
    · obtain ⟨hne, y, hy, -⟩ := (h2 a).1 ha
      simp only [label, hy] at h
      cases y with
      | struct f => simp at h
      | aos m e => simp only at h; split at h <;> simp at h
      | leaf l w =>
        cases w with
        | none => simp at h
        | some w =>
          simp only [Option.some.injEq, Prod.mk.injEq, Line.data.injEq] at h
          obtain ⟨h3, h4, h5⟩ := h
          split at h5
          · cases h5
          · next he => cases h5; exact ⟨a, l, hy, by simpa using he, h3, by rw [← h4, last a hne]⟩
  · rintro ⟨a, l, ha, he, hk, hn⟩
    have hne : a ≠ [] := by rintro rfl; simp [Node.at] at ha
    refine .inr ⟨a, (h2 a).2 ⟨hne, _, ha, .inr (.inr (by simp [Node.hasValue, leafHasValue, he]))⟩, ?_⟩
    simp [label, ha, he, hk, last a hne, hn]

/-- **C71, print_tree.** What is shown does not depend on which nodes have been looked at before. -/
theorem C71_print_reads (hide : Bool) (name : Name) (b : Addr) (c c' : Fields V) (as : List Addr) (hw : WFFields c)
    (h : (Node.struct c).reads as = .struct c') : printTree hide (.struct name b c') = printTree hide (.struct name b c) := by
  have e : content (.struct c') = content (.struct c) := by rw [← h, content_reads]
  have wc : WF (Node.struct c) := by simpa only [WF] using hw
  have wc' : WF (Node.struct c') := wf_of_content _ (by rw [e]; exact wf_content _ wc)
  have hw' : WFFields c' := by simpa only [WF] using wc'
  have hi : c'.iter false (!hide) = c.iter false (!hide) := by
    have := C07_iter_after_reads false (!hide) false c c' as h
    simpa [treeIter] using this
  have hl : label b (.struct c') = label b (.struct c) := by
    funext a
    rw [← label_content, e, label_content]
  simp only [printTree]
  rw [treeFields_eq hide b 0 c hw c fun _ _ h => h, treeFields_eq hide b 0 c' hw' c' fun _ _ h => h, lab_zero, lab_zero, hi, hl]

/-- **C71, print_tree.** The tree of an array of structures named `n` has a line for every element, each followed by what is
to be shown in it. -/
theorem C71_print_array (hide : Bool) (b : Addr) (n : Name) (m : MFields) (e : Elems V) (hm : WFMFields m) (he : WFElems e) :
    ∃ as : List Addr,
      printTree hide (.aos b n m e) =
        some ((0, .node n) :: as.filterMap (label b (.struct (.present n (.aos m e) .nil)))) ∧
      as.Pairwise (DocBefore (.struct (.present n (.aos m e) .nil))) ∧
      ∀ a, a ∈ as ↔ a ≠ [(n, none)] ∧ Visible hide (.struct (.present n (.aos m e) .nil)) a := by
  have hw : WFFields (.present n (.aos m e) .nil : Fields V) := by simp [WFFields, WF, Fields.names, hm, he]
  refine ⟨e.iter false (!hide) n 0, ?_, ?_⟩
  · rw [printTree, treeElems_eq hide b 0 n 0 e he (.present n (.aos m e) .nil) m e (by simp [Fields.get?])
      (fun j f h => by simpa using h), lab_zero]
  · cases e with
    | nil =>
      refine ⟨by simp [Elems.iter], fun a => ?_⟩
      simp only [Elems.iter, List.not_mem_nil, false_iff]
      rintro ⟨h1, h2, y, hy, -⟩
      cases a with
      | nil => exact h2 rfl
      | cons s r =>
        obtain ⟨k, i⟩ := s
        simp only [Node.at, Node.item, Fields.get?] at hy
        by_cases hk : k = n
        · subst hk
          cases i with
          | none =>
            cases r with
            | nil => exact h1 rfl
            | cons t r => simp [Node.at, Node.item] at hy
          | some i => simp [Elems.get?] at hy
        · simp [hk] at hy
    | cons f r =>
      have hi : (Fields.present n (.aos m (.cons f r)) .nil : Fields V).iter false (!hide) =
          [(n, none)] :: (Elems.cons f r).iter false (!hide) n 0 := by
        simp [Fields.iter, Node.iter, Node.hasValue, Elems.length]
      have ho := iterF_ordered' false (!hide) _ hw
      rw [hi, List.pairwise_cons] at ho
      refine ⟨ho.2, fun a => ?_⟩
      have hm := mem_iterF' false (!hide) _ hw a
      rw [hi, List.mem_cons] at hm
      constructor
      · intro ha
        have hne : a ≠ [(n, none)] := by rintro rfl; exact docBefore_irrefl _ _ (ho.1 _ ha)
        obtain ⟨h1, y, h2, h3, h4⟩ := hm.1 (.inr ha)
        exact ⟨hne, h1, y, h2, by simpa using h4⟩
      · rintro ⟨hne, h1, y, h2, h3⟩
        exact (hm.2 ⟨h1, y, h2, by simp, by simpa using h3⟩).resolve_left hne

/-- **C71, print_tree.** Data nodes are refused. -/
theorem C71_print_data (hide : Bool) (b : Addr) (n : Name) (l : LeafMeta) (v : Option V) :
    printTree hide (.leaf b n l v) = none := rfl

/-- **C71, print_metadata_tree.** The tree of metadata has one line for every entry of the Data Dictionary down to the given
depth (all with `maxdepth=0`; at least the first level), in the order of the Data Dictionary; structures at the limit are
followed by a mark that their children are hidden. -/
theorem C71_print_metadata (maxdepth : Int) (c : MFields) (hw : WFMFields c) :
    ∃ qs : List (List Name), metaTree maxdepth 1 [] c = qs.flatMap (entryLines maxdepth c) ∧
      qs.Pairwise (PathBefore c) ∧
      ∀ q, q ∈ qs ↔ q ≠ [] ∧ (metaAt (.struct c) q).isSome = true ∧
        (maxdepth = 0 ∨ q.length = 1 ∨ (q.length : Int) ≤ maxdepth) := by
  refine ⟨fieldPaths maxdepth 0 c, ?_, fieldPaths_ordered maxdepth 0 c hw c (fun _ _ h => h) fun _ _ _ _ h => h, fun q => ?_⟩
  · rw [metaTree_eq maxdepth 0 [] c hw c fun _ _ h => h]
    congr 1
    funext q
    exact linesAt_zero maxdepth c q
  · simpa using mem_fieldPaths maxdepth 0 c hw q

theorem print_names_nodup : ∀ {c : Fields V}, WFFields c → c.names.Nodup
  | .nil, _ => by simp [Fields.names]
  | .absent n m r, h => by
    simp only [WFFields] at h
    simp only [Fields.names, List.nodup_cons]
    exact ⟨h.1, print_names_nodup h.2.2⟩
  | .present n m r, h => by
    simp only [WFFields] at h
    simp only [Fields.names, List.nodup_cons]
    exact ⟨h.1, print_names_nodup h.2.2⟩

theorem keys_sublist {A B : Type} {f : A → Option (A × B)} (h : ∀ a x, f a = some x → x.1 = a) (l : List A) :
    ((l.filterMap f).map (·.1)).Sublist l := by
  induction l with
  | nil => simp
  | cons a r ih =>
    rw [List.filterMap_cons]
    cases ha : f a with
    | none => exact ih.cons a
    | some x => rw [List.map_cons, h a x ha]; exact ih.cons_cons a

/-- **C71, inspect.** The table of child nodes has every child (with `hide_empty_nodes` every child with a value) once, sorted by
name. -/
theorem C71_inspect (hide : Bool) (c : Fields V) (hw : WFFields c) :
    ((childTable hide c).map (·.1)).Pairwise (· < ·) ∧
    ∀ n x, (n, x) ∈ childTable hide c ↔ c.get? n = some x ∧ (hide = false ∨ x.hasValue = true) := by
  have key : ∀ n x, (n, x) ∈ childTable hide c ↔ c.get? n = some x ∧ (hide = false ∨ x.hasValue = true) := by
    intro n x
    simp only [childTable, List.mem_filterMap, Usage.mem_sortBy]
    constructor
    · rintro ⟨k, -, h⟩
      cases hk : c.get? k with
      | none => simp [hk] at h
      | some y =>
        simp only [hk, Option.bind_some] at h
        split at h
        · cases h
        · next hb =>
          cases h
          refine ⟨hk, ?_⟩
          cases hide <;> simp_all
    · rintro ⟨h, hv⟩
      refine ⟨n, get_names h, ?_⟩
      simp only [h, Option.bind_some]
      rw [if_neg]
      cases hide <;> simp_all
  refine ⟨?_, key⟩
  have hs : (Usage.sortBy (fun a b => decide (a ≤ b)) c.names).Pairwise (· ≤ ·) := by
    refine (Usage.sortBy_sorted (le := fun a b : Name => decide (a ≤ b)) ?_ ?_).imp fun {a b} h => by simpa using h
    · intro a _ b _ c _ h1 h2
      simp only [decide_eq_true_eq] at *
      exact List.le_trans h1 h2
    · intro a _ b _
      simp only [decide_eq_true_eq]
      exact List.le_total a b
  have hn : (Usage.sortBy (fun a b => decide (a ≤ b)) c.names).Nodup :=
    (Usage.sortBy_perm _).nodup_iff.2 (print_names_nodup hw)
  have hlt : (Usage.sortBy (fun a b => decide (a ≤ b)) c.names).Pairwise (· < ·) :=
    (hs.and hn).imp fun {a b} h => Std.lt_of_le_of_ne h.1 h.2
  refine (List.Pairwise.sublist ?_ hlt)
  refine keys_sublist (fun k y h => ?_) _
  cases hk : c.get? k with
  | none => simp [hk] at h
  | some z =>
    simp only [hk, Option.bind_some] at h
    split at h
    · cases h
    · cases h; rfl

end

section
variable {V : Type} [Value V]

theorem idsdiff_rows {blocks : Text → Text → List Match} (hb : ∀ t1 t2, Blocks t1 t2 (blocks t1 t2)) :
    ∀ diffs : List (Text × Side × Side), (diffs.mapM fun d =>
      let t := diffTexts d
      if blocks t.1 t.2 = [] then none else some (highlight t.1 t.2 ⟨0, 0, 0⟩ (blocks t.1 t.2))) =
      some (diffs.map fun d => highlight (diffTexts d).1 (diffTexts d).2 ⟨0, 0, 0⟩ (blocks (diffTexts d).1 (diffTexts d).2))
  | [] => rfl
  | d :: r => by
    rw [List.mapM_cons, idsdiff_rows hb r]
    simp only [if_neg (hb _ _).some, List.map_cons]
    rfl

/-- **C71, idsdiff.** "identical" is printed exactly if the structures are equal (`==`). -/
theorem C71_identical (blocks : Text → Text → List Match) (hb : ∀ t1 t2, Blocks t1 t2 (blocks t1 t2))
    (eqv : V → V → Bool) (describe show1 show2 : Diff → Text) (joinPath : List Name → Text) (p q : Position) (c d : Fields V) :
    idsdiff blocks (differences eqv describe show1 show2 p q c d joinPath) = some .identical ↔ structEq eqv p q c d = true := by
  have h : ∀ l, idsdiff blocks l = some .identical ↔ l = [] := by
    intro l
    rw [idsdiff, idsdiff_rows hb]
    cases l with
    | nil => simp
    | cons d r => simp
  rw [h]
  simp only [differences, structEq, List.append_eq_nil_iff, List.map_eq_nil_iff, Bool.and_eq_true, decide_eq_true_eq,
    List.isEmpty_iff, ite_not]
  constructor
  · rintro ⟨⟨⟨h1, h2⟩, h3⟩, h4⟩
    refine ⟨⟨⟨?_, ?_⟩, ?_⟩, h4⟩
    · split at h1
      · assumption
      · cases h1
    · split at h2
      · assumption
      · cases h2
    · split at h3
      · assumption
      · cases h3
  · rintro ⟨⟨⟨h1, h2⟩, h3⟩, h4⟩
    simp [h1, h2, h3, h4]

/-- **C71, idsdiff.** Otherwise the table has one row for each difference. Each side of a row is the text for that side of the
difference, unchanged; what is not highlighted is the same on both sides, so that something is highlighted if the texts are not
the same. -/
theorem C71_table (blocks : Text → Text → List Match) (hb : ∀ t1 t2, Blocks t1 t2 (blocks t1 t2))
    (diffs : List (Text × Side × Side)) (hd : diffs ≠ []) :
    ∃ rows, idsdiff blocks diffs = some (.table rows) ∧ rows.length = diffs.length ∧
      ∀ (i : Nat) (d : Text × Side × Side), diffs[i]? = some d → ∃ r, rows[i]? = some r ∧
        allText r.1 = (diffTexts d).1 ∧ allText r.2 = (diffTexts d).2 ∧ plainText r.1 = plainText r.2 ∧
        ((diffTexts d).1 ≠ (diffTexts d).2 → ∃ x ∈ r.1 ++ r.2, x.mark = true ∧ x.text ≠ []) := by
  refine ⟨diffs.map fun d => highlight (diffTexts d).1 (diffTexts d).2 ⟨0, 0, 0⟩ (blocks (diffTexts d).1 (diffTexts d).2), ?_,
    by simp, ?_⟩
  · rw [idsdiff, idsdiff_rows hb]
    cases diffs with
    | nil => exact absurd rfl hd
    | cons d r => simp
  · intro i d hi
    refine ⟨_, by rw [List.getElem?_map, hi]; rfl, ?_⟩
    have B := hb (diffTexts d).1 (diffTexts d).2
    obtain ⟨h1, h2⟩ := highlight_all (diffTexts d).1 (diffTexts d).2 _ ⟨0, 0, 0⟩ (fun m _ => by simp) B.follow
    simp only [Nat.add_zero, List.drop_zero] at h1 h2
    have h3 := highlight_plain (diffTexts d).1 (diffTexts d).2 _ ⟨0, 0, 0⟩ B.same
    refine ⟨h1, h2, h3, fun hne => ?_⟩
    refine Classical.byContradiction fun hno => hne ?_
    have all : ∀ l : List Piece, (∀ x ∈ l, ¬ (x.mark = true ∧ x.text ≠ [])) → allText l = plainText l := by
      intro l
      induction l with
      | nil => intro _; rfl
      | cons x l ih =>
        intro h
        have hx := h x (by simp)
        have := ih fun y hy => h y (by simp [hy])
        cases hm : x.mark with
        | false => simp only [allText, plainText, List.flatMap_cons, List.filter_cons, hm] at this ⊢; simp [this]
        | true =>
          have ht : x.text = [] := Classical.byContradiction fun ht => hx ⟨hm, ht⟩
          simp only [allText, plainText, List.flatMap_cons, List.filter_cons, hm, ht] at this ⊢; simp [this]
    exact h1.symm.trans ((all _ fun x hx h => hno ⟨x, List.mem_append_left _ hx, h⟩).trans
      (h3.trans ((all _ fun x hx h => hno ⟨x, List.mem_append_right _ hx, h⟩).symm.trans h2)))

/-- **C71, idsdiff.** A difference between nodes is shown by the `repr` of each node, and by a dash on the side without the node;
other differences (version, name, path) by their description and the two values. -/
theorem C71_texts (d r1 r2 : Text) :
    diffTexts (d, .node r1, .node r2) = (r1, r2) ∧
    diffTexts (d, .node r1, .nothing) = (r1, ['-']) ∧
    diffTexts (d, .nothing, .node r2) = (['-'], r2) ∧
    diffTexts (d, .value r1, .value r2) = (d ++ [':', ' '] ++ r1, d ++ [':', ' '] ++ r2) :=
  ⟨rfl, rfl, rfl, rfl⟩

end

/-! ### Sample cases -/
namespace PrintExample

/-- `s` with an array `a` of one element with one data node, and an array without elements. -/
def tree : Fields (Val Int) :=
  .present "s".toList (.struct (.present "a".toList (.aos (.cons "x".toList (.leaf ⟨.int, 0, false⟩) .nil)
      (.cons (.present "x".toList (.leaf ⟨.int, 0, false⟩ (some (.int 3))) .nil) .nil)) .nil))
    (.absent "e".toList (.aos .nil) .nil)

example : WFFields tree := by simp [tree, WFFields, WF, WFElems, WFMeta, WFMFields, Fields.names, mnames]
example : printTree true (.struct "ids".toList [] tree) = some [
    (0, .node "ids".toList), (1, .node "s".toList), (2, .node "s/a[0]".toList), (3, .data "x".toList (some (.int 3)))] := by
  with_unfolding_all rfl
example : printTree false (.struct "ids".toList [] tree) = some [
    (0, .node "ids".toList), (1, .node "s".toList), (2, .node "s/a[0]".toList), (3, .data "x".toList (some (.int 3))),
    (1, .node "e[]".toList)] := by with_unfolding_all rfl

example : metaTree 1 1 [] hollowMeta = [(1, .node ["s".toList]), (2, .hidden)] := by decide +kernel
example : metaTree 0 1 [] hollowMeta = [(1, .node ["s".toList]), (2, .node ["s".toList, "a".toList]),
    (3, .data ["s".toList, "a".toList, "x".toList])] := by decide +kernel
example : WFMFields hollowMeta := by simp [hollowMeta, WFMFields, WFMeta, mnames]

/-- The blocks for `ab` and `ac`: `a`, and the dummy at the end. -/
example : Blocks "ab".toList "ac".toList [⟨0, 0, 1⟩, ⟨2, 2, 0⟩] :=
  ⟨by simp, by decide, by decide, by simp⟩
/-- A function with the guarantees of `get_matching_blocks`. -/
example : ∃ blocks : Text → Text → List Match, ∀ t1 t2, Blocks t1 t2 (blocks t1 t2) :=
  ⟨fun t1 t2 => [⟨t1.length, t2.length, 0⟩], fun t1 t2 => ⟨by simp, by simp, by simp, by simp⟩⟩
example : highlight "ab".toList "ac".toList ⟨0, 0, 0⟩ [⟨0, 0, 1⟩, ⟨2, 2, 0⟩] =
    ([⟨false, ['a']⟩, ⟨true, ['b']⟩, ⟨false, []⟩, ⟨true, []⟩], [⟨false, ['a']⟩, ⟨true, ['c']⟩, ⟨false, []⟩, ⟨true, []⟩]) := by
  decide +kernel

end PrintExample
end Verif.Props
