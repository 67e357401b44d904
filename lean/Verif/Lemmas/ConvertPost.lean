import Verif.Lemmas.ConvertPlan
/-
Post-processing functions only matter for the paths of the source dictionary.
-/
namespace Verif.Convert.Post
open Verif.Ids Verif.TreeSpec Verif.ConvertSpec

set_option linter.unusedSectionVars false
variable {V : Type} [Value V]

mutual
/-- All nodes of the structure with path `p` have paths with this property. -/
def OkF (E : List Name → Prop) (p : List Name) : Fields V → Prop
  | .nil => True
  | .absent _ _ r => OkF E p r
  | .present n x r => OkN E (p ++ [n]) x ∧ OkF E p r
termination_by structural x => x
def OkN (E : List Name → Prop) (q : List Name) : Node V → Prop
  | .leaf _ _ => E q
  | .struct c => E q ∧ OkF E q c
  | .aos _ e => E q ∧ OkE E q e
termination_by structural x => x
def OkE (E : List Name → Prop) (q : List Name) : Elems V → Prop
  | .nil => True
  | .cons c r => OkF E q c ∧ OkE E q r
termination_by structural x => x
end

theorem mchild_mem {m : MFields} {n : Name} {x : Meta} (h : mchild m n = some x) : n ∈ mnames m := by
  cases m with
  | nil => simp [mchild] at h
  | cons k y r =>
    simp only [mchild] at h
    split at h
    · rename_i e; subst e; simp [mnames]
    · exact List.mem_cons_of_mem _ (mchild_mem h)

mutual
theorem okF_of {E : List Name → Prop} (p : List Name) (c : Fields V) (m : MFields) (ht : TypedF c m) (hw : WFMFields m)
    (h : ∀ n x r y, mchild m n = some x → metaAt x r = some y → E (p ++ n :: r)) : OkF E p c := by
  cases c with
  | nil => trivial
  | absent n x r =>
    cases m with
    | nil => simp [TypedF] at ht
    | cons k y s =>
      simp only [TypedF] at ht
      simp only [WFMFields] at hw
      simp only [OkF]
      refine okF_of p r s ht.2.2 hw.2.2 fun n' x' r' y' h1 h2 => h n' x' r' y' ?_ h2
      simp only [mchild]
      rw [if_neg (show n' ≠ k from fun e => hw.1 (e ▸ mchild_mem h1))]
      exact h1
  | present n x r =>
    cases m with
    | nil => simp [TypedF] at ht
    | cons k y s =>
      simp only [TypedF] at ht
      simp only [WFMFields] at hw
      obtain ⟨rfl, ht1, ht2⟩ := ht
      simp only [OkF]
      refine ⟨okN_of (p ++ [n]) x y ht1 hw.2.1 fun r' y' h2 => ?_, okF_of p r s ht2 hw.2.2 fun n' x' r' y' h1 h2 => h n' x' r' y' ?_ h2⟩
      · rw [List.append_assoc]
        exact h n y r' y' (by simp [mchild]) h2
      · simp only [mchild]
        rw [if_neg (show n' ≠ n from fun e => hw.1 (e ▸ mchild_mem h1))]
        exact h1
termination_by structural c
theorem okN_of {E : List Name → Prop} (q : List Name) (x : Node V) (m : Meta) (ht : Typed x m) (hw : WFMeta m)
    (h : ∀ r y, metaAt m r = some y → E (q ++ r)) : OkN E q x := by
  have h0 : E q := by simpa using h [] m rfl
  cases x with
  | leaf l v => exact h0
  | struct c =>
    cases m with
    | struct s =>
      simp only [Typed] at ht
      simp only [WFMeta] at hw
      refine ⟨h0, okF_of q c s ht hw fun n x r y h1 h2 => h (n :: r) y ?_⟩
      simp [metaAt, child, h1, h2]
    | leaf => simp [Typed] at ht
    | aos => simp [Typed] at ht
  | aos k e =>
    cases m with
    | aos s =>
      simp only [Typed] at ht
      simp only [WFMeta] at hw
      refine ⟨h0, okE_of q e s ht.2 hw fun n x r y h1 h2 => h (n :: r) y ?_⟩
      simp [metaAt, child, h1, h2]
    | leaf => simp [Typed] at ht
    | struct => simp [Typed] at ht
termination_by structural x
theorem okE_of {E : List Name → Prop} (q : List Name) (e : Elems V) (m : MFields) (ht : TypedE e m) (hw : WFMFields m)
    (h : ∀ n x r y, mchild m n = some x → metaAt x r = some y → E (q ++ n :: r)) : OkE E q e := by
  cases e with
  | nil => trivial
  | cons c r =>
    simp only [TypedE] at ht
    exact ⟨okF_of q c m ht.1 hw h, okE_of q r m ht.2 hw h⟩
termination_by structural e
end

variable {cx : Cfg V} {post : List Name → Option (Node V → Except ConvErr (Node V))}

theorem andThen_congr {r r' : Except ConvErr (Node V)} {f f' : Node V → Except ConvErr (Node V)} (h : r = r') (hf : ∀ x, f x = f' x) :
    andThen r f = andThen r' f' := by
  subst h
  cases r with
  | error e => rfl
  | ok x => exact hf x

theorem post_congr {q : List Name} (h : cx.post q = post q) (b : Addr) (root : Node V) :
    postProcess cx q b root = postProcess { cx with post := post } q b root := by
  simp only [postProcess, h]

mutual
theorem copyF (p : List Name) (t : Addr) (c : Fields V) (h : OkF (fun q => cx.post q = post q) p c) (root : Node V) :
    copyFields cx p t c root = copyFields { cx with post := post } p t c root := by
  cases c with
  | nil => rfl
  | absent n m r =>
    simp only [OkF] at h
    simp only [copyFields]
    exact copyF p t r h root
  | present n x r =>
    simp only [OkF] at h
    simp only [copyFields]
    split
    · refine andThen_congr ?_ fun y => copyF p t r h.2 y
      show (_ : Except ConvErr (Node V)) = (match getTarget cx root (p ++ [n]) n t with
         | .error e => .error e
         | .ok none => .ok root
         | .ok (some b) => copyItem { cx with post := post } (p ++ [n]) b x root)
      cases getTarget cx root (p ++ [n]) n t with
      | error e => rfl
      | ok o =>
        cases o with
        | none => rfl
        | some b => exact copyN (p ++ [n]) b x h.1 root
    · exact copyF p t r h.2 root
termination_by structural c
theorem copyN (q : List Name) (b : Addr) (x : Node V) (h : OkN (fun q => cx.post q = post q) q x) (root : Node V) :
    copyItem cx q b x root = copyItem { cx with post := post } q b x root := by
  cases x with
  | leaf l v =>
    simp only [OkN] at h
    simp only [copyItem]
    cases cx.change q with
    | none => exact andThen_congr rfl fun y => post_congr h b y
    | some g => cases g <;> rfl
  | struct c =>
    simp only [OkN] at h
    simp only [copyItem]
    cases cx.change q with
    | none => exact andThen_congr (copyF q b c h.2 root) fun y => post_congr h.1 b y
    | some g =>
      cases g with
      | custom f => rfl
      | structAos =>
        simp only
        split
        · exact andThen_congr (andThen_congr rfl fun y => copyF q _ c h.2 y) fun y => post_congr h.1 _ y
        · rfl
  | aos m e =>
    simp only [OkN] at h
    simp only [copyItem]
    cases cx.change q with
    | none => exact andThen_congr (andThen_congr rfl fun y => copyE q b 0 e h.2 y) fun y => post_congr h.1 b y
    | some g =>
      cases g with
      | custom f => rfl
      | structAos =>
        simp only
        split
        · exact copyS q b e h.1 h.2 root
        · rfl
termination_by structural x
theorem copyS (q : List Name) (b : Addr) (e : Elems V) (h0 : cx.post q = post q) (h : OkE (fun q => cx.post q = post q) q e) (root : Node V) :
    copySingle cx q b e root = copySingle { cx with post := post } q b e root := by
  cases e with
  | nil => rfl
  | cons c r =>
    simp only [OkE] at h
    simp only [copySingle]
    cases r with
    | nil => exact andThen_congr (copyF q b c h.1 root) fun y => post_congr h0 b y
    | cons => rfl
termination_by structural e
theorem copyE (q : List Name) (b : Addr) (i : Nat) (e : Elems V) (h : OkE (fun q => cx.post q = post q) q e) (root : Node V) :
    copyElems cx q b i e root = copyElems { cx with post := post } q b i e root := by
  cases e with
  | nil => rfl
  | cons c r =>
    simp only [OkE] at h
    simp only [copyElems]
    exact andThen_congr (copyF q _ c h.1 root) fun y => copyE q b (i + 1) r h.2 y
termination_by structural e
end

/-- Post-processing functions for other paths than those of the source dictionary are never called. -/
theorem copyIds_post {m : MFields} {source : Fields V} (ht : TypedF source m) (hw : WFMFields m)
    (h : ∀ p x, p ≠ [] → metaAt (.struct m) p = some x → cx.post p = post p) (target : Node V) :
    copyIds cx source target = copyIds { cx with post := post } source target := by
  refine copyF [] [] source (okF_of [] source m ht hw fun n x r y h1 h2 => h (n :: r) y (by simp) ?_) target
  simp [metaAt, child, h1, h2]

end Verif.Convert.Post
