import Verif.Model.TypeChange
import Verif.Lemmas.ConvertPlan
import Verif.Props.Assign
/-
Lemmas about the functions that convert single nodes.
-/
set_option linter.unusedSectionVars false
namespace Verif.Convert
open Verif.Ids Verif.TreeSpec Verif.ConvertSpec

variable {F : Type} [FloatModel F]

theorem putObj_ok {cv : Conv F} {x : Obj F} {n y : Node (Val F)} (h : putObj cv x n = .ok y) :
    ∃ l s s', n = .leaf l s ∧ setValue cv false l x = .ok s' ∧ y = .leaf l s' := by
  cases n with
  | leaf l s =>
    simp only [putObj] at h
    cases hs : setValue cv false l x with
    | error e => rw [hs] at h; simp at h
    | ok s' => rw [hs] at h; simp only [Except.ok.injEq] at h; exact ⟨l, s, s', rfl, hs, h.symm⟩
  | struct => simp [putObj] at h
  | aos => simp [putObj] at h

theorem keeps_putObj (cv : Conv F) (x : Obj F) : Keeps (putObj cv x) := by
  constructor
  · intro n y m ht h
    obtain ⟨l, s, s', rfl, -, rfl⟩ := putObj_ok h
    cases m <;> simp_all [Typed]
  · intro g y h; simp [putObj] at h

theorem keeps_negate (cv : Conv F) : Keeps (negateNode cv) := by
  constructor
  · intro n y m ht h
    cases n with
    | leaf l s =>
      simp only [negateNode] at h
      split at h
      · simp at h
      · exact (keeps_putObj cv _).1 _ _ _ ht h
    | struct => simp [negateNode] at h
    | aos => simp [negateNode] at h
  · intro g y h; simp [negateNode] at h

theorem writeAt_struct {f : Node (Val F) → Except ConvErr (Node (Val F))} (hk : Keeps f)
    {c : Fields (Val F)} {a : Addr} {y : Node (Val F)} (h : writeAt (.struct c) a f = .ok y) :
    ∃ c', y = .struct c' := modify_struct hk.2 (writeAt_ok h)

theorem keeps_cocos (cv : Conv F) (flux : Bool) : Keeps (cocosChange cv flux) := by
  constructor
  · intro n y m ht h
    cases n with
    | leaf l s => exact (keeps_negate cv).1 _ _ _ ht h
    | struct c =>
      cases flux
      · simp only [cocosChange, Bool.false_eq_true, if_false, Except.ok.injEq] at h; subst h; exact ht
      · simp only [cocosChange, if_true] at h
        exact typed_writeAt (keeps_negate cv) ht h
    | aos m e =>
      cases flux
      · simp only [cocosChange, Bool.false_eq_true, if_false, Except.ok.injEq] at h; subst h; exact ht
      · simp [cocosChange] at h
  · intro g y h
    cases flux
    · simp only [cocosChange, Bool.false_eq_true, if_false, Except.ok.injEq] at h; exact ⟨g, h.symm⟩
    · simp only [cocosChange, if_true] at h
      exact writeAt_struct (keeps_negate cv) h

/-- `f x` either writes a value or leaves the target as it is. -/
def PutOrKeep (cv : Conv F) (f : Node (Val F) → Except ConvErr (Node (Val F))) : Prop :=
  (∃ x, f = putObj cv x) ∨ f = .ok ∨ ∃ e, f = fun _ => .error e

theorem keeps_putOrKeep {cv : Conv F} {f : Node (Val F) → Except ConvErr (Node (Val F))}
    (h : PutOrKeep cv f) : Keeps f := by
  rcases h with ⟨x, rfl⟩ | rfl | ⟨e, rfl⟩
  · exact keeps_putObj cv x
  · exact ⟨fun n y m ht h => by cases h; exact ht, fun g y h => by cases h; exact ⟨g, rfl⟩⟩
  · exact ⟨fun n y m ht h => by simp at h, fun g y h => by simp at h⟩

theorem keeps_0d1d (cv : Conv F) (x : Node (Val F)) : Keeps (change0d1d cv x) := by
  refine keeps_putOrKeep (cv := cv) ?_
  cases x with
  | leaf l s =>
    by_cases h0 : l.ndim = 0
    · exact .inl ⟨_, by funext t; simp [change0d1d, h0]; rfl⟩
    · match hi : itemsOf (readValue l s) with
      | [x] => exact .inl ⟨.val x, by funext t; simp [change0d1d, h0, hi]⟩
      | [] => exact .inr (.inl (by funext t; simp [change0d1d, h0, hi]))
      | _ :: _ :: _ => exact .inr (.inl (by funext t; simp [change0d1d, h0, hi]))
  | struct => exact .inr (.inr ⟨_, by funext t; simp [change0d1d]; rfl⟩)
  | aos => exact .inr (.inr ⟨_, by funext t; simp [change0d1d]; rfl⟩)

theorem keeps_fltInt (cv : Conv F) (fi : IntFloat F) (x : Node (Val F)) :
    Keeps (changeFltInt cv fi x) := by
  refine keeps_putOrKeep (cv := cv) ?_
  cases x with
  | leaf l s =>
    cases hr : readValue l s with
    | int i => exact .inl ⟨_, by funext t; simp [changeFltInt, hr]; rfl⟩
    | flt x =>
      cases ht : fi.toInt32 x with
      | none => exact .inr (.inr ⟨_, by funext t; simp [changeFltInt, hr, ht]; rfl⟩)
      | some i =>
        by_cases he : FloatModel.eq (fi.ofInt i) x = true
        · exact .inl ⟨_, by funext t; simp [changeFltInt, hr, ht, he]; rfl⟩
        · exact .inr (.inl (by funext t; simp [changeFltInt, hr, ht, he]))
    | cpx => exact .inr (.inr ⟨_, by funext t; simp [changeFltInt, hr]; rfl⟩)
    | str => exact .inr (.inr ⟨_, by funext t; simp [changeFltInt, hr]; rfl⟩)
    | strs => exact .inr (.inr ⟨_, by funext t; simp [changeFltInt, hr]; rfl⟩)
    | arr => exact .inr (.inr ⟨_, by funext t; simp [changeFltInt, hr]; rfl⟩)
  | struct => exact .inr (.inr ⟨_, by funext t; simp [changeFltInt]; rfl⟩)
  | aos => exact .inr (.inr ⟨_, by funext t; simp [changeFltInt]; rfl⟩)

theorem keeps_setChild (cv : Conv F) (n : Name) (v : Val F) : Keeps (setChild cv n v) := by
  constructor
  · intro x y m ht h
    exact typed_writeAt (keeps_putObj cv _) ht h
  · intro g y h
    exact writeAt_struct (keeps_putObj cv _) h

theorem keeps_andThen {f : Node (Val F) → Except ConvErr (Node (Val F))}
    {g : Node (Val F) → Except ConvErr (Node (Val F))} (hf : Keeps f) (hg : Keeps g) :
    Keeps (fun x => andThen (f x) g) := by
  constructor
  · intro x y m ht h
    obtain ⟨z, h1, h2⟩ := andThen_ok.1 h
    exact hg.1 _ _ _ (hf.1 _ _ _ ht h1) h2
  · intro c y h
    obtain ⟨z, h1, h2⟩ := andThen_ok.1 h
    obtain ⟨c', rfl⟩ := hf.2 _ _ h1
    exact hg.2 _ _ h2

theorem keeps_identifierOf (cv : Conv F) (enum : Option IdEnum) (i : Int) :
    Keeps (identifierOf cv enum i) := by
  cases hm : enum.bind (·.byIndex i) with
  | none =>
    have : identifierOf cv enum i = setChild cv "index".toList (.int i) := by
      funext x; simp [identifierOf, hm]
    rw [this]; exact keeps_setChild cv _ _
  | some m =>
    have : identifierOf cv enum i = fun x => andThen (andThen (setChild cv "name".toList (.str m.name) x)
      (setChild cv "index".toList (.int m.index)))
      (setChild cv "description".toList (.str m.description)) := by
      funext x; simp [identifierOf, hm]
    rw [this]
    exact keeps_andThen (keeps_andThen (keeps_setChild cv _ _) (keeps_setChild cv _ _))
      (keeps_setChild cv _ _)

theorem identifiersOf_ok {cv : Conv F} {enum : Option IdEnum} {m : MFields} {is : List Int}
    {els : List (Fields (Val F))} (h : identifiersOf cv enum m is = .ok els) :
    els.length = is.length ∧ ∀ (k : Nat) i c, is[k]? = some i → els[k]? = some c →
      identifierOf cv enum i (.struct m.fresh) = .ok (.struct c) := by
  induction is generalizing els with
  | nil => simp only [identifiersOf, Except.ok.injEq] at h; subst h; simp
  | cons i r ih =>
    simp only [identifiersOf] at h
    split at h
    · simp at h
    · next c hc =>
      split at h
      · simp at h
      · next l hl =>
        simp only [Except.ok.injEq] at h; subst h
        obtain ⟨h1, h2⟩ := ih hl
        refine ⟨by simp [h1], ?_⟩
        intro k j d h3 h4
        cases k with
        | zero => simp at h3 h4; subst h3; subst h4; exact hc
        | succ k => exact h2 k j d (by simpa using h3) (by simpa using h4)
    · simp at h

theorem keeps_identifier (cv : Conv F) (enum : Option IdEnum) (x : Node (Val F)) :
    Keeps (changeIdentifier cv enum x) := by
  cases x with
  | leaf l s =>
    constructor
    · intro t y m ht h
      simp only [changeIdentifier] at h
      split at h
      · cases h; exact ht
      · cases t with
        | leaf => simp at h
        | struct => simp at h
        | aos mf e =>
          simp only at h
          split at h
          · simp at h
          · next els he =>
            cases h
            cases m with
            | leaf => simp [Typed] at ht
            | struct => simp [Typed] at ht
            | aos mf' =>
              simp only [Typed] at ht ⊢
              refine ⟨ht.1, typedE_ofList ?_⟩
              intro c hc
              obtain ⟨k, hk⟩ := List.getElem?_of_mem hc
              obtain ⟨h1, h2⟩ := identifiersOf_ok he
              have hlt : k < (intsOf (readValue l s)).length := by
                rw [← h1]; exact (List.getElem?_eq_some_iff.1 hk).1
              have := h2 k _ c (List.getElem?_eq_getElem hlt) hk
              have ht2 : Typed (.struct mf.fresh : Node (Val F)) (.struct mf) := by
                simp only [Typed]; exact typed_freshF mf
              have := (keeps_identifierOf cv enum _).1 _ _ _ ht2 this
              simp only [Typed] at this
              rw [ht.1] at this; exact this
    · intro g y h
      simp only [changeIdentifier] at h
      split at h
      · cases h; exact ⟨g, rfl⟩
      · simp at h
  | struct => exact ⟨fun t y m ht h => by simp [changeIdentifier] at h,
      fun g y h => by simp [changeIdentifier] at h⟩
  | aos m e =>
    refine keeps_putOrKeep (cv := cv) ?_
    by_cases h0 : e.length = 0
    · exact .inr (.inl (by funext t; simp [changeIdentifier, h0]))
    · cases hi : indicesOf e with
      | error x => exact .inr (.inr ⟨_, by funext t; simp [changeIdentifier, h0, hi]; rfl⟩)
      | ok is =>
        by_cases ha : is.all isInt32 = true
        · exact .inl ⟨.val (.arr .int [is.length] (is.map .int)), by
            funext t; simp only [changeIdentifier, h0, hi, ha, if_true, if_false]⟩
        · exact .inr (.inr ⟨.custom, by funext t; simp only [changeIdentifier, h0, hi, ha, if_false]; simp⟩)

end Verif.Convert
