import Verif.Model.Convert
import Verif.Model.Identifier
/-
Model of the functions that convert single nodes: the type changes `_type_changed_0d_1d_data`,
`_type_changed_to_identifier` and `_type_changed_flt0d_int0d`, and the sign change `_cocos_change`
(`/repo/imas/ids_convert.py` lines 903-983 and 1122-1135).

Each function is given by the new content of the target node. Warnings are not modelled: a change
that only logs a warning returns the target node as it was.
-/
namespace Verif.Convert
open Verif.Ids

variable {F : Type} [FloatModel F]

/-- `target.value = x` (`ids_primitive.py` lines 172-191). Other nodes than data nodes have no value
setter. -/
def putObj (cv : Conv F) (x : Obj F) : Node (Val F) → Except ConvErr (Node (Val F))
  | .leaf l _ =>
    match setValue cv false l x with
    | .error _ => .error .store
    | .ok s => .ok (.leaf l s)
  | _ => .error .kind

/-- `target_item.value = item.value` in `_copy_structure` (line 749), for the parameter `store` of
`Cfg`. -/
def storeVal (cv : Conv F) (l : LeafMeta) (v : Val F) : Except ConvErr (Option (Val F)) :=
  match setValue cv false l (.val v) with
  | .error _ => .error .store
  | .ok s => .ok s

/-- Unary minus of numpy's int32: the smallest number has no counterpart. -/
def negInt32 (i : Int) : Int := if i = -2147483648 then i else -i

/-- Unary minus of an item of an array. -/
def negScalar : Scalar F → Scalar F
  | .int i => .int (negInt32 i)
  | .flt x => .flt (FloatModel.neg x)
  | .cpx x y => .cpx (FloatModel.neg x) (FloatModel.neg y)

/-- `-value`: `none` is the `TypeError` for strings and lists. -/
def negVal : Val F → Option (Val F)
  | .int i => some (.int (-i))
  | .flt x => some (.flt (FloatModel.neg x))
  | .cpx x y => some (.cpx (FloatModel.neg x) (FloatModel.neg y))
  | .str _ => none
  | .strs _ => none
  | .arr t s d => some (.arr t s (d.map negScalar))

/-- `node.value = -node.value`. -/
def negateNode (cv : Conv F) : Node (Val F) → Except ConvErr (Node (Val F))
  | .leaf l s =>
    match negVal (readValue l s) with
    | none => .error .kind
    | some w => putObj cv (.val w) (.leaf l s)
  | _ => .error .kind

/-- `_cocos_change` (lines 1122-1135). `flux` tells whether the path of the node is
`flux_loop/flux`. -/
def cocosChange (cv : Conv F) (flux : Bool) : Node (Val F) → Except ConvErr (Node (Val F))
  | .leaf l s => negateNode cv (.leaf l s)
  | .struct c => if flux then writeAt (.struct c) [("data".toList, none)] (negateNode cv) else .ok (.struct c)
  | .aos m e => if flux then .error .kind else .ok (.aos m e)

/-- An item of an array as a Python number. (`source_node[0]` is a numpy scalar; storing it in a 0D
node converts it to the Python number with the same value, `ids_primitive.py` lines 343-350.) -/
def scalarVal : Scalar F → Val F
  | .int i => .int i
  | .flt x => .flt x
  | .cpx x y => .cpx x y

/-- The items of a 1D value. -/
def itemsOf : Val F → List (Val F)
  | .strs l => l.map .str
  | .arr _ _ d => d.map scalarVal
  | v => [v]

/-- `_type_changed_0d_1d_data` (lines 903-924). -/
def change0d1d (cv : Conv F) : Node (Val F) → Node (Val F) → Except ConvErr (Node (Val F))
  | .leaf l s, target =>
    if l.ndim = 0 then putObj cv (.list [.val (readValue l s)]) target
    else match itemsOf (readValue l s) with
      | [x] => putObj cv (.val x) target
      | _ => .ok target
  | _, _ => .error .kind

/-- Conversions between integers and floating point numbers: `float(i)`, and `numpy.int32(x)`
(`none` if it raises). -/
structure IntFloat (F : Type) where
  ofInt : Int → F
  toInt32 : F → Option Int

/-- `_type_changed_flt0d_int0d` (lines 961-983). -/
def changeFltInt (cv : Conv F) (fi : IntFloat F) :
    Node (Val F) → Node (Val F) → Except ConvErr (Node (Val F))
  | .leaf l s, target =>
    match readValue l s with
    | .int i => putObj cv (.val (.flt (fi.ofInt i))) target
    | .flt x =>
      match fi.toInt32 x with
      | none => .error .custom
      | some i => if FloatModel.eq (fi.ofInt i) x then putObj cv (.val (.int i)) target else .ok target
    | _ => .error .kind
  | _, _ => .error .kind

/-- `node.name = x` on a structure, for a data node `name`. -/
def setChild (cv : Conv F) (n : Name) (v : Val F) (x : Node (Val F)) : Except ConvErr (Node (Val F)) :=
  writeAt x [(n, none)] (putObj cv (.val v))

/-- Lines 935-948 for one item: assign the member of the enum with this index
(`_assign_identifier`, `ids_structure.py` lines 94-96), or only the index if there is none. -/
def identifierOf (cv : Conv F) (enum : Option IdEnum) (i : Int) (x : Node (Val F)) :
    Except ConvErr (Node (Val F)) :=
  match enum.bind (·.byIndex i) with
  | some m =>
    andThen (andThen (setChild cv "name".toList (.str m.name) x)
      (setChild cv "index".toList (.int m.index)))
      (setChild cv "description".toList (.str m.description))
  | none => setChild cv "index".toList (.int i) x

/-- The elements of the target array: new elements (`resize` without `keep`), with identifiers
assigned one by one. -/
def identifiersOf (cv : Conv F) (enum : Option IdEnum) (m : MFields) :
    List Int → Except ConvErr (List (Fields (Val F)))
  | [] => .ok []
  | i :: r =>
    match identifierOf cv enum i (.struct m.fresh) with
    | .error e => .error e
    | .ok (.struct c) =>
      match identifiersOf cv enum m r with
      | .error e => .error e
      | .ok l => .ok (c :: l)
    | .ok _ => .error .kind      -- unreachable

/-- The integers of an INT_1D value. -/
def intsOf : Val F → List Int
  | .arr _ _ d => d.filterMap fun
    | .int i => some i
    | _ => none
  | _ => []

/-- `[node.index for node in source_node]`. -/
def indicesOf : Elems (Val F) → Except ConvErr (List Int)
  | .nil => .ok []
  | .cons c r =>
    match c.get? "index".toList with
    | some (.leaf l s) =>
      match readValue l s with
      | .int i =>
        match indicesOf r with
        | .error e => .error e
        | .ok is => .ok (i :: is)
      | _ => .error .kind
    | _ => .error .kind

/-- Is the number representable as int32? -/
def isInt32 (i : Int) : Bool := -2147483648 ≤ i && i ≤ 2147483647

/-- `_type_changed_to_identifier` (lines 927-958). `enum` is `target_node.metadata.identifier_enum`.
`numpy.array(..., numpy.int32)` raises `OverflowError` for numbers that do not fit. -/
def changeIdentifier (cv : Conv F) (enum : Option IdEnum) :
    Node (Val F) → Node (Val F) → Except ConvErr (Node (Val F))
  | .leaf l s, target =>
    if (intsOf (readValue l s)).isEmpty then .ok target
    else match target with
      | .aos m _ =>
        match identifiersOf cv enum m (intsOf (readValue l s)) with
        | .error e => .error e
        | .ok els => .ok (.aos m (.ofList els))
      | _ => .error .kind
  | .aos _ e, target =>
    if e.length = 0 then .ok target
    else match indicesOf e with
      | .error x => .error x
      | .ok is =>
        if is.all isInt32 then putObj cv (.val (.arr .int [is.length] (is.map .int))) target
        else .error .custom
  | .struct _, _ => .error .kind

/-! ### The COCOS part of a version map -/

/-- Lines 362-373 of `_apply_3to4_conversion`: the old paths that need a sign change. `fields` are the
fields of the old dictionary in document order with their `cocos_label_transformation`; `extra` is
`_3to4_sign_flip_paths`. -/
def cocosPaths (fields : List (List Name × Option (List Char))) (extra : List (List Name)) :
    List (List Name) :=
  (fields.filterMap fun (p, label) => if label = some "psi_like".toList then some p else none) ++
  (fields.filterMap fun (p, label) => if label = some "dodpsi_like".toList then some p else none) ++
  extra

/-- `self.old_to_new.path.get(old_path, old_path)` (line 370); `none` if mapped to None. -/
def newPath (path : List Name → Option (Option (List Name))) (p : List Name) : Option (List Name) :=
  match path p with
  | none => some p
  | some r => r

/-- The sign changes of `old_to_new.post_process` (line 372). `flux` tells for which paths the target
node is `flux_loop/flux`. -/
def cocosOld (cv : Conv F) (paths : List (List Name)) (flux : List Name → Bool) (p : List Name) :
    Option (Node (Val F) → Except ConvErr (Node (Val F))) :=
  if p ∈ paths then some (cocosChange cv (flux p)) else none

/-- The sign changes of `new_to_old.post_process` (line 371). -/
def cocosNew (cv : Conv F) (path : List Name → Option (Option (List Name))) (paths : List (List Name))
    (flux : List Name → Bool) (q : List Name) :
    Option (Node (Val F) → Except ConvErr (Node (Val F))) :=
  if q ∈ paths.filterMap (newPath path) then some (cocosChange cv (flux q)) else none

end Verif.Convert
