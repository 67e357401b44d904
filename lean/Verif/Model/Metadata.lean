import Verif.Model.Primitive
/-!
Model of the Data Dictionary XML, of `IDSMetadata` (`/repo/imas/ids_metadata.py`) and of
`find_paths` (`/repo/imas/util.py` lines 314-342).
-/
namespace Verif.DD
open Verif.Ids (Name DataType BaseType LeafMeta Meta MFields parseDataType ParseErr)
open Verif.Path (parsePath PathErr)

abbrev Text := List Char

mutual
/-- An element of the Data Dictionary XML (`xml.etree.ElementTree.Element`): tag, attributes
and children. -/
inductive Xml where
  | mk (tag : Name) (attrs : List (Name × Text)) (kids : Xmls)
inductive Xmls where
  | nil
  | cons (x : Xml) (rest : Xmls)
end

def Xml.tag : Xml → Name
  | .mk t _ _ => t
def Xml.attrs : Xml → List (Name × Text)
  | .mk _ a _ => a
def Xml.kids : Xml → Xmls
  | .mk _ _ k => k

/-- `element.get(key)`. -/
def getAttr : List (Name × Text) → Name → Option Text
  | [], _ => none
  | (k, v) :: r, key => if key = k then some v else getAttr r key

def Xml.get (x : Xml) (key : Name) : Option Text := getAttr x.attrs key

def Xmls.toList : Xmls → List Xml
  | .nil => []
  | .cons x r => x :: r.toList

mutual
/-- `element.iter()`: the element and all its descendants in document order. -/
def Xml.iter : Xml → List Xml
  | .mk t a k => .mk t a k :: k.iter
def Xmls.iter : Xmls → List Xml
  | .nil => []
  | .cons x r => x.iter ++ r.iter
end

/-- `element.get("path", "")`. -/
def Xml.path (x : Xml) : Text := (x.get "path".toList).getD []

/-- `find_paths` (`util.py` lines 314-342) for the element of the searched node; `search`
is `pattern.search(path) is not None`. -/
def findPaths (search : Text → Bool) (x : Xml) : List Text :=
  ((x.iter).map Xml.path).filter search

/-! ### IDSMetadata -/

/-- `IDSType` (`ids_metadata.py` lines 19-50). -/
inductive TimeType where
  | none | dynamic | constant | static
  deriving DecidableEq, Repr

inductive MetaErr where
  | key | value | index | recursion
  deriving DecidableEq, Repr

/-- Attributes of an `IDSMetadata` object. `type` is `none` for IDS toplevels. Not modelled:
`maxoccur`, `path_doc`, documentation, `alternative_coordinates` and other plain
copies of attributes. -/
structure Info where
  name : Name
  ctxPath : Text
  type : Option DataType
  ndim : Nat
  path : Text
  time : TimeType
  timebase : Text
  isDynamic : Bool
  units : Text
  coords : List Text
  sameAs : List Text
  deriving Repr

mutual
/-- An `IDSMetadata` object with its `_children`. -/
inductive MD where
  | mk (info : Info) (kids : MDs)
/-- The mapping `_children`, in insertion order. -/
inductive MDs where
  | nil
  | cons (name : Name) (m : MD) (rest : MDs)
end

def MD.info : MD → Info
  | .mk i _ => i
def MD.kids : MD → MDs
  | .mk _ k => k

/-- `dict[key]`. -/
def MDs.get? : MDs → Name → Option MD
  | .nil, _ => none
  | .cons n m r, key => if key = n then some m else r.get? key

/-- `dict[key] = value`: replace, or append. -/
def MDs.set : MDs → Name → MD → MDs
  | .nil, key, v => .cons key v .nil
  | .cons n m r, key, v => if key = n then .cons n v r else .cons n m (r.set key v)

/-- `IDSType(attrib.get("type", None))` (line 175). -/
def parseTime : Option Text → Except MetaErr TimeType
  | .none => .ok .none
  | some t =>
    if t = "dynamic".toList then .ok .dynamic
    else if t = "constant".toList then .ok .constant
    else if t = "static".toList then .ok .static
    else .error .value

/-- `IDSDataType.parse(attrib.get("data_type", None))` (line 166). -/
def parseType : Option Text → Except MetaErr (Option DataType × Nat)
  | .none => .ok (.none, 0)
  | some t =>
    match parseDataType t with
    | .ok (d, n) => .ok (some d, n)
    | .error .valueError => .error .value
    | .error .indexError => .error .index

/-- Lines 150-156: path relative to the nearest array of structures. -/
def childCtx (ctx : Text) (parent : Option Info) (name : Name) : Text :=
  match parent with
  | .none => []
  | some _ => if ctx = [] then name else ctx ++ '/' :: name

/-- Lines 187-201. -/
def timebaseOf (type : Option DataType) (time : TimeType) (ctxPath : Text) (attr : Text)
    (parent : Option Info) : Text :=
  if type = some .structArray then
    (if time = .dynamic then ctxPath ++ "/time".toList else [])
  else if attr ≠ [] ∧ (time ≠ .dynamic ∨ (parent.map (·.isDynamic)).getD false = true) then []
  else attr

/-- Lines 202-204. -/
def dynamicOf (time : TimeType) (parent : Option Info) : Bool :=
  match parent with
  | .none => false
  | some p => time == .dynamic || p.isDynamic

/-- Lines 178-181. -/
def unitsOf (attr : Text) (parent : Option Info) : Text :=
  match parent with
  | .none => attr
  | some p => if attr = "as_parent".toList then p.units else attr

/-- `f"coordinate{dim + 1}"` and the `_same_as` variant; absent attributes give `""`
(lines 216-228). -/
def coordAttrs (attrs : List (Name × Text)) (suffix : Text) (ndim : Nat) : List Text :=
  (List.range ndim).map fun d =>
    (getAttr attrs ("coordinate".toList ++ Nat.toDigits 10 (d + 1) ++ suffix)).getD []

/-- `(data_type, ndim)` is a key of `_type_map` (lines 81-110). -/
def inTypeMap (type : Option DataType) (ndim : Nat) : Bool :=
  match type with
  | .none => ndim == 0
  | some .structure => ndim == 0
  | some .structArray => ndim == 1
  | some (.base .str) => ndim ≤ 1
  | some (.base _) => ndim ≤ 6

/-- `IDSPath(self.path_string)` (line 170). -/
def checkPath (stack : Nat) (p : Text) : Except MetaErr Unit :=
  match parsePath stack p with
  | .ok _ => .ok ()
  | .error .value => .error .value
  | .error .recursion => .error .recursion

/-- `IDSMetadata.__init__` without the children (lines 135-241). -/
def mkInfo (stack : Nat) (attrs : List (Name × Text)) (ctx : Text) (parent : Option Info) :
    Except MetaErr Info :=
  match getAttr attrs "name".toList with
  | .none => .error .key
  | some name =>
    match parseType (getAttr attrs "data_type".toList) with
    | .error e => .error e
    | .ok (type, ndim) =>
      let path := (getAttr attrs "path".toList).getD []
      match checkPath stack path with
      | .error e => .error e
      | .ok _ =>
        match parseTime (getAttr attrs "type".toList) with
        | .error e => .error e
        | .ok time =>
          let ctxPath := childCtx ctx parent name
          .ok { name, ctxPath, type, ndim, path, time,
                timebase := timebaseOf type time ctxPath
                  ((getAttr attrs "timebasepath".toList).getD []) parent
                isDynamic := dynamicOf time parent
                units := unitsOf ((getAttr attrs "units".toList).getD []) parent
                coords := coordAttrs attrs [] ndim
                sameAs := coordAttrs attrs "_same_as".toList ndim }

mutual
/-- `IDSMetadata(structure_xml, context_path, parent_meta)` (lines 135-258). -/
def mkMeta (stack : Nat) : Xml → Text → Option Info → Except MetaErr MD
  | .mk _ attrs kids, ctx, parent =>
    match mkInfo stack attrs ctx parent with
    | .error e => .error e
    | .ok info =>
      let ctx' := if info.type = some .structArray then [] else info.ctxPath
      match mkKids stack kids ctx' info .nil with
      | .error e => .error e
      | .ok ks => if inTypeMap info.type info.ndim then .ok (.mk info ks) else .error .key
/-- The dict comprehension of lines 244-252; the key `xml_child.get("name")` is the name of
the child's metadata. -/
def mkKids (stack : Nat) : Xmls → Text → Info → MDs → Except MetaErr MDs
  | .nil, _, _, acc => .ok acc
  | .cons x r, ctx, info, acc =>
    match mkMeta stack x ctx (some info) with
    | .error e => .error e
    | .ok m => mkKids stack r ctx info (acc.set m.info.name m)
end

/-- `get_toplevel_metadata` (lines 59-75). -/
def toplevelMeta (stack : Nat) (x : Xml) : Except MetaErr MD := mkMeta stack x [] none

/-- `re.split("[./]", path)` (line 280). -/
def splitParts : Text → List Text
  | [] => [[]]
  | c :: cs =>
    if c = '.' ∨ c = '/' then [] :: splitParts cs
    else match splitParts cs with
      | [] => [[c]]          -- unreachable
      | p :: ps => (c :: p) :: ps

/-- The loop of lines 280-287; `none` is `KeyError`. -/
def descend : MD → List Text → Option MD
  | m, [] => some m
  | m, p :: ps =>
    match m.kids.get? p with
    | none => none
    | some k => descend k ps

/-- `IDSMetadata.__getitem__` (lines 278-288). -/
def MD.getitem (m : MD) (path : Text) : Option MD := descend m (splitParts path)

mutual
/-- The reduced metadata of `Verif.Model.Tree` that belongs to an `IDSMetadata` object. -/
def MD.toMeta : MD → Meta
  | .mk i k =>
    match i.type with
    | none => .struct k.toMFields
    | some .structure => .struct k.toMFields
    | some .structArray => .aos k.toMFields
    | some (.base t) => .leaf ⟨t, i.ndim, i.time == .dynamic⟩
def MDs.toMFields : MDs → MFields
  | .nil => .nil
  | .cons n m r => .cons n m.toMeta r.toMFields
end

end Verif.DD
